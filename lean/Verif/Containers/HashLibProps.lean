import Verif.Containers.HashLib

/-
Claims about the `hash::` library: C95.
-/
namespace Wrench.HashLib
open Wrench.HashTable

variable {V K : Type}

/-! ### Which accesses reached which table -/

/-- What has happened: which variable holds which table, and the accesses that reached each table
since it was made. -/
structure Trace (V K : Type) where
  next : Nat
  vars : Nat → Option Nat
  logs : Nat → Option (List (Op V K))

def Trace.note (s : Trace V K) (x : Nat) (op : Op V K) : Trace V K :=
  match s.vars x with
  | none => s
  | some o => { s with logs := fun o' => if o' = o then (s.logs o).map (· ++ [op]) else s.logs o' }

/-- `hash::clear` makes a new table in its variable; `y = x` shares the table; everything else reaches
the table its variable holds. -/
def Trace.after (s : Trace V K) : Call V K → Trace V K
  | .clear x => { next := s.next + 1, vars := fun y => if y = x then some s.next else s.vars y,
                  logs := fun o => if o = s.next then some [] else s.logs o }
  | .count _ => s
  | .add x v h k => s.note x (.write h k v)
  | .remove x h => s.note x (.remove h)
  | .exists_ x h => s.note x (.check h)
  | .put x h k v => s.note x (.write h k v)
  | .get x h k => s.note x (.read h k)
  | .copy y x => { s with vars := fun z => if z = y then s.vars x else s.vars z }

def trace (cs : List (Call V K)) : Trace V K :=
  cs.foldl Trace.after ⟨0, fun _ => none, fun _ => none⟩

/-- The accesses the table in the variable `x` has seen; `none` if there is no table in it. -/
def logOf (cs : List (Call V K)) (x : Nat) : Option (List (Op V K)) :=
  ((trace cs).vars x).bind (trace cs).logs

/-- The world before the script: no tables, variables with other values. -/
def Fresh (w : World V K) : Prop :=
  w.next = 0 ∧ (∀ o, w.objs o = none) ∧ ∀ x, ∃ v, w.vars x = .other v

/-! ### Every table is the one of its own history -/

def varOf : Var V → Option Nat
  | .tbl o => some o
  | .other _ => none

structure Sim (dv : V) (dk : K) (w : World V K) (s : Trace V K) : Prop where
  next : w.next = s.next
  vars : ∀ x, varOf (w.vars x) = s.vars x
  none_ : ∀ o, s.logs o = none → w.objs o = none
  some_ : ∀ o l, s.logs o = some l → ∃ t os, w.objs o = some t ∧ history dv dk 0 l = some (t, os)

theorem run_snoc {dv : V} {dk : K} : ∀ (l : List (Op V K)) {t t' t'' : HT V K} {os : List (Out V)} {op : Op V K}
    {o : Out V}, run dv dk t l = some (t', os) → step dv dk t' op = some (t'', o) →
    run dv dk t (l ++ [op]) = some (t'', os ++ [o])
  | [], t, t', t'', os, op, o, h, hs => by
    simp only [run, Option.some.injEq, Prod.mk.injEq] at h
    obtain ⟨rfl, rfl⟩ := h
    simp [run, hs]
  | p :: l, t, t', t'', os, op, o, h, hs => by
    simp only [run, List.cons_append] at h ⊢
    cases hp : step dv dk t p with
    | none => rw [hp] at h; cases h
    | some q =>
      obtain ⟨t1, o1⟩ := q
      rw [hp] at h
      simp only at h ⊢
      cases hr : run dv dk t1 l with
      | none => rw [hr] at h; cases h
      | some q =>
        obtain ⟨t2, o2⟩ := q
        rw [hr] at h
        simp only [Option.some.injEq, Prod.mk.injEq] at h
        obtain ⟨rfl, rfl⟩ := h
        rw [run_snoc l hr hs]
        rfl

theorem history_snoc {dv : V} {dk : K} {l : List (Op V K)} {t t' : HT V K} {os : List (Out V)} {op : Op V K}
    {o : Out V} (h : history dv dk 0 l = some (t, os)) (hs : step dv dk t op = some (t', o)) :
    history dv dk 0 (l ++ [op]) = some (t', os ++ [o]) := by
  unfold history at h ⊢
  cases hi : init dv dk 0 with
  | none => rw [hi] at h; cases h
  | some t0 =>
    rw [hi] at h
    exact run_snoc l h hs

/-- The answer of a call that reaches a table through an access. -/
theorem sim_note {dv : V} {dk : K} {w : World V K} {s : Trace V K} (S : Sim dv dk w s) {x o : Nat} {t t' : HT V K}
    {op : Op V K} {out : Out V} (hx : ifHash w x = some (o, t)) (hs : step dv dk t op = some (t', out)) :
    Sim dv dk (w.setObj o t') (s.note x op) := by
  unfold ifHash at hx
  have hv : s.vars x = some o ∧ w.objs o = some t := by
    have := S.vars x
    cases hw : w.vars x with
    | other v => rw [hw] at hx; cases hx
    | tbl o' =>
      rw [hw] at hx this
      cases ho : w.objs o' with
      | none => simp [ho] at hx
      | some t1 =>
        simp [ho] at hx
        obtain ⟨rfl, rfl⟩ := hx
        exact ⟨this.symm, ho⟩
  unfold Trace.note
  rw [hv.1]
  refine ⟨S.next, S.vars, ?_, ?_⟩
  · intro o' h
    simp only at h
    by_cases g : o' = o
    · subst g
      rw [if_pos rfl] at h
      cases hl : s.logs o' with
      | none => rw [S.none_ o' hl] at hv; exact absurd hv.2 (by simp)
      | some l => rw [hl] at h; cases h
    · rw [if_neg g] at h
      simp only [World.setObj, if_neg g]
      exact S.none_ o' h
  · intro o' l h
    simp only at h
    by_cases g : o' = o
    · subst g
      rw [if_pos rfl] at h
      cases hl : s.logs o' with
      | none => rw [hl] at h; cases h
      | some l0 =>
        rw [hl] at h
        simp only [Option.map_some, Option.some.injEq] at h
        subst h
        obtain ⟨t1, os, h1, h2⟩ := S.some_ o' l0 hl
        rw [hv.2] at h1
        cases h1
        exact ⟨t', os ++ [out], by simp [World.setObj], history_snoc h2 hs⟩
    · rw [if_neg g] at h
      simp only [World.setObj, if_neg g]
      exact S.some_ o' l h

theorem note_none {dv : V} {dk : K} {w : World V K} {s : Trace V K} (S : Sim dv dk w s) {x : Nat}
    (hx : ifHash w x = none) (op : Op V K) : Sim dv dk w (s.note x op) := by
  unfold ifHash at hx
  unfold Trace.note
  have := S.vars x
  cases hw : w.vars x with
  | other v =>
    rw [hw] at this
    rw [← this]
    exact S
  | tbl o =>
    rw [hw] at hx this
    rw [← this]
    cases ho : w.objs o with
    | some t => simp [ho] at hx
    | none =>
      have hl : s.logs o = none := by
        cases hl : s.logs o with
        | none => rfl
        | some l =>
          obtain ⟨t, os, h1, _⟩ := S.some_ o l hl
          rw [ho] at h1
          cases h1
      have : (fun o' => if o' = o then (s.logs o).map (· ++ [op]) else s.logs o') = s.logs := by
        funext o'
        by_cases g : o' = o
        · subst g; simp [hl]
        · simp [g]
      simp only [varOf, this]
      exact S

theorem call_sim {dv : V} {dk : K} {addr : Nat → Nat → Nat} {w w' : World V K} {s : Trace V K} {c : Call V K}
    {a : Ans V} (S : Sim dv dk w s) (h : call dv dk addr w c = some (w', a)) : Sim dv dk w' (s.after c) := by
  cases c with
  | clear x =>
    simp only [call] at h
    cases hi : init dv dk 0 with
    | none => rw [hi] at h; cases h
    | some t =>
      rw [hi] at h
      simp only [Option.some.injEq, Prod.mk.injEq] at h
      obtain ⟨rfl, -⟩ := h
      refine ⟨by simp [Trace.after, S.next], ?_, ?_, ?_⟩
      · intro y
        simp only [Trace.after]
        by_cases g : y = x
        · simp [g, varOf, S.next]
        · simp only [if_neg g]; exact S.vars y
      · intro o ho
        simp only [Trace.after] at ho
        by_cases g : o = s.next
        · simp [g] at ho
        · rw [if_neg g] at ho
          simp only [S.next, if_neg g]
          exact S.none_ o ho
      · intro o l ho
        simp only [Trace.after] at ho
        by_cases g : o = s.next
        · subst g
          simp only [if_true, Option.some.injEq] at ho
          subst ho
          exact ⟨t, [], by simp [S.next], by simp [history, hi, run]⟩
        · rw [if_neg g] at ho
          simp only [S.next, if_neg g]
          exact S.some_ o l ho
  | count x =>
    simp only [call] at h
    cases hx : ifHash w x with
    | none => rw [hx] at h; simp only [Option.some.injEq, Prod.mk.injEq] at h; rw [← h.1]; exact S
    | some p => rw [hx] at h; simp only [Option.some.injEq, Prod.mk.injEq] at h; rw [← h.1]; exact S
  | add x v hh k =>
    simp only [call] at h
    cases hx : ifHash w x with
    | none =>
      rw [hx] at h; simp only [Option.some.injEq, Prod.mk.injEq] at h; rw [← h.1]; exact note_none S hx _
    | some p =>
      obtain ⟨o, t⟩ := p
      rw [hx] at h
      simp only at h
      cases hg : getIndexOfHit dv dk t hh with
      | none => rw [hg] at h; cases h
      | some q =>
        obtain ⟨t', i⟩ := q
        rw [hg] at h
        simp only [Option.some.injEq, Prod.mk.injEq] at h
        rw [← h.1]
        exact sim_note S hx (op := .write hh k v) (out := .done) (by simp only [step, hg])
  | remove x hh =>
    simp only [call] at h
    cases hx : ifHash w x with
    | none =>
      rw [hx] at h; simp only [Option.some.injEq, Prod.mk.injEq] at h; rw [← h.1]; exact note_none S hx _
    | some p =>
      obtain ⟨o, t⟩ := p
      rw [hx] at h
      simp only [Option.some.injEq, Prod.mk.injEq] at h
      rw [← h.1]
      exact sim_note S hx (op := .remove hh) rfl
  | exists_ x hh =>
    simp only [call] at h
    cases hx : ifHash w x with
    | none =>
      rw [hx] at h; simp only [Option.some.injEq, Prod.mk.injEq] at h; rw [← h.1]; exact note_none S hx _
    | some p =>
      obtain ⟨o, t⟩ := p
      rw [hx] at h
      simp only [Option.some.injEq, Prod.mk.injEq] at h
      rw [← h.1]
      exact sim_note S hx (op := .check hh) rfl
  | put x hh k v =>
    simp only [call] at h
    cases hx : ifHash w x with
    | none =>
      rw [hx] at h; simp only [Option.some.injEq, Prod.mk.injEq] at h; rw [← h.1]; exact note_none S hx _
    | some p =>
      obtain ⟨o, t⟩ := p
      rw [hx] at h
      simp only at h
      cases hg : step dv dk t (.write hh k v) with
      | none => rw [hg] at h; cases h
      | some q =>
        obtain ⟨t', out⟩ := q
        rw [hg] at h
        simp only [Option.some.injEq, Prod.mk.injEq] at h
        rw [← h.1]
        exact sim_note S hx hg
  | get x hh k =>
    simp only [call] at h
    cases hx : ifHash w x with
    | none =>
      rw [hx] at h; simp only [Option.some.injEq, Prod.mk.injEq] at h; rw [← h.1]; exact note_none S hx _
    | some p =>
      obtain ⟨o, t⟩ := p
      rw [hx] at h
      simp only at h
      cases hg : step dv dk t (.read hh k) with
      | none => rw [hg] at h; cases h
      | some q =>
        obtain ⟨t', out⟩ := q
        rw [hg] at h
        cases out with
        | value v =>
          simp only [Option.some.injEq, Prod.mk.injEq] at h
          rw [← h.1]
          exact sim_note S hx hg
        | done => cases h
        | bool b => cases h
  | copy y x =>
    simp only [call, Option.some.injEq, Prod.mk.injEq] at h
    rw [← h.1]
    refine ⟨S.next, ?_, S.none_, S.some_⟩
    intro z
    simp only [Trace.after]
    by_cases g : z = y
    · simp only [if_pos g]; exact S.vars x
    · simp only [if_neg g]; exact S.vars z

theorem calls_sim {dv : V} {dk : K} {addr : Nat → Nat → Nat} : ∀ (cs : List (Call V K)) {w w' : World V K}
    {s : Trace V K} {as : List (Ans V)}, Sim dv dk w s → calls dv dk addr w cs = some (w', as) →
    Sim dv dk w' (cs.foldl Trace.after s)
  | [], w, w', s, as, S, h => by
    simp only [calls, Option.some.injEq, Prod.mk.injEq] at h
    rw [← h.1]; exact S
  | c :: cs, w, w', s, as, S, h => by
    simp only [calls] at h
    cases hc : call dv dk addr w c with
    | none => rw [hc] at h; cases h
    | some p =>
      obtain ⟨w1, a⟩ := p
      rw [hc] at h
      simp only at h
      cases hr : calls dv dk addr w1 cs with
      | none => rw [hr] at h; cases h
      | some q =>
        obtain ⟨w2, l⟩ := q
        rw [hr] at h
        simp only [Option.some.injEq, Prod.mk.injEq] at h
        rw [← h.1]
        exact calls_sim cs (call_sim S hc) hr

theorem calls_snoc {dv : V} {dk : K} {addr : Nat → Nat → Nat} : ∀ (cs : List (Call V K)) {c : Call V K}
    {w w'' : World V K} {as : List (Ans V)}, calls dv dk addr w (cs ++ [c]) = some (w'', as) →
    ∃ w' as' a, calls dv dk addr w cs = some (w', as') ∧ call dv dk addr w' c = some (w'', a) ∧
      as.getLast? = some a
  | [], c, w, w'', as, h => by
    simp only [List.nil_append, calls] at h
    cases hc : call dv dk addr w c with
    | none => rw [hc] at h; cases h
    | some p =>
      obtain ⟨w1, a⟩ := p
      rw [hc] at h
      simp only [Option.some.injEq, Prod.mk.injEq] at h
      obtain ⟨rfl, rfl⟩ := h
      exact ⟨w, [], a, rfl, hc, rfl⟩
  | d :: cs, c, w, w'', as, h => by
    simp only [List.cons_append, calls] at h
    cases hc : call dv dk addr w d with
    | none => rw [hc] at h; cases h
    | some p =>
      obtain ⟨w1, a⟩ := p
      rw [hc] at h
      simp only at h
      cases hr : calls dv dk addr w1 (cs ++ [c]) with
      | none => rw [hr] at h; cases h
      | some q =>
        obtain ⟨w2, l⟩ := q
        rw [hr] at h
        simp only [Option.some.injEq, Prod.mk.injEq] at h
        obtain ⟨rfl, rfl⟩ := h
        obtain ⟨w', as', a', h1, h2, h3⟩ := calls_snoc cs hr
        refine ⟨w', a :: as', a', by simp [calls, hc, h1], h2, ?_⟩
        cases l with
        | nil => cases h3
        | cons b l => rw [List.getLast?_cons_cons]; exact h3

/-- **Every table is the one of its own history**: what the variable `x` holds after any script is a
table exactly if a table was made for it, and then it is the table that results from the accesses that
reached it, whichever variables and functions they came through. -/
theorem C95_own_history (dv : V) (dk : K) (addr : Nat → Nat → Nat) (w w' : World V K) (cs : List (Call V K))
    (as : List (Ans V)) (hw : Fresh w) (h : calls dv dk addr w cs = some (w', as)) (x : Nat) :
    (logOf cs x = none → ifHash w' x = none) ∧
    ∀ l, logOf cs x = some l →
      ∃ o t os, (trace cs).vars x = some o ∧ ifHash w' x = some (o, t) ∧ history dv dk 0 l = some (t, os) := by
  have S0 : Sim dv dk w ⟨0, fun _ => none, fun _ => none⟩ := by
    refine ⟨hw.1, ?_, fun o _ => hw.2.1 o, fun o l h => by cases h⟩
    intro x
    obtain ⟨v, hv⟩ := hw.2.2 x
    simp [hv, varOf]
  have S : Sim dv dk w' (trace cs) := calls_sim cs S0 h
  have hv := S.vars x
  unfold ifHash logOf
  cases hx : w'.vars x with
  | other v =>
    rw [hx] at hv
    rw [← hv]
    exact ⟨fun _ => rfl, fun l hl => by cases hl⟩
  | tbl o =>
    rw [hx] at hv
    rw [← hv]
    simp only [varOf, Option.bind_some]
    refine ⟨fun hn => by simp [S.none_ o hn], fun l hl => ?_⟩
    obtain ⟨t, os, h1, h2⟩ := S.some_ o l hl
    exact ⟨o, t, os, rfl, by simp [h1], h2⟩

/-! ### Answers -/

/-- Where an entry can lie: 8-byte aligned, and not at a multiple of 4 GB. -/
def Plausible (addr : Nat → Nat → Nat) : Prop :=
  ∀ o g, addr o g % 8 = 0 ∧ ∀ i, (addr o g + 32 * i) % 4294967296 ≠ 0

theorem lowWord_spec {addr : Nat → Nat → Nat} (ha : Plausible addr) (o : Nat) (t : HT V K) (r : Option Nat) :
    (lowWord addr o t r ≠ 0#32 ↔ r.isSome = true) ∧ lowWord addr o t r ≠ 1#32 := by
  cases r with
  | none => simp [lowWord]
  | some i =>
    obtain ⟨h1, h2⟩ := ha o t.fwds.length
    have h2 := h2 i
    constructor
    · simp only [lowWord, Option.isSome_some, iff_true]
      intro h
      have := congrArg BitVec.toNat h
      simp only [BitVec.toNat_ofNat] at this
      omega
    · simp only [lowWord]
      intro h
      have := congrArg BitVec.toNat h
      simp only [BitVec.toNat_ofNat] at this
      omega

/-- The existence of a key after a history. -/
theorem exists_touched {dv : V} {dk : K} {l : List (Op V K)} {t : HT V K} {os : List (Out V)} {h : Word32}
    (hn : ∀ op ∈ l, op.hash ≠ nullHash) (hh : h ≠ nullHash) (hl : history dv dk 0 l = some (t, os)) (b : Bool) :
    (HashTable.exists_ t h b).2.isSome = touched h l false := by
  have := C06_exists_exact dv dk 0 l h hn hh _ _ (history_snoc hl (op := .check h) rfl)
  simp only [List.getLast?_append, List.getLast?_singleton, Option.some_or, Option.some.injEq,
    Out.bool.injEq] at this
  rw [← this]
  unfold HashTable.exists_
  cases probe t.mod t.slots h false <;> rfl

/-- **`hash::exists` and `hash::remove`** answer a number that is not zero exactly if the key was there
(in the table of the variable, through whatever variable it was put), `hash::remove` removes it, and the
number is never one (the documentation says "1 if the key was found, otherwise 0": what is returned is
part of an address). -/
theorem C95_exists_partial (dv : V) (dk : K) (addr : Nat → Nat → Nat) (ha : Plausible addr) (w w' : World V K)
    (cs : List (Call V K)) (as : List (Ans V)) (hw : Fresh w) (x : Nat) (h : Word32) (rem : Bool)
    (l : List (Op V K)) (hl : logOf cs x = some l) (hn : ∀ op ∈ l, op.hash ≠ nullHash) (hh : h ≠ nullHash)
    (hr : calls dv dk addr w (cs ++ [if rem then .remove x h else .exists_ x h]) = some (w', as)) :
    ∃ n, as.getLast? = some (.num n) ∧ (n ≠ 0#32 ↔ touched h l false = true) ∧ n ≠ 1#32 := by
  obtain ⟨w1, as1, a, h1, h2, h3⟩ := calls_snoc cs hr
  obtain ⟨o, t, os, -, ht, hy⟩ := (C95_own_history dv dk addr w w1 cs as1 hw h1 x).2 l hl
  cases rem
  · simp only [Bool.false_eq_true, if_false, call, ht, Option.some.injEq, Prod.mk.injEq] at h2
    refine ⟨_, by rw [h3, ← h2.2], ?_, (lowWord_spec ha o t _).2⟩
    rw [← exists_touched hn hh hy false]
    exact (lowWord_spec ha o t _).1
  · simp only [if_true, call, ht, Option.some.injEq, Prod.mk.injEq] at h2
    refine ⟨_, by rw [h3, ← h2.2], ?_, (lowWord_spec ha o t _).2⟩
    rw [← exists_touched hn hh hy true]
    exact (lowWord_spec ha o t _).1

/-- **`hash::add( x, v, k )`** gives `v`, and reading a key gives what was put under it last, by
`hash::add` or by assignment, through any variable that holds the table, unless it was removed since. -/
theorem C95_add (dv : V) (dk : K) (addr : Nat → Nat → Nat) (w w' : World V K)
    (cs : List (Call V K)) (as : List (Ans V)) (hw : Fresh w) (x : Nat) (h : Word32) (k : K) (v : V)
    (l : List (Op V K)) (hl : logOf cs x = some l) :
    (calls dv dk addr w (cs ++ [.add x v h k]) = some (w', as) → as.getLast? = some (.val v)) ∧
    (calls dv dk addr w (cs ++ [.get x h k]) = some (w', as) → (∀ op ∈ l, op.hash ≠ nullHash) →
      h ≠ nullHash → latest h l none = some v → as.getLast? = some (.val v)) := by
  constructor
  · intro hr
    obtain ⟨w1, as1, a, h1, h2, h3⟩ := calls_snoc cs hr
    obtain ⟨o, t, os, -, ht, hy⟩ := (C95_own_history dv dk addr w w1 cs as1 hw h1 x).2 l hl
    simp only [call, ht] at h2
    cases hg : getIndexOfHit dv dk t h with
    | none => rw [hg] at h2; cases h2
    | some q =>
      rw [hg] at h2
      simp only [Option.some.injEq, Prod.mk.injEq] at h2
      rw [h3, ← h2.2]
      simp [upd]
  · intro hr hn hh hv
    obtain ⟨w1, as1, a, h1, h2, h3⟩ := calls_snoc cs hr
    obtain ⟨o, t, os, -, ht, hy⟩ := (C95_own_history dv dk addr w w1 cs as1 hw h1 x).2 l hl
    simp only [call, ht] at h2
    cases hg : step dv dk t (.read h k) with
    | none => rw [hg] at h2; cases h2
    | some q =>
      obtain ⟨t', out⟩ := q
      have := C05_last_write_wins dv dk 0 l h k v hn hh hv _ _ (history_snoc hy hg)
      simp only [List.getLast?_append, List.getLast?_singleton, Option.some_or, Option.some.injEq] at this
      subst this
      rw [hg] at h2
      simp only [Option.some.injEq, Prod.mk.injEq] at h2
      rw [h3, ← h2.2]

/-- **`hash::count`** is the number of distinct keys present, less one for every time the table grew. -/
theorem C95_count_partial (dv : V) (dk : K) (addr : Nat → Nat → Nat) (w w' : World V K)
    (cs : List (Call V K)) (as : List (Ans V)) (hw : Fresh w) (x : Nat)
    (l : List (Op V K)) (hl : logOf cs x = some l) (hn : ∀ op ∈ l, op.hash ≠ nullHash)
    (hr : calls dv dk addr w (cs ++ [.count x]) = some (w', as)) :
    ∃ n o t, as.getLast? = some (.num n) ∧ ifHash w' x = some (o, t) ∧
      n + BitVec.ofNat 32 (t.fwds.length - 1) = BitVec.ofNat 32 (presentKeys l).length := by
  obtain ⟨w1, as1, a, h1, h2, h3⟩ := calls_snoc cs hr
  obtain ⟨o, t, os, -, ht, hy⟩ := (C95_own_history dv dk addr w w1 cs as1 hw h1 x).2 l hl
  simp only [call, ht, Option.some.injEq, Prod.mk.injEq] at h2
  refine ⟨t.size, o, t, by rw [h3, ← h2.2], by rw [← h2.1]; exact ht, ?_⟩
  exact C07_count_partial dv dk l hn t os hy

/-- **Without a table in the variable** the functions (other than `hash::clear`) answer zero and do
nothing. -/
theorem C95_no_table (dv : V) (dk : K) (addr : Nat → Nat → Nat) (w w' : World V K)
    (cs : List (Call V K)) (as : List (Ans V)) (hw : Fresh w) (x : Nat) (h : Word32) (k : K) (v : V)
    (hl : logOf cs x = none) (c : Call V K)
    (hc : c = .count x ∨ c = .add x v h k ∨ c = .remove x h ∨ c = .exists_ x h)
    (hr : calls dv dk addr w cs = some (w', as)) : call dv dk addr w' c = some (w', .num 0#32) := by
  have := (C95_own_history dv dk addr w w' cs as hw hr x).1 hl
  rcases hc with rfl | rfl | rfl | rfl <;> simp [call, this]

end Wrench.HashLib
