import Verif.Prog.Step

/-
What the emitter makes of conditions and assignments.
-/
namespace Wrench.Prog
open Wrench.Vm Wrench.Vm.Jump Wrench.Peep Wrench.Whole Wrench.Ops

/-- Bytes of instructions, first instruction first. -/
def encF (is : List (Op × List Byte)) : List Byte := is.flatMap fun p => p.1.code :: p.2

theorem encF_append (is js : List (Op × List Byte)) : encF (is ++ js) = encF is ++ encF js := by
  simp [encF]

theorem enc_reverse (ris : List (Op × List Byte)) : (enc ris).reverse = encF ris.reverse := by
  induction ris with
  | nil => rfl
  | cons p ris ih => simp [enc, ih, encF]

/-- Instructions that do not branch, one after the other. -/
def ORun (E : Env) : List (Op × List Byte) → M → M → Prop
  | [], m, m' => m' = m
  | p :: is, m, m' => ∃ a m1, vmBranch p.1 = none ∧ act p.1 = some a ∧ p.2.length = dlen a ∧
      exec E 2 a p.2 m = .ok (.next m1) ∧ ORun E is m1 m'

theorem ORun.append {E : Env} {is js : List (Op × List Byte)} {m m1 m' : M} (h : ORun E is m m1) (h' : ORun E js m1 m') :
    ORun E (is ++ js) m m' := by
  induction is generalizing m with
  | nil => cases h; exact h'
  | cons p is ih =>
    obtain ⟨a, m2, h1, h2, h3, h4, h5⟩ := h
    exact ⟨a, m2, h1, h2, h3, h4, ih h5⟩

theorem ORun.one {E : Env} {op : Op} {d : List Byte} {a : Act} {m m' : M} (h1 : vmBranch op = none) (h2 : act op = some a)
    (h3 : d.length = dlen a) (h4 : exec E 2 a d m = .ok (.next m')) : ORun E [(op, d)] m m' :=
  ⟨a, m', h1, h2, h3, h4, rfl⟩

def isBr : Act → Bool
  | .cmp _ _ _ true | .bz _ => true
  | _ => false

theorem branch_act {o : Op} {a : Act} (h : act o = some a) (hb : isBr a = false) : vmBranch o = none := by
  have := Op.all_of (p := fun o => ((act o).map isBr).getD true = false → vmBranch o = none) (by decide +kernel) o
  rw [h] at this
  exact this hb

theorem astep_plain {ρ : Vars} {a : Act} {d : List Byte} {s s' : AS} (h : astep ρ a d s = some s') : isBr a = false := by
  cases a with
  | cmp c inv src bz =>
    cases bz with
    | false => rfl
    | true => cases src <;> exact absurd h (by simp [astep])
  | bz s => exact absurd h (by simp [astep])
  | _ => rfl

theorem orun_fwd {E : Env} {ρ : Vars} {m0 m : M} {ris : List (Op × List Byte)} {s t : AS} (h0 : Start ρ m0)
    (h : Sim m0 s m) (hok : ∀ p ∈ ris, OkIns p) (hr : orun ρ ris s = some t) :
    ∃ m', ORun E ris.reverse m m' ∧ Sim m0 t m' := by
  induction ris generalizing t with
  | nil => cases hr; exact ⟨m, rfl, h⟩
  | cons p ris ih =>
    simp only [orun, Option.bind_eq_some_iff] at hr
    obtain ⟨s1, h1, h2⟩ := hr
    obtain ⟨m1, h3, h4⟩ := ih (fun q hq => hok q (by simp [hq])) h1
    obtain ⟨a, ha, hd⟩ := (hok p (by simp)).len
    simp only [ostep, ha, Option.bind_some] at h2
    obtain ⟨m2, h5, h6⟩ := astep_exec (E := E) h0 h4 h2
    refine ⟨m2, ?_, h6⟩
    rw [List.reverse_cons]
    exact h3.append (.one (branch_act ha (astep_plain h2)) ha hd h5)

/-! ### Expressions -/

/-- The emitter's cache never goes stale inside the expression, and its operands are put in place (C111). -/
def Good (neg : Word32 → Word32) (e : IE) : Prop :=
  e.ok ∧ e.clear (itemCalm neg true) ∧ (compileCalm neg true e).isSome = true

/-- The code computes the value of the expression. -/
structure CodeOk (c : Code) (e : IE) : Prop where
  small : Small c
  code : ∀ ρ, ∃ ris, Inv c ris ∧ ∀ w, e.eval ρ = some w →
    ∃ x r, orun ρ ris ⟨[], none⟩ = some ⟨[x], r⟩ ∧ x.val ρ = some w

theorem Good.code {neg : Word32 → Word32} {e : IE} (h : Good neg e) :
    ∃ c, Whole.compile neg true e = some c ∧ CodeOk c e := by
  obtain ⟨ho, hc, hs⟩ := h
  obtain ⟨c, h⟩ := Option.isSome_iff_exists.mp hs
  have key : ∀ ρ : Vars, Small c ∧ ∃ ris, Inv c ris ∧ ∀ w, e.eval ρ = some w →
      ∃ x r, orun ρ ris ⟨[], none⟩ = some ⟨[x], r⟩ ∧ x.val ρ = some w := by
    intro ρ
    have h' := h
    unfold compileCalm compileWith at h'
    rw [Option.bind_eq_some_iff] at h'
    obtain ⟨T, h1, h2⟩ := h'
    obtain ⟨h3, h4⟩ := prep_good (fine_calm ρ neg true) ho hc.2 h1
    obtain ⟨hsm, ris, h5, h6⟩ := finish_good (fine_calm ρ neg true) ((prep_shape h1).2.2.2 ho) (hc.1 T h1) h3 h2
    refine ⟨hsm, ris, h5, fun w hw => ?_⟩
    obtain ⟨ss, r, h7, h8⟩ := h6 (.res (some w)) w (by rw [h4]; exact hw) rfl ⟨[], none⟩
    cases h8 with
    | @cons x s _ ss h13 h14 =>
      cases h14
      obtain ⟨w', h15, h16⟩ := h13
      cases h15
      exact ⟨s, r, h7, h16⟩
  exact ⟨c, compile_mono calm_item h, (key fun _ _ => none).1, fun ρ => (key ρ).2⟩

/-- The compound assignments that leave nothing on the stack. -/
def popped : Op → Bool
  | .AddAssignAndPop | .SubtractAssignAndPop | .ModAssignAndPop | .MultiplyAssignAndPop | .DivideAssignAndPop
  | .ORAssignAndPop | .ANDAssignAndPop | .XORAssignAndPop | .RightShiftAssignAndPop | .LeftShiftAssignAndPop => true
  | _ => false

/-- The opcodes that end a run of the top level and of a function. -/
def final : Bool → Op → Bool
  | true, .GlobalStop => true
  | false, .Return => true
  | false, .ReturnZero => true
  | _, _ => false

/-- A branch, a compound assignment or a return. -/
def still (o : Op) : Prop := vmBranch o ≠ none ∨ popped o = true ∨ ∃ g, final g o = true

instance (o : Op) : Decidable (still o) := by unfold still; exact inferInstance

/-- The last instruction in the cache of the unit is a branch, a compound assignment or a return, if anything. -/
def quiet (rops : List Op) : Prop := ∀ o, rops.head? = some o → still o

theorem quiet_nil : quiet [] := by rintro o ho; cases ho

theorem quiet_append {r s : List Op} (h : quiet r) (h' : quiet s) : quiet (r ++ s) := by
  cases r with
  | nil => exact h'
  | cons a r => exact h

theorem quiet_index {r : List Op} (h : quiet r) (o : Op) (ho : r.head? = some o) :
    o ≠ .Index ∧ o ≠ .IndexLiteral8 ∧ o ≠ .IndexLiteral16 := by
  refine ⟨?_, ?_, ?_⟩ <;> (rintro rfl; rcases h _ ho with h | h | ⟨g, h⟩; exact absurd rfl h; cases h; cases g <;> cases h)

/-- Appended instructions end where the cache says. -/
theorem split_last {c : Code} {ris : List (Op × List Byte)} {last : Op} {rest : List Op} (h : Inv c ris)
    (hr : c.rops = last :: rest) : ∃ d ris', ris = (last, d) :: ris' ∧ OkIns (last, d) ∧
      c.rall = d.reverse ++ last.code :: enc ris' := by
  have hd := h.desc
  rw [hr] at hd
  obtain ⟨d, ris', rfl, -⟩ := hd
  exact ⟨d, ris', rfl, h.ok _ (by simp), h.enc⟩

theorem split_unique {a b : List Byte} {x : Byte} {l m : List Byte} (h : a.reverse ++ x :: l = b.reverse ++ x :: m)
    (hl : a.length = b.length) : a = b ∧ l = m := by
  obtain ⟨h1, h2⟩ := List.append_inj h (by simpa using hl)
  exact ⟨List.reverse_inj.mp h1, by simpa using h2⟩

/-! ### Conditions -/

theorem put_at {l r : List Byte} {x y : Byte} : put (l ++ x :: r) l.length y = some (l ++ y :: r) := by
  unfold put
  rw [if_pos (by simp)]
  simp

theorem cmpBZ_turns {o op : Op} {k : Nat} (h : cmpBZ o = some (op, k)) : ∃ a b, act o = some a ∧ act op = some b ∧
    Turns a b ∧ dlen a = k ∧ dlen b = k + 2 ∧ vmBranch op = some (k, .w16) ∧ viaSource op = true ∧ testOf op = op ∧
    op ≠ .RelativeJump := by
  unfold cmpBZ at h
  split at h <;> first
    | (cases h; exact ⟨_, _, rfl, rfl, .cmp _ _ _, rfl, rfl, rfl, rfl, rfl, by decide⟩)
    | (cases h; exact ⟨_, _, rfl, rfl, .load _, rfl, rfl, rfl, rfl, rfl, by decide⟩)
    | cases h

theorem cmpB_turns {o op : Op} (h : cmpB o = some op) : ∃ a b, act o = some a ∧ act op = some b ∧
    Turns a b ∧ dlen a = 0 ∧ dlen b = 2 ∧ vmBranch op = some (0, .w16) ∧ viaSource op = true ∧ testOf op = op ∧
    op ≠ .RelativeJump := by
  unfold cmpB at h
  split at h <;> first
    | (cases h; exact ⟨_, _, rfl, rfl, .cmp _ _ _, rfl, rfl, rfl, rfl, rfl, by decide⟩)
    | cases h

/-- The code of a condition: instructions, then a branch with its operands. -/
structure CondOk (e : IE) (pre : List Byte) (op : Op) (d : List Byte) : Prop where
  branch : vmBranch op = some (d.length, .w16)
  source : viaSource op = true
  test : testOf op = op
  cond : op ≠ .RelativeJump
  runs : ∀ (E : Env) (ρ : Vars) (m : M) (w : Word32) (x y : Byte), e.eval ρ = some w → Ready ρ m →
    ∃ is mid m' a, pre = encF is ∧ ORun E is m mid ∧ act op = some a ∧ dlen a = d.length + 2 ∧
      exec E 2 a (d ++ [x, y]) mid = .ok (if w != 0 then .next m' else .jump m') ∧ Ready ρ m' ∧ Frame m m'

/-- A comparison or load with its branch form. -/
theorem cond_turn {c : Code} {e : IE} (hc : CodeOk c e) {last op : Op} {rest : List Op} {a b : Act}
    (hr : c.rops = last :: rest) (ha : act last = some a) (hb : act op = some b) (ht : Turns a b)
    (hl : dlen b = dlen a + 2) (hv : vmBranch op = some (dlen a, .w16)) (hs : viaSource op = true) (hto : testOf op = op)
    (hj : op ≠ .RelativeJump) :
    ∃ pre d, d.length = dlen a ∧ c.rall = d.reverse ++ last.code :: pre.reverse ∧ CondOk e pre op d := by
  obtain ⟨ris0, hi0, -⟩ := hc.code fun _ _ => none
  obtain ⟨d, ris0', rfl, hok, hall⟩ := split_last hi0 hr
  have hd := hok.length ha
  refine ⟨(enc ris0').reverse, d, hd, by simpa using hall, ⟨by rw [hd]; exact hv, hs, hto, hj, ?_⟩⟩
  intro E ρ m w x y hw hm
  obtain ⟨ris, hi, hrun⟩ := hc.code ρ
  obtain ⟨z, r, h1, h2⟩ := hrun w hw
  obtain ⟨d', ris', rfl, hok', hall'⟩ := split_last hi hr
  have hd' := hok'.length ha
  rw [hall] at hall'
  obtain ⟨rfl, he⟩ := split_unique hall' (by omega)
  simp only [orun, Option.bind_eq_some_iff] at h1
  obtain ⟨s1, h3, h4⟩ := h1
  simp only [ostep, ha, Option.bind_some] at h4
  obtain ⟨mid, h5, h6⟩ := orun_fwd (E := E) hm.start (Sim.init m) (fun p hp => hi.ok p (by simp [hp])) h3
  obtain ⟨m', h7, h8⟩ := turns_exec (E := E) (xy := [x, y]) hm.start h6 ht hd h4 h2
  obtain ⟨h9, h10⟩ := sim_ready hm h8
  exact ⟨ris'.reverse, mid, m', b, by rw [he, enc_reverse], h5, hb, by rw [hl, hd], h7, h9, h10⟩

theorem cond_plain {c : Code} {e : IE} (hc : CodeOk c e) : CondOk e c.rall.reverse .BZ [] := by
  refine ⟨rfl, rfl, rfl, by decide, ?_⟩
  intro E ρ m w x y hw hm
  obtain ⟨ris, hi, hrun⟩ := hc.code ρ
  obtain ⟨z, r, h1, h2⟩ := hrun w hw
  obtain ⟨mid, h5, h6⟩ := orun_fwd (E := E) hm.start (Sim.init m) hi.ok h1
  obtain ⟨m', h7, h8⟩ := bz_exec (E := E) (xy := [] ++ [x, y]) hm.start h6 h2
  obtain ⟨h9, h10⟩ := sim_ready hm h8
  exact ⟨ris.reverse, mid, m', _, by rw [hi.enc, enc_reverse], h5, rfl, rfl, h7, h9, h10⟩

theorem quiet_cmp {o : Op} (h : still o) : cmpBZ o = none ∧ cmpB o = none :=
  Op.all_of (p := fun o => still o → cmpBZ o = none ∧ cmpB o = none) (by decide +kernel) o h

theorem pushOpcode_BZ {neg : Word32 → Word32} {b : Code} : pushOpcode neg b .BZ =
    match b.rops with
    | [] => some (b.push .BZ)
    | last :: rest => pushBZ b last rest := by
  unfold pushOpcode
  cases b.rops with
  | nil => rfl
  | cons last rest => rfl

/-- The emitter's `BZ` after the code of a condition, appended to a unit. -/
theorem cond_shape {neg : Word32 → Word32} {c u b : Code} {e : IE} (hc : CodeOk c e) (hq : quiet u.rops)
    (h : pushOpcode neg ⟨c.rall ++ u.rall, c.rops ++ u.rops⟩ .BZ = some b) :
    ∃ pre op d, b.rall = d.reverse ++ op.code :: (pre.reverse ++ u.rall) ∧ b.rops.head? = some op ∧
      CondOk e pre op d := by
  have hplain : b = (⟨c.rall ++ u.rall, c.rops ++ u.rops⟩ : Code).push .BZ →
      ∃ pre op d, b.rall = d.reverse ++ op.code :: (pre.reverse ++ u.rall) ∧ b.rops.head? = some op ∧
        CondOk e pre op d := by
    rintro rfl
    exact ⟨c.rall.reverse, .BZ, [], by simp [Code.push], rfl, cond_plain hc⟩
  rw [pushOpcode_BZ] at h
  cases hr : c.rops with
  | nil =>
    rw [hr] at h hplain
    cases hu : u.rops with
    | nil =>
      rw [hu] at h hplain
      simp only [List.append_nil, Option.some.injEq] at h
      exact hplain h.symm
    | cons o rest =>
      rw [hu] at h hplain
      obtain ⟨g1, g2⟩ := quiet_cmp (hq o (by rw [hu]; rfl))
      simp only [List.nil_append, pushBZ, g1, g2, Option.some.injEq] at h
      exact hplain h.symm
  | cons last rest =>
    rw [hr] at h hplain
    simp only [List.cons_append, pushBZ] at h
    cases g1 : cmpBZ last with
    | some q =>
      obtain ⟨op, k⟩ := q
      rw [g1] at h
      obtain ⟨a, b', ha, hb, ht, hk, hl, hv, hs, hto, hj⟩ := cmpBZ_turns g1
      subst hk
      obtain ⟨pre, d, hd, hall, hok⟩ := cond_turn hc hr ha hb ht hl hv hs hto hj
      have hp := put_at (l := d.reverse) (r := pre.reverse ++ u.rall) (x := last.code) (y := op.code)
      rw [List.length_reverse, hd] at hp
      simp only [hall, List.append_assoc, List.cons_append, hp] at h
      cases h
      exact ⟨pre, op, d, by simp, rfl, hok⟩
    | none =>
      rw [g1] at h
      dsimp only at h
      cases g2 : cmpB last with
      | none =>
        rw [g2] at h
        simp only [Option.some.injEq] at h
        exact hplain h.symm
      | some op =>
        rw [g2] at h
        obtain ⟨a, b', ha, hb, ht, hk, hl, hv, hs, hto, hj⟩ := cmpB_turns g2
        rw [← hk] at hv
        obtain ⟨pre, d, hd, hall, hok⟩ := cond_turn hc hr ha hb ht (by omega) hv hs hto hj
        obtain rfl := len0 (hd.trans hk)
        have hp := put_at (l := []) (r := pre.reverse ++ u.rall) (x := last.code) (y := op.code)
        simp only [List.nil_append, List.length_nil] at hp
        simp only [hall, List.reverse_nil, List.nil_append, List.cons_append, hp] at h
        split at h
        · cases h
        · cases h
        · cases h
          exact ⟨pre, op, [], by simp, rfl, hok⟩

end Wrench.Prog
