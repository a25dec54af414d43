import Verif.HashTable.Histories

/-
The message mailbox, discrete_src/lib/std_msg.cpp 27-97, over the state's registry of functions,
which it shares (the hash table of `Verif.HashTable`, here with cells and no keys), together with
the calling of a registered function by hash, vm.cpp 865-941.  Keys and values are given by their
32-bit hashes.  64-bit pointers.
-/
namespace Wrench.Host

open HashTable

/-- A `WRValue` of the registry: the first 8 bytes, a pointer or in the low half an integer, and
`p2`.  wrench.h 878-893. -/
structure Cell where
  lo : Word32
  hi : Word32
  p2 : Word32
deriving DecidableEq, Repr

abbrev Reg := HT Cell Unit

def zeroCell : Cell := ⟨0#32, 0#32, 0#32⟩

/-- `wr_mboxRead`, std_msg.cpp 32-47. -/
def mboxRead (t : Reg) (h : Word32) (clear : Bool) : Reg × Option Cell :=
  ((exists_ t h clear).1, (exists_ t h clear).2.map (exists_ t h clear).1.vals)

/-- `wr_mboxWrite`, std_msg.cpp 52-62: `ui` is the low half only; `INIT_AS_INT` is 0. -/
def mboxWrite (t : Reg) (h v : Word32) : Option Reg :=
  match getAsRaw zeroCell () t h with
  | none => none
  | some (t, i) => some { t with vals := upd t.vals i { t.vals i with lo := v, p2 := 0#32 } }

/-- `wr_mboxClear`, std_msg.cpp 66-72. -/
def mboxClear (t : Reg) (h : Word32) : Reg := (exists_ t h true).1

/-- `wr_mboxPeek`, std_msg.cpp 78-85. -/
def mboxPeek (t : Reg) (h : Word32) : Reg × Bool := ((exists_ t h false).1, (exists_ t h false).2.isSome)

/-- `wr_registerLibraryFunction`, utils.cpp 576-579. -/
def register (t : Reg) (h lo hi : Word32) : Option Reg :=
  match getAsRaw zeroCell () t h with
  | none => none
  | some (t, i) => some { t with vals := upd t.vals i { t.vals i with lo := lo, hi := hi } }

/-- A call by hash, vm.cpp 873 and 935: the code address jumped to, if any. -/
def callByHash (t : Reg) (h : Word32) : Option (Reg × Option (Word32 × Word32)) :=
  match getAsRaw zeroCell () t h with
  | none => none
  | some (t, i) => some (t, if (t.vals i).lo = 0#32 ∧ (t.vals i).hi = 0#32 then none else some ((t.vals i).lo, (t.vals i).hi))

inductive MOp where
  | read (h : Word32) (clear : Bool)
  | write (h v : Word32)
  | clear (h : Word32)
  | peek (h : Word32)
  | call (h : Word32)
deriving DecidableEq, Repr

inductive MOut where
  | value (v : Option Word32)
  | bool (b : Bool)
  | done
  | jumped (a : Option (Word32 × Word32))
deriving DecidableEq, Repr

def MOp.key : MOp → Word32
  | .read h _ | .write h _ | .clear h | .peek h | .call h => h

def mstep (t : Reg) : MOp → Option (Reg × MOut)
  | .read h c => some ((mboxRead t h c).1, .value ((mboxRead t h c).2.map Cell.lo))
  | .write h v => (mboxWrite t h v).map fun t => (t, .done)
  | .clear h => some (mboxClear t h, .done)
  | .peek h => some ((mboxPeek t h).1, .bool (mboxPeek t h).2)
  | .call h => (callByHash t h).map fun p => (p.1, .jumped p.2)

def mrun (t : Reg) : List MOp → Option (Reg × List MOut)
  | [] => some (t, [])
  | op :: ops =>
    match mstep t op with
    | none => none
    | some (t, o) => match mrun t ops with
      | none => none
      | some (t, os) => some (t, o :: os)

/-! ### Specification: a map of messages, and the functions apart -/

abbrev Box := Word32 → Option Word32

def Box.put (b : Box) (h : Word32) (v : Option Word32) : Box := fun k => if k = h then v else b k

/-- `fns` is what each function name stands for. -/
def boxStep (fns : Word32 → Option (Word32 × Word32)) (b : Box) : MOp → Box × MOut
  | .read h c => (if c then b.put h none else b, .value (b h))
  | .write h v => (b.put h (some v), .done)
  | .clear h => (b.put h none, .done)
  | .peek h => (b, .bool (b h).isSome)
  | .call h => (b, .jumped (fns h))

def boxRun (fns : Word32 → Option (Word32 × Word32)) (b : Box) : List MOp → List MOut
  | [] => []
  | op :: ops => (boxStep fns b op).2 :: boxRun fns (boxStep fns b op).1 ops

/-- Messages are kept under keys that are not those of functions, and only functions are called. -/
def Apart (fns : Word32 → Option (Word32 × Word32)) : MOp → Prop
  | .call h => (fns h).isSome ∧ h ≠ nullHash
  | op => fns op.key = none ∧ op.key ≠ nullHash

/-- The registry holds the functions `fns` and the messages `b`. -/
structure Holds (fns : Word32 → Option (Word32 × Word32)) (b : Box) (t : Reg) : Prop where
  inv : Inv t.mod t.slots
  fn : ∀ h, h ≠ nullHash → ∀ a, fns h = some a → a ≠ (0#32, 0#32) ∧
    ∃ i, i < t.mod ∧ t.slots i = h ∧ ((t.vals i).lo, (t.vals i).hi) = a
  msg : ∀ h, h ≠ nullHash → fns h = none → ∀ v, b h = some v ↔ ∃ i, i < t.mod ∧ t.slots i = h ∧ (t.vals i).lo = v

/-! ### Proofs -/

theorem exists_found {t : Reg} (inv : Inv t.mod t.slots) {h : Word32} (hn : h ≠ nullHash) {i : Nat} (hi : i < t.mod)
    (hs : t.slots i = h) (rm : Bool) :
    exists_ t h rm = (if rm then { t with size := t.size - 1, slots := upd t.slots i nullHash } else t, some i) := by
  unfold exists_
  rw [probe_false_hit inv hn hi hs]

theorem exists_missing {t : Reg} (inv : Inv t.mod t.slots) {h : Word32} (hn : h ≠ nullHash)
    (habs : ¬ Present t.mod t.slots h) (rm : Bool) : exists_ t h rm = (t, none) := by
  unfold exists_
  rcases probe_false_cases inv hn with ⟨i, hi, hsi, hp⟩ | ⟨_, hp⟩
  · exact absurd ⟨i, hi, hsi⟩ habs
  · rw [hp]

theorem holds_none {fns : Word32 → Option (Word32 × Word32)} {b : Box} {t : Reg} (H : Holds fns b t) {h : Word32}
    (hn : h ≠ nullHash) (hf : fns h = none) : b h = none ↔ ¬ Present t.mod t.slots h := by
  constructor
  · rintro hb ⟨i, hi, hs⟩
    have := (H.msg h hn hf _).mpr ⟨i, hi, hs, rfl⟩
    rw [hb] at this
    cases this
  · intro hp
    cases hc : b h with
    | none => rfl
    | some v =>
      obtain ⟨i, hi, hs, _⟩ := (H.msg h hn hf v).mp hc
      exact absurd ⟨i, hi, hs⟩ hp

theorem holds_removed {fns : Word32 → Option (Word32 × Word32)} {b : Box} {t : Reg} (H : Holds fns b t) {h : Word32}
    (hn : h ≠ nullHash) (hf : fns h = none) {i : Nat} (hi : i < t.mod) (hs : t.slots i = h) :
    Holds fns (b.put h none) { t with size := t.size - 1, slots := upd t.slots i nullHash } := by
  have hkeep : ∀ h', h' ≠ nullHash → h' ≠ h → ∀ j, upd t.slots i nullHash j = h' ↔ t.slots j = h' := by
    intro h' hn' hne j
    by_cases hji : j = i
    · subst hji
      rw [upd_same]
      exact ⟨fun e => absurd e.symm hn', fun e => absurd (e.symm.trans hs) hne⟩
    · rw [upd_ne _ _ hji]
  refine ⟨inv_remove H.inv i, ?_, ?_⟩
  · intro h' hn' a ha
    have hne : h' ≠ h := fun e => by rw [e, hf] at ha; cases ha
    obtain ⟨h0, j, hj, hsj, hv⟩ := H.fn h' hn' a ha
    exact ⟨h0, j, hj, (hkeep h' hn' hne j).mpr hsj, hv⟩
  · intro h' hn' hf' v
    unfold Box.put
    by_cases hne : h' = h
    · rw [if_pos hne]
      refine ⟨fun e => (by cases e), ?_⟩
      rintro ⟨j, hj, hsj, _⟩
      exfalso
      dsimp only at hsj hj
      by_cases hji : j = i
      · rw [hji, upd_same] at hsj; exact hn' hsj.symm
      · rw [upd_ne _ _ hji] at hsj
        exact hji (H.inv.inj j i hj hi (by rw [hsj]; exact hn') (by rw [hsj, hs, hne]))
    · rw [if_neg hne, H.msg h' hn' hf' v]
      constructor
      · rintro ⟨j, hj, hsj, hv⟩; exact ⟨j, hj, (hkeep h' hn' hne j).mpr hsj, hv⟩
      · rintro ⟨j, hj, hsj, hv⟩; exact ⟨j, hj, (hkeep h' hn' hne j).mp hsj, hv⟩

theorem put_none_self {b : Box} {h : Word32} (hb : b h = none) : b.put h none = b := by
  funext k
  unfold Box.put
  split
  · rename_i e; rw [e, hb]
  · rfl

theorem holds_write {fns : Word32 → Option (Word32 × Word32)} {b : Box} {t t' : Reg} (H : Holds fns b t) {h v : Word32}
    (hn : h ≠ nullHash) (hf : fns h = none) (hw : mboxWrite t h v = some t') : Holds fns (b.put h (some v)) t' := by
  unfold mboxWrite at hw
  rw [getAsRaw_eq H.inv hn] at hw
  cases hg : getIndexOfHit zeroCell () t h with
  | none => rw [hg] at hw; cases hw
  | some r =>
    obtain ⟨t1, i⟩ := r
    rw [hg] at hw
    simp only [Option.some.injEq] at hw
    subst hw
    have E := getIndexOfHit_ext H.inv hn hg
    refine ⟨E.inv, ?_, ?_⟩
    · intro h' hn' a ha
      have hne : h' ≠ h := fun e => by rw [e, hf] at ha; cases ha
      obtain ⟨h0, j, hj, hsj, hv⟩ := H.fn h' hn' a ha
      obtain ⟨j', hj', hsj', hv', _⟩ := E.fwd j hj (by rw [hsj]; exact hn')
      have hji : j' ≠ i := fun e => hne (by rw [← hsj, ← hsj', e, E.at_])
      refine ⟨h0, j', hj', hsj'.trans hsj, ?_⟩
      dsimp only
      rw [upd_ne _ _ hji, hv', hv]
    · intro h' hn' hf' w
      unfold Box.put
      by_cases hne : h' = h
      · rw [if_pos hne]
        constructor
        · intro e
          cases e
          refine ⟨i, E.lt, by rw [hne]; exact E.at_, ?_⟩
          dsimp only
          rw [upd_same]
        · rintro ⟨j, hj, hsj, hv⟩
          dsimp only at hj hsj hv
          have : j = i := E.inv.inj j i hj E.lt (by rw [hsj]; exact hn') (by rw [hsj, E.at_, hne])
          rw [this, upd_same] at hv
          dsimp only at hv
          rw [hv]
      · rw [if_neg hne, H.msg h' hn' hf' w]
        constructor
        · rintro ⟨j, hj, hsj, hv⟩
          obtain ⟨j', hj', hsj', hv', _⟩ := E.fwd j hj (by rw [hsj]; exact hn')
          have hji : j' ≠ i := fun e => hne (by rw [← hsj, ← hsj', e, E.at_])
          refine ⟨j', hj', hsj'.trans hsj, ?_⟩
          dsimp only
          rw [upd_ne _ _ hji, hv', hv]
        · rintro ⟨j, hj, hsj, hv⟩
          dsimp only at hj hsj hv
          have hji : j ≠ i := fun e => hne (by rw [← hsj, e, E.at_])
          rw [upd_ne _ _ hji] at hv
          obtain ⟨j0, hj0, hs0, hv0, _⟩ := E.back j hj (by rw [hsj]; exact hn') (by rw [hsj]; exact hne)
          exact ⟨j0, hj0, hs0.trans hsj, by rw [hv0, hv]⟩

theorem holds_step {fns : Word32 → Option (Word32 × Word32)} {b : Box} {t t' : Reg} {o : MOut} (H : Holds fns b t) {op : MOp}
    (ha : Apart fns op) (hs : mstep t op = some (t', o)) :
    o = (boxStep fns b op).2 ∧ Holds fns (boxStep fns b op).1 t' := by
  cases op with
  | read h c =>
    obtain ⟨hf, hn⟩ : fns h = none ∧ h ≠ nullHash := ha
    simp only [mstep, Option.some.injEq, Prod.mk.injEq, mboxRead] at hs
    obtain ⟨rfl, rfl⟩ := hs
    by_cases hp : Present t.mod t.slots h
    · obtain ⟨i, hi, hsi⟩ := hp
      have hb : b h = some (t.vals i).lo := (H.msg h hn hf _).mpr ⟨i, hi, hsi, rfl⟩
      rw [exists_found H.inv hn hi hsi]
      cases c with
      | false =>
        simp only [boxStep, Bool.false_eq_true, if_false, Option.map_some, hb]
        exact ⟨trivial, H⟩
      | true =>
        simp only [boxStep, if_true, Option.map_some, hb]
        exact ⟨trivial, holds_removed H hn hf hi hsi⟩
    · have hb := (holds_none H hn hf).mpr hp
      rw [exists_missing H.inv hn hp]
      simp only [boxStep, Option.map_none, hb]
      refine ⟨trivial, ?_⟩
      cases c with
      | false => exact H
      | true => simp only [if_true]; rw [put_none_self hb]; exact H
  | write h v =>
    obtain ⟨hf, hn⟩ : fns h = none ∧ h ≠ nullHash := ha
    simp only [mstep, Option.map_eq_some_iff, Prod.mk.injEq] at hs
    obtain ⟨t1, hw, rfl, rfl⟩ := hs
    exact ⟨rfl, holds_write H hn hf hw⟩
  | clear h =>
    obtain ⟨hf, hn⟩ : fns h = none ∧ h ≠ nullHash := ha
    simp only [mstep, Option.some.injEq, Prod.mk.injEq, mboxClear] at hs
    obtain ⟨rfl, rfl⟩ := hs
    refine ⟨rfl, ?_⟩
    by_cases hp : Present t.mod t.slots h
    · obtain ⟨i, hi, hsi⟩ := hp
      rw [exists_found H.inv hn hi hsi]
      exact holds_removed H hn hf hi hsi
    · rw [exists_missing H.inv hn hp]
      show Holds fns (b.put h none) t
      rw [put_none_self ((holds_none H hn hf).mpr hp)]
      exact H
  | peek h =>
    obtain ⟨hf, hn⟩ : fns h = none ∧ h ≠ nullHash := ha
    simp only [mstep, Option.some.injEq, Prod.mk.injEq, mboxPeek] at hs
    obtain ⟨rfl, rfl⟩ := hs
    by_cases hp : Present t.mod t.slots h
    · obtain ⟨i, hi, hsi⟩ := hp
      have hb : b h = some (t.vals i).lo := (H.msg h hn hf _).mpr ⟨i, hi, hsi, rfl⟩
      rw [exists_found H.inv hn hi hsi]
      exact ⟨by simp [boxStep, hb], H⟩
    · rw [exists_missing H.inv hn hp]
      exact ⟨by simp [boxStep, (holds_none H hn hf).mpr hp], H⟩
  | call h =>
    obtain ⟨hf, hn⟩ : (fns h).isSome ∧ h ≠ nullHash := ha
    obtain ⟨a, hfa⟩ := Option.isSome_iff_exists.mp hf
    obtain ⟨h0, i, hi, hsi, hv⟩ := H.fn h hn a hfa
    have hg : getAsRaw zeroCell () t h = some (t, i) := by
      rw [getAsRaw_eq H.inv hn]
      unfold getIndexOfHit
      rw [probe_false_hit H.inv hn hi hsi]
    simp only [mstep, callByHash, hg, Option.map_some, Option.some.injEq, Prod.mk.injEq] at hs
    obtain ⟨rfl, rfl⟩ := hs
    refine ⟨?_, H⟩
    rw [if_neg]
    · simp only [boxStep, hfa, hv]
    · rintro ⟨h1, h2⟩
      exact h0 (by rw [← hv, h1, h2])

/-- C38: whatever history of reading, writing, clearing, peeking and calling functions, every
observation is that of a map from keys to messages with the functions kept apart: the last message
written and not removed is read, reading with `clear` removes it, other keys and all functions are
unaffected.  What is missing: keys that are names of functions, and calls of names that are not
functions, for which it is false (`message_replaces_function`, `clear_removes_function`,
`unknown_call_makes_message`, `stale_message_called`). -/
theorem mailbox_history_partial {fns : Word32 → Option (Word32 × Word32)} : ∀ (ops : List MOp) {b : Box} {t t' : Reg}
    {os : List MOut}, Holds fns b t → (∀ op ∈ ops, Apart fns op) → mrun t ops = some (t', os) →
    os = boxRun fns b ops ∧ ∃ b', Holds fns b' t'
  | [], b, t, t', os, H, _, hr => by
    simp only [mrun, Option.some.injEq, Prod.mk.injEq] at hr
    obtain ⟨rfl, rfl⟩ := hr
    exact ⟨rfl, b, H⟩
  | op :: ops, b, t, t', os, H, ha, hr => by
    simp only [mrun] at hr
    cases h1 : mstep t op with
    | none => rw [h1] at hr; cases hr
    | some r =>
      obtain ⟨t1, o⟩ := r
      rw [h1] at hr
      simp only at hr
      cases h2 : mrun t1 ops with
      | none => rw [h2] at hr; cases hr
      | some r2 =>
        obtain ⟨t2, os2⟩ := r2
        rw [h2] at hr
        simp only [Option.some.injEq, Prod.mk.injEq] at hr
        obtain ⟨rfl, rfl⟩ := hr
        obtain ⟨rfl, H1⟩ := holds_step H (ha op (by simp)) h1
        obtain ⟨rfl, hb⟩ := mailbox_history_partial ops H1 (fun p hp => ha p (by simp [hp])) h2
        exact ⟨rfl, hb⟩

/-- C38: the read after a write, with anything in between that is not on that key. -/
theorem write_then_read_partial {fns : Word32 → Option (Word32 × Word32)} {b : Box} {t t' : Reg} {os : List MOut}
    {h v : Word32} {mid : List MOp} {c : Bool} (H : Holds fns b t) (hf : fns h = none) (hn : h ≠ nullHash)
    (hm : ∀ op ∈ mid, Apart fns op) (ho : ∀ op ∈ mid, op.key ≠ h)
    (hr : mrun t (.write h v :: mid ++ [.read h c, .peek h]) = some (t', os)) :
    ∃ os', os = os' ++ [.value (some v), .bool (!c)] := by
  obtain ⟨rfl, _⟩ := mailbox_history_partial _ H (by
    intro op hop
    simp only [List.cons_append, List.mem_cons, List.mem_append, List.not_mem_nil, or_false] at hop
    rcases hop with rfl | hop | rfl | rfl
    · exact ⟨hf, hn⟩
    · exact hm op hop
    · exact ⟨hf, hn⟩
    · exact ⟨hf, hn⟩) hr
  have key : ∀ (mid : List MOp) (b : Box), b h = some v → (∀ op ∈ mid, op.key ≠ h) →
      ∃ os', boxRun fns b (mid ++ [.read h c, .peek h]) = os' ++ [.value (some v), .bool (!c)] := by
    intro mid
    induction mid with
    | nil =>
      intro b hb _
      refine ⟨[], ?_⟩
      cases c <;> simp [boxRun, boxStep, hb, Box.put]
    | cons op mid ih =>
      intro b hb ho
      have hk : (boxStep fns b op).1 h = some v := by
        have hne : op.key ≠ h := ho op (by simp)
        cases op with
        | read h' c' =>
          have : h ≠ h' := fun e => hne e.symm
          cases c' <;> simp [boxStep, Box.put, hb, this]
        | write h' v' => simp [boxStep, Box.put, hb, show h ≠ h' from fun e => hne e.symm]
        | clear h' => simp [boxStep, Box.put, hb, show h ≠ h' from fun e => hne e.symm]
        | peek h' => exact hb
        | call h' => exact hb
      obtain ⟨os', e⟩ := ih _ hk (fun p hp => ho p (by simp [hp]))
      exact ⟨(boxStep fns b op).2 :: os', by simp [boxRun, e]⟩
  obtain ⟨os', e⟩ := key mid (b.put h (some v)) (by simp [Box.put]) ho
  exact ⟨.done :: os', by simp [boxRun, boxStep, e]⟩

/-- A state with the function `0x10_00401000` registered under hash 7. -/
def demoReg : Option Reg := do
  let t ← init zeroCell () 0
  register t 7#32 0x00401000#32 0x10#32

def demoOps : List MOp :=
  [.write 5#32 50#32, .write 9#32 90#32, .call 7#32, .read 5#32 false, .read 5#32 true, .peek 5#32, .peek 9#32, .call 7#32]

example : (demoReg.bind fun t => mrun t demoOps).map Prod.snd =
    some (boxRun (fun h => if h = 7#32 then some (0x00401000#32, 0x10#32) else none) (fun _ => none) demoOps) := by
  decide +kernel

/-- A new registry with one function registered meets `Holds`. -/
theorem holds_registered {t0 t : Reg} {n : Nat} {h lo hi : Word32} (hi0 : init zeroCell () n = some t0) (hn : h ≠ nullHash)
    (ha : (lo, hi) ≠ (0#32, 0#32)) (hr : register t0 h lo hi = some t) :
    Holds (fun k => if k = h then some (lo, hi) else none) (fun _ => none) t := by
  have inv0 := (init_spec hi0).1
  have hall := (init_spec hi0).2.1
  unfold register at hr
  rw [getAsRaw_eq inv0 hn] at hr
  cases hg : getIndexOfHit zeroCell () t0 h with
  | none => rw [hg] at hr; cases hr
  | some r =>
    obtain ⟨t1, i⟩ := r
    rw [hg] at hr
    simp only [Option.some.injEq] at hr
    subst hr
    have E := getIndexOfHit_ext inv0 hn hg
    refine ⟨E.inv, ?_, ?_⟩
    · intro h' hn' a hh
      by_cases he : h' = h
      · rw [if_pos he] at hh
        cases hh
        refine ⟨ha, i, E.lt, by rw [he]; exact E.at_, ?_⟩
        dsimp only
        rw [upd_same]
      · rw [if_neg he] at hh; cases hh
    · intro h' hn' hh v
      have he : h' ≠ h := fun e => by rw [if_pos e] at hh; cases hh
      refine ⟨fun e => (by cases e), ?_⟩
      rintro ⟨j, hj, hsj, _⟩
      exfalso
      dsimp only at hj hsj
      obtain ⟨j0, hj0, hs0, _⟩ := E.back j hj (by rw [hsj]; exact hn') (by rw [hsj]; exact he)
      rw [hall j0 hj0, hsj] at hs0
      exact hn' hs0.symm

/-! ### Where it fails -/

/-- A message under the name of a function replaces it: the call jumps to the message. -/
theorem message_replaces_function :
    (demoReg.bind fun t => mrun t [.write 7#32 0x41414141#32, .call 7#32]).map Prod.snd =
      some [.done, .jumped (some (0x41414141#32, 0x10#32))] := by decide +kernel

/-- A message under the name of no function makes that name callable. -/
theorem message_is_callable :
    (demoReg.bind fun t => mrun t [.write 5#32 0x41414141#32, .call 5#32]).map Prod.snd =
      some [.done, .jumped (some (0x41414141#32, 0#32))] := by decide +kernel

/-- Clearing the name of a function unregisters it. -/
theorem clear_removes_function :
    (demoReg.bind fun t => mrun t [.peek 7#32, .clear 7#32, .peek 7#32]).map Prod.snd =
      some [.bool true, .done, .bool false] := by decide +kernel

/-- A failed call leaves a message behind. -/
theorem unknown_call_makes_message :
    (demoReg.bind fun t => mrun t [.peek 5#32, .call 5#32, .peek 5#32]).map Prod.snd =
      some [.bool false, .jumped none, .bool true] := by decide +kernel

/-- A removed message is still in its cell: a call of an unknown name that finds the cell free jumps
to it. -/
theorem stale_message_called :
    (demoReg.bind fun t => mrun t [.write 5#32 0x41414141#32, .clear 5#32, .call 10#32]).map Prod.snd =
      some [.done, .done, .jumped (some (0x41414141#32, 0#32))] := by decide +kernel

end Wrench.Host
