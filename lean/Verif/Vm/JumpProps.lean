import Verif.Vm.Jump
import Verif.Bytes.Lemmas
import Mathlib.Tactic.FinCases

/-
C24: every resolved jump lands on its target, in the short and in the long form, for every
layout and any number of re-resolutions; a displacement that does not fit is reported.
-/
namespace Wrench.Vm

theorem Op.mem_list (o : Op) : o ∈ Op.list := by
  have h := Op.decode_code o
  exact List.mem_of_getElem? h

/-- A decidable statement about all opcodes is proved by evaluating it on each of them. -/
theorem Op.all_of {p : Op → Prop} [DecidablePred p] (h : Op.list.all (fun o => decide (p o)) = true)
    (o : Op) : p o :=
  of_decide_eq_true (List.all_eq_true.mp h o (Op.mem_list o))

namespace Jump

/-! ### What the property talks about -/

/-- The test a branch instruction performs, named by its 16-bit form: the 8-bit handlers of
vm.cpp compute the same test and differ only in the displacement read. -/
def testOf : Op → Op
  | .RelativeJump8 => .RelativeJump
  | .BZ8 => .BZ
  | .BLA8 => .BLA
  | .BLO8 => .BLO
  | .CompareBEQ8 => .CompareBEQ
  | .CompareBNE8 => .CompareBNE
  | .CompareBGE8 => .CompareBGE
  | .CompareBLE8 => .CompareBLE
  | .CompareBGT8 => .CompareBGT
  | .CompareBLT8 => .CompareBLT
  | .LocalBZ8 => .LocalBZ
  | .GlobalBZ8 => .GlobalBZ
  | .GSCompareEQBZ8 => .GSCompareEQBZ
  | .GSCompareNEBZ8 => .GSCompareNEBZ
  | .GSCompareGEBZ8 => .GSCompareGEBZ
  | .GSCompareLEBZ8 => .GSCompareLEBZ
  | .GSCompareGTBZ8 => .GSCompareGTBZ
  | .GSCompareLTBZ8 => .GSCompareLTBZ
  | .LSCompareEQBZ8 => .LSCompareEQBZ
  | .LSCompareNEBZ8 => .LSCompareNEBZ
  | .LSCompareGEBZ8 => .LSCompareGEBZ
  | .LSCompareLEBZ8 => .LSCompareLEBZ
  | .LSCompareGTBZ8 => .LSCompareGTBZ
  | .LSCompareLTBZ8 => .LSCompareLTBZ
  | .GGCompareEQBZ8 => .GGCompareEQBZ
  | .GGCompareNEBZ8 => .GGCompareNEBZ
  | .GGCompareGEBZ8 => .GGCompareGEBZ
  | .GGCompareLEBZ8 => .GGCompareLEBZ
  | .GGCompareGTBZ8 => .GGCompareGTBZ
  | .GGCompareLTBZ8 => .GGCompareLTBZ
  | .LLCompareEQBZ8 => .LLCompareEQBZ
  | .LLCompareNEBZ8 => .LLCompareNEBZ
  | .LLCompareGEBZ8 => .LLCompareGEBZ
  | .LLCompareLEBZ8 => .LLCompareLEBZ
  | .LLCompareGTBZ8 => .LLCompareGTBZ
  | .LLCompareLTBZ8 => .LLCompareLTBZ
  | o => o

/-- The opcode at a position. -/
def opAt (all : List Byte) (p : Nat) : Option Op := (all[p]?).bind Op.decode

/-- Operand bytes of the branch instruction whose opcode is just before `r`. -/
def kAt (all : List Byte) (r : Nat) : Nat :=
  match (opAt all (r - 1)).bind vmBranch with
  | some (k, _) => k
  | none => 0

/-- A branch instruction sits just before reference `r`, complete with operands and a
two-byte displacement field. -/
def Site (all : List Byte) (r : Nat) : Prop :=
  1 ≤ r ∧ (∃ (o : Op) (w : Width), opAt all (r - 1) = some o ∧ vmBranch o = some (kAt all r, w)) ∧
  r + kAt all r + 2 ≤ all.length

/-- The references of a target list, each with the offset it must reach. -/
def flat (ts : List Target) : List (Nat × Nat) :=
  ts.flatMap fun t => t.refs.map fun r => (t.offset, r)

/-- The instructions referred to exist and do not overlap. -/
structure Layout (all : List Byte) (ts : List Target) : Prop where
  site : ∀ x ∈ flat ts, Site all x.2
  apart : (flat ts).Pairwise fun x y =>
    x.2 + kAt all x.2 + 2 < y.2 ∨ y.2 + kAt all y.2 + 2 < x.2

/-- The displacement, counted from the displacement field, fits 16 signed bits. -/
def Fits (all : List Byte) (target r : Nat) : Prop :=
  -32768 ≤ (target : Int) - (r + kAt all r : Nat) ∧ (target : Int) - (r + kAt all r : Nat) ≤ 32767

instance (all : List Byte) (target r : Nat) : Decidable (Fits all target r) := by
  unfold Fits; infer_instance

/-! ### Table facts -/

theorem adjust_eq {o : Op} {k : Nat} {w : Width} (h : vmBranch o = some (k, w)) : adjust o = k := by
  have := Op.all_of (p := fun o => ((vmBranch o).map (·.1)).getD (adjust o) = adjust o)
    (by decide +kernel) o
  rw [h] at this
  exact this.symm

theorem short_ok {o : Op} {k : Nat} {w : Width} (h : vmBranch o = some (k, w)) (hn : no8 o = false) :
    ∃ o', toShort o = some (o', k) ∧ vmBranch o' = some (k, .w8) ∧ no8 o' = false ∧
      testOf o' = testOf o ∧ toShort o' = some (o', k) := by
  have := Op.all_of (p := fun o => no8 o = false → vmBranch o ≠ none →
      (toShort o).map (·.2) = (vmBranch o).map (·.1) ∧
      (∀ x, toShort o = some x → vmBranch x.1 = some (x.2, .w8) ∧ no8 x.1 = false ∧
        testOf x.1 = testOf o ∧ toShort x.1 = some x)) ?_ o hn (by rw [h]; simp)
  · obtain ⟨h1, h2⟩ := this
    rw [h] at h1
    cases hs : toShort o with
    | none => rw [hs] at h1; simp at h1
    | some x =>
      rw [hs] at h1
      simp only [Option.map_some, Option.some.injEq] at h1
      obtain ⟨a, b, c, d⟩ := h2 x hs
      subst h1
      exact ⟨x.1, rfl, a, b, c, d⟩
  · decide +kernel

theorem long_ok {o : Op} {k : Nat} {w : Width} (h : vmBranch o = some (k, w)) :
    ∃ o', toLong o = some (o', k) ∧ vmBranch o' = some (k, .w16) ∧ no8 o' = no8 o ∧
      testOf o' = testOf o ∧ toLong o' = some (o', k) := by
  have := Op.all_of (p := fun o => vmBranch o ≠ none →
      (toLong o).map (·.2) = (vmBranch o).map (·.1) ∧
      (∀ x, toLong o = some x → vmBranch x.1 = some (x.2, .w16) ∧ no8 x.1 = no8 o ∧
        testOf x.1 = testOf o ∧ toLong x.1 = some x)) ?_ o (by rw [h]; simp)
  · obtain ⟨h1, h2⟩ := this
    rw [h] at h1
    cases hs : toLong o with
    | none => rw [hs] at h1; simp at h1
    | some x =>
      rw [hs] at h1
      simp only [Option.map_some, Option.some.injEq] at h1
      obtain ⟨a, b, c, d⟩ := h2 x hs
      subst h1
      exact ⟨x.1, rfl, a, b, c, d⟩
  · decide +kernel

/-! ### One reference -/

/-- The instruction before `r` is in the form the resolution gives it for target `t`. -/
def Canon (all : List Byte) (t r : Nat) : Prop :=
  ∃ (o : Op) (w : Width) (k : Nat), opAt all (r - 1) = some o ∧ vmBranch o = some (k, w) ∧
    ((((t : Int) - r - k < 128 ∧ (t : Int) - r - k > -129 ∧ no8 o = false) ∧
        toShort o = some (o, k) ∧ w = .w8 ∧ all[r + k]? = some (BitVec.ofInt 8 ((t : Int) - r - k))) ∨
     (¬ ((t : Int) - r - k < 128 ∧ (t : Int) - r - k > -129 ∧ no8 o = false) ∧
        -32768 ≤ (t : Int) - r - k ∧ (t : Int) - r - k ≤ 32767 ∧
        toLong o = some (o, k) ∧ w = .w16 ∧
        all[r + k]? = some ((pack16 (BitVec.ofInt 16 ((t : Int) - r - k))).getD 0 0) ∧
        all[r + k + 1]? = some ((pack16 (BitVec.ofInt 16 ((t : Int) - r - k))).getD 1 0)))

theorem opAt_set {all : List Byte} {p : Nat} {o : Op} (h : p < all.length) :
    opAt (all.set p o.code) p = some o := by
  unfold opAt
  rw [List.getElem?_set_self h]
  exact Op.decode_code o

theorem kAt_eq {all : List Byte} {r k : Nat} {o : Op} {w : Width} (h : opAt all (r - 1) = some o)
    (hb : vmBranch o = some (k, w)) : kAt all r = k := by
  unfold kAt
  rw [h]
  simp [hb]

/-- Bytes outside the instruction's opcode and displacement field are untouched. -/
def Same (all all' : List Byte) (r k : Nat) : Prop :=
  all'.length = all.length ∧
  ∀ i : Nat, i ≠ r - 1 → i ≠ r + k → i ≠ r + k + 1 → all'[i]? = all[i]?

theorem resolveOne_ok {all : List Byte} {t r : Nat} (hs : Site all r) (hf : Fits all t r) :
    ∃ all', resolveOne all t r = .ok all' ∧ Canon all' t r ∧ Same all all' r (kAt all r) ∧
      kAt all' r = kAt all r ∧
      (opAt all' (r - 1)).map testOf = (opAt all (r - 1)).map testOf := by
  obtain ⟨h1, ⟨o, w, ho, hb⟩, hlen⟩ := hs
  generalize hk : kAt all r = k at hb hlen ⊢
  unfold Fits at hf
  rw [hk] at hf
  have hr0 : r ≠ 0 := by omega
  have hlt : r - 1 < all.length := by omega
  have ho' := ho
  unfold opAt at ho'
  rw [List.getElem?_eq_getElem hlt] at ho'
  simp only [Option.bind_some] at ho'
  have hadj := adjust_eq hb
  have hun : resolveOne all t r =
      (if (t : Int) - r - k < 128 ∧ (t : Int) - r - k > -129 ∧ no8 o = false then
        match toShort o with
        | none => .panic
        | some (o', k) =>
          (store all (r - 1) o'.code).bind fun all =>
            store all (r + k) (BitVec.ofInt 8 ((t : Int) - r - adjust o))
      else if (t : Int) - r - k < -32768 ∨ (t : Int) - r - k > 32767 then .badGoto
      else
        match toLong o with
        | none => .panic
        | some (o', k) =>
          (store all (r - 1) o'.code).bind fun all =>
            (store all (r + k) ((pack16 (BitVec.ofInt 16 ((t : Int) - r - adjust o))).getD 0 0)).bind
              fun all => store all (r + k + 1)
                ((pack16 (BitVec.ofInt 16 ((t : Int) - r - adjust o))).getD 1 0)) := by
    unfold resolveOne
    rw [if_neg hr0, List.getElem?_eq_getElem hlt]
    simp only [ho', hadj]
    rfl
  rw [hun]
  by_cases hc : (t : Int) - r - k < 128 ∧ (t : Int) - r - k > -129 ∧ no8 o = false
  · obtain ⟨o', a, b, c, d, e⟩ := short_ok hb hc.2.2
    rw [if_pos hc, a]
    simp only [hadj]
    rw [show store all (r - 1) o'.code = .ok (all.set (r - 1) o'.code) from by
      unfold store; rw [if_pos hlt]]
    simp only [Out.bind]
    rw [show store (all.set (r - 1) o'.code) (r + k) (BitVec.ofInt 8 ((t : Int) - r - k))
        = .ok ((all.set (r - 1) o'.code).set (r + k) (BitVec.ofInt 8 ((t : Int) - r - k))) from by
      unfold store; rw [if_pos (by simp; omega)]]
    have hop : opAt ((all.set (r - 1) o'.code).set (r + k) (BitVec.ofInt 8 ((t : Int) - r - k))) (r - 1)
        = some o' := by
      unfold opAt
      rw [List.getElem?_set_ne (by omega)]
      exact opAt_set hlt
    refine ⟨_, rfl, ⟨o', .w8, k, hop, b, Or.inl ⟨⟨hc.1, hc.2.1, c⟩, e, rfl, ?_⟩⟩, ⟨by simp, ?_⟩,
      kAt_eq hop b, ?_⟩
    · rw [List.getElem?_set_self (by simp; omega)]
    · intro i i1 i2 i3
      rw [List.getElem?_set_ne (by omega), List.getElem?_set_ne (by omega)]
    · rw [hop, ho]
      simp [d]
  · obtain ⟨o', a, b, c, d, e⟩ := long_ok hb
    rw [if_neg hc, if_neg (by push_cast at hf; omega), a]
    simp only [hadj]
    generalize hp0 : (pack16 (BitVec.ofInt 16 ((t : Int) - r - k))).getD 0 0 = p0
    generalize hp1 : (pack16 (BitVec.ofInt 16 ((t : Int) - r - k))).getD 1 0 = p1
    rw [show store all (r - 1) o'.code = .ok (all.set (r - 1) o'.code) from by
      unfold store; rw [if_pos hlt]]
    simp only [Out.bind]
    rw [show store (all.set (r - 1) o'.code) (r + k) p0
        = .ok ((all.set (r - 1) o'.code).set (r + k) p0) from by
      unfold store; rw [if_pos (by simp; omega)]]
    simp only
    rw [show store ((all.set (r - 1) o'.code).set (r + k) p0) (r + k + 1) p1
        = .ok (((all.set (r - 1) o'.code).set (r + k) p0).set (r + k + 1) p1) from by
      unfold store; rw [if_pos (by simp; omega)]]
    have hop : opAt (((all.set (r - 1) o'.code).set (r + k) p0).set (r + k + 1) p1) (r - 1)
        = some o' := by
      unfold opAt
      rw [List.getElem?_set_ne (by omega), List.getElem?_set_ne (by omega)]
      exact opAt_set hlt
    refine ⟨_, rfl, ⟨o', .w16, k, hop, b, Or.inr ⟨by rw [c]; exact hc, by push_cast at hf; omega,
      by push_cast at hf; omega, e, rfl, ?_, ?_⟩⟩, ⟨by simp, ?_⟩, kAt_eq hop b, ?_⟩
    · rw [List.getElem?_set_ne (by omega), List.getElem?_set_self (by simp; omega), hp0]
    · rw [List.getElem?_set_self (by simp; omega), hp1]
    · intro i i1 i2 i3
      rw [List.getElem?_set_ne (by omega), List.getElem?_set_ne (by omega),
        List.getElem?_set_ne (by omega)]
    · rw [hop, ho]
      simp [d]

theorem resolveOne_bad {all : List Byte} {t r : Nat} (hs : Site all r) (hf : ¬ Fits all t r) :
    resolveOne all t r = .badGoto := by
  obtain ⟨h1, ⟨o, w, ho, hb⟩, hlen⟩ := hs
  unfold Fits at hf
  generalize hk : kAt all r = k at hb hlen hf
  have hr0 : r ≠ 0 := by omega
  have hlt : r - 1 < all.length := by omega
  unfold opAt at ho
  rw [List.getElem?_eq_getElem hlt] at ho
  simp only [Option.bind_some] at ho
  have hadj := adjust_eq hb
  unfold resolveOne
  rw [if_neg hr0, List.getElem?_eq_getElem hlt]
  simp only [ho, hadj]
  push_cast at hf
  rw [if_neg (by omega), if_pos (by omega)]

theorem toInt8 {d : Int} (h1 : -129 < d) (h2 : d < 128) : (BitVec.ofInt 8 d).toInt = d := by
  rw [BitVec.toInt_ofInt, Int.bmod_def]
  omega

theorem toInt16 {d : Int} (h1 : -32768 ≤ d) (h2 : d ≤ 32767) : (BitVec.ofInt 16 d).toInt = d := by
  rw [BitVec.toInt_ofInt, Int.bmod_def]
  omega

theorem read16_of {all : List Byte} {p : Nat} {v : Word16}
    (h0 : all[p]? = some ((pack16 v).getD 0 0)) (h1 : all[p + 1]? = some ((pack16 v).getD 1 0)) :
    read16 all p = some v := by
  unfold read16
  rw [h0, h1]
  exact congrArg some (join16_pack v)

theorem Canon.lands {all : List Byte} {t r : Nat} (h1 : 1 ≤ r) (h : Canon all t r) :
    branch all (r - 1) true = some (t : Int) := by
  obtain ⟨o, w, k, ho, hb, h⟩ := h
  unfold branch
  unfold opAt at ho
  rw [ho]
  simp only [hb]
  have hp : r - 1 + 1 + k = r + k := by omega
  rw [hp]
  rcases h with ⟨⟨a, b, c⟩, d, e, f⟩ | ⟨a, b, c, d, e, f, g⟩
  · subst e
    simp only [read8, f, if_pos]
    rw [Option.map_some, toInt8 (by omega) a]
    congr 1; push_cast; omega
  · subst e
    simp only [read16_of f g, if_pos]
    rw [Option.map_some, toInt16 b c]
    congr 1; push_cast; omega

theorem store_same {all : List Byte} {p : Nat} {b : Byte} (h : all[p]? = some b) :
    store all p b = .ok all := by
  unfold store
  obtain ⟨hp, hb⟩ := List.getElem?_eq_some_iff.mp h
  rw [if_pos hp]
  congr 1
  subst hb
  exact List.set_getElem_self hp

theorem decode_eq {b : Byte} {o : Op} (h : Op.decode b = some o) : b = o.code := by
  have : ∀ b : Byte, ∀ o ∈ Op.decode b, b = o.code := by decide +kernel
  exact this b o h

/-- Resolving an already resolved reference changes nothing. -/
theorem Canon.fix {all : List Byte} {t r : Nat} (h1 : 1 ≤ r) (h : Canon all t r) :
    resolveOne all t r = .ok all := by
  obtain ⟨o, w, k, ho, hb, h⟩ := h
  unfold opAt at ho
  cases hall : all[r - 1]? with
  | none => rw [hall] at ho; simp at ho
  | some b =>
    rw [hall] at ho
    simp only [Option.bind_some] at ho
    have hbc := decode_eq ho
    subst hbc
    unfold resolveOne
    rw [if_neg (by omega), hall]
    simp only [ho, adjust_eq hb]
    rcases h with ⟨a, d, e, f⟩ | ⟨a, b, c, d, e, f, g⟩
    · rw [if_pos a, d]
      simp only [store_same hall, Out.bind, store_same f]
    · rw [if_neg a, if_neg (by omega), d]
      simp only [store_same hall, Out.bind, store_same f, store_same g]

/-! ### The whole list -/

/-- The double loop flattened. -/
def resolveAll : List (Nat × Nat) → List Byte → Out (List Byte)
  | [], all => .ok all
  | x :: xs, all => (resolveOne all x.1 x.2).bind (resolveAll xs)

theorem resolveAll_append (xs ys : List (Nat × Nat)) (all : List Byte) :
    resolveAll (xs ++ ys) all = (resolveAll xs all).bind (resolveAll ys) := by
  induction xs generalizing all with
  | nil => rfl
  | cons x xs ih =>
    simp only [List.cons_append, resolveAll]
    cases resolveOne all x.1 x.2 with
    | ok a => exact ih a
    | badGoto => rfl
    | panic => rfl
    | ub => rfl

theorem resolveRefs_eq (t : Nat) (rs : List Nat) (all : List Byte) :
    resolveRefs t rs all = resolveAll (rs.map fun r => (t, r)) all := by
  induction rs generalizing all with
  | nil => rfl
  | cons r rs ih =>
    simp only [resolveRefs, List.map_cons, resolveAll]
    congr 1
    funext a
    exact ih a

theorem resolve_eq (ts : List Target) (all : List Byte) :
    resolve ts all = resolveAll (flat ts) all := by
  induction ts generalizing all with
  | nil => rfl
  | cons t ts ih =>
    simp only [resolve, flat, List.flatMap_cons]
    rw [resolveAll_append, resolveRefs_eq]
    congr 1
    funext a
    exact ih a

/-- The instruction before `r` occupies `r - 1 … r + k + 1`; if these bytes agree, so do
all the notions about it. -/
theorem opAt_congr {all all' : List Byte} {p : Nat} (h : all'[p]? = all[p]?) :
    opAt all' p = opAt all p := by
  unfold opAt; rw [h]

theorem kAt_congr {all all' : List Byte} {r : Nat} (h : all'[r - 1]? = all[r - 1]?) :
    kAt all' r = kAt all r := by
  unfold kAt; rw [opAt_congr h]

theorem Site.congr {all all' : List Byte} {r : Nat} (h : all'[r - 1]? = all[r - 1]?)
    (hl : all'.length = all.length) (hs : Site all r) : Site all' r := by
  obtain ⟨a, ⟨o, w, b, c⟩, d⟩ := hs
  have hk := kAt_congr h
  exact ⟨a, ⟨o, w, by rw [opAt_congr h]; exact b, by rw [hk]; exact c⟩, by rw [hk, hl]; exact d⟩

theorem Canon.congr {all all' : List Byte} {t r : Nat} (h0 : all'[r - 1]? = all[r - 1]?)
    (h : ∀ i : Nat, r ≤ i → i ≤ r + kAt all r + 1 → all'[i]? = all[i]?) (hc : Canon all t r) :
    Canon all' t r := by
  obtain ⟨o, w, k, a, b, c⟩ := hc
  have hk := kAt_eq a b
  rw [hk] at h
  refine ⟨o, w, k, by rw [opAt_congr h0]; exact a, b, ?_⟩
  rw [h (r + k) (by omega) (by omega), h (r + k + 1) (by omega) (by omega)]
  exact c

/-- Disjoint instructions. -/
def Apart (all : List Byte) (r s : Nat) : Prop :=
  r + kAt all r + 2 < s ∨ s + kAt all s + 2 < r

/-- The effect of resolving one list of disjoint sites. -/
theorem resolveAll_ok (xs : List (Nat × Nat)) : ∀ (all : List Byte),
    (∀ x ∈ xs, Site all x.2) → xs.Pairwise (fun x y => Apart all x.2 y.2) →
    (∀ x ∈ xs, Fits all x.1 x.2) →
    ∃ all', resolveAll xs all = .ok all' ∧ all'.length = all.length ∧
      (∀ x ∈ xs, Canon all' x.1 x.2 ∧ kAt all' x.2 = kAt all x.2 ∧
        (opAt all' (x.2 - 1)).map testOf = (opAt all (x.2 - 1)).map testOf) ∧
      (∀ i : Nat, (∀ x ∈ xs, i ≠ x.2 - 1 ∧ i ≠ x.2 + kAt all x.2 ∧ i ≠ x.2 + kAt all x.2 + 1) →
        all'[i]? = all[i]?) := by
  induction xs with
  | nil => intro all _ _ _; exact ⟨all, rfl, rfl, by simp, fun _ _ => rfl⟩
  | cons x xs ih =>
    intro all hs hd hf
    have hsx := hs x (List.mem_cons_self ..)
    obtain ⟨a1, r1, c1, ⟨l1, s1⟩, k1, t1⟩ := resolveOne_ok hsx (hf x (List.mem_cons_self ..))
    rw [List.pairwise_cons] at hd
    have hx1 : 1 ≤ x.2 := hsx.1
    have key : ∀ y ∈ xs, a1[y.2 - 1]? = all[y.2 - 1]? := by
      intro y hy
      have h1 := (hs y (List.mem_cons_of_mem _ hy)).1
      rcases hd.1 y hy with h | h <;> exact s1 _ (by omega) (by omega) (by omega)
    have keyk : ∀ y ∈ xs, kAt a1 y.2 = kAt all y.2 := fun y hy => kAt_congr (key y hy)
    obtain ⟨a2, r2, l2, c2, o2⟩ := ih a1
      (fun y hy => (hs y (List.mem_cons_of_mem _ hy)).congr (key y hy) l1)
      (by
        refine List.Pairwise.imp_of_mem ?_ hd.2
        intro y z hy hz h
        unfold Apart at h ⊢
        rw [keyk y hy, keyk z hz]
        exact h)
      (by
        intro y hy
        unfold Fits
        rw [keyk y hy]
        exact hf y (List.mem_cons_of_mem _ hy))
    have hnot : ∀ i : Nat, (i = x.2 - 1 ∨ (x.2 ≤ i ∧ i ≤ x.2 + kAt all x.2 + 1)) →
        a2[i]? = a1[i]? := by
      intro i hi
      apply o2
      intro y hy
      rw [keyk y hy]
      have h1 := (hs y (List.mem_cons_of_mem _ hy)).1
      rcases hd.1 y hy with h | h <;> refine ⟨?_, ?_, ?_⟩ <;> omega
    refine ⟨a2, by simp only [resolveAll, r1, Out.bind]; exact r2, by rw [l2, l1], ?_, ?_⟩
    · intro y hy
      rcases List.mem_cons.mp hy with rfl | hy
      · refine ⟨c1.congr (hnot _ (Or.inl rfl)) fun i h1 h2 => hnot i (Or.inr ⟨h1, by omega⟩), ?_, ?_⟩
        · rw [kAt_congr (hnot _ (Or.inl rfl)), k1]
        · rw [opAt_congr (hnot _ (Or.inl rfl)), t1]
      · obtain ⟨c, k, t⟩ := c2 y hy
        refine ⟨c, by rw [k, keyk y hy], by rw [t, opAt_congr (key y hy)]⟩
    · intro i hi
      rw [o2 i (fun y hy => by rw [keyk y hy]; exact hi y (List.mem_cons_of_mem _ hy))]
      obtain ⟨p, q, u⟩ := hi x (List.mem_cons_self ..)
      exact s1 i p q u

/-- If some displacement does not fit, the resolution ends with WR_ERR_bad_goto_location. -/
theorem resolveAll_bad (xs : List (Nat × Nat)) : ∀ (all : List Byte),
    (∀ x ∈ xs, Site all x.2) → xs.Pairwise (fun x y => Apart all x.2 y.2) →
    (∃ x ∈ xs, ¬ Fits all x.1 x.2) → resolveAll xs all = .badGoto := by
  induction xs with
  | nil => intro all _ _ h; simp at h
  | cons x xs ih =>
    intro all hs hd hf
    have hsx := hs x (List.mem_cons_self ..)
    rw [List.pairwise_cons] at hd
    by_cases hx : Fits all x.1 x.2
    · obtain ⟨a1, r1, c1, ⟨l1, s1⟩, k1, t1⟩ := resolveOne_ok hsx hx
      have hx1 : 1 ≤ x.2 := hsx.1
      have key : ∀ y ∈ xs, a1[y.2 - 1]? = all[y.2 - 1]? := by
        intro y hy
        have h1 := (hs y (List.mem_cons_of_mem _ hy)).1
        rcases hd.1 y hy with h | h <;> exact s1 _ (by omega) (by omega) (by omega)
      have keyk : ∀ y ∈ xs, kAt a1 y.2 = kAt all y.2 := fun y hy => kAt_congr (key y hy)
      simp only [resolveAll, r1, Out.bind]
      apply ih a1 (fun y hy => (hs y (List.mem_cons_of_mem _ hy)).congr (key y hy) l1)
      · refine List.Pairwise.imp_of_mem ?_ hd.2
        intro y z hy hz h
        unfold Apart at h ⊢
        rw [keyk y hy, keyk z hz]
        exact h
      · obtain ⟨y, hy, hn⟩ := hf
        rcases List.mem_cons.mp hy with rfl | hy
        · exact absurd hx hn
        · refine ⟨y, hy, ?_⟩
          unfold Fits at hn ⊢
          rw [keyk y hy]
          exact hn
    · simp only [resolveAll, resolveOne_bad hsx hx, Out.bind]

theorem resolveAll_fix (xs : List (Nat × Nat)) (all : List Byte)
    (h : ∀ x ∈ xs, 1 ≤ x.2 ∧ Canon all x.1 x.2) : resolveAll xs all = .ok all := by
  induction xs with
  | nil => rfl
  | cons x xs ih =>
    obtain ⟨h1, h2⟩ := h x (List.mem_cons_self ..)
    simp only [resolveAll, h2.fix h1, Out.bind]
    exact ih fun y hy => h y (List.mem_cons_of_mem _ hy)

theorem mem_flat {ts : List Target} {t : Target} {r : Nat} (ht : t ∈ ts) (hr : r ∈ t.refs) :
    (t.offset, r) ∈ flat ts := by
  unfold flat
  rw [List.mem_flatMap]
  exact ⟨t, ht, List.mem_map.mpr ⟨r, hr, rfl⟩⟩

/-- **C24.**  For every code and every list of targets whose references denote branch
instructions that do not overlap (in either form, as left by earlier resolutions): if every
displacement fits 16 bits, the resolution succeeds; afterwards every branch instruction
tests the same condition, jumps exactly to its target when taken, continues just past its
displacement field otherwise; only opcodes and displacement fields of the references were
changed; the result is again such a layout and resolving again changes nothing. -/
theorem C24_jumps_land (all : List Byte) (ts : List Target) (hl : Layout all ts)
    (hf : ∀ t ∈ ts, ∀ r ∈ t.refs, Fits all t.offset r) :
    ∃ all', resolve ts all = .ok all' ∧ all'.length = all.length ∧ Layout all' ts ∧
      resolve ts all' = .ok all' ∧
      (∀ t ∈ ts, ∀ r ∈ t.refs,
        branch all' (r - 1) true = some (t.offset : Int) ∧
        branch all' (r - 1) false = some ((r + kAt all r + 2 : Nat) : Int) ∧
        (opAt all' (r - 1)).map testOf = (opAt all (r - 1)).map testOf) ∧
      (∀ i : Nat, (∀ t ∈ ts, ∀ r ∈ t.refs, i ≠ r - 1 ∧ i ≠ r + kAt all r ∧ i ≠ r + kAt all r + 1) →
        all'[i]? = all[i]?) := by
  have hmem : ∀ x ∈ flat ts, ∃ t ∈ ts, x.1 = t.offset ∧ x.2 ∈ t.refs := by
    intro x hx
    unfold flat at hx
    rw [List.mem_flatMap] at hx
    obtain ⟨t, ht, hx⟩ := hx
    rw [List.mem_map] at hx
    obtain ⟨r, hr, rfl⟩ := hx
    exact ⟨t, ht, rfl, hr⟩
  obtain ⟨all', e, l, c, o⟩ := resolveAll_ok (flat ts) all hl.site hl.apart (by
    intro x hx
    obtain ⟨t, ht, h1, h2⟩ := hmem x hx
    rw [h1]
    exact hf t ht _ h2)
  refine ⟨all', by rw [resolve_eq]; exact e, l, ⟨?_, ?_⟩, ?_, ?_, ?_⟩
  · intro x hx
    obtain ⟨⟨o', w, k, a, b, _⟩, k', _⟩ := c x hx
    obtain ⟨h1, _, h3⟩ := hl.site x hx
    refine ⟨h1, ⟨o', w, a, by rw [kAt_eq a b]; exact b⟩, by rw [k', l]; exact h3⟩
  · refine List.Pairwise.imp_of_mem ?_ hl.apart
    intro x y hx hy h
    rw [(c x hx).2.1, (c y hy).2.1]
    exact h
  · rw [resolve_eq]
    exact resolveAll_fix _ _ fun x hx => ⟨(hl.site x hx).1, (c x hx).1⟩
  · intro t ht r hr
    have hx := mem_flat ht hr
    obtain ⟨c1, k1, t1⟩ := c _ hx
    have h1 := (hl.site _ hx).1
    refine ⟨c1.lands h1, ?_, t1⟩
    obtain ⟨o', w, k, a, b, _⟩ := c1
    have hk := kAt_eq a b
    rw [k1] at hk
    unfold branch
    unfold opAt at a
    simp only at a hk h1
    rw [a]
    simp only [b]
    rw [hk]
    simp only [Bool.false_eq_true, if_false]
    congr 1
    push_cast
    omega
  · intro i hi
    apply o
    intro x hx
    obtain ⟨t, ht, h1, h2⟩ := hmem x hx
    exact hi t ht _ h2

/-- **C24.**  A displacement that does not fit is reported, never truncated, and the
resolution of a well-formed layout has no other failure. -/
theorem C24_misfit_reported (all : List Byte) (ts : List Target) (hl : Layout all ts) :
    resolve ts all = .badGoto ↔ ∃ t ∈ ts, ∃ r ∈ t.refs, ¬ Fits all t.offset r := by
  constructor
  · intro h
    apply Classical.byContradiction
    intro hn
    obtain ⟨all', e, _⟩ := C24_jumps_land all ts hl (by
      intro t ht r hr
      apply Classical.byContradiction
      intro h
      exact hn ⟨t, ht, r, hr, h⟩)
    rw [e] at h
    cases h
  · rintro ⟨t, ht, r, hr, h⟩
    rw [resolve_eq]
    exact resolveAll_bad _ _ hl.site hl.apart ⟨_, mem_flat ht hr, h⟩

/-! ### Emission keeps the layout well-formed -/

theorem Layout.append {all : List Byte} {ts : List Target} (h : Layout all ts) (more : List Byte) :
    Layout (all ++ more) ts := by
  have key : ∀ x ∈ flat ts, (all ++ more)[x.2 - 1]? = all[x.2 - 1]? := by
    intro x hx
    obtain ⟨a, _, b⟩ := h.site x hx
    rw [List.getElem?_append_left (by omega)]
  refine ⟨?_, ?_⟩
  · intro x hx
    obtain ⟨a, ⟨o, w, b, c⟩, d⟩ := h.site x hx
    have hk := kAt_congr (key x hx)
    refine ⟨a, ⟨o, w, by rw [opAt_congr (key x hx)]; exact b, by rw [hk]; exact c⟩, ?_⟩
    rw [hk, List.length_append]
    omega
  · refine List.Pairwise.imp_of_mem ?_ h.apart
    intro x y hx hy h
    rw [kAt_congr (key x hx), kAt_congr (key y hy)]
    exact h

/-- A target list with a reference added to the target at position `j`. -/
def addRef (ts : List Target) (j r : Nat) : List Target :=
  ts.modify j fun t => { t with refs := t.refs ++ [r] }

theorem flat_addRef_mem (ts : List Target) : ∀ (j r : Nat) (x : Nat × Nat),
    x ∈ flat (addRef ts j r) → x ∈ flat ts ∨ x.2 = r := by
  induction ts with
  | nil => intro j r x hx; simp [addRef, flat] at hx
  | cons t ts ih =>
    intro j r x hx
    cases j with
    | zero =>
      simp only [addRef, List.modify_zero_cons, flat, List.flatMap_cons, List.map_append,
        List.mem_append, List.map_cons, List.map_nil, List.mem_singleton] at hx
      simp only [flat, List.flatMap_cons, List.mem_append]
      rcases hx with (hx | hx) | hx
      · exact Or.inl (Or.inl hx)
      · exact Or.inr (by rw [hx])
      · exact Or.inl (Or.inr hx)
    | succ j =>
      simp only [addRef, List.modify_succ_cons, flat, List.flatMap_cons, List.mem_append] at hx
      simp only [flat, List.flatMap_cons, List.mem_append]
      rcases hx with hx | hx
      · exact Or.inl (Or.inl hx)
      · rcases ih j r x hx with h | h
        · exact Or.inl (Or.inr h)
        · exact Or.inr h

theorem flat_addRef_pairwise {R : Nat → Nat → Prop} (hsymm : ∀ a b, R a b → R b a)
    (ts : List Target) : ∀ (j r : Nat), (flat ts).Pairwise (fun x y => R x.2 y.2) →
    (∀ x ∈ flat ts, R x.2 r) → (flat (addRef ts j r)).Pairwise (fun x y => R x.2 y.2) := by
  induction ts with
  | nil => intro j r _ _; simp [addRef, flat]
  | cons t ts ih =>
    intro j r hp hr
    simp only [flat, List.flatMap_cons] at hp hr
    rw [List.pairwise_append] at hp
    obtain ⟨h1, h2, h3⟩ := hp
    cases j with
    | zero =>
      simp only [addRef, List.modify_zero_cons, flat, List.flatMap_cons, List.map_append,
        List.map_cons, List.map_nil]
      rw [List.pairwise_append, List.pairwise_append]
      refine ⟨⟨h1, by simp, ?_⟩, h2, ?_⟩
      · intro a ha b hb
        rw [List.mem_singleton] at hb
        subst hb
        exact hr a (List.mem_append_left _ ha)
      · intro a ha b hb
        rcases List.mem_append.mp ha with ha | ha
        · exact h3 a ha b hb
        · rw [List.mem_singleton] at ha
          subst ha
          exact hsymm _ _ (hr b (List.mem_append_right _ hb))
    | succ j =>
      simp only [addRef, List.modify_succ_cons, flat, List.flatMap_cons]
      rw [List.pairwise_append]
      refine ⟨h1, ih j r h2 fun x hx => hr x (List.mem_append_right _ hx), ?_⟩
      intro a ha b hb
      rcases flat_addRef_mem ts j r b hb with hb | hb
      · exact h3 a ha b hb
      · rw [hb]
        exact hr a (List.mem_append_left _ ha)

theorem Layout.addSite {pre : List Byte} {ts : List Target} (h : Layout pre ts) (j : Nat) {op : Op}
    {k : Nat} {w : Width} (hv : vmBranch op = some (k, w)) (operands : List Byte)
    (hk : operands.length = k) (d0 d1 : Byte) :
    Layout (pre ++ (op.code :: operands) ++ [d0, d1]) (addRef ts j (pre.length + 1)) := by
  have hA := h.append ((op.code :: operands) ++ [d0, d1])
  rw [← List.append_assoc] at hA
  generalize hall : pre ++ (op.code :: operands) ++ [d0, d1] = all at hA ⊢
  have hop : opAt all (pre.length + 1 - 1) = some op := by
    unfold opAt
    rw [← hall]
    simp [Op.decode_code]
  have hkk : kAt all (pre.length + 1) = k := kAt_eq hop hv
  have hlen : all.length = pre.length + k + 3 := by
    rw [← hall]
    simp [hk]
    omega
  have hbound : ∀ x ∈ flat ts, x.2 + kAt all x.2 + 2 < pre.length + 1 := by
    intro x hx
    obtain ⟨h1, _, hb⟩ := h.site x hx
    rw [kAt_congr (all := pre)]
    · omega
    · rw [← hall, List.append_assoc, List.getElem?_append_left (by omega)]
  refine ⟨?_, ?_⟩
  · intro x hx
    rcases flat_addRef_mem ts j _ x hx with hx | hx
    · exact hA.site x hx
    · rw [hx]
      refine ⟨by omega, ⟨op, w, hop, by rw [hkk]; exact hv⟩, by rw [hkk, hlen]; omega⟩
  · apply flat_addRef_pairwise (R := fun a b => a + kAt all a + 2 < b ∨ b + kAt all b + 2 < a)
      (fun a b h => h.symm) ts j _ hA.apart
    intro x hx
    exact Or.inl (hbound x hx)

/-- Instructions the emitter passes to `addRelativeJumpSource`: the 16-bit forms other than
the iterator instructions. -/
def viaSource (o : Op) : Bool :=
  (match vmBranch o with | some (_, .w16) => true | _ => false) && !no8 o

theorem back_eq {o : Op} {k : Nat} {w : Width} (hv : vmBranch o = some (k, w))
    (h : viaSource o = true) : back o = k := by
  have := Op.all_of (p := fun o => viaSource o = true →
    ((vmBranch o).map (·.1)).getD (back o) = back o) (by decide +kernel) o h
  rw [hv] at this
  exact this.symm

/-- **C24** (emission).  When the code ends in a branch instruction with its operand bytes,
`addRelativeJumpSource` records a reference that keeps the layout well-formed, whatever
code and references are already there; code appended later does not disturb it. -/
theorem C24_source_layout (pre : List Byte) (ts : List Target) (h : Layout pre ts) (j : Nat)
    (op : Op) (k : Nat) (w : Width) (hv : vmBranch op = some (k, w)) (hs : viaSource op = true)
    (operands : List Byte) (hk : operands.length = k) (more : List Byte) :
    Layout ((addSource (pre ++ op.code :: operands) op).1 ++ more)
      (addRef ts j (addSource (pre ++ op.code :: operands) op).2) := by
  apply Layout.append
  have hr : (addSource (pre ++ op.code :: operands) op).2 = pre.length + 1 := by
    simp only [addSource, back_eq hv hs, List.length_append, List.length_cons, hk]
    omega
  rw [hr]
  exact h.addSite j hv operands hk _ _

/-- **C24** (emission).  The same for `addRelativeJumpSourceEx` and the iterator
instructions. -/
theorem C24_sourceEx_layout (pre : List Byte) (ts : List Target) (h : Layout pre ts) (j : Nat)
    (op : Op) (k : Nat) (w : Width) (hv : vmBranch op = some (k, w))
    (operands : List Byte) (hk : operands.length = k) (more : List Byte) :
    Layout ((addSourceEx (pre ++ [op.code]) operands).1 ++ more)
      (addRef ts j (addSourceEx (pre ++ [op.code]) operands).2) := by
  apply Layout.append
  have hr : (addSourceEx (pre ++ [op.code]) operands).2 = pre.length + 1 := by
    simp [addSourceEx]
  rw [hr]
  have := h.addSite j hv operands hk 9#8 9#8
  simpa [addSourceEx] using this

/-- The operand bytes passed by the for-each compiler (cc.cpp 2268-2298) have exactly the
number of bytes the iterator instructions read. -/
theorem C24_iterator_operands :
    (∀ o ∈ [Op.LNextValueOrJump, .GNextValueOrJump], vmBranch o = some (2, .w16)) ∧
    (∀ o ∈ [Op.LLNextKeyValueOrJump, .LGNextKeyValueOrJump, .GLNextKeyValueOrJump,
      .GGNextKeyValueOrJump], vmBranch o = some (3, .w16)) := by decide

/-- **Limitation.**  A reference whose target has not been placed yet (offset 0, as for the
`break` of an enclosing loop while an inner loop is being resolved) is measured against
offset 0, so the resolution of any loop nested behind the first 32768 bytes of a function
fails although the final displacement may be small. -/
theorem C24_unplaced_target_rejected (all : List Byte) (r : Nat) (hs : Site all r)
    (hr : 32768 < r) : resolve [⟨0, [r]⟩] all = .badGoto := by
  rw [resolve_eq]
  simp only [flat, List.flatMap_cons, List.flatMap_nil, List.map_cons, List.map_nil,
    List.append_nil, resolveAll]
  rw [resolveOne_bad hs (by unfold Fits; push_cast; omega)]
  rfl

/-! ### goto -/

/-- **C24** (goto).  The linker's patch sends `goto` to the position one before the offset
recorded for the label.  A label is recorded as one past the start of the `LiteralZero` that
stands for it (expression.cpp 535-540), and that byte is removed again by the `PopOne`
closing the statement, so this is the position of the statement after the label. -/
theorem C24_goto_lands (all : List Byte) (target src : Nat) (hs : src + 3 ≤ all.length)
    (h1 : -32768 ≤ (target : Int) - src - 2) (h2 : (target : Int) - src - 2 ≤ 32767) :
    ∃ all', patchGoto all target src = .ok all' ∧ all'.length = all.length ∧
      branch all' src true = some ((target : Int) - 1) ∧
      (∀ i : Nat, i < src ∨ src + 3 ≤ i → all'[i]? = all[i]?) := by
  unfold patchGoto
  have hst : ∀ (l : List Byte) (p : Nat) (b : Byte), p < l.length → store l p b = .ok (l.set p b) := by
    intro l p b h; unfold store; rw [if_pos h]
  by_cases hc : (target : Int) - src - 2 < 128 ∧ (target : Int) - src - 2 > -129
  · simp only [if_pos hc]
    rw [hst _ _ _ (by omega)]
    simp only [Out.bind]
    rw [hst _ _ _ (by simp; omega)]
    refine ⟨_, rfl, by simp, ?_, ?_⟩
    · have hop : opAt ((all.set src Op.RelativeJump8.code).set (src + 1)
          (BitVec.ofInt 8 ((target : Int) - src - 2))) src = some .RelativeJump8 := by
        unfold opAt
        rw [List.getElem?_set_ne (by omega)]
        exact opAt_set (by omega)
      unfold branch
      unfold opAt at hop
      rw [hop]
      simp only [vmBranch, Nat.add_zero, if_true, read8]
      rw [List.getElem?_set_self (by simp; omega), Option.map_some, toInt8 hc.2 hc.1]
      congr 1; push_cast; omega
    · intro i hi
      rw [List.getElem?_set_ne (by omega), List.getElem?_set_ne (by omega)]
  · simp only [if_neg hc]
    rw [if_neg (by omega), hst _ _ _ (by omega)]
    simp only [Out.bind]
    rw [hst _ _ _ (by simp; omega)]
    simp only
    rw [hst _ _ _ (by simp; omega)]
    refine ⟨_, rfl, by simp, ?_, ?_⟩
    · generalize hp0 : (pack16 (BitVec.ofInt 16 ((target : Int) - src - 2))).getD 0 0 = p0
      generalize hp1 : (pack16 (BitVec.ofInt 16 ((target : Int) - src - 2))).getD 1 0 = p1
      have hop : opAt (((all.set src Op.RelativeJump.code).set (src + 1) p0).set (src + 2) p1) src
          = some .RelativeJump := by
        unfold opAt
        rw [List.getElem?_set_ne (by omega), List.getElem?_set_ne (by omega)]
        exact opAt_set (by omega)
      have hread := read16_of (all := ((all.set src Op.RelativeJump.code).set (src + 1) p0).set (src + 2) p1)
        (p := src + 1) (v := BitVec.ofInt 16 ((target : Int) - src - 2))
        (by rw [hp0, List.getElem?_set_ne (by omega), List.getElem?_set_self (by simp; omega)])
        (by rw [hp1, List.getElem?_set_self (by simp; omega)])
      unfold branch
      unfold opAt at hop
      rw [hop]
      simp only [vmBranch, Nat.add_zero, if_true]
      rw [hread, Option.map_some, toInt16 h1 h2]
      congr 1; push_cast; omega
    · intro i hi
      rw [List.getElem?_set_ne (by omega), List.getElem?_set_ne (by omega),
        List.getElem?_set_ne (by omega)]

/-- A goto whose displacement does not fit is reported. -/
theorem C24_goto_misfit (all : List Byte) (target src : Nat)
    (h : ¬ (-32768 ≤ (target : Int) - src - 2 ∧ (target : Int) - src - 2 ≤ 32767)) :
    patchGoto all target src = .badGoto := by
  unfold patchGoto
  simp only
  rw [if_neg (by omega), if_pos (by omega)]

/-! ### Concrete cases -/

/-- A loop: `LLCompareLTBZ 0 1 → 11`, body of four bytes, `RelativeJump → 0`. -/
def exCode : List Byte :=
  [Op.LLCompareLTBZ.code, 0, 1, 9, 9, Op.IncLocal.code, 0, Op.IncLocal.code, 1,
   Op.RelativeJump.code, 9, 9]

def exTargets : List Target := [⟨12, [1]⟩, ⟨0, [10]⟩]

theorem exLayout : Layout exCode exTargets where
  site := by
    intro x hx
    fin_cases hx
    · exact ⟨by decide, ⟨.LLCompareLTBZ, .w16, by decide, by decide⟩, by decide⟩
    · exact ⟨by decide, ⟨.RelativeJump, .w16, by decide, by decide⟩, by decide⟩
  apart := by
    simp only [exTargets, flat, List.flatMap_cons, List.flatMap_nil, List.map_cons, List.map_nil,
      List.append_nil, List.cons_append, List.nil_append]
    rw [List.pairwise_cons]
    refine ⟨?_, by simp⟩
    intro y hy
    rw [List.mem_singleton] at hy
    subst hy
    exact Or.inl (by decide)

example : ∀ t ∈ exTargets, ∀ r ∈ t.refs, Fits exCode t.offset r := by decide

example : resolve exTargets exCode = .ok
    [Op.LLCompareLTBZ8.code, 0, 1, 9, 9, Op.IncLocal.code, 0, Op.IncLocal.code, 1,
     Op.RelativeJump8.code, 246, 9] := by decide

example : ¬ Fits exCode 40000 1 := by decide

end Jump
end Wrench.Vm
