import Verif.HashTable.Histories

/-
for-each: `wr_getNextValue` (discrete_src/vm/vm.cpp 28-93), the iterator opcodes
(vm.cpp 1713-1741), `wr_pushIterator` (discrete_src/vm/operations.cpp 415-429) and the loop
the compiler emits around them (discrete_src/cc/cc.cpp 2200-2290, 2394-2395):
push iterator; L: next-or-jump-out; body; jump L.
-/
namespace Wrench.Containers.Foreach

open Wrench.HashTable

/-- The container an iterator points at, as far as iteration looks at it: the number of
values, the characters of a string, or the hash slots of a table. -/
inductive View where
  | values (size : Nat)
  | chars (cs : List Int)
  | table (mod : Nat) (slots : Nat → Word32)

/-- What one round hands to the body: key `i` and a reference to element `i`, key `i` and a
character code, or references to the key and value cells of slot `i`. -/
inductive Visit where
  | elem (i : Nat)
  | chr (i : Nat) (c : Int)
  | slot (i : Nat)
deriving DecidableEq, Repr

/-- `INIT_AS_ITERATOR`, utils.h 450: `WR_EX | WR_EX_ITERATOR << 24`. -/
def initP2 : Nat := 3 + 0x60 * 16777216

/-- `INIT_AS_ITERATOR | ENCODE_ARRAY_ELEMENT_TO_P2( e )`, utils.h 450-457; the low byte and
the element bits do not overlap, the top byte is or-ed. -/
def encode (e : Nat) : Nat := (initP2 ||| (e <<< 8)) % 4294967296

/-- `DECODE_ARRAY_ELEMENT_FROM_P2`, utils.h 458. -/
def decode (p2 : Nat) : Nat := (p2 &&& 0x1FFFFF00) >>> 8

/-- `IS_ITERATOR( xtype )`, utils.h 469; `xtype` is the top byte of `p2`. -/
def isIterator (p2 : Nat) : Bool := p2 >>> 24 == 0x60

/-- First occupied slot from `e` on, vm.cpp 38-40; `f` is the number of slots left. -/
def nextSlot (slots : Nat → Word32) : Nat → Nat → Option Nat
  | 0, _ => none
  | f + 1, e => if slots e ≠ nullHash then some e else nextSlot slots f (e + 1)

/-- `wr_getNextValue`, vm.cpp 28-93: the round's key and value and the new iterator word,
or `none` for `false`. -/
def next (v : View) (p2 : Nat) : Option (Visit × Nat) :=
  if !isIterator p2 then none
  else
    let e := decode p2
    match v with
    | .table mod slots => (nextSlot slots (mod - e) e).map fun i => (.slot i, encode (i + 1))
    | .values n => if e ≥ n then none else some (.elem e, encode (e + 1))
    | .chars cs => (cs[e]?).map fun c => (.chr e c, encode (e + 1))

variable {τ : Type}

/-- The loop from the condition point on.  A machine state is what the script can see,
`τ`, and the iterator word.  The iterator cell is a hidden global variable, one per
for-each in the source (cc.cpp 2204-2206), so a body, which may call functions, can in
general change it.  `none`: not finished within `fuel` rounds. -/
def loop (view : τ → View) (body : τ → Nat → Visit → τ × Nat) : Nat → τ → Nat → Option (τ × Nat)
  | 0, _, _ => none
  | f + 1, t, p2 =>
    match next (view t) p2 with
    | none => some (t, p2)
    | some (x, p2) => loop view body f (body t p2 x).1 (body t p2 x).2

/-- The whole statement on a container: `pushIterator_E` (operations.cpp 417-424), then
the loop. -/
def forEach (view : τ → View) (body : τ → Nat → Visit → τ × Nat) (fuel : Nat) (t : τ) : Option (τ × Nat) :=
  loop view body fuel t initP2

/-! ### Specification -/

/-- The rounds a reader expects. -/
def expected : View → List Visit
  | .values n => (List.range n).map .elem
  | .chars cs => (List.range cs.length).map fun i => .chr i (cs.getD i 0)
  | .table mod slots => ((List.range mod).filter fun i => slots i != nullHash).map .slot

/-- Number of positions of a container. -/
def View.bound : View → Nat
  | .values n => n
  | .chars cs => cs.length
  | .table mod _ => mod

/-- A body that does not reach this same for-each statement again (by recursion) leaves
the hidden iterator alone. -/
def quiet (b : τ → Visit → τ) : τ → Nat → Visit → τ × Nat := fun t p x => (b t x, p)

/-! ### Encoding -/

theorem encode_small (e : Nat) (h : e < 65536) : encode e = initP2 + 256 * e := by
  unfold encode
  have h1 : initP2 ||| (e <<< 8) = initP2 + 256 * e := by
    rw [Nat.shiftLeft_eq]
    have hd : initP2 = 6291456 <<< 8 + 3 := by rw [Nat.shiftLeft_eq]; rfl
    apply Nat.eq_of_testBit_eq
    intro i
    rw [Nat.testBit_or]
    have e1 : initP2 + 256 * e = 2 ^ 24 * 96 + (2 ^ 8 * e + 3) := by unfold initP2; omega
    have e2 : initP2 = 2 ^ 24 * 96 + 3 := by unfold initP2; omega
    have e3 : e * 2 ^ 8 = 2 ^ 8 * e + 0 := by omega
    rw [e1, e2, e3, Nat.testBit_two_pow_mul_add _ (by omega), Nat.testBit_two_pow_mul_add _ (by omega),
      Nat.testBit_two_pow_mul_add _ (by omega), Nat.testBit_two_pow_mul_add _ (by omega)]
    by_cases h24 : i < 24
    · by_cases h8 : i < 8
      · simp [h24, h8]
      · have : Nat.testBit 3 i = false := Nat.testBit_lt_two_pow (by
          have : 2 ^ 8 ≤ 2 ^ i := Nat.pow_le_pow_right (by omega) (by omega)
          omega)
        simp [h24, h8, this]
    · have : Nat.testBit e (i - 8) = false := Nat.testBit_lt_two_pow (by
        have : 2 ^ 16 ≤ 2 ^ (i - 8) := Nat.pow_le_pow_right (by omega) (by omega)
        omega)
      have h8 : ¬ i < 8 := by omega
      simp [h24, h8, this]
  rw [h1]
  unfold initP2
  omega

theorem decode_encode (e : Nat) (h : e < 65536) : decode (encode e) = e := by
  rw [encode_small e h]
  unfold decode
  apply Nat.eq_of_testBit_eq
  intro i
  rw [Nat.testBit_shiftRight, Nat.testBit_and]
  have e1 : initP2 + 256 * e = 2 ^ 24 * 96 + (2 ^ 8 * e + 3) := by unfold initP2; omega
  have e2 : 0x1FFFFF00 = 2 ^ 8 * 0x1FFFFF + 0 := by omega
  rw [e1, e2, Nat.testBit_two_pow_mul_add _ (by omega), Nat.testBit_two_pow_mul_add _ (by omega),
    Nat.testBit_two_pow_mul_add _ (by omega)]
  have h8 : ¬ (8 + i < 8) := by omega
  have hs : 8 + i - 8 = i := by omega
  rw [if_neg h8, if_neg h8, hs]
  have hones : Nat.testBit 0x1FFFFF i = decide (i < 21) := by
    rw [show 0x1FFFFF = 2 ^ 21 - 1 from rfl, Nat.testBit_two_pow_sub_one]
  rw [hones]
  by_cases hi : 8 + i < 24
  · rw [if_pos hi]
    have : i < 21 := by omega
    simp [this]
  · rw [if_neg hi]
    have h96 : 8 + i - 24 = i - 16 := by omega
    rw [h96]
    have he : Nat.testBit e i = false := Nat.testBit_lt_two_pow (by
      have : 2 ^ 16 ≤ 2 ^ i := Nat.pow_le_pow_right (by omega) (by omega)
      omega)
    rw [he]
    by_cases h21 : i < 21
    · have : i = 16 ∨ i = 17 ∨ i = 18 ∨ i = 19 ∨ i = 20 := by omega
      rcases this with h | h | h | h | h <;> subst h <;> decide
    · simp [h21]

theorem isIterator_encode (e : Nat) (h : e < 65536) : isIterator (encode e) = true := by
  rw [encode_small e h]
  unfold isIterator initP2
  rw [Nat.shiftRight_eq_div_pow, beq_iff_eq]
  omega

theorem isIterator_65536 : isIterator (encode 65536) = false := by decide

theorem encode_zero : encode 0 = initP2 := by decide

/-! ### The loop -/

/-- The rounds that remain when the iterator stands at position `e`. -/
def remaining (v : View) (e : Nat) : List Visit :=
  match v with
  | .values n => (List.range' e (n - e)).map .elem
  | .chars cs => (List.range' e (cs.length - e)).map fun i => .chr i (cs.getD i 0)
  | .table mod slots => ((List.range' e (mod - e)).filter fun i => slots i != nullHash).map .slot

theorem remaining_zero (v : View) : remaining v 0 = expected v := by
  cases v <;> simp [remaining, expected, List.range_eq_range']

theorem nextSlot_spec (slots : Nat → Word32) : ∀ f e,
    match nextSlot slots f e with
    | none => (List.range' e f).filter (fun i => slots i != nullHash) = []
    | some i => e ≤ i ∧ i < e + f ∧ (List.range' e f).filter (fun i => slots i != nullHash)
        = i :: (List.range' (i + 1) (e + f - (i + 1))).filter (fun i => slots i != nullHash) := by
  intro f
  induction f with
  | zero => intro e; simp [nextSlot]
  | succ f ih =>
    intro e
    rw [nextSlot, List.range'_succ, List.filter_cons]
    by_cases h : slots e = nullHash
    · rw [if_neg (by simpa using h), if_neg (by simpa using h)]
      have := ih (e + 1)
      cases hn : nextSlot slots f (e + 1) with
      | none => rw [hn] at this; exact this
      | some i =>
        rw [hn] at this
        obtain ⟨a, b, c⟩ := this
        refine ⟨by omega, by omega, ?_⟩
        rw [c]; congr 3; omega
    · rw [if_pos h, if_pos (by simpa using h)]
      refine ⟨by omega, by omega, ?_⟩
      congr 3; omega

/-- One step of the iterator at a position below 65536. -/
theorem next_spec (v : View) (e : Nat) (he : e < 65536) :
    (next v (encode e) = none ∧ remaining v e = []) ∨
    ∃ x i, next v (encode e) = some (x, encode (i + 1)) ∧ e ≤ i ∧ i < v.bound ∧
      remaining v e = x :: remaining v (i + 1) := by
  unfold next
  rw [isIterator_encode e he, decode_encode e he]
  cases v with
  | values n =>
    simp only [Bool.not_true, Bool.false_eq_true, if_false]
    by_cases h : e ≥ n
    · left
      simp [h, remaining, Nat.sub_eq_zero_of_le h]
    · right
      refine ⟨.elem e, e, by rw [if_neg h], Nat.le_refl _, by simp only [View.bound]; omega, ?_⟩
      simp only [remaining]
      rw [show n - e = (n - (e + 1)) + 1 by omega, List.range'_succ]
      rfl
  | chars cs =>
    simp only [Bool.not_true, Bool.false_eq_true, if_false]
    by_cases h : e ≥ cs.length
    · left
      simp [h, remaining, Nat.sub_eq_zero_of_le h]
    · right
      have h' : e < cs.length := by omega
      refine ⟨.chr e (cs.getD e 0), e, ?_, Nat.le_refl _, h', ?_⟩
      · rw [List.getElem?_eq_getElem h']
        simp [List.getD, List.getElem?_eq_getElem h']
      · simp only [remaining]
        rw [show cs.length - e = (cs.length - (e + 1)) + 1 by omega, List.range'_succ]
        rfl
  | table mod slots =>
    simp only [Bool.not_true, Bool.false_eq_true, if_false]
    have hsp := nextSlot_spec slots (mod - e) e
    cases hn : nextSlot slots (mod - e) e with
    | none =>
      rw [hn] at hsp
      left
      refine ⟨rfl, ?_⟩
      simp only [remaining, hsp, List.map_nil]
    | some i =>
      rw [hn] at hsp
      obtain ⟨a, b, c⟩ := hsp
      right
      refine ⟨.slot i, i, rfl, a, by simp only [View.bound]; omega, ?_⟩
      simp only [remaining, c, List.map_cons]
      congr 4; omega

theorem remaining_end (v : View) (e : Nat) (h : v.bound ≤ e) : remaining v e = [] := by
  cases v with
  | values n => simp only [View.bound] at h; simp [remaining]; omega
  | chars cs => simp only [View.bound] at h; simp [remaining]; omega
  | table mod slots => simp only [View.bound] at h; simp [remaining, Nat.sub_eq_zero_of_le h]

theorem loop_spec (view : τ → View) (b : τ → Visit → τ) (v : View) (hb : v.bound ≤ 65536)
    (hq : ∀ t x, view t = v → view (b t x) = v) : ∀ (k e : Nat) (t : τ), v.bound - e ≤ k → e ≤ 65536 →
    view t = v → ∀ fuel, k < fuel →
    (loop view (quiet b) fuel t (encode e)).map Prod.fst = some ((remaining v e).foldl b t) := by
  intro k
  induction k with
  | zero =>
    intro e t hk he hv fuel hf
    obtain ⟨fuel, rfl⟩ : ∃ n, fuel = n + 1 := ⟨fuel - 1, by omega⟩
    rw [loop, hv, remaining_end v e (by omega)]
    by_cases h6 : e < 65536
    · rcases next_spec v e h6 with ⟨h, _⟩ | ⟨x, i, h, h1, h2, _⟩
      · rw [h]; rfl
      · omega
    · obtain rfl : e = 65536 := by omega
      unfold next; rw [isIterator_65536]; rfl
  | succ k ih =>
    intro e t hk he hv fuel hf
    obtain ⟨fuel, rfl⟩ : ∃ n, fuel = n + 1 := ⟨fuel - 1, by omega⟩
    rw [loop, hv]
    by_cases h6 : e < 65536
    · rcases next_spec v e h6 with ⟨h, hr⟩ | ⟨x, i, h, h1, h2, hr⟩
      · rw [h, hr]; rfl
      · rw [h, hr]
        simp only [quiet, List.foldl_cons]
        exact ih (i + 1) (b t x) (by omega) (by omega) (hq t x hv) fuel (by omega)
    · obtain rfl : e = 65536 := by omega
      rw [remaining_end v 65536 (by omega)]
      unfold next; rw [isIterator_65536]; rfl

/-- **C18**: over an array of at most 65536 values, or a string of at most 65536
characters, or a table, for-each runs the body once per element, in index order, with
that element, and then stops — for every body that keeps the container's shape and does
not re-enter the same statement. -/
theorem C18_foreach_partial (view : τ → View) (b : τ → Visit → τ) (v : View) (hb : v.bound ≤ 65536)
    (hq : ∀ t x, view t = v → view (b t x) = v) (t : τ) (ht : view t = v) (fuel : Nat)
    (hf : v.bound < fuel) :
    (forEach view (quiet b) fuel t).map Prod.fst = some ((expected v).foldl b t) := by
  unfold forEach
  rw [← encode_zero, ← remaining_zero]
  exact loop_spec view b v hb hq v.bound 0 t (by omega) (by omega) ht fuel hf

example : (forEach (fun _ : List Visit => .values 3) (quiet fun t x => t ++ [x]) 4 []).map Prod.fst
    = some [.elem 0, .elem 1, .elem 2] := by decide

example : (forEach (fun _ : List Visit => .chars [104, 105]) (quiet fun t x => t ++ [x]) 4 []).map Prod.fst
    = some [.chr 0 104, .chr 1 105] := by decide

theorem loop_congr (view view' : τ → View) (b : τ → Visit → τ)
    (h : ∀ t e, e ≤ 65536 → next (view t) (encode e) = next (view' t) (encode e))
    (hbd : ∀ t x p e, e ≤ 65536 → next (view t) (encode e) = some (x, p) → ∃ e', e' ≤ 65536 ∧ p = encode e') :
    ∀ fuel t e, e ≤ 65536 → loop view (quiet b) fuel t (encode e) = loop view' (quiet b) fuel t (encode e) := by
  intro fuel
  induction fuel with
  | zero => intro t e he; rfl
  | succ f ih =>
    intro t e he
    rw [loop, loop, ← h t e he]
    cases hn : next (view t) (encode e) with
    | none => rfl
    | some r =>
      obtain ⟨x, p⟩ := r
      obtain ⟨e', he', rfl⟩ := hbd t x p e he hn
      exact ih _ e' he'

/-- An array with more than 65536 elements: for-each stops silently after the first
65536, whatever the body does. -/
theorem C18_large_array_stops (b : τ → Visit → τ) (n : Nat) (hn : 65536 < n) (t : τ) (fuel : Nat)
    (hf : 65536 < fuel) :
    (forEach (fun _ => .values n) (quiet b) fuel t).map Prod.fst
      = some (((List.range 65536).map Visit.elem).foldl b t) := by
  have key : ∀ e, e ≤ 65536 → next (.values n) (encode e) = next (.values 65536) (encode e) := by
    intro e he
    by_cases h6 : e < 65536
    · unfold next
      rw [isIterator_encode e h6, decode_encode e h6]
      simp only [Bool.not_true, Bool.false_eq_true, if_false]
      rw [if_neg (by omega), if_neg (by omega)]
    · obtain rfl : e = 65536 := by omega
      unfold next; rw [isIterator_65536]; rfl
  have h1 : forEach (fun _ => .values n) (quiet b) fuel t = forEach (fun _ => .values 65536) (quiet b) fuel t := by
    unfold forEach
    rw [← encode_zero]
    refine loop_congr _ _ b (fun _ e he => key e he) ?_ fuel t 0 (by omega)
    intro t x p e he hnx
    rw [key e he] at hnx
    by_cases h6 : e < 65536
    · rcases next_spec (.values 65536) e h6 with ⟨h, _⟩ | ⟨y, i, h, _, h2, _⟩
      · rw [h] at hnx; cases hnx
      · rw [h] at hnx
        simp only [Option.some.injEq, Prod.mk.injEq] at hnx
        exact ⟨i + 1, h2, hnx.2.symm⟩
    · obtain rfl : e = 65536 := by omega
      unfold next at hnx; rw [isIterator_65536] at hnx; cases hnx
  rw [h1]
  exact C18_foreach_partial (fun _ => .values 65536) b (.values 65536) (Nat.le_refl _) (fun _ _ _ => rfl) t rfl fuel hf

/-- The list of keys a for-each over a table hands out. -/
def visitedKeys (slots : Nat → Word32) (l : List Visit) : List Word32 :=
  l.filterMap fun
    | .slot i => some (slots i)
    | _ => none

section Mod
variable {V K : Type} {dv : V} {dk : K}

theorem probeInsert_mod {t t' : HT V K} {h : Word32} {i : Nat} (e : probeInsert t h = some (t', i)) :
    t'.mod = t.mod := by
  unfold probeInsert at e
  split at e
  · simp only [Option.some.injEq, Prod.mk.injEq] at e; rw [← e.1]
  · simp only [Option.some.injEq, Prod.mk.injEq] at e; rw [← e.1]
  · cases e

theorem copy_mod (old : HT V K) : ∀ (l : List Nat) (st st' : HT V K × (Nat → Option Nat)),
    l.foldlM (copyStep old) st = some st' → st'.1.mod = st.1.mod
  | [], st, st', e => by simp at e; rw [e]
  | v :: l, st, st', e => by
    rw [List.foldlM_cons] at e
    cases h : copyStep old st v with
    | none => rw [h] at e; cases e
    | some s1 =>
      rw [h] at e
      have h1 := copy_mod old l s1 st' e
      rw [h1]
      unfold copyStep at h
      split at h
      · cases h; rfl
      · split at h
        · cases h
        · rename_i t p hp
          cases h
          exact (probeInsert_mod (t' := t) hp)

theorem growHash_mod {t t' : HT V K} {h : Word32} {n i : Nat} (e : growHash dv dk t h n = some (t', i)) :
    t'.mod ∈ primeTable := by
  unfold growHash at e
  simp only at e
  split at e
  · cases e
  · rename_i newMod prop hf
    split at e
    · cases e
    · rename_i t1 fwd hc
      have h1 := copy_mod t _ _ _ hc
      have h2 := probeInsert_mod e
      simp only at h1 h2
      rw [h2, h1]
      exact List.dropWhile_subset _ (findMod_mem hf).1

theorem hitInsert_mod {t t' : HT V K} {h : Word32} {i : Nat} (e : hitInsert dv dk t h = some (t', i)) :
    t'.mod = t.mod ∨ t'.mod ∈ primeTable := by
  unfold hitInsert at e
  split at e
  · simp only [Option.some.injEq, Prod.mk.injEq] at e; rw [← e.1]; exact Or.inl rfl
  · simp only [Option.some.injEq, Prod.mk.injEq] at e; rw [← e.1]; exact Or.inl rfl
  · exact Or.inr (growHash_mod e)

theorem getIndexOfHit_mod {t t' : HT V K} {h : Word32} {i : Nat} (e : getIndexOfHit dv dk t h = some (t', i)) :
    t'.mod = t.mod ∨ t'.mod ∈ primeTable := by
  unfold getIndexOfHit at e
  split at e
  · simp only [Option.some.injEq, Prod.mk.injEq] at e; rw [← e.1]; exact Or.inl rfl
  · simp only [Option.some.injEq, Prod.mk.injEq] at e; rw [← e.1]; exact Or.inl rfl
  · exact hitInsert_mod e

/-- The prime table bounds the number of slots. -/
theorem history_mod {n : Nat} {ops : List (Op V K)} {t : HT V K}
    {os : List (Out V)} (hn : ∀ op ∈ ops, op.hash ≠ nullHash) (hr : history dv dk n ops = some (t, os)) :
    t.mod ≤ 49157 := by
  have hp : ∀ p ∈ primeTable, p ≤ 49157 := by decide
  unfold history at hr
  cases hi : init dv dk n with
  | none => rw [hi] at hr; cases hr
  | some t0 =>
    rw [hi] at hr
    simp only at hr
    refine run_induct (fun t : HT V K => t.mod ≤ 49157) (fun _ => True) ?_ hn (fun _ _ => trivial) ?_ (init_spec hi).1 hr
    · intro t op t' o ht _ inv hh hs
      rcases step_cases hs with ⟨_, t1, i, hg, e1, _⟩ | ⟨_, e⟩ | ⟨_, e⟩
      · rw [e1]
        rcases getIndexOfHit_mod hg with h | h
        · rw [h]; exact ht
        · exact hp _ h
      · rw [e]
        rcases remove_cases inv hh with ⟨i, _, _, hr⟩ | hr <;> rw [hr] <;> exact ht
      · rw [e]; exact ht
    · unfold init at hi
      simp only [Option.map_eq_some_iff] at hi
      obtain ⟨⟨t1, i⟩, hg, rfl⟩ := hi
      exact hp _ (growHash_mod hg)

end Mod

/-- **C18** for hash tables, with no bound: after any history of writes, reads and
removals, for-each over the table terminates and hands out every key present exactly once
and nothing else, together with the slot where its value lies. -/
theorem C18_table {V K : Type} (dv : V) (dk : K) (sizeHint : Nat) (ops : List (Op V K))
    (hn : ∀ op ∈ ops, op.hash ≠ nullHash) (t : HT V K) (os : List (Out V))
    (hr : history dv dk sizeHint ops = some (t, os)) (fuel : Nat) (hf : 49157 < fuel) :
    ∃ vs, (forEach (fun _ : List Visit => .table t.mod t.slots) (quiet fun l x => l ++ [x]) fuel []).map Prod.fst
        = some vs ∧
      (visitedKeys t.slots vs).Perm (presentKeys ops) ∧ (visitedKeys t.slots vs).Nodup ∧
      ∀ x ∈ vs, ∃ i, x = .slot i ∧ i < t.mod ∧
        ∀ v, latest (t.slots i) ops none = some v → t.vals i = v := by
  have hm := history_mod hn hr
  obtain ⟨inv, m, S, R⟩ := history_refines hn hr
  have hfold : ∀ (l a : List Visit), l.foldl (fun l x => l ++ [x]) a = a ++ l := by
    intro l
    induction l with
    | nil => intro a; simp
    | cons x l ih => intro a; rw [List.foldl_cons, ih]; simp
  have hkeys : visitedKeys t.slots (expected (.table t.mod t.slots))
      = ((List.range t.mod).map t.slots).filter (· != nullHash) := by
    unfold visitedKeys expected
    rw [List.filterMap_map, List.filter_map]
    exact (congrFun (List.filterMap_eq_map (f := t.slots)) _)
  have hperm := occupied_perm_presentKeys inv S R hn
  refine ⟨_, C18_foreach_partial (fun _ : List Visit => .table t.mod t.slots) (fun l x => l ++ [x]) _
    (by simp only [View.bound]; omega) (fun _ _ h => h) [] rfl fuel (by simp only [View.bound]; omega), ?_, ?_, ?_⟩
  · rw [hfold, List.nil_append, hkeys]
    exact hperm
  · rw [hfold, List.nil_append, hkeys, hperm.nodup_iff]
    exact List.Pairwise.filter _ (nodup_eraseDups' _)
  · intro x hx
    rw [hfold, List.nil_append] at hx
    simp only [expected, List.mem_map, List.mem_filter, List.mem_range] at hx
    obtain ⟨i, ⟨h1, h2⟩, rfl⟩ := hx
    refine ⟨i, rfl, h1, ?_⟩
    intro v hv
    have hne : t.slots i ≠ nullHash := by simpa using h2
    have hm := (R (t.slots i) hne (t.vals i) (t.keys i)).mpr ⟨i, h1, rfl, rfl, rfl⟩
    obtain ⟨k, hk⟩ := spec_latest S (t.slots i) none (by intro v h; cases h) v hv
    rw [hk] at hm
    simp only [Option.some.injEq, Prod.mk.injEq] at hm
    exact hm.1.symm

example : ∃ t os, history (0 : Nat) (0 : Nat) 0
      [.write 1 1 10, .write 3 3 30, .write 5 5 50, .remove 3, .read 7 7] = some (t, os) ∧
      ((forEach (fun _ : List Visit => .table t.mod t.slots) (quiet fun l x => l ++ [x]) 10 []).map
        fun r => visitedKeys t.slots r.1) == some [5, 1, 7] :=
  exists_of_check _ (by decide +kernel)

/-! ### Where the property fails -/

/-- The cell given to `for( v : x )` and the hidden iterator cell. -/
inductive Cell where
  | number (n : Int)
  | container
  | iterator (p2 : Nat)
deriving DecidableEq, Repr

/-- `wr_pushIterator`, operations.cpp 415-429: for a number it is the iterated variable
that is reset, not the iterator. -/
def pushIterator (on to : Cell) : Cell × Cell :=
  match on with
  | .number _ => (.number 0, to)
  | .container => (on, .iterator initP2)
  | .iterator _ => (on, to)

/-- A for-each left by `break` after one round over a three-element array and then
executed with the same variable holding the number 5: the number is lost and the loop
goes on with element 1 of the old array. -/
theorem C18_number_resumes_old_loop :
    ∃ p2, next (.values 3) initP2 = some (.elem 0, p2) ∧
      pushIterator (.number 5) (.iterator p2) = (.number 0, .iterator p2) ∧
      (next (.values 3) p2).map Prod.fst = some (.elem 1) := ⟨encode 1, by decide, by decide, by decide⟩

/-- A recursive function: its for-each over three elements calls the function again in the
first round.  The inner run uses the same hidden iterator, so the outer loop ends after
one round. -/
def recursiveBody (t : List Visit × Bool) (p : Nat) (x : Visit) : (List Visit × Bool) × Nat :=
  if t.2 then
    -- first round of the outer activation: run the inner activation to its end
    match forEach (fun _ : List Visit => .values 3) (quiet fun l _ => l) 10 [] with
    | some (_, p') => ((t.1 ++ [x], false), p')
    | none => ((t.1, false), p)
  else ((t.1 ++ [x], false), p)

theorem C18_recursion_cuts_loop_short :
    (forEach (fun _ => .values 3) recursiveBody 10 ([], true)).map (·.1.1) = some [.elem 0] := by decide +kernel

end Wrench.Containers.Foreach
