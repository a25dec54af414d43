/-!
# The growable array `WRarray<T>` (`utils/utils.h` 83-280)

`buf` is the allocated block (`m_list`, `[]` for a null pointer), `newed` the field
`m_elementsNewed` and `size` the field `m_elementsAllocated`.  An access outside `buf` is
undefined behaviour and is the outcome `none`.  Sizes are modelled as natural numbers (no
wrap-around at 2^32; the element counts of the compiler are far below).
-/

namespace Wrench.Util.Arr

structure Arr (α : Type) where
  buf : List α
  newed : Nat
  size : Nat
deriving DecidableEq

variable {α : Type}

/-- `newArray` (utils.h 94-105); `d` is the value made by `T()`. -/
def newArray (d : α) (n : Nat) : List α := List.replicate n d

/-- `clear` (utils.h 121-127) and the default constructor (utils.h 278). -/
def clear : Arr α := ⟨[], 0, 0⟩

/-- The copy loops `for( i<n ) na[i] = m_list[i]` (utils.h 210-213, 251-254, 265-268): the
first `n` elements of `src` stored at the start of `dst`. -/
def copyInto (src dst : List α) (n : Nat) : Option (List α) :=
  if n ≤ src.length ∧ n ≤ dst.length then some (src.take n ++ dst.drop n) else none

/-- `alloc` (utils.h 201-221). -/
def alloc (d : α) (a : Arr α) (n : Nat) : Option (Arr α) :=
  if n > a.newed then
    (if a.buf = [] then some (newArray d (n + n / 2 + 1))
      else copyInto a.buf (newArray d (n + n / 2 + 1)) a.size).map
      (fun b => ⟨b, n + n / 2 + 1, a.size⟩)
  else some a

/-- `setCount` (utils.h 130-137). -/
def setCount (d : α) (a : Arr α) (n : Nat) : Option (Arr α) :=
  (if n ≥ a.newed then alloc d a (n + 1) else some a).map (fun a => { a with size := n })

/-- `get(l)` / `operator[]` / `append` / `push` (utils.h 224-242, 275-276) followed by a store
through the returned reference. -/
def put (d : α) (a : Arr α) (l : Nat) (v : α) : Option (Arr α) :=
  (if l ≥ a.newed then (alloc d a (l + 1)).map (fun a => { a with size := l + 1 })
    else if l ≥ a.size then some { a with size := l + 1 }
    else some a).bind
    (fun a => if l < a.buf.length then some { a with buf := a.buf.set l v } else none)

/-- `get(l)` read as a value. -/
def get (d : α) (a : Arr α) (l : Nat) : Option (α × Arr α) :=
  (if l ≥ a.newed then (alloc d a (l + 1)).map (fun a => { a with size := l + 1 })
    else if l ≥ a.size then some { a with size := l + 1 }
    else some a).bind
    (fun a => a.buf[l]?.map (fun v => (v, a)))

/-- `append() = v` (utils.h 228). -/
def append (d : α) (a : Arr α) (v : α) : Option (Arr α) := put d a a.size v

/-- `tail` (utils.h 225). -/
def tail (a : Arr α) : Option α := if a.size = 0 then none else a.buf[a.size - 1]?

/-- `pop` (utils.h 226). -/
def pop (a : Arr α) : Arr α := { a with size := a.size - 1 }

/-- The loop of `remove` for a location other than 0 (utils.h 176-189): `i` runs over the old
elements, `j` is where the next kept one is stored. -/
def removeLoop (old : List α) (location skipEnd size : Nat) : Nat → Nat → Nat → List α → Option (List α)
  | 0, _, _, na => some na
  | fuel + 1, i, j, na =>
    if i < size then
      if i < location ∨ i ≥ skipEnd then
        match old[i]? with
        | none => none
        | some v => if j < na.length then removeLoop old location skipEnd size fuel (i + 1) (j + 1) (na.set j v) else none
      else removeLoop old location skipEnd size fuel (i + 1) j na
    else some na

/-- The loop of `remove` for location 0 (utils.h 169-172). -/
def shiftLoop (old : List α) (count newCount : Nat) : Nat → Nat → List α → Option (List α)
  | 0, _, na => some na
  | fuel + 1, i, na =>
    if i < newCount then
      match old[i + count]? with
      | none => none
      | some v => if i < na.length then shiftLoop old count newCount fuel (i + 1) (na.set i v) else none
    else some na

/-- `remove( location, count )` (utils.h 140-198). -/
def remove (d : α) (a : Arr α) (location count : Nat) : Option (Arr α) :=
  if location ≥ a.size then some a
  else if count > a.size ∧ location = 0 then some clear
  else
    let newCount := if count > a.size then location + 1 else a.size - count
    let na := newArray d newCount
    (if location = 0 then shiftLoop a.buf count newCount newCount 0 na
      else removeLoop a.buf location (location + count) a.size a.size 0 0 na).map
      (fun b => ⟨b, newCount, newCount⟩)

/-- The copy constructor (utils.h 245-256): a block of `m_elementsAllocated` elements, but the
capacity of the original. -/
def copyConstruct (d : α) (a : Arr α) : Option (Arr α) :=
  (copyInto a.buf (newArray d a.size) a.size).map (fun b => ⟨b, a.newed, a.size⟩)

/-- `operator=` (utils.h 259-273) from another array. -/
def assign (d : α) (a : Arr α) : Option (Arr α) :=
  (copyInto a.buf (newArray d a.newed) a.size).map (fun b => ⟨b, a.newed, a.size⟩)

/-! ### Specification: lists -/

/-- The elements of the array. -/
def Arr.list (a : Arr α) : List α := a.buf.take a.size

/-- The operations of a history; `copy` replaces the array by one assigned from it. -/
inductive Op (α : Type) where
  | put (l : Nat) (v : α)
  | append (v : α)
  | pop
  | setCount (n : Nat)
  | remove (location count : Nat)
  | clear
  | copy

/-- What an operation does to the list of elements.  Storing beyond the end and enlarging
with `setCount` leave the elements in between unspecified. -/
inductive Op.Spec : Op α → List α → List α → Prop
  | put_in {l : Nat} {v : α} {xs : List α} : l < xs.length → Op.Spec (.put l v) xs (xs.set l v)
  | put_out {l : Nat} {v : α} {xs ys : List α} : xs.length ≤ l → ys.length = l - xs.length →
      Op.Spec (.put l v) xs (xs ++ ys ++ [v])
  | append {v : α} {xs : List α} : Op.Spec (.append v) xs (xs ++ [v])
  | pop {xs : List α} : Op.Spec .pop xs xs.dropLast
  | shrink {n : Nat} {xs : List α} : n ≤ xs.length → Op.Spec (.setCount n) xs (xs.take n)
  | enlarge {n : Nat} {xs ys : List α} : xs.length ≤ n → (xs ++ ys).length = n → Op.Spec (.setCount n) xs (xs ++ ys)
  | remove {l c : Nat} {xs : List α} : Op.Spec (.remove l c) xs (xs.take l ++ xs.drop (l + c))
  | clear {xs : List α} : Op.Spec .clear xs []
  | copy {xs : List α} : Op.Spec .copy xs xs

def Op.run (d : α) : Op α → Arr α → Option (Arr α)
  | .put l v, a => Arr.put d a l v
  | .append v, a => Arr.append d a v
  | .pop, a => some (Arr.pop a)
  | .setCount n, a => Arr.setCount d a n
  | .remove l c, a => Arr.remove d a l c
  | .clear, _ => some Arr.clear
  | .copy, a => Arr.assign d a

/-- The range of a `remove` lies inside the array, starts beyond it, or is everything. -/
def Op.Proper : Op α → List α → Prop
  | .remove l c, xs => xs.length ≤ l ∨ l + c ≤ xs.length ∨ l = 0
  | _, _ => True

/-- The block has the recorded capacity and holds the elements. -/
def WF (a : Arr α) : Prop := a.buf.length = a.newed ∧ a.size ≤ a.newed

theorem length_list {a : Arr α} (h : WF a) : a.list.length = a.size := by
  simp only [Arr.list, List.length_take, h.1]; have := h.2; omega

theorem alloc_spec (d : α) {a : Arr α} (h : WF a) (n : Nat) :
    ∃ a', alloc d a n = some a' ∧ WF a' ∧ a'.size = a.size ∧ n ≤ a'.newed ∧ a.newed ≤ a'.newed ∧ a'.list = a.list := by
  unfold alloc
  by_cases hn : n > a.newed
  · rw [if_pos hn]
    obtain ⟨h1, h2⟩ := h
    by_cases hb : a.buf = []
    · rw [if_pos hb]
      have h0 : a.newed = 0 := by rw [← h1, hb]; rfl
      have hs : a.size = 0 := by omega
      refine ⟨⟨newArray d (n + n / 2 + 1), n + n / 2 + 1, a.size⟩, rfl, ⟨by simp [newArray], by simp only; omega⟩,
        rfl, by simp only; omega, by simp only; omega, ?_⟩
      simp [Arr.list, hs]
    · rw [if_neg hb]
      unfold copyInto
      rw [if_pos ⟨by omega, by simp only [newArray, List.length_replicate]; omega⟩]
      refine ⟨⟨_, n + n / 2 + 1, a.size⟩, rfl, ⟨?_, by simp only; omega⟩, rfl, by simp only; omega, by simp only; omega, ?_⟩
      · simp only [List.length_append, List.length_take, List.length_drop, newArray, List.length_replicate]
        omega
      · simp only [Arr.list]
        rw [List.take_append_of_le_length (by simp only [List.length_take]; omega), List.take_take, Nat.min_self]
  · rw [if_neg hn]
    exact ⟨a, rfl, h, rfl, by omega, Nat.le_refl _, rfl⟩

/-- The first part of `get`: afterwards the element `l` exists. -/
theorem reach_spec (d : α) {a : Arr α} (h : WF a) (l : Nat) :
    ∃ a', (if l ≥ a.newed then (alloc d a (l + 1)).map (fun a => { a with size := l + 1 })
      else if l ≥ a.size then some { a with size := l + 1 } else some a) = some a' ∧ WF a' ∧
      a'.size = max a.size (l + 1) ∧ a'.buf.take a.size = a.list := by
  by_cases h1 : l ≥ a.newed
  · rw [if_pos h1]
    obtain ⟨a', e, w, hs, hn, hn2, hl⟩ := alloc_spec d h (l + 1)
    rw [e]
    have := h.2
    refine ⟨{ a' with size := l + 1 }, rfl, ⟨w.1, hn⟩, by simp only; omega, ?_⟩
    rw [← hl, Arr.list, hs]
  · rw [if_neg h1]
    by_cases h2 : l ≥ a.size
    · rw [if_pos h2]
      exact ⟨_, rfl, ⟨h.1, by simp only; omega⟩, by simp only; omega, rfl⟩
    · rw [if_neg h2]
      exact ⟨_, rfl, h, by omega, rfl⟩

theorem take_split (b : List α) {m n : Nat} (h : m ≤ n) : b.take n = b.take m ++ (b.take n).drop m := by
  conv => lhs; rw [← List.take_append_drop m (b.take n), List.take_take, Nat.min_eq_left h]

theorem put_spec (d : α) {a : Arr α} (h : WF a) (l : Nat) (v : α) :
    ∃ a', put d a l v = some a' ∧ WF a' ∧ Op.Spec (.put l v) a.list a'.list := by
  obtain ⟨a', e, w, hs, hl⟩ := reach_spec d h l
  have hlt : l < a'.buf.length := by rw [w.1]; have := w.2; omega
  unfold put
  rw [e]
  simp only [Option.bind_some]
  rw [if_pos hlt]
  refine ⟨_, rfl, ⟨by simp [w.1], w.2⟩, ?_⟩
  have hlen := length_list h
  rw [show Arr.list { a' with buf := a'.buf.set l v } = (a'.buf.set l v).take a'.size from rfl]
  by_cases hin : l < a.size
  · have hs' : a'.size = a.size := by omega
    rw [hs', List.take_set, hl]
    exact .put_in (by omega)
  · have hs' : a'.size = l + 1 := by omega
    rw [hs']
    have hy : (a'.buf.take l).drop a.size = (a'.buf.drop a.size).take (l - a.size) := by
      rw [List.drop_take]
    have : (a'.buf.set l v).take (l + 1) = a.list ++ (a'.buf.drop a.size).take (l - a.size) ++ [v] := by
      rw [List.take_add_one, List.getElem?_set_self hlt, List.take_set_of_le (Nat.le_refl _), ← hl, ← hy]
      congr 1
      exact take_split _ (by omega)
    rw [this]
    refine .put_out (by omega) ?_
    simp only [List.length_take, List.length_drop]
    omega

theorem append_spec (d : α) {a : Arr α} (h : WF a) (v : α) :
    ∃ a', append d a v = some a' ∧ WF a' ∧ a'.list = a.list ++ [v] := by
  obtain ⟨a', e, w, s⟩ := put_spec d h a.size v
  refine ⟨a', e, w, ?_⟩
  have hlen := length_list h
  generalize ho : Op.put a.size v = o at s
  generalize a'.list = r at s
  cases s with
  | put_in hl => injection ho with h1; omega
  | put_out h1 h2 =>
    injection ho with h3 h4
    subst h4; subst h3
    rw [List.length_eq_zero_iff.mp (h2.trans (by omega))]
    simp
  | _ => cases ho

theorem shiftLoop_spec (old : List α) (count newCount : Nat) (hold : newCount + count ≤ old.length) :
    ∀ (fuel i : Nat) (na : List α), na.length = newCount → i + fuel = newCount →
    na.take i = (old.drop count).take i → shiftLoop old count newCount fuel i na = some ((old.drop count).take newCount)
  | 0, i, na, hl, hf, ht => by
    have hi : i = newCount := by omega
    subst hi
    simp only [shiftLoop]
    rw [← ht, ← hl, List.take_length]
  | fuel + 1, i, na, hl, hf, ht => by
    unfold shiftLoop
    rw [if_pos (by omega), List.getElem?_eq_getElem (by omega)]
    simp only
    rw [if_pos (by omega)]
    refine shiftLoop_spec old count newCount hold fuel (i + 1) _ (by simp [hl]) (by omega) ?_
    rw [List.take_add_one, List.getElem?_set_self (by omega), List.take_set_of_le (Nat.le_refl _), ht, List.take_add_one]
    congr 1
    rw [List.getElem?_drop, Nat.add_comm count i, List.getElem?_eq_getElem (by omega)]

/-- The elements `i` keeps or skips when removing `[location, skipEnd)`. -/
theorem removeLoop_spec (old : List α) (location skipEnd size : Nat) (hls : location ≤ skipEnd)
    (hsz : skipEnd ≤ size) (hold : size ≤ old.length) :
    ∀ (fuel i j : Nat) (na : List α), na.length = location + (size - skipEnd) → i + fuel = size →
    j = (if i < location then i else location + (i - skipEnd)) →
    na.take j = (if i < location then old.take i else old.take location ++ (old.take i).drop skipEnd) →
    removeLoop old location skipEnd size fuel i j na = some (old.take location ++ (old.take size).drop skipEnd)
  | 0, i, j, na, hl, hf, hj, ht => by
    have hi : i = size := by omega
    subst hi
    simp only [removeLoop]
    have hnl : ¬ i < location ∨ i < location := by omega
    rw [if_neg (by omega)] at hj ht
    subst hj
    have : na.take (location + (i - skipEnd)) = na := by rw [← hl, List.take_length]
    rw [← this, ht]
  | fuel + 1, i, j, na, hl, hf, hj, ht => by
    unfold removeLoop
    rw [if_pos (by omega)]
    by_cases hk : i < location ∨ i ≥ skipEnd
    · rw [if_pos hk, List.getElem?_eq_getElem (by omega)]
      simp only
      have hjl : j < na.length := by
        rw [hl, hj]
        split <;> omega
      rw [if_pos hjl]
      refine removeLoop_spec old location skipEnd size hls hsz hold fuel (i + 1) (j + 1) _ (by simp [hl]) (by omega) ?_ ?_
      · rw [hj]; split <;> split <;> omega
      · rw [List.take_add_one, List.getElem?_set_self hjl, List.take_set_of_le (Nat.le_refl _), ht]
        by_cases h1 : i < location
        · rw [if_pos h1]
          by_cases h2 : i + 1 < location
          · rw [if_pos h2, List.take_add_one, List.getElem?_eq_getElem (by omega)]
          · have : i + 1 = location := by omega
            rw [if_neg h2, this, List.drop_eq_nil_of_le (by simp only [List.length_take]; omega), List.append_nil,
              ← this, List.take_add_one, List.getElem?_eq_getElem (by omega)]
        · rw [if_neg h1, if_neg (by omega), List.append_assoc]
          congr 1
          rw [List.take_add_one, List.getElem?_eq_getElem (by omega), List.drop_append_of_le_length]
          simp only [List.length_take]; omega
    · rw [if_neg hk]
      refine removeLoop_spec old location skipEnd size hls hsz hold fuel (i + 1) j na hl (by omega) ?_ ?_
      · rw [hj]; split <;> split <;> omega
      · rw [ht, if_neg (by omega), if_neg (by omega), List.drop_eq_nil_of_le, List.drop_eq_nil_of_le]
        · simp only [List.length_take]; omega
        · simp only [List.length_take]; omega

theorem remove_spec (d : α) {a : Arr α} (h : WF a) (l c : Nat) (hp : Op.Proper (.remove l c) a.list) :
    ∃ a', remove d a l c = some a' ∧ WF a' ∧ a'.list = a.list.take l ++ a.list.drop (l + c) := by
  have hlen := length_list h
  obtain ⟨h1, h2⟩ := h
  simp only [Op.Proper, hlen] at hp
  unfold remove
  by_cases hl : l ≥ a.size
  · rw [if_pos hl]
    refine ⟨a, rfl, ⟨h1, h2⟩, ?_⟩
    rw [List.take_of_length_le (i := l) (by omega), List.drop_eq_nil_of_le (by omega), List.append_nil]
  · rw [if_neg hl]
    by_cases hc : c > a.size ∧ l = 0
    · rw [if_pos hc]
      refine ⟨clear, rfl, ⟨rfl, Nat.le_refl _⟩, ?_⟩
      rw [hc.2, List.drop_eq_nil_of_le (by omega)]
      rfl
    · rw [if_neg hc]
      have hc' : l + c ≤ a.size := by omega
      simp only [if_neg (show ¬ c > a.size by omega)]
      by_cases hl0 : l = 0
      · rw [if_pos hl0, shiftLoop_spec a.buf c _ (by omega) _ _ _ (by simp [newArray]) (by omega) (by simp)]
        refine ⟨_, rfl, ⟨?_, Nat.le_refl _⟩, ?_⟩
        · simp only [List.length_take, List.length_drop]; omega
        · simp only [Arr.list, hl0, List.take_zero, List.nil_append, Nat.zero_add]
          rw [List.take_take, Nat.min_self, List.drop_take]
      · rw [if_neg hl0, removeLoop_spec a.buf l (l + c) a.size (by omega) hc' (by omega) _ _ _ _
          (by simp only [newArray, List.length_replicate]; omega) (by omega) (by rw [if_pos (by omega)])
          (by rw [if_pos (by omega)]; simp)]
        refine ⟨_, rfl, ⟨?_, Nat.le_refl _⟩, ?_⟩
        · simp only [List.length_append, List.length_take, List.length_drop]; omega
        · simp only [Arr.list]
          rw [List.take_of_length_le (l := a.buf.take l ++ _)
            (by simp only [List.length_append, List.length_take, List.length_drop]; omega),
            List.take_take, Nat.min_eq_left (by omega)]

theorem setCount_spec (d : α) {a : Arr α} (h : WF a) (n : Nat) :
    ∃ a', setCount d a n = some a' ∧ WF a' ∧ Op.Spec (.setCount n) a.list a'.list := by
  have hlen := length_list h
  have key : ∀ b : Arr α, WF b → b.size = a.size → n ≤ b.newed → b.list = a.list →
      WF { b with size := n } ∧ Op.Spec (.setCount n) a.list (Arr.list { b with size := n }) := by
    intro b hb hs hn hl
    refine ⟨⟨hb.1, hn⟩, ?_⟩
    rw [show Arr.list { b with size := n } = b.buf.take n from rfl]
    rw [show Arr.list b = b.buf.take b.size from rfl] at hl
    by_cases hna : n ≤ a.size
    · have : b.buf.take n = a.list.take n := by
        rw [← hl, List.take_take, hs, Nat.min_eq_left hna]
      rw [this]
      exact .shrink (by omega)
    · have : b.buf.take n = a.list ++ (b.buf.take n).drop a.size := by
        rw [← hl, hs]
        exact take_split _ (by omega)
      rw [this]
      refine .enlarge (by omega) ?_
      rw [← this, List.length_take]
      have := hb.1
      omega
  unfold setCount
  by_cases hn : n ≥ a.newed
  · rw [if_pos hn]
    obtain ⟨a', e, w, hs, hn1, hn2, hl⟩ := alloc_spec d h (n + 1)
    rw [e]
    exact ⟨_, rfl, key a' w hs (by omega) hl⟩
  · rw [if_neg hn]
    exact ⟨_, rfl, key a h rfl (by omega) rfl⟩

theorem assign_spec (d : α) {a : Arr α} (h : WF a) : ∃ a', assign d a = some a' ∧ WF a' ∧ a'.list = a.list := by
  obtain ⟨h1, h2⟩ := h
  unfold assign copyInto
  rw [if_pos ⟨by omega, by simpa [newArray] using h2⟩]
  refine ⟨_, rfl, ⟨?_, h2⟩, ?_⟩
  · simp only [List.length_append, List.length_take, List.length_drop, newArray, List.length_replicate]
    omega
  · simp only [Arr.list]
    rw [List.take_append_of_le_length (by simp only [List.length_take]; omega), List.take_take, Nat.min_self]

/-- A history of operations as the specification sees it: the states of the list. -/
inductive SpecRun : List (Op α) → List α → List α → Prop
  | nil {xs : List α} : SpecRun [] xs xs
  | cons {o : Op α} {os : List (Op α)} {xs ys zs : List α} : o.Spec xs ys → SpecRun os ys zs → SpecRun (o :: os) xs zs

def run (d : α) : List (Op α) → Arr α → Option (Arr α)
  | [], a => some a
  | o :: os, a => (o.run d a).bind (run d os)

/-- Every `remove` of the history is proper, whatever the unspecified elements are: the
property depends only on the lengths. -/
def ProperRun : List (Op α) → Nat → Prop
  | [], _ => True
  | .put l _ :: os, n => ProperRun os (max n (l + 1))
  | .append _ :: os, n => ProperRun os (n + 1)
  | .pop :: os, n => ProperRun os (n - 1)
  | .setCount k :: os, _ => ProperRun os k
  | .remove l c :: os, n => (n ≤ l ∨ l + c ≤ n ∨ l = 0) ∧ ProperRun os (n - min c (n - l))
  | .clear :: os, _ => ProperRun os 0
  | .copy :: os, n => ProperRun os n

theorem op_spec (d : α) (o : Op α) {a : Arr α} (h : WF a) (hp : o.Proper a.list) :
    ∃ a', o.run d a = some a' ∧ WF a' ∧ o.Spec a.list a'.list := by
  cases o with
  | put l v => exact put_spec d h l v
  | append v =>
    obtain ⟨a', e, w, hl⟩ := append_spec d h v
    exact ⟨a', e, w, hl ▸ .append⟩
  | pop =>
    refine ⟨_, rfl, ⟨h.1, by simp only [pop]; have := h.2; omega⟩, ?_⟩
    have : (pop a).list = a.list.dropLast := by
      rw [List.dropLast_eq_take, length_list h]
      simp only [Arr.list, pop]
      rw [List.take_take, Nat.min_eq_left (by omega)]
    rw [this]
    exact .pop
  | setCount n => exact setCount_spec d h n
  | remove l c =>
    obtain ⟨a', e, w, hl⟩ := remove_spec d h l c hp
    exact ⟨a', e, w, hl ▸ .remove⟩
  | clear => exact ⟨_, rfl, ⟨rfl, Nat.le_refl _⟩, .clear⟩
  | copy =>
    obtain ⟨a', e, w, hl⟩ := assign_spec d h
    exact ⟨a', e, w, hl ▸ .copy⟩

theorem run_spec (d : α) : ∀ (ops : List (Op α)) (a : Arr α), WF a → ProperRun ops a.size →
    ∃ a', run d ops a = some a' ∧ WF a' ∧ SpecRun ops a.list a'.list
  | [], a, h, _ => ⟨a, rfl, h, .nil⟩
  | o :: os, a, h, hp => by
    have hlen := length_list h
    have hprop : o.Proper a.list := by
      cases o with
      | remove l c => simp only [Op.Proper, hlen]; exact hp.1
      | _ => trivial
    obtain ⟨a1, e1, w1, s1⟩ := op_spec d o h hprop
    have hlen1 := length_list w1
    have hp1 : ProperRun os a1.size := by
      rw [← hlen1]
      rw [← hlen] at hp
      generalize a1.list = ys at s1
      generalize a.list = xs at s1 hp
      cases s1 with
      | put_in hl => simpa [ProperRun, Nat.max_eq_left (show _ + 1 ≤ xs.length from hl)] using hp
      | put_out h1 h2 =>
        simp only [ProperRun] at hp
        simp only [List.length_append, List.length_singleton, h2]
        rwa [show ∀ l, xs.length ≤ l → max xs.length (l + 1) = xs.length + (l - xs.length) + 1 from by
          intro l hl; omega] at hp
        exact h1
      | append => simpa [ProperRun] using hp
      | pop => simpa [ProperRun] using hp
      | shrink hn => simpa [ProperRun, Nat.min_eq_left hn] using hp
      | enlarge hn hl => rw [hl]; exact hp
      | remove =>
        rename_i l c
        have := hp.2
        simp only [List.length_append, List.length_take, List.length_drop]
        rwa [show min l xs.length + (xs.length - (l + c)) = xs.length - min c (xs.length - l) by omega]
      | clear => exact hp
      | copy => exact hp
    obtain ⟨a2, e2, w2, s2⟩ := run_spec d os a1 w1 hp1
    refine ⟨a2, ?_, w2, .cons s1 s2⟩
    simp only [run, e1]
    exact e2

/-- **C36 (partial).**  Every history of stores, appends, pops, resizes, removals, clears and
assignments on a new array runs without an access outside the block and the elements at the
end are those of the same history on a list.  Missing: removals whose range straddles the end
of the array (`C36_remove_overruns`, `C36_remove_keeps_extra`) and copy construction
(`C36_copy_capacity`). -/
theorem C36_array_is_list_partial (d : α) (ops : List (Op α)) (hp : ProperRun ops 0) :
    ∃ a, run d ops clear = some a ∧ SpecRun ops [] a.list := by
  obtain ⟨a, e, -, s⟩ := run_spec d ops clear ⟨rfl, Nat.le_refl _⟩ hp
  exact ⟨a, e, s⟩

/-- Reading an element inside the array gives that element and changes nothing. -/
theorem C36_read (d : α) (a : Arr α) (h : WF a) (l : Nat) (hl : l < a.list.length) :
    get d a l = some (a.list[l], a) := by
  have hlen := length_list h
  have h1 := h.1
  have h2 := h.2
  unfold get
  rw [if_neg (by omega), if_neg (by omega)]
  simp only [Option.bind_some]
  rw [List.getElem?_eq_getElem (by omega)]
  simp [Arr.list, List.getElem_take]

/-- `get` beyond the end, too, reads inside the block; the array then has that element as its last, and the
elements it had. -/
theorem C36_read_beyond (d : α) (a : Arr α) (h : WF a) (l : Nat) (hl : a.list.length ≤ l) :
    ∃ v a', get d a l = some (v, a') ∧ WF a' ∧ a'.list.length = l + 1 ∧ a'.list[l]? = some v ∧
      a'.list.take a.list.length = a.list := by
  have hlen := length_list h
  obtain ⟨a', e, w, hs, ht⟩ := reach_spec d h l
  have hlt : l < a'.buf.length := by rw [w.1]; have := w.2; omega
  refine ⟨a'.buf[l], a', ?_, w, ?_, ?_, ?_⟩
  · unfold get
    rw [e]
    simp [List.getElem?_eq_getElem hlt]
  · rw [length_list w, hs]; omega
  · rw [Arr.list, List.getElem?_take, if_pos (by omega), List.getElem?_eq_getElem hlt]
  · rw [hlen, Arr.list, List.take_take, Nat.min_eq_left (by omega), ht]

/-- `tail` is the last element, and nothing for an empty array. -/
theorem C36_tail (a : Arr α) (h : WF a) : tail a = a.list.getLast? := by
  have hlen := length_list h
  have h1 := h.1
  have h2 := h.2
  unfold tail
  rw [List.getLast?_eq_getElem?, hlen]
  simp only [Arr.list]
  split
  · rename_i h0; simp [h0]
  · rw [List.getElem?_take_of_lt (by omega)]

/-- **C36 fails**: removing two elements from position 2 of a three-element array writes
outside the new block. -/
theorem C36_remove_overruns : ∃ a, run 0 [.append 1, .append 2, .append 3] clear = some a ∧
    a.list = [1, 2, 3] ∧ remove 0 a 2 2 = none := by
  refine ⟨⟨[1, 2, 3, 0, 0], 5, 3⟩, ?_⟩
  decide

/-- **C36 fails**: removing more elements than there are from position 1 keeps two elements,
the second one a fresh default. -/
theorem C36_remove_keeps_extra : ∃ a a', run 0 [.append 1, .append 2, .append 3] clear = some a ∧
    a.list = [1, 2, 3] ∧ remove 0 a 1 4 = some a' ∧ a'.list = [1, 0] := by
  refine ⟨⟨[1, 2, 3, 0, 0], 5, 3⟩, ⟨[1, 0], 2, 2⟩, ?_⟩
  decide

/-- **C36 fails**: a copy-constructed array believes it has the capacity of the original, so
appending to it writes outside its block. -/
theorem C36_copy_capacity : ∃ a a', run 0 [.append 1, .append 2, .append 3] clear = some a ∧
    copyConstruct 0 a = some a' ∧ a'.list = a.list ∧ append 0 a' 4 = none := by
  refine ⟨⟨[1, 2, 3, 0, 0], 5, 3⟩, ⟨[1, 2, 3], 5, 3⟩, ?_⟩
  decide

/-- A history meeting the hypothesis of `C36_array_is_list_partial`. -/
example : ProperRun [.append 1, .append 2, .append 3, .append 4, .put 7 9, .remove 1 2, .setCount 3, .copy, .pop, .remove 0 9] 0 ∧
    run 0 [.append 1, .append 2, .append 3, .append 4, .put 7 9, .remove 1 2, .setCount 3, .copy, .pop] clear =
      some ⟨[1, 4, 0, 0, 0, 0], 6, 2⟩ := by
  refine ⟨by simp [ProperRun], by decide⟩

end Wrench.Util.Arr
