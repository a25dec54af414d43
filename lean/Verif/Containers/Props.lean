import Verif.Containers.Model

/-
C19 (array library = list edits) and C20 (stack LIFO, queue FIFO).
-/
namespace Wrench.Containers

variable {α : Type}

/-! ### Specification -/

/-- The list an array stands for. -/
def Arr.list (a : Arr α) : List α := a.buf.take a.size

/-- Invariant: the allocation covers the size, and its byte count is an `int`. -/
def Arr.WF (a : Arr α) : Prop := a.size ≤ a.buf.length ∧ a.size * 16 < 2147483648

theorem Arr.list_length {a : Arr α} (h : a.WF) : a.list.length = a.size := by
  unfold Arr.list; rw [List.length_take]; have := h.1; omega

theorem toU32_nonneg {i : Int} (h0 : 0 ≤ i) (h1 : i < 4294967296) : toU32 i = i.toNat := by
  unfold toU32 W; omega

theorem toI32_bits (n : Nat) : toI32 n = (BitVec.ofNat 32 n).toInt := by
  unfold toI32 W
  rw [BitVec.toInt_eq_toNat_cond, BitVec.toNat_ofNat]
  split <;> split <;> omega

theorem toI32_small {n : Nat} (h : n < 2147483648) : toI32 n = n := by
  unfold toI32 W; rw [if_pos (by omega)]; congr 1; omega

/-! ### Remove, truncate -/

theorem removeEx_spec {a : Arr α} (h : a.WF) (w c : Nat) (hc : c < 2147483648) :
    ∃ a', removeEx a w c = some a' ∧ a'.WF ∧ a'.buf.length = a.buf.length ∧
      a'.list = a.list.take w ++ a.list.drop (w + c) := by
  obtain ⟨hb, hs⟩ := h
  unfold removeEx
  by_cases hw : w < a.size
  · rw [if_pos hw]
    have hf : toU32 ((w : Int) + c) = w + c := by
      rw [toU32_nonneg (by omega) (by omega)]; omega
    simp only [hf]
    by_cases hge : w + c ≥ a.size
    · rw [if_pos hge]
      refine ⟨_, rfl, ⟨by simp only; omega, by simp only; omega⟩, rfl, ?_⟩
      unfold Arr.list
      simp only
      rw [List.take_take, List.drop_eq_nil_of_le (by rw [List.length_take]; omega), List.append_nil]
      congr 1; omega
    · rw [if_neg hge, memmove, if_pos (by omega)]
      have hsz : toU32 ((a.size : Int) - c) = a.size - c := by
        rw [toU32_nonneg (by omega) (by omega)]; omega
      simp only [Option.map_some, hsz]
      refine ⟨_, rfl, ⟨?_, by simp only; omega⟩, ?_, ?_⟩
      · simp; omega
      · simp; omega
      · unfold Arr.list
        simp only
        rw [List.take_append_of_le_length (by simp; omega), List.take_of_length_le (by simp; omega),
          List.take_take, List.drop_take]
        congr 1
        · congr 1; omega
  · rw [if_neg hw]
    refine ⟨a, rfl, ⟨hb, hs⟩, rfl, ?_⟩
    have hl : a.list.length = a.size := Arr.list_length ⟨hb, hs⟩
    rw [List.take_of_length_le (by omega), List.drop_eq_nil_of_le (by omega), List.append_nil]

/-- **C19**: `array::remove( a, where, count )` with non-negative arguments deletes exactly
the elements `where … where+count-1` (those that exist) and keeps the others in order;
`count` defaults to 1. -/
theorem C19_remove_partial {a : Arr α} (h : a.WF) (w : Int) (c : Option Int) (hw : 0 ≤ w) (hw2 : w < 2147483648)
    (hc : 0 ≤ c.getD 1) (hc2 : c.getD 1 < 2147483648) :
    ∃ a', remove a w c = some a' ∧ a'.WF ∧
      a'.list = a.list.take w.toNat ++ a.list.drop (w.toNat + (c.getD 1).toNat) := by
  obtain ⟨a', h1, h2, _, h3⟩ := removeEx_spec h w.toNat (c.getD 1).toNat (by omega)
  refine ⟨a', ?_, h2, h3⟩
  unfold remove
  rw [toU32_nonneg hw (by omega), ← h1]
  congr 1
  omega

example : remove (⟨[10, 20, 30, 40, 50], 5⟩ : Arr Nat) 1 (some 2) = some ⟨[10, 40, 50, 40, 50], 3⟩ := by decide

/-- A negative count makes `array::remove` write past the end of the array. -/
theorem C19_remove_negative_count : remove (⟨[10, 20, 30], 3⟩ : Arr Nat) 1 (some (-1)) = none := by decide

/-- **C19**: `array::truncate( a, n )` keeps the first `n` elements; a negative `n`
changes nothing. -/
theorem C19_truncate {a : Arr α} (h : a.WF) (n : Int) (hn : -2147483648 ≤ n) (hn2 : n < 2147483648) :
    (truncate a n).WF ∧
      (truncate a n).list = if n < 0 then a.list else a.list.take n.toNat := by
  have hl := Arr.list_length h
  obtain ⟨hb, hs⟩ := h
  unfold truncate
  by_cases h0 : n < 0
  · have : toU32 n = (n + 4294967296).toNat := by unfold toU32 W; omega
    rw [if_neg (by omega), if_pos h0]
    exact ⟨⟨hb, hs⟩, rfl⟩
  · rw [toU32_nonneg (by omega) (by omega), if_neg h0]
    by_cases hlt : n.toNat < a.size
    · rw [if_pos hlt]
      refine ⟨⟨by simp only; omega, by simp only; omega⟩, ?_⟩
      unfold Arr.list
      simp only
      rw [List.take_take]
      congr 1; omega
    · rw [if_neg hlt]
      exact ⟨⟨hb, hs⟩, (List.take_of_length_le (by omega)).symm⟩

/-! ### Insert, push, pop -/

theorem insertEx_spec [Inhabited α] {a : Arr α} (h : a.WF) (w c : Nat) (hw : w ≤ a.size)
    (hc : (a.size + c) * 16 < 2147483648) :
    ∃ a', insertEx a w c = some a' ∧ a'.WF ∧ a'.size = a.size + c ∧ a'.buf = a'.list ∧
      a'.list = a.list.take w ++ List.replicate c default ++ a.list.drop w := by
  have hl := Arr.list_length h
  obtain ⟨hb, hs⟩ := h
  have hi : toI32 (a.size + (c + W - 1)) + 1 = ((a.size + c : Nat) : Int) := by
    unfold toI32 W; split <;> omega
  have hg : grow a (toI32 (a.size + (c + W - 1)) + 1)
      = some { buf := a.list ++ List.replicate c default, size := a.size + c } := by
    rw [hi, grow, if_neg (by unfold cellSize; omega)]
    simp only [Int.toNat_natCast]
    rw [if_neg (by omega), show a.size + c - a.size = c by omega]
    rfl
  unfold insertEx
  rw [hg, Option.bind_some]
  have he : (a.size + W - w) % W = a.size - w := by unfold W; omega
  simp only [he]
  by_cases hz : a.size - w = 0
  · rw [if_pos hz]
    have hw' : w = a.size := by omega
    refine ⟨_, rfl, ⟨?_, by simp only; omega⟩, rfl, ?_, ?_⟩
    · simp [hl]
    · rw [show ∀ (b : List α) n, (Arr.mk b n).list = b.take n from fun _ _ => rfl]
      exact (List.take_of_length_le (by simp only [List.length_append, List.length_replicate]; unfold Arr.list at hl; omega)).symm
    · unfold Arr.list; simp only
      rw [List.take_of_length_le (by rw [List.length_append, List.length_replicate]; unfold Arr.list at hl; omega)]
      rw [List.take_take, List.drop_eq_nil_of_le (by unfold Arr.list at hl; omega), List.append_nil, hw', Nat.min_self]
  · rw [if_neg hz]
    have hwc : (w + c) % W = w + c := by unfold W; omega
    rw [hwc, memmove, if_pos (by rw [List.length_append, List.length_replicate, hl]; omega), Option.bind_some, zero]
    rw [if_pos (by simp; omega)]
    simp only [Option.map_some]
    have key : ∀ (L : List α), L.length = a.size →
        let m := List.take (w + c) (L ++ List.replicate c default) ++
            List.take (a.size - w) (List.drop w (L ++ List.replicate c default)) ++
          List.drop (w + c + (a.size - w)) (L ++ List.replicate c default)
        List.take w m ++ List.replicate c default ++ List.drop (w + c) m
          = L.take w ++ List.replicate c default ++ L.drop w := by
      intro L hL m
      have hm1 : List.take w m = L.take w := by
        simp only [m]
        rw [List.append_assoc, List.take_append_of_le_length (by simp; omega), List.take_take,
          Nat.min_eq_left (by omega), List.take_append_of_le_length (by omega)]
      have hm2 : List.drop (w + c) m = L.drop w := by
        simp only [m]
        rw [List.append_assoc, List.drop_append_of_le_length (by simp; omega),
          show List.drop (w + c) (List.take (w + c) (L ++ List.replicate c default)) = [] from
            List.drop_eq_nil_of_le (List.length_take_le _ _), List.nil_append,
          List.drop_append_of_le_length (by omega),
          List.take_append_of_le_length (by simp; omega), List.take_of_length_le (by simp; omega),
          show List.drop (w + c + (a.size - w)) (L ++ List.replicate c default) = [] from
            List.drop_eq_nil_of_le (by simp; omega), List.append_nil]
      rw [hm1, hm2]
    have hk := key a.list hl
    simp only at hk
    rw [hk]
    have hlen : (a.list.take w ++ List.replicate c default ++ a.list.drop w : List α).length = a.size + c := by
      simp; omega
    refine ⟨_, rfl, ⟨by simp only [hlen]; omega, by simp only; omega⟩, rfl, ?_, ?_⟩
    · exact (List.take_of_length_le (by simp only [hlen]; omega)).symm
    · rw [show ∀ (b : List α) n, (Arr.mk b n).list = b.take n from fun _ _ => rfl]
      rw [List.take_of_length_le (by omega)]

/-- **C19**: `array::insert( a, where, count )` with `where` not beyond the end inserts
exactly `count` default values before position `where`. -/
theorem C19_insert_partial [Inhabited α] {a : Arr α} (h : a.WF) (w : Int) (c : Option Int)
    (hw : 0 ≤ w) (hw2 : w.toNat ≤ a.size) (hc : 0 ≤ c.getD 1)
    (hc2 : (a.size + (c.getD 1).toNat) * 16 < 2147483648) :
    ∃ a', insert a w c = some a' ∧ a'.WF ∧
      a'.list = a.list.take w.toNat ++ List.replicate (c.getD 1).toNat default ++ a.list.drop w.toNat := by
  have hs := h.2
  obtain ⟨a', h1, h2, _, _, h3⟩ := insertEx_spec h w.toNat (c.getD 1).toNat hw2 hc2
  refine ⟨a', ?_, h2, h3⟩
  unfold insert
  rw [toU32_nonneg hw (by omega), toU32_nonneg hc (by omega), h1]

example : insert (⟨[10, 20, 30], 3⟩ : Arr Nat) 1 (some 2) = some ⟨[10, 0, 0, 20, 30], 5⟩ := by decide

/-- Inserting beyond the end is undefined: the number of elements to move wraps around. -/
theorem C19_insert_beyond_end : insert (⟨[10], 1⟩ : Arr Nat) 5 none = none := by decide

/-- A negative count shrinks the new allocation below what is copied into it. -/
theorem C19_insert_negative_count : insert (⟨[10, 20, 30], 3⟩ : Arr Nat) 0 (some (-1)) = none := by decide

theorem push_spec [Inhabited α] {a : Arr α} (h : a.WF) (v : α) (hs : (a.size + 1) * 16 < 2147483648) :
    ∃ a', push a v = some a' ∧ a'.WF ∧ a'.size = a.size + 1 ∧ a'.list = v :: a.list := by
  obtain ⟨g, h1, h2, h3, h4, h5⟩ := insertEx_spec h 0 1 (Nat.zero_le _) hs
  have hb : g.buf = default :: a.list := by rw [h4, h5]; simp
  have hl := Arr.list_length h
  unfold push
  rw [h1, Option.bind_some, if_pos (by rw [hb]; simp)]
  refine ⟨_, rfl, ⟨by simpa using h2.1, h2.2⟩, h3, ?_⟩
  unfold Arr.list
  simp only [hb, h3, List.set_cons_zero]
  rw [List.take_of_length_le]
  · rfl
  · simp only [List.length_cons]
    unfold Arr.list at hl ⊢
    omega

theorem pushBack_spec [Inhabited α] {a : Arr α} (h : a.WF) (v : α) (hs : (a.size + 1) * 16 < 2147483648) :
    ∃ a', pushBack a v = some a' ∧ a'.WF ∧ a'.size = a.size + 1 ∧ a'.list = a.list ++ [v] := by
  obtain ⟨g, h1, h2, h3, h4, h5⟩ := insertEx_spec h a.size 1 (Nat.le_refl _) hs
  have hl := Arr.list_length h
  have hb : g.buf = a.list ++ [default] := by
    rw [h4, h5, List.take_of_length_le (by omega), List.drop_eq_nil_of_le (by omega)]; simp
  unfold pushBack
  rw [h1, Option.bind_some, if_pos (by rw [hb]; simp [hl])]
  refine ⟨_, rfl, ⟨by simpa using h2.1, h2.2⟩, h3, ?_⟩
  rw [show ∀ (b : List α) n, (Arr.mk b n).list = b.take n from fun _ _ => rfl]
  rw [hb, h3, List.set_append_right _ _ (by omega), hl, Nat.sub_self]
  rw [List.set_cons_zero, List.take_of_length_le (by simp [hl])]

theorem pop_spec [Inhabited α] {a : Arr α} (h : a.WF) :
    ∃ a', pop a = some (a.list.head?.getD default, a') ∧ a'.WF ∧ a'.size = a.size - 1 ∧ a'.list = a.list.tail := by
  have hl := Arr.list_length h
  unfold pop
  by_cases h0 : a.size = 0
  · rw [if_neg (by simpa using h0)]
    have : a.list = [] := List.eq_nil_of_length_eq_zero (by omega)
    refine ⟨a, by rw [this]; rfl, h, by omega, by rw [this]; rfl⟩
  · rw [if_pos h0]
    obtain ⟨a', h1, h2, h3, h4⟩ := removeEx_spec h 0 1 (by omega)
    have hpos : 0 < a.buf.length := by have := h.1; omega
    rw [List.getElem?_eq_getElem hpos, Option.bind_some, show ((1 : Int)) = ((1 : Nat) : Int) from rfl, h1]
    have hlist : a'.list = a.list.tail := by rw [h4]; simp
    refine ⟨a', ?_, h2, ?_, hlist⟩
    · simp only [Option.map_some]
      congr 2
      unfold Arr.list
      match hbf : a.buf, hpos with
      | x :: xs, _ =>
        obtain ⟨n, hn⟩ : ∃ n, a.size = n + 1 := ⟨a.size - 1, by omega⟩
        simp [hn]
    · have := Arr.list_length h2
      rw [hlist] at this
      simp at this; omega

theorem popBack_spec [Inhabited α] {a : Arr α} (h : a.WF) :
    ∃ a', popBack a = some (a.list.getLast?.getD default, a') ∧ a'.WF ∧ a'.size = a.size - 1 ∧
      a'.list = a.list.dropLast := by
  have hl := Arr.list_length h
  obtain ⟨hb, hs⟩ := h
  unfold popBack
  by_cases h0 : a.size = 0
  · rw [if_neg (by simpa using h0)]
    have : a.list = [] := List.eq_nil_of_length_eq_zero (by omega)
    refine ⟨a, by rw [this]; rfl, ⟨hb, hs⟩, by omega, by rw [this]; rfl⟩
  · rw [if_pos h0, List.getElem?_eq_getElem (by omega)]
    refine ⟨{ a with size := a.size - 1 }, ?_, ⟨?_, ?_⟩, rfl, ?_⟩
    · simp only [Option.map_some]
      congr 2
      rw [List.getLast?_eq_getElem?, hl]
      unfold Arr.list
      rw [List.getElem?_take_of_lt (by omega), List.getElem?_eq_getElem (by omega)]
      rfl
    · simp only; omega
    · simp only; omega
    · unfold Arr.list
      rw [List.dropLast_eq_take, List.take_take, List.length_take]
      simp only
      congr 1; omega

/-- **C19**: `push_front`, `push_back`, `pop_front`, `pop_back` are the list operations;
popping an empty list returns the default. -/
theorem C19_push_pop [Inhabited α] {a : Arr α} (h : a.WF) (v : α) (hs : (a.size + 1) * 16 < 2147483648) :
    (∃ a', push a v = some a' ∧ a'.WF ∧ a'.list = v :: a.list) ∧
    (∃ a', pushBack a v = some a' ∧ a'.WF ∧ a'.list = a.list ++ [v]) ∧
    (∃ a', pop a = some (a.list.head?.getD default, a') ∧ a'.WF ∧ a'.list = a.list.tail) ∧
    (∃ a', popBack a = some (a.list.getLast?.getD default, a') ∧ a'.WF ∧ a'.list = a.list.dropLast) := by
  obtain ⟨a1, p1, p2, _, p3⟩ := push_spec h v hs
  obtain ⟨a2, q1, q2, _, q3⟩ := pushBack_spec h v hs
  obtain ⟨a3, r1, r2, _, r3⟩ := pop_spec h
  obtain ⟨a4, s1, s2, _, s3⟩ := popBack_spec h
  exact ⟨⟨a1, p1, p2, p3⟩, ⟨a2, q1, q2, q3⟩, ⟨a3, r1, r2, r3⟩, ⟨a4, s1, s2, s3⟩⟩

/-- The bound in `C19_push_pop` is exact: an array which would reach 2^27 elements cannot be pushed to, as
its size in bytes is no longer an `int`. -/
theorem C19_push_limit [Inhabited α] {a : Arr α} (v : α) (hs : 2147483648 ≤ (a.size + 1) * 16)
    (hi : a.size < 2147483647) : push a v = none ∧ pushBack a v = none := by
  have hg : grow a (toI32 (a.size + (1 + W - 1)) + 1) = none := by
    have e : toI32 (a.size + (1 + W - 1)) + 1 = ((a.size + 1 : Nat) : Int) := by
      unfold toI32 W; split <;> omega
    rw [e, grow, if_pos (by unfold cellSize; omega)]
  constructor
  · unfold push insertEx
    rw [hg]; rfl
  · unfold pushBack insertEx
    rw [hg]; rfl

example (n : Nat) (hn : n = 134217727) : pushBack (⟨List.replicate n 7, n⟩ : Arr Nat) 8 = none :=
  (C19_push_limit (a := ⟨List.replicate n 7, n⟩) 8 (by simp only; omega)
    (by simp only; omega)).2

example : (push (⟨[1, 2], 2⟩ : Arr Nat) 7).bind popBack = some (2, ⟨[7, 1, 2], 2⟩) := by decide

/-! ### The `Remove` opcode -/

theorem shiftLoop_spec (size : Nat) (hs : size < W) : ∀ (f move : Nat) (buf : List α),
    size ≤ buf.length → move < size → size ≤ move + 1 + f →
    ∃ b, shiftLoop f move size buf = some b ∧ b.length = buf.length ∧
      b.take (size - 1) = (buf.take size).eraseIdx move
  | 0, move, buf, hb, hm, hf => by
    refine ⟨buf, rfl, rfl, ?_⟩
    have hmv : move = size - 1 := by omega
    rw [hmv, List.eraseIdx_eq_take_drop_succ, List.take_take, List.drop_eq_nil_of_le (by simp; omega),
      List.append_nil]
    congr 1; omega
  | f + 1, move, buf, hb, hm, hf => by
    rw [shiftLoop]
    have hmod : (move + 1) % W = move + 1 := Nat.mod_eq_of_lt (by omega)
    by_cases h : move + 1 < size
    · rw [hmod, if_pos h, List.getElem?_eq_getElem (by omega)]
      simp only
      rw [if_pos (by omega)]
      obtain ⟨b, h1, h2, h3⟩ := shiftLoop_spec size hs f (move + 1) (buf.set move buf[move + 1])
        (by simpa using hb) h (by omega)
      refine ⟨b, h1, by simpa using h2, ?_⟩
      rw [h3]
      apply List.ext_getElem?
      intro i
      rw [List.getElem?_eraseIdx, List.getElem?_eraseIdx, List.getElem?_take, List.getElem?_take,
        List.getElem?_take, List.getElem?_take, List.getElem?_set, List.getElem?_set]
      by_cases h1 : i < move
      · have a1 : i < move + 1 := by omega
        have a2 : ¬ (move = i) := by omega
        simp [h1, a1, a2]
      · by_cases h2 : i = move
        · subst h2
          have a1 : i < size := by omega
          have a2 : i < buf.length := by omega
          simp [a1, h, a2]
        · have a1 : ¬ i < move + 1 := by omega
          have a2 : ¬ (move = i + 1) := by omega
          simp [h1, a1, a2]
    · rw [hmod, if_neg h]
      refine ⟨buf, rfl, rfl, ?_⟩
      have hmv : move = size - 1 := by omega
      rw [hmv, List.eraseIdx_eq_take_drop_succ, List.take_take, List.drop_eq_nil_of_le (by simp; omega),
        List.append_nil]
      congr 1; omega

/-- **C19**: `a._remove( i )` deletes element `i`, for an index inside the array. -/
theorem C19_remove_op_partial {a : Arr α} (h : a.WF) (i : Nat) (hi : i < a.size) :
    ∃ a', removeOp a i = some a' ∧ a'.WF ∧ a'.list = a.list.eraseIdx i := by
  obtain ⟨hb, hs⟩ := h
  obtain ⟨b, h1, h2, h3⟩ := shiftLoop_spec a.size (by unfold W; omega) a.size i a.buf hb hi (by omega)
  unfold removeOp
  rw [toU32_nonneg (by omega) (by omega), Int.toNat_natCast, h1]
  have hsz : (a.size + W - 1) % W = a.size - 1 := by unfold W; omega
  simp only [Option.map_some, hsz]
  exact ⟨_, rfl, ⟨by simp only; omega, by simp only; omega⟩, h3⟩

example : removeOp (⟨[10, 20, 30], 3⟩ : Arr Nat) 1 = some ⟨[10, 30, 30], 2⟩ := by decide

/-- An index outside the array removes the last element. -/
theorem C19_remove_op_out_of_range : removeOp (⟨[10, 20], 2⟩ : Arr Nat) 9 = some ⟨[10, 20], 1⟩ := by decide

/-- Removing from an empty array makes its size 2^32-1. -/
theorem C19_remove_op_empty : removeOp (⟨[], 0⟩ : Arr Nat) 0 = some ⟨[], 4294967295⟩ := by decide

/-- `array::clear( a, n )` hands out cells that were never initialised. -/
theorem C19_clear_uninitialised (junk : Nat → α) (n i : Nat) (hi : i < n) :
    (clear junk n).list[i]? = some (junk i) := by
  unfold clear Arr.list
  simp [hi]

/-! ### C20: histories -/

/-- What a script does with a stack or queue. -/
inductive Op (α : Type) where
  | push (v : α)
  | pop
  | peek
  | count

/-- What it observes. -/
inductive Out (α : Type) where
  | done
  | val (v : α)
  | num (n : Nat)
deriving DecidableEq

/-- A history run on the implementation, `stack::` functions (std_container.cpp 414-418). -/
def runStack [Inhabited α] : Arr α → List (Op α) → Option (List (Out α))
  | _, [] => some []
  | a, .push v :: h => (push a v).bind fun a => (runStack a h).map (.done :: ·)
  | a, .pop :: h => (pop a).bind fun r => (runStack r.2 h).map (.val r.1 :: ·)
  | a, .peek :: h => (peek a).bind fun v => (runStack a h).map (.val v :: ·)
  | a, .count :: h => (runStack a h).map (.num a.size :: ·)

/-- `queue::` functions (std_container.cpp 408-412). -/
def runQueue [Inhabited α] : Arr α → List (Op α) → Option (List (Out α))
  | _, [] => some []
  | a, .push v :: h => (push a v).bind fun a => (runQueue a h).map (.done :: ·)
  | a, .pop :: h => (popBack a).bind fun r => (runQueue r.2 h).map (.val r.1 :: ·)
  | a, .peek :: h => (peekBack a).bind fun v => (runQueue a h).map (.val v :: ·)
  | a, .count :: h => (runQueue a h).map (.num a.size :: ·)

/-- Specification, stack: the values not yet popped, latest first. -/
def specStack [Inhabited α] : List α → List (Op α) → List (Out α)
  | _, [] => []
  | l, .push v :: h => .done :: specStack (v :: l) h
  | l, .pop :: h => .val (l.head?.getD default) :: specStack l.tail h
  | l, .peek :: h => .val (l.head?.getD default) :: specStack l h
  | l, .count :: h => .num l.length :: specStack l h

/-- Specification, queue: the values not yet popped, oldest first. -/
def specQueue [Inhabited α] : List α → List (Op α) → List (Out α)
  | _, [] => []
  | l, .push v :: h => .done :: specQueue (l ++ [v]) h
  | l, .pop :: h => .val (l.head?.getD default) :: specQueue l.tail h
  | l, .peek :: h => .val (l.head?.getD default) :: specQueue l h
  | l, .count :: h => .num l.length :: specQueue l h

theorem runStack_spec [Inhabited α] : ∀ (h : List (Op α)) (a : Arr α), a.WF →
    (a.size + h.length) * 16 < 2147483648 → runStack a h = some (specStack a.list h) := by
  intro h
  induction h with
  | nil => intro a _ _; rfl
  | cons op h ih =>
    intro a wf hs
    simp only [List.length_cons] at hs
    cases op with
    | push v =>
      obtain ⟨a', h1, h2, h3, h4⟩ := push_spec wf v (by omega)
      rw [runStack, h1, Option.bind_some, ih a' h2 (by omega), h4]
      rfl
    | pop =>
      obtain ⟨a', h1, h2, h3, h4⟩ := pop_spec wf
      rw [runStack, h1, Option.bind_some, ih a' h2 (by omega), h4]
      rfl
    | peek =>
      have hp : peek a = some (a.list.head?.getD default) := by
        unfold peek Arr.list
        obtain ⟨hb, _⟩ := wf
        split
        · match hbf : a.buf with
          | [] => rw [hbf] at hb; simp at hb; omega
          | x :: xs =>
            obtain ⟨n, hn⟩ : ∃ n, a.size = n + 1 := ⟨a.size - 1, by omega⟩
            simp [hn]
        · have : a.size = 0 := by omega
          simp [this]
      rw [runStack, hp, Option.bind_some, ih a wf (by omega)]
      rfl
    | count =>
      rw [runStack, ih a wf (by omega), specStack, Arr.list_length wf]
      rfl

/-- **C20**, stack, for cells that are plain values (literals and computed values; a
variable is passed as a reference, see `C20_stored_reference`): every history of pushes,
pops, peeks and counts, short enough for the allocation size to be an `int`. -/
theorem C20_stack_lifo_partial [Inhabited α] (h : List (Op α)) (hs : h.length * 16 < 2147483648) :
    runStack ⟨[], 0⟩ h = some (specStack [] h) :=
  runStack_spec h ⟨[], 0⟩ ⟨by simp, by simp⟩ (by simpa using hs)

theorem runQueue_spec [Inhabited α] : ∀ (h : List (Op α)) (a : Arr α), a.WF →
    a.size + h.length ≤ 2097152 → runQueue a h = some (specQueue a.list.reverse h) := by
  intro h
  induction h with
  | nil => intro a _ _; rfl
  | cons op h ih =>
    intro a wf hs
    simp only [List.length_cons] at hs
    cases op with
    | push v =>
      obtain ⟨a', h1, h2, h3, h4⟩ := push_spec wf v (by omega)
      rw [runQueue, h1, Option.bind_some, ih a' h2 (by omega), h4]
      simp [specQueue]
    | pop =>
      obtain ⟨a', h1, h2, h3, h4⟩ := popBack_spec wf
      rw [runQueue, h1, Option.bind_some, ih a' h2 (by omega), h4]
      simp [specQueue, List.head?_reverse, List.tail_reverse]
    | peek =>
      have hp : peekBack a = some (a.list.reverse.head?.getD default) := by
        have hl := Arr.list_length wf
        obtain ⟨hb, _⟩ := wf
        unfold peekBack
        split
        · rw [Nat.mod_eq_of_lt (by omega), List.head?_reverse, List.getLast?_eq_getElem?, hl]
          unfold Arr.list
          rw [List.getElem?_take_of_lt (by omega), List.getElem?_eq_getElem (by omega)]
          rfl
        · have : a.list = [] := List.eq_nil_of_length_eq_zero (by omega)
          rw [this]; rfl
      rw [runQueue, hp, Option.bind_some, ih a wf (by omega)]
      rfl
    | count =>
      rw [runQueue, ih a wf (by omega), specQueue, List.length_reverse, Arr.list_length wf]
      rfl

/-- **C20**, queue, same restriction to plain values; at most 2^21 operations, because
`queue::peek` keeps the element number in 21 bits. -/
theorem C20_queue_fifo_partial [Inhabited α] (h : List (Op α)) (hs : h.length ≤ 2097152) :
    runQueue ⟨[], 0⟩ h = some (specQueue [] h) :=
  runQueue_spec h ⟨[], 0⟩ ⟨by simp, by simp⟩ (by simpa using hs)

example : runQueue (⟨[], 0⟩ : Arr Nat) [.push 1, .push 2, .peek, .pop, .push 3, .count, .pop, .pop, .pop]
    = some [.done, .done, .val 1, .val 1, .done, .num 2, .val 2, .val 3, .val 0] := by decide

/-- Cells as the machine has them: an integer, or a reference to a variable. -/
inductive Cell where
  | int (n : Int)
  | ref (x : Nat)
deriving DecidableEq

instance : Inhabited Cell := ⟨.int 0⟩

/-- Value of a cell in the current assignment of the variables. -/
def Cell.deref (env : Nat → Int) : Cell → Int
  | .int n => n
  | .ref x => env x

/-- The stored cell is a reference when a variable is pushed: `x = 1; stack::push( s, x );
x = 2;` makes `stack::pop( s )` return 2. -/
theorem C20_stored_reference :
    ∃ a, push (⟨[], 0⟩ : Arr Cell) (.ref 0) = some a ∧
      ∃ r, pop a = some r ∧ r.1.deref (fun _ => 1) = 1 ∧ r.1.deref (fun _ => 2) = 2 :=
  ⟨_, rfl, _, rfl, rfl, rfl⟩

end Wrench.Containers
