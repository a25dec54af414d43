import Verif.Link.Spec
import Verif.Bytes.Lemmas

namespace Wrench.Link

/-! ### Results -/

theorem bind_ok {α β : Type} {x : Res α} {f : α → Res β} {b : β} (h : x.bind f = .ok b) :
    ∃ a, x = .ok a ∧ f a = .ok b := by
  cases x with
  | ok a => exact ⟨a, rfl, h⟩
  | err => cases h
  | ub => cases h

theorem ofOption_ok {α : Type} {x : Option α} {a : α} (h : Res.ofOption x = .ok a) : x = some a := by
  cases x with
  | none => cases h
  | some b => injection h with h; rw [h]

/-! ### Bytes at a position -/

theorem At.append {l : List Byte} {p : Nat} {bs : List Byte} (h : At l p bs)
    (hl : p + bs.length ≤ l.length) (m : List Byte) : At (l ++ m) p bs := by
  intro j hj
  rw [List.getElem?_append_left (by omega)]
  exact h j hj

theorem at_end (l bs : List Byte) : At (l ++ bs) l.length bs := by
  intro j _
  rw [List.getElem?_append_right (by omega)]
  congr 1; omega

theorem At.congr {l l' : List Byte} {p : Nat} {bs : List Byte} (h : At l p bs)
    (he : ∀ i, p ≤ i → i < p + bs.length → l'[i]? = l[i]?) : At l' p bs := by
  intro j hj
  rw [he _ (by omega) (by omega)]
  exact h j hj

theorem At.left {l : List Byte} {p : Nat} {a b : List Byte} (h : At l p (a ++ b)) : At l p a := by
  intro j hj
  rw [h j (by simp; omega), List.getElem?_append_left hj]

theorem At.right {l : List Byte} {p : Nat} {a b : List Byte} (h : At l p (a ++ b)) :
    At l (p + a.length) b := by
  intro j hj
  have := h (a.length + j) (by simp; omega)
  rw [List.getElem?_append_right (by omega)] at this
  rw [Nat.add_assoc, this]
  congr 1; omega

theorem at_append {l : List Byte} {p : Nat} {a b : List Byte} (h1 : At l p a)
    (h2 : At l (p + a.length) b) : At l p (a ++ b) := by
  intro j hj
  by_cases hja : j < a.length
  · rw [List.getElem?_append_left hja]; exact h1 j hja
  · rw [List.getElem?_append_right (by omega)]
    have := h2 (j - a.length) (by simp at hj; omega)
    rw [← this]; congr 1; omega

theorem At.le {l : List Byte} {p : Nat} {bs : List Byte} (h : At l p bs) (h0 : bs ≠ []) :
    p + bs.length ≤ l.length := by
  have hp : 0 < bs.length := List.length_pos_iff.mpr h0
  have := h (bs.length - 1) (by omega)
  rw [List.getElem?_eq_getElem (l := bs) (by omega)] at this
  have := (List.getElem?_eq_some_iff.mp this).1
  omega

theorem At.read8 {l : List Byte} {p : Nat} {b : Byte} (h : At l p [b]) : read8 l p = some b :=
  h 0 (by simp)

theorem At.read16 {l : List Byte} {p : Nat} {v : Word16} (h : At l p (pack16 v)) :
    read16 l p = some v := by
  have h0 := h 0 (by simp [pack16_length])
  have h1 := h 1 (by simp [pack16_length])
  have := read16_pack16 [] [] v
  simp only [Wrench.read16, List.nil_append, List.append_nil, List.length_nil, Nat.zero_add] at this ⊢
  rw [Nat.add_zero] at h0
  rw [h0, h1]
  exact this

theorem At.read32 {l : List Byte} {p : Nat} {v : Word32} (h : At l p (pack32 v)) :
    read32 l p = some v := by
  have h0 := h 0 (by simp [pack32_length])
  have h1 := h 1 (by simp [pack32_length])
  have h2 := h 2 (by simp [pack32_length])
  have h3 := h 3 (by simp [pack32_length])
  have := read32_pack32 [] [] v
  simp only [Wrench.read32, List.nil_append, List.append_nil, List.length_nil, Nat.zero_add] at this ⊢
  rw [Nat.add_zero] at h0
  rw [h0, h1, h2, h3]
  exact this

/-! ### Writing -/

theorem writeAt_ok {l l' : List Byte} {p : Nat} {bs : List Byte} (h : writeAt l p bs = .ok l') :
    p + bs.length ≤ l.length ∧ l'.length = l.length ∧ At l' p bs ∧
    ∀ i, (i < p ∨ p + bs.length ≤ i) → l'[i]? = l[i]? := by
  unfold writeAt at h
  split at h
  · next hl =>
    injection h with h
    subst h
    refine ⟨hl, by simp; omega, ?_, ?_⟩
    · intro j hj
      rw [List.append_assoc, List.getElem?_append_right (by simp; omega),
        List.getElem?_append_left (by simp; omega)]
      congr 1; simp; omega
    · rintro i (hi | hi)
      · rw [List.append_assoc, List.getElem?_append_left (by simp; omega), List.getElem?_take_of_lt hi]
      · rw [List.getElem?_append_right (by simp; omega), List.getElem?_drop]
        congr 1; simp; omega
  · cases h

theorem writeAt_total {l : List Byte} {p : Nat} {bs : List Byte} (h : p + bs.length ≤ l.length) :
    ∃ l', writeAt l p bs = .ok l' := by
  unfold writeAt; rw [if_pos h]; exact ⟨_, rfl⟩

theorem readAt_ok {l : List Byte} {p : Nat} {b : Byte} (h : readAt l p = .ok b) : l[p]? = some b :=
  ofOption_ok h

end Wrench.Link
