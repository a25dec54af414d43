import Verif.StrLib.FormatSpec

/-
The digit loop of the format routine writes the numeral.
-/
namespace Wrench.StrLib

open Ops

theorem digitChar_eq (lc : Bool) {d : Nat} (h : d < 16) : digitChar lc d = digitText lc d := by
  have : ∀ lc : Bool, ∀ d : Fin 16, digitChar lc d.val = digitText lc d.val := by decide +kernel
  exact this lc ⟨d, h⟩

theorem numeral_lt {lc : Bool} {base n : Nat} (h : n < base) : numeral lc base n = [digitText lc n] := by
  rw [numeral, dif_pos (.inl h)]

theorem numeral_ge {lc : Bool} {base n : Nat} (hb : 2 ≤ base) (h : base ≤ n) :
    numeral lc base n = numeral lc base (n / base) ++ [digitText lc (n % base)] := by
  rw [numeral, dif_neg (by omega)]

theorem numeral_mul {lc : Bool} {base q d : Nat} (hb : 2 ≤ base) (hd : d < base) (hq : q ≠ 0) :
    numeral lc base (base * q + d) = numeral lc base q ++ [digitText lc d] := by
  rw [numeral_ge hb (by
    have : base * 1 ≤ base * q := Nat.mul_le_mul_left _ (by omega)
    omega)]
  rw [Nat.mul_add_div (by omega), Nat.div_eq_of_lt hd, Nat.add_zero, Nat.mul_add_mod,
    Nat.mod_eq_of_lt hd]

theorem mod_pow_succ (v b p : Nat) : v % b ^ (p + 1) = b * (v / b % b ^ p) + v % b := by
  rw [Nat.pow_succ', Nat.mod_mul, Nat.add_comm]

theorem convert_spec {base : Nat} (lc : Bool) (hb : 2 ≤ base) (hb16 : base ≤ 16) :
    ∀ (p val : Nat) (buf : List Byte) (ptr : Nat), p ≤ ptr →
      (val % base ^ p = 0 → convert base lc p val buf ptr =
        (List.replicate p (digitText lc 0) ++ buf, ptr)) ∧
      (val % base ^ p ≠ 0 → (convert base lc p val buf ptr).1.drop
        ((convert base lc p val buf ptr).2 - 1) = numeral lc base (val % base ^ p) ++ buf) := by
  intro p
  induction p with
  | zero =>
    intro val buf ptr _
    exact ⟨fun _ => by simp [convert], fun h => absurd (Nat.mod_one _) (by simpa using h)⟩
  | succ p ih =>
    intro val buf ptr hp
    have hd : val % base < base := Nat.mod_lt _ (by omega)
    have hdc : digitChar lc (val % base) = digitText lc (val % base) := digitChar_eq lc (by omega)
    have step := ih (val / base) (digitText lc (val % base) :: buf)
      (if val % base ≠ 0 then p + 1 else ptr) (by
        by_cases h : val % base ≠ 0
        · rw [if_pos h]; omega
        · rw [if_neg h]; omega)
    rw [mod_pow_succ]
    constructor
    · intro h
      have h1 : val % base = 0 := by omega
      have h2 : val / base % base ^ p = 0 := by
        have : base * (val / base % base ^ p) = 0 := by omega
        rcases Nat.mul_eq_zero.1 this with h | h
        · omega
        · exact h
      rw [convert, hdc, step.1 h2, h1]
      simp only [ne_eq, not_true_eq_false, if_false]
      rw [List.replicate_succ']
      simp
    · intro h
      rw [convert, hdc]
      by_cases h2 : val / base % base ^ p = 0
      · have h1 : val % base ≠ 0 := by
          intro h1; apply h; rw [h1, h2]; simp
        rw [step.1 h2, h2]
        simp only [if_pos h1]
        rw [Nat.add_sub_cancel, List.drop_append_of_le_length (by simp), List.drop_of_length_le (by simp),
          Nat.mul_zero, Nat.zero_add, numeral_lt hd]
        rfl
      · rw [step.2 h2, numeral_mul hb hd h2]
        simp

theorem numText_eq {base width : Nat} (lc : Bool) (hb : 2 ≤ base) (hb16 : base ≤ 16) (hw : 1 ≤ width)
    (val : Nat) : numText base width lc val = numeral lc base (val % base ^ width) := by
  have h := convert_spec lc hb hb16 width val [] width (Nat.le_refl _)
  unfold numText
  by_cases h0 : val % base ^ width = 0
  · rw [h.1 h0, h0, numeral_lt (by omega)]
    rw [show width = (width - 1) + 1 by omega, List.replicate_succ']
    simp
  · rw [h.2 h0, List.append_nil]

end Wrench.StrLib
