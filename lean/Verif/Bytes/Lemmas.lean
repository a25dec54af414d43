import Verif.Bytes.Model

namespace Wrench

theorem pack16_length (i : Word16) : (pack16 i).length = 2 := rfl
theorem pack32_length (l : Word32) : (pack32 l).length = 4 := rfl

theorem getLsbD_mask16 (i : Nat) : (255#16).getLsbD i = decide (i < 8) := by
  by_cases h : i < 16
  · have : ∀ j : Fin 16, (255#16).getLsbD j = decide (j.val < 8) := by decide
    exact this ⟨i, h⟩
  · rw [BitVec.getLsbD_of_ge _ _ (by omega)]; symm; simp; omega

theorem getLsbD_mask32 (i : Nat) : (255#32).getLsbD i = decide (i < 8) := by
  by_cases h : i < 32
  · have : ∀ j : Fin 32, (255#32).getLsbD j = decide (j.val < 8) := by decide
    exact this ⟨i, h⟩
  · rw [BitVec.getLsbD_of_ge _ _ (by omega)]; symm; simp; omega

theorem join16_pack (v : Word16) :
    (((v &&& 0xFF#16).setWidth 8).setWidth 16
      ||| (((((v.sshiftRight 8) &&& 0xFF#16).setWidth 8).setWidth 16) <<< 8)) = v := by
  apply BitVec.eq_of_getLsbD_eq
  intro i hi
  simp only [BitVec.getLsbD_or, BitVec.getLsbD_setWidth, BitVec.getLsbD_and, getLsbD_mask16,
    BitVec.getLsbD_shiftLeft, BitVec.getLsbD_sshiftRight]
  by_cases h : i < 8
  · simp [h, hi]
  · have h1 : i - 8 < 8 := by omega
    have h2 : 8 + (i - 8) = i := by omega
    have h3 : i - 8 < 16 := by omega
    simp [h, hi, h1, h2, h3]

theorem join32_pack (v : Word32) :
    (((v &&& 0xFF#32).setWidth 8).setWidth 32
      ||| (((((v.sshiftRight 8) &&& 0xFF#32).setWidth 8).setWidth 32) <<< 8)
      ||| (((((v.sshiftRight 16) &&& 0xFF#32).setWidth 8).setWidth 32) <<< 16)
      ||| (((((v.sshiftRight 24) &&& 0xFF#32).setWidth 8).setWidth 32) <<< 24)) = v := by
  apply BitVec.eq_of_getLsbD_eq
  intro i hi
  simp only [BitVec.getLsbD_or, BitVec.getLsbD_setWidth, BitVec.getLsbD_and, getLsbD_mask32,
    BitVec.getLsbD_shiftLeft, BitVec.getLsbD_sshiftRight]
  by_cases h : i < 8
  · have : i < 16 := by omega
    have : i < 24 := by omega
    simp [*]
  · by_cases h' : i < 16
    · have h1 : i - 8 < 8 := by omega
      have h2 : 8 + (i - 8) = i := by omega
      have : i < 24 := by omega
      have h3 : i - 8 < 32 := by omega
      simp [*]
    · by_cases h'' : i < 24
      · have h1 : ¬ (i - 8 < 8) := by omega
        have h3 : i - 16 < 8 := by omega
        have h4 : 16 + (i - 16) = i := by omega
        have h6 : i - 16 < 32 := by omega
        simp [*]
      · have h1 : ¬ (i - 8 < 8) := by omega
        have h3 : ¬ (i - 16 < 8) := by omega
        have h5 : i - 24 < 8 := by omega
        have h4 : 24 + (i - 24) = i := by omega
        have h6 : i - 24 < 32 := by omega
        simp [*]

theorem read16_pack16 (pre post : List Byte) (v : Word16) :
    read16 (pre ++ pack16 v ++ post) pre.length = some v := by
  simp only [read16, pack16]
  simp
  simpa using join16_pack v

theorem read32_pack32 (pre post : List Byte) (v : Word32) :
    read32 (pre ++ pack32 v ++ post) pre.length = some v := by
  simp only [read32, pack32]
  simp
  simpa using join32_pack v

theorem pack16_injective {a b : Word16} (h : pack16 a = pack16 b) : a = b := by
  have ha := read16_pack16 [] [] a
  have hb := read16_pack16 [] [] b
  rw [h] at ha; rw [ha] at hb; exact Option.some.inj hb

theorem pack32_injective {a b : Word32} (h : pack32 a = pack32 b) : a = b := by
  have ha := read32_pack32 [] [] a
  have hb := read32_pack32 [] [] b
  rw [h] at ha; rw [ha] at hb; exact Option.some.inj hb

/-! ### FNV -/

theorem mul_fnvPrime_inj {x y : Word32} (h : x * fnvPrime = y * fnvPrime) : x = y := by
  have hq : fnvPrime * 0x359C449B#32 = 1#32 := by decide
  have := congrArg (· * 0x359C449B#32) h
  simp only [BitVec.mul_assoc, hq, BitVec.mul_one] at this
  exact this

theorem xor_left_cancel32 {a x y : Word32} (h : a ^^^ x = a ^^^ y) : x = y := by
  have := congrArg (a ^^^ ·) h
  simpa [← BitVec.xor_assoc] using this

theorem xor_right_cancel32 {a x y : Word32} (h : x ^^^ a = y ^^^ a) : x = y := by
  rw [BitVec.xor_comm x, BitVec.xor_comm y] at h
  exact xor_left_cancel32 h

theorem fnvRound_inj_state {h h' w : Word32} (e : fnvRound h w = fnvRound h' w) : h = h' :=
  xor_right_cancel32 (mul_fnvPrime_inj e)

theorem fnvRound_inj_word {h w w' : Word32} (e : fnvRound h w = fnvRound h w') : w = w' :=
  xor_left_cancel32 (mul_fnvPrime_inj e)

theorem setWidth32_inj {a b : Byte} (h : a.setWidth 32 = b.setWidth 32) : a = b := by
  have := congrArg (BitVec.setWidth 8) h
  simpa using this

/-- The FNV fold used by all four functions. -/
abbrev fnvFold (s : Word32) (l : List Byte) : Word32 :=
  l.foldl (fun h b => fnvRound h (b.setWidth 32)) s

theorem fnvFold_inj_state (l : List Byte) {s s' : Word32} (e : fnvFold s l = fnvFold s' l) :
    s = s' := by
  induction l generalizing s s' with
  | nil => exact e
  | cons b l ih => exact fnvRound_inj_state (ih e)

theorem fnvFold_single (pre post : List Byte) (s : Word32) {b b' : Byte} (hb : b ≠ b') :
    fnvFold s (pre ++ b :: post) ≠ fnvFold s (pre ++ b' :: post) := by
  intro e
  simp only [fnvFold, List.foldl_append, List.foldl_cons] at e
  exact hb (setWidth32_inj (fnvRound_inj_word (fnvFold_inj_state post e)))

theorem toInt_toNat_of_lt (n : Nat) (h : n < 2 ^ 31) : (BitVec.ofNat 32 n).toInt.toNat = n := by
  rw [BitVec.toInt_eq_toNat_of_lt]
  · simp; omega
  · simp; omega

theorem isBytecodeValid_eq (body : List Byte) (t : Word32) (h4 : 4 ≤ body.length)
    (hlen : body.length < 2 ^ 31) :
    isBytecodeValid (body ++ pack32 t) =
      if t = fnvFold fnvBasis body + versionMajor then some t else none := by
  have hL : (body ++ pack32 t).length = body.length + 4 := by simp [pack32_length]
  have hr := read32_pack32 body [] t
  rw [List.append_nil] at hr
  unfold isBytecodeValid
  simp only [hL, Nat.add_sub_cancel, hr]
  rw [if_neg (by omega)]
  have : hashRead8 (body ++ pack32 t) (BitVec.ofNat 32 body.length) = fnvFold fnvBasis body := by
    unfold hashRead8
    rw [toInt_toNat_of_lt _ hlen, List.take_left']
    rfl
  rw [this]
  by_cases h : t = fnvFold fnvBasis body + versionMajor <;> simp [h]

theorem fnvFold_eq_wrHash (body : List Byte) : fnvFold fnvBasis body = wrHash body := by
  simp [wrHash]

theorem exists_trailer (image : List Byte) (h : 4 ≤ image.length) :
    ∃ body t, image = body ++ pack32 t ∧ body.length = image.length - 4 := by
  refine ⟨image.take (image.length - 4), ?_⟩
  obtain ⟨a, b, c, d, hd⟩ : ∃ a b c d, image.drop (image.length - 4) = [a, b, c, d] := by
    have hl : (image.drop (image.length - 4)).length = 4 := by simp; omega
    match hm : image.drop (image.length - 4), hl with
    | [a, b, c, d], _ => exact ⟨a, b, c, d, rfl⟩
  have hp : ∀ a b c d : Byte, ∃ t, pack32 t = [a, b, c, d] := by
    intro a b c d
    refine ⟨d ++ c ++ b ++ a, ?_⟩
    have key : ∀ (k : Nat) (x : Byte), k ≤ 24 → (∀ i, i < 8 → (d ++ c ++ b ++ a).getLsbD (k + i) = x.getLsbD i) →
        (((d ++ c ++ b ++ a).sshiftRight k) &&& 0xFF#32).setWidth 8 = x := by
      intro k x hk hx
      apply BitVec.eq_of_getLsbD_eq
      intro i hi
      have h1 : i < 32 := by omega
      have h2 : k + i < 32 := by omega
      have h3 : ¬ 32 ≤ i := by omega
      simp only [BitVec.getLsbD_setWidth, BitVec.getLsbD_and, getLsbD_mask32, BitVec.getLsbD_sshiftRight]
      simp only [hi, h3, h2, if_true, decide_true, decide_false, Bool.not_false, Bool.true_and, Bool.and_true]
      exact hx i hi
    simp only [pack32, List.cons.injEq, and_true]
    refine ⟨?_, ?_, ?_, ?_⟩
    · have := key 0 a (by omega) (by
        intro i hi
        simp only [BitVec.getLsbD_append]
        simp [hi])
      simpa using this
    · exact key 8 b (by omega) (by
        intro i hi
        simp only [BitVec.getLsbD_append]
        have h1 : ¬ (8 + i < 8) := by omega
        simp [hi])
    · exact key 16 c (by omega) (by
        intro i hi
        simp only [BitVec.getLsbD_append]
        have h1 : ¬ (16 + i < 8) := by omega
        have h2 : ¬ (16 + i - 8 < 8) := by omega
        have h3 : 16 + i - 8 - 8 = i := by omega
        simp [hi, h1, h2, h3])
    · exact key 24 d (by omega) (by
        intro i hi
        simp only [BitVec.getLsbD_append]
        have h1 : ¬ (24 + i < 8) := by omega
        have h2 : ¬ (24 + i - 8 < 8) := by omega
        have h3 : ¬ (24 + i - 8 - 8 < 8) := by omega
        have h4 : 24 + i - 8 - 8 - 8 = i := by omega
        simp [h1, h2, h3, h4])
  obtain ⟨t, ht⟩ := hp a b c d
  refine ⟨t, ?_, by simp⟩
  rw [ht, ← hd, List.take_append_drop]

end Wrench
