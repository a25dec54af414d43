import Verif.Bytes.Lemmas

/-!
Properties C01–C04: bytecode image trailer, single-byte corruption, operand
packing, name hashing.

Specification vocabulary: `leValue` – little-endian value of a byte list, written
without reference to the model; `Wrench.wrHash` – the hash of the code is the
subject matter itself.
-/
namespace Wrench

/-- Independent little-endian reading of a byte list. -/
def leValue : List Byte → Nat
  | [] => 0
  | b :: bs => b.toNat + 256 * leValue bs

theorem leValue_pack32 (t : Word32) : leValue (pack32 t) = t.toNat := by
  have h := read32_pack32 [] [] t
  have e : ∀ k : Nat, ((t.sshiftRight k &&& 255#32).setWidth 8).toNat
      = ((t.sshiftRight k).toNat) % 256 := by
    intro k
    simp only [BitVec.toNat_setWidth, BitVec.toNat_and]
    have : (255#32).toNat = 2 ^ 8 - 1 := by decide
    rw [this, Nat.and_two_pow_sub_one_eq_mod]; omega
  have e0 := e 0
  have e8 := e 8
  have e16 := e 16
  have e24 := e 24
  have hs : ∀ k : Nat, k ≤ 24 → (t.sshiftRight k).toNat % 256 = (t.toNat / 2 ^ k) % 256 := by
    intro k hk
    apply Nat.eq_of_testBit_eq
    intro i
    have : (256 : Nat) = 2 ^ 8 := by decide
    rw [this, Nat.testBit_mod_two_pow, Nat.testBit_mod_two_pow, Nat.testBit_div_two_pow]
    by_cases hi : i < 8
    · have h2 : k + i < 32 := by omega
      have h3 : ¬ 32 ≤ i := by omega
      have : (t.sshiftRight k).getLsbD i = t.getLsbD (k + i) := by
        rw [BitVec.getLsbD_sshiftRight]; simp [h2, h3]
      simp only [BitVec.getLsbD] at this
      rw [this, Nat.add_comm k i]
    · simp [hi]
  simp only [BitVec.sshiftRight_zero] at e0
  simp only [leValue, pack32]
  rw [e0, e8, e16, e24]
  rw [hs 8 (by omega), hs 16 (by omega), hs 24 (by omega)]
  have := t.isLt
  omega

theorem leValue_inj : ∀ {a b : List Byte}, a.length = b.length → leValue a = leValue b → a = b
  | [], [], _, _ => rfl
  | x :: a, y :: b, hl, h => by
    simp only [leValue] at h
    have hx := x.isLt
    have hy := y.isLt
    have h1 : x.toNat = y.toNat := by omega
    have h2 : leValue a = leValue b := by omega
    rw [BitVec.eq_of_toNat_eq h1, leValue_inj (by simpa using hl) h2]

/-- **C01** (acceptance criterion).  An image shorter than 2 GiB is accepted exactly
when it has at least 8 bytes and its last four bytes, read little-endian, are the
hash of everything before them plus the major version (mod 2^32). -/
theorem C01_image_accepted_iff (image : List Byte) (hlen : image.length < 2 ^ 31) :
    (isBytecodeValid image).isSome ↔
      8 ≤ image.length ∧
      leValue (image.drop (image.length - 4)) =
        ((wrHash (image.take (image.length - 4))).toNat + 7) % 2 ^ 32 := by
  by_cases h8 : image.length < 8
  · simp [isBytecodeValid, h8]; omega
  · have h8' : 8 ≤ image.length := by omega
    obtain ⟨body, t, he, hb⟩ := exists_trailer image (by omega)
    have htake : image.take (image.length - 4) = body := by
      rw [← hb, he]; exact List.take_left' rfl
    have hdrop : image.drop (image.length - 4) = pack32 t := by
      rw [← hb, he]; exact List.drop_left' rfl
    rw [htake, hdrop, leValue_pack32, he, isBytecodeValid_eq body t (by omega) (by omega),
      fnvFold_eq_wrHash]
    have hv : ((wrHash body).toNat + 7) % 2 ^ 32 = (wrHash body + versionMajor).toNat := by
      rw [BitVec.toNat_add]; rfl
    rw [hv]
    constructor
    · intro h
      refine ⟨by simp [pack32_length]; omega, ?_⟩
      by_cases hc : t = wrHash body + versionMajor
      · rw [hc]
      · rw [if_neg hc] at h; simp at h
    · rintro ⟨_, h⟩
      rw [if_pos (BitVec.eq_of_toNat_eq h)]; rfl

/-- **C01** (the linker's output is accepted).  Whatever code body of at least four
bytes the linker finishes, appending its trailer gives an image the loader accepts. -/
theorem C01_linked_image_accepted (code : List Byte) (h4 : 4 ≤ code.length)
    (hlen : code.length < 2 ^ 31) :
    isBytecodeValid (appendTrailer code) = some (wrHash code + versionMajor) := by
  unfold appendTrailer
  rw [isBytecodeValid_eq _ _ h4 hlen, fnvFold_eq_wrHash, if_pos rfl]

/-- Hypotheses are met by a concrete 5-byte body. -/
example : isBytecodeValid (appendTrailer [1#8, 2#8, 3#8, 0xFF#8, 0x80#8])
    = some (wrHash [1#8, 2#8, 3#8, 0xFF#8, 0x80#8] + versionMajor) :=
  C01_linked_image_accepted _ (by decide) (by decide)

/-- **C02**.  Replacing exactly one byte (anywhere, trailer included) of an accepted
image by a different byte makes it rejected. -/
theorem C02_single_byte_corruption_rejected (image : List Byte) (hlen : image.length < 2 ^ 31)
    (hv : (isBytecodeValid image).isSome) (i : Nat) (hi : i < image.length)
    (b : Byte) (hb : b ≠ image[i]) :
    isBytecodeValid (image.set i b) = none := by
  have hv' := hv
  rw [C01_image_accepted_iff image hlen] at hv'
  obtain ⟨h8, hle⟩ := hv'
  rcases Option.eq_none_or_eq_some (isBytecodeValid (image.set i b)) with h | ⟨x, hx⟩
  · exact h
  exfalso
  have hs : (isBytecodeValid (image.set i b)).isSome := by rw [hx]; rfl
  rw [C01_image_accepted_iff _ (by simpa using hlen)] at hs
  obtain ⟨_, hs⟩ := hs
  simp only [List.length_set] at hs
  by_cases hbody : i < image.length - 4
  · -- the body changed, the trailer did not
    have hd : (image.set i b).drop (image.length - 4) = image.drop (image.length - 4) := by
      rw [List.drop_set]; rw [if_pos hbody]
    rw [hd, hle] at hs
    have hne : wrHash (image.take (image.length - 4)) ≠ wrHash ((image.set i b).take (image.length - 4)) := by
      have hi' : i < (image.take (image.length - 4)).length := by simp; omega
      rw [List.take_set, ← fnvFold_eq_wrHash, ← fnvFold_eq_wrHash]
      have e1 : image.take (image.length - 4) =
          (image.take (image.length - 4)).take i ++ image[i] :: (image.take (image.length - 4)).drop (i+1) := by
        have := (List.take_append_drop i (image.take (image.length - 4))).symm
        rw [List.drop_eq_getElem_cons hi'] at this
        simpa using this
      have e2 : (image.take (image.length - 4)).set i b =
          (image.take (image.length - 4)).take i ++ b :: (image.take (image.length - 4)).drop (i+1) :=
        List.set_eq_take_append_cons_drop .. |>.trans (by rw [if_pos hi'])
      rw [e2]
      conv => lhs; rw [e1]
      exact fnvFold_single _ _ _ (Ne.symm hb)
    apply hne
    apply BitVec.eq_of_toNat_eq
    have h1 := (wrHash (image.take (image.length - 4))).isLt
    have h2 := (wrHash ((image.set i b).take (image.length - 4))).isLt
    omega
  · -- the trailer changed, the body did not
    have ht : (image.set i b).take (image.length - 4) = image.take (image.length - 4) := by
      rw [List.take_set_of_le (by omega)]
    rw [ht, ← hle] at hs
    have hEq := leValue_inj (by simp) hs
    have hg : (image.set i b)[i]'(by simpa using hi) = image[i] := by
      have h1 : ((image.set i b).drop (image.length - 4))[i - (image.length - 4)]? =
          (image.drop (image.length - 4))[i - (image.length - 4)]? := by rw [hEq]
      rw [List.getElem?_drop, List.getElem?_drop] at h1
      have h2 : image.length - 4 + (i - (image.length - 4)) = i := by omega
      rw [h2, List.getElem?_eq_getElem (by simpa using hi), List.getElem?_eq_getElem hi] at h1
      exact Option.some.inj h1
    rw [List.getElem_set_self] at hg
    exact hb hg

/-- A valid 9-byte image and a corruption of it. -/
example : isBytecodeValid ((appendTrailer [1#8, 2#8, 3#8, 0xFF#8, 0x80#8]).set 2 4#8) = none :=
  C02_single_byte_corruption_rejected _ (by decide)
    (by rw [C01_linked_image_accepted _ (by decide) (by decide)]; rfl) 2 (by decide) 4#8 (by decide)

/-- **C03** (16 bit).  Whatever surrounds it, a packed 16-bit operand occupies two
bytes and reads back as itself. -/
theorem C03_pack16_roundtrip (pre post : List Byte) (v : Word16) :
    (pack16 v).length = 2 ∧ read16 (pre ++ pack16 v ++ post) pre.length = some v :=
  ⟨rfl, read16_pack16 pre post v⟩

/-- **C03** (32 bit). -/
theorem C03_pack32_roundtrip (pre post : List Byte) (v : Word32) :
    (pack32 v).length = 4 ∧ read32 (pre ++ pack32 v ++ post) pre.length = some v :=
  ⟨rfl, read32_pack32 pre post v⟩

/-- **C03** (distinct operands have distinct encodings). -/
theorem C03_pack_injective :
    (∀ a b : Word16, pack16 a = pack16 b → a = b) ∧
    (∀ a b : Word32, pack32 a = pack32 b → a = b) :=
  ⟨fun _ _ => pack16_injective, fun _ _ => pack32_injective⟩

/-- **C03** (byte order).  The encoding is the little-endian one. -/
theorem C03_pack32_little_endian (v : Word32) : leValue (pack32 v) = v.toNat := leValue_pack32 v

example : read16 ([9#8] ++ pack16 0xFFFE#16 ++ [7#8]) 1 = some 0xFFFE#16 := (C03_pack16_roundtrip [9#8] [7#8] _).2

/-- **C04** (incremental hashing), partial: hashing in two pieces equals hashing at
once *provided the first piece does not hash to zero* (zero doubles as "no serial",
see `C04_incremental_fails_at_zero`). -/
theorem C04_hash_incremental_partial (a b : List Byte) (serial : Word32)
    (h : wrHash a serial ≠ 0#32) :
    wrHash b (wrHash a serial) = wrHash (a ++ b) serial := by
  have e : wrHash b (wrHash a serial) = fnvFold (wrHash a serial) b := by
    simp only [wrHash.eq_1 b, if_neg h]
  rw [e]
  simp [wrHash, List.foldl_append, fnvFold]

example : wrHash [3#8] (wrHash [1#8, 2#8]) = wrHash ([1#8, 2#8] ++ [3#8]) :=
  C04_hash_incremental_partial _ _ _ (by decide)

/-- The unrestricted incremental law is false of the code: these four bytes hash to
0, and 0 is taken as "no serial". -/
theorem C04_incremental_fails_at_zero :
    ∃ a b : List Byte, wrHash b (wrHash a) ≠ wrHash (a ++ b) :=
  ⟨[0xCC#8, 0x24#8, 0x31#8, 0xC4#8], [1#8], by decide⟩

theorem takeWhile_all {l : List Byte} (h : ∀ b ∈ l, b ≠ 0#8) (post : List Byte) :
    (l ++ 0#8 :: post).takeWhile (· != 0#8) = l := by
  induction l with
  | nil => simp
  | cons x l ih =>
    have hx : x ≠ 0#8 := h x (by simp)
    simp only [List.cons_append, List.takeWhile_cons]
    have : (x != 0#8) = true := by simpa using hx
    rw [this, if_pos rfl, ih (fun b hb => h b (by simp [hb]))]

theorem signExtend_eq_of_lt {b : Byte} (h : b.toNat < 128) : b.signExtend 32 = b.setWidth 32 := by
  apply BitVec.signExtend_eq_setWidth_of_msb_false
  rw [BitVec.msb_eq_false_iff_two_mul_lt]; omega

theorem foldl_signExtend {l : List Byte} (h : ∀ b ∈ l, b.toNat < 128) (s : Word32) :
    l.foldl (fun h b => fnvRound h (b.signExtend 32)) s = fnvFold s l := by
  induction l generalizing s with
  | nil => simp [fnvFold]
  | cons x l ih =>
    simp only [List.foldl_cons, fnvFold]
    rw [signExtend_eq_of_lt (h x (by simp))]
    exact ih (fun b hb => h b (by simp [hb])) _

/-- **C04** (C-string versus byte-counted hashing), partial: for every 7-bit name the
hash of the NUL-terminated string (either entry point, whatever follows the NUL)
equals the hash of its bytes.  Missing: bytes ≥ 0x80, where it is false
(`C04_hashStr_differs_on_high_bytes`). -/
theorem C04_hashStr_eq_hash_partial (name rest : List Byte)
    (h0 : ∀ b ∈ name, b ≠ 0#8) (h7 : ∀ b ∈ name, b.toNat < 128) :
    hashStr (name ++ 0#8 :: rest) = wrHash name ∧
    hashStrRead8 (name ++ 0#8 :: rest) = wrHash name ∧
    (∀ serial, hashStr (name ++ 0#8 :: rest) serial = wrHash name serial) := by
  refine ⟨?_, ?_, ?_⟩ <;> intros <;>
    simp [hashStr, hashStrRead8, wrHash, takeWhile_all h0, foldl_signExtend h7]

example : hashStr ([0x61#8, 0x62#8] ++ 0#8 :: [5#8]) = wrHash [0x61#8, 0x62#8] :=
  (C04_hashStr_eq_hash_partial _ _ (by decide) (by decide)).1

/-- For a name containing a byte ≥ 0x80 the two hashes differ (char is signed): the
compiler's byte-counted hash of such a name and the C++ side's string hash do not
meet. -/
theorem C04_hashStr_differs_on_high_bytes :
    ∃ name : List Byte, (∀ b ∈ name, b ≠ 0#8) ∧ hashStr (name ++ [0#8]) ≠ wrHash name :=
  ⟨[0xC3#8, 0xA9#8], by decide, by decide +kernel⟩

/-- **C04** (single-byte sensitivity): names of equal length differing in one byte
never collide. -/
theorem C04_one_byte_never_collides (pre post : List Byte) {b b' : Byte} (h : b ≠ b') :
    wrHash (pre ++ b :: post) ≠ wrHash (pre ++ b' :: post) := by
  rw [← fnvFold_eq_wrHash, ← fnvFold_eq_wrHash]
  exact fnvFold_single pre post _ h

example : wrHash ([0x61#8] ++ 0x62#8 :: []) ≠ wrHash ([0x61#8] ++ 0x63#8 :: []) :=
  C04_one_byte_never_collides _ _ (by decide)

end Wrench
