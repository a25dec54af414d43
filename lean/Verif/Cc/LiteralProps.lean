import Verif.Cc.Literal
import Mathlib.Data.Nat.Digits.Defs

/-
C39: literals in the source denote the value written.
C52: string literals denote the text written.
-/
namespace Wrench.Cc

open Wrench Wrench.Vm

/-! ### Specification -/

/-- `c` is a digit of value `d`, in either case of letters. -/
def IsDigitOf (b : Nat) (c : Byte) (d : Nat) : Prop :=
  d < b ∧ (d < 10 ∧ c.toNat = 48 + d ∨ 10 ≤ d ∧ c.toNat = 97 + (d - 10) ∨ 10 ≤ d ∧ c.toNat = 65 + (d - 10))

/-- `text` is a way to write `n` in the language: decimal without leading zero, `0x`
hexadecimal, `0b` binary, `0` octal. -/
inductive Denotes : List Byte → Nat → Prop where
  | dec (cs : List Byte) (ds : List Nat) (hd : List.Forall₂ (IsDigitOf 10) cs ds)
      (h0 : cs.head? ≠ some 48#8 ∨ cs = [48#8]) (hne : cs ≠ []) :
      Denotes cs (Nat.ofDigits 10 ds.reverse)
  | hex (cs : List Byte) (ds : List Nat) (hd : List.Forall₂ (IsDigitOf 16) cs ds) :
      Denotes (48#8 :: 120#8 :: cs) (Nat.ofDigits 16 ds.reverse)
  | bin (cs : List Byte) (ds : List Nat) (hd : List.Forall₂ (IsDigitOf 2) cs ds) :
      Denotes (48#8 :: 98#8 :: cs) (Nat.ofDigits 2 ds.reverse)
  | oct (cs : List Byte) (ds : List Nat) (hd : List.Forall₂ (IsDigitOf 8) cs ds) (hne : cs ≠ []) :
      Denotes (48#8 :: cs) (Nat.ofDigits 8 ds.reverse)

/-- A character that may follow a number: not alphanumeric, not `.`. -/
def Ends (c : Byte) : Prop :=
  c ≠ 46#8 ∧ ¬ (48 ≤ c.toNat ∧ c.toNat ≤ 57) ∧ ¬ (65 ≤ c.toNat ∧ c.toNat ≤ 90) ∧
    ¬ (97 ≤ c.toNat ∧ c.toNat ≤ 122)

/-! ### Lemmas -/

theorem IsDigitOf.val {b : Nat} {c : Byte} {d : Nat} (h : IsDigitOf b c d) (hb : b ≤ 16) :
    digitVal c = d := by
  obtain ⟨h1, h2⟩ := h
  unfold digitVal
  split
  · omega
  · split <;> omega

theorem ofDigits_rev_snoc (b : Nat) (ds : List Nat) (d : Nat) :
    Nat.ofDigits b (ds ++ [d]).reverse = Nat.ofDigits b ds.reverse * b + d := by
  rw [List.reverse_append, List.reverse_singleton, List.singleton_append, Nat.ofDigits_cons]
  rw [Nat.add_comm, Nat.mul_comm]

theorem sat_step (max b V d : Nat) (hb : 1 ≤ b) :
    (if max < min max V * b + d then max else min max V * b + d) = min max (V * b + d) := by
  by_cases h : V ≤ max
  · rw [Nat.min_eq_right h]
    split <;> omega
  · rw [Nat.min_eq_left (by omega : max ≤ V)]
    have h1 : max * 1 ≤ max * b := Nat.mul_le_mul_left _ hb
    have h2 : max * b ≤ V * b := Nat.mul_le_mul_right _ (by omega)
    split <;> omega

theorem strto_eq (max b : Nat) (hb : 1 ≤ b) (hb16 : b ≤ 16) (cs : List Byte) (ds : List Nat)
    (hd : List.Forall₂ (IsDigitOf b) cs ds) : strto max b cs = min max (Nat.ofDigits b ds.reverse) := by
  suffices H : ∀ (cs : List Byte) (ds pre : List Nat), List.Forall₂ (IsDigitOf b) cs ds →
      cs.foldl (fun acc c => if max < acc * b + digitVal c then max else acc * b + digitVal c)
        (min max (Nat.ofDigits b pre.reverse)) = min max (Nat.ofDigits b (pre ++ ds).reverse) by
    have := H cs ds [] hd
    simpa [strto] using this
  intro cs
  induction cs with
  | nil => intro ds pre h; cases h; simp
  | cons c cs ih =>
    intro ds pre h
    cases h with
    | cons h1 h2 =>
      rename_i d ds
      rw [List.foldl_cons, h1.val hb16, sat_step _ _ _ _ hb, ← ofDigits_rev_snoc, ih ds _ h2]
      simp

theorem run_eq (p : Byte → Bool) (cs : List Byte) (c : Byte) (rest : List Byte)
    (h : ∀ x ∈ cs, p x = true) (hc : p c = false) : run p (cs ++ c :: rest) = some (cs, c :: rest) := by
  induction cs with
  | nil => simp [run, hc]
  | cons x cs ih =>
    simp only [List.cons_append, run, h x (by simp), if_true]
    rw [ih fun y hy => h y (by simp [hy])]
    rfl

theorem decLoop_eq (cs : List Byte) (c : Byte) (rest : List Byte)
    (h : ∀ x ∈ cs, isDigit x = true) (hc : Ends c) : ∀ t, decLoop false t (cs ++ c :: rest)
      = some (false, t ++ cs, c :: rest) := by
  induction cs with
  | nil =>
    intro t
    obtain ⟨h1, h2, h3, h4⟩ := hc
    have hd : isDigit c = false := by
      simp only [isDigit, Bool.and_eq_false_imp, decide_eq_true_eq, decide_eq_false_iff_not]
      omega
    have h5 : ¬ (c = 102#8 ∨ c = 70#8) := by
      rintro (h | h) <;> subst h <;> simp at h3 h4
    simp [decLoop, h1, hd, h5]
  | cons x cs ih =>
    intro t
    have hx := h x (by simp)
    have h1 : x ≠ 46#8 := by rintro rfl; exact absurd hx (by decide)
    simp only [List.cons_append, decLoop, if_neg h1, hx, Bool.true_eq_false, if_false]
    rw [ih fun y hy => h y (by simp [hy])]
    simp

theorem Forall₂.all {b : Nat} {cs : List Byte} {ds : List Nat}
    (hd : List.Forall₂ (IsDigitOf b) cs ds) {x : Byte} (hx : x ∈ cs) : ∃ d, IsDigitOf b x d := by
  induction hd with
  | nil => cases hx
  | cons h _ ih =>
    rcases List.mem_cons.mp hx with rfl | hx
    · exact ⟨_, h⟩
    · exact ih hx

theorem toNat_eq {c : Byte} {n : Nat} (h : c.toNat = n) : c = BitVec.ofNat 8 n := by
  apply BitVec.eq_of_toNat_eq
  have := c.isLt
  simp
  omega

/-- **C39** (source to value).  Every way to write a number that fits in 32 bits, followed by
any character that can end a number, is scanned as exactly that number, and scanning stops
there.  The number must not exceed what `strtol`/`strtoul` return unclamped (`2^(L-1)-1`), which
is implied by 32 bits when C's `long` has 64. -/
theorem C39_scan (L : Nat) (text : List Byte) (n : Nat) (h : Denotes text n)
    (hn : n ≤ 2 ^ (L - 1) - 1) (c0 : Byte) (tail : List Byte) (ht : text = c0 :: tail)
    (c : Byte) (hc : Ends c) (rest : List Byte) :
    scanNumber L c0 (tail ++ c :: rest) = .tok (.int (BitVec.ofNat 32 n)) (c :: rest) := by
  have hpow : 2 ^ (L - 1) ≤ 2 ^ L := Nat.pow_le_pow_right (by omega) (by omega)
  have hc' := hc
  obtain ⟨hc1, hc2, hc3, hc4⟩ := hc
  cases h with
  | hex cs ds hd =>
    cases ht
    have hr := run_eq isXDigit cs c rest (by
      intro x hx
      obtain ⟨d, h1, h2⟩ := Forall₂.all hd hx
      simp only [isXDigit, isDigit, Bool.or_eq_true, Bool.and_eq_true, decide_eq_true_eq]
      omega) (by
      simp only [isXDigit, isDigit, Bool.or_eq_false_iff, Bool.and_eq_false_imp, decide_eq_true_eq,
        decide_eq_false_iff_not]
      omega)
    simp only [scanNumber, List.cons_append, and_self, if_true, hr]
    rw [strto_eq _ _ (by omega) (by omega) cs ds hd, Nat.min_eq_right (by omega)]
  | bin cs ds hd =>
    cases ht
    have hr := run_eq (fun x => x = 48#8 ∨ x = 49#8) cs c rest (by
      intro x hx
      obtain ⟨d, h1, h2⟩ := Forall₂.all hd hx
      simp only [decide_eq_true_eq]
      have : x.toNat = 48 ∨ x.toNat = 49 := by omega
      rcases this with h | h
      · exact Or.inl (toNat_eq h)
      · exact Or.inr (toNat_eq h)) (by
      simp only [decide_eq_false_iff_not]
      rintro (h | h) <;> subst h <;> simp at hc2)
    simp only [scanNumber, List.cons_append, and_self, if_true, true_and]
    rw [if_neg (by decide)]
    simp only [hr]
    rw [strto_eq _ _ (by omega) (by omega) cs ds hd, Nat.min_eq_right (by omega)]
  | oct cs ds hd hne =>
    cases ht
    obtain ⟨d, cs', rfl⟩ := List.exists_cons_of_ne_nil hne
    have hr := run_eq (fun x => 48 ≤ x.toNat && x.toNat ≤ 55) (d :: cs') c rest (by
      intro x hx
      obtain ⟨d, h1, h2⟩ := Forall₂.all hd hx
      simp only [Bool.and_eq_true, decide_eq_true_eq]
      omega) (by
      simp only [Bool.and_eq_false_imp, decide_eq_true_eq, decide_eq_false_iff_not]
      omega)
    obtain ⟨v, h1, h2⟩ := Forall₂.all hd (List.mem_cons_self)
    have e1 : d ≠ 120#8 := by rintro rfl; simp at h2; omega
    have e2 : d ≠ 98#8 := by rintro rfl; simp at h2; omega
    have e3 : isDigit d = true := by
      simp only [isDigit, Bool.and_eq_true, decide_eq_true_eq]; omega
    rw [List.cons_append] at hr ⊢
    simp only [scanNumber, true_and, e1, e2, e3, if_false, if_true, hr]
    rw [strto_eq _ _ (by omega) (by omega) _ ds hd, Nat.min_eq_right (by omega)]
  | dec _ ds hd h0 hne =>
    subst ht
    have hall : ∀ x ∈ c0 :: tail, isDigit x = true := by
      intro x hx
      obtain ⟨d, h1, h2⟩ := Forall₂.all hd hx
      simp only [isDigit, Bool.and_eq_true, decide_eq_true_eq]
      omega
    have hr := decLoop_eq tail c rest (fun x hx => hall x (by simp [hx])) hc' [c0]
    have e46 : decide (c0 = 46#8) = false := by
      simp only [decide_eq_false_iff_not]
      rintro rfl
      exact absurd (hall 46#8 (by simp)) (by decide)
    have key : ∀ d r, tail ++ c :: rest = d :: r →
        ¬ (c0 = 48#8 ∧ d = 120#8) ∧ ¬ (c0 = 48#8 ∧ d = 98#8) ∧ ¬ (c0 = 48#8 ∧ isDigit d = true) := by
      intro d r hdr
      rcases h0 with h0 | h0
      · have : c0 ≠ 48#8 := by simpa using h0
        exact ⟨fun h => this h.1, fun h => this h.1, fun h => this h.1⟩
      · cases h0
        cases hdr
        refine ⟨?_, ?_, ?_⟩
        · rintro ⟨_, rfl⟩; simp at hc4
        · rintro ⟨_, rfl⟩; simp at hc4
        · rintro ⟨_, h⟩
          simp only [isDigit, Bool.and_eq_true, decide_eq_true_eq] at h
          omega
    obtain ⟨d, r, hdr⟩ : ∃ d r, tail ++ c :: rest = d :: r := by
      cases tail with
      | nil => exact ⟨_, _, rfl⟩
      | cons d r => exact ⟨_, _, rfl⟩
    obtain ⟨k1, k2, k3⟩ := key d r hdr
    rw [hdr] at hr ⊢
    simp only [scanNumber, if_neg k1, if_neg k2, if_neg k3, e46, hr, List.singleton_append]
    rw [strto_eq _ _ (by omega) (by omega) _ ds hd, Nat.min_eq_right (by omega)]

/-- The same with a 64-bit `long`: every number below `2^32`. -/
theorem C39_scan_lp64 (text : List Byte) (n : Nat) (h : Denotes text n) (hn : n < 2 ^ 32)
    (c0 : Byte) (tail : List Byte) (ht : text = c0 :: tail) (c : Byte) (hc : Ends c)
    (rest : List Byte) :
    scanNumber 64 c0 (tail ++ c :: rest) = .tok (.int (BitVec.ofNat 32 n)) (c :: rest) :=
  C39_scan 64 text n h (by omega) c0 tail ht c hc rest

/-- With a 32-bit `long` (embedded targets, Windows) the statement fails: the binary literal
of 32 ones is clamped by `strtol` to `0x7FFFFFFF`, while the same number in hexadecimal is
read correctly. -/
theorem C39_binary_clamped :
    scanNumber 32 48#8 (98#8 :: List.replicate 32 49#8 ++ [59#8])
      = .tok (.int 0x7FFFFFFF#32) [59#8] ∧
    scanNumber 32 48#8 (120#8 :: List.replicate 8 70#8 ++ [59#8])
      = .tok (.int 0xFFFFFFFF#32) [59#8] := by
  constructor <;> decide +kernel

/-- Text that only looks like an octal number: the digits 8 and 9 end the token, so `08`
is scanned as the number 0 followed by a second number. -/
theorem C39_octal_digit : scanNumber 64 48#8 [56#8, 59#8] = .tok (.int 0) [56#8, 59#8] := by
  decide +kernel

/-! ### Emission and execution -/

theorem sext8 (v : Word32) (h : v.toInt ≤ 127) (h' : v.toInt ≥ -128) :
    (v.setWidth 8).signExtend 32 = v := by
  apply BitVec.eq_of_toInt_eq
  rw [BitVec.toInt_signExtend_of_le (by omega)]
  rw [BitVec.toInt_eq_toNat_bmod] at h h'
  simp only [BitVec.toInt_eq_toNat_bmod, BitVec.toNat_setWidth]
  have := v.isLt
  simp only [Int.bmod] at h h' ⊢
  push_cast at h h' ⊢
  split_ifs at h h' ⊢ <;> omega

theorem sext16 (v : Word32) (h : v.toInt ≤ 32767) (h' : v.toInt ≥ -32768) :
    (v.setWidth 16).signExtend 32 = v := by
  apply BitVec.eq_of_toInt_eq
  rw [BitVec.toInt_signExtend_of_le (by omega)]
  rw [BitVec.toInt_eq_toNat_bmod] at h h'
  simp only [BitVec.toInt_eq_toNat_bmod, BitVec.toNat_setWidth]
  have := v.isLt
  simp only [Int.bmod] at h h' ⊢
  push_cast at h h' ⊢
  split_ifs at h h' ⊢ <;> omega

/-- **C39** (value to stack).  The instruction emitted for an integer literal, in whichever
size class it falls, pushes exactly that value and execution goes on right after it. -/
theorem C39_push (neg : Word32 → Word32) (v : Word32) (code : List Byte) (st : List Item) :
    steps neg 1 (bytes (pushInt v) ++ code) st = some (code, .int v :: st) := by
  unfold pushInt
  split
  · next h => subst h; simp [steps, step, bytes, Op.decode_code]
  · split
    · next h =>
      simp [steps, step, bytes, Op.decode_code, read8, sext8 v h.1 h.2]
    · split
      · next h =>
        have := read16_pack16 [] code (v.setWidth 16)
        simp only [List.nil_append, List.length_nil] at this
        have hd : (pack16 (v.setWidth 16) ++ code).drop 2 = code := rfl
        simp [steps, step, bytes, Op.decode_code, this, hd, sext16 v h.1 h.2]
      · have := read32_pack32 [] code v
        simp only [List.nil_append, List.length_nil] at this
        have hd : (pack32 v ++ code).drop 4 = code := rfl
        simp [steps, step, bytes, Op.decode_code, this, hd]

theorem mask8_16 (x : Word16) : (x &&& 0xFF#16).setWidth 8 = x.setWidth 8 := by
  apply BitVec.eq_of_getLsbD_eq
  intro i hi
  simp only [BitVec.getLsbD_setWidth, BitVec.getLsbD_and, getLsbD_mask16]
  simp [hi]

theorem mask8_32 (x : Word32) : (x &&& 0xFF#32).setWidth 8 = x.setWidth 8 := by
  apply BitVec.eq_of_getLsbD_eq
  intro i hi
  simp only [BitVec.getLsbD_setWidth, BitVec.getLsbD_and, getLsbD_mask32]
  simp [hi]

theorem shift8_32 (x : Word32) (n : Nat) (hn : n ≤ 24) :
    (x.sshiftRight n).setWidth 8 = (x >>> n).setWidth 8 := by
  apply BitVec.eq_of_getLsbD_eq
  intro i hi
  simp only [BitVec.getLsbD_setWidth, BitVec.getLsbD_sshiftRight, BitVec.getLsbD_ushiftRight]
  have h1 : ¬ 32 ≤ i := by omega
  have h2 : n + i < 32 := by omega
  simp [hi, h1, h2]

theorem fold16 (neg : Word32 → Word32) (w : Word16) :
    pushNegate neg (.LiteralInt16, pack16 w) = bytes (.LiteralInt16, pack16 (-w)) := by
  have h := join16_pack w
  have e : pack16 w = [(w &&& 0xFF#16).setWidth 8, ((w.sshiftRight 8) &&& 0xFF#16).setWidth 8] := rfl
  rw [e]
  simp only [pushNegate]
  rw [h]
  simp only [bytes, pack16, mask8_16]

theorem fold32 (neg : Word32 → Word32) (w : Word32) :
    pushNegate neg (.LiteralInt32, pack32 w) = bytes (.LiteralInt32, pack32 (-w)) := by
  have h := join32_pack w
  have e : pack32 w = [(w &&& 0xFF#32).setWidth 8, ((w.sshiftRight 8) &&& 0xFF#32).setWidth 8,
    ((w.sshiftRight 16) &&& 0xFF#32).setWidth 8, ((w.sshiftRight 24) &&& 0xFF#32).setWidth 8] := rfl
  rw [e]
  simp only [pushNegate]
  rw [h]
  simp only [bytes, pack32, mask8_32]
  rw [shift8_32 _ 8 (by omega), shift8_32 _ 16 (by omega), shift8_32 _ 24 (by omega)]

theorem foldFloat (neg : Word32 → Word32) (w : Word32) :
    pushNegate neg (pushFloat w) = bytes (pushFloat (neg w)) := by
  have h := join32_pack w
  have e : pack32 w = [(w &&& 0xFF#32).setWidth 8, ((w.sshiftRight 8) &&& 0xFF#32).setWidth 8,
    ((w.sshiftRight 16) &&& 0xFF#32).setWidth 8, ((w.sshiftRight 24) &&& 0xFF#32).setWidth 8] := rfl
  unfold pushFloat
  rw [e]
  simp only [pushNegate]
  rw [h]
  simp only [bytes, pack32, mask8_32]

theorem toInt_neg_of_ne (v : Word32) (h : v.toInt ≠ -2147483648) : (-v).toInt = - v.toInt := by
  rw [BitVec.toInt_neg]
  have h1 := BitVec.toInt_lt (x := v)
  have h2 := BitVec.le_toInt (x := v)
  simp only [Int.bmod]
  push_cast at h1 h2 ⊢
  split_ifs <;> omega

/-- **C39** (unary minus), excluding two values.  A minus sign in front of an integer literal
pushes the negated value, whether it is folded into the operand bytes or left as an
instruction.  Missing: the literals whose value is −128 or −32768, see
`C39_negate_wrong`.  They can only be written in the form `0xFFFFFF80`, see
`C39_negate_decimal`. -/
theorem C39_negate_partial (neg : Word32 → Word32) (v : Word32) (h8 : v ≠ 0xFFFFFF80#32)
    (h16 : v ≠ 0xFFFF8000#32) (code : List Byte) (st : List Item) :
    steps neg (if v = 0 then 2 else 1) (pushNegate neg (pushInt v) ++ code) st
      = some (code, .int (-v) :: st) := by
  have n8 : v.toInt ≠ -128 := fun h => h8 (BitVec.eq_of_toInt_eq (by rw [h]; rfl))
  have n16 : v.toInt ≠ -32768 := fun h => h16 (BitVec.eq_of_toInt_eq (by rw [h]; rfl))
  unfold pushInt
  split
  · next h => subst h; simp [steps, step, bytes, pushNegate, Op.decode_code]
  · split
    · next h =>
      have hi := toInt_neg_of_ne v (by omega)
      have := sext8 (-v) (by omega) (by omega)
      rw [BitVec.setWidth_neg_of_le (by omega)] at this
      simp [steps, step, pushNegate, Op.decode_code, read8, this]
    · split
      · next h =>
        have hi := toInt_neg_of_ne v (by omega)
        have h3 := sext16 (-v) (by omega) (by omega)
        rw [BitVec.setWidth_neg_of_le (by omega)] at h3
        rw [fold16]
        have := read16_pack16 [] code (-v.setWidth 16)
        simp only [List.nil_append, List.length_nil] at this
        have hd : (pack16 (-v.setWidth 16) ++ code).drop 2 = code := rfl
        simp [steps, step, bytes, Op.decode_code, this, hd, h3]
      · rw [fold32]
        have := read32_pack32 [] code (-v)
        simp only [List.nil_append, List.length_nil] at this
        have hd : (pack32 (-v) ++ code).drop 4 = code := rfl
        simp [steps, step, bytes, Op.decode_code, this, hd]

/-- The excluded values really go wrong: `-0xFFFFFF80` should be 128 and is −128,
`-0xFFFF8000` should be 32768 and is −32768. -/
theorem C39_negate_wrong (neg : Word32 → Word32) :
    steps neg 1 (pushNegate neg (pushInt 0xFFFFFF80#32)) [] = some ([], [.int 0xFFFFFF80#32]) ∧
    steps neg 1 (pushNegate neg (pushInt 0xFFFF8000#32)) [] = some ([], [.int 0xFFFF8000#32]) := by
  constructor <;> rfl

/-- **C39** (negative numbers).  `-n` for any number `n` up to `2^31` pushes exactly the
32-bit two's complement of `n`. -/
theorem C39_negate_decimal (neg : Word32 → Word32) (n : Nat) (hn : n ≤ 2 ^ 31) (code : List Byte)
    (st : List Item) :
    steps neg (if n = 0 then 2 else 1) (pushNegate neg (pushInt (BitVec.ofNat 32 n)) ++ code) st
      = some (code, .int (BitVec.ofInt 32 (-n)) :: st) := by
  have h := C39_negate_partial neg (BitVec.ofNat 32 n) (by
    intro h
    have := congrArg BitVec.toNat h
    simp at this
    omega) (by
    intro h
    have := congrArg BitVec.toNat h
    simp at this
    omega) code st
  have e0 : (BitVec.ofNat 32 n = 0) ↔ n = 0 := by
    constructor
    · intro h
      have := congrArg BitVec.toNat h
      simp at this
      omega
    · rintro rfl; rfl
  have e1 : -BitVec.ofNat 32 n = BitVec.ofInt 32 (-n) := by
    rw [BitVec.ofInt_neg, BitVec.ofInt_natCast]
  rw [e1] at h
  simpa only [e0] using h

/-- **C39** (floats).  A float literal pushes the bit pattern the tokenizer computed, and
with a minus sign its negation. -/
theorem C39_float (neg : Word32 → Word32) (w : Word32) (code : List Byte) (st : List Item) :
    steps neg 1 (bytes (pushFloat w) ++ code) st = some (code, .float w :: st) ∧
    steps neg 1 (pushNegate neg (pushFloat w) ++ code) st = some (code, .float (neg w) :: st) := by
  have H : ∀ w, steps neg 1 (bytes (pushFloat w) ++ code) st = some (code, .float w :: st) := by
    intro w
    have := read32_pack32 [] code w
    simp only [List.nil_append, List.length_nil] at this
    have hd : (pack32 w ++ code).drop 4 = code := rfl
    simp [steps, step, bytes, pushFloat, Op.decode_code, this, hd]
  exact ⟨H w, by rw [foldFloat]; exact H _⟩

theorem strLoop_end (t r : List Byte) : strLoop false t (34#8 :: r) = .text t r := by
  unfold strLoop
  simp

theorem strLoop_end' (t r : List Byte) (h : ¬ 1 < t.length) :
    strLoop true t (39#8 :: r) = .text t r := by
  unfold strLoop
  simp
  omega

theorem strLoop_plain (single : Bool) (t r : List Byte) (c : Byte) (h1 : ¬ (c = 34#8 ∧ single = false))
    (h2 : ¬ (c = 39#8 ∧ single = true)) (h3 : c ≠ 10#8) (h4 : c ≠ 92#8) :
    strLoop single t (c :: r) = strLoop single (t ++ [c]) r := by
  conv => lhs; unfold strLoop
  rw [if_neg h1, if_neg h2, if_neg h3, if_neg h4]

/-- **C39** (character literals).  A plain character between single quotes denotes its
(signed) character code. -/
theorem C39_char (c : Byte) (h1 : c ≠ 39#8) (h2 : c ≠ 92#8) (h3 : c ≠ 10#8) (rest : List Byte) :
    scanQuoted true (c :: 39#8 :: rest) = .tok (.int (c.signExtend 32)) rest := by
  simp only [scanQuoted]
  rw [strLoop_plain _ _ _ _ (by simp) (by simp [h1]) h3 h2, strLoop_end' _ _ (by simp)]
  rfl

/-- The escapes inside single quotes. -/
theorem C39_char_escape (rest : List Byte) :
    scanQuoted true (92#8 :: 110#8 :: 39#8 :: rest) = .tok (.int 10) rest ∧
    scanQuoted true (92#8 :: 114#8 :: 39#8 :: rest) = .tok (.int 13) rest ∧
    scanQuoted true (92#8 :: 116#8 :: 39#8 :: rest) = .tok (.int 9) rest ∧
    scanQuoted true (92#8 :: 92#8 :: 39#8 :: rest) = .tok (.int 92) rest ∧
    scanQuoted true (92#8 :: 39#8 :: 39#8 :: rest) = .tok (.int 39) rest ∧
    scanQuoted true (92#8 :: 34#8 :: 39#8 :: rest) = .tok (.int 34) rest ∧
    scanQuoted true (92#8 :: 48#8 :: 39#8 :: rest) = .tok (.int 0) rest := by
  refine ⟨?_, ?_, ?_, ?_, ?_, ?_, ?_⟩ <;>
    simp [scanQuoted, strLoop, atoiByte, strto, digitVal, isDigit, List.takeWhile, List.dropWhile, strLoop_end']

/-! ### Strings -/

/-- How to write a text between double quotes. -/
def escape : List Byte → List Byte
  | [] => []
  | c :: r =>
    if c = 92#8 then 92#8 :: 92#8 :: escape r
    else if c = 34#8 then 92#8 :: 34#8 :: escape r
    else if c = 10#8 then 92#8 :: 110#8 :: escape r
    else c :: escape r

theorem strLoop_escape (s : List Byte) (rest : List Byte) : ∀ t,
    strLoop false t (escape s ++ 34#8 :: rest) = .text (t ++ s) rest := by
  induction s with
  | nil => intro t; simp [escape, strLoop_end]
  | cons c s ih =>
    intro t
    by_cases h1 : c = 92#8
    · subst h1; simp [escape, strLoop, ih]
    · by_cases h2 : c = 34#8
      · subst h2; simp [escape, strLoop, ih]
      · by_cases h3 : c = 10#8
        · subst h3; simp [escape, strLoop, ih]
        · simp only [escape, h1, h2, h3, if_false, List.cons_append]
          rw [strLoop_plain _ _ _ _ (by simp [h2]) (by simp) h3 h1, ih]
          simp

/-- **C52**.  Every text can be written as a string literal by escaping backslash, double
quote and newline, and the literal is scanned as exactly that text. -/
theorem C52_scan (s : List Byte) (rest : List Byte) :
    scanQuoted false (escape s ++ 34#8 :: rest) = .tok (.str s) rest := by
  have h := strLoop_escape s rest []
  unfold scanQuoted
  generalize hl : escape s ++ 34#8 :: rest = l at h
  cases l with
  | nil => simp at hl
  | cons a l => rw [h]; simp

/-- **C52**.  The instruction emitted for a string of fewer than 65536 characters creates a
string object with exactly these characters. -/
theorem C52_push_partial (neg : Word32 → Word32) (s : List Byte) (hs : s.length < 65536)
    (code : List Byte) (st : List Item) :
    steps neg 1 (bytes (pushStr s) ++ code) st = some (code, .str s :: st) := by
  have h := read16_pack16 [] (s ++ code) (BitVec.ofNat 16 s.length)
  simp only [List.nil_append, List.length_nil] at h
  have hd : ∀ x, (pack16 (BitVec.ofNat 16 s.length) ++ x).drop 2 = x := fun _ => rfl
  have hd2 : ∀ x n, (pack16 (BitVec.ofNat 16 s.length) ++ x).drop (2 + n) = x.drop n := by
    intro x n; rw [← List.drop_drop, hd]
  have hm : s.length % 65536 = s.length := Nat.mod_eq_of_lt hs
  simp [steps, step, bytes, pushStr, Op.decode_code, h, hd, hd2, hm]

/-- Longer strings are cut to their length modulo 65536 and the interpreter goes on executing
the remaining characters as instructions. -/
theorem C52_long_string (neg : Word32 → Word32) (s : List Byte) (code : List Byte)
    (st : List Item) :
    steps neg 1 (bytes (pushStr s) ++ code) st
      = some (s.drop (s.length % 65536) ++ code, .str (s.take (s.length % 65536)) :: st) := by
  have h := read16_pack16 [] (s ++ code) (BitVec.ofNat 16 s.length)
  simp only [List.nil_append, List.length_nil] at h
  have hd : ∀ x, (pack16 (BitVec.ofNat 16 s.length) ++ x).drop 2 = x := fun _ => rfl
  have hd2 : ∀ x n, (pack16 (BitVec.ofNat 16 s.length) ++ x).drop (2 + n) = x.drop n := by
    intro x n; rw [← List.drop_drop, hd]
  have hle : s.length % 65536 ≤ s.length := Nat.mod_le _ _
  have hle2 : s.length % 65536 ≤ s.length + code.length := by omega
  simp [steps, step, bytes, pushStr, Op.decode_code, h, hd, hd2, hle2,
    List.drop_append_of_le_length hle, List.take_append_of_le_length hle]

/-- A string literal cut off by the end of the source is accepted. -/
theorem C52_unterminated : scanQuoted false [97#8] = .tok (.str [97#8]) [] := by
  simp [scanQuoted, strLoop]

/-! ### Concrete cases -/

/-- `0xfF;` -/
example : Denotes [48#8, 120#8, 102#8, 70#8] 255 :=
  .hex [102#8, 70#8] [15, 15]
    (.cons (by unfold IsDigitOf; decide) (.cons (by unfold IsDigitOf; decide) .nil))

example : Ends 59#8 := by unfold Ends; decide

/-- `1207;` -/
example : scanNumber 64 49#8 [50#8, 48#8, 55#8, 59#8, 32#8] = .tok (.int 1207) [59#8, 32#8] := by
  decide +kernel

/-- `1.5f;` -/
example : scanNumber 64 49#8 [46#8, 53#8, 102#8, 59#8] = .tok (.float [49#8, 46#8, 53#8]) [59#8] := by
  decide +kernel

end Wrench.Cc
