import Verif.Text.Float
import Verif.Text.Safe

/-
C63: text of values for the host.
-/
namespace Wrench.Text

open Wrench.Std

variable (O : FloatOps)

/-- The conversion of `f` is defined: its magnitude fits an `int`, whose fraction digits are
digits. -/
structure FloatOk (f : O.F) (i : Word32) : Prop where
  int : O.toInt (O.round (if O.isNeg f then O.neg f else f)) = some i
  nonneg : 0 ≤ i.toInt
  digits : ∀ (g : O.F), ∀ d ∈ digitsOf O 5 g, d ≠ 46#8

/-- The sign shown for `f`. -/
def signText (f : O.F) : List Byte := if O.isNeg f then [45#8] else []

/-- What is left of `f` for the digits after the point. -/
def fracPart (f : O.F) (i : Word32) : O.F :=
  if i = 0#32 then O.round (if O.isNeg f then O.neg f else f)
  else O.subInt (O.round (if O.isNeg f then O.neg f else f)) i

theorem isIntText_zero : IsIntText [48#8] 0 := by
  left
  refine ⟨by omega, ?_, by simp, by simp, ?_⟩
  · intro d hd
    simp only [List.mem_singleton] at hd
    subst hd
    decide
  · decide

theorem ftoaBody_spec {f : O.F} {i : Word32} {len : Nat} {buf sg : List Byte}
    (hint : O.toInt (O.round f) = some i) (hnn : 0 ≤ i.toInt)
    (hdig : ∀ (g : O.F), ∀ d ∈ digitsOf O 5 g, d ≠ 46#8)
    (hs : sg.length ≤ 1) (hb : len < buf.length) (hlen : 2 ≤ len) (hsg : buf.take sg.length = sg) :
    ∃ t, IsIntText t i.toInt ∧ t.length ≤ 10 ∧
      ∃ b n, ftoaBody O buf sg.length f len = some (b, n) ∧ b.length = buf.length ∧
        b.drop (len + 1) = buf.drop (len + 1) ∧
        ∃ out, n = out.length ∧ out.length ≤ len ∧ b.take (n + 1) = out ++ [0#8] ∧
          out = (if sg.length + t.length ≤ len then
              sg ++ t ++ fraction (digitsOf O (min 5 (len - (sg.length + t.length + 1)))
                (if i = 0#32 then O.round f else O.subInt (O.round f) i))
            else (sg ++ t).take len) := by
  have hpos : ¬ (sg.length > len) := by omega
  -- the integer part, stored
  have key : ∃ t, IsIntText t i.toInt ∧ t.length ≤ 10 ∧ ∃ b1,
      Ext buf b1 sg.length (t.take (len - sg.length)) (len + 1) ∧
      ftoaBody O buf sg.length f len =
        ftoaRest O len b1 (sg.length + (t.take (len - sg.length)).length)
          (if i = 0#32 then O.round f else O.subInt (O.round f) i) := by
    by_cases hi : i = 0#32
    · subst hi
      refine ⟨[48#8], by simpa using isIntText_zero, by simp, ?_⟩
      have ht : ([48#8] : List Byte).take (len - sg.length) = [48#8] :=
        List.take_of_length_le (by simp; omega)
      rw [ht]
      obtain ⟨b1, hb1, he1⟩ := put_ext (buf := buf) (pos := sg.length) (bs := [48#8])
        (lim := len + 1) (by simp; omega) hb
      refine ⟨b1, he1, ?_⟩
      simp only [ftoaBody, hpos, if_false, hint, ne_eq, not_true_eq_false, hb1, Option.map_some,
        if_true, List.length_cons, List.length_nil, Nat.zero_add]
    · have hmin : i ≠ 0x80000000#32 := by
        intro h; rw [h] at hnn; exact absurd hnn (by decide)
      obtain ⟨t, htx, _, _, _, hcut⟩ := C21_itoa_partial i hmin
      have h10 : t.length ≤ 10 := by
        rcases htx with ⟨_, hd⟩ | ⟨hneg, _⟩
        · have hlt : i.toInt.natAbs < 10 ^ 10 := by
            have := i.toInt_lt
            omega
          obtain ⟨buf', _, hd', _, hl'⟩ := digitLoop_spec 9 i.toInt.natAbs hlt
          obtain ⟨t', htx', _, hl11, hfit, _⟩ := C21_itoa_partial i hmin
          have hslt : i.slt 0#32 = false := by
            simp only [BitVec.slt, decide_eq_false_iff_not]
            simpa using hnn
          have hrun := hcut (t.length + 11) (by omega)
          rw [List.take_of_length_le (by omega)] at hrun
          simp only [itoa, hmin, if_false, hslt, Bool.false_eq_true] at hrun
          have habs : i.toNat = i.toInt.natAbs := by
            rw [BitVec.toInt_eq_toNat_cond] at hnn ⊢
            split at hnn <;> split <;> omega
          obtain ⟨buf2, hb2, _, _, hl2⟩ := digitLoop_spec 9 i.toNat (by omega)
          have mono : ∀ (r v : Nat) (b : List Byte), digitLoop r v = some b →
              digitLoop (r + 1) v = some b := by
            intro r
            induction r with
            | zero => intro v b h; simp [digitLoop] at h
            | succ r ih =>
              intro v b h
              rw [digitLoop] at h ⊢
              split at h
              · next h0 => rw [if_pos h0]; exact h
              · next h0 =>
                rw [if_neg h0]
                cases hh : digitLoop r (v / 10) with
                | none => simp [hh] at h
                | some b' =>
                  rw [ih _ _ hh]
                  rw [hh] at h
                  simpa using h
          rw [mono _ _ _ (mono _ _ _ hb2)] at hrun
          simp only [Option.some.injEq, Prod.mk.injEq, List.nil_append, List.length_nil,
            Nat.sub_zero, List.length_take, List.length_reverse] at hrun
          omega
        · omega
      have hc := hcut (len - sg.length) (by omega)
      refine ⟨t, htx, h10, ?_⟩
      obtain ⟨b1, hb1, he1⟩ := put_ext (buf := buf) (pos := sg.length)
        (bs := t.take (len - sg.length) ++ [0#8]) (lim := len + 1)
        (by simp only [List.length_append, List.length_take, List.length_cons, List.length_nil]; omega) hb
      refine ⟨b1, he1.shorten (by omega), ?_⟩
      simp only [ftoaBody, hpos, if_false, hint, ne_eq, hi, not_false_eq_true, if_true, hc, hb1,
        Option.map_some]
  obtain ⟨t, htx, h10, b1, he1, hrun⟩ := key
  refine ⟨t, htx, h10, ?_⟩
  obtain ⟨pre, hpre⟩ : ∃ pre, pre = sg ++ t.take (len - sg.length) := ⟨_, rfl⟩
  have hpl : pre.length = sg.length + (t.take (len - sg.length)).length := by rw [hpre]; simp
  have hple : pre.length ≤ len := by rw [hpl, List.length_take]; omega
  obtain ⟨b2, b3, b, h2, h3, h4, hbl, hbt, hbd⟩ := ftoa_tail O (buf := b1) (pre := pre) (len := len)
    (g := if i = 0#32 then O.round f else O.subInt (O.round f) i) (by rw [he1.len]; exact hb) hple
    (by rw [hpl, he1.text, hsg, hpre]) (hdig _)
  rw [← hpl] at hrun
  refine ⟨b, _, by rw [hrun]; simp only [ftoaRest, h2, h3]; exact h4, by rw [hbl, he1.len],
    by rw [hbd, he1.rest], _, rfl, ?_, hbt, ?_⟩
  · generalize (if i = 0#32 then O.round f else O.subInt (O.round f) i) = g
    obtain ⟨zs, hz⟩ := dropZeros_prefix _ (digitsOf O (min 5 (len - (pre.length + 1))) g) rfl
    have hle := congrArg List.length hz
    rw [digitsOf_length, List.length_append] at hle
    rw [List.length_append]
    unfold fraction
    split
    · simpa using hple
    · next hn =>
      have := List.length_pos_iff.mpr hn
      simp only [List.length_cons]
      omega
  · by_cases hfit : sg.length + t.length ≤ len
    · have htk : t.take (len - sg.length) = t := List.take_of_length_le (by omega)
      rw [if_pos hfit, hpre, htk, List.length_append]
    · rw [if_neg hfit]
      have hpe : pre.length = len := by rw [hpl, List.length_take]; omega
      have : min 5 (len - (pre.length + 1)) = 0 := by omega
      rw [this, hpre, List.take_append, List.take_of_length_le (l := sg) (by omega)]
      simp [digitsOf, fraction, dropZeros_nil]

/-- **C63** (floats): for every float whose magnitude fits an `int`, every limit of at least 2 and
every buffer of more than `len` bytes, `wr_ftoa` stores nothing from `string[len+1]` on; when sign
and integer part fit, the text is the sign, the canonical integer part and as many of 5 fraction digits as
fit, without trailing zeros or a trailing point; otherwise sign and integer part are cut at `len`.
The returned length is that of the text, which is terminated.
Missing: limits 0 and 1, see `C63_float_limit_1`; floats beyond the range of `int`. -/
theorem C63_float_partial (f : O.F) (i : Word32) (hf : FloatOk O f i) (len : Nat) (hlen : 2 ≤ len)
    (buf : List Byte) (hb : len < buf.length) :
    ∃ t, IsIntText t i.toInt ∧ t.length ≤ 10 ∧
      ∃ b n, ftoa O buf f len = some (b, n) ∧ b.length = buf.length ∧
        b.drop (len + 1) = buf.drop (len + 1) ∧
        ∃ out, n = out.length ∧ out.length ≤ len ∧ b.take (n + 1) = out ++ [0#8] ∧
          out = (if (signText O f).length + t.length ≤ len then
              signText O f ++ t ++ fraction (digitsOf O
                (min 5 (len - ((signText O f).length + t.length + 1))) (fracPart O f i))
            else (signText O f ++ t).take len) := by
  have hint := hf.int
  by_cases hs : O.isNeg f
  · simp only [hs, if_true] at hint
    obtain ⟨b0, hb0, he0⟩ := put_ext (buf := buf) (pos := 0) (bs := [45#8]) (lim := len + 1)
      (by simp) hb
    obtain ⟨t, h1, h2, b, n, h3, h4, h5, h6⟩ := ftoaBody_spec O (buf := b0) (sg := [45#8]) (len := len)
      hint hf.nonneg hf.digits (by simp) (by rw [he0.len]; exact hb) hlen (by
        have := he0.text
        simpa using this)
    refine ⟨t, h1, h2, b, n, ?_, by rw [h4, he0.len], by rw [h5, he0.rest], ?_⟩
    · simp only [ftoa, hs, if_true, hb0]
      exact h3
    · simpa only [signText, fracPart, hs, if_true] using h6
  · have hs' : O.isNeg f = false := by simpa using hs
    simp only [hs', Bool.false_eq_true, if_false] at hint
    obtain ⟨t, h1, h2, b, n, h3, h4, h5, h6⟩ := ftoaBody_spec O (buf := buf) (sg := []) (len := len)
      hint hf.nonneg hf.digits (by simp) hb hlen (by simp)
    refine ⟨t, h1, h2, b, n, ?_, h4, h5, ?_⟩
    · simp only [ftoa, hs', Bool.false_eq_true, if_false]
      exact h3
    · simpa only [signText, fracPart, hs', Bool.false_eq_true, if_false] using h6

/-- **C63** (technical form that fits): whenever the technical text of a value is shorter than
`maxLen` and the buffer has `maxLen` bytes, the buffer holds exactly that text and a terminator,
the reported length is its length and nothing from `string[maxLen]` on has changed. -/
theorem C63_technical_fits (hex : Bool) (v : Tv) (maxLen : Nat) (buf : List Byte)
    (h : (text O hex v).length < maxLen) (hl : maxLen ≤ buf.length) :
    ∃ b, technicalAsString O buf maxLen hex v = some (b, (text O hex v).length) ∧
      b.length = buf.length ∧ b.take ((text O hex v).length + 1) = text O hex v ++ [0#8] ∧
      b.drop maxLen = buf.drop maxLen := by
  obtain ⟨b, hb, he⟩ := tech_ext O hex maxLen v buf 0 (by omega) hl
  rw [Nat.zero_add] at hb
  obtain ⟨b1, hb1, he1⟩ := put_ext (buf := b) (pos := (text O hex v).length) (bs := [0#8])
    (lim := maxLen) (by simp; omega) (by rw [he.len]; exact hl)
  refine ⟨b1, by simp only [technicalAsString, hb, hb1, Option.map_some], by rw [he1.len, he.len], ?_,
    by rw [he1.rest, he.rest]⟩
  have h1 := he1.text
  have h0 := he.text
  simp only [List.take_zero, List.nil_append, Nat.zero_add] at h0
  rw [h0] at h1
  simpa using h1

/-- **C63** (technical form of arrays and strings, any length): a value without hash tables that
is an array or string, or a reference to one, is printed without a store from `string[maxLen+1]` on, however
long its text is.
Missing: hash tables and bare numbers, see `C63_table_overrun` and `C63_number_overrun`; the
store at `string[maxLen]` is real, see `C63_technical_terminator`. -/
theorem C63_technical_bounded_partial (hex : Bool) (v : Tv) (hv : noTable v = true)
    (hc : isContainer v = true) (maxLen : Nat) (hm : 1 ≤ maxLen) (buf : List Byte)
    (hl : maxLen < buf.length) :
    ∃ b n, technicalAsString O buf maxLen hex v = some (b, n) ∧ n ≤ maxLen ∧
      b.length = buf.length ∧ b[n]? = some 0#8 ∧ b.drop (maxLen + 1) = buf.drop (maxLen + 1) := by
  obtain ⟨b, p, hb, hk, hp⟩ := tech_kept O hex maxLen hm v hv buf 0 (by omega)
  have hp := hp hc
  obtain ⟨b1, hb1, he1⟩ := put_ext (buf := b) (pos := p) (bs := [0#8]) (lim := maxLen + 1)
    (by simp; omega) (by rw [hk.1]; exact hl)
  refine ⟨b1, p, by simp only [technicalAsString, hb, hb1, Option.map_some], hp,
    by rw [he1.len, hk.1], ?_, ?_⟩
  · have := getElem?_of_take he1.text p (by simp)
    rw [this, List.getElem?_append_right (by rw [List.length_take]; omega)]
    have : p - (b.take p).length = 0 := by rw [List.length_take, hk.1]; omega
    rw [this]; rfl
  · rw [he1.rest, ← List.drop_drop, hk.2, List.drop_drop]

/-- **C63** (strings): `asString` of a string copies `maxLen` characters or all of them, terminates
them and reports their number; the buffer needs one byte more than that. -/
theorem C63_string (s : List Byte) (maxLen : Nat) (buf : List Byte)
    (n : Nat) (hn : n = if maxLen = 0 then s.length else min maxLen s.length) (hb : n < buf.length) :
    ∃ b, asString O buf maxLen (.str s) = some (b, n) ∧ b.length = buf.length ∧
      b.take (n + 1) = s.take n ++ [0#8] ∧ b.drop (n + 1) = buf.drop (n + 1) := by
  have hle : n ≤ s.length := by rw [hn]; split <;> omega
  have hlen : (if maxLen ≠ 0 then (if maxLen > s.length then s.length else maxLen) else s.length) = n := by
    rw [hn]
    by_cases h0 : maxLen = 0
    · simp [h0]
    · rw [if_pos h0, if_neg h0]
      split <;> omega
  have htl : (s.take n).length = n := by simp; omega
  obtain ⟨b, hp, he⟩ := put_ext (buf := buf) (pos := 0) (bs := s.take n) (lim := n + 1)
    (by omega) hb
  obtain ⟨b1, hp1, he1⟩ := put_ext (buf := b) (pos := n) (bs := [0#8]) (lim := n + 1)
    (by simp) (by rw [he.len]; exact hb)
  refine ⟨b1, ?_, by rw [he1.len, he.len], ?_, by rw [he1.rest, he.rest]⟩
  · simp only [asString, hlen, hp, hp1, Option.map_some]
  · have h0 := he.text
    rw [Nat.zero_add, htl] at h0
    have := he1.text
    rw [h0] at this
    simpa using this

/-- **C63** (ints, except `INT_MIN`): with a limit of at least 1 and more than `maxLen` bytes, `asString`
stores the canonical text, cut at `maxLen`, terminated, and nothing from `string[maxLen+1]` on. -/
theorem C63_int_partial (i : Word32) (hi : i ≠ 0x80000000#32) :
    ∃ t, IsIntText t i.toInt ∧ t.length ≤ 11 ∧
      ∀ (maxLen : Nat) (buf : List Byte), 1 ≤ maxLen → maxLen < buf.length →
        ∃ b, asString O buf maxLen (.int i) = some (b, (t.take maxLen).length) ∧
          b.length = buf.length ∧
          b.take ((t.take maxLen).length + 1) = t.take maxLen ++ [0#8] ∧
          b.drop (maxLen + 1) = buf.drop (maxLen + 1) := by
  obtain ⟨t, htx, _, hl, _, hcut⟩ := C21_itoa_partial i hi
  refine ⟨t, htx, hl, ?_⟩
  intro maxLen buf hm hb
  obtain ⟨b, hp, he⟩ := put_ext (buf := buf) (pos := 0) (bs := t.take maxLen ++ [0#8])
    (lim := maxLen + 1) (by simp; omega) hb
  refine ⟨b, by simp only [asString, hcut maxLen hm, hp, Option.map_some], he.len, ?_, he.rest⟩
  have := he.text
  simpa using this

/-- **C63** (allocated text): the block `asMallocString` allocates is large enough for every int
except `INT_MIN`, every float whose magnitude fits an `int` and every string; ints and strings
are complete. -/
theorem C63_malloc_partial (junk : Nat → List Byte) (hj : ∀ n, (junk n).length = n) :
    (∀ (i : Word32), i ≠ 0x80000000#32 → ∃ t b, IsIntText t i.toInt ∧
      asMallocString O junk (.int i) = some (b, t.length) ∧ b.take (t.length + 1) = t ++ [0#8]) ∧
    (∀ (w : Word32) (i : Word32), FloatOk O (O.ofBits w) i → ∃ b out,
      asMallocString O junk (.float w) = some (b, out.length) ∧ b.take (out.length + 1) = out ++ [0#8] ∧
      ∃ t, IsIntText t i.toInt ∧ ∃ k, out = signText O (O.ofBits w) ++ t ++
        fraction (digitsOf O k (fracPart O (O.ofBits w) i))) ∧
    (∀ (s : List Byte), ∃ n, asMallocString O junk (.str s) = some (s ++ [0#8], n)) := by
  refine ⟨?_, ?_, ?_⟩
  · intro i hi
    obtain ⟨t, htx, _, hl, hfit, _⟩ := C21_itoa_partial i hi
    obtain ⟨b, hp, he⟩ := put_ext (buf := junk 13) (pos := 0) (bs := t ++ [0#8]) (lim := 13)
      (by simp; omega) (by rw [hj]; exact Nat.le_refl _)
    refine ⟨t, b, htx, by simp only [asMallocString, hfit 12 (by omega), hp, Option.map_some], ?_⟩
    have := he.text
    simpa using this
  · intro w i hf
    obtain ⟨t, htx, h10, b, n, hr, _, _, out, hn, _, hbt, ho⟩ := C63_float_partial O (O.ofBits w) i hf 11
      (by omega) (junk 12) (by rw [hj]; omega)
    have hs : (signText O (O.ofBits w)).length ≤ 1 := by unfold signText; split <;> simp
    rw [if_pos (by omega)] at ho
    subst hn
    exact ⟨b, out, by simp only [asMallocString]; exact hr, hbt, t, htx, _, ho⟩
  · intro s
    refine ⟨0, ?_⟩
    have h1 : put (junk (s.length + 1)) 0 s = some (s ++ (junk (s.length + 1)).drop s.length) := by
      rw [put_some (by rw [hj]; omega)]; simp
    have h2 : put (s ++ (junk (s.length + 1)).drop s.length) s.length [0#8] = some (s ++ [0#8]) := by
      rw [put_some (by simp [hj])]
      rw [List.take_left' rfl, List.drop_of_length_le (by simp [hj])]
      simp
    simp only [asMallocString, h1, h2, Option.map_some]

/-- Reading hexadecimal digits. -/
def hexVal (ds : List Byte) : Nat :=
  ds.foldl (fun n d => 16 * n + (if d.toNat < 58 then d.toNat - 48 else d.toNat - 55)) 0

theorem hexDigit_val {n : Nat} (h : n < 16) :
    (if (hexDigit n).toNat < 58 then (hexDigit n).toNat - 48 else (hexDigit n).toNat - 55) = n := by
  unfold hexDigit
  by_cases h10 : n < 10
  · simp only [h10, if_true, BitVec.toNat_ofNat]
    rw [Nat.mod_eq_of_lt (by omega), if_pos (by omega)]
    omega
  · simp only [h10, if_false, BitVec.toNat_ofNat]
    rw [Nat.mod_eq_of_lt (by omega), if_neg (by omega)]
    omega

/-- **C63** (numbers inside the technical form): the text of every int, `INT_MIN` included, is its
canonical decimal form; the hexadecimal text is `0x` and eight digits that denote the bits. -/
theorem C63_numbers (i : Word32) :
    IsIntText (decText i) i.toInt ∧
      ∃ ds, hexText i = [48#8, 120#8] ++ ds ∧ ds.length = 8 ∧ hexVal ds = i.toNat := by
  constructor
  · have hlt : i.toInt.natAbs < 10 ^ 12 := by
      have h1 := i.toInt_lt
      have h2 := i.le_toInt
      omega
    obtain ⟨buf, hb, hd, _, _⟩ := digitLoop_spec 11 i.toInt.natAbs hlt
    have hs : i.slt 0#32 = decide (i.toInt < 0) := by simp [BitVec.slt]
    simp only [decText, hs]
    rw [hb]
    by_cases hn : i.toInt < 0
    · right
      refine ⟨hn, buf.reverse, ?_, hd⟩
      simp [hn]
    · left
      refine ⟨by omega, ?_⟩
      simpa [hn] using hd
  · refine ⟨_, rfl, by simp, ?_⟩
    have hr : List.range 8 = [0, 1, 2, 3, 4, 5, 6, 7] := by decide
    have hlt := i.isLt
    simp only [hr, List.map_cons, List.map_nil, hexVal, List.foldl_cons, List.foldl_nil,
      hexDigit_val (Nat.mod_lt _ (by decide : 16 > 0))]
    simp only [Nat.reducePow, Nat.reduceSub]
    omega

/-! ### Concrete cases -/

/-- Floats as hundred-thousandths with a sign: enough to run `wr_ftoa`. -/
def fixed : FloatOps where
  F := Int
  ofBits w := w.toInt
  isNeg f := decide (f < 0)
  neg f := -f
  round f := f
  toInt f := some (BitVec.ofInt 32 (f / 100000))
  subInt f i := f - i.toInt * 100000
  digit f := (BitVec.ofNat 8 (48 + (f * 10 / 100000).toNat % 10), f * 10 % 100000)
  gText _ := [49#8, 46#8, 53#8]

/-- The hypothesis of the float theorem holds for -12.5. -/
example : FloatOk fixed (-1250000 : Int) 12#32 where
  int := by decide
  nonneg := by decide
  digits := by
    intro g d hd
    have key : ∀ n : Nat, BitVec.ofNat 8 (48 + n % 10) ≠ 46#8 := by
      intro n h
      have := congrArg BitVec.toNat h
      simp only [BitVec.toNat_ofNat] at this
      omega
    simp only [digitsOf, fixed, List.mem_cons, List.not_mem_nil, or_false] at hd
    rcases hd with h | h | h | h | h <;> (rw [h]; exact key _)

/-- -12.5 with a limit of 11 gives "-12.5"; 3.0 gives "3"; 100.0 keeps its zeros. -/
example : (ftoa fixed (List.replicate 12 7#8) (-1250000 : Int) 11).map (fun r => (r.1.take (r.2 + 1), r.2))
      = some ([45#8, 49#8, 50#8, 46#8, 53#8, 0#8], 5) ∧
    (ftoa fixed (List.replicate 12 7#8) (300000 : Int) 11).map (fun r => (r.1.take (r.2 + 1), r.2))
      = some ([51#8, 0#8], 1) ∧
    (ftoa fixed (List.replicate 12 7#8) (10000000 : Int) 11).map (fun r => (r.1.take (r.2 + 1), r.2))
      = some ([49#8, 48#8, 48#8, 0#8], 3) := by decide +kernel

/-- `[ 1, "a" ]` and `{ 2:3 }` in 16 bytes. -/
example :
    (technicalAsString fixed (List.replicate 16 7#8) 16 false
      (.arr (.cons (.int 1#32) (.cons (.str [97#8]) .nil)))).map (fun r => (r.1.take (r.2 + 1), r.2))
      = some ([91#8, 32#8, 49#8, 44#8, 32#8, 34#8, 97#8, 34#8, 32#8, 93#8, 0#8], 10) ∧
    (technicalAsString fixed (List.replicate 16 7#8) 16 false
      (.table (.empty (.entry (.int 2#32) (.int 3#32) .nil)))).map (fun r => (r.1.take (r.2 + 1), r.2))
      = some ([123#8, 32#8, 50#8, 58#8, 51#8, 32#8, 125#8, 0#8], 7) := by decide +kernel

/-! ### Where the code departs -/

/-- The header asks for a buffer of at least `maxLen` bytes; with exactly that many, a string of
`maxLen` characters has its terminator stored past the end. -/
theorem C63_terminator_outside :
    asString fixed [7#8, 7#8, 7#8] 3 (.str [97#8, 98#8, 99#8]) = none := by decide

/-- The same for an int of `maxLen` digits. -/
theorem C63_int_terminator_outside : asString fixed [7#8, 7#8, 7#8] 3 (.int 123#32) = none := by decide

/-- The default `maxLen` 0 is documented as no limit; an int then gives the empty text. -/
theorem C63_unlimited_int_empty :
    asString fixed [7#8, 7#8, 7#8, 7#8] 0 (.int 123#32) = some ([0#8, 7#8, 7#8, 7#8], 0) := by decide

/-- A negative float below 1 with a limit of 1 stores at `string[2]`. -/
theorem C63_float_limit_1 : ftoa fixed [7#8, 7#8] (-50000 : Int) 1 = none := by decide

/-- `asMallocString` of a string reports length 0. -/
theorem C63_malloc_string_length :
    asMallocString fixed (fun n => List.replicate n 7#8) (.str [97#8, 98#8]) =
      some ([97#8, 98#8, 0#8], 0) := by decide

/-- The technical form of a long string stores its terminator at `string[maxLen]`. -/
theorem C63_technical_terminator :
    technicalAsString fixed [7#8, 7#8, 7#8] 3 false (.str [97#8, 98#8, 99#8]) = none := by decide

/-- A number longer than the limit has its terminator stored at its full length: 123456 with a
limit of 4 stores at `string[6]`. -/
theorem C63_number_overrun :
    technicalAsString fixed (List.replicate 6 7#8) 4 false (.int 123456#32) = none ∧
    (technicalAsString fixed (List.replicate 7 7#8) 4 false (.int 123456#32)).isSome := by
  decide +kernel

/-- A table entry that does not fit: the size passed on wraps, and the next piece is stored past the
limit although the buffer has a byte more than the limit. -/
theorem C63_table_overrun :
    technicalAsString fixed (List.replicate 5 7#8) 4 false
      (.table (.entry (.int 123456#32) (.int 1#32) .nil)) = none := by decide +kernel

/-- A limit of 0 stores far outside. -/
theorem C63_technical_limit_0 (v : Tv) (buf : List Byte) (h : buf.length < 2 ^ 32) :
    technicalAsString fixed buf 0 false v = none := by
  have : tech fixed false 0 v buf 0 = some (buf, 2 ^ 32 - 1) := by cases v <;> rw [tech] <;> rfl
  simp only [technicalAsString, this, put]
  rw [if_neg (by simp only [List.length_cons, List.length_nil]; omega)]
  rfl

end Wrench.Text
