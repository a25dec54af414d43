import Verif.Bytes.Model

/-
`wr_itoa`, discrete_src/lib/std.cpp 92-121.
-/
namespace Wrench.Std

/-- The digit loop `do { buf[digit++] = (val % 10) + '0'; } while( val /= 10 )`,
std.cpp 108-111, on a non-negative `val`.  The first argument is the room left in
`char buf[12]`; `none` = a store past its end.  The result is the buffer in index order,
i.e. least significant digit first. -/
def digitLoop : Nat → Nat → Option (List Byte)
  | 0, _ => none
  | room + 1, val =>
    let b := BitVec.ofNat 8 (val % 10 + 48)
    if val / 10 = 0 then some [b]
    else (digitLoop room (val / 10)).map (b :: ·)

/-- `wr_itoa( i, string, len )`, std.cpp 92-121: the bytes stored from `string[0]` on (the
last one is the terminator at `string[pos]`) and the returned `pos`.  `none` = undefined
behaviour: `-i` overflows for `INT_MIN`, or `buf` overflows. -/
def itoa (i : Word32) (len : Nat) : Option (List Byte × Nat) :=
  let neg := i.slt 0#32
  if i = 0x80000000#32 then none
  else
    let val := if neg then (0 - i).toNat else i.toNat
    match digitLoop 12 val with
    | none => none
    | some buf =>
      let sign : List Byte := if neg then [45#8] else []
      -- `for( ; digit>=0 && pos < len; --digit )`
      let text := sign ++ buf.reverse.take (len - sign.length)
      some (text ++ [0#8], text.length)

/-! ### Specification -/

/-- The number a digit string denotes, most significant digit first. -/
def decVal (ds : List Byte) : Nat := ds.foldl (fun n d => 10 * n + (d.toNat - 48)) 0

/-- A canonical decimal numeral for `n`: digits only, not empty, no superfluous leading
zero, denoting `n`. -/
structure IsDecimal (ds : List Byte) (n : Nat) : Prop where
  digits : ∀ d ∈ ds, 48 ≤ d.toNat ∧ d.toNat ≤ 57
  nonempty : ds ≠ []
  noLeadingZero : ds.length > 1 → ds.head? ≠ some 48#8
  value : decVal ds = n

/-- The canonical text of an integer. -/
def IsIntText (t : List Byte) (i : Int) : Prop :=
  (0 ≤ i ∧ IsDecimal t i.natAbs) ∨ (i < 0 ∧ ∃ ds, t = 45#8 :: ds ∧ IsDecimal ds i.natAbs)

theorem digit_toNat (v : Nat) : (BitVec.ofNat 8 (v % 10 + 48)).toNat = v % 10 + 48 := by
  rw [BitVec.toNat_ofNat]; omega

theorem decVal_snoc (ds : List Byte) (d : Byte) : decVal (ds ++ [d]) = 10 * decVal ds + (d.toNat - 48) := by
  simp [decVal]

theorem head?_append_ne {xs ys : List Byte} (h : xs ≠ []) : (xs ++ ys).head? = xs.head? := by
  cases xs with
  | nil => exact absurd rfl h
  | cons => rfl

theorem digitLoop_spec : ∀ (room val : Nat), val < 10 ^ (room + 1) →
    ∃ buf, digitLoop (room + 1) val = some buf ∧ IsDecimal buf.reverse val ∧
      (1 ≤ val → buf.reverse.head? ≠ some 48#8) ∧ buf.length ≤ room + 1 := by
  have base : ∀ (room val : Nat), val / 10 = 0 → ∃ buf, digitLoop (room + 1) val = some buf ∧
      IsDecimal buf.reverse val ∧ (1 ≤ val → buf.reverse.head? ≠ some 48#8) ∧
      buf.length ≤ room + 1 := by
    intro room val h0
    have hv : val % 10 = val := by omega
    have hd := digit_toNat val
    refine ⟨[BitVec.ofNat 8 (val % 10 + 48)], by simp [digitLoop, h0], ⟨?_, by simp, by simp, ?_⟩,
      ?_, by simp⟩
    · intro d hmem
      simp at hmem
      subst hmem
      omega
    · simp only [List.reverse_singleton, decVal, List.foldl_cons, List.foldl_nil]
      omega
    · intro h1 hh
      simp only [List.reverse_singleton, List.head?_cons, Option.some.injEq] at hh
      have := congrArg BitVec.toNat hh
      rw [hd] at this
      simp at this
      omega
  intro room
  induction room with
  | zero =>
    intro val h
    exact base 0 val (by omega)
  | succ room ih =>
    intro val h
    by_cases h0 : val / 10 = 0
    · exact base (room + 1) val h0
    · obtain ⟨buf, hb, hdec, hlead, hlen⟩ := ih (val / 10) (by
        rw [Nat.pow_succ] at h; omega)
      have hd := digit_toNat val
      refine ⟨BitVec.ofNat 8 (val % 10 + 48) :: buf, ?_, ⟨?_, by simp, ?_, ?_⟩, ?_, by simpa using hlen⟩
      · rw [digitLoop]
        simp only [h0, if_false, hb, Option.map_some]
      · intro d hmem
        simp only [List.reverse_cons, List.mem_append, List.mem_singleton] at hmem
        rcases hmem with hmem | hmem
        · exact hdec.digits d hmem
        · subst hmem
          omega
      · intro _
        rw [List.reverse_cons, head?_append_ne hdec.nonempty]
        exact hlead (by omega)
      · rw [List.reverse_cons, decVal_snoc, hdec.value, hd]
        omega
      · intro _
        rw [List.reverse_cons, head?_append_ne hdec.nonempty]
        exact hlead (by omega)

/-- Reading a text back the way a reader of decimal numbers does. -/
def parseInt : List Byte → Int
  | 45#8 :: ds => -(decVal ds : Int)
  | ds => decVal ds

theorem parse_of_isIntText {t : List Byte} {i : Int} (h : IsIntText t i) : parseInt t = i := by
  rcases h with ⟨hi, hd⟩ | ⟨hi, ds, rfl, hd⟩
  · have : parseInt t = decVal t := by
      cases t with
      | nil => rfl
      | cons x xs =>
        have hx := hd.digits x (by simp)
        unfold parseInt
        split
        · next heq => simp at heq; rw [heq.1] at hx; simp at hx
        · rfl
    rw [this, hd.value]; omega
  · show -((decVal ds : Nat) : Int) = i
    rw [hd.value]; omega

/-- **C21** (all integers except `INT_MIN`): for every such `i` there is a text of at most 11
characters that is the canonical decimal representation of `i` (an optional minus sign, no
superfluous zeros) and reads back as `i`; whenever the limit `len` admits it, `wr_itoa` stores exactly that text followed
by a terminator and returns its length; with a smaller non-zero limit it stores the first
`len` characters and a terminator, i.e. never touches `string[len+1]`.
Missing: `INT_MIN`, see `C21_int_min`. -/
theorem C21_itoa_partial (i : Word32) (hi : i ≠ 0x80000000#32) :
    ∃ t : List Byte, IsIntText t i.toInt ∧ parseInt t = i.toInt ∧ t.length ≤ 11 ∧
      (∀ len, t.length ≤ len → itoa i len = some (t ++ [0#8], t.length)) ∧
      (∀ len, 1 ≤ len → itoa i len = some (t.take len ++ [0#8], (t.take len).length)) := by
  obtain ⟨val, hval⟩ : ∃ val, val = (if i.slt 0#32 then (0 - i).toNat else i.toNat) := ⟨_, rfl⟩
  have habs : val = i.toInt.natAbs ∧ val < 10 ^ 10 ∧ (i.slt 0#32 = decide (i.toInt < 0)) := by
    have h1 := i.isLt
    have h2 : i.toNat ≠ 2147483648 := by
      intro h
      exact hi (BitVec.eq_of_toNat_eq (by simpa using h))
    have h3 : i.slt 0#32 = decide (i.toInt < 0) := by simp [BitVec.slt]
    have h4 : (0 - i).toNat = (4294967296 - i.toNat) % 4294967296 := by
      rw [BitVec.toNat_sub]; simp
    refine ⟨?_, ?_, h3⟩
    · rw [hval, h3, h4]
      rw [BitVec.toInt_eq_toNat_cond]
      simp only [decide_eq_true_eq]
      split <;> split <;> omega
    · rw [hval, h3, h4, BitVec.toInt_eq_toNat_cond]
      simp only [decide_eq_true_eq]
      split <;> split <;> omega
  obtain ⟨ha, hb, hs⟩ := habs
  obtain ⟨buf, hbuf, hdec, _, hlen⟩ := digitLoop_spec 9 val hb
  have hbuf12 : digitLoop 12 val = some buf := by
    obtain ⟨buf', h', hd', _, _⟩ := digitLoop_spec 11 val (by omega)
    have mono : ∀ (r v : Nat) (b : List Byte), digitLoop r v = some b → digitLoop (r + 1) v = some b := by
      intro r
      induction r with
      | zero => intro v b h; simp [digitLoop] at h
      | succ r ih =>
        intro v b h
        rw [digitLoop] at h ⊢
        split at h
        · next h0 => rw [if_pos h0]; exact h
        · next h0 =>
          rw [if_neg h0]
          cases hh : digitLoop r (v / 10) with
          | none => simp [hh] at h
          | some b' =>
            rw [ih _ _ hh]
            rw [hh] at h
            simpa using h
    exact mono _ _ _ (mono _ _ _ hbuf)
  obtain ⟨sign, hsign⟩ : ∃ s : List Byte, s = (if i.slt 0#32 then [45#8] else []) := ⟨_, rfl⟩
  have hsl : sign.length ≤ 1 := by rw [hsign]; split <;> simp
  have hrun : ∀ len, itoa i len = some (sign ++ buf.reverse.take (len - sign.length) ++ [0#8],
      (sign ++ buf.reverse.take (len - sign.length)).length) := by
    intro len
    simp only [itoa, hi, if_false, ← hsign, ← hval, hbuf12]
  have htext : IsIntText (sign ++ buf.reverse) i.toInt := by
    by_cases hn : i.toInt < 0
    · right
      refine ⟨hn, buf.reverse, ?_, ha ▸ hdec⟩
      rw [hsign, hs]; simp [hn]
    · left
      refine ⟨by omega, ?_⟩
      rw [hsign, hs]; simp [hn]
      exact ha ▸ hdec
  refine ⟨sign ++ buf.reverse, htext, parse_of_isIntText htext, by simp; omega, ?_, ?_⟩
  · intro len hl
    rw [hrun, List.take_of_length_le]
    simp at hl ⊢; omega
  · intro len hl
    rw [hrun, List.take_append, List.take_of_length_le (l := sign) (by omega)]

/-- The excluded case: `-i` overflows, undefined behaviour. -/
theorem C21_int_min (len : Nat) : itoa 0x80000000#32 len = none := rfl

/-- Concrete case: -1203 with a limit of 64, and cut at 3. -/
example : itoa (BitVec.ofInt 32 (-1203)) 64 = some ([45#8, 49#8, 50#8, 48#8, 51#8, 0#8], 5) ∧
    itoa (BitVec.ofInt 32 (-1203)) 3 = some ([45#8, 49#8, 50#8, 0#8], 3) := by decide

end Wrench.Std
