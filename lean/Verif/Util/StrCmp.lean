import Verif.Util.StrFind

/-!
# Comparing a `WRstr`: `==`, `!=`, `isMatch`, `isMatchCase` (`wrench.h` 1416-1421, 1454-1461)

`strcmp`, `strncmp` and `strncasecmp` of the C library are written as the loop they are
specified to be, over the bytes behind the pointers; a byte outside a buffer, or one never
written, is undefined and is the outcome `none`.  Only whether the result is 0 is kept.
-/

namespace Wrench.Util.Str

/-- `strcmp` (no limit), `strncmp` and `strncasecmp` (with a limit) being 0. -/
def cmpz (eqv : UInt8 → UInt8 → Bool) : Option Nat → List (Option UInt8) → List (Option UInt8) → Option Bool
  | some 0, _, _ => some true
  | lim, some x :: a, some y :: b =>
    if eqv x y then (if x = 0 then some true else cmpz eqv (lim.map (· - 1)) a b) else some false
  | _, _, _ => none

/-- A C string: its bytes and the terminator. -/
def cstr (z : List UInt8) : List (Option UInt8) := z.map some ++ [some 0]

/-- `operator ==` of two strings (wrench.h 1454). -/
def equal (s1 s2 : Str) : Option Bool :=
  if s1.len = s2.len then cmpz (fun a b => a = b) (some s1.len) s1.buf s2.buf else some false

/-- `operator !=` of two strings (wrench.h 1457). -/
def unequal (s1 s2 : Str) : Option Bool :=
  if s1.len ≠ s2.len then some true else (cmpz (fun a b => a = b) (some s1.len) s1.buf s2.buf).map (!·)

/-- `isMatch( buf )`, and `==` with a C string (wrench.h 1416, 1455-1456). -/
def isMatch (s : Str) (z : List UInt8) : Option Bool := cmpz (fun a b => a = b) none (cstr z) s.buf

/-- `isMatchCase( buf )` (wrench.h 1420). -/
def isMatchCase (s : Str) (z : List UInt8) : Option Bool :=
  cmpz (fun a b => lower a = lower b) (some s.len) (cstr z) s.buf

/-- The bytes in front of the first zero byte. -/
def front (t : List UInt8) : List UInt8 := t.takeWhile (· ≠ 0)

theorem front_cons (c : UInt8) (t : List UInt8) : front (c :: t) = if c = 0 then [] else c :: front t := by
  unfold front
  rw [List.takeWhile_cons]
  by_cases h : c = 0
  · rw [if_pos h]; simp [h]
  · rw [if_neg h]; simp [h]

theorem front_self : ∀ {t : List UInt8}, 0 ∉ t → front t = t
  | [], _ => rfl
  | c :: t, h => by
    rw [front_cons, if_neg (fun e => h (by rw [e]; exact List.mem_cons_self)),
      front_self (fun e => h (List.mem_cons_of_mem _ e))]

theorem rep_shape {s : Str} {t : List UInt8} (r : Rep s t) : ∃ q, s.buf = t.map some ++ some 0 :: q := by
  refine ⟨s.buf.drop (t.length + 1), ?_⟩
  apply List.ext_getElem?
  intro i
  rcases Nat.lt_trichotomy i t.length with h | h | h
  · rw [r.text i h, List.getElem?_append_left (by simpa using h), List.getElem?_map, List.getElem?_eq_getElem h]
    rfl
  · subst h
    rw [r.terminator, List.getElem?_append_right (by simp)]
    simp
  · rw [List.getElem?_append_right (by simp; omega), List.length_map,
      show i - t.length = (i - t.length - 1) + 1 by omega, List.getElem?_cons_succ, List.getElem?_drop]
    congr 1
    omega

theorem strcmp_spec : ∀ (t u : List UInt8) (q r : List (Option UInt8)),
    cmpz (fun a b => a = b) none (t.map some ++ some 0 :: q) (u.map some ++ some 0 :: r) =
      some (decide (front t = front u))
  | [], [], q, r => by simp [cmpz, front]
  | [], y :: u, q, r => by
    by_cases h : y = 0
    · subst h; simp [cmpz, front]
    · have : ¬ 0 = y := fun e => h e.symm
      simp [cmpz, front_cons, h, this]
      simp [front]
  | x :: t, [], q, r => by
    by_cases h : x = 0
    · subst h; simp [cmpz, front]
    · simp [cmpz, front_cons, h]
      simp [front]
  | x :: t, y :: u, q, r => by
    by_cases h : x = y
    · subst h
      by_cases h0 : x = 0
      · subst h0; simp [cmpz, front]
      · have := strcmp_spec t u q r
        simp [cmpz, front_cons, h0, this]
    · by_cases h0 : x = 0
      · subst h0
        have : ¬ y = 0 := fun e => h e.symm
        simp [cmpz, front_cons, h, this]
      · by_cases h1 : y = 0
        · simp [cmpz, front_cons, h1, h0]
        · simp [cmpz, front_cons, h, h0, h1]

theorem strncmp_spec : ∀ (t u : List UInt8) (q r : List (Option UInt8)), t.length = u.length →
    cmpz (fun a b => a = b) (some t.length) (t.map some ++ q) (u.map some ++ r) = some (decide (front t = front u))
  | [], [], q, r, _ => by simp [cmpz]
  | [], y :: u, q, r, h => by simp at h
  | x :: t, [], q, r, h => by simp at h
  | x :: t, y :: u, q, r, hl => by
    have hl' : t.length = u.length := by simpa using hl
    by_cases h : x = y
    · subst h
      by_cases h0 : x = 0
      · subst h0; simp [cmpz, front]
      · have := strncmp_spec t u q r hl'
        simp [cmpz, front_cons, h0, this]
    · by_cases h0 : x = 0
      · subst h0
        have : ¬ y = 0 := fun e => h e.symm
        simp [cmpz, front_cons, h, this]
      · by_cases h1 : y = 0
        · simp [cmpz, front_cons, h1, h0]
        · simp [cmpz, front_cons, h, h0, h1]

/-- **C116, comparing two strings.**  `==` never reads outside the two buffers, and says that
the lengths are equal and the texts are equal up to their first zero byte. -/
theorem C116_equal_front {s1 s2 : Str} {t1 t2 : List UInt8} (r1 : Rep s1 t1) (r2 : Rep s2 t2) :
    equal s1 s2 = some (decide (t1.length = t2.length ∧ front t1 = front t2)) := by
  obtain ⟨q1, e1⟩ := rep_shape r1
  obtain ⟨q2, e2⟩ := rep_shape r2
  unfold equal
  rw [r1.len, r2.len, e1, e2]
  by_cases h : t1.length = t2.length
  · rw [if_pos h, strncmp_spec t1 t2 _ _ h]
    simp [h]
  · rw [if_neg h]
    simp [h]

/-- **C116 (partial).**  When one of the two texts has no zero byte, `==` says exactly whether
the texts are equal, and `!=` the opposite.  Missing: two texts with zero bytes
(`C116_equal_zero`). -/
theorem C116_equal_partial {s1 s2 : Str} {t1 t2 : List UInt8} (r1 : Rep s1 t1) (r2 : Rep s2 t2)
    (h : 0 ∉ t1 ∨ 0 ∉ t2) :
    equal s1 s2 = some (decide (t1 = t2)) ∧ unequal s1 s2 = some (decide (t1 ≠ t2)) := by
  have front_le : ∀ t : List UInt8, (front t).length = t.length → front t = t := fun t ht =>
    (List.takeWhile_prefix _).eq_of_length ht
  have key : (t1.length = t2.length ∧ front t1 = front t2) ↔ t1 = t2 := by
    constructor
    · rintro ⟨hl, hf⟩
      rcases h with h | h
      · rw [front_self h] at hf
        have := front_le t2 (by rw [← hf, hl])
        rw [hf, this]
      · rw [front_self h] at hf
        have := front_le t1 (by rw [hf, hl])
        rw [← hf, this]
    · intro e; rw [e]; exact ⟨rfl, rfl⟩
  have he := C116_equal_front r1 r2
  simp only [key] at he
  refine ⟨he, ?_⟩
  unfold equal at he
  unfold unequal
  by_cases hl : s1.len = s2.len
  · rw [if_pos hl] at he
    rw [if_neg (by simpa using hl), he]
    simp
  · rw [if_pos hl]
    have : t1 ≠ t2 := fun e => hl (by rw [r1.len, r2.len, e])
    simp [this]

/-- **C116, `isMatch`.**  `isMatch`, and `==` with a C string, never read outside the buffer
and say whether the C string is the text up to its first zero byte. -/
theorem C116_isMatch {s : Str} {t z : List UInt8} (r : Rep s t) (hz : 0 ∉ z) :
    isMatch s z = some (decide (z = front t)) := by
  obtain ⟨q, e⟩ := rep_shape r
  unfold isMatch cstr
  rw [e, strcmp_spec, front_self hz]

theorem sameLetter_symm {a b : UInt8} (h : SameLetter a b) : SameLetter b a := by
  rcases h with h | h | h
  · exact Or.inl h.symm
  · exact Or.inr (Or.inr h)
  · exact Or.inr (Or.inl h)

theorem strncasecmp_spec : ∀ (z t : List UInt8) (q r : List (Option UInt8)), 0 ∉ z → 0 ∉ t →
    ∃ b, cmpz (fun a b => lower a = lower b) (some t.length) (z.map some ++ some 0 :: q) (t.map some ++ r) = some b ∧
      (b = true ↔ Occurs SameLetter t z 0)
  | z, [], q, r, _, _ => ⟨true, by cases z <;> simp [cmpz], by simp [Occurs]⟩
  | [], y :: t, q, r, _, ht => by
    have hy : y ≠ 0 := fun e => ht (by rw [e]; exact List.mem_cons_self)
    have hn : ¬ lower 0 = lower y := fun h =>
      hy (sameLetter_zero y (sameLetter_symm ((lower_same 0 y).mp (decide_eq_true h))))
    refine ⟨false, by simp [cmpz, hn], ⟨(fun h => by cases h), fun h => ?_⟩⟩
    have := occurs_fits (by simp) h
    simp at this
  | x :: z, y :: t, q, r, hz, ht => by
    have hx : x ≠ 0 := fun e => hz (by rw [e]; exact List.mem_cons_self)
    obtain ⟨b, e, hb⟩ := strncasecmp_spec z t q r (fun h => hz (List.mem_cons_of_mem _ h))
      (fun h => ht (List.mem_cons_of_mem _ h))
    have shift : Occurs SameLetter t (x :: z) (0 + 1) ↔ Occurs SameLetter t z 0 := by
      unfold Occurs
      simp only [show ∀ j, 0 + 1 + j = (0 + j) + 1 by intro j; omega, List.getElem?_cons_succ]
    rw [occurs_cons, shift]
    by_cases h : lower x = lower y
    · refine ⟨b, by simp [cmpz, h, hx, e], hb.trans ⟨fun h' => ⟨⟨x, rfl, ?_⟩, h'⟩, fun h' => h'.2⟩⟩
      exact sameLetter_symm ((lower_same x y).mp (decide_eq_true h))
    · refine ⟨false, by simp [cmpz, h], ⟨(fun h => by cases h), ?_⟩⟩
      rintro ⟨⟨b, hb, hs⟩, _⟩
      have e : x = b := by simpa using hb
      subst e
      exact absurd (of_decide_eq_true ((lower_same x y).mpr (sameLetter_symm hs))) h

/-- **C116, `isMatchCase` (partial).**  On a text without zero byte, and for a C string as long
as the text or shorter, `isMatchCase` says whether the two are equal up to the case of
letters.  Missing: longer C strings, which match when they begin with the text
(`C116_isMatchCase_prefix`, `C116_isMatchCase_longer`). -/
theorem C116_isMatchCase_partial {s : Str} {t z : List UInt8} (r : Rep s t) (ht : 0 ∉ t) (hz : 0 ∉ z)
    (hl : z.length ≤ t.length) : ∃ b, isMatchCase s z = some b ∧
      (b = true ↔ z.length = t.length ∧ ∀ (j : Nat) (h1 : j < z.length) (h2 : j < t.length), SameLetter z[j] t[j]) := by
  obtain ⟨q, e⟩ := rep_shape r
  obtain ⟨b, e', hb⟩ := strncasecmp_spec z t [] (some 0 :: q) hz ht
  refine ⟨b, ?_, hb.trans ?_⟩
  · unfold isMatchCase cstr
    rw [r.len, e, e']
  · constructor
    · intro h
      refine ⟨?_, fun j h1 h2 => ?_⟩
      · by_cases hn : t = []
        · subst hn; simp at hl; simp [hl]
        · have := occurs_fits hn h
          omega
      · obtain ⟨c, hc, hs⟩ := h j t[j] (List.getElem?_eq_getElem h2)
        rw [Nat.zero_add, List.getElem?_eq_getElem h1] at hc
        injection hc with hc
        rw [hc]
        exact sameLetter_symm hs
    · rintro ⟨h1, h2⟩ j c hj
      obtain ⟨hj', hc⟩ := List.getElem?_eq_some_iff.mp hj
      refine ⟨z[j]'(by omega), by rw [Nat.zero_add]; exact List.getElem?_eq_getElem _, ?_⟩
      rw [← hc]
      exact sameLetter_symm (h2 j (by omega) hj')

/-- **C116, `isMatchCase` in general**, on texts without zero byte: it says whether the C
string begins with the text, up to the case of letters. -/
theorem C116_isMatchCase_prefix {s : Str} {t z : List UInt8} (r : Rep s t) (ht : 0 ∉ t) (hz : 0 ∉ z) :
    ∃ b, isMatchCase s z = some b ∧ (b = true ↔ Occurs SameLetter t z 0) := by
  obtain ⟨q, e⟩ := rep_shape r
  obtain ⟨b, e', hb⟩ := strncasecmp_spec z t [] (some 0 :: q) hz ht
  refine ⟨b, ?_, hb⟩
  unfold isMatchCase cstr
  rw [r.len, e, e']

/-- **C116 fails for `isMatchCase`**: the string "on" matches the longer "ONE", and the empty
string matches everything; `isMatch` refuses both. -/
theorem C116_isMatchCase_longer : (∃ s, run [.set [111, 110]] new = some s ∧ Rep s [111, 110] ∧
    isMatchCase s [79, 78, 69] = some true ∧ isMatch s [111, 110, 101] = some false) ∧
    ∀ z : List UInt8, 0 ∉ z → isMatchCase new z = some true := by
  constructor
  · obtain ⟨s, e, r⟩ := run_rep [.set [111, 110]] new [] new_rep ⟨by simp [Op.Proper], trivial⟩
    refine ⟨s, e, r, ?_⟩
    have e2 : run [.set [111, 110]] new = some ((run [.set [111, 110]] new).getD new) := by decide
    rw [e2] at e
    injection e with e
    subst e
    decide
  · intro z hz
    obtain ⟨b, e, hb⟩ := C116_isMatchCase_prefix new_rep (by simp) hz
    rw [e, hb.mpr (fun j c h => by simp at h)]

/-- **C116 fails for two texts with zero bytes**: "a", zero, "b" and "a", zero, "c" are equal for
`==`, and not unequal for `!=`. -/
theorem C116_equal_zero : ∃ s1 s2, run [.set [97, 0, 98]] new = some s1 ∧ Rep s1 [97, 0, 98] ∧
    run [.set [97, 0, 99]] new = some s2 ∧ Rep s2 [97, 0, 99] ∧ equal s1 s2 = some true ∧ unequal s1 s2 = some false := by
  obtain ⟨s1, e1, r1⟩ := run_rep [.set [97, 0, 98]] new [] new_rep ⟨by simp [Op.Proper], trivial⟩
  obtain ⟨s2, e2, r2⟩ := run_rep [.set [97, 0, 99]] new [] new_rep ⟨by simp [Op.Proper], trivial⟩
  refine ⟨s1, s2, e1, r1, e2, r2, ?_⟩
  have f1 : run [.set [97, 0, 98]] new = some ((run [.set [97, 0, 98]] new).getD new) := by decide
  have f2 : run [.set [97, 0, 99]] new = some ((run [.set [97, 0, 99]] new).getD new) := by decide
  rw [f1] at e1
  rw [f2] at e2
  injection e1 with e1
  injection e2 with e2
  subst e1 e2
  decide

/-- A case: a heap string of 20 letters, cut to "aaa", and a small "aaa" are equal; "aab" is not;
"AAA" matches up to case. -/
example : ∃ s1 s2 s3, run [.set (List.replicate 20 97), .truncate 3] new = some s1 ∧ run [.set [97, 97, 97]] new = some s2 ∧
    run [.set [97, 97, 98]] new = some s3 ∧ equal s1 s2 = some true ∧ equal s1 s3 = some false ∧
    unequal s1 s3 = some true ∧ isMatch s1 [97, 97, 97] = some true ∧ isMatch s1 [97, 97] = some false ∧
    isMatchCase s1 [65, 65, 65] = some true ∧ isMatchCase s1 [65, 65] = some false :=
  ⟨_, _, _, rfl, rfl, rfl, by decide, by decide, by decide, by decide, by decide, by decide, by decide⟩

end Wrench.Util.Str
