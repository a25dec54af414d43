import Verif.Util.Str
import Verif.Util.Wild

/-!
# Searching in a `WRstr`: `rfind`, `find`, `findCase` (`wrench.h` 1483-1571)

The searched text is read through the buffer of `Verif.Util.Str`: a byte outside the buffer,
or one never written, is undefined and is the outcome `none`.  The pattern is the list of
bytes in front of its terminator.  A result is `some none` for `npos`.

Simplified: `f` and `i` are natural numbers (in the code `int` for `rfind` and `i`; texts and
patterns are shorter than 2^31 bytes); `tolower` is the one of the C locale, also for bytes
above 127, which are negative `char`s.
-/

namespace Wrench.Util.Str

/-- How the comparison at one position ends. -/
inductive Cmp where
  | hit
  | miss
  | stop
deriving DecidableEq

/-- The loop over `i` of `rfind` (wrench.h 1493-1503; `z` false) and of `find` and `findCase`
(wrench.h 1519-1536, 1551-1568; `z` true: a zero byte in the text ends the search). -/
def cmpAt (eqv : UInt8 → UInt8 → Bool) (z : Bool) (buf : List (Option UInt8)) : List UInt8 → Nat → Option Cmp
  | [], _ => some .hit
  | c :: r, p =>
    match buf[p]? with
    | some (some b) =>
      if z && b == 0 then some .stop
      else if eqv c b then cmpAt eqv z buf r (p + 1) else some .miss
    | _ => none

/-- The loop over `f` of `find` and `findCase` (wrench.h 1517-1538, 1549-1570); the number
counts the positions left, `m_len - f`. -/
def findFrom (eqv : UInt8 → UInt8 → Bool) (s : Str) (pat : List UInt8) : Nat → Nat → Option (Option Nat)
  | 0, _ => some none
  | k + 1, f =>
    match cmpAt eqv true s.buf pat f with
    | none => none
    | some .hit => some (some f)
    | some .stop => some none
    | some .miss => findFrom eqv s pat k (f + 1)

/-- `find` and `findCase`, which differ in the comparison (wrench.h 1509-1571). -/
def findWith (eqv : UInt8 → UInt8 → Bool) (s : Str) (pat : List UInt8) (start : Nat) : Option (Option Nat) :=
  let f := if start > s.len then 0 else start
  if pat = [] then some (some 0) else findFrom eqv s pat (s.len - f) f

/-- `find( str, from )` (wrench.h 1509-1539). -/
def find (s : Str) (pat : List UInt8) (start : Nat) : Option (Option Nat) :=
  findWith (fun a b => a = b) s pat start

/-- `findCase( str, from )` (wrench.h 1541-1571). -/
def findCase (s : Str) (pat : List UInt8) (start : Nat) : Option (Option Nat) :=
  findWith (fun a b => lower a = lower b) s pat start

/-- The loop over `f` of `rfind` (wrench.h 1491-1504). -/
def rfindFrom (s : Str) (pat : List UInt8) : Nat → Option (Option Nat)
  | 0 =>
    match cmpAt (fun a b => a = b) false s.buf pat 0 with
    | none => none
    | some .hit => some (some 0)
    | some _ => some none
  | f + 1 =>
    match cmpAt (fun a b => a = b) false s.buf pat (f + 1) with
    | none => none
    | some .hit => some (some (f + 1))
    | some _ => rfindFrom s pat f

/-- `rfind( str, from )` (wrench.h 1483-1506). -/
def rfind (s : Str) (pat : List UInt8) (start : Nat) : Option (Option Nat) :=
  let f := if start > s.len then s.len else start
  if pat = [] then some (some 0) else rfindFrom s pat f

/-! ### What the searches should find -/

/-- Every byte of the pattern has its counterpart in the text at position `i`. -/
def Occurs (same : UInt8 → UInt8 → Prop) (pat t : List UInt8) (i : Nat) : Prop :=
  ∀ j c, pat[j]? = some c → ∃ b, t[i + j]? = some b ∧ same c b

/-- Two letters are the same up to case, any other bytes only if equal. -/
def SameLetter (a b : UInt8) : Prop :=
  a = b ∨ (65 ≤ a.toNat ∧ a.toNat ≤ 90 ∧ b.toNat = a.toNat + 32) ∨
    (65 ≤ b.toNat ∧ b.toNat ≤ 90 ∧ a.toNat = b.toNat + 32)

theorem occurs_cons {same : UInt8 → UInt8 → Prop} {c : UInt8} {r t : List UInt8} {p : Nat} :
    Occurs same (c :: r) t p ↔ (∃ b, t[p]? = some b ∧ same c b) ∧ Occurs same r t (p + 1) := by
  constructor
  · intro h
    refine ⟨h 0 c rfl, fun j d hj => ?_⟩
    have := h (j + 1) d (by simpa using hj)
    rwa [show p + 1 + j = p + (j + 1) by omega]
  · rintro ⟨h0, h1⟩ j d hj
    cases j with
    | zero =>
      have e : c = d := by simpa using hj
      subst e
      exact h0
    | succ j =>
      have := h1 j d (by simpa using hj)
      rwa [show p + (j + 1) = p + 1 + j by omega]

theorem occurs_fits {same : UInt8 → UInt8 → Prop} {pat t : List UInt8} {i : Nat} (hn : pat ≠ [])
    (h : Occurs same pat t i) : i + pat.length ≤ t.length := by
  have hl : 0 < pat.length := List.length_pos_iff.mpr hn
  obtain ⟨b, hb, _⟩ := h (pat.length - 1) _ (List.getElem?_eq_getElem (by omega))
  have := (List.getElem?_eq_some_iff.mp hb).1
  omega

/-- The comparison at a position of the text reads only the text and its terminator. -/
theorem cmpAt_spec {eqv : UInt8 → UInt8 → Bool} {same : UInt8 → UInt8 → Prop}
    (he : ∀ a b, eqv a b = true ↔ same a b) (h0 : ∀ a, same a 0 → a = 0) (z : Bool) {s : Str} {t : List UInt8}
    (r : Rep s t) : ∀ (pat : List UInt8) (p : Nat), 0 ∉ pat → p ≤ t.length →
    (z = true → 0 ∉ t) →
    ∃ c, cmpAt eqv z s.buf pat p = some c ∧ (c = .hit ↔ Occurs same pat t p) ∧
      (c = .stop → t.length < p + pat.length)
  | [], p, _, _, _ => ⟨.hit, rfl, ⟨fun _ j c h => by simp at h, fun _ => rfl⟩, fun h => by cases h⟩
  | c :: pat, p, hz, hp, ht => by
    have hc : c ≠ 0 := fun e => hz (by rw [e]; exact List.mem_cons_self)
    have hz' : 0 ∉ pat := fun e => hz (List.mem_cons_of_mem _ e)
    unfold cmpAt
    rw [occurs_cons]
    by_cases hlt : p < t.length
    · rw [r.text p hlt, List.getElem?_eq_getElem hlt]
      simp only []
      have hb : (z && t[p] == 0) = false := by
        cases z with
        | false => rfl
        | true =>
          have : t[p] ≠ 0 := fun e => ht rfl (by rw [← e]; exact List.getElem_mem hlt)
          simpa using this
      rw [hb, if_neg (by simp)]
      by_cases hq : eqv c t[p] = true
      · rw [if_pos hq]
        obtain ⟨d, e, h1, h2⟩ := cmpAt_spec he h0 z r pat (p + 1) hz' (by omega) ht
        refine ⟨d, e, h1.trans ⟨fun h => ⟨⟨_, rfl, (he _ _).mp hq⟩, h⟩, fun h => h.2⟩, fun h => ?_⟩
        have := h2 h
        simp only [List.length_cons]
        omega
      · rw [if_neg hq]
        refine ⟨.miss, rfl, ⟨(fun h => by cases h), ?_⟩, (fun h => by cases h)⟩
        rintro ⟨⟨b, hb, hs⟩, _⟩
        have e : t[p] = b := by simpa using hb
        exact absurd ((he _ _).mpr (e ▸ hs)) hq
    · have e : p = t.length := by omega
      subst e
      rw [r.terminator]
      simp only []
      have hno : ¬ ((∃ b, t[t.length]? = some b ∧ same c b) ∧ Occurs same pat t (t.length + 1)) := by
        rintro ⟨⟨b, hb, _⟩, _⟩
        simp at hb
      cases z with
      | true =>
        rw [if_pos (by rfl)]
        exact ⟨.stop, rfl, ⟨(fun h => by cases h), fun h => absurd h hno⟩, fun _ => by
          simp only [List.length_cons]; omega⟩
      | false =>
        rw [if_neg (by simp), if_neg (fun h => hc (h0 _ ((he _ _).mp h)))]
        exact ⟨.miss, rfl, ⟨(fun h => by cases h), fun h => absurd h hno⟩, fun h => by cases h⟩

/-- `res` is the first place from `f` on where the pattern occurs, `none` if there is none. -/
def First (same : UInt8 → UInt8 → Prop) (pat t : List UInt8) (f : Nat) : Option Nat → Prop
  | some i => f ≤ i ∧ Occurs same pat t i ∧ ∀ j, f ≤ j → j < i → ¬ Occurs same pat t j
  | none => ∀ j, f ≤ j → ¬ Occurs same pat t j

/-- `res` is the last place up to `f` where the pattern occurs, `none` if there is none. -/
def Last (same : UInt8 → UInt8 → Prop) (pat t : List UInt8) (f : Nat) : Option Nat → Prop
  | some i => i ≤ f ∧ Occurs same pat t i ∧ ∀ j, i < j → j ≤ f → ¬ Occurs same pat t j
  | none => ∀ j, j ≤ f → ¬ Occurs same pat t j

theorem findFrom_spec {eqv : UInt8 → UInt8 → Bool} {same : UInt8 → UInt8 → Prop}
    (he : ∀ a b, eqv a b = true ↔ same a b) (h0 : ∀ a, same a 0 → a = 0) {s : Str} {t pat : List UInt8}
    (r : Rep s t) (hz : 0 ∉ pat) (hn : pat ≠ []) (ht : 0 ∉ t) : ∀ (k f : Nat), f + k = t.length →
    ∃ res, findFrom eqv s pat k f = some res ∧ First same pat t f res
  | 0, f, hf => by
    refine ⟨none, rfl, fun j hj h => ?_⟩
    have := occurs_fits hn h
    have : 0 < pat.length := List.length_pos_iff.mpr hn
    omega
  | k + 1, f, hf => by
    obtain ⟨c, e, h1, h2⟩ := cmpAt_spec he h0 true r pat f hz (by omega) (fun _ => ht)
    unfold findFrom
    rw [e]
    cases c with
    | hit =>
      exact ⟨some f, rfl, Nat.le_refl _, h1.mp rfl, fun j a b => by omega⟩
    | stop =>
      refine ⟨none, rfl, fun j hj h => ?_⟩
      have := occurs_fits hn h
      have := h2 rfl
      omega
    | miss =>
      obtain ⟨res, e', h⟩ := findFrom_spec he h0 r hz hn ht k (f + 1) (by omega)
      have hno : ¬ Occurs same pat t f := fun h => by cases h1.mpr h
      refine ⟨res, e', ?_⟩
      cases res with
      | none =>
        intro j hj
        rcases Nat.lt_or_eq_of_le hj with h' | h'
        · exact h j h'
        · exact h' ▸ hno
      | some i =>
        obtain ⟨a, b, d⟩ := h
        refine ⟨by omega, b, fun j hj hi => ?_⟩
        rcases Nat.lt_or_eq_of_le hj with h' | h'
        · exact d j h' hi
        · exact h' ▸ hno

theorem eq_same (a b : UInt8) : (decide (a = b)) = true ↔ a = b := decide_eq_true_iff

theorem lower_same (a b : UInt8) : (decide (lower a = lower b)) = true ↔ SameLetter a b :=
  eqlower_iff a b

theorem sameLetter_zero (a : UInt8) (h : SameLetter a 0) : a = 0 := by
  rcases h with h | ⟨_, _, h⟩ | ⟨h, _, _⟩
  · exact h
  · simp at h
  · simp at h

/-- **C115, `find` (partial).**  In a string whose text has no zero byte, and for a pattern
that is not empty, `find` from a position inside the text stays inside the buffer and gives
the first place from there on where the pattern occurs, or `npos` when there is none.
Missing: texts with a zero byte (`C115_find_zero`), a start behind the end, which is taken for
0, and the empty pattern, which gives 0 (`C115_find_corners`). -/
theorem C115_find_partial {s : Str} {t pat : List UInt8} (r : Rep s t) (ht : 0 ∉ t) (hn : pat ≠ []) (hz : 0 ∉ pat)
    {start : Nat} (hs : start ≤ t.length) :
    ∃ res, find s pat start = some res ∧ First (· = ·) pat t start res := by
  have hs' : ¬ start > s.len := by rw [r.len]; omega
  simp only [find, findWith, if_neg hs', if_neg hn]
  exact findFrom_spec eq_same (fun a h => h) r hz hn ht _ _ (by rw [r.len]; omega)

/-- **C115, `findCase` (partial).**  The same for `findCase`, up to the case of letters. -/
theorem C115_findCase_partial {s : Str} {t pat : List UInt8} (r : Rep s t) (ht : 0 ∉ t) (hn : pat ≠ []) (hz : 0 ∉ pat)
    {start : Nat} (hs : start ≤ t.length) :
    ∃ res, findCase s pat start = some res ∧ First SameLetter pat t start res := by
  have hs' : ¬ start > s.len := by rw [r.len]; omega
  simp only [findCase, findWith, if_neg hs', if_neg hn]
  exact findFrom_spec lower_same sameLetter_zero r hz hn ht _ _ (by rw [r.len]; omega)

theorem rfindFrom_spec {s : Str} {t pat : List UInt8} (r : Rep s t) (hz : 0 ∉ pat) : ∀ f : Nat, f ≤ t.length →
    ∃ res, rfindFrom s pat f = some res ∧ Last (· = ·) pat t f res
  | 0, hf => by
    obtain ⟨c, e, h1, _⟩ := cmpAt_spec eq_same (fun a h => h) false r pat 0 hz (by omega) (fun h => by cases h)
    unfold rfindFrom
    rw [e]
    have none' : c ≠ .hit → ∀ j, j ≤ 0 → ¬ Occurs (· = ·) pat t j := fun hc j hj h => by
      rw [Nat.le_zero.mp hj] at h
      exact hc (h1.mpr h)
    cases c with
    | hit => exact ⟨some 0, rfl, Nat.le_refl _, h1.mp rfl, fun j a b => by omega⟩
    | miss => exact ⟨none, rfl, none' (by intro h; cases h)⟩
    | stop => exact ⟨none, rfl, none' (by intro h; cases h)⟩
  | f + 1, hf => by
    obtain ⟨c, e, h1, _⟩ := cmpAt_spec eq_same (fun a h => h) false r pat (f + 1) hz (by omega) (fun h => by cases h)
    obtain ⟨res, e', h⟩ := rfindFrom_spec r hz f (by omega)
    unfold rfindFrom
    rw [e]
    have more : c ≠ .hit → Last (· = ·) pat t (f + 1) res := fun hc => by
      have hno : ¬ Occurs (· = ·) pat t (f + 1) := fun h => hc (h1.mpr h)
      cases res with
      | none =>
        intro j hj
        rcases Nat.lt_or_eq_of_le hj with h' | h'
        · exact h j (by omega)
        · exact h' ▸ hno
      | some i =>
        obtain ⟨a, b, d⟩ := h
        refine ⟨by omega, b, fun j hi hj => ?_⟩
        rcases Nat.lt_or_eq_of_le hj with h' | h'
        · exact d j hi (by omega)
        · exact h' ▸ hno
    cases c with
    | hit => exact ⟨some (f + 1), rfl, Nat.le_refl _, h1.mp rfl, fun j a b => by omega⟩
    | miss => exact ⟨res, e', more (by intro h; cases h)⟩
    | stop => exact ⟨res, e', more (by intro h; cases h)⟩

/-- **C115, `rfind` (partial).**  For every text, zero bytes included, and a pattern that is not
empty, `rfind` stays inside the buffer and gives the last place up to `from` where the
pattern occurs, or `npos` when there is none; a start behind the end (`npos` by default) means
the whole text.  Missing: the empty pattern, which gives 0 (`C115_find_corners`). -/
theorem C115_rfind_partial {s : Str} {t pat : List UInt8} (r : Rep s t) (hn : pat ≠ []) (hz : 0 ∉ pat) (start : Nat) :
    ∃ res, rfind s pat start = some res ∧ Last (· = ·) pat t start res := by
  unfold rfind
  rw [if_neg hn]
  by_cases hs : start > s.len
  · rw [if_pos hs]
    obtain ⟨res, e, h⟩ := rfindFrom_spec r hz s.len (by rw [r.len]; omega)
    refine ⟨res, e, ?_⟩
    have hl := r.len
    have far : ∀ j, s.len < j → ¬ Occurs (· = ·) pat t j := fun j hj h => by
      have := occurs_fits hn h
      omega
    cases res with
    | none =>
      intro j hj
      by_cases h' : j ≤ s.len
      · exact h j h'
      · exact far j (by omega)
    | some i =>
      obtain ⟨a, b, d⟩ := h
      refine ⟨by omega, b, fun j hi hj => ?_⟩
      by_cases h' : j ≤ s.len
      · exact d j hi h'
      · exact far j (by omega)
  · rw [if_neg hs]
    exact rfindFrom_spec r hz start (by rw [← r.len]; omega)

/-- The place a search gives is determined by what it should find. -/
theorem first_unique {same : UInt8 → UInt8 → Prop} {pat t : List UInt8} {f : Nat} {a b : Option Nat}
    (ha : First same pat t f a) (hb : First same pat t f b) : a = b := by
  cases a with
  | none =>
    cases b with
    | none => rfl
    | some j => exact absurd hb.2.1 (ha j hb.1)
  | some i =>
    cases b with
    | none => exact absurd ha.2.1 (hb i ha.1)
    | some j =>
      rcases Nat.lt_trichotomy i j with h | h | h
      · exact absurd ha.2.1 (hb.2.2 i ha.1 h)
      · rw [h]
      · exact absurd hb.2.1 (ha.2.2 j hb.1 h)

/-- **C115 fails for `find` and a text with a zero byte**: in "a", zero, "b" the search for "b"
ends at the zero byte with `npos`, although "b" occurs at 2, where `rfind` finds it. -/
theorem C115_find_zero : ∃ s, run [.set [97, 0, 98]] new = some s ∧ Rep s [97, 0, 98] ∧
    Occurs (· = ·) [98] [97, 0, 98] 2 ∧ find s [98] 0 = some none ∧ rfind s [98] 4294967295 = some (some 2) := by
  obtain ⟨s, e, r⟩ := run_rep [.set [97, 0, 98]] new [] new_rep ⟨by simp [Op.Proper], trivial⟩
  refine ⟨s, e, r, ?_, ?_⟩
  · intro j c h
    cases j with
    | zero => simpa using h.symm
    | succ j => simp at h
  · have e2 : run [.set [97, 0, 98]] new = some ((run [.set [97, 0, 98]] new).getD new) := by decide
    rw [e2] at e
    injection e with e
    subst e
    decide

/-- **C115 fails for `find` at its corners**: from behind the end of "ab" the search for "a"
gives 0, in front of where it was to start, and the empty pattern gives 0 from anywhere, also
for `rfind`, where it occurs later. -/
theorem C115_find_corners : ∃ s, run [.set [97, 98]] new = some s ∧ Rep s [97, 98] ∧
    find s [97] 3 = some (some 0) ∧ find s [] 2 = some (some 0) ∧ rfind s [] 2 = some (some 0) ∧
    Occurs (· = ·) [] [97, 98] 2 := by
  obtain ⟨s, e, r⟩ := run_rep [.set [97, 98]] new [] new_rep ⟨by simp [Op.Proper], trivial⟩
  refine ⟨s, e, r, ?_⟩
  have e2 : run [.set [97, 98]] new = some ((run [.set [97, 98]] new).getD new) := by decide
  rw [e2] at e
  injection e with e
  subst e
  exact ⟨by decide, by decide, by decide, fun j c h => by simp at h⟩

/-- A case: "xabcabd" has "ab" at 1 and at 4, "ABD" up to case at 4, and no "abe"; the
searches say so. -/
example : ∃ s, run [.set [120, 97, 98, 99, 97, 98, 100]] new = some s ∧ Rep s [120, 97, 98, 99, 97, 98, 100] ∧
    find s [97, 98] 0 = some (some 1) ∧ find s [97, 98] 2 = some (some 4) ∧ find s [97, 98, 101] 0 = some none ∧
    findCase s [65, 66, 68] 0 = some (some 4) ∧ find s [65, 66, 68] 0 = some none ∧
    rfind s [97, 98] 4294967295 = some (some 4) ∧ rfind s [97, 98] 3 = some (some 1) := by
  obtain ⟨s, e, r⟩ := run_rep [.set [120, 97, 98, 99, 97, 98, 100]] new [] new_rep ⟨by simp [Op.Proper], trivial⟩
  refine ⟨s, e, r, ?_⟩
  have e2 : run [.set [120, 97, 98, 99, 97, 98, 100]] new =
      some ((run [.set [120, 97, 98, 99, 97, 98, 100]] new).getD new) := by decide
  rw [e2] at e
  injection e with e
  subst e
  decide

end Wrench.Util.Str
