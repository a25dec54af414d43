import Verif.StrLib.Props

/-
C23: character classes, where the string functions fail, and concrete calls.
-/
namespace Wrench.StrLib

open Ops

theorem isClass_ok {cls : Nat → Bool} {p : Byte → Bool}
    (h : ∀ n : Fin 256, n.val < 128 ∨ n.val = 255 →
      isClass cls (BitVec.ofNat 8 n.val) = .ok (p (BitVec.ofNat 8 n.val))) {c : Byte} (hc : CtypeOk c) :
    isClass cls c = .ok (p c) := by
  simpa using h ⟨c.toNat, c.isLt⟩ (by
    rcases hc with h | h
    · exact .inl h
    · right; rw [h]; rfl)

def isDigit (b : Byte) : Bool := (b - 48#8).toNat < 10
def isAlpha (b : Byte) : Bool := lower b ≠ b || upper b ≠ b

private theorem isFn_ok (E : LEnv) {cls : Nat → Bool} {p : Byte → Bool} (hE : ∀ c, E.yes c ≠ 0#32)
    {σ : St} {K b : Nat} {v : Val} {n : Word32} (ha : Args σ K b [v]) (hn : IntOf E σ v n)
    (hc : isClass cls (n.setWidth 8) = .ok (p (n.setWidth 8))) (d : Nat) :
    ∃ τ r, isFn cls E (d + K + 1) σ b 1 = .ok τ ∧ OnlySet σ τ (.cell (b + 1)) (.int r) ∧
      (r ≠ 0#32 ↔ p (n.setWidth 8) = true) := by
  obtain ⟨mb, hr⟩ := ha 0 v rfl
  obtain ⟨τ, h1, h2⟩ := asInt_reads E hr hn d
  refine ⟨_, if p (n.setWidth 8) then E.yes (n.setWidth 8) else 0, ?_, onlySet_top h2 _ _ _, ?_⟩
  · simp only [Nat.add_zero] at h1
    simp only [isFn, if_true, h1, res_bind, hc, res_pure]
  · cases p (n.setWidth 8) <;> simp [hE]

/-- C23: `str::isspace`, `str::isdigit`, `str::isalpha` are true exactly for white space, digits,
letters.  Missing: characters from 0x80 to 0xFE; which non-zero number stands for true. -/
theorem C23_classes_partial (E : LEnv) (hE : ∀ c, E.yes c ≠ 0#32) {σ : St} {K b : Nat} {v : Val}
    {n : Word32} (ha : Args σ K b [v]) (hn : IntOf E σ v n) (hc : CtypeOk (n.setWidth 8)) (d : Nat) :
    (∃ τ r, isFn spaceCode E (d + K + 1) σ b 1 = .ok τ ∧ OnlySet σ τ (.cell (b + 1)) (.int r) ∧
      (r ≠ 0#32 ↔ isSpace (n.setWidth 8) = true)) ∧
    (∃ τ r, isFn digitCode E (d + K + 1) σ b 1 = .ok τ ∧ OnlySet σ τ (.cell (b + 1)) (.int r) ∧
      (r ≠ 0#32 ↔ isDigit (n.setWidth 8) = true)) ∧
    (∃ τ r, isFn (fun c => upperCode c || lowerCode c) E (d + K + 1) σ b 1 = .ok τ ∧
      OnlySet σ τ (.cell (b + 1)) (.int r) ∧ (r ≠ 0#32 ↔ isAlpha (n.setWidth 8) = true)) :=
  ⟨isFn_ok E hE ha hn (isClass_ok (by decide +kernel) hc) d,
    isFn_ok E hE ha hn (isClass_ok (by decide +kernel) hc) d,
    isFn_ok E hE ha hn (isClass_ok (by decide +kernel) hc) d⟩

/-! ### Concrete calls -/

def lenv : LEnv := { demoEnv with toInt := fun w => some w, yes := fun _ => 8192 }

/-- A call of a string function: slot 0 refers to the string variable 10, slots 1 and 2 hold the
other arguments. -/
def call (s : List Byte) (x y : Val) : St := demo
  (fun | .cell 0 => .ref (.cell 10) | .cell 10 => .arr 0 | .cell 1 => x | .cell 2 => y
       | .cell 3 => .int 0 | _ => .other)
  (fun | 0 => .chars s false | 1 => .chars (str "xyz") false | _ => .other)

theorem call_args {s : List Byte} {x y : Val} (hx : x.plain = true) (hy : y.plain = true) :
    Args (call s x y) 1 0 [.arr 0, x, y] := by
  intro i v hv
  match i, hv with
  | 0, hv =>
    cases hv
    exact ⟨false, .ref (r := .cell 10) rfl rfl (.here (a := .cell 10) rfl)⟩
  | 1, hv => cases hv; exact ⟨false, .here (σ := call s x y) (a := .cell 1) hx⟩
  | 2, hv => cases hv; exact ⟨false, .here (σ := call s x y) (a := .cell 2) hy⟩

/-- Fewer arguments. -/
theorem Args.take {σ : St} {K b : Nat} {vs : List Val} (h : Args σ K b vs) (k : Nat) :
    Args σ K b (vs.take k) := by
  intro i v hv
  rw [List.getElem?_take] at hv
  split at hv
  · exact h i v hv
  · cases hv

example : ∃ τ, left lenv 2 (call (str "hello") (.int 2) .other) 0 2 = .ok τ ∧
    NewStr (call (str "hello") (.int 2) .other) τ (.cell 2) (str "he") :=
  C23_left lenv ((call_args rfl rfl).take 2) ⟨by decide, 0, false, rfl, rfl⟩ .int 0

example : ∃ τ, right lenv 2 (call (str "hello") (.int 0xFFFFFFFF#32) .other) 0 2 = .ok τ ∧
    NewStr (call (str "hello") (.int 0xFFFFFFFF#32) .other) τ (.cell 2) (str "hello") :=
  C23_right lenv ((call_args rfl rfl).take 2) ⟨by decide, 0, false, rfl, rfl⟩ .int 0

example : ∃ τ, mid lenv 2 (call (str "hello") (.int 1) (.int 3)) 0 3 = .ok τ ∧
    NewStr (call (str "hello") (.int 1) (.int 3)) τ (.cell 3) (str "ell") :=
  C23_mid_partial lenv (call_args rfl rfl) ⟨by decide, 0, false, rfl, rfl⟩ (by decide) .int .int 0

example : ∃ τ, mid lenv 2 (call (str "hello") (.int 9) .other) 0 2 = .ok τ ∧
    NewStr (call (str "hello") (.int 9) .other) τ (.cell 2) [] :=
  C23_mid_rest_partial lenv ((call_args rfl rfl).take 2) ⟨by decide, 0, false, rfl, rfl⟩ (by decide)
    .int 0

example : ∃ τ, concat 2 (call (str "ab") (.arr 1) .other) 0 2 = .ok τ ∧
    NewStr (call (str "ab") (.arr 1) .other) τ (.cell 2) (str "abxyz") :=
  C23_concat ((call_args rfl rfl).take 2) ⟨by decide, 0, false, rfl, rfl⟩
    ⟨by decide, 1, false, rfl, rfl⟩ (by decide) 0

example : ∃ τ, insert lenv 2 (call (str "ab") (.arr 1) (.int 1)) 0 3 = .ok τ ∧
    NewStr (call (str "ab") (.arr 1) (.int 1)) τ (.cell 3) (str "axyzb") :=
  C23_insert lenv (call_args rfl rfl) ⟨by decide, 0, false, rfl, rfl⟩
    ⟨by decide, 1, false, rfl, rfl⟩ .int (by decide) 0

example : ∃ τ, trim 2 (call (str " a b  ") .other .other) 0 1 = .ok τ ∧
    NewStr (call (str " a b  ") .other .other) τ (.cell 1) (str "a b") :=
  C23_trim_partial ((call_args rfl rfl).take 1) ⟨by decide, 0, false, rfl, rfl⟩
    (by decide +kernel) (by decide) 0

example : ∃ τ, trimleft 2 (call (str " a b  ") .other .other) 0 1 = .ok τ ∧
    NewStr (call (str " a b  ") .other .other) τ (.cell 1) (str "a b  ") :=
  C23_trimleft_partial ((call_args rfl rfl).take 1) ⟨by decide, 0, false, rfl, rfl⟩
    (by decide +kernel) 0

example : ∃ τ, trimright 2 (call (str " a b  ") .other .other) 0 1 = .ok τ ∧
    NewStr (call (str " a b  ") .other .other) τ (.cell 1) (str " a b") :=
  C23_trimright_partial ((call_args rfl rfl).take 1) ⟨by decide, 0, false, rfl, rfl⟩
    (by decide +kernel) (by decide) 0

example : ∃ τ, tolower lenv 2 (call (str "aBc9") .other .other) 0 1 = .ok τ ∧
    NewStr (call (str "aBc9") .other .other) τ (.cell 1) (str "abc9") :=
  C23_tolower_partial lenv ((call_args rfl rfl).take 1) ⟨by decide, 0, false, rfl, rfl⟩
    (by decide +kernel) 0

example : ∃ τ, toupper lenv 2 (call (str "aBc9") .other .other) 0 1 = .ok τ ∧
    NewStr (call (str "aBc9") .other .other) τ (.cell 1) (str "ABC9") :=
  C23_toupper_partial lenv ((call_args rfl rfl).take 1) ⟨by decide, 0, false, rfl, rfl⟩
    (by decide +kernel) 0

example : ∃ τ r, strchr lenv 2 (call (str "hello") (.int 108) .other) 0 2 = .ok τ ∧
    OnlySet (call (str "hello") (.int 108) .other) τ (.cell 2) (.int r) ∧ r = 2#32 :=
  C23_chr lenv ((call_args rfl rfl).take 2) ⟨by decide, 0, false, rfl, rfl⟩ .int 0

example : ∃ τ, strlen 2 (call (str "hello") .other .other) 0 1 = .ok τ ∧
    OnlySet (call (str "hello") .other .other) τ (.cell 1) (.int 5#32) :=
  C23_strlen_partial (σ := call (str "hello") .other .other) (K := 1) (b := 0) (.ref (r := .cell 10) rfl rfl
    (.here (a := .cell 10) rfl))
    (s := str "hello") ⟨by decide, 0, false, rfl, rfl⟩ 0

/-! ### Where the property fails -/

/-- C23 fails: `str::mid( "", 0 )` is the number 0, not the empty string. -/
theorem C23_mid_of_empty (E : LEnv) :
    ∃ τ, mid E 2 (call [] (.int 0) (.int 0)) 0 3 = .ok τ ∧ τ.cell (.cell 3) = .int 0 :=
  ⟨_, rfl, rfl⟩

/-- C23 fails: trimming a string that ends in a byte from 0x80 to 0xFE (é in Latin-1, any
non-ASCII UTF-8 text) calls `isspace` with a negative number. -/
theorem C23_trim_high_byte {c : Byte} (h1 : 0x80 ≤ c.toNat) (h2 : c.toNat < 0xFF) (s : List Byte)
    (hs : s.length < 2 ^ 31 - 1) :
    trimright 2 (call (s ++ [c]) .other .other) 0 1 = .ub := by
  obtain ⟨τ, h, -⟩ := chars_some (d := 0) (bs := s ++ [c]) (.ref (σ := call (s ++ [c]) .other .other)
    (mb := false) (k := 0) (a := .cell 0) (r := .cell 10) rfl rfl (.here (a := .cell 10) rfl))
    ⟨by simp; omega, 0, false, rfl, rfl⟩
  have hc : isClass spaceCode c = .ub := by
    unfold isClass ctypeArg
    rw [if_neg (by omega), if_neg (by rintro rfl; simp at h2)]
    rfl
  unfold trimright
  rw [if_neg (by simp)]
  simp only [Nat.zero_add] at h
  simp only [h, res_bind]
  rw [if_pos (by simp; omega), List.length_append, List.length_singleton, backOver,
    if_pos (Nat.zero_le _)]
  simp [hc]

/-- C23 fails beyond 2^32 bytes: the sum of the lengths wraps and the copy overruns the new
string. -/
theorem C23_concat_overrun {σ : St} {K b : Nat} {v u : Val} {s t : List Byte}
    (ha : Args σ K b [v, u]) (hs : IsString σ v s) (ht : IsString σ u t)
    (hl : 2 ^ 32 ≤ s.length + t.length) (d : Nat) : concat (d + K + 1) σ b 2 = .ub := by
  obtain ⟨mb, hr⟩ := ha 0 v rfl
  obtain ⟨τ, h1, h2⟩ := chars_some hr hs d
  obtain ⟨mb, hr⟩ := (ha.same h2) 1 u rfl
  obtain ⟨υ, h3, h4⟩ := chars_some hr (isString_same h2 ht) d
  have hs1 := hs.1
  have ht1 := ht.1
  unfold concat
  rw [if_neg (by simp)]
  simp only [Nat.add_zero] at h1
  simp only [h1, res_bind, h3, newStr, List.foldlM_cons]
  have : store (List.replicate ((s.length + t.length) % 2 ^ 32) none) 0 s = .ub := by
    unfold store
    rw [if_neg (by rintro rfl; simp at hl; omega), if_neg (by rw [List.length_replicate]; omega)]
  rw [this]
  rfl

end Wrench.StrLib
