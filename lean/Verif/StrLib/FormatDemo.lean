import Verif.StrLib.FormatProps
import Verif.StrLib.Demo

/-
C22, C55: concrete calls, and where the properties fail.
-/
namespace Wrench.StrLib

open Ops Std

def fenv : FEnv := { lenv with junk := fun i => BitVec.ofNat 8 (200 + i), ptr := fun o => BitVec.ofNat 32 (4096 + o) }

/-- A call of `str::format( fmt, s, n )`: slot 0 is the format, slot 1 refers to the variable 10 that
holds the string, slot 2 a number; the result slot is 3. -/
def fcall (fmt s : List Byte) (n : Val) (slot : Val) : St := demo
  (fun | .cell 0 => .arr 0 | .cell 1 => .ref (.cell 10) | .cell 10 => .arr 1 | .cell 2 => n
       | .cell 3 => slot | _ => .other)
  (fun | 0 => .chars fmt false | 1 => .chars s false | _ => .other)

theorem fcall_args (fmt s : List Byte) (n : Word32) (slot x : Val) :
    FArgs ((fcall fmt s (.int n) slot).set (.cell 3) x) .tmp 1 1 [.str s, .int n] := by
  intro i a ha
  match i, ha with
  | 0, ha =>
    cases ha
    exact ⟨.arr 1, .ref (r := .cell 10) rfl rfl (.here (a := .cell 10) rfl),
      .str (nc := false) rfl (by intro h; cases h)⟩
  | 1, ha => cases ha; exact ⟨.int n, .here (a := .cell 2) rfl, .int⟩

/-- To evaluate a text. -/
def textOf (x : Except Bad (List Byte)) : Option (List Byte) := match x with
  | .ok u => some u
  | .error _ => none

theorem ok_of_textOf {x : Except Bad (List Byte)} {u : List Byte} (h : textOf x = some u) :
    x = .ok u := by
  cases x with
  | ok v => simp only [textOf, Option.some.injEq] at h; rw [h]
  | error e => cases h

example : ∃ τ, format fenv 2 (fcall (str "%s = %04x, %d%%") (str "xyz") (.int 42) (.int 0)) 0 3 = .ok τ ∧
    NewStr (fcall (str "%s = %04x, %d%%") (str "xyz") (.int 42) (.int 0)) τ (.cell 3)
      (str "xyz = 002a, 0%") :=
  C22_format_partial (E := fenv) (K := 1) (args := [.str (str "xyz"), .int 42]) (b := 0) (fo := 0)
    (mb := false) (nc := false) rfl rfl (.here (a := .cell 0) rfl) rfl (fcall_args _ _ _ _)
    (ok_of_textOf (by decide +kernel)) (by decide) 0

/-- A text longer than the 80 bytes tried first. -/
example : ∃ τ, format fenv 2 (fcall (str "%100s|%d") (str "xyz") (.int 42) (.int 0)) 0 3 = .ok τ ∧
    NewStr (fcall (str "%100s|%d") (str "xyz") (.int 42) (.int 0)) τ (.cell 3)
      (List.replicate 97 32#8 ++ str "xyz|42") :=
  C22_format_partial (E := fenv) (K := 1) (args := [.str (str "xyz"), .int 42]) (b := 0) (fo := 0)
    (mb := false) (nc := false) rfl rfl (.here (a := .cell 0) rfl) rfl (fcall_args _ _ _ _)
    (ok_of_textOf (by decide +kernel)) (by decide) 0

example : ∃ τ, printf fenv true 2 (fcall (str "%s:%d") (str "xyz") (.int 42) (.int 0)) 0 3 =
      .ok (τ, str "xyz:42") ∧ τ.cell (.cell 3) = .int 6#32 := by
  obtain ⟨τ, h1, h2, -⟩ := C22_printf_partial (E := fenv) (K := 1) (args := [.str (str "xyz"), .int 42])
    (b := 0) (fo := 0) (mb := false) (nc := false) (σ := fcall (str "%s:%d") (str "xyz") (.int 42) (.int 0))
    (fmt := str "%s:%d") (u := str "xyz:42") rfl rfl (.here (a := .cell 0) rfl) rfl (fcall_args _ _ _ _)
    (ok_of_textOf (by decide +kernel)) (by decide) 0
  exact ⟨τ, h1, h2⟩

/-- The same call in the default build. -/
example : printf fenv false 2 (fcall (str "%s:%d") (str "xyz") (.int 42) (.int 0)) 0 3 = .ub :=
  C22_printf_overread (E := fenv) (K := 1) (args := [.str (str "xyz"), .int 42])
    (b := 0) (fo := 0) (mb := false) (nc := false) (σ := fcall (str "%s:%d") (str "xyz") (.int 42) (.int 0))
    (fmt := str "%s:%d") (u := str "xyz:42") rfl rfl (.here (a := .cell 0) rfl) rfl (fcall_args _ _ _ _)
    (ok_of_textOf (by decide +kernel)) (by decide) (by decide) (by decide +kernel) 0

/-- The routine on a buffer of 10 bytes with limit 4. -/
example : ∃ s, sprintfEx lenv 2 .tmp 4 0 5 ⟨1, 2⟩ (fcall (str "%s:%d") (str "xyz") (.int 42) (.int 0))
      (List.replicate 10 33#8) = .ok (s, 6) ∧ s.tmp = str "xyz:!!!!!!" := by
  obtain ⟨s, h1, h2, -⟩ := C22_buffer_partial (E := lenv) (K := 1) (args := [.str (str "xyz"), .int 42])
    (σ := fcall (str "%s:%d") (str "xyz") (.int 42) (.int 0)) (out := .tmp) (max := 4)
    (old := List.replicate 10 33#8) (tmp := List.replicate 10 33#8) (A := ⟨1, 2⟩) (fo := 0)
    (fmt := str "%s:%d") (nc := false) (u := str "xyz:42") (by decide) (by
      refine (fcall_args (str "%s:%d") (str "xyz") 42 (.int 0) (.int 0)).move ?_ fun o bs nc h h' => ⟨h, h'⟩
      intro a _
      by_cases e : a = .cell 3
      · rw [e, St.set_same]; rfl
      · rw [St.set_ne _ _ e]) rfl rfl (by intro h; cases h) rfl (ok_of_textOf (by decide +kernel)) (by decide) 0
  refine ⟨s, h1, ?_⟩
  simp only [outBytes, Option.some.injEq] at h2
  rw [h2]
  decide

/-- `str::sprintf( v, fmt, n )`: slot 0 refers to the variable 10, slot 1 is the format, slot 2 a
number; the variable 11 holds the same value as 10. -/
def scall (v : Val) (fmt old : List Byte) (n : Val) : St := demo
  (fun | .cell 0 => .ref (.cell 10) | .cell 1 => .arr 0 | .cell 2 => n | .cell 10 => v | .cell 11 => v
       | .cell 3 => .int 0 | _ => .other)
  (fun | 0 => .chars fmt false | 1 => .chars old false | _ => .other)

theorem scall_args (v : Val) (fmt old : List Byte) (n : Word32) (out : Out) (x : Val) :
    FArgs ((scall v fmt old (.int n)).set (.cell 10) x) out 1 2 [.int n] := by
  intro i a ha
  match i, ha with
  | 0, ha => cases ha; exact ⟨.int n, .here (a := .cell 2) rfl, .int⟩

example : ∃ τ, sprintf fenv 3 (scall (.int 7) (str "<%d>") [] (.int 42)) 0 3 = .ok τ ∧
    τ.cell (.cell 10) = .arr 100 ∧ τ.obj 100 = .chars (str "<42>") false := by
  obtain ⟨τ, h1, h2, h3, -⟩ := C22_sprintf_new_partial (E := fenv) (K := 1) (args := [.int 42])
    (σ := scall (.int 7) (str "<%d>") [] (.int 42)) (b := 0) (fo := 0) (mb := false) (to := .cell 10)
    (fmt := str "<%d>") (u := str "<42>") (nc := false) rfl rfl rfl (by intro o h; cases h) (by decide) rfl
    (.here (a := .cell 1) rfl) rfl (scall_args _ _ _ _ _) (ok_of_textOf (by decide +kernel)) (by decide) 0
  exact ⟨τ, h1, h2, h3⟩

example : ∃ τ o nc, sprintf fenv 3 (scall (.arr 1) (str "<%d>") (str "abcdefgh") (.int 42)) 0 3 = .ok τ ∧
    τ.cell (.cell 10) = .arr o ∧ τ.obj o = .chars (str "<42>") nc := by
  obtain ⟨τ, o, nc, h1, h2, h3, -⟩ := C22_sprintf_reuse_partial (E := fenv) (K := 1) (args := [.int 42])
    (σ := scall (.arr 1) (str "<%d>") (str "abcdefgh") (.int 42)) (b := 0) (fo := 0) (o := 1) (mb := false)
    (to := .cell 10) (fmt := str "<%d>") (u := str "<42>") (nc := false) (nco := false)
    (old := str "abcdefgh") rfl rfl rfl rfl (by decide) rfl
    (.here (a := .cell 1) rfl) rfl (by decide) (scall_args _ _ _ _ _) (ok_of_textOf (by decide +kernel))
    (by decide) 0
  exact ⟨τ, o, nc, h1, h2, h3⟩

example : ∃ t, IsIntText t (-7) ∧ render lenv (str "a=" ++ 37#8 :: 100#8 :: str ";") [.int 0xFFFFFFF9#32] =
    .ok (str "a=" ++ t ++ str ";") :=
  C55_decimal_partial lenv (by decide) (by decide) (w := 0xFFFFFFF9#32) (by decide) (.inl rfl) []

/-! ### Where the properties fail -/

/-- What a call leaves in a variable holding a string. -/
def stringIn (r : Res St) (a : Addr) : Option (List Byte) :=
  match r with
  | .ok τ =>
    match τ.cell a with
    | .arr o => match τ.obj o with
      | .chars bs _ => some bs
      | _ => none
    | _ => none
  | _ => none

/-- C22 fails: `%s` with a number returns 0, whatever was produced before it. -/
theorem C22_percent_s_of_number : ∃ s, sprintfEx lenv 2 .tmp 80 0 4 ⟨2, 1⟩
      (fcall (str "ab%s") [] (.int 42) (.int 0)) (List.replicate 80 0#8) = .ok (s, 0) ∧
    s.tmp.take 2 = str "ab" :=
  ⟨_, rfl, by decide +kernel⟩

/-- C22 fails: `str::sprintf( s, "[%s]", s )` on "abc" gives "[[[[[": the buffer is overwritten while
it is being read, and the second run reads the new buffer. -/
theorem C22_sprintf_alias :
    stringIn (sprintf fenv 3 (demo
      (fun | .cell 0 => .ref (.cell 10) | .cell 1 => .arr 0 | .cell 2 => .ref (.cell 10)
           | .cell 10 => .arr 1 | .cell 3 => .int 0 | _ => .other)
      (fun | 0 => .chars (str "[%s]") false | 1 => .chars (str "abc") false | _ => .other)) 0 3)
      (.cell 10) = some (str "[[[[[") := by
  decide +kernel

/-- C22 fails: `str::sprintf( a, "<%d>", 42 )` also changes `b` when `b = a` was executed before. -/
theorem C22_sprintf_shared :
    stringIn (.ok (scall (.arr 1) (str "<%d>") (str "abcdefgh") (.int 42))) (.cell 11) =
      some (str "abcdefgh") ∧
    stringIn (sprintf fenv 3 (scall (.arr 1) (str "<%d>") (str "abcdefgh") (.int 42)) 0 3) (.cell 11) =
      some (str "<42>") := by
  decide +kernel

/-- C25 fails for a library call whose result is dropped: `a = str::trim(" hi "); str::format("bye");`
Compiled as `CallLibFunction` and `Pop` the second statement leaves `a` alone; the fused
`CallLibFunctionAndPop` does not clear the result slot, which still holds the string of `a`, and
formats into it. -/
theorem C25_lib_call_and_pop :
    let σ : St := demo (fun | .cell 0 => .arr 0 | .cell 1 => .arr 1 | .cell 10 => .arr 1 | _ => .other)
      (fun | 0 => .chars (str "bye") false | 1 => .chars (str "hi!") false | _ => .other)
    stringIn (format fenv 2 (enter false σ 0 1) 0 1) (.cell 10) = some (str "hi!") ∧
    stringIn (format fenv 2 (enter true σ 0 1) 0 1) (.cell 10) = some (str "bye") := by
  decide +kernel

/-- C55 fails: `%.2f` prints "2f" and `%f` nothing, whatever the argument is. -/
theorem C55_float (E : LEnv) (x : Word32) (as : List FArg) :
    render E (str "%.2f") (.float x :: as) = .ok (str "2f") ∧
    render E (str "%f") (.float x :: as) = .ok [] := by
  constructor
  · have : render E (str "%.2f") (.float x :: as) = .ok ([] ++ [] ++ str "2f") :=
      render_one E (pre := []) (post := str "2f") (by decide) (by decide) (k := 46#8) rfl _ rfl
    exact this
  · have : render E (str "%f") (.float x :: as) = .ok ([] ++ [] ++ []) :=
      render_one E (pre := []) (post := []) (by decide) (by decide) (k := 102#8) rfl _ rfl
    exact this

/-- C55 fails: `%b` keeps 16 bits and `%o` 15, and the sign comes after the zeros it is padded with. -/
theorem C55_wrong_numbers :
    textOf (render lenv (str "%b") [.int 0x10001#32]) = some (str "1") ∧
    textOf (render lenv (str "%o") [.int 0x8001#32]) = some (str "1") ∧
    textOf (render lenv (str "%05d") [.int 0xFFFFFFF9#32]) = some (str "0000-7") := by
  decide +kernel

/-- C55 fails: `%d` of the smallest integer is undefined. -/
theorem C55_int_min : sprintfEx lenv 2 .tmp 80 0 2 ⟨2, 1⟩
      (fcall (str "%d") [] (.int 0x80000000#32) (.int 0)) (List.replicate 80 0#8) = .ub := rfl

end Wrench.StrLib
