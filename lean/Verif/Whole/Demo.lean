import Verif.Whole.Text
import Verif.Peep.Props

/-
C111 on concrete expressions, and two expressions that are compiled wrongly.
-/
namespace Wrench.Whole
open Wrench.Vm Wrench.Peep Wrench.Ops

/-- The variables of `squares`: globals 0, 1, 4, 9 and locals 16, 25, 36, 49. -/
def sqVars : Vars
  | .G, i => if i.toNat < 4 then some (BitVec.ofNat 32 (i.toNat * i.toNat)) else none
  | .L, i => if i.toNat < 4 then some (BitVec.ofNat 32 ((4 + i.toNat) * (4 + i.toNat))) else none

theorem sq_start : Start sqVars squares := by
  refine ⟨by decide, by decide, fun v i w h => ?_⟩
  cases v with
  | G =>
    simp only [sqVars] at h
    split at h
    · next hi =>
      cases h
      exact ⟨i.toNat, by simp [M.var, squares, dm, hi], if_pos (show i.toNat < 8 by omega)⟩
    · simp at h
  | L =>
    simp only [sqVars] at h
    split at h
    · next hi =>
      cases h
      exact ⟨4 + i.toNat, by simp [M.var, squares, dm, hi], if_pos (show 4 + i.toNat < 8 by omega)⟩
    · simp at h

def vA : IE := .var .L 0
def vB : IE := .var .L 1
def vC : IE := .var .L 2
def vG : IE := .var .G 3

/-- `a * b + c / 7 - 300 < g` -/
def exBare : IE := .bin .lt (.bin .sub (.bin .add (.bin .mul vA vB) (.bin .div vC (.lit 7))) (.lit 300)) vG

/-- `16 * 25 + 36 / 7 - 300 < 9` is false: its 22 bytes, with two exchanges, push 0. -/
example : ∃ c, compile id true exBare = some c ∧ c.rall.length = 22 ∧
    ∃ m', Runs demoEnv c.rall.reverse squares (.next m') ∧ Pushed squares 0 m' := by
  obtain ⟨c, h, hr⟩ := C111_bare_partial (neg := id) (ρ := sqVars) (e := exBare) (w := 0)
    (by simp [IE.ok, exBare, vA, vB, vC, vG, IE.level, Expr.Bin.prec])
    (by simp [IE.bare, exBare, vA, vB, vC, vG])
    (fun T hT => .inl (by rw [(prep_shape hT).2.2.1]; decide)) (by decide +kernel) demoEnv sq_start
  refine ⟨c, h, ?_, hr⟩
  have h2 : (compile id true exBare).map (·.rall.length) = some 22 := by decide +kernel
  rw [h] at h2
  simpa using h2

/-- `-(a * b) + (c < 5)` -/
def exParen : IE := .bin .add (.pre .neg (.paren (.bin .mul vA vB))) (.paren (.bin .lt vC (.lit 5)))

example : ∃ c, compile id true exParen = some c ∧
    ∃ m', Runs demoEnv c.rall.reverse squares (.next m') ∧ Pushed squares (-400) m' := by
  refine C111_settled_partial (ρ := sqVars) (by simp [IE.ok, exParen, vA, vB, vC, IE.level, Expr.Bin.prec])
    (by simp [IE.few, IE.inner, IE.births, IE.plain, exParen, vA, vB, vC]) ?_ (by decide +kernel) demoEnv sq_start
  have key : ∀ (e : IE), (compileWith (itemCalm id true) e).all settled = true →
      ∀ c, compileWith (itemCalm id true) e = some c → settled c = true := by
    intro e h c hc
    rw [hc] at h
    exact h
  exact ⟨⟨key _ (by decide +kernel), trivial, trivial⟩, key _ (by decide +kernel), trivial, trivial⟩

/-- `(a + 1) * (b - c * 2) < ((g)) / 2` -/
def exText : IE := .bin .lt (.bin .mul (.paren (.bin .add vA (.lit 1))) (.paren (.bin .sub vB (.bin .mul vC (.lit 2)))))
  (.bin .div (.paren (.paren vG)) (.lit 2))

/-- The conditions of `C111_text_partial` are read off the text: `17 * (25 - 72) < 9 / 2` is true. -/
example : ∃ c, compile id true exText = some c ∧
    ∃ m', Runs demoEnv c.rall.reverse squares (.next m') ∧ Pushed squares 1 m' :=
  C111_text_partial (ρ := sqVars) (by simp [IE.ok, exText, vA, vB, vC, vG, IE.level, Expr.Bin.prec])
    (by simp [IE.few, IE.inner, IE.births, IE.plain, exText, vA, vB, vC, vG]) (by decide) (by decide +kernel) demoEnv
    sq_start

/-- `(a + b) * c`: unsettled code, but first. -/
def exFirst : IE := .bin .mul (.paren (.bin .add vA vB)) vC

example : ∃ c, compile id true exFirst = some c ∧
    ∃ m', Runs demoEnv c.rall.reverse squares (.next m') ∧ Pushed squares 1476 m' :=
  ⟨⟨[43, 2, 31, 0, 1, 220], [.BinaryMultiplication, .LoadFromLocal]⟩,
    C111_calm_partial (ρ := sqVars) (by simp [IE.ok, exFirst, vA, vB, vC, IE.level, Expr.Bin.prec])
      (IE.few_clear (by simp [IE.few, IE.inner, IE.births, IE.plain, exFirst, vA, vB, vC])) (by decide +kernel)
      (by decide +kernel) demoEnv sq_start⟩

/-- `c * (a + b)`: the cache is stale, the bytes are those of the reference. -/
def exSame : IE := .bin .mul vC (.paren (.bin .add vA vB))

example : compileCalm id true exSame = none ∧
    ∃ m', Runs demoEnv [31, 2, 220, 1, 0, 43] squares (.next m') ∧ Pushed squares 1476 m' :=
  ⟨by decide +kernel, C111_same_bytes_partial (neg := id) (e := exSame)
      (c := ⟨[43, 0, 1, 220, 2, 31], [.BinaryMultiplication, .LoadFromLocal]⟩)
      (c' := ⟨[43, 0, 1, 220, 2, 31], [.BinaryMultiplication]⟩) (ρ := sqVars)
      (by simp [IE.ok, exSame, vA, vB, vC, IE.level, Expr.Bin.prec])
      (by simp [IE.few, IE.inner, IE.births, IE.plain, exSame, vA, vB, vC]) (by decide +kernel)
      (by decide +kernel) (by decide +kernel) rfl demoEnv sq_start⟩

/-- `-(a + b) * -5` -/
def exNeg : IE := .bin .mul (.pre .neg (.paren (.bin .add vA vB))) (.pre .neg (.lit 5))

theorem exNeg_ok : exNeg.ok ∧ exNeg.few := by
  constructor
  · simp [IE.ok, exNeg, vA, vB, IE.level, Expr.Bin.prec]
  · simp [IE.few, IE.inner, IE.births, IE.plain, exNeg, vA, vB]

/-- The reference gets it right. -/
example : ∃ c, compileRef id true exNeg = some c ∧
    ∃ m', Runs demoEnv c.rall.reverse squares (.next m') ∧ Pushed squares 205 m' :=
  C111_reference (ρ := sqVars) exNeg_ok.1 (IE.few_clear exNeg_ok.2) (by decide +kernel) demoEnv sq_start

theorem obs_runs {E : Env} {f k : Nat} {code : List Byte} {is : List Ins} {m : M} {x : Val} (h : Decodes code is)
    (hx : obs E f is m k = some x) : ∃ m', Runs E code m (.next m') ∧ k < m'.top ∧ m'.σ.cell (.cell k) = x := by
  unfold obs at hx
  split at hx
  · next m' he =>
    split at hx
    · next hk => exact ⟨m', ⟨is, h, exe_runs he⟩, hk, by simpa using hx⟩
    · simp at hx
  · simp at hx

/-- **C111 fails**: the negation of `(a + b)` in `-(a + b) * -5` is applied to an operand byte of the fused
addition, which the cache says is the literal 5; the value is -205 instead of 205. -/
theorem C111_fails_negation : exNeg.ok ∧ exNeg.few ∧ exNeg.eval sqVars = some 205 ∧ Start sqVars squares ∧
    ∃ c, compile id true exNeg = some c ∧
      ∃ m', Runs demoEnv c.rall.reverse squares (.next m') ∧ m'.σ.cell (.cell 8) = .int (-205) := by
  refine ⟨exNeg_ok.1, exNeg_ok.2, by decide +kernel, sq_start,
    ⟨[43, 0, 1, 220, 251, 175], [.BinaryMultiplication, .LiteralInt8]⟩, by decide +kernel, ?_⟩
  obtain ⟨m', h1, -, h2⟩ := obs_runs (E := demoEnv) (f := 3) (k := 8) (m := squares) (x := .int (-205))
    (code := [175, 251, 220, 1, 0, 43])
    (is := [(.lit .i8, [251]), (.bin .add (.two .L .L), [1, 0]), (.bin .mul .stack, [])])
    (.cons (op := .LiteralInt8) (d := [251]) rfl rfl rfl (.cons (op := .LLBinaryAddition) (d := [1, 0]) rfl rfl rfl
      (.cons (op := .BinaryMultiplication) (d := []) rfl rfl rfl .nil))) (by decide +kernel)
  exact ⟨m', h1, h2⟩

/-- `c == (a + b) & -5` -/
def exCmp : IE := .bin .and (.bin .eq vC (.paren (.bin .add vA vB))) (.pre .neg (.lit 5))

/-- **C111 fails**: the comparison in `c == (a + b) & -5` is written over an operand byte of the fused addition,
which then adds a local that does not exist. -/
theorem C111_fails_compare : exCmp.ok ∧ exCmp.few ∧ exCmp.eval sqVars = some 0 ∧ Start sqVars squares ∧
    ∃ c, compile id true exCmp = some c ∧ ∀ E o, ¬Runs E c.rall.reverse squares o := by
  refine ⟨by simp [IE.ok, exCmp, vA, vB, vC, IE.level, Expr.Bin.prec],
    by simp [IE.few, IE.inner, IE.births, IE.plain, exCmp, vA, vB, vC], by decide +kernel, sq_start,
    ⟨[51, 0, 79, 220, 2, 31, 251, 175], [.BinaryAnd, .LSCompareEQ, .LiteralInt8]⟩, by decide +kernel, ?_⟩
  rintro E o ⟨is, hd, hr⟩
  have hd' : Decodes [175, 251, 31, 2, 220, 79, 0, 51]
      [(.lit .i8, [251]), (.load .L, [2]), (.bin .add (.two .L .L), [79, 0]), (.bin .and .stack, [])] :=
    .cons (op := .LiteralInt8) (d := [251]) rfl rfl rfl (.cons (op := .LoadFromLocal) (d := [2]) rfl rfl rfl
      (.cons (op := .LLBinaryAddition) (d := [79, 0]) rfl rfl rfl
        (.cons (op := .BinaryAnd) (d := []) rfl rfl rfl .nil)))
  obtain rfl := hd.unique hd'
  obtain ⟨f, x, h1, h2⟩ := hr
  cases h1
  obtain ⟨f, x, h3, h4⟩ := h2
  cases h3
  obtain ⟨f, x, h5, -⟩ := h4
  cases h5

end Wrench.Whole
