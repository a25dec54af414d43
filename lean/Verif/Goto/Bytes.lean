import Verif.Peep.Model
import Verif.Vm.JumpProps

/-
A label in the bytes of a unit.
-/
namespace Wrench.Goto

open Wrench Wrench.Vm Wrench.Peep

/-- The statement `name:` at the end of the code `b`: in a fresh stream the target is recorded at the
size plus one and `O_LiteralZero` is pushed (cc/expression.cpp 535-540); `appendBytecode` adds the size
of `b` to the offset (cc/optimizer.cpp 1330-1338) and appends; the statement ends with `O_PopOne`
(cc/cc.cpp 3253-3254).  Yields the code and the recorded offset. -/
def labelStmt (neg : Word32 → Word32) (b : Code) : Option (Code × Nat) := do
  let fresh : Code := ⟨[], []⟩
  let offset := fresh.rall.length + 1
  let e ← pushOpcode neg fresh .LiteralZero
  let offset := offset + b.rall.length
  let c ← appendCode neg b e
  let c ← pushOpcode neg c .PopOne
  return (c, offset)

/-- A label leaves no code, whatever precedes it, and no instruction behind it is merged with one
before it. -/
theorem C98_label_no_code (neg : Word32 → Word32) (b : Code) :
    labelStmt neg b = some (⟨b.rall, []⟩, b.rall.length + 1) := by
  have happ : appendCode neg b ⟨[Op.LiteralZero.code], [.LiteralZero]⟩ = some (b.push .LiteralZero) := by
    simp [appendCode, pushOpcode, isCmp, llCmp, fastLoad, skipLoad, isArith]
    cases b.rops <;> simp
  have hp : pushOpcode neg (b.push .LiteralZero) .PopOne = some ⟨b.rall, []⟩ := by
    simp [pushOpcode, Code.push, isCmp, llCmp, fastLoad, skipLoad, isArith, pushPop]
  simp only [labelStmt]
  rw [show pushOpcode neg (⟨[], []⟩ : Code) .LiteralZero = some ⟨[Op.LiteralZero.code], [.LiteralZero]⟩ from rfl]
  simp only [Option.bind_eq_bind, Option.bind_some, happ, hp, List.length_nil]
  congr 2
  omega

/-- A `goto` whose three bytes stand at `src` continues, once linked, at the first byte of the code
that follows the label, however the rest of the unit looks. -/
theorem C98_goto_bytes (neg : Word32 → Word32) (b c : Code) (offset : Nat) (all : List Byte) (src : Nat)
    (hl : labelStmt neg b = some (c, offset)) (hs : src + 3 ≤ all.length)
    (h1 : -32768 ≤ (offset : Int) - src - 2) (h2 : (offset : Int) - src - 2 ≤ 32767) :
    ∃ all', Jump.patchGoto all offset src = .ok all' ∧ all'.length = all.length ∧
      Jump.branch all' src true = some (c.rall.length : Int) ∧
      (∀ i : Nat, i < src ∨ src + 3 ≤ i → all'[i]? = all[i]?) := by
  rw [C98_label_no_code, Option.some.injEq, Prod.mk.injEq] at hl
  obtain ⟨rfl, rfl⟩ := hl
  obtain ⟨all', e1, e2, e3, e4⟩ := Jump.C24_goto_lands all (b.rall.length + 1) src hs h1 h2
  exact ⟨all', e1, e2, by rw [e3]; congr 1; show _ = (b.rall.length : Int); omega, e4⟩

end Wrench.Goto
