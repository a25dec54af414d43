import Verif.Whole.Model

/-
What an integer expression means, and which expressions are written without a missing pair of
parentheses.
-/
namespace Wrench.Whole
open Wrench.Vm Wrench.Peep

/-- The integers in the variables; `none`: no such variable. -/
abbrev Vars := Sp → Byte → Option Word32

def truth (b : Bool) : Word32 := if b then 1 else 0

/-- The operators on 32-bit integers; `none`: undefined in C++. -/
def binSpec (b : Expr.Bin) (x y : Word32) : Option Word32 :=
  match b with
  | .eq => some (truth (x.toInt = y.toInt))
  | .ne => some (truth (x.toInt ≠ y.toInt))
  | .ge => some (truth (y.toInt ≤ x.toInt))
  | .le => some (truth (x.toInt ≤ y.toInt))
  | .gt => some (truth (y.toInt < x.toInt))
  | .lt => some (truth (x.toInt < y.toInt))
  | .land => some (truth (x.toInt ≠ 0 ∧ y.toInt ≠ 0))
  | .lor => some (truth (x.toInt ≠ 0 ∨ y.toInt ≠ 0))
  | .add => some (BitVec.ofInt 32 (x.toInt + y.toInt))
  | .sub => some (BitVec.ofInt 32 (x.toInt - y.toInt))
  | .mul => some (BitVec.ofInt 32 (x.toInt * y.toInt))
  | .div => if y.toInt = 0 then some 0
    else if x.toInt = -2147483648 ∧ y.toInt = -1 then none
    else some (BitVec.ofInt 32 (x.toInt.tdiv y.toInt))
  | .mod => if y.toInt = 0 then none
    else if x.toInt = -2147483648 ∧ y.toInt = -1 then none
    else some (BitVec.ofInt 32 (x.toInt.tmod y.toInt))
  | .or => some (x ||| y)
  | .and => some (x &&& y)
  | .xor => some (x ^^^ y)
  | .shl => if y.toNat < 32 then some (BitVec.ofNat 32 (x.toNat * 2 ^ y.toNat)) else none
  | .shr => if y.toNat < 32 then some (BitVec.ofInt 32 (x.toInt / 2 ^ y.toNat)) else none

def unSpec (u : Un) (x : Word32) : Word32 :=
  match u with
  | .neg => BitVec.ofInt 32 (-x.toInt)
  | .lnot => truth (x.toInt = 0)
  | .bnot => BitVec.ofInt 32 (-x.toInt - 1)

/-- The value of an expression. -/
def IE.eval (ρ : Vars) : IE → Option Word32
  | .var v i => ρ v i
  | .lit w => some w
  | .paren e => e.eval ρ
  | .pre u e => (e.eval ρ).map (unSpec u)
  | .bin b l r => (l.eval ρ).bind fun x => (r.eval ρ).bind fun y => binSpec b x y

/-- How tightly the root binds, smaller is tighter. -/
def IE.level : IE → Nat
  | .pre _ _ => 3
  | .bin b _ _ => b.prec
  | _ => 0

/-- The text of the expression reads back as the expression: the operand of a prefix operator is
plain or parenthesised, left operands bind at least as tightly, right operands more tightly.  Literals
are below 2^31. -/
def IE.ok : IE → Prop
  | .var _ _ => True
  | .lit w => w.toNat < 2147483648
  | .paren e => e.ok
  | .pre _ e => e.ok ∧ e.level ≤ 2
  | .bin b l r => l.ok ∧ r.ok ∧ l.level ≤ b.prec ∧ r.level < b.prec

/-- A variable, a literal or a parenthesised expression. -/
def IE.plain : IE → Bool
  | .pre _ _ | .bin _ _ _ => false
  | _ => true

/-- Operators all of whose operands are plain, outside parentheses. -/
def IE.births : IE → Nat
  | .pre _ e => if e.plain then 1 else e.births
  | .bin _ l r => if l.plain && r.plain then 1 else l.births + r.births
  | _ => 0

/-- At most two such operators outside parentheses and inside every pair of them. -/
def IE.inner : IE → Prop
  | .paren e => e.births ≤ 2 ∧ e.inner
  | .pre _ e => e.inner
  | .bin _ l r => l.inner ∧ r.inner
  | _ => True

def IE.few (e : IE) : Prop := e.births ≤ 2 ∧ e.inner

end Wrench.Whole
