import Verif.Peep.Vm
import Verif.Expr.Spec
import Verif.Cc.Literal

/-
From the text of an integer expression to its bytes: `parseExpression` / `resolveExpression`
(discrete_src/cc/expression.cpp, cc.cpp; model `Expr`), the literals (`pushLiteral`; model `Cc`) and
the optimizing emitter (`pushOpcode`, `appendBytecode`; model `Peep`) put together.

Simplifications: the operands are local and global variables, integer literals from 0 to 2^31-1 and
parenthesised expressions; which slot a variable has is given; the operators are those of `Expr`
without casts and postfix operators.
-/
namespace Wrench.Whole
open Wrench.Vm Wrench.Peep

/-- Prefix operators on integers. -/
inductive Un where
  | neg | lnot | bnot
deriving DecidableEq, Repr

/-- Source of an integer expression; `paren` is a written pair of parentheses. -/
inductive IE where
  | var (v : Sp) (i : Byte)
  | lit (w : Word32)
  | paren (e : IE)
  | pre (u : Un) (e : IE)
  | bin (b : Expr.Bin) (l r : IE)
deriving DecidableEq, Repr

/-- An operand while expressions are compiled: a variable, a literal, or the bytecode of a
parenthesised expression (`EXTYPE_BYTECODE_RESULT`, cc.h 132-143).  The expression `e` and the
operand `res` are used only to state what the code computes. -/
inductive Opnd where
  | var (v : Sp) (i : Byte)
  | lit (w : Word32)
  | paren (c : Code) (e : IE)
  | res (w : Option Word32)
deriving DecidableEq, Repr

/-- The opcode column of `c_operations`, cc.h 64-130. -/
def binOp : Expr.Bin → Op
  | .eq => .CompareEQ | .ne => .CompareNE | .ge => .CompareGE | .le => .CompareLE
  | .gt => .CompareGT | .lt => .CompareLT | .land => .LogicalAnd | .lor => .LogicalOr
  | .add => .BinaryAddition | .sub => .BinarySubtraction | .mul => .BinaryMultiplication
  | .div => .BinaryDivision | .mod => .BinaryMod | .or => .BinaryOr | .and => .BinaryAnd
  | .xor => .BinaryXOR | .shr => .BinaryRightShift | .shl => .BinaryLeftShift

def opOf : Expr.Oper → Option Op
  | .bin b => some (binOp b)
  | .pre .neg => some .Negate
  | .pre .lnot => some .LogicalNot
  | .pre .bnot => some .BitwiseNOT
  | _ => none

/-- A sum, difference or quotient emitted when the cache holds a single load: `opcodes[o-1]` is read
with `o = 0` (optimizer.cpp 517-651), that is, the byte before the cache. -/
def short (b : Code) (op : Op) : Bool :=
  (op = .BinaryAddition ∨ op = .BinarySubtraction ∨ op = .BinaryDivision) ∧ 3 < b.rall.length ∧
    (b.rops = [.LoadFromLocal] ∨ b.rops = [.LoadFromGlobal])

/-- `pushOpcode` then `pushData`.  `tame`: the byte before the cache is taken to be something other
than the opcode of a load, so that nothing is fused; otherwise that read has no outcome. -/
def emitS (neg : Word32 → Word32) (tame : Bool) (b : Code) (op : Op) (d : List Byte) : Option Code :=
  if tame ∧ short b op then some ⟨d.reverse ++ (b.push op).rall, op :: b.rops⟩
  else emit neg b op d

/-- `addLocalSpaceLoad`, `addGlobalSpaceLoad`, cc.cpp 834-965. -/
def loadOp : Sp → Op
  | .L => .LoadFromLocal
  | .G => .LoadFromGlobal

/-- The instruction of each step except the loading of parenthesised code. -/
def plainIns : Expr.Instr Opnd → Option (Op × List Byte)
  | .load (.var v i) => some (loadOp v, [i])
  | .load (.lit w) => some (Cc.pushInt w)
  | .load _ => none
  | .stackSwap n => some (.StackSwap, [BitVec.ofNat 8 n])
  | .swapTwoToTop a b => some (.SwapTwoToTop, [BitVec.ofNat 8 a, BitVec.ofNat 8 b])
  | .app o => (opOf o).map (·, [])

/-- What one step of `resolveExpression` does to `expression.bytecode`: `loadExpressionContext`, cc.cpp
968-1047; `swapWithTop` 1050-1082; the operators 1143-1390. -/
def item (neg : Word32 → Word32) (tame : Bool) (b : Code) (i : Expr.Instr Opnd) : Option Code :=
  match i with
  | .load (.paren c _) => appendCode neg b c
  | i => (plainIns i).bind fun p => emitS neg tame b p.1 p.2

def emitAll (f : Code → Expr.Instr Opnd → Option Code) : Code → List (Expr.Instr Opnd) → Option Code
  | b, [] => some b
  | b, i :: is => (f b i).bind fun b => emitAll f b is

/-- The bytecode of one expression, `parseExpression` (expression.cpp 60-160) with `f` for the steps. -/
def finish (f : Code → Expr.Instr Opnd → Option Code) (T : Expr.Tree Opnd) : Option Code :=
  (Expr.compile T.tokens).bind (emitAll f ⟨[], []⟩)

/-- `-`, `!`, `~`. -/
def Un.op : Un → Expr.Pre
  | .neg => .neg
  | .lnot => .lnot
  | .bnot => .bnot

/-- The expression with its parenthesised parts compiled. -/
def prep (f : Code → Expr.Instr Opnd → Option Code) : IE → Option (Expr.Tree Opnd)
  | .var v i => some (.leaf (.var v i))
  | .lit w => some (.leaf (.lit w))
  | .paren e => ((prep f e).bind (finish f)).map fun c => .leaf (.paren c e)
  | .pre u e => (prep f e).map (.pre u.op)
  | .bin b l r => (prep f l).bind fun l => (prep f r).map (.bin b l)

/-- The bytecode of an expression. -/
def compileWith (f : Code → Expr.Instr Opnd → Option Code) (e : IE) : Option Code :=
  (prep f e).bind (finish f)

/-- The compiler: bytes and cache, last first. -/
def compile (neg : Word32 → Word32) (tame : Bool) : IE → Option Code := compileWith (item neg tame)

/-! ### An emitter that knows what its cache describes -/

/-- Loads and literals, the entries of the cache that make the emitter rewrite operand bytes. -/
def isLL : Op → Bool
  | .LoadFromLocal | .LoadFromGlobal | .LiteralZero | .LiteralInt8 | .LiteralInt16 | .LiteralInt32 => true
  | _ => false

/-- Number of operand bytes of those. -/
def llLen : Op → Nat
  | .LiteralZero => 0
  | .LiteralInt16 => 2
  | .LiteralInt32 => 4
  | _ => 1

/-- The entries the appended code leaves in the cache end above code they do not describe: either one
of them is neither load nor literal, or they are all of the code. -/
def settled (c : Code) : Bool :=
  c.rops.any (fun op => !isLL op) || match c.rops with
    | [op] => decide (c.rall.length = llLen op + 1)
    | _ => false

/-- `item` with an `appendBytecode` that forgets the cache when the appended code hides it. -/
def itemRef (neg : Word32 → Word32) (tame : Bool) (b : Code) (i : Expr.Instr Opnd) : Option Code :=
  match i with
  | .load (.paren c _) => some ⟨c.rall ++ b.rall, if settled c then c.rops ++ b.rops else c.rops⟩
  | i => (plainIns i).bind fun p => emitS neg tame b p.1 p.2

/-- `item` where the entries kept in the cache still describe the end of the code; no outcome elsewhere. -/
def itemCalm (neg : Word32 → Word32) (tame : Bool) (b : Code) (i : Expr.Instr Opnd) : Option Code :=
  match i with
  | .load (.paren c _) => if settled c || b.rops.isEmpty then appendCode neg b c else none
  | i => (plainIns i).bind fun p => emitS neg tame b p.1 p.2

/-- The compiler on the expressions for which this is so throughout. -/
def compileCalm (neg : Word32 → Word32) (tame : Bool) : IE → Option Code := compileWith (itemCalm neg tame)

/-- The reference compiler. -/
def compileRef (neg : Word32 → Word32) (tame : Bool) : IE → Option Code := compileWith (itemRef neg tame)

end Wrench.Whole
