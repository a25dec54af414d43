import Verif.Peep.Model
import Verif.Ops.Index

/-
What the interpreter does for the instructions the emitter rewrites: discrete_src/vm/vm.cpp
(the non-compact build), over the memory of `Ops`.

An instruction is classified (`act`) by what it does and where its operands come from, and
`exec` gives the meaning of each class.

Simplifications: the stack and the global space are cells of one memory (`fb`, `gb` are the
indices of `frameBase` and `globalSpace`, `top` of `stackTop`); a variable index outside the
frame or the global space, and popping below the locals, are outcome `ub` (the code does not
check); stack overflow checks, garbage collection (`CONTINUE`), time slices and
`WRENCH_TRAP_DIVISION_BY_ZERO` are left out.
-/
namespace Wrench.Peep
open Wrench.Vm Wrench.Ops

/-- Interpreter state: memory, `stackTop`, `frameBase`, `globalSpace`, number of locals and of
globals, `register0`, `register1`. -/
structure M where
  σ : St
  top : Nat
  fb : Nat
  gb : Nat
  nl : Nat
  ng : Nat
  r0 : Addr
  r1 : Addr

/-- Which variables. -/
inductive Sp where
  | L | G
deriving DecidableEq, Repr

/-- Operands: both on the stack, one variable (and the stack), two variables, or the registers
loaded by an `…Values` instruction. -/
inductive Src where
  | stack
  | one (v : Sp)
  | two (v w : Sp)
  | regs
deriving DecidableEq, Repr

/-- Literals. -/
inductive Lit where
  | zero | i8 | i16 | i32 | f32
deriving DecidableEq, Repr

/-- Instruction classes. -/
inductive Act where
  | load (v : Sp)
  | lit (k : Lit)
  | litTo (k : Lit) (v : Sp)
  | pop
  | values (v w : Sp)
  | bin (op : BinOp) (s : Src)
  | binStore (op : BinOp) (v : Sp)
  /-- comparison, `inv` when the result is negated, `bz` when it is branched on -/
  | cmp (op : CmpOp) (inv : Bool) (s : Src) (bz : Bool)
  /-- branch on the top of the stack or on a variable -/
  | bz (s : Src)
  | assign (s : Src) (pop : Bool)
  | compound (op : BinOp) (pop : Bool)
  | pre (d : Word32) (pop : Bool)
  | post (d : Word32)
  | bumpVar (d : Word32) (v : Sp)
  | neg
  | index (s : Src)
  | indexLit (k : Lit) (s : Src)
  | ret (zero : Bool)
  /-- `StackSwap`, `SwapTwoToTop` -/
  | swap
  | swap2
  | lnot
  | bnot
deriving DecidableEq, Repr

/-- The class of each instruction: vm.cpp 749-769 (literals), 1241-1252, 1315-1325, 1385-1455,
1471-1610, 1631-1712, 2486-3250. -/
def act : Op → Option Act
  | .LoadFromLocal => some (.load .L)
  | .LoadFromGlobal => some (.load .G)
  | .LiteralZero => some (.lit .zero)
  | .LiteralInt8 => some (.lit .i8)
  | .LiteralInt16 => some (.lit .i16)
  | .LiteralInt32 => some (.lit .i32)
  | .LiteralFloat => some (.lit .f32)
  | .LiteralInt8ToGlobal => some (.litTo .i8 .G)
  | .LiteralInt16ToGlobal => some (.litTo .i16 .G)
  | .LiteralInt32ToGlobal => some (.litTo .i32 .G)
  | .LiteralFloatToGlobal => some (.litTo .f32 .G)
  | .LiteralInt8ToLocal => some (.litTo .i8 .L)
  | .LiteralInt16ToLocal => some (.litTo .i16 .L)
  | .LiteralInt32ToLocal => some (.litTo .i32 .L)
  | .LiteralFloatToLocal => some (.litTo .f32 .L)
  | .PopOne => some .pop
  | .LLValues => some (.values .L .L)
  | .LGValues => some (.values .L .G)
  | .GLValues => some (.values .G .L)
  | .GGValues => some (.values .G .G)
  | .BinaryMultiplication => some (.bin .mul .stack)
  | .BinarySubtraction => some (.bin .sub .stack)
  | .BinaryDivision => some (.bin .div .stack)
  | .BinaryRightShift => some (.bin .shr .stack)
  | .BinaryLeftShift => some (.bin .shl .stack)
  | .BinaryMod => some (.bin .mod .stack)
  | .BinaryOr => some (.bin .or .stack)
  | .BinaryXOR => some (.bin .xor .stack)
  | .BinaryAnd => some (.bin .and .stack)
  | .BinaryAddition => some (.bin .add .stack)
  | .BinaryRightShiftSkipLoad => some (.bin .shr .regs)
  | .BinaryLeftShiftSkipLoad => some (.bin .shl .regs)
  | .BinaryAndSkipLoad => some (.bin .and .regs)
  | .BinaryOrSkipLoad => some (.bin .or .regs)
  | .BinaryXORSkipLoad => some (.bin .xor .regs)
  | .BinaryModSkipLoad => some (.bin .mod .regs)
  -- the operand bytes are `register1` then `register0`; `GL`: the local comes first
  | .GGBinaryMultiplication => some (.bin .mul (.two .G .G))
  | .GLBinaryMultiplication => some (.bin .mul (.two .L .G))
  | .LLBinaryMultiplication => some (.bin .mul (.two .L .L))
  | .GGBinaryAddition => some (.bin .add (.two .G .G))
  | .GLBinaryAddition => some (.bin .add (.two .L .G))
  | .LLBinaryAddition => some (.bin .add (.two .L .L))
  | .GGBinarySubtraction => some (.bin .sub (.two .G .G))
  | .GLBinarySubtraction => some (.bin .sub (.two .L .G))
  | .LGBinarySubtraction => some (.bin .sub (.two .G .L))
  | .LLBinarySubtraction => some (.bin .sub (.two .L .L))
  | .GGBinaryDivision => some (.bin .div (.two .G .G))
  | .GLBinaryDivision => some (.bin .div (.two .L .G))
  | .LGBinaryDivision => some (.bin .div (.two .G .L))
  | .LLBinaryDivision => some (.bin .div (.two .L .L))
  | .BinaryAdditionAndStoreGlobal => some (.binStore .add .G)
  | .BinarySubtractionAndStoreGlobal => some (.binStore .sub .G)
  | .BinaryMultiplicationAndStoreGlobal => some (.binStore .mul .G)
  | .BinaryDivisionAndStoreGlobal => some (.binStore .div .G)
  | .BinaryAdditionAndStoreLocal => some (.binStore .add .L)
  | .BinarySubtractionAndStoreLocal => some (.binStore .sub .L)
  | .BinaryMultiplicationAndStoreLocal => some (.binStore .mul .L)
  | .BinaryDivisionAndStoreLocal => some (.binStore .div .L)
  | .LogicalAnd => some (.cmp .land false .stack false)
  | .LogicalOr => some (.cmp .lor false .stack false)
  | .CompareLE => some (.cmp .gt true .stack false)
  | .CompareGE => some (.cmp .lt true .stack false)
  | .CompareGT => some (.cmp .gt false .stack false)
  | .CompareLT => some (.cmp .lt false .stack false)
  | .CompareEQ => some (.cmp .eq false .stack false)
  | .CompareNE => some (.cmp .eq true .stack false)
  | .GSCompareLE => some (.cmp .gt true (.one .G) false)
  | .GSCompareGE => some (.cmp .lt true (.one .G) false)
  | .GSCompareGT => some (.cmp .gt false (.one .G) false)
  | .GSCompareLT => some (.cmp .lt false (.one .G) false)
  | .GSCompareEQ => some (.cmp .eq false (.one .G) false)
  | .GSCompareNE => some (.cmp .eq true (.one .G) false)
  | .LSCompareLE => some (.cmp .gt true (.one .L) false)
  | .LSCompareGE => some (.cmp .lt true (.one .L) false)
  | .LSCompareGT => some (.cmp .gt false (.one .L) false)
  | .LSCompareLT => some (.cmp .lt false (.one .L) false)
  | .LSCompareEQ => some (.cmp .eq false (.one .L) false)
  | .LSCompareNE => some (.cmp .eq true (.one .L) false)
  | .GGCompareLE => some (.cmp .gt true (.two .G .G) false)
  | .GGCompareGE => some (.cmp .lt true (.two .G .G) false)
  | .GGCompareGT => some (.cmp .gt false (.two .G .G) false)
  | .GGCompareLT => some (.cmp .lt false (.two .G .G) false)
  | .GGCompareEQ => some (.cmp .eq false (.two .G .G) false)
  | .GGCompareNE => some (.cmp .eq true (.two .G .G) false)
  | .LLCompareLE => some (.cmp .gt true (.two .L .L) false)
  | .LLCompareGE => some (.cmp .lt true (.two .L .L) false)
  | .LLCompareGT => some (.cmp .gt false (.two .L .L) false)
  | .LLCompareLT => some (.cmp .lt false (.two .L .L) false)
  | .LLCompareEQ => some (.cmp .eq false (.two .L .L) false)
  | .LLCompareNE => some (.cmp .eq true (.two .L .L) false)
  | .BLA => some (.cmp .land false .stack true)
  | .BLO => some (.cmp .lor false .stack true)
  | .CompareBLE => some (.cmp .gt true .stack true)
  | .CompareBGE => some (.cmp .lt true .stack true)
  | .CompareBGT => some (.cmp .gt false .stack true)
  | .CompareBLT => some (.cmp .lt false .stack true)
  | .CompareBEQ => some (.cmp .eq false .stack true)
  | .CompareBNE => some (.cmp .eq true .stack true)
  | .GSCompareLEBZ => some (.cmp .gt true (.one .G) true)
  | .GSCompareGEBZ => some (.cmp .lt true (.one .G) true)
  | .GSCompareGTBZ => some (.cmp .gt false (.one .G) true)
  | .GSCompareLTBZ => some (.cmp .lt false (.one .G) true)
  | .GSCompareEQBZ => some (.cmp .eq false (.one .G) true)
  | .GSCompareNEBZ => some (.cmp .eq true (.one .G) true)
  | .LSCompareLEBZ => some (.cmp .gt true (.one .L) true)
  | .LSCompareGEBZ => some (.cmp .lt true (.one .L) true)
  | .LSCompareGTBZ => some (.cmp .gt false (.one .L) true)
  | .LSCompareLTBZ => some (.cmp .lt false (.one .L) true)
  | .LSCompareEQBZ => some (.cmp .eq false (.one .L) true)
  | .LSCompareNEBZ => some (.cmp .eq true (.one .L) true)
  | .GGCompareLEBZ => some (.cmp .gt true (.two .G .G) true)
  | .GGCompareGEBZ => some (.cmp .lt true (.two .G .G) true)
  | .GGCompareGTBZ => some (.cmp .gt false (.two .G .G) true)
  | .GGCompareLTBZ => some (.cmp .lt false (.two .G .G) true)
  | .GGCompareEQBZ => some (.cmp .eq false (.two .G .G) true)
  | .GGCompareNEBZ => some (.cmp .eq true (.two .G .G) true)
  | .LLCompareLEBZ => some (.cmp .gt true (.two .L .L) true)
  | .LLCompareGEBZ => some (.cmp .lt true (.two .L .L) true)
  | .LLCompareGTBZ => some (.cmp .gt false (.two .L .L) true)
  | .LLCompareLTBZ => some (.cmp .lt false (.two .L .L) true)
  | .LLCompareEQBZ => some (.cmp .eq false (.two .L .L) true)
  | .LLCompareNEBZ => some (.cmp .eq true (.two .L .L) true)
  | .BZ => some (.bz .stack)
  | .LocalBZ => some (.bz (.one .L))
  | .GlobalBZ => some (.bz (.one .G))
  | .Assign => some (.assign .stack false)
  | .AssignAndPop => some (.assign .stack true)
  | .AssignToGlobalAndPop => some (.assign (.one .G) true)
  | .AssignToLocalAndPop => some (.assign (.one .L) true)
  | .SubtractAssign => some (.compound .sub false)
  | .AddAssign => some (.compound .add false)
  | .ModAssign => some (.compound .mod false)
  | .MultiplyAssign => some (.compound .mul false)
  | .DivideAssign => some (.compound .div false)
  | .ORAssign => some (.compound .or false)
  | .ANDAssign => some (.compound .and false)
  | .XORAssign => some (.compound .xor false)
  | .RightShiftAssign => some (.compound .shr false)
  | .LeftShiftAssign => some (.compound .shl false)
  | .SubtractAssignAndPop => some (.compound .sub true)
  | .AddAssignAndPop => some (.compound .add true)
  | .ModAssignAndPop => some (.compound .mod true)
  | .MultiplyAssignAndPop => some (.compound .mul true)
  | .DivideAssignAndPop => some (.compound .div true)
  | .ORAssignAndPop => some (.compound .or true)
  | .ANDAssignAndPop => some (.compound .and true)
  | .XORAssignAndPop => some (.compound .xor true)
  | .RightShiftAssignAndPop => some (.compound .shr true)
  | .LeftShiftAssignAndPop => some (.compound .shl true)
  | .PreIncrement => some (.pre 1 false)
  | .PreDecrement => some (.pre (-1) false)
  | .PreIncrementAndPop => some (.pre 1 true)
  | .PreDecrementAndPop => some (.pre (-1) true)
  | .PostIncrement => some (.post 1)
  | .PostDecrement => some (.post (-1))
  | .IncGlobal => some (.bumpVar 1 .G)
  | .DecGlobal => some (.bumpVar (-1) .G)
  | .IncLocal => some (.bumpVar 1 .L)
  | .DecLocal => some (.bumpVar (-1) .L)
  | .Negate => some .neg
  | .Index => some (.index .stack)
  | .IndexSkipLoad => some (.index .regs)
  | .IndexLiteral8 => some (.indexLit .i8 .stack)
  | .IndexLiteral16 => some (.indexLit .i16 .stack)
  | .IndexLocalLiteral8 => some (.indexLit .i8 (.one .L))
  | .IndexGlobalLiteral8 => some (.indexLit .i8 (.one .G))
  | .IndexLocalLiteral16 => some (.indexLit .i16 (.one .L))
  | .IndexGlobalLiteral16 => some (.indexLit .i16 (.one .G))
  | .Return => some (.ret false)
  | .ReturnZero => some (.ret true)
  | .StackSwap => some .swap
  | .SwapTwoToTop => some .swap2
  | .LogicalNot => some .lnot
  | .BitwiseNOT => some .bnot
  | _ => none

/-- How execution of an instruction ends: go on with the next one, take the branch, or return
from the function. -/
inductive Out where
  | next (m : M)
  | jump (m : M)
  | ret (m : M)

/-- A variable's cell: `frameBase + i`, `globalSpace + i`. -/
def M.var (m : M) (v : Sp) (i : Byte) : Res Addr :=
  match v with
  | .L => if i.toNat < m.nl then .ok (.cell (m.fb + i.toNat)) else .ub
  | .G => if i.toNat < m.ng then .ok (.cell (m.gb + i.toNat)) else .ub

/-- `--stackTop`. -/
def M.pop (m : M) : Res (M × Addr) :=
  if m.fb + m.nl < m.top then .ok ({ m with top := m.top - 1 }, .cell (m.top - 1)) else .ub

/-- `stackTop - 1`. -/
def M.peek (m : M) : Res Addr := if m.fb + m.nl < m.top then .ok (.cell (m.top - 1)) else .ub

/-- `*stackTop = v; ++stackTop`. -/
def M.push (m : M) (v : Val) : M := { m with σ := m.σ.set (.cell m.top) v, top := m.top + 1 }

/-- The value of a literal with operand bytes `d`: vm.cpp 749-769, 1631-1646. -/
def litVal : Lit → List Byte → Option Val
  | .zero, [] => some (.int 0)
  | .i8, [b] => some (.int (b.signExtend 32))
  | .i16, [b0, b1] => some (.int ((b0.setWidth 16 ||| (b1.setWidth 16) <<< 8).signExtend 32))
  | .i32, [b0, b1, b2, b3] => some (.int (b0.setWidth 32 ||| (b1.setWidth 32) <<< 8
      ||| (b2.setWidth 32) <<< 16 ||| (b3.setWidth 32) <<< 24))
  | .f32, [b0, b1, b2, b3] => some (.float (b0.setWidth 32 ||| (b1.setWidth 32) <<< 8
      ||| (b2.setWidth 32) <<< 16 ||| (b3.setWidth 32) <<< 24))
  | _, _ => none

/-- The index of `IndexLiteral8/16` and their variable forms: the 8-bit one is not sign
extended (vm.cpp 1517, 1554, 1577). -/
def idxVal : Lit → List Byte → Option Word32
  | .i8, [b] => some (b.setWidth 32)
  | .i16, [b0, b1] => some ((b0.setWidth 16 ||| (b1.setWidth 16) <<< 8).signExtend 32)
  | _, _ => none

/-- Exchange the values `stackTop - i` and `stackTop - j`, vm.cpp 1385-1426. -/
def M.swapTop (m : M) (i j : Nat) : Res M :=
  if 1 ≤ i ∧ 1 ≤ j ∧ m.fb + m.nl + i ≤ m.top ∧ m.fb + m.nl + j ≤ m.top then
    let x := m.σ.cell (.cell (m.top - i))
    let y := m.σ.cell (.cell (m.top - j))
    .ok { m with σ := (m.σ.set (.cell (m.top - i)) y).set (.cell (m.top - j)) x }
  else .ub

/-- `(int)returnFunc(…)` with `p2 = INIT_AS_INT`. -/
def boolVal (b : Bool) : Val := .int (if b then 1 else 0)

/-- The result of a comparison: pushed, or branched on. -/
def finish (bz : Bool) (m : M) (r : Bool) : Out :=
  if bz then if r then .next m else .jump m else .next (m.push (boolVal r))

/-- One instruction of class `a` with operand bytes `d` (jump offsets last, ignored here).
`f` is the fuel given to the value operators. -/
def exec (E : Env) (f : Nat) (a : Act) (d : List Byte) (m : M) : Res Out :=
  match a with
  | .load v => match d with
    | [i] => do
      let x ← m.var v i
      return .next (m.push (.ref x))
    | _ => .ub
  | .lit k => match litVal k d with
    | some v => .ok (.next (m.push v))
    | none => .ub
  | .litTo k v => match d with
    | i :: d => do
      let x ← m.var v i
      match litVal k d with
      | some w => return .next { m with σ := m.σ.set x w }
      | none => .ub
    | _ => .ub
  | .pop => do
    let (m, _) ← m.pop
    return .next m
  | .values v w => match d with
    | [i, j] => do
      let x ← m.var v i
      let y ← m.var w j
      return .next { m with r0 := x, r1 := y }
    | _ => .ub
  -- `targetFunc( register1, register0, register0 )`, 3132-3146
  | .bin op .stack => do
    let (m, r1) ← m.pop
    let r0 ← m.peek
    let σ ← binary E op f m.σ r1 r0 r0
    return .next { m with σ := σ }
  -- `func( register0, register1, stackTop++ )`, 2583-2731
  | .bin op (.two v w) => match d with
    | [i, j] => do
      let r1 ← m.var v i
      let r0 ← m.var w j
      let σ ← binary E op f m.σ r0 r1 (.cell m.top)
      return .next { m with σ := σ, top := m.top + 1 }
    | _ => .ub
  -- `targetFunc( register1, register0, stackTop++ )`, 3108-3117
  | .bin op .regs => do
    let σ ← binary E op f m.σ m.r1 m.r0 (.cell m.top)
    return .next { m with σ := σ, top := m.top + 1 }
  -- `targetFunc( register1, register0, variable )`, 3206-3250
  | .binStore op v => match d with
    | [i] => do
      let (m, r1) ← m.pop
      let (m, r0) ← m.pop
      let x ← m.var v i
      let σ ← binary E op f m.σ r1 r0 x
      return .next { m with σ := σ }
    | _ => .ub
  -- `register0` is the top, `register1` below: 2734-2767, 2783-2836, 2508-2546
  | .cmp op inv .stack bz => do
    let (m, r0) ← m.pop
    let (m, r1) ← m.pop
    let (σ, r) ← compare E op f m.σ r0 r1
    return finish bz { m with σ := σ } (r != inv)
  -- `register0` is the variable, `register1` the top: 2769-2781, 2912-2999
  | .cmp op inv (.one v) bz => match d with
    | i :: _ => do
      let r0 ← m.var v i
      let (m, r1) ← m.pop
      let (σ, r) ← compare E op f m.σ r0 r1
      return finish bz { m with σ := σ } (r != inv)
    | _ => .ub
  -- `register1` is the first variable: 2838-2909, 3000-3097
  | .cmp op inv (.two v w) bz => match d with
    | i :: j :: _ => do
      let r1 ← m.var v i
      let r0 ← m.var w j
      let (σ, r) ← compare E op f m.σ r0 r1
      return finish bz { m with σ := σ } (r != inv)
    | _ => .ub
  -- 1471-1481
  | .bz .stack => do
    let (m, r0) ← m.pop
    let (σ, z) ← logicalNot E f m.σ r0
    return if z then .jump { m with σ := σ } else .next { m with σ := σ }
  -- 2486-2516
  | .bz (.one v) => match d with
    | i :: _ => do
      let r0 ← m.var v i
      let (σ, z) ← logicalNot E f m.σ r0
      return if z then .jump { m with σ := σ } else .next { m with σ := σ }
    | _ => .ub
  -- `wr_assign( register0, register1 )`, 3159-3174, 3187-3203
  | .assign .stack p => do
    let (m, r0) ← m.pop
    let (m', r1) ← m.pop
    let σ ← Ops.assign E f m.σ r0 r1
    return .next { (if p then m' else m) with σ := σ }
  -- 1584-1610
  | .assign (.one v) _ => match d with
    | [i] => do
      let r0 ← m.var v i
      let (m, r1) ← m.pop
      let σ ← Ops.assign E f m.σ r0 r1
      return .next { m with σ := σ }
    | _ => .ub
  | .compound op p => do
    let (m, r0) ← m.pop
    let (m', r1) ← m.pop
    let σ ← compound E op f m.σ r0 r1
    return .next { (if p then m' else m) with σ := σ }
  -- 2536-2541
  | .pre d p => do
    let (m', r0) ← m.pop
    let σ ← preBump E d f m.σ r0
    return .next { (if p then m' else m) with σ := σ }
  -- 2522-2534
  | .post d => do
    let (_, r0) ← m.pop
    let σ ← postBump E d f m.σ r0 r0
    return .next { m with σ := σ }
  -- 2542-2545
  | .bumpVar dd v => match d with
    | [i] => do
      let r0 ← m.var v i
      let σ ← preBump E dd f m.σ r0
      return .next { m with σ := σ }
    | _ => .ub
  | .neg => do
    let r0 ← m.peek
    let σ ← negate E f m.σ r0 r0
    return .next { m with σ := σ }
  -- the index is the top, the container below; 1315-1325
  | .index .stack => do
    let (m, r0) ← m.pop
    let (m, r1) ← m.pop
    let σ ← index f m.σ r0 r1 r1
    return .next { m with σ := σ, top := m.top + 1 }
  | .index .regs => do
    let σ ← index f m.σ m.r0 m.r1 (.cell m.top)
    return .next { m with σ := σ, top := m.top + 1 }
  -- 1508-1523
  | .indexLit k .stack => match idxVal k d with
    | some w => do
      let r0 ← m.peek
      let σ ← index f (m.σ.set (.cell m.top) (.int w)) (.cell m.top) r0 r0
      return .next { m with σ := σ }
    | none => .ub
  -- 1525-1582
  | .indexLit k (.one v) => match d with
    | i :: d => match idxVal k d with
      | some w => do
        let r0 ← m.var v i
        let σ ← index f (m.σ.set (.cell (m.top + 1)) (.int w)) (.cell (m.top + 1)) r0 (.cell m.top)
        return .next { m with σ := σ, top := m.top + 1 }
      | none => .ub
    | _ => .ub
  -- the frame is read relative to `stackTop`, 1247-1258
  | .ret false => .ok (.ret m)
  | .ret true => .ok (.ret (m.push (.int 0)))
  -- 1385-1399
  | .swap => match d with
    | [n] => do
      let m ← m.swapTop 1 n.toNat
      return .next m
    | _ => .ub
  -- 1401-1426
  | .swap2 => match d with
    | [a, b] => do
      let m ← m.swapTop 1 a.toNat
      let m ← m.swapTop 2 b.toNat
      return .next m
    | _ => .ub
  -- 1493-1499
  | .lnot => do
    let r0 ← m.peek
    let (σ, z) ← logicalNot E f m.σ r0
    return .next { m with σ := σ.set r0 (boolVal z) }
  -- 1449-1455
  | .bnot => do
    let r0 ← m.peek
    let (σ, w) ← bitwiseNot E f m.σ r0
    return .next { m with σ := σ.set r0 (.int w) }
  | _ => .ub

/-- Number of operand bytes. -/
def dlen : Act → Nat
  | .load _ => 1
  | .lit .zero => 0
  | .lit .i8 => 1
  | .lit .i16 => 2
  | .lit .i32 => 4
  | .lit .f32 => 4
  | .litTo .zero _ => 1
  | .litTo .i8 _ => 2
  | .litTo .i16 _ => 3
  | .litTo .i32 _ => 5
  | .litTo .f32 _ => 5
  | .values _ _ => 2
  | .bin _ (.two _ _) => 2
  | .binStore _ _ => 1
  | .cmp _ _ .stack bz => if bz then 2 else 0
  | .cmp _ _ (.one _) bz => if bz then 3 else 1
  | .cmp _ _ (.two _ _) bz => if bz then 4 else 2
  | .bz .stack => 2
  | .bz _ => 3
  | .assign (.one _) _ => 1
  | .bumpVar _ _ => 1
  | .indexLit .i8 .stack => 1
  | .indexLit .i16 .stack => 2
  | .indexLit .i8 _ => 2
  | .indexLit .i16 _ => 3
  | .swap => 1
  | .swap2 => 2
  | _ => 0

/-- An instruction: class and operand bytes. -/
abbrev Ins := Act × List Byte

/-- Executing instructions one after the other; every one gets the fuel it needs.  A taken branch
or a return leaves the fragment. -/
def RunsI (E : Env) : List Ins → M → Out → Prop
  | [], m, o => o = .next m
  | (a, d) :: is, m, o => ∃ f x, exec E f a d m = .ok x ∧
    match x with
    | .next m' => RunsI E is m' o
    | .jump m' => o = .jump m'
    | .ret m' => o = .ret m'

/-- The bytes are these instructions. -/
inductive Decodes : List Byte → List Ins → Prop where
  | nil : Decodes [] []
  | cons {c : Byte} {op : Op} {a : Act} {d r : List Byte} {is : List Ins} :
      Op.decode c = some op → act op = some a → d.length = dlen a → Decodes r is →
      Decodes (c :: (d ++ r)) ((a, d) :: is)

/-- Executing the code fragment `code` from state `m`. -/
def Runs (E : Env) (code : List Byte) (m : M) (o : Out) : Prop :=
  ∃ is, Decodes code is ∧ RunsI E is m o

/-- Decoding is unambiguous. -/
theorem Decodes.unique {code : List Byte} {is js : List Ins} (h : Decodes code is)
    (g : Decodes code js) : is = js := by
  induction h generalizing js with
  | nil => cases g; rfl
  | @cons c op a d r is h1 h2 h3 h4 ih =>
    generalize hc : c :: (d ++ r) = code at g
    cases g with
    | nil => simp at hc
    | @cons c' op' a' d' r' is' g1 g2 g3 g4 =>
      simp only [List.cons.injEq] at hc
      obtain ⟨rfl, hc⟩ := hc
      rw [h1] at g1
      obtain rfl : op = op' := by simpa using g1
      rw [h2] at g2
      obtain rfl : a = a' := by simpa using g2
      obtain ⟨rfl, rfl⟩ := List.append_inj hc (by rw [h3, g3])
      rw [ih g4]

theorem Decodes.append {c d : List Byte} {is js : List Ins} (h : Decodes c is) (g : Decodes d js) :
    Decodes (c ++ d) (is ++ js) := by
  induction h with
  | nil => exact g
  | cons h1 h2 h3 _ ih =>
    rw [List.cons_append, List.append_assoc]
    exact .cons h1 h2 h3 ih

end Wrench.Peep
