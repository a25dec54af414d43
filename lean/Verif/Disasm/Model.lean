import Verif.Vm.Jump
import Verif.Peep.Vm

/-
The disassembler, discrete_src/debug/disassemble.cpp.

Simplifications: the listing is a list of lines, each with its structured fields, instead of text
(column widths, the hexadecimal digits of numbers and the heading are left out; the escaping of
string literals is `escape`).  Reading a byte outside the unit being listed is `none`.  Pointers
into the image are offsets from `context->bottom`.  The tables printed before the code are left
out: they are the fields read back by the loader (area Link).
-/
namespace Wrench.Disasm
open Wrench.Vm

open Lean in
/-- The character codes of a name. -/
macro "n!" s:str : term => do
  let cs ← s.getString.toList.mapM fun c => `(term| $(quote c.toNat))
  let cs := cs.toArray
  `(term| [$cs,*])

/-- `c_opcodeName`, discrete_src/utils/utils.cpp 1328-1633, read through `wr_safeOpcodeName`,
disassemble.cpp 76-79. -/
def name : Op → List Nat
  | .Yield => n! "Yield"
  | .LiteralInt32 => n! "LiteralInt32"
  | .LiteralZero => n! "LiteralZero"
  | .LiteralFloat => n! "LiteralFloat"
  | .LiteralString => n! "LiteralString"
  | .CallFunctionByHash => n! "CallFunctionByHash"
  | .CallFunctionByHashAndPop => n! "CallFunctionByHashAndPop"
  | .CallFunctionByIndex => n! "CallFunctionByIndex"
  | .PushIndexFunctionReturnValue => n! "PushIndexFunctionReturnValue"
  | .CallLibFunction => n! "CallLibFunction"
  | .CallLibFunctionAndPop => n! "CallLibFunctionAndPop"
  | .NewObjectTable => n! "NewObjectTable"
  | .AssignToObjectTableByOffset => n! "AssignToObjectTableByOffset"
  | .AssignToObjectTableByHash => n! "AssignToObjectTableByHash"
  | .AssignToHashTableAndPop => n! "AssignToHashTableAndPop"
  | .Remove => n! "Remove"
  | .HashEntryExists => n! "HashEntryExists"
  | .PopOne => n! "PopOne"
  | .ReturnZero => n! "ReturnZero"
  | .Return => n! "Return"
  | .Stop => n! "Stop"
  | .Dereference => n! "Dereference"
  | .Index => n! "Index"
  | .IndexSkipLoad => n! "IndexSkipLoad"
  | .CountOf => n! "CountOf"
  | .HashOf => n! "HashOf"
  | .StackIndexHash => n! "StackIndexHash"
  | .GlobalIndexHash => n! "GlobalIndexHash"
  | .LocalIndexHash => n! "LocalIndexHash"
  | .StackSwap => n! "StackSwap"
  | .SwapTwoToTop => n! "SwapTwoToTop"
  | .LoadFromLocal => n! "LoadFromLocal"
  | .LoadFromGlobal => n! "LoadFromGlobal"
  | .LLValues => n! "LLValues"
  | .LGValues => n! "LGValues"
  | .GLValues => n! "GLValues"
  | .GGValues => n! "GGValues"
  | .BinaryRightShiftSkipLoad => n! "BinaryRightShiftSkipLoad"
  | .BinaryLeftShiftSkipLoad => n! "BinaryLeftShiftSkipLoad"
  | .BinaryAndSkipLoad => n! "BinaryAndSkipLoad"
  | .BinaryOrSkipLoad => n! "BinaryOrSkipLoad"
  | .BinaryXORSkipLoad => n! "BinaryXORSkipLoad"
  | .BinaryModSkipLoad => n! "BinaryModSkipLoad"
  | .BinaryMultiplication => n! "BinaryMultiplication"
  | .BinarySubtraction => n! "BinarySubtraction"
  | .BinaryDivision => n! "BinaryDivision"
  | .BinaryRightShift => n! "BinaryRightShift"
  | .BinaryLeftShift => n! "BinaryLeftShift"
  | .BinaryMod => n! "BinaryMod"
  | .BinaryOr => n! "BinaryOr"
  | .BinaryXOR => n! "BinaryXOR"
  | .BinaryAnd => n! "BinaryAnd"
  | .BinaryAddition => n! "BinaryAddition"
  | .BitwiseNOT => n! "BitwiseNOT"
  | .RelativeJump => n! "RelativeJump"
  | .RelativeJump8 => n! "RelativeJump8"
  | .BZ => n! "BZ"
  | .BZ8 => n! "BZ8"
  | .LogicalAnd => n! "LogicalAnd"
  | .LogicalOr => n! "LogicalOr"
  | .CompareLE => n! "CompareLE"
  | .CompareGE => n! "CompareGE"
  | .CompareGT => n! "CompareGT"
  | .CompareLT => n! "CompareLT"
  | .CompareEQ => n! "CompareEQ"
  | .CompareNE => n! "CompareNE"
  | .GGCompareGT => n! "GGCompareGT"
  | .GGCompareGE => n! "GGCompareGE"
  | .GGCompareLT => n! "GGCompareLT"
  | .GGCompareLE => n! "GGCompareLE"
  | .GGCompareEQ => n! "GGCompareEQ"
  | .GGCompareNE => n! "GGCompareNE"
  | .LLCompareGT => n! "LLCompareGT"
  | .LLCompareGE => n! "LLCompareGE"
  | .LLCompareLT => n! "LLCompareLT"
  | .LLCompareLE => n! "LLCompareLE"
  | .LLCompareEQ => n! "LLCompareEQ"
  | .LLCompareNE => n! "LLCompareNE"
  | .GSCompareEQ => n! "GSCompareEQ"
  | .LSCompareEQ => n! "LSCompareEQ"
  | .GSCompareNE => n! "GSCompareNE"
  | .LSCompareNE => n! "LSCompareNE"
  | .GSCompareGE => n! "GSCompareGE"
  | .LSCompareGE => n! "LSCompareGE"
  | .GSCompareLE => n! "GSCompareLE"
  | .LSCompareLE => n! "LSCompareLE"
  | .GSCompareGT => n! "GSCompareGT"
  | .LSCompareGT => n! "LSCompareGT"
  | .GSCompareLT => n! "GSCompareLT"
  | .LSCompareLT => n! "LSCompareLT"
  | .GSCompareEQBZ => n! "GSCompareEQBZ"
  | .LSCompareEQBZ => n! "LSCompareEQBZ"
  | .GSCompareNEBZ => n! "GSCompareNEBZ"
  | .LSCompareNEBZ => n! "LSCompareNEBZ"
  | .GSCompareGEBZ => n! "GSCompareGEBZ"
  | .LSCompareGEBZ => n! "LSCompareGEBZ"
  | .GSCompareLEBZ => n! "GSCompareLEBZ"
  | .LSCompareLEBZ => n! "LSCompareLEBZ"
  | .GSCompareGTBZ => n! "GSCompareGTBZ"
  | .LSCompareGTBZ => n! "LSCompareGTBZ"
  | .GSCompareLTBZ => n! "GSCompareLTBZ"
  | .LSCompareLTBZ => n! "LSCompareLTBZ"
  | .GSCompareEQBZ8 => n! "GSCompareEQBZ8"
  | .LSCompareEQBZ8 => n! "LSCompareEQBZ8"
  | .GSCompareNEBZ8 => n! "GSCompareNEBZ8"
  | .LSCompareNEBZ8 => n! "LSCompareNEBZ8"
  | .GSCompareGEBZ8 => n! "GSCompareGEBZ8"
  | .LSCompareGEBZ8 => n! "LSCompareGEBZ8"
  | .GSCompareLEBZ8 => n! "GSCompareLEBZ8"
  | .LSCompareLEBZ8 => n! "LSCompareLEBZ8"
  | .GSCompareGTBZ8 => n! "GSCompareGTBZ8"
  | .LSCompareGTBZ8 => n! "LSCompareGTBZ8"
  | .GSCompareLTBZ8 => n! "GSCompareLTBZ8"
  | .LSCompareLTBZ8 => n! "LSCompareLTBZ8"
  | .LLCompareLTBZ => n! "LLCompareLTBZ"
  | .LLCompareLEBZ => n! "LLCompareLEBZ"
  | .LLCompareGTBZ => n! "LLCompareGTBZ"
  | .LLCompareGEBZ => n! "LLCompareGEBZ"
  | .LLCompareEQBZ => n! "LLCompareEQBZ"
  | .LLCompareNEBZ => n! "LLCompareNEBZ"
  | .GGCompareLTBZ => n! "GGCompareLTBZ"
  | .GGCompareLEBZ => n! "GGCompareLEBZ"
  | .GGCompareGTBZ => n! "GGCompareGTBZ"
  | .GGCompareGEBZ => n! "GGCompareGEBZ"
  | .GGCompareEQBZ => n! "GGCompareEQBZ"
  | .GGCompareNEBZ => n! "GGCompareNEBZ"
  | .LLCompareLTBZ8 => n! "LLCompareLTBZ8"
  | .LLCompareLEBZ8 => n! "LLCompareLEBZ8"
  | .LLCompareGTBZ8 => n! "LLCompareGTBZ8"
  | .LLCompareGEBZ8 => n! "LLCompareGEBZ8"
  | .LLCompareEQBZ8 => n! "LLCompareEQBZ8"
  | .LLCompareNEBZ8 => n! "LLCompareNEBZ8"
  | .GGCompareLTBZ8 => n! "GGCompareLTBZ8"
  | .GGCompareLEBZ8 => n! "GGCompareLEBZ8"
  | .GGCompareGTBZ8 => n! "GGCompareGTBZ8"
  | .GGCompareGEBZ8 => n! "GGCompareGEBZ8"
  | .GGCompareEQBZ8 => n! "GGCompareEQBZ8"
  | .GGCompareNEBZ8 => n! "GGCompareNEBZ8"
  | .PostIncrement => n! "PostIncrement"
  | .PostDecrement => n! "PostDecrement"
  | .PreIncrement => n! "PreIncrement"
  | .PreDecrement => n! "PreDecrement"
  | .PreIncrementAndPop => n! "PreIncrementAndPop"
  | .PreDecrementAndPop => n! "PreDecrementAndPop"
  | .IncGlobal => n! "IncGlobal"
  | .DecGlobal => n! "DecGlobal"
  | .IncLocal => n! "IncLocal"
  | .DecLocal => n! "DecLocal"
  | .Assign => n! "Assign"
  | .AssignAndPop => n! "AssignAndPop"
  | .AssignToGlobalAndPop => n! "AssignToGlobalAndPop"
  | .AssignToLocalAndPop => n! "AssignToLocalAndPop"
  | .AssignToArrayAndPop => n! "AssignToArrayAndPop"
  | .SubtractAssign => n! "SubtractAssign"
  | .AddAssign => n! "AddAssign"
  | .ModAssign => n! "ModAssign"
  | .MultiplyAssign => n! "MultiplyAssign"
  | .DivideAssign => n! "DivideAssign"
  | .ORAssign => n! "ORAssign"
  | .ANDAssign => n! "ANDAssign"
  | .XORAssign => n! "XORAssign"
  | .RightShiftAssign => n! "RightShiftAssign"
  | .LeftShiftAssign => n! "LeftShiftAssign"
  | .SubtractAssignAndPop => n! "SubtractAssignAndPop"
  | .AddAssignAndPop => n! "AddAssignAndPop"
  | .ModAssignAndPop => n! "ModAssignAndPop"
  | .MultiplyAssignAndPop => n! "MultiplyAssignAndPop"
  | .DivideAssignAndPop => n! "DivideAssignAndPop"
  | .ORAssignAndPop => n! "ORAssignAndPop"
  | .ANDAssignAndPop => n! "ANDAssignAndPop"
  | .XORAssignAndPop => n! "XORAssignAndPop"
  | .RightShiftAssignAndPop => n! "RightShiftAssignAndPop"
  | .LeftShiftAssignAndPop => n! "LeftShiftAssignAndPop"
  | .LogicalNot => n! "LogicalNot"
  | .Negate => n! "Negate"
  | .LiteralInt8 => n! "LiteralInt8"
  | .LiteralInt16 => n! "LiteralInt16"
  | .IndexLiteral8 => n! "IndexLiteral8"
  | .IndexLiteral16 => n! "IndexLiteral16"
  | .IndexLocalLiteral8 => n! "IndexLocalLiteral8"
  | .IndexGlobalLiteral8 => n! "IndexGlobalLiteral8"
  | .IndexLocalLiteral16 => n! "IndexLocalLiteral16"
  | .IndexGlobalLiteral16 => n! "IndexGlobalLiteral16"
  | .BinaryAdditionAndStoreGlobal => n! "BinaryAdditionAndStoreGlobal"
  | .BinarySubtractionAndStoreGlobal => n! "BinarySubtractionAndStoreGlobal"
  | .BinaryMultiplicationAndStoreGlobal => n! "BinaryMultiplicationAndStoreGlobal"
  | .BinaryDivisionAndStoreGlobal => n! "BinaryDivisionAndStoreGlobal"
  | .BinaryAdditionAndStoreLocal => n! "BinaryAdditionAndStoreLocal"
  | .BinarySubtractionAndStoreLocal => n! "BinarySubtractionAndStoreLocal"
  | .BinaryMultiplicationAndStoreLocal => n! "BinaryMultiplicationAndStoreLocal"
  | .BinaryDivisionAndStoreLocal => n! "BinaryDivisionAndStoreLocal"
  | .CompareBEQ => n! "CompareBEQ"
  | .CompareBNE => n! "CompareBNE"
  | .CompareBGE => n! "CompareBGE"
  | .CompareBLE => n! "CompareBLE"
  | .CompareBGT => n! "CompareBGT"
  | .CompareBLT => n! "CompareBLT"
  | .CompareBEQ8 => n! "CompareBEQ8"
  | .CompareBNE8 => n! "CompareBNE8"
  | .CompareBGE8 => n! "CompareBGE8"
  | .CompareBLE8 => n! "CompareBLE8"
  | .CompareBGT8 => n! "CompareBGT8"
  | .CompareBLT8 => n! "CompareBLT8"
  | .BLA => n! "BLA"
  | .BLA8 => n! "BLA8"
  | .BLO => n! "BLO"
  | .BLO8 => n! "BLO8"
  | .LiteralInt8ToGlobal => n! "LiteralInt8ToGlobal"
  | .LiteralInt16ToGlobal => n! "LiteralInt16ToGlobal"
  | .LiteralInt32ToLocal => n! "LiteralInt32ToLocal"
  | .LiteralInt8ToLocal => n! "LiteralInt8ToLocal"
  | .LiteralInt16ToLocal => n! "LiteralInt16ToLocal"
  | .LiteralFloatToGlobal => n! "LiteralFloatToGlobal"
  | .LiteralFloatToLocal => n! "LiteralFloatToLocal"
  | .LiteralInt32ToGlobal => n! "LiteralInt32ToGlobal"
  | .GGBinaryMultiplication => n! "GGBinaryMultiplication"
  | .GLBinaryMultiplication => n! "GLBinaryMultiplication"
  | .LLBinaryMultiplication => n! "LLBinaryMultiplication"
  | .GGBinaryAddition => n! "GGBinaryAddition"
  | .GLBinaryAddition => n! "GLBinaryAddition"
  | .LLBinaryAddition => n! "LLBinaryAddition"
  | .GGBinarySubtraction => n! "GGBinarySubtraction"
  | .GLBinarySubtraction => n! "GLBinarySubtraction"
  | .LGBinarySubtraction => n! "LGBinarySubtraction"
  | .LLBinarySubtraction => n! "LLBinarySubtraction"
  | .GGBinaryDivision => n! "GGBinaryDivision"
  | .GLBinaryDivision => n! "GLBinaryDivision"
  | .LGBinaryDivision => n! "LGBinaryDivision"
  | .LLBinaryDivision => n! "LLBinaryDivision"
  | .GPushIterator => n! "GPushIterator"
  | .LPushIterator => n! "LPushIterator"
  | .GGNextKeyValueOrJump => n! "GGNextKeyValueOrJump"
  | .GLNextKeyValueOrJump => n! "GLNextKeyValueOrJump"
  | .LGNextKeyValueOrJump => n! "LGNextKeyValueOrJump"
  | .LLNextKeyValueOrJump => n! "LLNextKeyValueOrJump"
  | .GNextValueOrJump => n! "GNextValueOrJump"
  | .LNextValueOrJump => n! "LNextValueOrJump"
  | .Switch => n! "Switch"
  | .SwitchLinear => n! "SwitchLinear"
  | .GlobalStop => n! "GlobalStop"
  | .ToInt => n! "ToInt"
  | .ToFloat => n! "ToFloat"
  | .LoadLibConstant => n! "LoadLibConstant"
  | .InitArray => n! "InitArray"
  | .InitVar => n! "InitVar"
  | .DebugInfo => n! "DebugInfo"
  | .LocalBZ => n! "LocalBZ"
  | .LocalBZ8 => n! "LocalBZ8"
  | .GlobalBZ => n! "GlobalBZ"
  | .GlobalBZ8 => n! "GlobalBZ8"
  | .HASH_PLACEHOLDER => n! "<meta>"
  | .FUNCTION_CALL_PLACEHOLDER => n! "<meta>"

/-- `wr_startsWith`, disassemble.cpp 49-59. -/
def startsWith (s p : List Nat) : Bool := p.isPrefixOf s

/-- `wr_endsWith`, disassemble.cpp 62-67. -/
def endsWith (s suffix : List Nat) : Bool := suffix.isSuffixOf s

/-- `wr_contains`, disassemble.cpp 70-73 (`strstr`). -/
def contains : List Nat → List Nat → Bool
  | [], needle => needle.isEmpty
  | c :: s, needle => needle.isPrefixOf (c :: s) || contains s needle

/-- The cases of `wr_operandSizeForOpcode` with a constant size, disassemble.cpp 84-270. -/
def fixedSize : Op → Option Nat
  | .LiteralZero | .PushIndexFunctionReturnValue | .AssignToHashTableAndPop | .Remove
  | .HashEntryExists | .PopOne | .ReturnZero | .Return | .Stop | .Dereference | .Index
  | .IndexSkipLoad | .CountOf | .HashOf | .LLValues | .LGValues | .GLValues | .GGValues
  | .BinaryRightShiftSkipLoad | .BinaryLeftShiftSkipLoad | .BinaryAndSkipLoad | .BinaryOrSkipLoad
  | .BinaryXORSkipLoad | .BinaryModSkipLoad | .BinaryMultiplication | .BinarySubtraction
  | .BinaryDivision | .BinaryRightShift | .BinaryLeftShift | .BinaryMod | .BinaryOr | .BinaryXOR
  | .BinaryAnd | .BinaryAddition | .BitwiseNOT | .LogicalAnd | .LogicalOr | .CompareLE
  | .CompareGE | .CompareGT | .CompareLT | .CompareEQ | .CompareNE | .PostIncrement
  | .PostDecrement | .PreIncrement | .PreDecrement | .PreIncrementAndPop | .PreDecrementAndPop
  | .Assign | .AssignAndPop | .SubtractAssign | .AddAssign | .ModAssign | .MultiplyAssign
  | .DivideAssign | .ORAssign | .ANDAssign | .XORAssign | .RightShiftAssign | .LeftShiftAssign
  | .SubtractAssignAndPop | .AddAssignAndPop | .ModAssignAndPop | .MultiplyAssignAndPop
  | .DivideAssignAndPop | .ORAssignAndPop | .ANDAssignAndPop | .XORAssignAndPop
  | .RightShiftAssignAndPop | .LeftShiftAssignAndPop | .LogicalNot | .Negate | .ToInt | .ToFloat
  | .InitArray => some 0
  | .LiteralInt8 | .IndexLiteral8 | .GlobalStop | .Yield | .AssignToObjectTableByOffset
  | .StackSwap | .LoadFromLocal | .LoadFromGlobal | .AssignToGlobalAndPop | .AssignToLocalAndPop
  | .IncGlobal | .DecGlobal | .IncLocal | .DecLocal | .BinaryAdditionAndStoreGlobal
  | .BinarySubtractionAndStoreGlobal | .BinaryMultiplicationAndStoreGlobal
  | .BinaryDivisionAndStoreGlobal | .BinaryAdditionAndStoreLocal
  | .BinarySubtractionAndStoreLocal | .BinaryMultiplicationAndStoreLocal
  | .BinaryDivisionAndStoreLocal | .GSCompareEQ | .LSCompareEQ | .GSCompareNE | .LSCompareNE
  | .GSCompareGE | .LSCompareGE | .GSCompareLE | .LSCompareLE | .GSCompareGT | .LSCompareGT
  | .GSCompareLT | .LSCompareLT => some 1
  | .LiteralInt16 | .IndexLiteral16 | .AssignToArrayAndPop | .RelativeJump | .BZ | .CompareBEQ
  | .CompareBNE | .CompareBGE | .CompareBLE | .CompareBGT | .CompareBLT | .BLA | .BLO
  | .NewObjectTable | .DebugInfo | .RelativeJump8 | .BZ8 | .CompareBEQ8 | .CompareBNE8
  | .CompareBGE8 | .CompareBLE8 | .CompareBGT8 | .CompareBLT8 | .BLA8 | .BLO8
  | .LiteralInt8ToGlobal | .LiteralInt8ToLocal | .IndexLocalLiteral8 | .IndexGlobalLiteral8
  | .SwapTwoToTop | .GPushIterator | .LPushIterator => some 2
  | .LiteralInt16ToGlobal | .LiteralInt16ToLocal | .IndexLocalLiteral16 | .IndexGlobalLiteral16
  | .CallFunctionByIndex => some 3
  | .LiteralInt32 | .LiteralFloat | .LoadLibConstant | .AssignToObjectTableByHash
  | .StackIndexHash => some 4
  | .LiteralInt32ToLocal | .LiteralInt32ToGlobal | .LiteralFloatToGlobal | .LiteralFloatToLocal
  | .CallFunctionByHash | .CallFunctionByHashAndPop | .CallLibFunction | .CallLibFunctionAndPop
  | .GlobalIndexHash | .LocalIndexHash => some 5
  | _ => none

/-- The two-variable families, disassemble.cpp 311 and 562. -/
def twoVars (n : List Nat) : Bool :=
  startsWith n (n! "GG") || startsWith n (n! "LL") || startsWith n (n! "GL") || startsWith n (n! "LG")

/-- The one-variable families, disassemble.cpp 328 and 596. -/
def oneVar (n : List Nat) : Bool := startsWith n (n! "GS") || startsWith n (n! "LS")

/-- The value iterators, disassemble.cpp 341 and 619. -/
def nextValue (n : List Nat) : Bool :=
  startsWith n (n! "GNextValueOrJump") || startsWith n (n! "LNextValueOrJump")

/-- The sizes decided by the instruction's name, disassemble.cpp 308-361. -/
def namedSize (n : List Nat) : Nat :=
  if twoVars n then
    if contains n (n! "NextKeyValueOrJump") then 5
    else if contains n (n! "BZ8") then 4
    else if contains n (n! "BZ") then 4
    else 2
  else if oneVar n then
    if contains n (n! "BZ8") then 3
    else if contains n (n! "BZ") then 3
    else 1
  else if nextValue n then 4
  else if startsWith n (n! "LocalBZ8") || startsWith n (n! "GlobalBZ8") then 3
  else if startsWith n (n! "LocalBZ") || startsWith n (n! "GlobalBZ") then 3
  else if startsWith n (n! "GGBinary") || startsWith n (n! "GLBinary") || startsWith n (n! "LGBinary")
    || startsWith n (n! "LLBinary") then 2
  else 0

/-- The result of `wr_operandSizeForOpcode`: a read outside, `-1`, or a size. -/
inductive Size where
  | ub
  | short
  | size (n : Nat)
deriving DecidableEq, Repr

/-- `wr_operandSizeForOpcode`, disassemble.cpp 82-362; `w` are the bytes of the image before `end`,
`p` is `opPtr`. -/
def operandSize (w : List Byte) (p : Nat) (o : Op) : Size :=
  match fixedSize o with
  | some n => .size n
  | none =>
    match o with
    | .LiteralString =>
      if p + 2 > w.length then .short
      else match read16 w p with
        | some l => .size (2 + l.toNat)
        | none => .ub
    | .Switch =>
      if p + 2 > w.length then .short
      else match read16 w p with
        | some m => .size (4 + m.toNat * 6)
        | none => .ub
    | .SwitchLinear =>
      if p + 1 > w.length then .short
      else match read8 w p with
        | some c => .size (3 + c.toNat * 2)
        | none => .ub
    | o => .size (namedSize (name o))

/-- What a line shows about the operands: the pieces of the `appendFormat` calls. -/
inductive Field where
  | argc (b : Byte) | hash (h : Word32) | fnIdx (b : Byte) | pcSkip (b : Byte)
  /-- `g[…]` or `l[…]` -/
  | var (isLocal : Bool) (i : Byte)
  | keyHash (h : Word32) | len (l : Word16) | text (t : List Byte) | imm (v : Word32)
  | rel (r : Word16) | rel8 (r : Byte) | pad (b : Byte)
  /-- `->0x…` -/
  | target (t : Word32)
  | buckets (n : Word16) | count (n : Byte) | defaultRel (r : Word16) | raw (b : Byte)
deriving DecidableEq, Repr

/-- The address printed for a displacement: `(unsigned int)(instOffset + k + rel)`. -/
def tgt16 (inst k : Nat) (r : Word16) : Word32 := BitVec.ofNat 32 (inst + k) + r.signExtend 32

/-- The same for the 8-bit displacements. -/
def tgt8 (inst k : Nat) (r : Byte) : Word32 := BitVec.ofNat 32 (inst + k) + r.signExtend 32

/-- `wr_appendRawOperandHex`, disassemble.cpp 400-410. -/
def rawFields (w : List Byte) (p : Nat) : Nat → Option (List Field)
  | 0 => some []
  | n + 1 => do
    let b ← read8 w p
    let r ← rawFields w (p + 1) n
    return .raw b :: r

/-- The bytes handed to `wr_appendEscapedBytes`, and to `wr_appendBytes`. -/
def bytesAt (w : List Byte) (p : Nat) : Nat → Option (List Byte)
  | 0 => some []
  | n + 1 => do
    let b ← read8 w p
    let r ← bytesAt w (p + 1) n
    return b :: r

/-- The operands of the `Local` and `Global` instructions, disassemble.cpp 628-647. -/
def scopedFields (w : List Byte) (p n : Nat) (isLocal : Bool) : Option (List Field) := do
  let i ← read8 w p
  if n = 1 then return [.var isLocal i]
  else if n = 2 then
    let v ← read8 w (p + 1)
    return [.var isLocal i, .imm (v.setWidth 32)]
  else
    let v ← read16 w (p + 1)
    return [.var isLocal i, .imm (v.signExtend 32)]

/-- The last part of `wr_decodeOperands`, disassemble.cpp 628-650. -/
def decodeRest (w : List Byte) (o : Op) (p n : Nat) : Option (List Field) :=
  if (contains (name o) (n! "Local")) && decide (1 ≤ n ∧ n ≤ 3) then scopedFields w p n true
  else if (contains (name o) (n! "Global")) && decide (1 ≤ n ∧ n ≤ 3) then scopedFields w p n false
  else rawFields w p n

/-- The name starts with `CompareB`, `BLA` or `BLO`: disassemble.cpp 494-496, 504. -/
def branchName (n : List Nat) : Bool :=
  startsWith n (n! "CompareB") || startsWith n (n! "BLA") || startsWith n (n! "BLO")

/-- First character of the name is `L`: the scope letters of disassemble.cpp 564-565, 598, 623. -/
def scopeL (n : List Nat) (k : Nat) : Bool := n[k]? != some 71

/-- `wr_decodeOperands`, disassemble.cpp 413-650, from the families on (562-650). -/
def decodeFamilies (w : List Byte) (o : Op) (p n inst : Nat) : Option (List Field) :=
  if twoVars (name o) then do
    let a ← read8 w p
    let b ← read8 w (p + 1)
    let vars := [Field.var (scopeL (name o) 0) a, .var (scopeL (name o) 1) b]
    if contains (name o) (n! "NextKeyValueOrJump") then
      let r ← read16 w (p + 3)
      let c ← read8 w (p + 2)
      return vars ++ [.var false c, .rel r, .target (tgt16 inst 4 r)]
    else if contains (name o) (n! "BZ") then
      if endsWith (name o) (n! "BZ8") then
        let r ← read8 w (p + 2)
        let q ← read8 w (p + 3)
        return vars ++ [.rel8 r, .pad q, .target (tgt8 inst 3 r)]
      else
        let r ← read16 w (p + 2)
        return vars ++ [.rel r, .target (tgt16 inst 3 r)]
    else return vars
  else if oneVar (name o) then do
    let a ← read8 w p
    if contains (name o) (n! "BZ") then
      if endsWith (name o) (n! "BZ8") then
        let r ← read8 w (p + 1)
        let q ← read8 w (p + 2)
        return [.var (scopeL (name o) 0) a, .rel8 r, .pad q, .target (tgt8 inst 2 r)]
      else
        let r ← read16 w (p + 1)
        return [.var (scopeL (name o) 0) a, .rel r, .target (tgt16 inst 2 r)]
    else return [.var (scopeL (name o) 0) a]
  else if nextValue (name o) then do
    let r ← read16 w (p + 2)
    let a ← read8 w p
    let b ← read8 w (p + 1)
    return [.var (scopeL (name o) 0) a, .var false b, .rel r, .target (tgt16 inst 3 r)]
  else decodeRest w o p n

/-- `wr_decodeOperands`, disassemble.cpp 413-560, the single instructions. -/
def decodeOperands (w : List Byte) (o : Op) (p n inst : Nat) : Option (List Field) :=
  if n = 0 then some []
  else if o = .CallFunctionByHash ∨ o = .CallFunctionByHashAndPop ∨ o = .CallLibFunction
      ∨ o = .CallLibFunctionAndPop then do
    let a ← read8 w p
    let h ← read32 w (p + 1)
    return [.argc a, .hash h]
  else if o = .CallFunctionByIndex then do
    let a ← read8 w p
    let f ← read8 w (p + 1)
    let s ← read8 w (p + 2)
    return [.argc a, .fnIdx f, .pcSkip s]
  else if o = .LoadLibConstant ∨ o = .AssignToObjectTableByHash ∨ o = .StackIndexHash then do
    let h ← read32 w p
    return [.hash h]
  else if o = .GlobalIndexHash ∨ o = .LocalIndexHash then do
    let i ← read8 w p
    let h ← read32 w (p + 1)
    return [.var (o != .GlobalIndexHash) i, .keyHash h]
  else if o = .LiteralString ∧ 2 ≤ n then do
    let l ← read16 w p
    let t ← bytesAt w (p + 2) l.toNat
    return [.len l, .text t]
  else if o = .LiteralInt32 ∨ o = .LiteralFloat then do
    let v ← read32 w p
    return [.imm v]
  else if o = .LiteralInt32ToLocal ∨ o = .LiteralInt32ToGlobal ∨ o = .LiteralFloatToLocal
      ∨ o = .LiteralFloatToGlobal then do
    let i ← read8 w p
    let v ← read32 w (p + 1)
    return [.var (o != .LiteralInt32ToGlobal && o != .LiteralFloatToGlobal) i, .imm v]
  else if o = .RelativeJump ∨ o = .BZ ∨ (branchName (name o) && !endsWith (name o) (n! "8")) = true then do
    let r ← read16 w p
    return [.rel r, .target (tgt16 inst 1 r)]
  else if o = .RelativeJump8 ∨ o = .BZ8 ∨ (branchName (name o) && endsWith (name o) (n! "8")) = true then do
    let r ← read8 w p
    if 2 ≤ n then
      let q ← read8 w (p + 1)
      return [.rel8 r, .pad q, .target (tgt8 inst 1 r)]
    else return [.rel8 r, .target (tgt8 inst 1 r)]
  else if o = .LocalBZ ∨ o = .GlobalBZ then do
    let r ← read16 w (p + 1)
    let i ← read8 w p
    return [.var (o != .GlobalBZ) i, .rel r, .target (tgt16 inst 2 r)]
  else if o = .LocalBZ8 ∨ o = .GlobalBZ8 then do
    let r ← read8 w (p + 1)
    let i ← read8 w p
    let q ← read8 w (p + 2)
    return [.var (o != .GlobalBZ8) i, .rel8 r, .pad q, .target (tgt8 inst 2 r)]
  else if o = .Switch ∧ 4 ≤ n then do
    let m ← read16 w p
    let d ← read16 w (p + 2)
    return [.buckets m, .defaultRel d, .target (tgt16 inst 1 d)]
  else if o = .SwitchLinear ∧ 3 ≤ n then do
    let c ← read8 w p
    let d ← read16 w (p + 1)
    return [.count c, .defaultRel d, .target (tgt16 inst 2 d)]
  else decodeFamilies w o p n inst

/-- A line of the listing: an instruction with its bytes and operands, or the end of a unit that
cannot be decoded, whose bytes are skipped. -/
inductive Line where
  | ins (off : Nat) (bytes : List Byte) (op : Op) (fields : List Field)
  | data (off : Nat) (b : Byte)
  | truncated (off : Nat) (op : Op)
deriving DecidableEq, Repr

/-- The loop of `wr_disassembleRange`, disassemble.cpp 653-710; `w` are the bytes before `end`.
`none`: a byte outside was read. -/
def range (w : List Byte) (pc : Nat) : Option (List Line) :=
  if pc < w.length then
    match read8 w pc with
    | none => none
    | some b =>
      -- `O_HASH_PLACEHOLDER` is 250
      if b.toNat ≥ 252 ∨ b.toNat ≥ 250 then some [.data pc b]
      else
        match Op.decode b with
        | none => none
        | some o =>
          match operandSize w (pc + 1) o with
          | .ub => none
          | .short => some [.truncated pc o]
          | .size n =>
            if pc + 1 + n > w.length then some [.truncated pc o]
            else do
              let fs ← decodeOperands w o (pc + 1) n pc
              let bs ← bytesAt w pc (n + 1)
              let rest ← range w (pc + 1 + n)
              return .ins pc bs o fs :: rest
  else some []
termination_by w.length - pc

/-- The search for the end of a unit, disassemble.cpp 774-783 and 793-803: the least function
offset above `start` and below `codeEnd`. -/
def unitEnd (offsets : List Nat) (start codeEnd : Nat) : Nat :=
  offsets.foldl (fun e c => if c > start ∧ c < e then c else e) codeEnd

/-- The units listed by `wr_disassemble`, disassemble.cpp 774-815: start and end of each. -/
def units (offsets : List Nat) (codeStart codeEnd : Nat) : List (Nat × Nat) :=
  (codeStart, unitEnd offsets codeStart codeEnd) ::
    offsets.map fun f => (f, unitEnd offsets f codeEnd)

/-- The code part of `wr_disassemble`, disassemble.cpp 713-818. -/
def disassemble (img : List Byte) (offsets : List Nat) (codeStart : Nat) : Option (List (List Line)) :=
  (units offsets codeStart (img.length - 4)).mapM fun u => range (img.take u.2) u.1

/-- One digit of `%02X`. -/
def hexDigit (n : Nat) : Byte := BitVec.ofNat 8 (if n < 10 then 48 + n else 55 + n)

/-- `wr_appendEscapedBytes`, disassemble.cpp 378-397. -/
def escape : List Byte → List Byte
  | [] => []
  | c :: r =>
    (if c = 92#8 ∨ c = 34#8 then [92#8, c]
    else if 32 ≤ c.toNat ∧ c.toNat < 127 then [c]
    else [92#8, 120#8, hexDigit (c.toNat / 16), hexDigit (c.toNat % 16)]) ++ escape r

end Wrench.Disasm
