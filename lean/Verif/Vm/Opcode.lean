import Verif.Bytes.Model

/-
The instruction set, discrete_src/utils/opcode.h 29-340, in enumeration order.  `code` is
the enumerator's value, `decode` its inverse.
-/
namespace Wrench.Vm

/-- `WROpcode`, discrete_src/utils/opcode.h 29-340 (without the sentinel `O_LAST`). -/
inductive Op where
  | Yield | LiteralInt32 | LiteralZero | LiteralFloat | LiteralString | CallFunctionByHash
  | CallFunctionByHashAndPop | CallFunctionByIndex | PushIndexFunctionReturnValue
  | CallLibFunction | CallLibFunctionAndPop | NewObjectTable | AssignToObjectTableByOffset
  | AssignToObjectTableByHash | AssignToHashTableAndPop | Remove | HashEntryExists | PopOne
  | ReturnZero | Return | Stop | Dereference | Index | IndexSkipLoad | CountOf | HashOf
  | StackIndexHash | GlobalIndexHash | LocalIndexHash | StackSwap | SwapTwoToTop
  | LoadFromLocal | LoadFromGlobal | LLValues | LGValues | GLValues | GGValues
  | BinaryRightShiftSkipLoad | BinaryLeftShiftSkipLoad | BinaryAndSkipLoad | BinaryOrSkipLoad
  | BinaryXORSkipLoad | BinaryModSkipLoad | BinaryMultiplication | BinarySubtraction
  | BinaryDivision | BinaryRightShift | BinaryLeftShift | BinaryMod | BinaryOr | BinaryXOR
  | BinaryAnd | BinaryAddition | BitwiseNOT | RelativeJump | RelativeJump8 | BZ | BZ8
  | LogicalAnd | LogicalOr | CompareLE | CompareGE | CompareGT | CompareLT | CompareEQ
  | CompareNE | GGCompareGT | GGCompareGE | GGCompareLT | GGCompareLE | GGCompareEQ
  | GGCompareNE | LLCompareGT | LLCompareGE | LLCompareLT | LLCompareLE | LLCompareEQ
  | LLCompareNE | GSCompareEQ | LSCompareEQ | GSCompareNE | LSCompareNE | GSCompareGE
  | LSCompareGE | GSCompareLE | LSCompareLE | GSCompareGT | LSCompareGT | GSCompareLT
  | LSCompareLT | GSCompareEQBZ | LSCompareEQBZ | GSCompareNEBZ | LSCompareNEBZ | GSCompareGEBZ
  | LSCompareGEBZ | GSCompareLEBZ | LSCompareLEBZ | GSCompareGTBZ | LSCompareGTBZ
  | GSCompareLTBZ | LSCompareLTBZ | GSCompareEQBZ8 | LSCompareEQBZ8 | GSCompareNEBZ8
  | LSCompareNEBZ8 | GSCompareGEBZ8 | LSCompareGEBZ8 | GSCompareLEBZ8 | LSCompareLEBZ8
  | GSCompareGTBZ8 | LSCompareGTBZ8 | GSCompareLTBZ8 | LSCompareLTBZ8 | LLCompareLTBZ
  | LLCompareLEBZ | LLCompareGTBZ | LLCompareGEBZ | LLCompareEQBZ | LLCompareNEBZ
  | GGCompareLTBZ | GGCompareLEBZ | GGCompareGTBZ | GGCompareGEBZ | GGCompareEQBZ
  | GGCompareNEBZ | LLCompareLTBZ8 | LLCompareLEBZ8 | LLCompareGTBZ8 | LLCompareGEBZ8
  | LLCompareEQBZ8 | LLCompareNEBZ8 | GGCompareLTBZ8 | GGCompareLEBZ8 | GGCompareGTBZ8
  | GGCompareGEBZ8 | GGCompareEQBZ8 | GGCompareNEBZ8 | PostIncrement | PostDecrement
  | PreIncrement | PreDecrement | PreIncrementAndPop | PreDecrementAndPop | IncGlobal
  | DecGlobal | IncLocal | DecLocal | Assign | AssignAndPop | AssignToGlobalAndPop
  | AssignToLocalAndPop | AssignToArrayAndPop | SubtractAssign | AddAssign | ModAssign
  | MultiplyAssign | DivideAssign | ORAssign | ANDAssign | XORAssign | RightShiftAssign
  | LeftShiftAssign | SubtractAssignAndPop | AddAssignAndPop | ModAssignAndPop
  | MultiplyAssignAndPop | DivideAssignAndPop | ORAssignAndPop | ANDAssignAndPop
  | XORAssignAndPop | RightShiftAssignAndPop | LeftShiftAssignAndPop | LogicalNot | Negate
  | LiteralInt8 | LiteralInt16 | IndexLiteral8 | IndexLiteral16 | IndexLocalLiteral8
  | IndexGlobalLiteral8 | IndexLocalLiteral16 | IndexGlobalLiteral16
  | BinaryAdditionAndStoreGlobal | BinarySubtractionAndStoreGlobal
  | BinaryMultiplicationAndStoreGlobal | BinaryDivisionAndStoreGlobal
  | BinaryAdditionAndStoreLocal | BinarySubtractionAndStoreLocal
  | BinaryMultiplicationAndStoreLocal | BinaryDivisionAndStoreLocal | CompareBEQ | CompareBNE
  | CompareBGE | CompareBLE | CompareBGT | CompareBLT | CompareBEQ8 | CompareBNE8 | CompareBGE8
  | CompareBLE8 | CompareBGT8 | CompareBLT8 | BLA | BLA8 | BLO | BLO8 | LiteralInt8ToGlobal
  | LiteralInt16ToGlobal | LiteralInt32ToLocal | LiteralInt8ToLocal | LiteralInt16ToLocal
  | LiteralFloatToGlobal | LiteralFloatToLocal | LiteralInt32ToGlobal | GGBinaryMultiplication
  | GLBinaryMultiplication | LLBinaryMultiplication | GGBinaryAddition | GLBinaryAddition
  | LLBinaryAddition | GGBinarySubtraction | GLBinarySubtraction | LGBinarySubtraction
  | LLBinarySubtraction | GGBinaryDivision | GLBinaryDivision | LGBinaryDivision
  | LLBinaryDivision | GPushIterator | LPushIterator | GGNextKeyValueOrJump
  | GLNextKeyValueOrJump | LGNextKeyValueOrJump | LLNextKeyValueOrJump | GNextValueOrJump
  | LNextValueOrJump | Switch | SwitchLinear | GlobalStop | ToInt | ToFloat | LoadLibConstant
  | InitArray | InitVar | DebugInfo | LocalBZ | LocalBZ8 | GlobalBZ | GlobalBZ8
  | HASH_PLACEHOLDER | FUNCTION_CALL_PLACEHOLDER
deriving DecidableEq, Repr

/-- The instructions in enumeration order. -/
def Op.list : List Op := [
  .Yield, .LiteralInt32, .LiteralZero, .LiteralFloat, .LiteralString, .CallFunctionByHash,
  .CallFunctionByHashAndPop, .CallFunctionByIndex, .PushIndexFunctionReturnValue,
  .CallLibFunction, .CallLibFunctionAndPop, .NewObjectTable, .AssignToObjectTableByOffset,
  .AssignToObjectTableByHash, .AssignToHashTableAndPop, .Remove, .HashEntryExists, .PopOne,
  .ReturnZero, .Return, .Stop, .Dereference, .Index, .IndexSkipLoad, .CountOf, .HashOf,
  .StackIndexHash, .GlobalIndexHash, .LocalIndexHash, .StackSwap, .SwapTwoToTop,
  .LoadFromLocal, .LoadFromGlobal, .LLValues, .LGValues, .GLValues, .GGValues,
  .BinaryRightShiftSkipLoad, .BinaryLeftShiftSkipLoad, .BinaryAndSkipLoad, .BinaryOrSkipLoad,
  .BinaryXORSkipLoad, .BinaryModSkipLoad, .BinaryMultiplication, .BinarySubtraction,
  .BinaryDivision, .BinaryRightShift, .BinaryLeftShift, .BinaryMod, .BinaryOr, .BinaryXOR,
  .BinaryAnd, .BinaryAddition, .BitwiseNOT, .RelativeJump, .RelativeJump8, .BZ, .BZ8,
  .LogicalAnd, .LogicalOr, .CompareLE, .CompareGE, .CompareGT, .CompareLT, .CompareEQ,
  .CompareNE, .GGCompareGT, .GGCompareGE, .GGCompareLT, .GGCompareLE, .GGCompareEQ,
  .GGCompareNE, .LLCompareGT, .LLCompareGE, .LLCompareLT, .LLCompareLE, .LLCompareEQ,
  .LLCompareNE, .GSCompareEQ, .LSCompareEQ, .GSCompareNE, .LSCompareNE, .GSCompareGE,
  .LSCompareGE, .GSCompareLE, .LSCompareLE, .GSCompareGT, .LSCompareGT, .GSCompareLT,
  .LSCompareLT, .GSCompareEQBZ, .LSCompareEQBZ, .GSCompareNEBZ, .LSCompareNEBZ, .GSCompareGEBZ,
  .LSCompareGEBZ, .GSCompareLEBZ, .LSCompareLEBZ, .GSCompareGTBZ, .LSCompareGTBZ,
  .GSCompareLTBZ, .LSCompareLTBZ, .GSCompareEQBZ8, .LSCompareEQBZ8, .GSCompareNEBZ8,
  .LSCompareNEBZ8, .GSCompareGEBZ8, .LSCompareGEBZ8, .GSCompareLEBZ8, .LSCompareLEBZ8,
  .GSCompareGTBZ8, .LSCompareGTBZ8, .GSCompareLTBZ8, .LSCompareLTBZ8, .LLCompareLTBZ,
  .LLCompareLEBZ, .LLCompareGTBZ, .LLCompareGEBZ, .LLCompareEQBZ, .LLCompareNEBZ,
  .GGCompareLTBZ, .GGCompareLEBZ, .GGCompareGTBZ, .GGCompareGEBZ, .GGCompareEQBZ,
  .GGCompareNEBZ, .LLCompareLTBZ8, .LLCompareLEBZ8, .LLCompareGTBZ8, .LLCompareGEBZ8,
  .LLCompareEQBZ8, .LLCompareNEBZ8, .GGCompareLTBZ8, .GGCompareLEBZ8, .GGCompareGTBZ8,
  .GGCompareGEBZ8, .GGCompareEQBZ8, .GGCompareNEBZ8, .PostIncrement, .PostDecrement,
  .PreIncrement, .PreDecrement, .PreIncrementAndPop, .PreDecrementAndPop, .IncGlobal,
  .DecGlobal, .IncLocal, .DecLocal, .Assign, .AssignAndPop, .AssignToGlobalAndPop,
  .AssignToLocalAndPop, .AssignToArrayAndPop, .SubtractAssign, .AddAssign, .ModAssign,
  .MultiplyAssign, .DivideAssign, .ORAssign, .ANDAssign, .XORAssign, .RightShiftAssign,
  .LeftShiftAssign, .SubtractAssignAndPop, .AddAssignAndPop, .ModAssignAndPop,
  .MultiplyAssignAndPop, .DivideAssignAndPop, .ORAssignAndPop, .ANDAssignAndPop,
  .XORAssignAndPop, .RightShiftAssignAndPop, .LeftShiftAssignAndPop, .LogicalNot, .Negate,
  .LiteralInt8, .LiteralInt16, .IndexLiteral8, .IndexLiteral16, .IndexLocalLiteral8,
  .IndexGlobalLiteral8, .IndexLocalLiteral16, .IndexGlobalLiteral16,
  .BinaryAdditionAndStoreGlobal, .BinarySubtractionAndStoreGlobal,
  .BinaryMultiplicationAndStoreGlobal, .BinaryDivisionAndStoreGlobal,
  .BinaryAdditionAndStoreLocal, .BinarySubtractionAndStoreLocal,
  .BinaryMultiplicationAndStoreLocal, .BinaryDivisionAndStoreLocal, .CompareBEQ, .CompareBNE,
  .CompareBGE, .CompareBLE, .CompareBGT, .CompareBLT, .CompareBEQ8, .CompareBNE8, .CompareBGE8,
  .CompareBLE8, .CompareBGT8, .CompareBLT8, .BLA, .BLA8, .BLO, .BLO8, .LiteralInt8ToGlobal,
  .LiteralInt16ToGlobal, .LiteralInt32ToLocal, .LiteralInt8ToLocal, .LiteralInt16ToLocal,
  .LiteralFloatToGlobal, .LiteralFloatToLocal, .LiteralInt32ToGlobal, .GGBinaryMultiplication,
  .GLBinaryMultiplication, .LLBinaryMultiplication, .GGBinaryAddition, .GLBinaryAddition,
  .LLBinaryAddition, .GGBinarySubtraction, .GLBinarySubtraction, .LGBinarySubtraction,
  .LLBinarySubtraction, .GGBinaryDivision, .GLBinaryDivision, .LGBinaryDivision,
  .LLBinaryDivision, .GPushIterator, .LPushIterator, .GGNextKeyValueOrJump,
  .GLNextKeyValueOrJump, .LGNextKeyValueOrJump, .LLNextKeyValueOrJump, .GNextValueOrJump,
  .LNextValueOrJump, .Switch, .SwitchLinear, .GlobalStop, .ToInt, .ToFloat, .LoadLibConstant,
  .InitArray, .InitVar, .DebugInfo, .LocalBZ, .LocalBZ8, .GlobalBZ, .GlobalBZ8,
  .HASH_PLACEHOLDER, .FUNCTION_CALL_PLACEHOLDER]

/-- The numeric value of an opcode as the byte stored in the code. -/
def Op.code (o : Op) : Byte := BitVec.ofNat 8 o.ctorIdx

/-- The opcode a byte stands for. -/
def Op.decode (b : Byte) : Option Op := Op.list[b.toNat]?

theorem Op.decode_code (o : Op) : Op.decode o.code = some o := by cases o <;> rfl

theorem Op.code_inj {o p : Op} (h : o.code = p.code) : o = p := by
  have := congrArg Op.decode h
  rw [Op.decode_code, Op.decode_code] at this
  exact Option.some.inj this

end Wrench.Vm
