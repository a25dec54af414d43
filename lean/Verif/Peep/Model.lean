import Verif.Vm.Opcode

/-
The optimizing emitter: discrete_src/cc/optimizer.cpp (`KEYHOLE_OPTIMIZER` is defined).

`WRBytecode::all` and `WRBytecode::opcodes` are kept with the last element first, so that
`all[a-k]` and `opcodes[o-k]` (with `a`, `o` the last positions) are index `k`, and `shave(n)` is
`drop n`.  `none` is an access outside the stream (or through the null buffer left by `clear()`).

The code compares `a` and `o` with small numbers to avoid reading outside; those tests are kept.
-/
namespace Wrench.Peep
open Wrench.Vm

/-- `WRBytecode`, cc.h 165-200: the code and the opcode cache, last first. -/
structure Code where
  rall : List Byte
  rops : List Op
deriving DecidableEq, Repr

/-- `bytecode.all[a-k] = v`. -/
def put (l : List Byte) (k : Nat) (v : Byte) : Option (List Byte) :=
  if k < l.length then some (l.set k v) else none

/-- `bytecode.all[a-k] = bytecode.all[a-j]`. -/
def mov (l : List Byte) (k j : Nat) : Option (List Byte) := do
  let v ← l[j]?
  put l k v

/-- The last lines of `pushOpcode`, optimizer.cpp 1321-1322. -/
def Code.push (b : Code) (op : Op) : Code := ⟨op.code :: b.rall, op :: b.rops⟩

/-- `IsLiteralLoadOpcode`, optimizer.cpp 100-107. -/
def isLit : Op → Bool
  | .LiteralInt32 | .LiteralZero | .LiteralFloat | .LiteralInt8 | .LiteralInt16 => true
  | _ => false

/-- The instruction chosen by `CheckSkipLoad` for the loads `opcodes[o-1]`, `opcodes[o]`,
optimizer.cpp 31-75. -/
def xyValues : Op → Op → Option Op
  | .LoadFromLocal, .LoadFromLocal => some .LLValues
  | .LoadFromLocal, .LoadFromGlobal => some .LGValues
  | .LoadFromGlobal, .LoadFromLocal => some .GLValues
  | .LoadFromGlobal, .LoadFromGlobal => some .GGValues
  | _, _ => none

/-- The instructions `CheckFastLoad` handles, optimizer.cpp 85-94. -/
def skipLoad : Op → Option Op
  | .Index => some .IndexSkipLoad
  | .BinaryMod => some .BinaryModSkipLoad
  | .BinaryRightShift => some .BinaryRightShiftSkipLoad
  | .BinaryLeftShift => some .BinaryLeftShiftSkipLoad
  | .BinaryAnd => some .BinaryAndSkipLoad
  | .BinaryOr => some .BinaryOrSkipLoad
  | .BinaryXOR => some .BinaryXORSkipLoad
  | _ => none

/-- `opcode == O_CompareXX && … O_LoadFromLocal … O_LoadFromLocal`, optimizer.cpp 330-383. -/
def llCmp : Op → Option Op
  | .CompareEQ => some .LLCompareEQ
  | .CompareNE => some .LLCompareNE
  | .CompareGT => some .LLCompareGT
  | .CompareLT => some .LLCompareLT
  | .CompareGE => some .LLCompareGE
  | .CompareLE => some .LLCompareLE
  | _ => none

/-- The same for two globals, optimizer.cpp 384-437. -/
def ggCmp : Op → Option Op
  | .CompareEQ => some .GGCompareEQ
  | .CompareNE => some .GGCompareNE
  | .CompareGT => some .GGCompareGT
  | .CompareLT => some .GGCompareLT
  | .CompareGE => some .GGCompareGE
  | .CompareLE => some .GGCompareLE
  | _ => none

/-- The arguments `LS, GS, ILS, IGS` of the calls of `CheckCompareReplace`, optimizer.cpp
439-468. -/
def lsgs : Op → Option (Op × Op × Op × Op)
  | .CompareEQ => some (.LSCompareEQ, .GSCompareEQ, .LSCompareEQ, .GSCompareEQ)
  | .CompareNE => some (.LSCompareNE, .GSCompareNE, .LSCompareNE, .GSCompareNE)
  | .CompareGE => some (.LSCompareGE, .GSCompareGE, .LSCompareLE, .GSCompareLE)
  | .CompareLE => some (.LSCompareLE, .GSCompareLE, .LSCompareGE, .GSCompareGE)
  | .CompareGT => some (.LSCompareGT, .GSCompareGT, .LSCompareLT, .GSCompareLT)
  | .CompareLT => some (.LSCompareLT, .GSCompareLT, .LSCompareGT, .GSCompareGT)
  | _ => none

/-- The byte moves of `CheckCompareReplace` that put the literal before the variable,
optimizer.cpp 127-249; `iv` is `IGS` or `ILS`, `lit` is `opcodes[o]`. -/
def swapLit (lit iv : Op) (l : List Byte) : Option (List Byte) :=
  match lit with
  | .LiteralInt32 | .LiteralFloat => do
    let l ← mov l 6 0
    let l ← mov l 0 5
    let l ← mov l 5 3
    let l ← mov l 4 2
    let l ← mov l 3 1
    let l ← mov l 2 6
    let l ← put l 6 lit.code
    put l 1 iv.code
  | .LiteralZero => do
    let l ← put l 2 Op.LiteralZero.code
    let l ← mov l 0 1
    put l 1 iv.code
  | .LiteralInt8 => do
    let l ← mov l 1 2
    let l ← mov l 2 0
    let l ← mov l 0 1
    let l ← put l 1 iv.code
    put l 3 Op.LiteralInt8.code
  | .LiteralInt16 => do
    let l ← mov l 2 0
    let l ← mov l 4 3
    let l ← mov l 3 1
    let l ← mov l 0 4
    let l ← put l 1 iv.code
    put l 4 Op.LiteralInt16.code
  | _ => none

/-- `CheckCompareReplace`, optimizer.cpp 110-254, for the last opcodes `last`, `prev`.  The
outer option: an access outside the stream; the inner one: whether it returned true. -/
def compareReplace (LS GS ILS IGS : Op) (b : Code) (last prev : Op) (rest : List Op) :
    Option (Option Code) :=
  if isLit prev then
    match last with
    | .LoadFromGlobal => do
      let l ← put b.rall 1 GS.code
      return some ⟨l, GS :: prev :: rest⟩
    | .LoadFromLocal => do
      let l ← put b.rall 1 LS.code
      return some ⟨l, LS :: prev :: rest⟩
    | _ => some none
  else if isLit last then
    match prev with
    | .LoadFromGlobal => do
      let l ← swapLit last IGS b.rall
      return some ⟨l, IGS :: prev :: rest⟩
    | .LoadFromLocal => do
      let l ← swapLit last ILS b.rall
      return some ⟨l, ILS :: prev :: rest⟩
    | _ => some none
  else some none

/-- `bytecode.all[a-3] = fused; bytecode.all[a-1] = bytecode.all[a]; bytecode.all.shave(1)`. -/
def fuse2 (fused : Op) (l : List Byte) : Option (List Byte) := do
  let l ← put l 3 fused.code
  let l ← mov l 1 0
  return l.drop 1

/-- The same with the operands exchanged (optimizer.cpp 498-503, 543-548). -/
def fuse2x (fused : Op) (l : List Byte) : Option (List Byte) := do
  let l ← put l 3 fused.code
  let l ← mov l 1 2
  let l ← mov l 2 0
  return l.drop 1

/-- The fused arithmetic instruction for loads `prev`, `last` and whether the operands are
exchanged, optimizer.cpp 472-651. -/
def fusedArith (op prev last : Op) : Option (Op × Bool) :=
  match op, prev, last with
  | .BinaryMultiplication, .LoadFromGlobal, .LoadFromGlobal => some (.GGBinaryMultiplication, false)
  | .BinaryMultiplication, .LoadFromGlobal, .LoadFromLocal => some (.GLBinaryMultiplication, true)
  | .BinaryMultiplication, .LoadFromLocal, .LoadFromGlobal => some (.GLBinaryMultiplication, false)
  | .BinaryMultiplication, .LoadFromLocal, .LoadFromLocal => some (.LLBinaryMultiplication, false)
  | .BinaryAddition, .LoadFromGlobal, .LoadFromGlobal => some (.GGBinaryAddition, false)
  | .BinaryAddition, .LoadFromGlobal, .LoadFromLocal => some (.GLBinaryAddition, true)
  | .BinaryAddition, .LoadFromLocal, .LoadFromGlobal => some (.GLBinaryAddition, false)
  | .BinaryAddition, .LoadFromLocal, .LoadFromLocal => some (.LLBinaryAddition, false)
  | .BinarySubtraction, .LoadFromGlobal, .LoadFromGlobal => some (.GGBinarySubtraction, false)
  | .BinarySubtraction, .LoadFromGlobal, .LoadFromLocal => some (.LGBinarySubtraction, false)
  | .BinarySubtraction, .LoadFromLocal, .LoadFromGlobal => some (.GLBinarySubtraction, false)
  | .BinarySubtraction, .LoadFromLocal, .LoadFromLocal => some (.LLBinarySubtraction, false)
  | .BinaryDivision, .LoadFromGlobal, .LoadFromGlobal => some (.GGBinaryDivision, false)
  | .BinaryDivision, .LoadFromGlobal, .LoadFromLocal => some (.LGBinaryDivision, false)
  | .BinaryDivision, .LoadFromLocal, .LoadFromGlobal => some (.GLBinaryDivision, false)
  | .BinaryDivision, .LoadFromLocal, .LoadFromLocal => some (.LLBinaryDivision, false)
  | _, _, _ => none

/-- The branch forms of the fused comparisons with the distance of the opcode byte from the
end, optimizer.cpp 669-813. -/
def cmpBZ : Op → Option (Op × Nat)
  | .LLCompareLT => some (.LLCompareLTBZ, 2)
  | .LLCompareGT => some (.LLCompareGTBZ, 2)
  | .LLCompareGE => some (.LLCompareGEBZ, 2)
  | .LLCompareLE => some (.LLCompareLEBZ, 2)
  | .LLCompareEQ => some (.LLCompareEQBZ, 2)
  | .LLCompareNE => some (.LLCompareNEBZ, 2)
  | .GGCompareLT => some (.GGCompareLTBZ, 2)
  | .GGCompareGT => some (.GGCompareGTBZ, 2)
  | .GGCompareLE => some (.GGCompareLEBZ, 2)
  | .GGCompareGE => some (.GGCompareGEBZ, 2)
  | .GGCompareEQ => some (.GGCompareEQBZ, 2)
  | .GGCompareNE => some (.GGCompareNEBZ, 2)
  | .GSCompareEQ => some (.GSCompareEQBZ, 1)
  | .LSCompareEQ => some (.LSCompareEQBZ, 1)
  | .GSCompareNE => some (.GSCompareNEBZ, 1)
  | .LSCompareNE => some (.LSCompareNEBZ, 1)
  | .GSCompareGE => some (.GSCompareGEBZ, 1)
  | .LSCompareGE => some (.LSCompareGEBZ, 1)
  | .GSCompareLE => some (.GSCompareLEBZ, 1)
  | .LSCompareLE => some (.LSCompareLEBZ, 1)
  | .GSCompareGT => some (.GSCompareGTBZ, 1)
  | .LSCompareGT => some (.LSCompareGTBZ, 1)
  | .GSCompareLT => some (.GSCompareLTBZ, 1)
  | .LSCompareLT => some (.LSCompareLTBZ, 1)
  | .LoadFromLocal => some (.LocalBZ, 1)
  | .LoadFromGlobal => some (.GlobalBZ, 1)
  | .LogicalOr => some (.BLO, 0)
  | .LogicalAnd => some (.BLA, 0)
  | _ => none

/-- The comparisons on the stack and their branch forms, optimizer.cpp 814-972. -/
def cmpB : Op → Option Op
  | .CompareEQ => some .CompareBEQ
  | .CompareLT => some .CompareBLT
  | .CompareGT => some .CompareBGT
  | .CompareGE => some .CompareBGE
  | .CompareLE => some .CompareBLE
  | .CompareNE => some .CompareBNE
  | _ => none

/-- Instructions whose popping form replaces the opcode byte, optimizer.cpp 1023-1050 and
1258-1315. -/
def andPop : Op → Option Op
  | .PreIncrement | .PostIncrement => some .PreIncrementAndPop
  | .PreDecrement | .PostDecrement => some .PreDecrementAndPop
  | .Assign => some .AssignAndPop
  | .SubtractAssign => some .SubtractAssignAndPop
  | .AddAssign => some .AddAssignAndPop
  | .ModAssign => some .ModAssignAndPop
  | .MultiplyAssign => some .MultiplyAssignAndPop
  | .DivideAssign => some .DivideAssignAndPop
  | .ORAssign => some .ORAssignAndPop
  | .ANDAssign => some .ANDAssignAndPop
  | .XORAssign => some .XORAssignAndPop
  | .RightShiftAssign => some .RightShiftAssignAndPop
  | .LeftShiftAssign => some .LeftShiftAssignAndPop
  | _ => none

/-- Increment and decrement of a variable whose value is discarded, optimizer.cpp 1016-1059. -/
def bumpVar : Op → Op → Option Op
  | .PreIncrement, .LoadFromGlobal | .PostIncrement, .LoadFromGlobal => some .IncGlobal
  | .PreIncrement, .LoadFromLocal | .PostIncrement, .LoadFromLocal => some .IncLocal
  | .PreDecrement, .LoadFromGlobal | .PostDecrement, .LoadFromGlobal => some .DecGlobal
  | .PreDecrement, .LoadFromLocal | .PostDecrement, .LoadFromLocal => some .DecLocal
  | _, _ => none

/-- `load; Assign; PopOne` with the instruction `before` preceding the load, optimizer.cpp
1064-1250. -/
def assignPop (load : Op) (before : Option Op) (b : Code) : Option Code :=
  let g := load = .LoadFromGlobal
  let lit1 (op : Op) : Option Code := do
    let l ← put b.rall 4 op.code
    let l ← mov l 2 3
    let l ← mov l 3 1
    return ⟨l.drop 2, []⟩
  let lit2 (op : Op) : Option Code := do
    let l ← put b.rall 5 op.code
    let l ← mov l 2 3
    let l ← mov l 3 4
    let l ← mov l 4 1
    return ⟨l.drop 2, []⟩
  let lit4 (op : Op) : Option Code := do
    let l ← put b.rall 7 op.code
    let l ← mov l 2 3
    let l ← mov l 3 4
    let l ← mov l 4 5
    let l ← mov l 5 6
    let l ← mov l 6 1
    return ⟨l.drop 2, []⟩
  let lit0 (op : Op) : Option Code := do
    let l ← put b.rall 3 op.code
    let l ← mov l 2 1
    let l ← put l 1 0
    return ⟨l.drop 1, []⟩
  let bin (op : Op) : Option Code := do
    let l ← put b.rall 3 op.code
    let l ← mov l 2 1
    return ⟨l.drop 2, []⟩
  let plain (op : Op) : Option Code := do
    let l ← put b.rall 2 op.code
    return ⟨l.drop 1, []⟩
  match before with
  | some .LiteralInt8 => lit1 (if g then .LiteralInt8ToGlobal else .LiteralInt8ToLocal)
  | some .LiteralInt16 => lit2 (if g then .LiteralInt16ToGlobal else .LiteralInt16ToLocal)
  | some .LiteralInt32 => lit4 (if g then .LiteralInt32ToGlobal else .LiteralInt32ToLocal)
  | some .LiteralFloat => lit4 (if g then .LiteralFloatToGlobal else .LiteralFloatToLocal)
  | some .LiteralZero => lit0 (if g then .LiteralInt8ToGlobal else .LiteralInt8ToLocal)
  | some .BinaryDivision => bin (if g then .BinaryDivisionAndStoreGlobal else .BinaryDivisionAndStoreLocal)
  | some .BinaryAddition => bin (if g then .BinaryAdditionAndStoreGlobal else .BinaryAdditionAndStoreLocal)
  | some .BinaryMultiplication =>
    bin (if g then .BinaryMultiplicationAndStoreGlobal else .BinaryMultiplicationAndStoreLocal)
  | some .BinarySubtraction =>
    bin (if g then .BinarySubtractionAndStoreGlobal else .BinarySubtractionAndStoreLocal)
  | some .FUNCTION_CALL_PLACEHOLDER =>
    if g then do
      let l ← put b.rall 2 Op.AssignToGlobalAndPop.code
      return ⟨l.drop 1, .AssignToGlobalAndPop :: b.rops.drop 1⟩
    else plain .AssignToLocalAndPop
  | _ => plain (if g then .AssignToGlobalAndPop else .AssignToLocalAndPop)

/-- `pushOpcode( bytecode, O_PopOne )`, optimizer.cpp 994-1316. -/
def pushPop (b : Code) (last : Op) (rest : List Op) : Option Code :=
  match last with
  | .LoadFromLocal | .LoadFromGlobal =>
    if 2 ≤ b.rall.length then some ⟨b.rall.drop 2, []⟩ else none
  | .CallLibFunction =>
    -- a > 4
    if 5 < b.rall.length then do
      let l ← put b.rall 5 Op.CallLibFunctionAndPop.code
      return ⟨l, .CallLibFunctionAndPop :: rest⟩
    else some (b.push .PopOne)
  | .FUNCTION_CALL_PLACEHOLDER => do
    let l ← put b.rall 0 Op.PopOne.code
    return ⟨l, last :: rest⟩
  | .LiteralZero => if 1 ≤ b.rall.length then some ⟨b.rall.drop 1, []⟩ else none
  | .Assign =>
    match rest with
    | .LoadFromGlobal :: more => assignPop .LoadFromGlobal more.head? b
    | .LoadFromLocal :: more => assignPop .LoadFromLocal more.head? b
    | _ => do
      let l ← put b.rall 0 Op.AssignAndPop.code
      return ⟨l, .AssignAndPop :: rest⟩
  | _ =>
    match (rest.head?).bind (bumpVar last) with
    | some op => do
      let l ← put b.rall 2 op.code
      return ⟨l.drop 1, []⟩
    | none =>
      match andPop last with
      | some op => do
        let l ← put b.rall 0 op.code
        return ⟨l, op :: rest⟩
      | none => some (b.push .PopOne)

/-- `pushOpcode( bytecode, O_BZ )`, optimizer.cpp 667-993.  The fusion of a comparison still
preceded by two loads writes through the buffer just cleared (824, 832, …): `none`. -/
def pushBZ (b : Code) (last : Op) (rest : List Op) : Option Code :=
  match cmpBZ last with
  | some (op, k) => do
    let l ← put b.rall k op.code
    return ⟨l, op :: rest⟩
  | none =>
    match cmpB last with
    | some op =>
      match rest with
      | .LoadFromLocal :: .LoadFromLocal :: _ => none
      | .LoadFromGlobal :: .LoadFromGlobal :: _ => none
      | _ => do
        let l ← put b.rall 0 op.code
        return ⟨l, op :: rest⟩
    | none => some (b.push .BZ)

/-- `pushOpcode( bytecode, O_Negate )`, optimizer.cpp 268-322; `neg` negates a float's bits. -/
def pushNeg (neg : Word32 → Word32) (b : Code) (last : Op) (rest : List Op) : Option Code :=
  match last with
  | .LiteralInt8 => match b.rall with
    | x :: l => some ⟨-x :: l, last :: rest⟩
    | _ => none
  | .LiteralInt16 =>
    -- a > 1
    if 2 < b.rall.length then match b.rall with
      | x1 :: x0 :: l =>
        let be : Word16 := -(x0.setWidth 16 ||| (x1.setWidth 16) <<< 8)
        some ⟨(be.sshiftRight 8).setWidth 8 :: (be &&& 0xFF#16).setWidth 8 :: l, last :: rest⟩
      | _ => none
    else some (b.push .Negate)
  | .LiteralInt32 => match b.rall with
    | x3 :: x2 :: x1 :: x0 :: l =>
      let be : Word32 := -(x0.setWidth 32 ||| (x1.setWidth 32) <<< 8
        ||| (x2.setWidth 32) <<< 16 ||| (x3.setWidth 32) <<< 24)
      some ⟨(be >>> 24).setWidth 8 :: (be >>> 16).setWidth 8 :: (be >>> 8).setWidth 8 ::
        (be &&& 0xFF#32).setWidth 8 :: l, last :: rest⟩
    | _ => none
  | .LiteralFloat => match b.rall with
    | x3 :: x2 :: x1 :: x0 :: l =>
      let be : Word32 := neg (x0.setWidth 32 ||| (x1.setWidth 32) <<< 8
        ||| (x2.setWidth 32) <<< 16 ||| (x3.setWidth 32) <<< 24)
      some ⟨(be.sshiftRight 24).setWidth 8 :: (be.sshiftRight 16).setWidth 8 ::
        (be.sshiftRight 8).setWidth 8 :: (be &&& 0xFF#32).setWidth 8 :: l, last :: rest⟩
    | _ => none
  | _ => some (b.push .Negate)

/-- The four arithmetic instructions, optimizer.cpp 472-651.  The multiplication tests `o > 1`;
the others read `opcodes[o-1]` without a test, also when `o` is 0 (`none`). -/
def pushArith (b : Code) (op last : Op) (rest : List Op) : Option Code :=
  let load := last = .LoadFromGlobal ∨ last = .LoadFromLocal
  let fuse (prev : Op) : Option Code :=
    match fusedArith op prev last with
    | some (fused, false) => do
      let l ← fuse2 fused b.rall
      return ⟨l, []⟩
    | some (fused, true) => do
      let l ← fuse2x fused b.rall
      return ⟨l, []⟩
    | none => some (b.push op)
  -- a > 2
  if 3 < b.rall.length then
    match rest with
    | [] => if op = .BinaryMultiplication ∨ ¬load then some (b.push op) else none
    | [prev] => if op = .BinaryMultiplication then some (b.push op) else fuse prev
    | prev :: _ :: _ => fuse prev
  else some (b.push op)

/-- `pushOpcode( bytecode, O_Index )`, optimizer.cpp 654-666. -/
def pushIndex (b : Code) (last : Op) (rest : List Op) : Option Code :=
  match last with
  | .LiteralInt16 => do
    let l ← put b.rall 2 Op.IndexLiteral16.code
    return ⟨l, .IndexLiteral16 :: rest⟩
  | .LiteralInt8 => do
    let l ← put b.rall 1 Op.IndexLiteral8.code
    return ⟨l, .IndexLiteral8 :: rest⟩
  | _ => some (b.push .Index)

/-- `pushOpcode` for the comparisons, optimizer.cpp 330-467. -/
def pushCmp (b : Code) (op last : Op) (rest : List Op) : Option Code :=
  match rest with
  | [] => some (b.push op)
  | prev :: more =>
    match llCmp op, ggCmp op, lsgs op with
    | some ll, some gg, some (LS, GS, ILS, IGS) =>
      if last = .LoadFromLocal ∧ prev = .LoadFromLocal then do
        let l ← fuse2 ll b.rall
        return ⟨l, [ll]⟩
      else if last = .LoadFromGlobal ∧ prev = .LoadFromGlobal then do
        let l ← fuse2 gg b.rall
        return ⟨l, [gg]⟩
      else do
        match ← compareReplace LS GS ILS IGS b last prev more with
        | some b' => return b'
        | none => return b.push op
    | _, _, _ => some (b.push op)

/-- The six comparisons. -/
def isCmp (op : Op) : Bool := (llCmp op).isSome

/-- The four arithmetic instructions. -/
def isArith : Op → Bool
  | .BinaryMultiplication | .BinaryAddition | .BinarySubtraction | .BinaryDivision => true
  | _ => false

/-- `CheckFastLoad`/`CheckSkipLoad`, optimizer.cpp 31-97: the outer option is an access outside
the stream, the inner one whether it returned true. -/
def fastLoad (b : Code) (op last : Op) (rest : List Op) : Option (Option Code) :=
  match skipLoad op, rest with
  | some sk, prev :: more =>
    -- a > 2
    if 3 < b.rall.length then
      match xyValues prev last with
      | some xy => do
        let l ← put b.rall 3 xy.code
        let l ← mov l 1 0
        let l ← put l 0 sk.code
        return some ⟨l, sk :: more⟩
      | none => some none
    else some none
  | _, _ => some none

/-- `pushOpcode`, optimizer.cpp 257-1323. -/
def pushOpcode (neg : Word32 → Word32) (b : Code) (op : Op) : Option Code :=
  match b.rops with
  | [] => some (b.push op)
  | last :: rest =>
    if op = .Negate then pushNeg neg b last rest
    else if op = .Return ∧ last = .LiteralZero then do
      let l ← put b.rall 0 Op.ReturnZero.code
      return ⟨l, .ReturnZero :: rest⟩
    else if isCmp op then pushCmp b op last rest
    else do
      match ← fastLoad b op last rest with
      | some b' => return b'
      | none =>
        if isArith op then pushArith b op last rest
        else if op = .Index then pushIndex b last rest
        else if op = .BZ then pushBZ b last rest
        else if op = .PopOne then pushPop b last rest
        else return b.push op

/-- An instruction with its operand bytes: `pushOpcode` then `pushData` (cc.h 421-422). -/
def emit (neg : Word32 → Word32) (b : Code) (op : Op) (data : List Byte) : Option Code := do
  let b ← pushOpcode neg b op
  return { b with rall := data.reverse ++ b.rall }

/-- The last part of `appendBytecode`, optimizer.cpp 1391-1592, for code without jumps, gotos and
hash placeholders: `add` is appended to `b`.  `none` also for an empty cache with a single byte
(`addMe.opcodes[0]` of an empty stream). -/
def appendCode (neg : Word32 → Word32) (b add : Code) : Option Code :=
  let plain : Option Code := some ⟨add.rall ++ b.rall, add.rops ++ b.rops⟩
  let idxLit (fused : Op) : Option Code := do
    let l ← put b.rall 1 fused.code
    return ⟨add.rall.dropLast ++ l, [fused]⟩
  let idxVar (fused second : Op) : Option Code := do
    let x ← b.rall[0]?
    let y ← add.rall[1]?
    let l ← put b.rall 0 y
    let l ← put l 1 fused.code
    return ⟨Op.IndexSkipLoad.code :: x :: l, .IndexSkipLoad :: second :: b.rops⟩
  let single : Option Code :=
    if add.rall.length = 1 then
      match add.rops.getLast? with
      | some op => pushOpcode neg b op
      | none => none
    else plain
  match add.rops, b.rops with
  | [.IndexLiteral16], .LoadFromLocal :: _ =>
    if 1 < b.rall.length ∧ 2 < add.rall.length then idxLit .IndexLocalLiteral16 else single
  | [.IndexLiteral16], .LoadFromGlobal :: _ =>
    if 1 < b.rall.length ∧ 2 < add.rall.length then idxLit .IndexGlobalLiteral16 else single
  | [.IndexLiteral8], .LoadFromLocal :: _ =>
    if 1 < b.rall.length ∧ 1 < add.rall.length then idxLit .IndexLocalLiteral8 else single
  | [.IndexLiteral8], .LoadFromGlobal :: _ =>
    if 1 < b.rall.length ∧ 1 < add.rall.length then idxLit .IndexGlobalLiteral8 else single
  | [.Index, first], last :: _ =>
    if 0 < b.rall.length ∧ add.rall.length = 3 then
      match last, first with
      | .LoadFromLocal, .LoadFromLocal => idxVar .LLValues .LoadFromLocal
      | .LoadFromGlobal, .LoadFromGlobal => idxVar .GGValues .LoadFromGlobal
      | .LoadFromLocal, .LoadFromGlobal => idxVar .GLValues .LoadFromGlobal
      | .LoadFromGlobal, .LoadFromLocal => idxVar .LGValues .LoadFromLocal
      | _, _ => plain
    else single
  | _, _ => single

end Wrench.Peep
