import Verif.Vm.Opcode

/-
Relative jumps: addRelativeJumpTarget / setRelativeJumpTarget / addRelativeJumpSource(Ex) /
resolveRelativeJumps (discrete_src/cc/cc.cpp 345-752), the goto patching of the linker
(cc/link.cpp 258-293), and the program-counter effect of the branch instructions in
discrete_src/vm/vm.cpp (non-compact interpreter).

The four opcode tables are transcribed from the `switch` statements case by case.
Offsets are natural numbers, the displacement an unbounded integer (`int32_t` in the code;
the emitted code would have to exceed 2 GB to make a difference).
-/
namespace Wrench.Vm.Jump

/-- First `switch` of `resolveRelativeJumps`, cc.cpp 441-525: how much is subtracted from
`diff`. -/
def adjust : Op → Nat
  | .GSCompareEQBZ8 | .LSCompareEQBZ8 | .GSCompareNEBZ8 | .LSCompareNEBZ8 | .GSCompareGEBZ8
    | .LSCompareGEBZ8 | .GSCompareLEBZ8 | .LSCompareLEBZ8 | .GSCompareGTBZ8 | .LSCompareGTBZ8
    | .GSCompareLTBZ8 | .LSCompareLTBZ8 | .GSCompareEQBZ | .LSCompareEQBZ | .GSCompareNEBZ
    | .LSCompareNEBZ | .GSCompareGEBZ | .LSCompareGEBZ | .GSCompareLEBZ | .LSCompareLEBZ
    | .GSCompareGTBZ | .LSCompareGTBZ | .GSCompareLTBZ | .LSCompareLTBZ | .LocalBZ
    | .LocalBZ8 | .GlobalBZ | .GlobalBZ8 => 1
  | .LLCompareLTBZ8 | .LLCompareGTBZ8 | .LLCompareLEBZ8 | .LLCompareGEBZ8 | .LLCompareEQBZ8
    | .LLCompareNEBZ8 | .GGCompareLTBZ8 | .GGCompareGTBZ8 | .GGCompareLEBZ8 | .GGCompareGEBZ8
    | .GGCompareEQBZ8 | .GGCompareNEBZ8 | .LLCompareLTBZ | .LLCompareGTBZ | .LLCompareLEBZ
    | .LLCompareGEBZ | .LLCompareEQBZ | .LLCompareNEBZ | .GGCompareLTBZ | .GGCompareGTBZ
    | .GGCompareLEBZ | .GGCompareGEBZ | .GGCompareEQBZ | .GGCompareNEBZ | .GNextValueOrJump
    | .LNextValueOrJump => 2
  | .GGNextKeyValueOrJump | .GLNextKeyValueOrJump | .LGNextKeyValueOrJump
    | .LLNextKeyValueOrJump => 3
  | _ => 0

/-- `no8version`, cc.cpp 505-521. -/
def no8 : Op → Bool
  | .GGNextKeyValueOrJump | .GLNextKeyValueOrJump | .LGNextKeyValueOrJump
    | .LLNextKeyValueOrJump | .GNextValueOrJump | .LNextValueOrJump => true
  | _ => false

/-- Second `switch`, cc.cpp 530-624 (displacement fits a byte): the opcode stored and the
advance of `offset`; `none` is the `default:` branch, WR_ERR_compiler_panic. -/
def toShort : Op → Option (Op × Nat)
  | .RelativeJump => some (.RelativeJump8, 0)
  | .BZ => some (.BZ8, 0)
  | .CompareBEQ => some (.CompareBEQ8, 0)
  | .CompareBNE => some (.CompareBNE8, 0)
  | .CompareBGE => some (.CompareBGE8, 0)
  | .CompareBLE => some (.CompareBLE8, 0)
  | .CompareBGT => some (.CompareBGT8, 0)
  | .CompareBLT => some (.CompareBLT8, 0)
  | .GSCompareEQBZ => some (.GSCompareEQBZ8, 1)
  | .LSCompareEQBZ => some (.LSCompareEQBZ8, 1)
  | .GSCompareNEBZ => some (.GSCompareNEBZ8, 1)
  | .LSCompareNEBZ => some (.LSCompareNEBZ8, 1)
  | .GSCompareGEBZ => some (.GSCompareGEBZ8, 1)
  | .LSCompareGEBZ => some (.LSCompareGEBZ8, 1)
  | .GSCompareLEBZ => some (.GSCompareLEBZ8, 1)
  | .LSCompareLEBZ => some (.LSCompareLEBZ8, 1)
  | .GSCompareGTBZ => some (.GSCompareGTBZ8, 1)
  | .LSCompareGTBZ => some (.LSCompareGTBZ8, 1)
  | .GSCompareLTBZ => some (.GSCompareLTBZ8, 1)
  | .LSCompareLTBZ => some (.LSCompareLTBZ8, 1)
  | .LLCompareLTBZ => some (.LLCompareLTBZ8, 2)
  | .LLCompareGTBZ => some (.LLCompareGTBZ8, 2)
  | .LLCompareLEBZ => some (.LLCompareLEBZ8, 2)
  | .LLCompareGEBZ => some (.LLCompareGEBZ8, 2)
  | .LLCompareEQBZ => some (.LLCompareEQBZ8, 2)
  | .LLCompareNEBZ => some (.LLCompareNEBZ8, 2)
  | .GGCompareLTBZ => some (.GGCompareLTBZ8, 2)
  | .GGCompareGTBZ => some (.GGCompareGTBZ8, 2)
  | .GGCompareLEBZ => some (.GGCompareLEBZ8, 2)
  | .GGCompareGEBZ => some (.GGCompareGEBZ8, 2)
  | .GGCompareEQBZ => some (.GGCompareEQBZ8, 2)
  | .GGCompareNEBZ => some (.GGCompareNEBZ8, 2)
  | .BLA => some (.BLA8, 0)
  | .BLO => some (.BLO8, 0)
  | .LocalBZ => some (.LocalBZ8, 1)
  | .GlobalBZ => some (.GlobalBZ8, 1)
  | .RelativeJump8 => some (.RelativeJump8, 0)
  | .BZ8 => some (.BZ8, 0)
  | .BLA8 => some (.BLA8, 0)
  | .BLO8 => some (.BLO8, 0)
  | .CompareBLE8 => some (.CompareBLE8, 0)
  | .CompareBGE8 => some (.CompareBGE8, 0)
  | .CompareBGT8 => some (.CompareBGT8, 0)
  | .CompareBLT8 => some (.CompareBLT8, 0)
  | .CompareBEQ8 => some (.CompareBEQ8, 0)
  | .CompareBNE8 => some (.CompareBNE8, 0)
  | .GSCompareEQBZ8 => some (.GSCompareEQBZ8, 1)
  | .LSCompareEQBZ8 => some (.LSCompareEQBZ8, 1)
  | .GSCompareNEBZ8 => some (.GSCompareNEBZ8, 1)
  | .LSCompareNEBZ8 => some (.LSCompareNEBZ8, 1)
  | .GSCompareGEBZ8 => some (.GSCompareGEBZ8, 1)
  | .LSCompareGEBZ8 => some (.LSCompareGEBZ8, 1)
  | .GSCompareLEBZ8 => some (.GSCompareLEBZ8, 1)
  | .LSCompareLEBZ8 => some (.LSCompareLEBZ8, 1)
  | .GSCompareGTBZ8 => some (.GSCompareGTBZ8, 1)
  | .LSCompareGTBZ8 => some (.LSCompareGTBZ8, 1)
  | .GSCompareLTBZ8 => some (.GSCompareLTBZ8, 1)
  | .LSCompareLTBZ8 => some (.LSCompareLTBZ8, 1)
  | .LocalBZ8 => some (.LocalBZ8, 1)
  | .GlobalBZ8 => some (.GlobalBZ8, 1)
  | .LLCompareLTBZ8 => some (.LLCompareLTBZ8, 2)
  | .LLCompareGTBZ8 => some (.LLCompareGTBZ8, 2)
  | .LLCompareLEBZ8 => some (.LLCompareLEBZ8, 2)
  | .LLCompareGEBZ8 => some (.LLCompareGEBZ8, 2)
  | .LLCompareEQBZ8 => some (.LLCompareEQBZ8, 2)
  | .LLCompareNEBZ8 => some (.LLCompareNEBZ8, 2)
  | .GGCompareLTBZ8 => some (.GGCompareLTBZ8, 2)
  | .GGCompareGTBZ8 => some (.GGCompareGTBZ8, 2)
  | .GGCompareLEBZ8 => some (.GGCompareLEBZ8, 2)
  | .GGCompareGEBZ8 => some (.GGCompareGEBZ8, 2)
  | .GGCompareEQBZ8 => some (.GGCompareEQBZ8, 2)
  | .GGCompareNEBZ8 => some (.GGCompareNEBZ8, 2)
  | _ => none

/-- Third `switch`, cc.cpp 635-746 (16-bit displacement). -/
def toLong : Op → Option (Op × Nat)
  | .RelativeJump8 => some (.RelativeJump, 0)
  | .BZ8 => some (.BZ, 0)
  | .CompareBEQ8 => some (.CompareBEQ, 0)
  | .CompareBNE8 => some (.CompareBNE, 0)
  | .CompareBGE8 => some (.CompareBGE, 0)
  | .CompareBLE8 => some (.CompareBLE, 0)
  | .CompareBGT8 => some (.CompareBGT, 0)
  | .CompareBLT8 => some (.CompareBLT, 0)
  | .GSCompareEQBZ8 => some (.GSCompareEQBZ, 1)
  | .LSCompareEQBZ8 => some (.LSCompareEQBZ, 1)
  | .GSCompareNEBZ8 => some (.GSCompareNEBZ, 1)
  | .LSCompareNEBZ8 => some (.LSCompareNEBZ, 1)
  | .GSCompareGEBZ8 => some (.GSCompareGEBZ, 1)
  | .LSCompareGEBZ8 => some (.LSCompareGEBZ, 1)
  | .GSCompareLEBZ8 => some (.GSCompareLEBZ, 1)
  | .LSCompareLEBZ8 => some (.LSCompareLEBZ, 1)
  | .GSCompareGTBZ8 => some (.GSCompareGTBZ, 1)
  | .LSCompareGTBZ8 => some (.LSCompareGTBZ, 1)
  | .GSCompareLTBZ8 => some (.GSCompareLTBZ, 1)
  | .LSCompareLTBZ8 => some (.LSCompareLTBZ, 1)
  | .LocalBZ8 => some (.LocalBZ, 1)
  | .GlobalBZ8 => some (.GlobalBZ, 1)
  | .LLCompareLTBZ8 => some (.LLCompareLTBZ, 2)
  | .LLCompareGTBZ8 => some (.LLCompareGTBZ, 2)
  | .LLCompareLEBZ8 => some (.LLCompareLEBZ, 2)
  | .LLCompareGEBZ8 => some (.LLCompareGEBZ, 2)
  | .LLCompareEQBZ8 => some (.LLCompareEQBZ, 2)
  | .LLCompareNEBZ8 => some (.LLCompareNEBZ, 2)
  | .GGCompareLTBZ8 => some (.GGCompareLTBZ, 2)
  | .GGCompareGTBZ8 => some (.GGCompareGTBZ, 2)
  | .GGCompareLEBZ8 => some (.GGCompareLEBZ, 2)
  | .GGCompareGEBZ8 => some (.GGCompareGEBZ, 2)
  | .GGCompareEQBZ8 => some (.GGCompareEQBZ, 2)
  | .GGCompareNEBZ8 => some (.GGCompareNEBZ, 2)
  | .GGNextKeyValueOrJump => some (.GGNextKeyValueOrJump, 3)
  | .GLNextKeyValueOrJump => some (.GLNextKeyValueOrJump, 3)
  | .LGNextKeyValueOrJump => some (.LGNextKeyValueOrJump, 3)
  | .LLNextKeyValueOrJump => some (.LLNextKeyValueOrJump, 3)
  | .GNextValueOrJump => some (.GNextValueOrJump, 2)
  | .LNextValueOrJump => some (.LNextValueOrJump, 2)
  | .BLA8 => some (.BLA, 0)
  | .BLO8 => some (.BLO, 0)
  | .RelativeJump => some (.RelativeJump, 0)
  | .BZ => some (.BZ, 0)
  | .BLA => some (.BLA, 0)
  | .BLO => some (.BLO, 0)
  | .CompareBLE => some (.CompareBLE, 0)
  | .CompareBGE => some (.CompareBGE, 0)
  | .CompareBGT => some (.CompareBGT, 0)
  | .CompareBLT => some (.CompareBLT, 0)
  | .CompareBEQ => some (.CompareBEQ, 0)
  | .CompareBNE => some (.CompareBNE, 0)
  | .GSCompareEQBZ => some (.GSCompareEQBZ, 1)
  | .LSCompareEQBZ => some (.LSCompareEQBZ, 1)
  | .GSCompareNEBZ => some (.GSCompareNEBZ, 1)
  | .LSCompareNEBZ => some (.LSCompareNEBZ, 1)
  | .GSCompareGEBZ => some (.GSCompareGEBZ, 1)
  | .LSCompareGEBZ => some (.LSCompareGEBZ, 1)
  | .GSCompareLEBZ => some (.GSCompareLEBZ, 1)
  | .LSCompareLEBZ => some (.LSCompareLEBZ, 1)
  | .GSCompareGTBZ => some (.GSCompareGTBZ, 1)
  | .LSCompareGTBZ => some (.LSCompareGTBZ, 1)
  | .GSCompareLTBZ => some (.GSCompareLTBZ, 1)
  | .LSCompareLTBZ => some (.LSCompareLTBZ, 1)
  | .LocalBZ => some (.LocalBZ, 1)
  | .GlobalBZ => some (.GlobalBZ, 1)
  | .LLCompareLTBZ => some (.LLCompareLTBZ, 2)
  | .LLCompareGTBZ => some (.LLCompareGTBZ, 2)
  | .LLCompareLEBZ => some (.LLCompareLEBZ, 2)
  | .LLCompareGEBZ => some (.LLCompareGEBZ, 2)
  | .LLCompareEQBZ => some (.LLCompareEQBZ, 2)
  | .LLCompareNEBZ => some (.LLCompareNEBZ, 2)
  | .GGCompareLTBZ => some (.GGCompareLTBZ, 2)
  | .GGCompareGTBZ => some (.GGCompareGTBZ, 2)
  | .GGCompareLEBZ => some (.GGCompareLEBZ, 2)
  | .GGCompareGEBZ => some (.GGCompareGEBZ, 2)
  | .GGCompareEQBZ => some (.GGCompareEQBZ, 2)
  | .GGCompareNEBZ => some (.GGCompareNEBZ, 2)
  | _ => none

/-- The `switch` of `addRelativeJumpSource`, cc.cpp 383-421: how far before the end of the
code the reference is placed. -/
def back : Op → Nat
  | .GSCompareEQBZ | .LSCompareEQBZ | .GSCompareNEBZ | .LSCompareNEBZ | .GSCompareGEBZ
    | .LSCompareGEBZ | .GSCompareLEBZ | .LSCompareLEBZ | .GSCompareGTBZ | .LSCompareGTBZ
    | .GSCompareLTBZ | .LSCompareLTBZ | .LocalBZ | .GlobalBZ => 1
  | .LLCompareLTBZ | .LLCompareGTBZ | .LLCompareLEBZ | .LLCompareGEBZ | .LLCompareEQBZ
    | .LLCompareNEBZ | .GGCompareLTBZ | .GGCompareGTBZ | .GGCompareLEBZ | .GGCompareGEBZ
    | .GGCompareEQBZ | .GGCompareNEBZ => 2
  | _ => 0

/-- Outcome of the resolution: the code, a compiler error, or an out-of-range access. -/
inductive Out (α : Type) where
  | ok (a : α)
  | badGoto
  | panic
  | ub
deriving DecidableEq, Repr

/-- Replace the byte at `p`; `ub` outside the buffer. -/
def store (all : List Byte) (p : Nat) (b : Byte) : Out (List Byte) :=
  if p < all.length then .ok (all.set p b) else .ub

def Out.bind {α β : Type} : Out α → (α → Out β) → Out β
  | .ok a, f => f a
  | .badGoto, _ => .badGoto
  | .panic, _ => .panic
  | .ub, _ => .ub

/-- Body of the double loop of `resolveRelativeJumps` for one reference, cc.cpp 435-749.
`target` is `jumpOffsetTargets[j].offset`, `ref` is `references[t]`. -/
def resolveOne (all : List Byte) (target ref : Nat) : Out (List Byte) :=
  if ref = 0 then .ub else
  match all[ref - 1]? with
  | none => .ub
  | some b =>
    match Op.decode b with
    | none => .panic
    | some o =>
      let diff : Int := (target : Int) - ref - adjust o
      if diff < 128 ∧ diff > -129 ∧ no8 o = false then
        match toShort o with
        | none => .panic
        | some (o', k) =>
          (store all (ref - 1) o'.code).bind fun all =>
            store all (ref + k) (BitVec.ofInt 8 diff)
      else if diff < -32768 ∨ diff > 32767 then .badGoto
      else
        match toLong o with
        | none => .panic
        | some (o', k) =>
          (store all (ref - 1) o'.code).bind fun all =>
            let p := pack16 (BitVec.ofInt 16 diff)
            (store all (ref + k) (p.getD 0 0)).bind fun all =>
              store all (ref + k + 1) (p.getD 1 0)

/-- A jump target with the references to it (`BytecodeJumpOffset`, cc.h 161-168). -/
structure Target where
  offset : Nat
  refs : List Nat
deriving DecidableEq, Repr

/-- The inner loop. -/
def resolveRefs (target : Nat) : List Nat → List Byte → Out (List Byte)
  | [], all => .ok all
  | r :: rs, all => (resolveOne all target r).bind (resolveRefs target rs)

/-- `resolveRelativeJumps`, cc.cpp 429-752. -/
def resolve : List Target → List Byte → Out (List Byte)
  | [], all => .ok all
  | t :: ts, all => (resolveRefs t.offset t.refs all).bind (resolve ts)

/-! ### The interpreter's side -/

/-- Width of the displacement field an instruction reads when it jumps. -/
inductive Width where
  | w8 | w16
deriving DecidableEq, Repr

/-- For every branch instruction of vm.cpp: the number of operand bytes it consumes before
the displacement (each `READ_8_FROM_PC(pc++)`), and the width it reads.  RelativeJump
1457-1469, BZ 1471-1491, `…NextKeyValueOrJump` / `…NextValueOrJump` 1727-1741, LocalBZ and
GlobalBZ 2487-2517, BLA / BLO 2542-2576, CompareB… 2790-2838, GS/LS…BZ 2935-3032, LL…BZ
3034-3082, GG…BZ 3085-3133. -/
def vmBranch : Op → Option (Nat × Width)
  | .RelativeJump => some (0, .w16)
  | .RelativeJump8 => some (0, .w8)
  | .BZ => some (0, .w16)
  | .BZ8 => some (0, .w8)
  | .BLA => some (0, .w16)
  | .BLA8 => some (0, .w8)
  | .BLO => some (0, .w16)
  | .BLO8 => some (0, .w8)
  | .CompareBEQ => some (0, .w16)
  | .CompareBEQ8 => some (0, .w8)
  | .CompareBNE => some (0, .w16)
  | .CompareBNE8 => some (0, .w8)
  | .CompareBGE => some (0, .w16)
  | .CompareBGE8 => some (0, .w8)
  | .CompareBLE => some (0, .w16)
  | .CompareBLE8 => some (0, .w8)
  | .CompareBGT => some (0, .w16)
  | .CompareBGT8 => some (0, .w8)
  | .CompareBLT => some (0, .w16)
  | .CompareBLT8 => some (0, .w8)
  | .LocalBZ => some (1, .w16)
  | .LocalBZ8 => some (1, .w8)
  | .GlobalBZ => some (1, .w16)
  | .GlobalBZ8 => some (1, .w8)
  | .GSCompareEQBZ => some (1, .w16)
  | .GSCompareEQBZ8 => some (1, .w8)
  | .GSCompareNEBZ => some (1, .w16)
  | .GSCompareNEBZ8 => some (1, .w8)
  | .GSCompareGEBZ => some (1, .w16)
  | .GSCompareGEBZ8 => some (1, .w8)
  | .GSCompareLEBZ => some (1, .w16)
  | .GSCompareLEBZ8 => some (1, .w8)
  | .GSCompareGTBZ => some (1, .w16)
  | .GSCompareGTBZ8 => some (1, .w8)
  | .GSCompareLTBZ => some (1, .w16)
  | .GSCompareLTBZ8 => some (1, .w8)
  | .LSCompareEQBZ => some (1, .w16)
  | .LSCompareEQBZ8 => some (1, .w8)
  | .LSCompareNEBZ => some (1, .w16)
  | .LSCompareNEBZ8 => some (1, .w8)
  | .LSCompareGEBZ => some (1, .w16)
  | .LSCompareGEBZ8 => some (1, .w8)
  | .LSCompareLEBZ => some (1, .w16)
  | .LSCompareLEBZ8 => some (1, .w8)
  | .LSCompareGTBZ => some (1, .w16)
  | .LSCompareGTBZ8 => some (1, .w8)
  | .LSCompareLTBZ => some (1, .w16)
  | .LSCompareLTBZ8 => some (1, .w8)
  | .GGCompareEQBZ => some (2, .w16)
  | .GGCompareEQBZ8 => some (2, .w8)
  | .GGCompareNEBZ => some (2, .w16)
  | .GGCompareNEBZ8 => some (2, .w8)
  | .GGCompareGEBZ => some (2, .w16)
  | .GGCompareGEBZ8 => some (2, .w8)
  | .GGCompareLEBZ => some (2, .w16)
  | .GGCompareLEBZ8 => some (2, .w8)
  | .GGCompareGTBZ => some (2, .w16)
  | .GGCompareGTBZ8 => some (2, .w8)
  | .GGCompareLTBZ => some (2, .w16)
  | .GGCompareLTBZ8 => some (2, .w8)
  | .LLCompareEQBZ => some (2, .w16)
  | .LLCompareEQBZ8 => some (2, .w8)
  | .LLCompareNEBZ => some (2, .w16)
  | .LLCompareNEBZ8 => some (2, .w8)
  | .LLCompareGEBZ => some (2, .w16)
  | .LLCompareGEBZ8 => some (2, .w8)
  | .LLCompareLEBZ => some (2, .w16)
  | .LLCompareLEBZ8 => some (2, .w8)
  | .LLCompareGTBZ => some (2, .w16)
  | .LLCompareGTBZ8 => some (2, .w8)
  | .LLCompareLTBZ => some (2, .w16)
  | .LLCompareLTBZ8 => some (2, .w8)
  | .GGNextKeyValueOrJump => some (3, .w16)
  | .GLNextKeyValueOrJump => some (3, .w16)
  | .LGNextKeyValueOrJump => some (3, .w16)
  | .LLNextKeyValueOrJump => some (3, .w16)
  | .GNextValueOrJump => some (2, .w16)
  | .LNextValueOrJump => some (2, .w16)
  | _ => none

/-- The program counter after executing the branch instruction at `pc`.  Taken:
`pc += READ_16_FROM_PC(pc)` or `pc += (int8_t)READ_8_FROM_PC(pc)`; not taken: `pc += 2`, for
both widths.  `none`: not a branch instruction, or a read outside the code. -/
def branch (all : List Byte) (pc : Nat) (taken : Bool) : Option Int :=
  match (all[pc]?).bind Op.decode with
  | none => none
  | some o =>
    match vmBranch o with
    | none => none
    | some (k, w) =>
      let p := pc + 1 + k
      if taken then
        match w with
        | .w8 => (read8 all p).map fun b => (p : Int) + b.toInt
        | .w16 => (read16 all p).map fun b => (p : Int) + b.toInt
      else some ((p : Int) + 2)

/-! ### goto -/

/-- The goto patch of `link`, cc/link.cpp 266-283: `src` is `gotoSource[g].offset` (the
first of three reserved bytes, cc.cpp 3222-3225), `target` the label's recorded offset. -/
def patchGoto (all : List Byte) (target src : Nat) : Out (List Byte) :=
  let diff : Int := (target : Int) - src - 2
  if diff < 128 ∧ diff > -129 then
    (store all src Op.RelativeJump8.code).bind fun all =>
      store all (src + 1) (BitVec.ofInt 8 diff)
  else if diff < -32768 ∨ diff > 32767 then .badGoto
  else
    (store all src Op.RelativeJump.code).bind fun all =>
      let p := pack16 (BitVec.ofInt 16 diff)
      (store all (src + 1) (p.getD 0 0)).bind fun all =>
        store all (src + 2) (p.getD 1 0)

/-! ### Emission -/

/-- `addRelativeJumpSource` after `pushOpcode`, cc.cpp 382-425: the code gets two
placeholder bytes (`"\t\t"`), the reference is returned. -/
def addSource (all : List Byte) (lastOp : Op) : List Byte × Nat :=
  (all ++ [9#8, 9#8], all.length - back lastOp)

/-- `addRelativeJumpSourceEx` after `pushOpcode`, cc.cpp 361-371. -/
def addSourceEx (all : List Byte) (data : List Byte) : List Byte × Nat :=
  (all ++ data ++ [9#8, 9#8], all.length)

end Wrench.Vm.Jump
