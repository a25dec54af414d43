import Verif.Disasm.Model
import Verif.Cc.Switch

/-
What a listing should say, in terms of the interpreter: where instructions begin, where jumps
go, which variable an operand byte names.
-/
namespace Wrench.Disasm
open Wrench.Vm Wrench.Vm.Jump

/-- Operand bytes of the instructions that neither branch nor belong to the classes of
`Peep.act`, read off the interpreter, discrete_src/vm/vm.cpp: LiteralString 771-794,
LoadLibConstant 796-810, InitArray and InitVar 812-826, Yield 828-832, DebugInfo 847-862, the calls
by hash 864-872 and 962-967, CallFunctionByIndex 1011-1018 (execution goes on at the skip byte plus
its value), PushIndexFunctionReturnValue 1069-1074, library calls 1076-1091 and 1118-1129,
NewObjectTable to PopOne 1141-1245, GlobalStop and Stop 1287-1306 (`stopLocation` is the byte after
the opcode of either), ToInt to HashOf 1271-1340, the hash indices 1342-1362, StackSwap and
SwapTwoToTop 1385-1425, BitwiseNOT and LogicalNot 1449-1499, AssignToArrayAndPop 1612-1616,
iterators 1713-1725, Switch and SwitchLinear 1743-1773 (the tables they jump through). -/
def restLen : Op → List Byte → Option Nat
  | .LiteralString, d => (read16 d 0).map fun l => 2 + l.toNat
  | .Switch, d => (read16 d 0).map fun m => 4 + 6 * m.toNat
  | .SwitchLinear, d => (read8 d 0).map fun c => 3 + 2 * c.toNat
  | .CallFunctionByIndex, d => (read8 d 2).map fun skip => 2 + skip.toNat
  | .CallFunctionByHash, _ | .CallFunctionByHashAndPop, _ | .CallLibFunction, _
  | .CallLibFunctionAndPop, _ | .GlobalIndexHash, _ | .LocalIndexHash, _ => some 5
  | .LoadLibConstant, _ | .AssignToObjectTableByHash, _ | .StackIndexHash, _ => some 4
  | .DebugInfo, _ | .NewObjectTable, _ | .SwapTwoToTop, _ | .AssignToArrayAndPop, _
  | .GPushIterator, _ | .LPushIterator, _ => some 2
  | .Yield, _ | .AssignToObjectTableByOffset, _ | .StackSwap, _ => some 1
  | .InitArray, _ | .InitVar, _ | .PushIndexFunctionReturnValue, _ | .AssignToHashTableAndPop, _
  | .Remove, _ | .HashEntryExists, _ | .Stop, _ | .GlobalStop, _ | .Dereference, _ | .CountOf, _
  | .HashOf, _ | .BitwiseNOT, _ | .LogicalNot, _ | .ToInt, _ | .ToFloat, _ => some 0
  | _, _ => none

/-- How many bytes after its opcode the interpreter treats as part of an instruction; `d` are the
bytes that follow.  Branches and the instructions of the peephole areas are as modelled there. -/
def operandLen (o : Op) (d : List Byte) : Option Nat :=
  match vmBranch o with
  | some (k, _) => some (k + 2)
  | none =>
    match Peep.act o with
    | some a => some (Peep.dlen a)
    | none => restLen o d

/-- An instruction as laid out in the code. -/
abbrev Ins := Op × List Byte

/-- The operand bytes are as many as the interpreter takes. -/
def Ins.Proper (i : Ins) : Prop := operandLen i.1 i.2 = some i.2.length

def Ins.bytes (i : Ins) : List Byte := i.1.code :: i.2

/-- The code made of these instructions. -/
def layout (is : List Ins) : List Byte := is.flatMap Ins.bytes

/-- What a listing of these instructions says: offset, bytes and opcode of each. -/
def heads : Nat → List Ins → List (Nat × List Byte × Op)
  | _, [] => []
  | off, i :: is => (off, i.bytes, i.1) :: heads (off + i.bytes.length) is

def Line.head : Line → Option (Nat × List Byte × Op)
  | .ins off bs o _ => some (off, bs, o)
  | _ => none

/-- The bytes shown on a line. -/
def Line.bytes : Line → List Byte
  | .ins _ bs _ _ => bs
  | _ => []

def Line.off : Line → Nat
  | .ins off _ _ _ | .data off _ | .truncated off _ => off

/-- The line after which the rest of the unit is skipped. -/
def Line.isStop : Line → Bool
  | .ins _ _ _ _ => false
  | _ => true

/-- Each line starts where the bytes of the previous one end, and nothing follows a skip. -/
def Consecutive : Nat → List Line → Prop
  | _, [] => True
  | off, l :: ls => l.off = off ∧ (l.isStop = true → ls = []) ∧ Consecutive (off + l.bytes.length) ls

/-- The addresses printed on a line. -/
def targets : List Field → List Word32
  | [] => []
  | .target t :: fs => t :: targets fs
  | _ :: fs => targets fs

/-- The variables printed on a line: `true` for a local one. -/
def vars : List Field → List (Bool × Byte)
  | [] => []
  | .var l i :: fs => (l, i) :: vars fs
  | _ :: fs => vars fs

/-- The variables an instruction's first operand bytes name, in order, per the interpreter. -/
def spaces : Peep.Act → List Peep.Sp
  | .load v | .litTo _ v | .binStore _ v | .assign (.one v) _ | .bumpVar _ v | .indexLit _ (.one v)
  | .cmp _ _ (.one v) _ | .bz (.one v) => [v]
  | .values v w | .bin _ (.two v w) | .cmp _ _ (.two v w) _ => [v, w]
  | _ => []

def isL : Peep.Sp → Bool
  | .L => true
  | .G => false

/-- The byte two hexadecimal digits stand for. -/
def unhex (a b : Byte) : Byte :=
  let v (c : Byte) : Nat := if c.toNat < 58 then c.toNat - 48 else c.toNat - 55
  BitVec.ofNat 8 (16 * v a + v b)

/-- Reading an escaped text back. -/
def unescape : List Byte → Option (List Byte)
  | [] => some []
  | [c] => if c = 92#8 then none else some [c]
  | c :: d :: r =>
    if c = 92#8 then
      if d = 120#8 then
        (r[0]?).bind fun a => (r[1]?).bind fun b => (unescape (r.drop 2)).map (unhex a b :: ·)
      else (unescape r).map (d :: ·)
    else (unescape (d :: r)).map (c :: ·)
termination_by l => l.length
decreasing_by all_goals simp only [List.length_cons, List.length_drop]; omega

end Wrench.Disasm
