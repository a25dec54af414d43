import Verif.Vm.Opcode
import Verif.Bytes.Lemmas

/-
The dispatch table of `switch`: its construction in `parseSwitch` (cc/cc.cpp 2656-2958) and the
instructions `Switch` and `SwitchLinear` (vm/vm.cpp 1743-1773).

Simplifications.  The flag `defaultCase` of `WRSwitchCase` is never set to true by the code and is
left out; `occupied` of a parsed case is always true.
-/
namespace Wrench.Cc

open Wrench Wrench.Vm

/-- `WRSwitchCase` of a parsed `case`, cc/cc.cpp 2645-2651: the hash of its label and the
position in the code where its statements start.  The code keeps the position in an `int16_t`; the
truncation happens in `off16`. -/
structure Case where
  hash : Word32
  off : Nat
deriving DecidableEq, Repr

/-- A `case` label met while parsing, cc/cc.cpp 2712-2738.  `none` is the duplicate-case error. -/
def addCase (cs : List Case) (c : Case) : Option (List Case) :=
  if cs.any (fun d => d.hash == c.hash) then none else some (cs ++ [c])

def addCases : List Case → List Case → Option (List Case)
  | cs, [] => some cs
  | cs, c :: r => (addCase cs c).bind fun cs => addCases cs r

/-- The loop looking for the highest hash, cc/cc.cpp 2805-2824; it stops at 254. -/
def sizeLoop : Word32 → List Case → Word32
  | size, [] => size
  | size, c :: cs =>
    let size := if size.toNat < c.hash.toNat then c.hash else size
    if 254 ≤ size.toNat then size else sizeLoop size cs

/-- `size` after `++size`, cc/cc.cpp 2821: 32-bit unsigned, it wraps. -/
def tableSize (cs : List Case) : Word32 := sizeLoop 0#32 cs + 1#32

/-- `jumpOffset - currentPos` stored in an `int16_t`, cc/cc.cpp 2853, 2901. -/
def off16 (off cur : Nat) : Word16 := BitVec.ofNat 16 off - BitVec.ofNat 16 cur

/-- `defaultOffset` as recorded while parsing, cc/cc.cpp 2689, 2754: −1 stands for "no default". -/
def defWord : Option Nat → Word16
  | none => 0xFFFF#16
  | some o => BitVec.ofNat 16 o

/-- The final default displacement, cc/cc.cpp 2844-2851 and 2932-2939; `skip` leads past the
table. -/
def defOff (d : Option Nat) (skip cur : Nat) : Word16 :=
  if defWord d = 0xFFFF#16 then BitVec.ofNat 16 skip else defWord d - BitVec.ofNat 16 cur

/-- The linear table, cc/cc.cpp 2835-2882.  `cur` is `currentPos`, the position after the size
byte. -/
def linear (cs : List Case) (d : Option Nat) (cur size : Nat) : List Byte :=
  let df := defOff d (size * 2 + 2) cur
  pack16 df ++ (List.range size).flatMap fun i =>
    pack16 (match cs.find? (fun c => c.hash.toNat == i) with
      | some c => off16 c.off cur
      | none => df)

/-- Filling the hashed table for one modulus, cc/cc.cpp 2893-2913; `none` on a collision. -/
def fill (mod : Nat) : List Case → List (Option Case) → Option (List (Option Case))
  | [], t => some t
  | c :: cs, t =>
    match t[c.hash.toNat % mod]? with
    | some none => fill mod cs (t.set (c.hash.toNat % mod) (some c))
    | _ => none

/-- The search for a modulus without collision, cc/cc.cpp 2889-2924. -/
def findMod (cs : List Case) : Option (Nat × List (Option Case)) :=
  (List.range' 1 0x7FFD).findSome? fun m => (fill m cs (List.replicate m none)).map fun t => (m, t)

/-- The hashed table, cc/cc.cpp 2941-2957.  `cur` is the position after the opcode. -/
def hashed (d : Option Nat) (cur mod : Nat) (t : List (Option Case)) : List Byte :=
  let df := defOff d (mod * 6 + 4) cur
  pack16 (BitVec.ofNat 16 mod) ++ pack16 df ++ t.flatMap fun s =>
    match s with
    | none => pack32 0#32 ++ pack16 df
    | some c => pack32 c.hash ++ pack16 (off16 c.off cur)

/-- The selection logic emitted at position `pos`, cc/cc.cpp 2805-2958.  `none` is the
construction error (no modulus found). -/
def emitSwitch (cs : List Case) (d : Option Nat) (pos : Nat) : Option (List Byte) :=
  let size := tableSize cs
  if size.toNat < 254 then
    some (Op.SwitchLinear.code :: BitVec.ofNat 8 size.toNat :: linear cs d (pos + 2) size.toNat)
  else
    (findMod cs).map fun (mod, t) => Op.Switch.code :: hashed d (pos + 1) mod t

/-- The program counter after `Switch` or `SwitchLinear` at `pc` with a selector whose hash is
`h`, vm/vm.cpp 1743-1773.  `none`: a read outside the code, a zero modulus, or another instruction. -/
def vmSwitch (all : List Byte) (pc : Nat) (h : Word32) : Option Int :=
  match (all[pc]?).bind Op.decode with
  | some .SwitchLinear =>
    (read8 all (pc + 1)).bind fun n =>
    let p := pc + 2
    if h.toNat < n.toNat then (read16 all (p + 2 * h.toNat + 2)).map fun w => (p : Int) + w.toInt
    else (read16 all p).map fun w => (p : Int) + w.toInt
  | some .Switch =>
    let p := pc + 1
    (read16 all p).bind fun m =>
    if m.toNat = 0 then none else
    let loc := p + 4 + 6 * (h.toNat % m.toNat)
    (read32 all loc).bind fun k =>
    (read16 all (if k = h then loc + 4 else p + 2)).map fun w => (p : Int) + w.toInt
  | _ => none

/-- A literal usable as a label, and a value used as selector. -/
inductive Lab where
  | int (v : Word32)
  | flt (bits : Word32)
  | str (text : List Byte)
deriving DecidableEq, Repr

/-- `getSingleValueHash`, cc/cc.cpp 2607. -/
def Lab.labelHash : Lab → Word32
  | .int v => v
  | .flt b => b
  | .str t => hashStr (t ++ [0#8])

/-- `WRValue::getHash`, wrench.h 875, vm/operations.cpp 181-202. -/
def Lab.valueHash : Lab → Word32
  | .int v => v
  | .flt b => b
  | .str t => wrHash t

end Wrench.Cc
