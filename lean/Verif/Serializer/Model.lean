import Verif.Bytes.Model
import Verif.HashTable.Model

/-
Value serialization: discrete_src/utils/serializer.cpp and serializer.h.

Values are trees: the model identifies a container with its contents (sharing and
cycles in the heap are not represented: a cyclic container makes the C++ code recurse
forever).  References are followed by `deref()` before anything is written, so they do
not occur.  A hash table carries its `m_size` word (observable through `_count`) and,
for each of its `m_mod` slots, the stored hash with the value and key cell.
-/
namespace Wrench.Serializer

mutual
/-- A script value as seen by the serializer.  `other x` is a value of type `WR_EX`
whose xtype `x` is neither array nor hash table (struct, iterator, raw array, …). -/
inductive SVal where
  | int (bits : Word32)
  | float (bits : Word32)
  | str (bytes : List Byte)
  | arr (elems : SVals)
  | hash (size : Word32) (slots : Slots)
  | other (xtype : Byte)
/-- Array elements. -/
inductive SVals where
  | nil
  | cons (v : SVal) (vs : SVals)
/-- Hash table slots, in slot order: empty, or a stored hash with value and key. -/
inductive Slots where
  | nil
  | empty (s : Slots)
  | full (h : Word32) (val key : SVal) (s : Slots)
end

/-- Number of array elements (`m_size`). -/
def SVals.length : SVals → Nat
  | .nil => 0
  | .cons _ vs => vs.length + 1

/-- Number of slots (`m_mod`). -/
def Slots.length : Slots → Nat
  | .nil => 0
  | .empty s => s.length + 1
  | .full _ _ _ s => s.length + 1

/-- `n` empty slots. -/
def Slots.blank : Nat → Slots
  | 0 => .nil
  | n + 1 => .empty (Slots.blank n)

/-- Slots followed by `n` empty ones. -/
def Slots.pad (n : Nat) : Slots → Slots
  | .nil => Slots.blank n
  | .empty s => .empty (s.pad n)
  | .full h v k s => .full h v k (s.pad n)

mutual
/-- `wr_serializeEx`, serializer.cpp 28-108: the bytes written and the returned flag.
Type bytes: INT 0, FLOAT 1, EX 3 (wrench.h 717-720), ARRAY 0xA0, HASH_TABLE 0xE0
(wrench.h 738, 742), SV_VALUE 4, SV_CHAR 5 (wrench.h 761-762).  The 16-bit size is
truncated while the full contents are written. -/
def ser : SVal → List Byte × Bool
  | .int w => (0#8 :: pack32 w, true)
  | .float w => (1#8 :: pack32 w, true)
  | .str bs => ([3#8, 0xA0#8, 5#8] ++ pack16 (BitVec.ofNat 16 bs.length) ++ bs, true)
  | .arr es =>
    let r := serElems es
    ([3#8, 0xA0#8, 4#8] ++ pack16 (BitVec.ofNat 16 es.length) ++ r.1, r.2)
  | .hash _ ss => ([3#8, 0xE0#8] ++ pack16 (BitVec.ofNat 16 ss.length) ++ serSlots ss, true)
  | .other x => ([3#8, x], false)
/-- The element loop, serializer.cpp 67-73: stops at the first failure. -/
def serElems : SVals → List Byte × Bool
  | .nil => ([], true)
  | .cons v vs =>
    let r := ser v
    if r.2 then
      let q := serElems vs
      (r.1 ++ q.1, q.2)
    else (r.1, false)
/-- The slot loop, serializer.cpp 84-97: the results of the nested calls are ignored. -/
def serSlots : Slots → List Byte
  | .nil => []
  | .empty s => 0#8 :: serSlots s
  | .full _ v k s => 1#8 :: ((ser v).1 ++ (ser k).1 ++ serSlots s)
end

/-- `wr_serialize`, serializer.cpp 253-263: the buffer, or failure. -/
def serialize (v : SVal) : Option (List Byte) :=
  if (ser v).2 then some (ser v).1 else none

/-- Outcome of a reader: `fail` is the returned `false`, `ub` is undefined behaviour
(running off the end of `c_primeTable`), `oof` is the model's own fuel running out
(shown never to happen for `deserialize`). -/
inductive Res (α : Type) where
  | ok (a : α) (rest : List Byte)
  | fail
  | ub
  | oof

/-- A reader consumes bytes from the front of the remaining buffer
(`m_buf + m_pos` up to `m_size`). -/
def Rd (α : Type) : Type := List Byte → Res α

def Rd.pure {α : Type} (a : α) : Rd α := fun b => .ok a b
def Rd.fail {α : Type} : Rd α := fun _ => .fail
def Rd.ub {α : Type} : Rd α := fun _ => .ub
def Rd.bind {α β : Type} (p : Rd α) (q : α → Rd β) : Rd β := fun b =>
  match p b with
  | .ok a r => q a r
  | .fail => .fail
  | .ub => .ub
  | .oof => .oof

instance : Monad Rd where
  pure := Rd.pure
  bind := Rd.bind

/-- `read(&temp, 1)`, serializer.h 73-88: all or nothing. -/
def rd1 : Rd Byte
  | x :: r => .ok x r
  | [] => .fail

/-- `read(&temp16, 2)`, little endian. -/
def rd16 : Rd Nat
  | x :: y :: r => .ok (x.toNat + 256 * y.toNat) r
  | _ => .fail

/-- `read(&value.ui, 4)`, little endian. -/
def rd32 : Rd Word32
  | x :: y :: z :: w :: r =>
    .ok ((x.setWidth 32) ||| ((y.setWidth 32) <<< 8) ||| ((z.setWidth 32) <<< 16)
      ||| ((w.setWidth 32) <<< 24)) r
  | _ => .fail

/-- `read(data, n)`: `m_pos + n > m_size` fails, otherwise `n` bytes are copied.  The
position and size are 32-bit; with buffers below 2^31 bytes and `n < 2^16` the sum
cannot wrap. -/
def rdN (n : Nat) : Rd (List Byte) := fun b =>
  if n ≤ b.length then .ok (b.take n) (b.drop n) else .fail

/-- Slot count obtained for a table whose stored slot count is `m`: `getSVA(m-1)` →
`init` → `growHash(NULL, (uint16_t)(m-1))` takes the first prime above `m-1`
(gc_object.cpp 68, 194-198); `none` = ran past the end of the prime table. -/
def newMod (m : Nat) : Option Nat :=
  HashTable.primeTable.find? (fun p => (if m = 0 then 65535 else m - 1) < p)

/-- `getHash` of a key cell (wrench.h 875, operations.cpp 181-219): numbers are their
32 bits, strings `wr_hash` of the bytes; other values hash their memory image, which is
not modelled (`exHash`). -/
def keyHash (exHash : SVal → Word32) : SVal → Word32
  | .int w => w
  | .float w => w
  | .str bs => wrHash bs
  | v => exHash v

mutual
/-- `wr_deserializeEx`, serializer.cpp 111-250. -/
def des (exHash : SVal → Word32) : Nat → Rd SVal
  | 0 => fun _ => .oof
  | f + 1 => do
    let t ← rd1
    if t = 0#8 then return .int (← rd32)
    else if t = 1#8 then return .float (← rd32)
    else if t = 3#8 then
      let x ← rd1
      if x = 0xA0#8 then
        let ty ← rd1
        let n ← rd16
        if ty = 5#8 then return .str (← rdN n)
        else if ty = 4#8 then return .arr (← desElems exHash f n)
        else Rd.fail
      else if x = 0xE0#8 then
        let m ← rd16
        match newMod m with
        | none => Rd.ub
        | some p =>
          let ss ← desSlots exHash f m
          return .hash (BitVec.ofNat 32 (m - 1)) (ss.pad (p - m))
      else Rd.fail
    else Rd.fail
/-- The element loop, serializer.cpp 182-188. -/
def desElems (exHash : SVal → Word32) : Nat → Nat → Rd SVals
  | 0, _ => fun _ => .oof
  | _ + 1, 0 => return .nil
  | f + 1, n + 1 => do
    let v ← des exHash f
    let vs ← desElems exHash f n
    return .cons v vs
/-- The slot loop, serializer.cpp 217-239.  Any non-zero flag byte means occupied. -/
def desSlots (exHash : SVal → Word32) : Nat → Nat → Rd Slots
  | 0, _ => fun _ => .oof
  | _ + 1, 0 => return .nil
  | f + 1, n + 1 => do
    let t ← rd1
    if t = 0#8 then
      let s ← desSlots exHash f n
      return .empty s
    else
      let v ← des exHash f
      let k ← des exHash f
      let s ← desSlots exHash f n
      return .full (keyHash exHash k) v k s
end

/-- `wr_deserialize`, serializer.cpp 266-270, as a reader of the whole buffer.  The fuel
only makes the recursion structural: every call of the C++ function consumes a byte. -/
def deserialize (exHash : SVal → Word32) (buf : List Byte) : Res SVal :=
  des exHash (2 * buf.length + 1) buf

/-- The output buffer: capacity `m_size` and the bytes below `m_pos`. -/
structure Writer where
  cap : Nat
  data : List Byte
deriving DecidableEq, Repr

/-- `write`, serializer.h 90-118.  `none` = the `memcpy` would run past the buffer.
32-bit wrap of `size*2+8` is not modelled (needs gigabyte strings). -/
def Writer.write (w : Writer) (d : List Byte) : Option Writer :=
  if d.length = 0 then some w
  else
    let cap := if w.data.length + d.length ≥ w.cap then w.cap + (d.length * 2 + 8) else w.cap
    if w.data.length + d.length ≤ cap then some ⟨cap, w.data ++ d⟩ else none

/-- `WRValueSerializer()`, serializer.h 41. -/
def Writer.init : Writer := ⟨0, []⟩

end Wrench.Serializer
