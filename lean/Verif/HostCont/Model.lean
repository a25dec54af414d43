import Verif.HashTable.Model

/-
Containers a host program builds and reads: `wr_makeContainer`, `wr_add…ToContainer`,
`wr_getValueFromContainer`, `wr_destroyContainer`, `WrenchValue::addHashTableValue`,
`WrenchValue::getHashTableValue` (discrete_src/utils/utils.cpp) and the host iterator
`WRValue::Iterator`.

The table itself is the object of `Verif.HashTable.Model`; here one slot holds both of its
cells (`m_Vdata[i<<1]`, the value, and `m_Vdata[(i<<1)+1]`, the key) as a pair in `vals`, and
`keys` is not used.  Around it is the memory the container owns: every `g_malloc` takes a fresh
block number, every `g_free` of a block that is not live is the outcome `none`.  Host variables
(`WRValue` objects of the host that `wr_addValueToContainer` refers to) are `vars`.

Simplified: no garbage collection runs between the calls; `malloc` does not fail; block numbers
are never reused.
-/
namespace Wrench.HostCont

open Wrench.HashTable

/-- First word of a `WRValue`, discrete_src/wrench.h 875-890. -/
inductive Payload where
  /-- `i`, `ui`, `f`: the 32 bits. -/
  | word (w : Word32)
  /-- `r`: a host variable. -/
  | var (n : Nat)
  /-- `c`: host memory (raw arrays). -/
  | raw (p : Nat)
  /-- `va`: the object whose header is this block. -/
  | obj (id : Nat)
deriving DecidableEq, Repr

/-- A `WRValue`: payload and `p2`. -/
structure Cell where
  pl : Payload
  p2 : Word32
deriving DecidableEq, Repr

/-- `INIT_AS_INT`, `INIT_AS_FLOAT`, `INIT_AS_REF`, `INIT_AS_ARRAY`, `INIT_AS_RAW_ARRAY`,
discrete_src/utils/utils.h 444-455. -/
def asInt : Word32 := 0#32
def asFloat : Word32 := 1#32
def asRef : Word32 := 2#32
def asArray : Word32 := 0xA0000003#32
def asRawArray : Word32 := 0x20000003#32

/-- `type == WR_REF`: the low byte of `p2`. -/
def Cell.isRef (c : Cell) : Bool := c.p2 &&& 0xFF#32 == 2#32

/-- `IS_CONTAINER_MEMBER(xtype)`, utils.h 467: the top byte of `p2`. -/
def Cell.isMember (c : Cell) : Bool := (c.p2 >>> 24) &&& 0xE0#32 == 0x80#32

/-- `IS_RAW_ARRAY(xtype)`, utils.h 470. -/
def Cell.isRaw (c : Cell) : Bool := (c.p2 >>> 24) &&& 0xE0#32 == 0x20#32

/-- `EX_RAW_ARRAY_SIZE_FROM_P2`, utils.h 462, the length `isRawArray` reports. -/
def Cell.rawSize (c : Cell) : Word32 := (c.p2 &&& 0x1FFFFF00#32) >>> 8

/-- A zero-filled `WRValue`: the integer 0. -/
def zero : Cell := ⟨.word 0#32, asInt⟩

/-- An object on a `m_nextGC` chain: a table block of `growHash` (`SV_HASH_INTERNAL`, one
block) or a string (`SV_CHAR`: header and data). -/
inductive Obj where
  | internal (id : Nat)
  | str (id data : Nat)
deriving DecidableEq, Repr

/-- The container and the memory around it. -/
structure St where
  t : HT (Cell × Cell) Unit
  /-- The next fresh block. -/
  next : Nat
  /-- Blocks allocated and not freed. -/
  live : List Nat
  /-- `m_nextGC` of the container. -/
  chain : List Obj
  /-- `svAllocated` of the context (keys made by `WrenchValue`). -/
  ctx : List Obj
  /-- Block of the container's own header. -/
  hdr : Nat
  /-- Bytes of the string whose header is this block. -/
  strs : Nat → Option (List Byte)
  vars : Nat → Cell

/-- `g_malloc`. -/
def alloc (s : St) : St × Nat := ({ s with next := s.next + 1, live := s.next :: s.live }, s.next)

/-- `g_free`. -/
def free (s : St) (id : Nat) : Option St :=
  if id ∈ s.live then some { s with live := s.live.erase id } else none

/-- The primes `growHash` tries and gives up before the one it takes, gc_object.cpp 196-267. -/
def rejected (mod : Nat) (slots : Nat → Word32) (hash : Word32) (start : Nat) : Nat :=
  ((primeTable.dropWhile (· ≤ start)).takeWhile fun p => (propose mod slots hash p).isNone).length

/-- The blocks allocated and freed for the rejected primes, gc_object.cpp 217, 265. -/
def tryBlocks : Nat → St → Option St
  | 0, s => some s
  | n + 1, s =>
    match free (alloc s).1 (alloc s).2 with
    | none => none
    | some s' => tryBlocks n s'

/-- `growHash` with its blocks, gc_object.cpp 189-323: the accepted block goes to the front of
the container's chain (line 276-277). -/
def grow (s : St) (h : Word32) (hint : Nat) : Option (St × Nat) :=
  match growHash (zero, zero) () s.t h hint with
  | none => none
  | some (t', i) =>
    match tryBlocks (rejected s.t.mod s.t.slots h (if hint > s.t.mod then hint else s.t.mod)) s with
    | none => none
    | some s1 =>
      some ({ (alloc s1).1 with t := t', chain := .internal (alloc s1).2 :: s1.chain }, i)

/-- `getIndexOfHit(hash, true)`, gc_object.cpp 158-186. -/
def getInsert (s : St) (h : Word32) : Option (St × Nat) :=
  match probe s.t.mod s.t.slots h true with
  | .hit i => some (s, i)
  | .insert i => some ({ s with t := { s.t with size := s.t.size + 1, slots := upd s.t.slots i h } }, i)
  | .miss => grow s h 0

/-- `get(hash)` on a hash table, gc_object.cpp 133-155 with `getIndexOfHit(hash, false)`. -/
def getIdx (s : St) (h : Word32) : Option (St × Nat) :=
  match probe s.t.mod s.t.slots h false with
  | .hit i => some (s, i)
  | .insert i => some (s, i) -- unreachable: not inserting
  | .miss => getInsert s h

/-- `wr_makeContainer`, utils.cpp 1164-1181: header, then `init(sizeHint, SV_HASH_TABLE)`
(gc_object.cpp 28-72) on a zero-filled object.  `mem` are the host's variables. -/
def makeContainer (hint : Word16) (mem : Nat → Cell) : Option St :=
  let s0 : St :=
    { t := { mod := 0, slots := fun _ => 0#32, vals := fun _ => (zero, zero), keys := fun _ => (),
             size := hint.setWidth 32, fwds := [] },
      next := 1, live := [0], chain := [], ctx := [], hdr := 0, strs := fun _ => none, vars := mem }
  (grow s0 nullHash hint.toNat).map (·.1)

/-- The bytes of the C string at a pointer: up to the first NUL (`strlen`). -/
def cstr (name : List Byte) : List Byte := name.takeWhile (· != 0#8)

/-- A new string object: header and data block (`WRGCObject::init`, gc_object.cpp 50-65).  It is
put on no chain yet. -/
def newStr (s : St) (bytes : List Byte) : St × Nat × Nat :=
  let a := alloc s
  let b := alloc a.1
  ({ b.1 with strs := upd b.1.strs a.2 (some bytes) }, a.2, b.2)

/-- Store into the value cell of a slot. -/
def setVal (s : St) (i : Nat) (c : Cell) : St :=
  { s with t := { s.t with vals := upd s.t.vals i (c, (s.t.vals i).2) } }

/-- Store into the key cell of a slot. -/
def setKey (s : St) (i : Nat) (c : Cell) : St :=
  { s with t := { s.t with vals := upd s.t.vals i ((s.t.vals i).1, c) } }

/-- `wr_addToContainerEx`, utils.cpp 1227-1260: the key goes to the chain of the container, then
the entry under its hash (`getHashEx`, operations.cpp 193-198: `wr_hash` of its bytes). -/
def addEx (s : St) (name : List Byte) : Option (St × Nat) :=
  let n := newStr s (cstr name)
  let s1 := { n.1 with chain := .str n.2.1 n.2.2 :: n.1.chain }
  match getIdx s1 (wrHash (cstr name)) with
  | none => none
  | some (s2, i) => some (setKey s2 i ⟨.obj n.2.1, asArray⟩, i)

/-- A pointer to a value: a slot of the table or a host variable. -/
inductive VPtr where
  | slot (i : Nat)
  | var (n : Nat)
deriving DecidableEq, Repr

/-- What the pointer points to. -/
def St.at (s : St) : VPtr → Cell
  | .slot i => (s.t.vals i).1
  | .var n => s.vars n

/-- Store through the pointer. -/
def St.store (s : St) (c : Cell) : VPtr → St
  | .slot i => setVal s i c
  | .var n => { s with vars := upd s.vars n c }

/-- `entry->deref()`, operations.cpp 142-178, for an entry of the table: itself, or the host
variable it refers to.  `none`: a reference to a reference or a container member, which no
call modelled here stores. -/
def derefEntry (s : St) (i : Nat) : Option VPtr :=
  if (s.t.vals i).1.isRef then
    match (s.t.vals i).1.pl with
    | .var n => if (s.vars n).isRef || (s.vars n).isMember then none else some (.var n)
    | _ => none
  else if (s.t.vals i).1.isMember then none
  else some (.slot i)

/-- `WrenchValue::addHashTableValue` on a value that is a hash table, utils.cpp 149-181: look,
else create and store the key, a string of the context (`wr_makeString`, utils.cpp 1147-1161). -/
def hvAdd (s : St) (name : List Byte) : Option (St × VPtr) :=
  match (exists_ s.t (hashStr name) false).2 with
  | some i => (derefEntry s i).map (s, ·)
  | none =>
    match getIdx s (hashStr name) with
    | none => none
    | some (s1, i) =>
      let n := newStr s1 (cstr name)
      let s2 := setKey { n.1 with ctx := .str n.2.1 n.2.2 :: n.1.ctx } i ⟨.obj n.2.1, asArray⟩
      (derefEntry s2 i).map (s2, ·)

/-- `WrenchValue::getHashTableValue`, utils.cpp 184-194: `some none` is the null pointer. -/
def hvGet (s : St) (name : List Byte) : Option (Option VPtr) :=
  match (exists_ s.t (hashStr name) false).2 with
  | some i => (derefEntry s i).map some
  | none => some none

/-- Calls of a host program.  `store`: what it then writes through the pointer it got. -/
inductive Call where
  | addInt (name : List Byte) (i : Word32)
  | addFloat (name : List Byte) (f : Word32)
  | addValue (name : List Byte) (var : Nat)
  | addArray (name : List Byte) (p : Nat) (size : Word32)
  | get (name : List Byte) (store : Option Cell)
  | hvAdd (name : List Byte) (store : Option Cell)
  | hvGet (name : List Byte) (store : Option Cell)
deriving DecidableEq, Repr

/-- What the host sees: nothing, a null pointer, or the value behind the pointer. -/
inductive Seen where
  | unit
  | null
  | cell (c : Cell)
deriving DecidableEq, Repr

/-- Write through a pointer if the host does. -/
def thru (s : St) (p : VPtr) : Option Cell → St
  | none => s
  | some c => s.store c p

/-- One call: utils.cpp 1263-1323 for the container functions. -/
def step (s : St) : Call → Option (St × Seen)
  | .addInt n i => (addEx s n).map fun r => (setVal r.1 r.2 ⟨.word i, asInt⟩, .unit)
  | .addFloat n f => (addEx s n).map fun r => (setVal r.1 r.2 ⟨.word f, asFloat⟩, .unit)
  | .addValue n v => (addEx s n).map fun r => (setVal r.1 r.2 ⟨.var v, asRef⟩, .unit)
  | .addArray n p size =>
    (addEx s n).map fun r => (setVal r.1 r.2 ⟨.raw p, asRawArray ||| (size <<< 8)⟩, .unit)
  | .get n st =>
    (getIdx s (wrHash (cstr n))).map fun r =>
      (thru r.1 (.slot r.2) st, .cell (r.1.at (.slot r.2)))
  | .hvAdd n st => (hvAdd s n).map fun r => (thru r.1 r.2 st, .cell (r.1.at r.2))
  | .hvGet n st =>
    (hvGet s n).map fun r =>
      match r with
      | none => (s, .null)
      | some p => (thru s p st, .cell (s.at p))

/-- A sequence of calls. -/
def run (s : St) : List Call → Option (St × List Seen)
  | [] => some (s, [])
  | c :: cs =>
    match step s c with
    | none => none
    | some (s1, o) =>
      match run s1 cs with
      | none => none
      | some (s2, os) => some (s2, o :: os)

/-- The blocks `clear()` and `g_free` release for an object, wrench.h 1007-1013 (only `SV_VALUE`
and `SV_CHAR` own their data), in order. -/
def Obj.blocks : Obj → List Nat
  | .internal id => [id]
  | .str id data => [data, id]

/-- Release blocks in order. -/
def freeAll : List Nat → St → Option St
  | [], s => some s
  | id :: ids, s =>
    match free s id with
    | none => none
    | some s1 => freeAll ids s1

/-- `wr_freeGCChain`, utils.cpp 51-60. -/
def freeChain : List Obj → St → Option St
  | [], s => some s
  | o :: os, s =>
    match freeAll o.blocks s with
    | none => none
    | some s1 => freeChain os s1

/-- `wr_destroyContainer`, utils.cpp 1216-1224: the chain, then the header (a hash table has no
data block of its own, its blocks are on the chain). -/
def destroy (s : St) : Option St :=
  match freeChain s.chain s with
  | none => none
  | some s1 => free s1 s.hdr

/-- `WRValue::isHashTable(&members)` on the container, utils.cpp 673-685. -/
def members (s : St) : Word32 := s.t.size

/-! ### The host iterator -/

/-- The scan of `operator++` over the slots, utils.cpp 1012-1031, from `temp`; `n` slots
remain. -/
def scan (slots : Nat → Word32) : (n temp : Nat) → Option Nat
  | 0, _ => none
  | n + 1, temp => if slots temp != nullHash then some temp else scan slots n (temp + 1)

/-- `m_current` on a table: pointer to the value (one reference followed, utils.cpp 1021-1025)
and the key cell. -/
def entryAt (s : St) (i : Nat) : Cell × VPtr :=
  ((s.t.vals i).2,
    if (s.t.vals i).1.isRef then
      match (s.t.vals i).1.pl with
      | .var n => .var n
      | _ => .slot i
    else .slot i)

/-- `for( it = begin(); it != end(); ++it )` over the table, utils.cpp 988-1053: the entries in
the order they are visited, `el` being `m_element`. -/
def iterate (s : St) : (fuel el : Nat) → Option (List (Cell × VPtr))
  | 0, _ => none
  | fuel + 1, el =>
    match scan s.t.slots (s.t.mod - el) el with
    | none => some []
    | some i =>
      match iterate s fuel (i + 1) with
      | none => none
      | some r => some (entryAt s i :: r)

/-- The name a key cell shows: the bytes of its string. -/
def keyName (s : St) (k : Cell) : Option (List Byte) :=
  match k.pl with
  | .obj id => if k.p2 == asArray then s.strs id else none
  | _ => none

/-- What a host program sees of an entry. -/
def view (s : St) (e : Cell × VPtr) : Option (List Byte) × Cell := (keyName s e.1, s.at e.2)

/-- The array branch of the iterator, utils.cpp 1033-1050, for `SV_VALUE` and `SV_CHAR`: `index`
of every entry visited. `m_element` and `m_size` are 32-bit unsigned. -/
def iterateArray (size : Word32) : (fuel : Nat) → (el : Word32) → Option (List Word32)
  | 0, _ => none
  | fuel + 1, el =>
    if el < size then
      match iterateArray size fuel (el + 1) with
      | none => none
      | some r => some (el :: r)
    else some []

end Wrench.HostCont
