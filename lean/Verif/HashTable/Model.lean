import Verif.Bytes.Model

/-
The garbage-collected hash table object `WRGCObject` (type `SV_HASH_TABLE` /
`SV_VOID_HASH_TABLE`), discrete_src/vm/gc_object.cpp.

Representation.  `m_hashTable[i]` is `slots i`, the value cell `m_Vdata[i<<1]` is
`vals i`, the key cell `m_Vdata[(i<<1)+1]` is `keys i`, for `i < mod`.  The arrays
are total functions; every access the code performs is at an index reduced
`% m_mod`, hence in range.  `V` and `K` are the value/key cell types, with a default
that stands for zero-filled memory (`memset(base,0,total)`).

Every growth leaves, in the *old* block, a forwarding reference for each occupied
slot (`from->p2 = INIT_AS_REF; from->r = to`).  These old blocks are kept as the list
`fwds` (most recent first): entry `f v = some p` when old slot `v` was forwarded to
new slot `p`.

The outcome `none` means: the code runs off the end of `c_primeTable` (an `assert`,
or out-of-bounds read with assertions off), or an inner `getIndexOfHit` of
`growHash` would have to grow recursively (shown never to happen).
-/
namespace Wrench.HashTable

/-- `WRENCH_NULL_HASH`, discrete_src/wrench.h (0xABABABAB): marks an empty slot. -/
def nullHash : Word32 := 0xABABABAB#32

/-- `c_primeTable`, discrete_src/utils/utils.h 36-55. -/
def primeTable : List Nat :=
  [2, 5, 11, 17, 23, 31, 53, 97, 193, 389, 769, 1543, 3079, 6151, 12289, 24593, 49157]

/-- Array store `f[i] = x`. -/
def upd {α : Type} (f : Nat → α) (i : Nat) (x : α) : Nat → α := fun j => if j = i then x else f j

/-- The table object: `m_mod`, `m_hashTable`, `m_Vdata`, `m_size` and the forwarding
information left in superseded blocks. -/
structure HT (V K : Type) where
  mod : Nat
  slots : Nat → Word32
  vals : Nat → V
  keys : Nat → K
  size : Word32
  fwds : List (Nat → Option Nat)

/-- Result of the probe loop of `getIndexOfHit`. -/
inductive Probe where
  | hit (i : Nat)
  | insert (i : Nat)
  | miss
deriving DecidableEq, Repr

/-- The `do … while(tries--)` loop of `getIndexOfHit`, gc_object.cpp 166-183.
`tries` is the counter value on entering the body. -/
def hitLoop (mod : Nat) (slots : Nat → Word32) (hash : Word32) (inserting : Bool) :
    (tries : Nat) → (index : Nat) → Probe
  | tries, index =>
    if inserting && slots index == nullHash then .insert index
    else
      let index' := (index + 1) % mod
      if slots index' == hash then .hit index'
      else match tries with
        | 0 => .miss
        | n + 1 => hitLoop mod slots hash inserting n index'

/-- `getIndexOfHit` up to (not including) its final `return`, gc_object.cpp 158-183. -/
def probe (mod : Nat) (slots : Nat → Word32) (hash : Word32) (inserting : Bool) : Probe :=
  let index := hash.toNat % mod
  if slots index == hash then .hit index
  else hitLoop mod slots hash inserting 3 index

/-- Placement loop of `growHash` for one old hash, gc_object.cpp 244-266. -/
def placeLoop (newMod : Nat) (proposed : Nat → Word32) : (tries : Nat) → (entry : Nat) → Option Nat
  | tries, entry =>
    if proposed entry == nullHash then some entry
    else match tries with
      | 0 => none
      | n + 1 => placeLoop newMod proposed n ((entry + 1) % newMod)

/-- The placement pass of `growHash`, gc_object.cpp 235-267: `proposed` starts all
empty, gets the new hash at its home slot, then every old slot (empty ones too) in
order.  `none` = `goto tryAgain` with the next prime. -/
def propose (mod : Nat) (slots : Nat → Word32) (hash : Word32) (newMod : Nat) :
    Option (Nat → Word32) :=
  (List.range mod).foldlM
    (fun proposed h =>
      match placeLoop newMod proposed 3 ((slots h).toNat % newMod) with
      | some e => some (upd proposed e (slots h))
      | none => none)
    (upd (fun _ => nullHash) (hash.toNat % newMod) hash)

/-- The `tryAgain` loop over the primes, gc_object.cpp 194-201, 257-264. -/
def findMod (mod : Nat) (slots : Nat → Word32) (hash : Word32) :
    List Nat → Option (Nat × (Nat → Word32))
  | [] => none
  | p :: ps =>
    match propose mod slots hash p with
    | some s => some (p, s)
    | none => findMod mod slots hash ps

variable {V K : Type}

/-- A probe that may only hit or insert in place (inner calls of `growHash`): bumps
`m_size` and stores the hash when inserting, gc_object.cpp 168-173. -/
def probeInsert (t : HT V K) (hash : Word32) : Option (HT V K × Nat) :=
  match probe t.mod t.slots hash true with
  | .hit i => some (t, i)
  | .insert i => some ({ t with size := t.size + 1, slots := upd t.slots i hash }, i)
  | .miss => none

/-- One step of the copy loop of `growHash`, gc_object.cpp 282-317.  The state is the
new table under construction together with the forwarding map of the old block. -/
def copyStep (old : HT V K) (st : HT V K × (Nat → Option Nat)) (v : Nat) :
    Option (HT V K × (Nat → Option Nat)) :=
  if old.slots v == nullHash then some st
  else match probeInsert st.1 (old.slots v) with
    | none => none
    | some (t, p) =>
      some ({ t with vals := upd t.vals p (old.vals v), keys := upd t.keys p (old.keys v) },
            upd st.2 v (some p))

/-- `growHash`, gc_object.cpp 189-323.  `sizeHint` defaults to 0 in the calls from
`getIndexOfHit`.  `dv`, `dk` are the zero-filled cells. -/
def growHash (dv : V) (dk : K) (t : HT V K) (hash : Word32) (sizeHint : Nat) :
    Option (HT V K × Nat) :=
  let start := if sizeHint > t.mod then sizeHint else t.mod
  match findMod t.mod t.slots hash (primeTable.dropWhile (· ≤ start)) with
  | none => none
  | some (newMod, proposed) =>
    let fresh : HT V K :=
      { mod := newMod, slots := proposed, vals := fun _ => dv, keys := fun _ => dk,
        size := t.size, fwds := t.fwds }
    match (List.range t.mod).foldlM (copyStep t) (fresh, fun _ => none) with
    | none => none
    | some (t', fwd) => probeInsert { t' with fwds := fwd :: t'.fwds } hash

/-- `getIndexOfHit(hash, true)`, gc_object.cpp 158-186. -/
def hitInsert (dv : V) (dk : K) (t : HT V K) (hash : Word32) : Option (HT V K × Nat) :=
  match probe t.mod t.slots hash true with
  | .hit i => some (t, i)
  | .insert i => some ({ t with size := t.size + 1, slots := upd t.slots i hash }, i)
  | .miss => growHash dv dk t hash 0

/-- `getIndexOfHit(hash, false)`, gc_object.cpp 158-186: look first, then insert. -/
def getIndexOfHit (dv : V) (dk : K) (t : HT V K) (hash : Word32) : Option (HT V K × Nat) :=
  match probe t.mod t.slots hash false with
  | .hit i => some (t, i)
  | .insert i => some (t, i) -- unreachable: not inserting
  | .miss => hitInsert dv dk t hash

/-- `exists(hash, removeIfPresent)`, gc_object.cpp 101-130.  The probe is the one of
`getIndexOfHit` with `inserting = false` (home, then four more).  Removal decrements
`m_size` and empties the slot; the cells keep their contents. -/
def exists_ (t : HT V K) (hash : Word32) (remove : Bool) : HT V K × Option Nat :=
  match probe t.mod t.slots hash false with
  | .hit i =>
    (if remove then { t with size := t.size - 1, slots := upd t.slots i nullHash } else t, some i)
  | _ => (t, none)

/-- The four nested tests of `getAsRawValueHashTable`, gc_object.cpp 75-98
(non-compact build): home and the next three, then `getIndexOfHit(hash,true)`. -/
def getAsRaw (dv : V) (dk : K) (t : HT V K) (hash : Word32) : Option (HT V K × Nat) :=
  let i0 := hash.toNat % t.mod
  if t.slots i0 == hash then some (t, i0)
  else
    let i1 := (i0 + 1) % t.mod
    if t.slots i1 == hash then some (t, i1)
    else
      let i2 := (i1 + 1) % t.mod
      if t.slots i2 == hash then some (t, i2)
      else
        let i3 := (i2 + 1) % t.mod
        if t.slots i3 == hash then some (t, i3)
        else hitInsert dv dk t hash

/-- `init(size, SV_HASH_TABLE)`, gc_object.cpp 28-72: `m_size = size`, then
`growHash(WRENCH_NULL_HASH, size)` on a zero-filled object (`m_mod == 0`).  The
`uint16_t sizeHint` truncation is kept. -/
def init (dv : V) (dk : K) (size : Nat) : Option (HT V K) :=
  (growHash dv dk
    { mod := 0, slots := fun _ => 0#32, vals := fun _ => dv, keys := fun _ => dk,
      size := BitVec.ofNat 32 size, fwds := [] } nullHash (size % 2 ^ 16)).map (·.1)

/-! ### Script-level operations -/

/-- Operations of a script on one table.  A key is its 32-bit hash together with the
key value stored for iteration. -/
inductive Op (V K : Type) where
  /-- `h[k] = v`: `wr_assignToHashTable`, operations.cpp 329-366 (tail). -/
  | write (h : Word32) (k : K) (v : V)
  /-- `h[k]` as a value: `wr_doIndexHash`, index.cpp 67-80, then dereference. -/
  | read (h : Word32) (k : K)
  /-- `h._remove(k)`: opcode `Remove`, vm.cpp 1199-1206. -/
  | remove (h : Word32)
  /-- `h._exists(k)`: opcode `HashEntryExists`, vm.cpp 1230-1239. -/
  | check (h : Word32)

/-- What the script observes. -/
inductive Out (V : Type) where
  | done
  | value (v : V)
  | bool (b : Bool)
deriving DecidableEq, Repr

/-- One script operation. -/
def step (dv : V) (dk : K) (t : HT V K) : Op V K → Option (HT V K × Out V)
  | .write h k v =>
    match getIndexOfHit dv dk t h with
    | none => none
    | some (t', i) => some ({ t' with vals := upd t'.vals i v, keys := upd t'.keys i k }, .done)
  | .read h k =>
    match getIndexOfHit dv dk t h with
    | none => none
    | some (t', i) => some ({ t' with keys := upd t'.keys i k }, .value (t'.vals i))
  | .remove h => some ((exists_ t h true).1, .done)
  | .check h => some ((exists_ t h false).1, .bool (exists_ t h false).2.isSome)

/-- A history of operations, with the observations in order. -/
def run (dv : V) (dk : K) (t : HT V K) : List (Op V K) → Option (HT V K × List (Out V))
  | [] => some (t, [])
  | op :: ops =>
    match step dv dk t op with
    | none => none
    | some (t', o) =>
      match run dv dk t' ops with
      | none => none
      | some (t'', os) => some (t'', o :: os)

/-- Registry history: registrations (`write`) and lookups (`read`) through
`getAsRawValueHashTable` (utils.cpp 570-592, vm.cpp 798, 873, 968 …). -/
def stepRaw (dv : V) (dk : K) (t : HT V K) : Op V K → Option (HT V K × Out V)
  | .write h k v =>
    match getAsRaw dv dk t h with
    | none => none
    | some (t', i) => some ({ t' with vals := upd t'.vals i v, keys := upd t'.keys i k }, .done)
  | .read h k =>
    match getAsRaw dv dk t h with
    | none => none
    | some (t', i) => some ({ t' with keys := upd t'.keys i k }, .value (t'.vals i))
  | .remove h => some ((exists_ t h true).1, .done)
  | .check h => some ((exists_ t h false).1, .bool (exists_ t h false).2.isSome)

def runRaw (dv : V) (dk : K) (t : HT V K) : List (Op V K) → Option (HT V K × List (Out V))
  | [] => some (t, [])
  | op :: ops =>
    match stepRaw dv dk t op with
    | none => none
    | some (t', o) =>
      match runRaw dv dk t' ops with
      | none => none
      | some (t'', os) => some (t'', o :: os)

/-- Dereferencing an element reference `(block generation, slot)` taken when the
table had `g` superseded blocks: `WRValue::deref`, operations.cpp 162-165, follows the
forwarding references left by the later growths.  `chain` is the list of forwarding
maps of those growths, oldest first.  `none`: the chain ends in a cell of a
superseded block that was not forwarded. -/
def follow : List (Nat → Option Nat) → Nat → Option Nat
  | [], i => some i
  | f :: fs, i => match f i with
    | none => none
    | some j => follow fs j

/-- The current slot an element reference taken at generation `g`, slot `i` denotes. -/
def derefHandle (t : HT V K) (g i : Nat) : Option Nat :=
  follow ((t.fwds.take (t.fwds.length - g)).reverse) i

end Wrench.HashTable
