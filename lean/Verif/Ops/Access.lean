import Verif.Ops.Index

/-
What a host program uses on a value it is given: `WRValue::isInt`, `isFloat`, `isString`,
`isWrenchArray`, `isRawArray`, `isHashTable`, `isStruct`, `asInt`, `asFloat`, `array`, `arraySize`,
`indexArray`, `setInt`, `setFloat`, `setString` (discrete_src/wrench.h 800-890,
discrete_src/utils/utils.cpp 597-790, 1147-1163), the choice of text in `asString` and
`asMallocString` (utils.cpp 900-985), the helper class `WrenchValue` (utils.cpp 102-146,
wrench.h 1019-1056), and `_count` (operations.cpp 306-324).

The state is that of the operators (`Verif.Ops.Model`).  Not modelled: the number of members
`isHashTable` reports, `indexHash` and `indexStruct` (C56, C61 and C27 cover the tables behind
them); the conversion of a float to an int is a parameter, `none` where C++ leaves it undefined.
Allocation succeeds for sizes below 2^31 and not beyond (the size is an `int`).
-/
namespace Wrench.Ops

/-- `WRValue::isInt`, wrench.h 823. -/
def isInt (σ : St) (a : Addr) : Bool :=
  match σ.cell a with
  | .int _ => true
  | .ref r => match σ.cell r with
    | .int _ => true
    | _ => false
  | _ => false

/-- `WRValue::isFloat`, wrench.h 822. -/
def isFloat (σ : St) (a : Addr) : Bool :=
  match σ.cell a with
  | .float _ => true
  | .ref r => match σ.cell r with
    | .float _ => true
    | _ => false
  | _ => false

/-- `WRValue::isString`, utils.cpp 628-640: the length when it is one. -/
def isString (f : Nat) (σ : St) (a : Addr) : Res (St × Option Nat) := do
  let (σ, l) ← deref f σ a
  match σ.cell l with
  | .arr o => match σ.obj o with
    | .chars bs _ => return (σ, some bs.length)
    | _ => return (σ, none)
  | _ => return (σ, none)

/-- `WRValue::isWrenchArray`, utils.cpp 643-655. -/
def isWrenchArray (f : Nat) (σ : St) (a : Addr) : Res (St × Option Nat) := do
  let (σ, l) ← deref f σ a
  match σ.cell l with
  | .arr o => match σ.obj o with
    | .vals n => return (σ, some n)
    | _ => return (σ, none)
  | _ => return (σ, none)

/-- `WRValue::isRawArray`, utils.cpp 658-670. -/
def isRawArray (f : Nat) (σ : St) (a : Addr) : Res (St × Option Nat) := do
  let (σ, l) ← deref f σ a
  match σ.cell l with
  | .raw _ n => return (σ, some n)
  | _ => return (σ, none)

/-- `WRValue::isHashTable`, utils.cpp 673-685, without the member count. -/
def isHashTable (f : Nat) (σ : St) (a : Addr) : Res (St × Bool) := do
  let (σ, l) ← deref f σ a
  match σ.cell l with
  | .tbl _ => return (σ, true)
  | _ => return (σ, false)

/-- `WRValue::isStruct`, utils.cpp 688-691. -/
def isStruct (f : Nat) (σ : St) (a : Addr) : Res (St × Bool) := do
  let (σ, l) ← deref f σ a
  match σ.cell l with
  | .strct _ => return (σ, true)
  | _ => return (σ, false)

/-- `(int)f`, undefined when the number does not fit. -/
def castI (toI : Word32 → Option Word32) (σ : St) (x : Word32) : Res (St × Word32) :=
  match toI x with
  | some w => .ok (σ, w)
  | none => .ub

/-- `WRValue::asInt`, utils.cpp 597-610. -/
def asInt (E : Env) (toI : Word32 → Option Word32) (f : Nat) (σ : St) (a : Addr) :
    Res (St × Word32) :=
  match σ.cell a with
  | .int w => .ok (σ, w)
  | .float x => castI toI σ x
  | _ => do
    let σ ← single E f σ a
    match σ.cell .t1 with
    | .int w => return (σ, w)
    | .float x => castI toI σ x
    | _ => .oof

/-- `WRValue::asFloat`, utils.cpp 613-625. -/
def asFloat (E : Env) (f : Nat) (σ : St) (a : Addr) : Res (St × Word32) :=
  match σ.cell a with
  | .float x => .ok (σ, x)
  | .int w => .ok (σ, E.ofInt w)
  | _ => do
    let σ ← single E f σ a
    match σ.cell .t1 with
    | .float x => return (σ, x)
    | .int w => return (σ, E.ofInt w)
    | _ => .oof

/-- What `array` hands out: the characters, or the elements of an array object. -/
inductive Data where
  | bytes (bs : List Byte)
  | elems (o n : Nat)
deriving DecidableEq, Repr

/-- `WRValue::array( len, arrayType )`, utils.cpp 767-783; `ch`: `arrayType` is `SV_CHAR`,
otherwise `SV_VALUE`. -/
def array (f : Nat) (σ : St) (a : Addr) (ch : Bool) : Res (St × Option Data) := do
  let (σ, l) ← deref f σ a
  match σ.cell l with
  | .arr o => match σ.obj o with
    | .chars bs _ => return (σ, if ch then some (.bytes bs) else none)
    | .vals n => return (σ, if ch then none else some (.elems o n))
    | .other => return (σ, none)
  | _ => return (σ, none)

/-- `WRValue::arraySize`, utils.cpp 786-790; `none` is -1. -/
def arraySize (f : Nat) (σ : St) (a : Addr) : Res (St × Option Nat) := do
  let (σ, l) ← deref f σ a
  match σ.cell l with
  | .arr o => match σ.obj o with
    | .chars bs _ => return (σ, some bs.length)
    | .vals n => return (σ, some n)
    | .other => .ub
  | _ => return (σ, none)

/-- `wr_countOfArrayElement`, operations.cpp 306-324 (`x._count`).  Tables, structs and iterators
are not modelled. -/
def countOf (f : Nat) (σ : St) (a tgt : Addr) : Res St := do
  let (σ, l) ← deref f σ a
  match σ.cell l with
  | .arr o => match σ.obj o with
    | .chars bs _ => return σ.set tgt (.int (BitVec.ofNat 32 bs.length))
    | .vals n => return σ.set tgt (.int (BitVec.ofNat 32 n))
    | .other => .ub
  | .raw _ n => return σ.set tgt (.int (BitVec.ofNat 32 n))
  | .int _ | .float _ | .ref _ => return σ.set tgt (.int 0)
  | _ => .ub

/-- `getSVA( index + 1, SV_VALUE, true )` into `l`: an `int` size, so 2^31 and more is refused by
the allocator. -/
def makeArr (σ : St) (l : Addr) (w : Word32) : Res St :=
  if (w + 1).toInt < 0 then .ub else .ok ((newArr σ (w + 1).toNat).set l (.arr σ.next))

/-- The second half of `indexArray`, utils.cpp 718-729, on an array of `n` elements.  With the
index 0xFFFFFFFF the array is given 0 elements and the pointer is beyond any memory. -/
def indexElem (σ : St) (o n : Nat) (w : Word32) (create : Bool) : Res (St × Option Addr) :=
  if n ≤ w.toNat then
    if create then
      if w.toInt < 0 then .ub else .ok (growArr σ o w.toNat, some (.elem o w.toNat))
    else .ok (σ, none)
  else .ok (σ, some (.elem o w.toNat))

/-- `WRValue::indexArray`, utils.cpp 694-730; `none` is the null pointer. -/
def indexArray (f : Nat) (σ : St) (a : Addr) (w : Word32) (create : Bool) :
    Res (St × Option Addr) := do
  let (σ, l) ← deref f σ a
  let fresh : Res (St × Option Addr) :=
    if create then do
      let τ ← makeArr σ l w
      indexElem τ σ.next (w + 1).toNat w create
    else .ok (σ, none)
  match σ.cell l with
  | .arr o => match σ.obj o with
    | .vals n => indexElem σ o n w create
    | _ => fresh
  | _ => fresh

/-- `WrenchValue( context, value )`, wrench.h 1024. -/
def wrap (f : Nat) (σ : St) (a : Addr) : Res (St × Addr) := deref f σ a

/-- `WrenchValue::Int`, utils.cpp 102-110, on the value at `l`: the int the pointer shows. -/
def wvInt (E : Env) (toI : Word32 → Option Word32) (f : Nat) (σ : St) (l : Addr) :
    Res (St × Word32) :=
  match σ.cell l with
  | .int w => .ok (σ, w)
  | _ => do
    let (σ, w) ← asInt E toI f σ l
    return (σ.set l (.int w), w)

/-- `WrenchValue::Float`, utils.cpp 113-121. -/
def wvFloat (E : Env) (f : Nat) (σ : St) (l : Addr) : Res (St × Word32) :=
  match σ.cell l with
  | .float x => .ok (σ, x)
  | _ => do
    let (σ, x) ← asFloat E f σ l
    return (σ.set l (.float x), x)

/-- `va->get( index )` for an array of values, gc_object.cpp 133-154: an index past the end (a
negative one) is the last element. -/
def getElem (o n : Nat) (w : Word32) : Res Addr :=
  if w.toNat < n then .ok (.elem o w.toNat) else if n = 0 then .ub else .ok (.elem o (n - 1))

/-- `WrenchValue::asArrayMember`, utils.cpp 124-146, on the value at `l`.  A string is an array
too: what is returned then points to a character. -/
def asArrayMember (σ : St) (l : Addr) (w : Word32) : Res (St × Addr) :=
  match σ.cell l with
  | .arr o => match σ.obj o with
    | .vals n =>
      if w.toInt ≥ (n : Int) then do
        let τ := growArr σ o w.toNat
        let e ← getElem o (w.toNat + 1) w
        return (τ, e)
      else do
        let e ← getElem o n w
        return (σ, e)
    | _ => .ub
  | _ => do
    let τ ← makeArr σ l w
    let e ← getElem σ.next (w + 1).toNat w
    return (τ, e)

/-- `setInt`, `setFloat`, wrench.h 819-820, 972-973. -/
def setInt (σ : St) (a : Addr) (w : Word32) : St := σ.set a (.int w)
def setFloat (σ : St) (a : Addr) (x : Word32) : St := σ.set a (.float x)

/-- `wr_makeString`, utils.cpp 1147-1163: `data` is the memory the host points to, `len` its
argument. -/
def setString (σ : St) (a : Addr) (data : List Byte) (len : Nat) : Res St :=
  let slen : Option Nat :=
    if len ≠ 0 then some len
    else if (data.takeWhile (· ≠ 0)).length < data.length then some (data.takeWhile (· ≠ 0)).length
    else none
  match slen with
  | none => .ub
  | some n =>
    if n ≤ data.length then
      .ok ({ σ.setObj σ.next (.chars (data.take n) false) with next := σ.next + 1 }.set a
        (.arr σ.next))
    else .ub

/-- The value `asString` formats, utils.cpp 947-985: a number or a string. -/
def textOf (E : Env) : Nat → St → Addr → Res (St × Val)
  | 0, _, _ => .oof
  | f + 1, σ, a =>
    let other : Res (St × Val) := do
      let σ ← single E (f + 1) σ a
      return (σ, σ.cell .t1)
    match σ.cell a with
    | .ref r => textOf E f σ r
    | .int w => .ok (σ, .int w)
    | .float x => .ok (σ, .float x)
    | .arr o => match σ.obj o with
      | .chars _ _ => .ok (σ, .arr o)
      | _ => other
    | .mem _ _ | .hmem _ => do
      let (σ, l) ← deref (f + 1) σ a
      textOf E f σ l
    | _ => other

/-- The value `asMallocString` formats, utils.cpp 900-944. -/
def mallocTextOf (E : Env) : Nat → St → Addr → Res (St × Val)
  | 0, _, _ => .oof
  | f + 1, σ, a =>
    let other : Res (St × Val) := do
      let σ ← single E (f + 1) σ a
      return (σ, σ.cell .t1)
    match σ.cell a with
    | .ref r => mallocTextOf E f σ r
    | .int w => .ok (σ, .int w)
    | .float x => .ok (σ, .float x)
    | .arr o => match σ.obj o with
      | .chars _ _ => .ok (σ, .arr o)
      | _ => other
    | _ => other

end Wrench.Ops
