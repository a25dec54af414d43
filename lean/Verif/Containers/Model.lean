/-
Value arrays and the array/list/stack/queue library (discrete_src/lib/std_container.cpp),
`wr_growValueArray` (discrete_src/vm/operations.cpp 95-123) and the array case of the
`Remove` opcode (discrete_src/vm/vm.cpp 1199-1228).

A cell is a value of an arbitrary type `α` with a default (`INT 0`, the all-zero cell).
Heap accesses outside the allocation, and `int` overflow in the size computations, are
undefined behaviour, outcome `none`.  Allocation failure and the garbage collection run at
the end of the mutating functions are not part of this model.
-/
namespace Wrench.Containers

variable {α : Type}

/-- `2^32`, the modulus of `unsigned int`. -/
def W : Nat := 4294967296

/-- A `WRGCObject` of type `SV_VALUE`: the allocation `m_Vdata` and `m_size`. -/
structure Arr (α : Type) where
  buf : List α
  size : Nat
deriving DecidableEq

/-- `sizeof(WRValue)` on a 64-bit target (wrench.h). -/
def cellSize : Nat := 16

/-- `memmove( m_Vdata + to, m_Vdata + from, n * sizeof(WRValue) )`. -/
def memmove (buf : List α) (to from_ n : Nat) : Option (List α) :=
  if to + n ≤ buf.length ∧ from_ + n ≤ buf.length then
    some (buf.take to ++ (buf.drop from_).take n ++ buf.drop (to + n))
  else none

/-- `memset( m_Vdata + at, 0, n * sizeof(WRValue) )`. -/
def zero [Inhabited α] (buf : List α) (at_ n : Nat) : Option (List α) :=
  if at_ + n ≤ buf.length then
    some (buf.take at_ ++ List.replicate n default ++ buf.drop (at_ + n))
  else none

/-- `wr_growValueArray( va, newMinIndex )`, operations.cpp 95-123; the argument is the
resulting size `newMinIndex + 1`, an `int` whose byte count is computed in `int`. -/
def grow [Inhabited α] (a : Arr α) (newSize : Int) : Option (Arr α) :=
  if newSize < 0 ∨ newSize * cellSize ≥ 2147483648 then none
  else
    let n := newSize.toNat
    -- `memcpy( va->m_Cdata, old, size_el )`
    if n < a.size ∨ a.buf.length < a.size then none
    else some { buf := a.buf.take a.size ++ List.replicate (n - a.size) default, size := n }

/-- Reinterpretation of an `unsigned int` as `int`. -/
def toI32 (n : Nat) : Int := if n % W < 2147483648 then (n % W : Nat) else (n % W : Nat) - (W : Int)

/-- Reinterpretation of an `int` as `unsigned int`. -/
def toU32 (i : Int) : Nat := (i % W).toNat

/-- `wr_arrayRemoveEx( A, where, count, … )`, std_container.cpp 116-138. -/
def removeEx (a : Arr α) (where_ : Nat) (count : Int) : Option (Arr α) :=
  if where_ < a.size then
    let from_ := toU32 (where_ + count)
    if from_ ≥ a.size then some { a with size := where_ }
    else (memmove a.buf where_ from_ (a.size - from_)).map fun b =>
      { buf := b, size := toU32 (a.size - count) }
  else some a

/-- `array::remove( a, where, [count == 1] )`, std_container.cpp 141-162; the arguments are
the `int` values of the script. -/
def remove (a : Arr α) (where_ : Int) (count : Option Int) : Option (Arr α) :=
  removeEx a (toU32 where_) (count.getD 1)

/-- `array::truncate( a, n )`, std_container.cpp 165-184. -/
def truncate (a : Arr α) (n : Int) : Arr α :=
  if toU32 n < a.size then { a with size := toU32 n } else a

/-- `wr_arrayInsertEx( A, where, count, … )`, std_container.cpp 187-209. -/
def insertEx [Inhabited α] (a : Arr α) (where_ count : Nat) : Option (Arr α) :=
  (grow a (toI32 (a.size + (count + W - 1)) + 1)).bind fun g =>
    let entries := (a.size + W - where_) % W
    if entries = 0 then some g
    else
      (memmove g.buf ((where_ + count) % W) where_ entries).bind fun b =>
        (zero b where_ count).map fun b => { g with buf := b }

/-- `array::insert( a, where, [count == 1] )`, std_container.cpp 212-233. -/
def insert [Inhabited α] (a : Arr α) (where_ : Int) (count : Option Int) : Option (Arr α) :=
  insertEx a (toU32 where_) (toU32 (count.getD 1))

/-- `wr_arrayPush` (`stack::push`, `queue::push`, `list::push`), std_container.cpp
290-302.  The cell stored is the argument cell as it lies on the stack. -/
def push [Inhabited α] (a : Arr α) (v : α) : Option (Arr α) :=
  (insertEx a 0 1).bind fun g =>
    if 0 < g.buf.length then some { g with buf := g.buf.set 0 v } else none

/-- `wr_arrayPushBack`, std_container.cpp 273-287. -/
def pushBack [Inhabited α] (a : Arr α) (v : α) : Option (Arr α) :=
  (insertEx a a.size 1).bind fun g =>
    if a.size < g.buf.length then some { g with buf := g.buf.set a.size v } else none

/-- `wr_arrayPop` (`stack::pop`, `list::pop`), std_container.cpp 236-251: the returned cell
and the array.  On an empty array the result keeps its initial value `INT 0`
(vm.cpp 1078-1079). -/
def pop [Inhabited α] (a : Arr α) : Option (α × Arr α) :=
  if a.size ≠ 0 then
    (a.buf[0]?).bind fun v => (removeEx a 0 1).map fun a => (v, a)
  else some (default, a)

/-- `wr_arrayPopBack` (`queue::pop`, `list::pop_back`), std_container.cpp 254-270. -/
def popBack [Inhabited α] (a : Arr α) : Option (α × Arr α) :=
  if a.size ≠ 0 then
    (a.buf[a.size - 1]?).map fun v => (v, { a with size := a.size - 1 })
  else some (default, a)

/-- `wr_arrayPeek` (`stack::peek`), std_container.cpp 84-97, followed by the dereferencing
of the returned element reference. -/
def peek [Inhabited α] (a : Arr α) : Option α :=
  if a.size > 0 then a.buf[0]? else some default

/-- `wr_arrayPeekBack` (`queue::peek`), std_container.cpp 100-113: the element number is
kept in 21 bits of the reference (utils.h `ENCODE_ARRAY_ELEMENT_TO_P2`). -/
def peekBack [Inhabited α] (a : Arr α) : Option α :=
  if a.size > 0 then a.buf[(a.size - 1) % 2097152]? else some default

/-- The shifting loop of the `Remove` opcode, vm.cpp 1212-1215; the first argument bounds
the number of rounds. -/
def shiftLoop : Nat → Nat → Nat → List α → Option (List α)
  | 0, _, _, buf => some buf
  | f + 1, move, size, buf =>
    if (move + 1) % W < size then
      match buf[(move + 1) % W]? with
      | none => none
      | some v => if move < buf.length then shiftLoop f ((move + 1) % W) size (buf.set move v) else none
    else some buf

/-- The array case of the `Remove` opcode (`a._remove( i )`), vm.cpp 1199-1228. -/
def removeOp (a : Arr α) (i : Int) : Option (Arr α) :=
  (shiftLoop a.size (toU32 i) a.size a.buf).map fun b =>
    { buf := b, size := (a.size + W - 1) % W }

/-- `array::clear( a, [n] )`, std_container.cpp 54-81: a fresh array of `n` cells that are
not initialised (`getSVA( count, SV_VALUE, false )`); `junk` is what the allocator
happens to return. -/
def clear (junk : Nat → α) (n : Nat) : Arr α :=
  { buf := (List.range n).map junk, size := n }

end Wrench.Containers
