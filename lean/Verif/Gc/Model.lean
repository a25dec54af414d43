/-
The garbage collector, discrete_src/vm/gc.cpp (`WRContext::mark`, `markBase`, `gc`).

Objects (`WRGCBase` blocks on the `svAllocated` list) are numbered; a heap gives each
number its contents.  Only what marking looks at is kept of a value: whether it is a plain
value, a reference, an object, or a reference to a container element.

Not in this model: `SV_HASH_ENTRY` objects (no code creates them) and `SV_VOID_HASH_TABLE`
objects (never on the `svAllocated` list), object payload sizes, and the test of
`allocatedMemoryHint` that decides whether a collection is due (that test is in Verif/Gc/Shared).
-/
namespace Wrench.Gc

/-- Where a cell lies: a stack entry, a global variable, an element of an array or struct
object, the value cell of a slot of a hash block. -/
inductive Addr where
  | stack (i : Nat)
  | global (i : Nat)
  | elem (o i : Nat)
  | slot (o i : Nat)
deriving DecidableEq, Repr

/-- A `WRValue` as the collector sees it (wrench.h 726-745, utils.h 460-478). -/
inductive Cell where
  /-- int, float, library constant, raw array: `IS_EXARRAY_TYPE` fails. -/
  | plain
  /-- `WR_REF`: `p2 == 2`, so `IS_EXARRAY_TYPE` fails. -/
  | ref (a : Addr)
  /-- array, struct, hash table, iterator: `va` is the object. -/
  | obj (o : Nat)
  /-- container member made by `arrayElementToTarget` (index.cpp 53-54): `r` is the
  variable that holds the container. -/
  | member (a : Addr) (i : Nat)
  /-- container member made by `wr_doIndexHash` (index.cpp 78-79): `vb` is the hash block
  of the table. -/
  | hmember (b : Nat) (i : Nat)
deriving DecidableEq, Repr

/-- Contents of an object: `SV_VALUE` (also structs), `SV_CHAR`, `SV_HASH_TABLE` with its
block `(WRGCBase*)m_Vdata - 1` and, per slot, whether `m_hashTable[i]` is not the null
hash; and the block itself, `SV_HASH_INTERNAL`, with value and key cell per slot. -/
inductive Kind where
  | values (cells : List Cell)
  | chars
  | table (block : Nat) (used : List Bool)
  | block (cells : List (Cell × Cell))
deriving DecidableEq, Repr

/-- An object and its `GCFlag_Perm`. -/
structure Obj where
  kind : Kind
  perm : Bool
deriving DecidableEq, Repr

/-- A context's heap and roots: the `svAllocated` list, the contents of the objects, the
live part of the stack, the globals. -/
structure Heap where
  order : List Nat
  get : Nat → Option Obj
  stack : List Cell
  globals : List Cell

/-- The cell at an address. -/
def Heap.cellAt (h : Heap) : Addr → Option Cell
  | .stack i => h.stack[i]?
  | .global i => h.globals[i]?
  | .elem o i => (h.get o).bind fun x =>
      match x.kind with
      | .values cs => cs[i]?
      | _ => none
  | .slot o i => (h.get o).bind fun x =>
      match x.kind with
      | .block cs => (cs[i]?).map Prod.fst
      | _ => none

/-- `IS_EXARRAY_TYPE( xtype )`, utils.h 460. -/
def Cell.exarray : Cell → Bool
  | .plain => false
  | .ref _ => false
  | .obj _ => true
  | .member .. => true
  | .hmember .. => true

/-- The `GCFlag_Marked` bits. -/
abbrev Marks := Nat → Bool

def setMark (m : Marks) (o : Nat) : Marks := fun x => if x = o then true else m x

/-- Outcome of marking: the marks, an access to freed memory or to memory of another type,
or recursion deeper than the fuel. -/
inductive Res where
  | ok (m : Marks)
  | ub
  | deep

def Res.bind (r : Res) (f : Marks → Res) : Res :=
  match r with
  | .ok m => f m
  | .ub => .ub
  | .deep => .deep

/-- Marking a run of cells one after the other. -/
def visitAll (g : Cell → Marks → Res) : List Cell → Marks → Res
  | [], m => .ok m
  | c :: cs, m => (g c m).bind (visitAll g cs)

/-- The cells of the occupied slots, value before key. -/
def usedCells : List Bool → List (Cell × Cell) → List Cell
  | b :: bs, (v, k) :: cs => if b then v :: k :: usedCells bs cs else usedCells bs cs
  | _, _ => []

/-- `markBase( svb )`, gc.cpp 28-62, with `g` for `mark`: the object's own flag is set
last, a table's block is flagged first. -/
def markBase (h : Heap) (g : Cell → Marks → Res) (o : Nat) (m : Marks) : Res :=
  match h.get o with
  | none => .ub
  | some x =>
    match x.kind with
    | .values cs => (visitAll g cs m).bind fun m => .ok (setMark m o)
    | .chars => .ok (setMark m o)
    | .block _ => .ok (setMark m o)
    | .table b used =>
      match (h.get b).map Obj.kind with
      | some (.block cs) =>
        if used.length = cs.length then
          (visitAll g (usedCells used cs) (setMark m b)).bind fun m => .ok (setMark m o)
        else .ub
      | _ => .ub

/-- `mark( s )`, gc.cpp 65-82; the first argument bounds the recursion depth.  A container
member whose variable no longer holds a container falls through to the object case with
the variable's address taken for an object's: undefined. -/
def mark (h : Heap) : Nat → Cell → Marks → Res
  | 0, _, _ => .deep
  | f + 1, c, m =>
    match c with
    | .plain => .ok m
    | .ref _ => .ok m
    | .member a _ =>
      match h.cellAt a with
      | some c => if c.exarray then mark h f c m else .ub
      | none => .ub
    | .obj o => if m o then .ok m else markBase h (mark h f) o m
    | .hmember b _ => if m b then .ok m else markBase h (mark h f) b m

/-- The loop over permanent objects, gc.cpp 98-104. -/
def markPerms (h : Heap) (f : Nat) : List Nat → Marks → Res
  | [], m => .ok m
  | o :: os, m =>
    match h.get o with
    | none => .ub
    | some x =>
      if x.perm && !m o then (markBase h (mark h f) o m).bind (markPerms h f os)
      else markPerms h f os m

/-- The marking part of `gc( stackTop )` with a stack top, gc.cpp 96-118, from cleared
flags. -/
def markAll (h : Heap) (f : Nat) : Res :=
  (markPerms h f h.order fun _ => false).bind fun m =>
    (visitAll (mark h f) h.stack m).bind (visitAll (mark h f) h.globals)

/-- The sweep, gc.cpp 121-151: the list that remains and the blocks freed, in order. -/
def sweep (m : Marks) : List Nat → List Nat × List Nat
  | [] => ([], [])
  | o :: os =>
    let r := sweep m os
    if m o then (o :: r.1, r.2) else (r.1, o :: r.2)

/-- What is left after freeing. -/
def Heap.free (h : Heap) (kept freed : List Nat) : Heap :=
  { h with order := kept, get := fun o => if o ∈ freed then none else h.get o }

/-- Outcome of a collection: the new heap, the flags after the sweep and the blocks
freed. -/
inductive Out where
  | done (h : Heap) (flags : Marks) (freed : List Nat)
  | ub
  | deep

/-- `gc( stackTop )`, gc.cpp 85-152. -/
def gc (h : Heap) (f : Nat) : Out :=
  match markAll h f with
  | .ok m =>
    let r := sweep m h.order
    -- `current->m_flags &= ~GCFlag_Marked` for every survivor
    .done (h.free r.1 r.2) (fun o => m o && !(r.1.contains o)) r.2
  | .ub => .ub
  | .deep => .deep

end Wrench.Gc
