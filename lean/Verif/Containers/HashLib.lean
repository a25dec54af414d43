import Verif.HashTable.Props

/-
The `hash::` library (discrete_src/lib/std_container.cpp 35-39, 305-381) together with assignment,
indexing and copying of variables that hold tables.

A table object is the `HT` of `Verif.HashTable.Model`; a variable holds a table (by its number, in
order of creation: objects are shared, never copied) or something else.  `addr o g` is the address of
the cells of object `o` after `g` allocations of its block; a value takes 16 bytes (64-bit target), an
entry two values.  Not modelled: the collector (every object here is held by a variable or never used
again), `hash::` calls with too few arguments or through references (they dereference first).
-/
namespace Wrench.HashLib
open Wrench.HashTable

variable {V K : Type}

/-- What a variable holds. -/
inductive Var (V : Type) where
  | tbl (o : Nat)
  | other (v : V)
deriving DecidableEq, Repr

structure World (V K : Type) where
  objs : Nat → Option (HT V K)
  next : Nat
  vars : Nat → Var V

inductive Call (V K : Type) where
  /-- `hash::clear( x )` -/
  | clear (x : Nat)
  /-- `hash::count( x )` -/
  | count (x : Nat)
  /-- `hash::add( x, v, k )`, `k` hashing to `h` -/
  | add (x : Nat) (v : V) (h : Word32) (k : K)
  /-- `hash::remove( x, k )` -/
  | remove (x : Nat) (h : Word32)
  /-- `hash::exists( x, k )` -/
  | exists_ (x : Nat) (h : Word32)
  /-- `x[k] = v` -/
  | put (x : Nat) (h : Word32) (k : K) (v : V)
  /-- `x[k]` -/
  | get (x : Nat) (h : Word32) (k : K)
  /-- `y = x` -/
  | copy (y x : Nat)

/-- The value of the call. -/
inductive Ans (V : Type) where
  | num (w : Word32)
  | val (v : V)
  | table (o : Nat)
  | unit
deriving DecidableEq, Repr

/-- The low 32 bits of the address of the entry `i` (`stackTop->p = …`, read back as `i`), or 0. -/
def lowWord (addr : Nat → Nat → Nat) (o : Nat) (t : HT V K) : Option Nat → Word32
  | none => 0#32
  | some i => BitVec.ofNat 32 (addr o t.fwds.length + 32 * i)

/-- `wr_ifHash`, std_container.cpp 35-39. -/
def ifHash (w : World V K) (x : Nat) : Option (Nat × HT V K) :=
  match w.vars x with
  | .other _ => none
  | .tbl o => (w.objs o).map fun t => (o, t)

def World.setObj (w : World V K) (o : Nat) (t : HT V K) : World V K :=
  { w with objs := fun o' => if o' = o then some t else w.objs o' }

/-- One call. -/
def call (dv : V) (dk : K) (addr : Nat → Nat → Nat) (w : World V K) : Call V K → Option (World V K × Ans V)
  -- `wr_hashClear`, 305-325: a new table in the variable
  | .clear x =>
    match init dv dk 0 with
    | none => none
    | some t =>
      some ({ objs := fun o => if o = w.next then some t else w.objs o, next := w.next + 1,
              vars := fun y => if y = x then .tbl w.next else w.vars y }, .table w.next)
  -- `wr_hashCount`, 328-337
  | .count x =>
    match ifHash w x with
    | none => some (w, .num 0#32)
    | some (_, t) => some (w, .num t.size)
  -- `wr_hashAdd`, 340-358
  | .add x v h k =>
    match ifHash w x with
    | none => some (w, .num 0#32)
    | some (o, t) =>
      match getIndexOfHit dv dk t h with
      | none => none
      | some (t', i) =>
        let t' := { t' with vals := upd t'.vals i v, keys := upd t'.keys i k }
        some (w.setObj o t', .val (t'.vals i))
  -- `wr_hashRemove`, 361-375
  | .remove x h =>
    match ifHash w x with
    | none => some (w, .num 0#32)
    | some (o, t) =>
      some (w.setObj o (HashTable.exists_ t h true).1,
        .num (lowWord addr o t (HashTable.exists_ t h true).2))
  -- `wr_hashExists`, 361-381
  | .exists_ x h =>
    match ifHash w x with
    | none => some (w, .num 0#32)
    | some (o, t) =>
      some (w.setObj o (HashTable.exists_ t h false).1,
        .num (lowWord addr o t (HashTable.exists_ t h false).2))
  -- assignment and indexing of a table, as in `Verif.HashTable.Model`
  | .put x h k v =>
    match ifHash w x with
    | none => some (w, .unit)
    | some (o, t) =>
      match step dv dk t (.write h k v) with
      | none => none
      | some (t', _) => some (w.setObj o t', .unit)
  | .get x h k =>
    match ifHash w x with
    | none => some (w, .unit)
    | some (o, t) =>
      match step dv dk t (.read h k) with
      | some (t', .value v) => some (w.setObj o t', .val v)
      | _ => none
  | .copy y x => some ({ w with vars := fun z => if z = y then w.vars x else w.vars z }, .unit)

/-- A script: the answers in order. -/
def calls (dv : V) (dk : K) (addr : Nat → Nat → Nat) (w : World V K) :
    List (Call V K) → Option (World V K × List (Ans V))
  | [] => some (w, [])
  | c :: r =>
    match call dv dk addr w c with
    | none => none
    | some (w', a) =>
      match calls dv dk addr w' r with
      | none => none
      | some (w'', l) => some (w'', a :: l)

end Wrench.HashLib
