/-
`SimpleLL`, discrete_src/utils/simple_ll.h 35-285: a singly linked list with a cursor.

Nodes are numbered; a freed node is `none`, and following a pointer to one is undefined (`none` as
the result of an operation).  `*addHead() = a` is one operation.  A null pointer to a node gives a
null pointer to its item (`item` is the first member), as `next()` relies on.  Not modelled:
`m_clearFunc`, failing allocations, the `Iterator` class.
-/
namespace Wrench.Util.LL

variable {α : Type}

/-- 274-285. -/
structure State (α : Type) where
  node : Nat → Option (α × Option Nat)
  fresh : Nat
  iter : Option Nat
  head : Option Nat
  tail : Option Nat

def empty : State α := ⟨fun _ => none, 0, none, none, none⟩

def State.put (s : State α) (i : Nat) (v : Option (α × Option Nat)) : State α :=
  { s with node := fun j => if j = i then v else s.node j }

/-- `first()`, 43. -/
def first (s : State α) : State α × Option Nat :=
  match s.head with
  | some h => ({ s with iter := some h }, some h)
  | none => (s, none)

/-- `next()`, 44. -/
def next (s : State α) : Option (State α × Option Nat) :=
  match s.iter with
  | none => some (s, none)
  | some i => do
    let (_, nx) ← s.node i
    return ({ s with iter := nx }, nx)

/-- The loop of `count()`, 53: `item` is the pointer returned last. -/
def countLoop : Nat → State α → Option Nat → Nat → Option (State α × Nat)
  | _, s, none, c => some (s, c)
  | 0, _, some _, _ => none
  | f + 1, s, some _, c => do
    let (s, item) ← next s
    countLoop f s item (c + 1)

/-- `count()`, 50-55.  A loop never makes more steps than there ever were nodes. -/
def count (s : State α) : Option (State α × Nat) :=
  countLoop (s.fresh + 1) (first s).1 (first s).2 0

/-- The loop of `operator[]`, 61-67. -/
def atLoop (s : State α) (i : Int) : Nat → Option Nat → Int → Option (Option Nat)
  | _, none, _ => some none
  | 0, some _, _ => none
  | f + 1, some n, cur =>
    if cur ≥ i then some (some n)
    else do
      let (_, nx) ← s.node n
      atLoop s i f nx (cur + 1)

/-- `operator[]`, 58-70. -/
def at_ (s : State α) (i : Int) : Option (Option Nat) := atLoop s i (s.fresh + 1) s.head 0

/-- `addHead()`, 73-93. -/
def addHead (s : State α) (a : α) : State α × Nat :=
  let n := s.fresh
  match s.head with
  | none => ({ (s.put n (some (a, none))) with fresh := n + 1, head := some n, tail := some n }, n)
  | some h => ({ (s.put n (some (a, some h))) with fresh := n + 1, head := some n }, n)

/-- `addTail()`, 95-111. -/
def addTail (s : State α) (a : α) : Option (State α × Nat) :=
  match s.tail with
  | none => some (addHead s a)
  | some t => do
    let n := s.fresh
    let (b, _) ← s.node t
    return ({ ((s.put n (some (a, none))).put t (some (b, some n))) with fresh := n + 1, tail := some n }, n)

/-- `popHead()`, 199-230: the state and the item. -/
def popHead (s : State α) : Option (State α × Option α) :=
  match s.head with
  | none => some (s, none)
  | some h => do
    let (a, nx) ← s.node h
    let iter := if s.iter = some h then nx else s.iter
    let s := if s.tail = some h then { s with iter := iter, head := none, tail := none }
      else { s with iter := iter, head := nx }
    return (s.put h none, some a)

/-- The loop of `popTail()`, 246-267. -/
def popTailLoop (s : State α) : Nat → Option Nat → Option (State α × Option α)
  | _, none => some (s, none)
  | 0, some _ => none
  | f + 1, some n => do
    let (b, nx) ← s.node n
    if nx = s.tail then
      match nx with
      | none => none
      | some t => do
        let (a, _) ← s.node t
        return ({ ((s.put t none).put n (some (b, none))) with tail := some n }, some a)
    else popTailLoop s f nx

/-- `popTail()`, 233-269. -/
def popTail (s : State α) : Option (State α × Option α) :=
  let s := if s.iter = s.tail then { s with iter := none } else s
  if s.head = s.tail then popHead s
  else popTailLoop s (s.fresh + 1) s.head

/-- Unlinking the node `n` after `prev`, 132-148 and 178-190. -/
def unlink (s : State α) (prev : Option Nat) (n : Nat) : Option (State α × Option α) := do
  let p ← prev
  let (a, nx) ← s.node n
  let (b, _) ← s.node p
  return ({ ((s.put p (some (b, nx))).put n none) with
    iter := if s.iter = some n then nx else s.iter }, some a)

/-- The loop of `popAt()`, 123-154. -/
def popAtLoop (s : State α) (index : Int) : Nat → Option Nat → Option Nat → Int →
    Option (State α × Option α)
  | _, none, _, _ => some (s, none)
  | 0, some _, _, _ => none
  | f + 1, some n, prev, c =>
    if c = index then
      if s.tail = some n then popTail s else unlink s prev n
    else do
      let (_, nx) ← s.node n
      popAtLoop s index f nx (some n) (c + 1)

/-- `popAt()`, 114-155. -/
def popAt (s : State α) (index : Int) : Option (State α × Option α) :=
  if index = 0 then popHead s else popAtLoop s index (s.fresh + 1) s.head none 0

/-- The loop of `popItem()`, 174-195. -/
def popItemLoop (s : State α) (item : Nat) : Nat → Option Nat → Option Nat → Option (State α)
  | _, none, _ => some s
  | 0, some _, _ => none
  | f + 1, some n, prev =>
    if n = item then (unlink s prev n).map (·.1)
    else do
      let (_, nx) ← s.node n
      popItemLoop s item f nx (some n)

/-- `popItem()`, 158-196: the loop also runs after the head or tail was removed. -/
def popItem (s : State α) (item : Nat) : Option (State α) :=
  match s.head with
  | none => some s
  | some h => do
    let s ← if h = item then (popHead s).map (·.1)
      else if s.tail = some item then (popTail s).map (·.1)
      else some s
    popItemLoop s item (s.fresh + 1) s.head none

/-- `clear()`, 272. -/
def clearLoop : Nat → State α → Option (State α)
  | 0, s => if s.head = none then some s else none
  | f + 1, s => if s.head = none then some s else do
    let (s, _) ← popHead s
    clearLoop f s

def clear (s : State α) : Option (State α) := clearLoop (s.fresh + 1) s

end Wrench.Util.LL
