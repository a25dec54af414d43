/-
`SimpleLL`, the singly linked list the debugger keeps its breakpoints, call
stack, functions and packets in, discrete_src/utils/simple_ll.h 35-272.

Memory is a partial function from addresses to nodes, address `0` is the null
pointer.  Every access to a node that is not allocated (never allocated, or
already freed) is the outcome `none`, and so is freeing such a node.
-/
namespace Wrench.Ll

/-- `Node`, discrete_src/utils/simple_ll.h 275-280. -/
structure Node (α : Type) where
  item : α
  next : Nat

/-- `m_iter`, `m_head`, `m_tail`, discrete_src/utils/simple_ll.h 282-284, with the
memory behind them.  `fresh` is the address the allocator hands out next (it does
not hand out an address twice; the real one may, but never one that is still in
use, and nothing here compares a freed address with a new one).  `live` counts the
nodes allocated and not freed.  `m_clearFunc` is not modelled. -/
structure LL (α : Type) where
  mem : Nat → Option (Node α)
  fresh : Nat
  live : Nat
  iter : Nat
  head : Nat
  tail : Nat

/-- The constructor, discrete_src/utils/simple_ll.h 39. -/
def empty (α : Type) : LL α :=
  { mem := fun _ => none, fresh := 1, live := 0, iter := 0, head := 0, tail := 0 }

/-- `g_malloc(sizeof(Node))` and the stores that follow it. -/
def malloc {α : Type} (s : LL α) (n : Node α) : LL α × Nat :=
  ({ s with mem := fun a => if a = s.fresh then some n else s.mem a,
            fresh := s.fresh + 1, live := s.live + 1 }, s.fresh)

/-- `g_free( N )`. -/
def free {α : Type} (s : LL α) (a : Nat) : Option (LL α) :=
  match s.mem a with
  | none => none
  | some _ => some { s with mem := fun b => if b = a then none else s.mem b, live := s.live - 1 }

/-- `N->next = v`. -/
def setNext {α : Type} (s : LL α) (a v : Nat) : Option (LL α) :=
  match s.mem a with
  | none => none
  | some n => some { s with mem := fun b => if b = a then some { n with next := v } else s.mem b }

/-- `*item = v` through a pointer one of the `add` or `first` functions returned. -/
def setItem {α : Type} (s : LL α) (a : Nat) (v : α) : Option (LL α) :=
  match s.mem a with
  | none => none
  | some n => some { s with mem := fun b => if b = a then some { n with item := v } else s.mem b }

/-- `first`, discrete_src/utils/simple_ll.h 43.  A pointer to an item is the
address of its node (`item` is the first member). -/
def first {α : Type} (s : LL α) : LL α × Nat :=
  if s.head = 0 then (s, 0) else ({ s with iter := s.head }, s.head)

/-- `next`, discrete_src/utils/simple_ll.h 44.  At the end `m_iter` becomes null
and the address of the member at offset 0 of nothing, which is null, is
returned. -/
def next {α : Type} (s : LL α) : Option (LL α × Nat) :=
  if s.iter = 0 then some (s, 0)
  else match s.mem s.iter with
    | none => none
    | some n => some ({ s with iter := n.next }, n.next)

/-- `tail`, discrete_src/utils/simple_ll.h 46. -/
def tailItem {α : Type} (s : LL α) : Nat := s.tail

/-- The loop of `count`, discrete_src/utils/simple_ll.h 53. -/
def countLoop {α : Type} : Nat → LL α → Nat → Nat → Option (LL α × Nat)
  | 0, _, _, _ => none
  | fuel + 1, s, item, c =>
    if item = 0 then some (s, c)
    else match next s with
      | none => none
      | some (s', i) => countLoop fuel s' i (c + 1)

/-- `count`, discrete_src/utils/simple_ll.h 50-55.  `live + 1` steps are allowed; the
outcome is `none` if the loop has not ended by then. -/
def count {α : Type} (s : LL α) : Option (LL α × Nat) :=
  countLoop (s.live + 1) (first s).1 (first s).2 0

/-- The loop of `operator[]`, discrete_src/utils/simple_ll.h 61-67. -/
def atLoop {α : Type} : Nat → LL α → Nat → Int → Int → Option Nat
  | 0, _, _, _, _ => none
  | fuel + 1, s, N, cur, i =>
    if N = 0 then some 0
    else if cur ≥ i then some N
    else match s.mem N with
      | none => none
      | some n => atLoop fuel s n.next (cur + 1) i

/-- `operator[]`, discrete_src/utils/simple_ll.h 58-70. -/
def at' {α : Type} (s : LL α) (i : Int) : Option Nat := atLoop (s.live + 1) s s.head 0 i

/-- `addHead`, discrete_src/utils/simple_ll.h 73-92, and the store of `v` through the
pointer it returns. -/
def addHead {α : Type} (s : LL α) (v : α) : LL α × Nat :=
  if s.head = 0 then
    let (s, a) := malloc s { item := v, next := 0 }
    ({ s with head := a, tail := a }, a)
  else
    let (s, a) := malloc s { item := v, next := s.head }
    ({ s with head := a }, a)

/-- `addTail`, discrete_src/utils/simple_ll.h 95-111, and the store of `v` through the
pointer it returns. -/
def addTail {α : Type} (s : LL α) (v : α) : Option (LL α × Nat) :=
  if s.tail = 0 then some (addHead s v)
  else
    let (s, a) := malloc s { item := v, next := 0 }
    match setNext s s.tail a with
    | none => none
    | some s => some ({ s with tail := a }, a)

/-- `popHead`, discrete_src/utils/simple_ll.h 199-230; also the item handed back through
the pointer argument. -/
def popHead {α : Type} (s : LL α) : Option (LL α × Option α) :=
  if s.head = 0 then some (s, none)
  else match s.mem s.head with
    | none => none
    | some n =>
      let N := s.head
      let s := if s.iter = s.head then { s with iter := n.next } else s
      let s := if s.tail = N then { s with head := 0, tail := 0 } else { s with head := n.next }
      match free s N with
      | none => none
      | some s => some (s, some n.item)

/-- The loop of `popTail`, discrete_src/utils/simple_ll.h 246-267. -/
def popTailLoop {α : Type} : Nat → LL α → Nat → Option (LL α × Option α)
  | 0, _, _ => none
  | fuel + 1, s, N =>
    if N = 0 then some (s, none)
    else match s.mem N with
      | none => none
      | some n =>
        if n.next = s.tail then
          match s.mem n.next with
          | none => none
          | some t =>
            match free s n.next with
            | none => none
            | some s =>
              match setNext s N 0 with
              | none => none
              | some s => some ({ s with tail := N }, some t.item)
        else popTailLoop fuel s n.next

/-- `popTail`, discrete_src/utils/simple_ll.h 233-269. -/
def popTail {α : Type} (s : LL α) : Option (LL α × Option α) :=
  let s := if s.iter = s.tail then { s with iter := 0 } else s
  if s.head = s.tail then popHead s
  else popTailLoop (s.live + 1) s s.head

/-- Unlinking a node from the middle, discrete_src/utils/simple_ll.h 132-148 and 178-190:
`prev->next = N->next`, the iterator moved on, the node freed. -/
def unlink {α : Type} (s : LL α) (prev N : Nat) (n : Node α) : Option (LL α × Option α) :=
  match setNext s prev n.next with
  | none => none
  | some s =>
    let s := if s.iter = N then { s with iter := n.next } else s
    match free s N with
    | none => none
    | some s => some (s, some n.item)

/-- The loop of `popAt`, discrete_src/utils/simple_ll.h 123-154. -/
def popAtLoop {α : Type} : Nat → LL α → Nat → Nat → Int → Int → Option (LL α × Option α)
  | 0, _, _, _, _, _ => none
  | fuel + 1, s, prev, N, c, index =>
    if N = 0 then some (s, none)
    else match s.mem N with
      | none => none
      | some n =>
        if c = index then
          if N = s.tail then popTail s else unlink s prev N n
        else popAtLoop fuel s N n.next (c + 1) index

/-- `popAt`, discrete_src/utils/simple_ll.h 114-155. -/
def popAt {α : Type} (s : LL α) (index : Int) : Option (LL α × Option α) :=
  if index = 0 then popHead s
  else popAtLoop (s.live + 1) s 0 s.head 0 index

/-- The loop of `popItem`, discrete_src/utils/simple_ll.h 174-195. -/
def popItemLoop {α : Type} : Nat → LL α → Nat → Nat → Nat → Option (LL α)
  | 0, _, _, _, _ => none
  | fuel + 1, s, prev, N, item =>
    if N = 0 then some s
    else match s.mem N with
      | none => none
      | some n =>
        if N = item then
          match unlink s prev N n with
          | none => none
          | some (s, _) => some s
        else popItemLoop fuel s N n.next item

/-- `popItem`, discrete_src/utils/simple_ll.h 158-196: after removing the head or the tail the
search through the rest of the list is made all the same. -/
def popItem {α : Type} (s : LL α) (item : Nat) : Option (LL α) :=
  if s.head = 0 then some s
  else
    let r : Option (LL α) :=
      if s.head = item then (popHead s).map Prod.fst
      else if s.tail = item then (popTail s).map Prod.fst
      else some s
    match r with
    | none => none
    | some s => popItemLoop (s.live + 1) s 0 s.head item

/-- The loop of `clear`, discrete_src/utils/simple_ll.h 272. -/
def clearLoop {α : Type} : Nat → LL α → Option (LL α)
  | 0, _ => none
  | fuel + 1, s =>
    if s.head = 0 then some s
    else match popHead s with
      | none => none
      | some (s, _) => clearLoop fuel s

/-- `clear`, discrete_src/utils/simple_ll.h 272. -/
def clear {α : Type} (s : LL α) : Option (LL α) := clearLoop (s.live + 1) s

end Wrench.Ll
