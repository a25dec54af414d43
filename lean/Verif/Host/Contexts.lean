import Mathlib.Data.List.Nodup

/-
The lists of contexts: `wr_newContext`, `wr_import`, `wr_destroyContext` and the loop of
`wr_destroyState`, discrete_src/utils/utils.cpp 216-229, 386-411, 437-446, 484-541, and the search
of imports by a call, discrete_src/vm/vm.cpp 875-933.

Contexts live in a heap of nodes; a node that was freed is gone, and touching it is the outcome
`ub`.  Addresses are not used again.  What a context holds besides its two links is not modelled.
An import runs the imported script between creating its context and linking it in; anything may
happen meanwhile, so the two halves are separate events, kept on a stack.  Loops that go on for
longer than there are nodes are `ub` too.
-/
namespace Wrench.Host

inductive Res (α : Type) where
  | ok (a : α)
  | ub
deriving DecidableEq, Repr

def Res.bind {α β : Type} : Res α → (α → Res β) → Res β
  | .ok a, f => f a
  | .ub, _ => .ub

theorem bind_ok {α β : Type} {x : Res α} {f : α → Res β} {b : β} (h : x.bind f = .ok b) :
    ∃ a, x = .ok a ∧ f a = .ok b := by
  cases x with
  | ok a => exact ⟨a, rfl, h⟩
  | ub => cases h

/-- `nextStateContextLink` and `imported`, wrench.h 1155-1157. -/
structure Node where
  next : Option Nat
  imported : Option Nat
deriving DecidableEq, Repr

abbrev Heap := List (Option Node)

def node (h : Heap) (a : Nat) : Option Node := (h[a]?).join

def setNode (h : Heap) (a : Nat) (n : Node) : Heap := h.set a (some n)

/-- `contextList`, the contexts, and the imports under way: importing context and import. -/
structure St where
  heap : Heap
  head : Option Nat
  pending : List (Nat × Nat)
deriving DecidableEq, Repr

/-- `wr_createContext`: both links are zero (`memset`). -/
def create (h : Heap) : Heap := h ++ [some ⟨none, none⟩]

/-- `wr_destroyContextEx`, utils.cpp 484-501. -/
def destroyEx (h : Heap) (a : Nat) : Res Heap :=
  match node h a with
  | some _ => .ok (h.set a none)
  | none => .ub

/-- `wr_newContext`, utils.cpp 437-446. -/
def newContext (s : St) : Res St :=
  .ok { s with heap := setNode (create s.heap) s.heap.length ⟨s.head, none⟩, head := some s.heap.length }

/-- `wr_import` up to running the script, utils.cpp 388-394. -/
def importBegin (s : St) (c : Nat) : Res St :=
  match node s.heap c with
  | some _ => .ok { s with heap := create s.heap, pending := (c, s.heap.length) :: s.pending }
  | none => .ub

/-- The rest of `wr_import`, utils.cpp 394-410. -/
def importEnd (s : St) (good : Bool) : Res St :=
  match s.pending with
  | [] => .ok s
  | (c, i) :: rest =>
    if good then
      match node s.heap i, node s.heap c with
      | some ni, some nc =>
        let h := setNode s.heap i { ni with imported := nc.imported }
        let h := setNode h c { nc with imported := some i }
        let h := if nc.imported = none then setNode h i { ni with imported := some c } else h
        .ok { s with heap := h, pending := rest }
      | _, _ => .ub
    else (destroyEx s.heap i).bind fun h => .ok { s with heap := h, pending := rest }

/-- The loop freeing the imports, utils.cpp 527-533. -/
def freeImports (c : Nat) : Nat → Heap → Res Heap
  | 0, _ => .ub
  | fuel + 1, h =>
    match node h c with
    | none => .ub
    | some nc =>
      match nc.imported with
      | none => .ok h
      | some i =>
        match node h i with
        | none => .ub
        | some ni =>
          (destroyEx h i).bind fun h' =>
          freeImports c fuel
            (setNode h' c { nc with imported := if ni.imported = some c then none else ni.imported })

/-- Unlinking, utils.cpp 517-525: `prev` is the node before. -/
def unlink (s : St) (prev : Option Nat) (nc : Node) : Res St :=
  match prev with
  | none => .ok { s with head := nc.next }
  | some p => match node s.heap p with
    | none => .ub
    | some np => .ok { s with heap := setNode s.heap p { np with next := nc.next } }

/-- The search of `wr_destroyContext`, utils.cpp 514-540. -/
def destroyLoop (c : Nat) : Nat → Option Nat → Option Nat → St → Res St
  | 0, _, _, _ => .ub
  | _ + 1, _, none, s => .ok s
  | fuel + 1, prev, some a, s =>
    match node s.heap a with
    | none => .ub
    | some na =>
      if a = c then
        (unlink s prev na).bind fun s =>
        (freeImports c (s.heap.length + 1) s.heap).bind fun h =>
        (destroyEx h c).bind fun h => .ok { s with heap := h }
      else destroyLoop c fuel (some a) na.next s

/-- `wr_destroyContext`, utils.cpp 504-541. -/
def destroy (s : St) (c : Nat) : Res St :=
  match node s.heap c with
  | none => .ub
  | some _ => destroyLoop c (s.heap.length + 1) none s.head s

inductive Ev where
  | new
  | importBegin (c : Nat)
  | importEnd (good : Bool)
  | destroy (c : Nat)
deriving DecidableEq, Repr

def step (s : St) : Ev → Res St
  | .new => newContext s
  | .importBegin c => importBegin s c
  | .importEnd g => importEnd s g
  | .destroy c => destroy s c

def run (s : St) : List Ev → Res St
  | [] => .ok s
  | e :: es => (step s e).bind fun s => run s es

def start : St := ⟨[], none, []⟩

/-- The loop of `wr_destroyState`, utils.cpp 226-229. -/
def destroyState : Nat → St → Res St
  | 0, _ => .ub
  | fuel + 1, s =>
    match s.head with
    | none => .ok s
    | some c => (destroy s c).bind (destroyState fuel)

/-- The imports a call goes through, vm.cpp 875-931 and 971-994: `defines` tells which contexts
have a function of that name. -/
def findImport (h : Heap) (defines : Nat → Bool) (c : Nat) : Nat → Nat → Res (Option Nat)
  | 0, _ => .ub
  | fuel + 1, i =>
    if i = c then .ok none
    else if defines i then .ok (some i)
    else match node h i with
      | none => .ub
      | some n => match n.imported with
        | none => .ub
        | some j => findImport h defines c fuel j

def resolveImport (h : Heap) (defines : Nat → Bool) (c : Nat) : Res (Option Nat) :=
  match node h c with
  | none => .ub
  | some n => match n.imported with
    | none => .ok none
    | some i => findImport h defines c (h.length + 1) i

/-! ### Specification: lists -/

/-- The live contexts: those on the state's list, each with its imports, most recent first, and the
imports under way with the context they are for, and their own imports. -/
structure Live where
  count : Nat
  list : List (Nat × List Nat)
  floating : List (Nat × Nat × List Nat)
deriving DecidableEq, Repr

def Live.roots (l : Live) : List (Nat × List Nat) := l.list ++ l.floating.map fun p => (p.2.1, p.2.2)

def Live.all (l : Live) : List Nat := l.roots.flatMap fun p => p.1 :: p.2

/-- `i` is put right after `c`. -/
def insertAfter (c i : Nat) : Nat → List Nat → List Nat
  | a, xs => if a = c then i :: xs else match xs with
    | [] => []
    | x :: xs => x :: insertAfter c i x xs

def Live.step (l : Live) : Ev → Live
  | .new => { l with count := l.count + 1, list := (l.count, []) :: l.list }
  | .importBegin c => { l with count := l.count + 1, floating := (c, l.count, []) :: l.floating }
  | .importEnd g => match l.floating with
    | [] => l
    | (c, i, _) :: fs =>
      if g then { l with
        list := l.list.map fun p => (p.1, insertAfter c i p.1 p.2)
        floating := fs.map fun p => (p.1, p.2.1, insertAfter c i p.2.1 p.2.2) }
      else { l with floating := fs }
  | .destroy c => { l with list := l.list.filter fun p => p.1 ≠ c }

def Live.run (l : Live) : List Ev → Live
  | [] => l
  | e :: es => (l.step e).run es

/-- What the host may do: it names live contexts, it does not destroy a context while it is
importing, and a script being imported does not itself import. -/
def Allowed (l : Live) : Ev → Prop
  | .new => True
  | .importBegin c => c ∈ l.all
  | .importEnd _ => match l.floating with
    | [] => True
    | (c, _, own) :: fs => own = [] ∧ c ∈ ({ l with floating := fs } : Live).all
  | .destroy c => c ∈ l.all

def AllowedRun (l : Live) : List Ev → Prop
  | [] => True
  | e :: es => Allowed l e ∧ AllowedRun (l.step e) es

end Wrench.Host
