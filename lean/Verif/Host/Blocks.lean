import Verif.Host.ContextClaims

/-
Who frees the bytecode: `takeOwnership` of wr_newContext, wr_import and wr_run,
discrete_src/utils/utils.cpp 277-302, 339, 386-411, 437-446, 460-481 and 484-501, and
sys::importByteCode and sys::importCompile, discrete_src/lib/std_sys.cpp 49-88.

The contexts are those of Verif/Host/Contexts; contexts are numbered in the order of their creation, and `uses`
keeps for each its block (`bottom`) and `WRC_OwnsMemory`.  Blocks are numbered in the order of their allocation;
`mem` tells which are still allocated.  Reading or freeing a block that is not is the outcome `ub`.
Simplifications: whether a block passes the checks of wr_createContext is a parameter of the event, and so is
whether running a script succeeds.  Allocation does not fail.
-/
namespace Wrench.Blocks

open Wrench.Host

structure BSt where
  st : St
  uses : List (Nat × Bool)
  mem : List Bool
deriving DecidableEq, Repr

/-- `g_free`. -/
def free (m : List Bool) (b : Nat) : Res (List Bool) := if m[b]? = some true then .ok (m.set b false) else .ub

/-- Reading a block. -/
def read (m : List Bool) (b : Nat) : Res Unit := if m[b]? = some true then .ok () else .ub

/-- The end of `wr_destroyContextEx`, utils.cpp 495-498, for those of the contexts `is` that were destroyed. -/
def release (old new : Heap) (uses : List (Nat × Bool)) : List Nat → List Bool → Res (List Bool)
  | [], m => .ok m
  | i :: is, m =>
    if node old i ≠ none ∧ node new i = none then
      match uses[i]? with
      | some (b, true) => (free m b).bind (release old new uses is)
      | _ => release old new uses is m
    else release old new uses is m

/-- An operation on the contexts together with the blocks it frees. -/
def onContexts (s : BSt) (e : Ev) : Res BSt :=
  (step s.st e).bind fun st =>
  (release s.st.heap st.heap s.uses (List.range s.st.heap.length) s.mem).bind fun m =>
  .ok { s with st := st, mem := m }

/-- Code of context `c` is run. -/
def touch (s : BSt) (c : Nat) : Res Unit :=
  match node s.st.heap c, s.uses[c]? with
  | some _, some (b, _) => read s.mem b
  | _, _ => .ub

/-- Creating a context for block `b`: `good` is whether it passes the checks, utils.cpp 279-302; if not nothing
happens, also not to the block. -/
def create (s : BSt) (e : Ev) (b : Nat) (good own : Bool) : Res BSt :=
  (read s.mem b).bind fun _ =>
  if good then (onContexts s e).bind fun s => .ok { s with uses := s.uses ++ [(b, own)] } else .ok s

inductive BEv where
  /-- The host or wr_compile allocates a block. -/
  | alloc
  | hostFree (b : Nat)
  | new (b : Nat) (good own : Bool)
  | importBegin (c b : Nat) (good own : Bool)
  | importEnd (good : Bool)
  | destroy (c : Nat)
  | call (c : Nat)
  /-- sys::importByteCode, std_sys.cpp 49-69, up to running the script: the bytes are copied and the copy is handed
  over. -/
  | scriptImport (c : Nat) (good : Bool)
deriving DecidableEq, Repr

def bstep (s : BSt) : BEv → Res BSt
  | .alloc => .ok { s with mem := s.mem ++ [true] }
  | .hostFree b => (free s.mem b).bind fun m => .ok { s with mem := m }
  | .new b good own => create s .new b good own
  | .importBegin c b good own => create s (.importBegin c) b good own
  | .importEnd g =>
    match s.st.pending with
    | [] => onContexts s (.importEnd g)
    | (_, i) :: _ => (touch s i).bind fun _ => onContexts s (.importEnd g)
  | .destroy c => onContexts s (.destroy c)
  | .call c => (touch s c).bind fun _ => .ok s
  | .scriptImport c good =>
    (touch s c).bind fun _ =>
    create { s with mem := s.mem ++ [true] } (.importBegin c) s.mem.length good true

def brun (s : BSt) : List BEv → Res BSt
  | [] => .ok s
  | e :: es => (bstep s e).bind fun s => brun s es

def bstart : BSt := ⟨start, [], []⟩

/-- `wr_run`, utils.cpp 460-481: `ok` is whether running the script succeeded.  The result is the context, or
null. -/
def wrRun (s : BSt) (b : Nat) (good own ok destroyContext : Bool) : Res (BSt × Option Nat) :=
  (create s .new b good own).bind fun s1 =>
  if good then
    (touch s1 s.st.heap.length).bind fun _ =>
    if !ok || destroyContext then (onContexts s1 (.destroy s.st.heap.length)).bind fun s2 => .ok (s2, none)
    else .ok (s1, some s.st.heap.length)
  else .ok (s1, none)

/-! ### Specification: a ledger -/

/-- Whose a block is. -/
inductive Owner where
  | nobody
  | host
  | context (i : Nat)
  /-- A copy made by sys::importByteCode and refused. -/
  | lost
  | freed
deriving DecidableEq, Repr

structure Ledger where
  live : Live
  uses : List (Nat × Bool)
  blocks : Nat
  owner : Nat → Owner

def setOwner (f : Nat → Owner) (b : Nat) (o : Owner) : Nat → Owner := fun x => if x = b then o else f x

/-- The blocks of contexts that are no longer there are freed. -/
def settle (l : Live) (f : Nat → Owner) : Nat → Owner := fun b =>
  match f b with
  | .context i => if i ∈ l.all then .context i else .freed
  | o => o

def Ledger.created (L : Ledger) (e : Ev) (b : Nat) (good own : Bool) : Ledger :=
  if good then { L with
    live := L.live.step e
    uses := L.uses ++ [(b, own)]
    owner := if own then setOwner L.owner b (.context L.live.count) else L.owner }
  else L

def Ledger.step (L : Ledger) : BEv → Ledger
  | .alloc => { L with blocks := L.blocks + 1, owner := setOwner L.owner L.blocks .host }
  | .hostFree b => { L with owner := setOwner L.owner b .freed }
  | .new b good own => L.created .new b good own
  | .importBegin c b good own => L.created (.importBegin c) b good own
  | .importEnd g => { L with live := L.live.step (.importEnd g), owner := settle (L.live.step (.importEnd g)) L.owner }
  | .destroy c => { L with live := L.live.step (.destroy c), owner := settle (L.live.step (.destroy c)) L.owner }
  | .call _ => L
  | .scriptImport c good =>
    if good then { L with
      live := L.live.step (.importBegin c)
      uses := L.uses ++ [(L.blocks, true)]
      blocks := L.blocks + 1
      owner := setOwner L.owner L.blocks (.context L.live.count) }
    else { L with blocks := L.blocks + 1, owner := setOwner L.owner L.blocks .lost }

def Ledger.run (L : Ledger) : List BEv → Ledger
  | [] => L
  | e :: es => (L.step e).run es

/-- No context that is still there uses block `b`. -/
def Unused (L : Ledger) (b : Nat) : Prop := ∀ i ∈ L.live.all, ∀ o, L.uses[i]? ≠ some (b, o)

/-- The rules for the host: it passes and frees only blocks that are its own, frees them and gives them away only
when no context uses them; and those of C31. -/
def May (L : Ledger) : BEv → Prop
  | .alloc => True
  | .hostFree b => L.owner b = .host ∧ Unused L b
  | .new b good own => L.owner b = .host ∧ (good = true → own = true → Unused L b)
  | .importBegin c b good own => L.owner b = .host ∧ (good = true → own = true → Unused L b) ∧ c ∈ L.live.all
  | .importEnd g => Allowed L.live (.importEnd g)
  | .destroy c => c ∈ L.live.all
  | .call c => c ∈ L.live.all
  | .scriptImport c _ => c ∈ L.live.all

def MayRun (L : Ledger) : List BEv → Prop
  | [] => True
  | e :: es => May L e ∧ MayRun (L.step e) es

def noBlocks : Ledger := ⟨noneLive, [], 0, fun _ => .nobody⟩

end Wrench.Blocks
