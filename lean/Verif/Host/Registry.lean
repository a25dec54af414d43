import Verif.HashTable.Histories

/-
The registries: one table of the state for C functions, library functions and library constants
(`globalRegistry`), and one per context for its script functions (`registry`).  The tables are those of
Verif/HashTable; nothing in an entry says what kind of thing it is.  64-bit build.

Simplifications.  Names are given by their 32-bit hashes.  The contexts have been run and none has
yielded (C67, C32), the order in which imports are searched is a parameter (C54), and what the
function called does is left out.  The outcome `none` of a step is a hash table that cannot grow (C05).
-/
namespace Wrench.Registry

open Wrench Wrench.HashTable

/-- A `WRValue` of the registry, wrench.h 878-937: `i`, `f`, `ccb`, `lcb` share the first word, `p2` and
`usr` the second. -/
structure Cell where
  p : BitVec 64
  p2 : BitVec 64
deriving DecidableEq, Repr

def zero : Cell := ⟨0, 0⟩

/-- `INIT_AS_LIB_CONST`, utils.h 443. -/
def constMark : BitVec 64 := 0xFFFFFFFC

/-- Store into `i` or `f`: the low half of the first word. -/
def low (p : BitVec 64) (i : Word32) : BitVec 64 := (p &&& 0xFFFFFFFF00000000) ||| i.setWidth 64

structure St where
  g : HT Cell Unit
  /-- `registry` of context `n`; the value is `wrf`, `none` the null pointer. -/
  c : Nat → HT (Option Nat) Unit

/-- `getAsRawValueHashTable( h )` followed by a change of the cell. -/
def touch (f : Cell → Cell) (s : St) (h : Word32) : Option (St × Cell) :=
  match getAsRaw zero () s.g h with
  | none => none
  | some (t, i) => some ({ s with g := { t with vals := upd t.vals i (f (t.vals i)) } }, f (t.vals i))

inductive Op where
  | regFn (h : Word32) (a usr : BitVec 64)
  | regLib (h : Word32) (a : BitVec 64)
  | regInt (h : Word32) (i : Word32)
  | regFloat (h : Word32) (f : Word32)
  | call (c : Nat) (h : Word32)
  | libCall (h : Word32)
  | load (h : Word32)
  | host (c : Nat) (h : Word32)
  | getFunction (c : Nat) (h : Word32)
  | isFunction (c : Nat) (h : Word32)
deriving DecidableEq, Repr

inductive Out where
  | done
  /-- A jump to this address as a `WR_C_CALLBACK` with this `usr`. -/
  | native (a usr : BitVec 64)
  /-- A jump to this address as a `WR_LIB_CALLBACK`. -/
  | lib (a : BitVec 64)
  /-- Function `f` of context `c`. -/
  | script (c f : Nat)
  /-- The top-level code of context `c`. -/
  | main (c : Nat)
  | value (p2 : BitVec 64) (bits : Word32)
  | err
  | num (n : Nat)
  | found (f : Option Nat)
deriving DecidableEq, Repr

def updC (c : Nat → HT (Option Nat) Unit) (n : Nat) (t : HT (Option Nat) Unit) : Nat → HT (Option Nat) Unit :=
  fun k => if k = n then t else c k

/-- The search in the imports, vm.cpp 875-927: `exists` on each registry, then `wr_callFunction( import,
I->wrf )`, which with a null pointer starts at `codeStart` (vm.cpp 709-729). -/
def search (s : St) (h : Word32) : List Nat → St × Out
  | [] => (s, .err)
  | d :: ds =>
    match exists_ (s.c d) h false with
    | (t, some i) =>
      match t.vals i with
      | some f => ({ s with c := updC s.c d t }, .script d f)
      | none => ({ s with c := updC s.c d t }, .main d)
    | (t, none) => search { s with c := updC s.c d t } h ds

def step (imps : Nat → List Nat) (s : St) : Op → Option (St × Out)
  -- `wr_registerFunction`, utils.cpp 568-573
  | .regFn h a usr => (touch (fun _ => ⟨a, usr⟩) s h).map fun x => (x.1, .done)
  -- `wr_registerLibraryFunction`, utils.cpp 576-579
  | .regLib h a => (touch (fun x => { x with p := a }) s h).map fun x => (x.1, .done)
  -- `wr_registerLibraryConstant`, utils.cpp 582-595
  | .regInt h i => (touch (fun x => ⟨low x.p i, 0 ||| constMark⟩) s h).map fun x => (x.1, .done)
  | .regFloat h f => (touch (fun x => ⟨low x.p f, 1 ||| constMark⟩) s h).map fun x => (x.1, .done)
  -- `CallFunctionByHash`, vm.cpp 864-955 (and `…AndPop`, 957-1008)
  | .call c h => (touch id s h).map fun x => if x.2.p = 0 then search x.1 h (imps c) else (x.1, .native x.2.p x.2.p2)
  -- `CallLibFunction`, vm.cpp 1075-1112 (and `…AndPop`, 1118-1138)
  | .libCall h => (touch id s h).map fun x => (x.1, if x.2.p = 0 then .err else .lib x.2.p)
  -- `LoadLibConstant`, vm.cpp 796-810
  | .load h => (touch id s h).map fun x =>
      (x.1, if x.2.p2 &&& constMark = constMark then .value (x.2.p2 &&& 3) (x.2.p.setWidth 32) else .err)
  -- `wr_callFunction` by hash, utils.cpp 1056-1098
  | .host c h =>
    if h = 0 then some (s, .main c)
    else
      match getAsRaw none () (s.c c) h with
      | none => none
      | some (t, i) =>
        match t.vals i with
        | some f => some ({ s with c := updC s.c c t }, .script c f)
        | none => (touch id { s with c := updC s.c c t } h).map fun x => (x.1, if x.2.p = 0 then .err else .lib x.2.p)
  -- `wr_getFunction`, utils.cpp 1108-1112
  | .getFunction c h =>
    match exists_ (s.c c) h false with
    | (t, some i) => some ({ s with c := updC s.c c t }, .found (t.vals i))
    | (t, none) => some ({ s with c := updC s.c c t }, .found none)
  -- `sys::isFunction`, lib/std_sys.cpp 31-47
  | .isFunction c h =>
    if (exists_ s.g h false).2.isSome then some ({ s with g := (exists_ s.g h false).1 }, .num 1)
    else
      some ({ g := (exists_ s.g h false).1, c := updC s.c c (exists_ (s.c c) h false).1 },
        .num (if (exists_ (s.c c) h false).2.isSome then 2 else 0))

def run (imps : Nat → List Nat) (s : St) : List Op → Option (St × List Out)
  | [] => some (s, [])
  | op :: ops =>
    match step imps s op with
    | none => none
    | some (s, o) =>
      match run imps s ops with
      | none => none
      | some (s, os) => some (s, o :: os)

/-- The function table of a context: the loop of `wr_newContext`, utils.cpp 362-380. -/
def loadFns : List Word32 → Nat → HT (Option Nat) Unit → Option (HT (Option Nat) Unit)
  | [], _, t => some t
  | h :: hs, n, t =>
    match getAsRaw none () t h with
    | none => none
    | some (t, i) => loadFns hs (n + 1) { t with vals := upd t.vals i (some n) }

/-- `registry.growHash( WRENCH_NULL_HASH, 0 )`, utils.cpp 319, then the functions. -/
def newContext (hs : List Word32) : Option (HT (Option Nat) Unit) :=
  match init none () 0 with
  | none => none
  | some t => loadFns hs 0 t

end Wrench.Registry
