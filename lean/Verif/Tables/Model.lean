import Verif.HashTable.Model

/-
Script hash tables: `t[k]`, `t.name`, `{ k : v }`, `_exists`, `_remove` and assignment to and from
them, discrete_src/vm/index.cpp 59-275, operations.cpp 142-178, 181-237, 241-284, 326-366, 431-464 and
the instructions `Index`, `StackIndexHash`, `AssignToHashTableAndPop`, `Remove`, `HashEntryExists`,
`Assign` of vm.cpp, over the table objects of `HashTable.Model`.

Values in memory live in variables (`var`: locals and globals) and in the value cells of table blocks
(`el o g i`: cell `i` of the `g`-th block table `o` has had).  Growth turns every occupied cell of the
old block into a reference to its new cell (gc_object.cpp 282-317); `read` answers that reference for a
superseded block.  Values on the stack are passed as values: nothing refers to a stack slot.

Simplifications: a string is its bytes (strings are not modified here); arrays, structs, raw arrays and
hashes of tables used as keys are out of scope and give `scope`; no garbage collection runs in between;
allocation does not fail.  `full`: the table would have to grow beyond `c_primeTable`.  `stale`: a cell
of a superseded block that was not forwarded, or a dangling table.  `loop`: a chain of references
longer than 64.
-/
namespace Wrench.Tables

open HashTable

/-- Cells that can be referred to. -/
inductive Loc where
  | var (n : Nat)
  | el (o g i : Nat)
deriving DecidableEq, Repr

/-- `WRValue` (wrench.h 610-743).  `mem l`: container member of a hash table whose cell
`((WRValue*)(vb+1))[s]` is `l`. -/
inductive Val where
  | int (w : Word32)
  | float (w : Word32)
  | str (bs : List Byte)
  | tbl (o : Nat)
  | ref (l : Loc)
  | mem (l : Loc)
deriving DecidableEq, Repr

inductive Err where
  | full | scope | stale | loop
deriving DecidableEq, Repr

structure St where
  var : Nat → Val
  tab : Nat → Option (HT Val Val)
  next : Nat

def St.setVar (σ : St) (n : Nat) (v : Val) : St := { σ with var := upd σ.var n v }

def St.setTab (σ : St) (o : Nat) (t : HT Val Val) : St := { σ with tab := upd σ.tab o (some t) }

/-- The contents of a cell. -/
def St.read (σ : St) : Loc → Except Err Val
  | .var n => .ok (σ.var n)
  | .el o g i =>
    match σ.tab o with
    | none => .error .stale
    | some t =>
      if t.fwds.length = g then .ok (t.vals i)
      else if t.fwds.length < g then .error .stale
      else match t.fwds[t.fwds.length - 1 - g]? with
        | none => .error .stale
        | some f => match f i with
          | some j => .ok (.ref (.el o (g + 1) j))
          | none => .error .stale

/-- A store to a cell that was dereferenced. -/
def St.write (σ : St) (l : Loc) (v : Val) : Except Err St :=
  match l with
  | .var n => .ok (σ.setVar n v)
  | .el o g i =>
    match σ.tab o with
    | none => .error .stale
    | some t =>
      if t.fwds.length = g then .ok (σ.setTab o { t with vals := upd t.vals i v })
      else .error .stale

/-- A `WRValue*`: into memory or to a stack slot holding the value. -/
inductive Src where
  | at_ (l : Loc)
  | slot (v : Val)

def St.src (σ : St) : Src → Except Err Val
  | .at_ l => σ.read l
  | .slot v => .ok v

/-- `WRValue::deref`, operations.cpp 142-178, for references and hash elements. -/
def deref : Nat → St → Src → Except Err Src
  | 0, _, _ => .error .loop
  | f + 1, σ, s => do
    match ← σ.src s with
    | .ref l => deref f σ (.at_ l)
    | .mem l => deref f σ (.at_ l)
    | _ => return s

def depth : Nat := 64

/-- `getHash` of a value that is not a reference, wrench.h 875, operations.cpp 181-237. -/
def hashPlain : Val → Except Err Word32
  | .int w => .ok w
  | .float w => .ok w
  | .str bs => .ok (wrHash bs)
  | _ => .error .scope

/-- `getHash`/`getHashEx`: through references and elements. -/
def getHash (σ : St) (s : Src) : Except Err Word32 := do
  let s ← deref depth σ s
  hashPlain (← σ.src s)

/-- `c->getSVA( 0, SV_HASH_TABLE, false )`. -/
def newTable (σ : St) : Except Err (St × Nat) :=
  match init (.int 0) (.int 0) 0 with
  | none => .error .full
  | some t => .ok ({ σ with tab := upd σ.tab σ.next (some t), next := σ.next + 1 }, σ.next)

/-- `va->get( hash, &element )` on a hash table, gc_object.cpp 133-155. -/
def getCell (σ : St) (o : Nat) (h : Word32) : Except Err (St × HT Val Val × Nat) :=
  match σ.tab o with
  | none => .error .stale
  | some t =>
    match getIndexOfHit (.int 0) (.int 0) t h with
    | none => .error .full
    | some (t, i) => .ok (σ.setTab o t, t, i)

/-- `wr_doIndexHash`, index.cpp 67-80, for a table: the key is copied after the entry was found or
made, when `index` may have been moved. -/
def indexHash (σ : St) (ix : Src) (o : Nat) : Except Err (St × Val) := do
  let h ← getHash σ ix
  let (σ, t, i) ← getCell σ o h
  let k ← σ.src ix
  return (σ.setTab o { t with keys := upd t.keys i k }, .mem (.el o t.fwds.length i))

/-- `doIndex_I_E`, index.cpp 113-189: only tables are followed further. -/
def indexIE (σ : St) (ix value : Src) : Except Err (St × Val) := do
  let value ← deref depth σ value
  match ← σ.src value with
  | .tbl o => indexHash σ ix o
  | _ => .error .scope

/-- A store through a `WRValue*`; a stack slot is not seen again. -/
def St.store (σ : St) (s : Src) (v : Val) : Except Err St :=
  match s with
  | .at_ l => σ.write l v
  | .slot _ => .ok σ

/-- `singleValue`, operations.cpp 128-137. -/
def single (σ : St) (s : Src) : Except Err Val := do
  let s ← deref depth σ s
  match ← σ.src s with
  | .int w => return .int w
  | .float w => return .float w
  | v => return .int (← hashPlain v)

/-- `doIndex_E_I`, index.cpp 192-209. -/
def indexEI (σ : St) (ix value : Src) : Except Err (St × Val) := do
  let V ← deref depth σ value
  let (σ, o) ← newTable σ
  let σ ← σ.store V (.tbl o)
  let I ← single σ ix
  indexHash σ (.slot I) o

/-- `doIndex_E_E`, index.cpp 212-233. -/
def indexEE (σ : St) (ix value : Src) : Except Err (St × Val) := do
  let I ← deref depth σ ix
  match ← σ.src I with
  | .int _ => indexIE σ I value
  | .float _ => indexIE σ I value
  | _ =>
    let V ← deref depth σ value
    match ← σ.src V with
    | .tbl o => indexHash σ I o
    | _ => return (σ, .int 0)

/-- `wr_index`, index.cpp 236-270.  `keep`: what the target slot held. -/
def indexDisp : Nat → St → (ix value : Src) → (keep : Val) → Except Err (St × Val)
  | 0, _, _, _, _ => .error .loop
  | f + 1, σ, ix, value, keep => do
    match ← σ.src ix, ← σ.src value with
    | .ref a, .ref b => indexDisp f σ (.at_ a) (.at_ b) keep
    | .ref a, _ => indexDisp f σ (.at_ a) value keep
    | .float _, _ => return (σ, keep)
    | _, .ref b => indexDisp f σ ix (.at_ b) keep
    | .int _, .int _ => .error .scope
    | .int _, .float _ => .error .scope
    | .int _, _ => indexIE σ ix value
    | _, .int _ => indexEI σ ix value
    | _, .float _ => indexEI σ ix value
    | _, _ => indexEE σ ix value

/-- `Index`, vm.cpp 1315-1325: the result replaces the indexed operand. -/
def index (σ : St) (ix value : Val) : Except Err (St × Val) :=
  indexDisp depth σ (.slot ix) (.slot value) value

/-- `StackIndexHash`, `LocalIndexHash`, `GlobalIndexHash`, vm.cpp 1342-1382. -/
def indexName (σ : St) (value : Val) (h : Word32) : Except Err (St × Val) := do
  let V ← deref depth σ (.slot value)
  match ← σ.src V with
  | .tbl o => indexHash σ (.slot (.int h)) o
  | _ =>
    let (σ, o) ← newTable σ
    let σ ← σ.store V (.tbl o)
    indexHash σ (.slot (.int h)) o

/-- `doAssign_E_X` with `wr_valueToEx`, operations.cpp 241-284, 436-448: for a hash element
`ex->deref() = value->deref()`. -/
def assignE (σ : St) (to_ from_ : Src) : Except Err St := do
  let V ← deref depth σ from_
  match ← σ.src to_ with
  | .mem _ => do
    let D ← deref depth σ to_
    let V ← deref depth σ V
    σ.store D (← σ.src V)
  | _ => σ.store to_ (← σ.src V)

/-- `wr_assign`, operations.cpp 431-464. -/
def assignDisp : Nat → St → (to_ from_ : Src) → Except Err St
  | 0, _, _, _ => .error .loop
  | f + 1, σ, to_, from_ => do
    match ← σ.src to_, ← σ.src from_ with
    | .ref a, .ref b => assignDisp f σ (.at_ a) (.at_ b)
    | .ref a, _ => assignDisp f σ (.at_ a) from_
    | _, .ref b => assignDisp f σ to_ (.at_ b)
    | .int _, .int w => σ.store to_ (.int w)
    | .int _, .float w => σ.store to_ (.float w)
    | .float _, .int w => σ.store to_ (.int w)
    | .float _, .float w => σ.store to_ (.float w)
    | .int _, _ => do σ.store to_ (← σ.src (← deref depth σ from_))
    | .float _, _ => do σ.store to_ (← σ.src (← deref depth σ from_))
    | _, _ => assignE σ to_ from_

def assign (σ : St) (to_ from_ : Val) : Except Err St :=
  assignDisp depth σ (.slot to_) (.slot from_)

/-- The references followed by `wr_assignToHashTable`, operations.cpp 331-347: `WR_REF` only, a
container member is left as it is. -/
def strip : Nat → St → Src → Except Err Src
  | 0, _, _ => .error .loop
  | f + 1, σ, s => do
    match ← σ.src s with
    | .ref l => strip f σ (.at_ l)
    | _ => return s

/-- `wr_assignToHashTable`, operations.cpp 329-366; `table` is the slot holding the table being built. -/
def assignToHash (σ : St) (ix value table : Val) : Except Err (St × Val) := do
  let value ← strip depth σ (.slot value)
  let ix ← strip depth σ (.slot ix)
  let (σ, o) ← match table with
    | .tbl o => .ok (σ, o)
    | _ => newTable σ
  let h ← getHash σ ix
  let (σ, t, i) ← getCell σ o h
  let v ← σ.src value
  let σ := σ.setTab o { t with vals := upd t.vals i v }
  let k ← σ.src ix
  match σ.tab o with
  | none => .error .stale
  | some t => return (σ.setTab o { t with keys := upd t.keys i k }, .tbl o)

/-- `Remove`, vm.cpp 1199-1227. -/
def remove (σ : St) (base ix : Val) : Except Err St := do
  let h ← getHash σ (.slot ix)
  let V ← deref depth σ (.slot base)
  match ← σ.src V with
  | .tbl o => match σ.tab o with
    | none => .error .stale
    | some t => return σ.setTab o (exists_ t h true).1
  | _ => .error .scope

/-- `HashEntryExists`, vm.cpp 1230-1239.  The slot is retyped before the test: when the table itself is
on the stack, and not a reference to it, it is no longer one. -/
def exists' (σ : St) (base ix : Val) : Except Err Val := do
  let V ← deref depth σ (.slot base)
  match V with
  | .slot _ => return .int 0
  | .at_ l =>
    match ← σ.read l with
    | .tbl o => match σ.tab o with
      | none => .error .stale
      | some t => do
        let h ← getHash σ (.slot ix)
        return .int (if (exists_ t h false).2.isSome then 1 else 0)
    | _ => return .int 0

/-! ### Scripts -/

/-- Operands: literals, variables, `e[k]`, `e.name` (by the hash of the name). -/
inductive Ex where
  | int (w : Word32)
  | float (w : Word32)
  | str (bs : List Byte)
  | var (n : Nat)
  | ix (e k : Ex)
  | name (e : Ex) (h : Word32)

/-- The value an operand leaves on the stack: the base is evaluated before the key. -/
def eval : St → Ex → Except Err (St × Val)
  | σ, .int w => .ok (σ, .int w)
  | σ, .float w => .ok (σ, .float w)
  | σ, .str bs => .ok (σ, .str bs)
  | σ, .var n => .ok (σ, .ref (.var n))
  | σ, .ix e k => do
    let (σ, b) ← eval σ e
    let (σ, i) ← eval σ k
    index σ i b
  | σ, .name e h => do
    let (σ, b) ← eval σ e
    indexName σ b h

inductive Stmt where
  /-- `dst = src;` (`first`: `dst` is evaluated first) -/
  | assign (first : Bool) (dst src : Ex)
  /-- `dst = { k : v, … };` -/
  | table (dst : Ex) (entries : List (Ex × Ex))
  /-- `dst = {:};` -/
  | empty (dst : Ex)
  /-- `dst = e._exists( k );` -/
  | exists_ (dst e k : Ex)
  /-- `e._remove( k );` -/
  | remove (e k : Ex)

/-- An initializer, `parseInitializer` cc.cpp 1652-1830: keys and values in order. -/
def entries : St → Val → List (Ex × Ex) → Except Err (St × Val)
  | σ, slot, [] => .ok (σ, slot)
  | σ, slot, (k, v) :: es => do
    let (σ, kv) ← eval σ k
    let (σ, vv) ← eval σ v
    let (σ, slot) ← assignToHash σ kv vv slot
    entries σ slot es

def exec (σ : St) : Stmt → Except Err St
  | .assign true dst src => do
    let (σ, d) ← eval σ dst
    let (σ, s) ← eval σ src
    assign σ d s
  | .assign false dst src => do
    let (σ, s) ← eval σ src
    let (σ, d) ← eval σ dst
    assign σ d s
  | .table dst es => do
    let (σ, s) ← entries σ (.int 0) es
    let (σ, d) ← eval σ dst
    assign σ d s
  | .empty dst => do
    let (σ, s) ← assignToHash σ (.int 0) (.int 0) (.int 0)
    let σ ← remove σ s (.int 0)
    let (σ, d) ← eval σ dst
    assign σ d s
  | .exists_ dst e k => do
    let (σ, b) ← eval σ e
    let (σ, i) ← eval σ k
    let s ← exists' σ b i
    let (σ, d) ← eval σ dst
    assign σ d s
  | .remove e k => do
    let (σ, b) ← eval σ e
    let (σ, i) ← eval σ k
    remove σ b i

def run (σ : St) : List Stmt → Except Err St
  | [] => .ok σ
  | s :: ss => do
    let σ ← exec σ s
    run σ ss

/-- Every variable starts as the integer 0. -/
def start : St := ⟨fun _ => .int 0, fun _ => none, 0⟩

end Wrench.Tables
