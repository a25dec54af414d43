import Verif.Tables.Model

/-
What a script expects of its hash tables, without blocks, slots, probes or element references: a table is
a map from the hash of a key to a value, shared by everything that holds it.

`none`: the statement uses something this specification does not speak about (arrays, tables as keys,
the key whose hash is reserved, values that were never specified).
-/
namespace Wrench.Tables.Spec

/-- Values. -/
inductive V where
  | int (w : Word32)
  | float (w : Word32)
  | str (bs : List Byte)
  | tbl (o : Nat)
deriving DecidableEq, Repr

/-- What a table has under a key: nothing, some value not specified (a key made by being mentioned in a
table from which something was removed before), or a value. -/
inductive Ent where
  | absent
  | some_
  | is (v : V)
deriving DecidableEq, Repr

structure Table where
  ent : Word32 → Ent
  /-- something was removed from it -/
  dirty : Bool

structure St where
  var : Nat → V
  tab : Nat → Table
  next : Nat

/-- Where a value can be stored. -/
inductive Place where
  | var (n : Nat)
  | el (o : Nat) (h : Word32)
deriving DecidableEq, Repr

/-- An operand: a place or a value. -/
inductive Opd where
  | at_ (p : Place)
  | val (v : V)
deriving DecidableEq, Repr

/-- Keys are told apart by these 32 bits: the bits of a number, the hash of a string. -/
def hash : V → Option Word32
  | .int w => some w
  | .float w => some w
  | .str bs => some (wrHash bs)
  | .tbl _ => none

/-- The key `0xABABABAB` is not usable. -/
def usable (h : Word32) : Option Word32 := if h = 0xABABABAB#32 then none else some h

def Table.set (t : Table) (h : Word32) (e : Ent) : Table :=
  { t with ent := fun h' => if h' = h then e else t.ent h' }

def St.setTab (A : St) (o : Nat) (t : Table) : St :=
  { A with tab := fun p => if p = o then t else A.tab p }

def St.read (A : St) : Place → Option V
  | .var n => some (A.var n)
  | .el o h => match (A.tab o).ent h with
    | .is v => some v
    | _ => none

def St.write (A : St) (v : V) : Place → St
  | .var n => { A with var := fun m => if m = n then v else A.var m }
  | .el o h => A.setTab o ((A.tab o).set h (.is v))

def Opd.read (A : St) : Opd → Option V
  | .at_ p => A.read p
  | .val v => some v

/-- Mentioning `t[k]` makes the key present, with the value 0. -/
def St.touch (A : St) (o : Nat) (h : Word32) : St × Opd :=
  let t := A.tab o
  (match t.ent h with
    | .absent => A.setTab o (t.set h (if t.dirty then .some_ else .is (.int 0)))
    | _ => A, .at_ (.el o h))

/-- A new, empty table. -/
def St.new (A : St) : St × Nat :=
  ({ A.setTab A.next ⟨fun _ => .absent, false⟩ with next := A.next + 1 }, A.next)

/-- A number named with a key becomes a table holding it. -/
def St.become (A : St) (p : Place) (h : Word32) : St × Opd :=
  let (A, o) := A.new
  (A.write (.tbl o) p).touch o h

/-- A key that is not itself kept in a table. -/
def direct : Opd → Bool
  | .at_ (.el _ _) => false
  | _ => true

def V.isInt : V → Bool
  | .int _ => true
  | _ => false

def V.isFloat : V → Bool
  | .float _ => true
  | _ => false

def V.isStr : V → Bool
  | .str _ => true
  | _ => false

def Place.isVar : Place → Bool
  | .var _ => true
  | _ => false

/-- `t[k]`. -/
def index (A : St) (key base : Opd) : Option (St × Opd) :=
  match key.read A, base with
  | none, _ => none
  | some _, .val _ => none
  | some k, .at_ p =>
    -- a float that is not itself an element is no key: `t[1.5]` is `t`
    if direct key && k.isFloat then some (A, base) else
    match A.read p with
    | none => none
    | some (.tbl o) => do
      let h ← usable (← hash k)
      return A.touch o h
    | some w =>
      if p.isVar && (w.isInt || w.isFloat) then
        -- with a number for a key an array is made
        if direct key && k.isInt then none else do
          let h ← usable (← hash k)
          return A.become p h
      -- neither a table nor a number in a variable: the element is lost
      else if k.isStr then some (A, .val (.int 0)) else none

/-- `t.name`. -/
def name (A : St) (base : Opd) (h : Word32) : Option (St × Opd) := do
  let h ← usable h
  match base with
  | .val _ => none
  | .at_ p =>
    match ← A.read p with
    | .tbl o => return A.touch o h
    | _ => return A.become p h

def eval : St → Ex → Option (St × Opd)
  | A, .int w => some (A, .val (.int w))
  | A, .float w => some (A, .val (.float w))
  | A, .str bs => some (A, .val (.str bs))
  | A, .var n => some (A, .at_ (.var n))
  | A, .ix e k => do
    let (A, b) ← eval A e
    let (A, i) ← eval A k
    index A i b
  | A, .name e h => do
    let (A, b) ← eval A e
    name A b h

/-- `d = s`: nothing happens when `d` is lost. -/
def assign (A : St) (d s : Opd) : Option St := do
  let v ← s.read A
  match d with
  | .at_ p => return A.write v p
  | .val _ => return A

/-- The table being built, made for the first entry. -/
def St.some (A : St) : Option Nat → St × Nat
  | .some o => (A, o)
  | none => A.new

/-- `{ k : v, … }`.  The values must not be elements. -/
def entries : St → Option Nat → List (Ex × Ex) → Option (St × Option Nat)
  | A, t, [] => some (A, t)
  | A, t, (k, v) :: es => do
    let (A, ko) ← eval A k
    let (A, vo) ← eval A v
    let h ← usable (← hash (← ko.read A))
    match vo with
    | .at_ (.el _ _) => none
    | _ => do
      let v ← vo.read A
      let B := A.some t
      entries (B.1.write v (.el B.2 h)) (some B.2) es

def exec (A : St) : Stmt → Option St
  | .assign true dst src => do
    let (A, d) ← eval A dst
    let (A, s) ← eval A src
    assign A d s
  | .assign false dst src => do
    let (A, s) ← eval A src
    let (A, d) ← eval A dst
    assign A d s
  | .table dst es => do
    let (A, t) ← entries A none es
    let (A, d) ← eval A dst
    match t with
    | some o => assign A d (.val (.tbl o))
    | none => assign A d (.val (.int 0))
  | .empty dst => do
    let (A, o) := A.new
    let (A, d) ← eval A dst
    assign A d (.val (.tbl o))
  | .exists_ dst e k => do
    let (A, b) ← eval A e
    let (A, i) ← eval A k
    match b with
    | .val _ => none
    | .at_ p =>
      match ← A.read p with
      | .tbl o => do
        let h ← usable (← hash (← i.read A))
        let r : V := if (A.tab o).ent h = .absent then .int 0 else .int 1
        let (A, d) ← eval A dst
        assign A d (.val r)
      | _ => do
        let (A, d) ← eval A dst
        assign A d (.val (.int 0))
  | .remove e k => do
    let (A, b) ← eval A e
    let (A, i) ← eval A k
    match b with
    | .val _ => none
    | .at_ p =>
      match ← A.read p with
      | .tbl o => do
        let h ← usable (← hash (← i.read A))
        return A.setTab o ⟨((A.tab o).set h .absent).ent, true⟩
      | _ => none

def run (A : St) : List Stmt → Option St
  | [] => some A
  | s :: ss => do
    let A ← exec A s
    run A ss

def start : St := ⟨fun _ => .int 0, fun _ => ⟨fun _ => .absent, false⟩, 0⟩

end Wrench.Tables.Spec
