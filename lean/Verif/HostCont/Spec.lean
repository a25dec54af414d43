import Verif.HostCont.Model

/-
What a host program expects of a container: a list of named entries, no hashes, no slots, no
memory blocks.
-/
namespace Wrench.HostCont

/-- An entry: the name it is found under, its value, and the key an iteration shows (`none`: the
integer 0 in place of a name). -/
structure Ent where
  name : List Byte
  val : Cell
  key : Option (List Byte)
deriving DecidableEq, Repr

/-- The entries in order of creation, and the host's variables. -/
structure Spec where
  ents : List Ent
  vars : Nat → Cell

/-- The entry of a name. -/
def Spec.find (a : Spec) (n : List Byte) : Option Ent := a.ents.find? (·.name == n)

/-- Replace the entry of a name, or add it. -/
def Spec.put (a : Spec) (e : Ent) : Spec :=
  if a.ents.any (·.name == e.name) then
    { a with ents := a.ents.map fun x => if x.name == e.name then e else x }
  else { a with ents := a.ents ++ [e] }

/-- The value an entry stands for: its own, or the variable it refers to. -/
def Spec.value (a : Spec) (c : Cell) : Cell :=
  match c with
  | ⟨.var n, p2⟩ => if p2 = asRef then a.vars n else c
  | c => c

/-- Assign to what an entry stands for. -/
def Spec.assign (a : Spec) (e : Ent) (c : Cell) : Spec :=
  match e.val with
  | ⟨.var n, p2⟩ =>
    if p2 = asRef then { a with vars := fun m => if m = n then c else a.vars m }
    else a.put { e with val := c }
  | _ => a.put { e with val := c }

/-- Assign if a value is given. -/
def Spec.assign? (a : Spec) (e : Ent) : Option Cell → Spec
  | none => a
  | some c => a.assign e c

/-- Meaning of a call. -/
def Spec.step (a : Spec) : Call → Spec × Seen
  | .addInt n i => (a.put ⟨n, ⟨.word i, 0#32⟩, some n⟩, .unit)
  | .addFloat n f => (a.put ⟨n, ⟨.word f, asFloat⟩, some n⟩, .unit)
  | .addValue n v => (a.put ⟨n, ⟨.var v, asRef⟩, some n⟩, .unit)
  | .addArray n p size => (a.put ⟨n, ⟨.raw p, asRawArray ||| (size <<< 8)⟩, some n⟩, .unit)
  | .get n st =>
    let e := (a.find n).getD ⟨n, zero, none⟩
    (match st with
      | none => a.put e
      | some c => a.put { e with val := c },
     .cell e.val)
  | .hvAdd n st =>
    let e := (a.find n).getD ⟨n, zero, some n⟩
    ((a.put e).assign? e st, .cell (a.value e.val))
  | .hvGet n st =>
    match a.find n with
    | none => (a, .null)
    | some e => (a.assign? e st, .cell (a.value e.val))

/-- Meaning of a sequence of calls. -/
def Spec.run (a : Spec) : List Call → Spec × List Seen
  | [] => (a, [])
  | c :: cs =>
    let r := a.step c
    let q := Spec.run r.1 cs
    (q.1, r.2 :: q.2)

/-- What an iteration is to show. -/
def Spec.view (a : Spec) : List (Option (List Byte) × Cell) :=
  a.ents.map fun e => (e.key, a.value e.val)

/-- The name a call is about. -/
def Call.name : Call → List Byte
  | .addInt n _ => n
  | .addFloat n _ => n
  | .addValue n _ => n
  | .addArray n _ _ => n
  | .get n _ => n
  | .hvAdd n _ => n
  | .hvGet n _ => n

/-- Numbers and objects, as opposed to references and container members. -/
def Cell.plain (c : Cell) : Prop := c.isRef = false ∧ c.isMember = false

/-- The call is within the documented use: names are C strings (7-bit when the `WrenchValue`
functions look them up), raw arrays are below 2 MiB, what the host stores are plain values. -/
def Call.ok : Call → Prop
  | .addArray n _ size => 0#8 ∉ n ∧ size.toNat < 2 ^ 21
  | .get n st => 0#8 ∉ n ∧ ∀ c, st = some c → c.plain
  | .hvAdd n st => (∀ b ∈ n, b ≠ 0#8 ∧ b.toNat < 128) ∧ ∀ c, st = some c → c.plain
  | .hvGet n st => (∀ b ∈ n, b ≠ 0#8 ∧ b.toNat < 128) ∧ ∀ c, st = some c → c.plain
  | c => 0#8 ∉ c.name

/-- The names of a sequence of calls are told apart by their hashes, and none of them hashes to
the mark of an empty slot. -/
def Distinct (cs : List Call) : Prop :=
  (∀ c ∈ cs, wrHash c.name ≠ HashTable.nullHash) ∧
  ∀ c ∈ cs, ∀ d ∈ cs, wrHash c.name = wrHash d.name → c.name = d.name

end Wrench.HostCont
