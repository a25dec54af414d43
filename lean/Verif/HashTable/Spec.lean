import Verif.HashTable.Model

/-
Independent specification of a script hash table: a finite map from key hashes to
(value, key) pairs.
-/
namespace Wrench.HashTable

variable {V K : Type}

/-- Abstract table contents. -/
def Map (V K : Type) := Word32 → Option (V × K)

/-- Point update of an abstract table. -/
def Map.set (m : Map V K) (h : Word32) (x : Option (V × K)) : Map V K :=
  fun h' => if h' = h then x else m h'

/-- The hash an operation addresses. -/
def Op.hash : Op V K → Word32
  | .write h _ _ => h
  | .read h _ => h
  | .remove h => h
  | .check h => h

/-- Abstract semantics of one operation.  Reading an absent key makes it present
with *some* value (`readMiss`); which one is the subject of property C08. -/
inductive SpecStep : Map V K → Op V K → Out V → Map V K → Prop where
  | write (m : Map V K) (h k v) : SpecStep m (.write h k v) .done (m.set h (some (v, k)))
  | readHit (m : Map V K) (h k v k0) : m h = some (v, k0) →
      SpecStep m (.read h k) (.value v) (m.set h (some (v, k)))
  | readMiss (m : Map V K) (h k v) : m h = none →
      SpecStep m (.read h k) (.value v) (m.set h (some (v, k)))
  | remove (m : Map V K) (h) : SpecStep m (.remove h) .done (m.set h none)
  | check (m : Map V K) (h) : SpecStep m (.check h) (.bool (m h).isSome) m

/-- Abstract semantics of a history. -/
inductive SpecRun : Map V K → List (Op V K) → List (Out V) → Map V K → Prop where
  | nil (m) : SpecRun m [] [] m
  | cons {m op o m' ops os m''} : SpecStep m op o m' → SpecRun m' ops os m'' →
      SpecRun m (op :: ops) (o :: os) m''

/-- The concrete table `t` stores exactly the abstract contents `m` (on all hashes
except the reserved empty marker). -/
def Represents (t : HT V K) (m : Map V K) : Prop :=
  ∀ h, h ≠ nullHash → ∀ v k,
    m h = some (v, k) ↔ ∃ i, i < t.mod ∧ t.slots i = h ∧ t.vals i = v ∧ t.keys i = k

/-! Specification functions over histories (no reference to the table). -/

/-- The value a history has most recently written under `h` and not removed since.
`none` when the key is absent or was brought into being by a bare read. -/
def latest (h : Word32) : List (Op V K) → Option V → Option V
  | [], r => r
  | .write h' _ v :: ops, r => latest h ops (if h' = h then some v else r)
  | .remove h' :: ops, r => latest h ops (if h' = h then none else r)
  | _ :: ops, r => latest h ops r

/-- Whether `h` has been written or touched since its last removal. -/
def touched (h : Word32) : List (Op V K) → Bool → Bool
  | [], b => b
  | .write h' _ _ :: ops, b => touched h ops (if h' = h then true else b)
  | .read h' _ :: ops, b => touched h ops (if h' = h then true else b)
  | .remove h' :: ops, b => touched h ops (if h' = h then false else b)
  | .check _ :: ops, b => touched h ops b

/-- A fresh table followed by a history. -/
def history (dv : V) (dk : K) (sizeHint : Nat) (ops : List (Op V K)) :
    Option (HT V K × List (Out V)) :=
  match init dv dk sizeHint with
  | none => none
  | some t => run dv dk t ops

/-- The distinct keys present after a history (specification). -/
def presentKeys (ops : List (Op V K)) : List Word32 :=
  ((ops.map Op.hash).eraseDups).filter (fun h => touched h ops false)

/-- Is this a removal? -/
def isRemove : Op V K → Bool
  | .remove _ => true
  | _ => false

end Wrench.HashTable
