import Verif.Serializer.Model

/-! Specification vocabulary for the serializer properties: which values are supported,
and the exact value a round trip yields. -/
namespace Wrench.Serializer

/-- The hash a number or string key is stored under (other keys: unspecified). -/
def hashOf : SVal → Option Word32
  | .int w => some w
  | .float w => some w
  | .str bs => some (wrHash bs)
  | _ => none

mutual
/-- Supported values: strings and arrays of at most 65535 elements, hash tables whose
slot count is one the implementation allocates and whose keys are numbers or strings
stored under their own hash; everything nested likewise. -/
def Supported : SVal → Prop
  | .int _ => True
  | .float _ => True
  | .str bs => bs.length < 65536
  | .arr es => es.length < 65536 ∧ SupportedElems es
  | .hash _ ss => ss.length ∈ HashTable.primeTable ∧ SupportedSlots ss
  | .other _ => False
def SupportedElems : SVals → Prop
  | .nil => True
  | .cons v vs => Supported v ∧ SupportedElems vs
def SupportedSlots : Slots → Prop
  | .nil => True
  | .empty s => SupportedSlots s
  | .full h v k s => hashOf k = some h ∧ Supported v ∧ Supported k ∧ SupportedSlots s
end

mutual
/-- The same value with the element count word of every hash table replaced by
`slot count - 1`. -/
def recount : SVal → SVal
  | .arr es => .arr (recountElems es)
  | .hash _ ss => .hash (BitVec.ofNat 32 (ss.length - 1)) (recountSlots ss)
  | v => v
def recountElems : SVals → SVals
  | .nil => .nil
  | .cons v vs => .cons (recount v) (recountElems vs)
def recountSlots : Slots → Slots
  | .nil => .nil
  | .empty s => .empty (recountSlots s)
  | .full h v k s => .full h (recount v) (recount k) (recountSlots s)
end

/-- Number of occupied slots: what a script should see as the element count. -/
def Slots.occupied : Slots → Nat
  | .nil => 0
  | .empty s => s.occupied
  | .full _ _ _ s => s.occupied + 1

mutual
/-- Contains no hash table. -/
def NoHash : SVal → Prop
  | .arr es => NoHashElems es
  | .hash _ _ => False
  | _ => True
def NoHashElems : SVals → Prop
  | .nil => True
  | .cons v vs => NoHash v ∧ NoHashElems vs
end

/-- `v` is one of the elements. -/
def SVals.Mem (v : SVal) : SVals → Prop
  | .nil => False
  | .cons w ws => v = w ∨ ws.Mem v

end Wrench.Serializer
