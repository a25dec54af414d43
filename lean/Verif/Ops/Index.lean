import Verif.Ops.Model

/-
Indexing with `[]`: discrete_src/vm/index.cpp, on numbers, arrays, strings and raw host arrays.

Not modelled: indexing a hash table or a struct, and turning a value into a hash table (the
index is not an integer, or is a container): outcome `ub` here although the code is defined.
Allocation succeeds.
-/
namespace Wrench.Ops

/-- The element number kept in a container member: 21 bits (`ENCODE_ARRAY_ELEMENT_TO_P2`,
`DECODE_ARRAY_ELEMENT_FROM_P2`, utils.h). -/
def encElem (w : Word32) : Nat := w.toNat % 2 ^ 21

/-- `getSVA( n, SV_VALUE, true )`, gc.cpp 155-179: a new array of `n` zeros. -/
def newArr (σ : St) (n : Nat) : St :=
  { σ.setObj σ.next (.vals n) with
    next := σ.next + 1
    cell := fun a => match a with
      | .elem o i => if o = σ.next then .int 0 else σ.cell (.elem o i)
      | a => σ.cell a }

/-- `wr_growValueArray( va, n )`, operations.cpp 95-123: the array gets `n + 1` elements, the
new ones zero. -/
def growArr (σ : St) (o n : Nat) : St :=
  match σ.obj o with
  | .vals k =>
    { σ.setObj o (.vals (n + 1)) with
      cell := fun a => match a with
        | .elem p i => if p = o ∧ k ≤ i then .int 0 else σ.cell (.elem p i)
        | a => σ.cell a }
  | .chars bs nc => σ.setObj o (.chars (bs ++ List.replicate (n + 1 - bs.length) 0) nc)
  | .other => σ

/-- `arrayElementToTarget`, index.cpp 28-56: a member referring to the container, or the
element itself when the container is the target. -/
def elemTo (σ : St) (w : Word32) (tgt value : Addr) : Res St :=
  if tgt = value then
    match σ.cell value with
    | .arr o => match σ.obj o with
      | .vals n => if w.toNat < n then .ok (σ.set tgt (σ.cell (.elem o w.toNat))) else .ub
      | .chars bs _ => match bs[w.toNat]? with
        | some c => .ok (σ.set tgt (.int (c.setWidth 32)))
        | none => .ub
      | .other => .ub
    | _ => .ub
  else .ok (σ.set tgt (.mem value (encElem w)))

/-- `doIndex_I_X`, index.cpp 96-110: the value becomes an array. -/
def indexIX (σ : St) (w : Word32) (value tgt : Addr) : Res St :=
  if (w + 1).toInt < 0 then .ub
  else elemTo ((newArr σ (w + 1).toNat).set value (.arr σ.next)) w tgt value

/-- `doIndex_I_E`, index.cpp 113-189.  `index` holds a number. -/
def indexIE (f : Nat) (σ : St) (index value tgt : Addr) : Res St :=
  let rest : Res St := do
    let (σ, l) ← deref f σ value
    match σ.cell l with
    | .tbl _ => .ub
    | .strct _ => .ub
    | .raw _ n => do
      let w ← (σ.cell index).bits
      if w.toNat ≥ n then return σ.set tgt (.int 0) else elemTo σ w tgt l
    | .arr o => do
      let w ← (σ.cell index).bits
      match σ.obj o with
      | .vals n =>
        if w.toNat < n then elemTo σ w tgt l
        else if w.toInt < 0 then .ub else elemTo (growArr σ o w.toNat) w tgt l
      | .chars bs nc =>
        if w.toNat < bs.length then elemTo σ w tgt l
        else if nc then return σ.set tgt (.int 0)
        else if w.toInt < 0 then .ub else elemTo (growArr σ o w.toNat) w tgt l
      | .other => .ub
    | _ => match σ.cell index with
      | .int w => indexIX σ w l tgt
      | _ => .ub
  match σ.cell value with
  | .mem b _ => match σ.cell b with
    -- the element number is decoded from the raw array's own `p2`, where it is the size
    | .raw _ _ => .ok (σ.set tgt (.int 0))
    | _ => rest
  | _ => rest

/-- `wr_index`, index.cpp 231-268 (the table of the default build). -/
def index : Nat → St → Addr → Addr → Addr → Res St
  | 0, _, _, _, _ => .oof
  | f + 1, σ, idx, value, tgt =>
    match (σ.cell idx).ty, (σ.cell value).ty with
    | .I, .I | .I, .F => match σ.cell idx with
      | .int w => indexIX σ w value tgt
      | _ => .ub
    | .I, .R => match σ.cell value with
      | .ref b => index f σ idx b tgt
      | _ => .ub
    | .I, .E => indexIE f σ idx value tgt
    -- doVoidIndexFunc
    | .F, _ => .ok σ
    | .R, .I | .R, .F | .R, .E => match σ.cell idx with
      | .ref a => index f σ a value tgt
      | _ => .ub
    | .R, .R => match σ.cell idx, σ.cell value with
      | .ref a, .ref b => index f σ a b tgt
      | _, _ => .ub
    -- doIndex_E_I: a hash table
    | .E, .I | .E, .F => .ub
    | .E, .R => match σ.cell value with
      | .ref b => index f σ idx b tgt
      | _ => .ub
    -- doIndex_E_E: a hash index, unless the index is an element holding a number
    | .E, .E => do
      let (σ, i) ← deref f σ idx
      match σ.cell i with
      | .int _ => indexIE f σ i value tgt
      | .float _ => indexIE f σ i value tgt
      | _ => .ub

end Wrench.Ops
