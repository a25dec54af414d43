import Verif.Bytes.Model

/-
Value operators: discrete_src/vm/operations_non_compact.cpp and operations.cpp.

Memory is a map from addresses to values.  `cell n` are script-visible cells (stack
slots, locals, globals, hash elements), `elem o i` is element `i` of array object `o`,
`t1`/`t2` are the statics `s_temp1`/`s_temp2`, `loc k` is a C++ local `WRValue` of the
activation running with fuel `k` (distinct activations have distinct fuel).

Every operator is a table of 16 functions indexed by the two operand types; a function
either computes, or re-dispatches after following a reference or extracting a container
element.  The tables are data here (`Entry`) and `disp` interprets them.

Not modelled: float arithmetic itself (the operations of `Env` are arbitrary functions on
the 32 payload bits), the hash of objects other than strings (`Env.hashObj`, arbitrary),
`asString` (`Env.asStr`).  A store to `p2` followed by a store to the payload is one store
of the resulting value (no code reads `p2` in between).
-/
namespace Wrench.Ops

/-- Where a `WRValue` lives. -/
inductive Addr where
  | cell (n : Nat)
  | elem (o i : Nat)
  | t1
  | t2
  | loc (k : Nat)
deriving DecidableEq, Repr

/-- A `WRValue` (wrench.h 610-743).  `mem b s`: container member whose `r` is the value at
`b`, element `s`.  `hmem e`: container member of a hash table, whose element cell
`((WRValue*)(vb+1))[s]` is at `e`.  `raw p n`: raw host array of `n` bytes.  `other`: any
other `WR_EX` value (iterator, invalid). -/
inductive Val where
  | int (w : Word32)
  | float (w : Word32)
  | ref (a : Addr)
  | arr (o : Nat)
  | tbl (o : Nat)
  | strct (o : Nat)
  | raw (p n : Nat)
  | mem (b : Addr) (s : Nat)
  | hmem (e : Addr)
  | other
deriving DecidableEq, Repr

/-- `WRValueType`, wrench.h 715-721. -/
inductive Ty where
  | I | F | R | E
deriving DecidableEq, Repr

def Val.ty : Val → Ty
  | .int _ => .I
  | .float _ => .F
  | .ref _ => .R
  | _ => .E

/-- Garbage-collected array objects: `SV_CHAR` (with `GCFlag_NoContext`), `SV_VALUE`, or
something else (tables, structs). -/
inductive Obj where
  | chars (bs : List Byte) (noCtx : Bool)
  | vals (n : Nat)
  | other
deriving DecidableEq, Repr

structure St where
  cell : Addr → Val
  obj : Nat → Obj
  next : Nat
  rawMem : Nat → Nat → Byte

/-- Addresses that are not C++ temporaries. -/
def Addr.real : Addr → Bool
  | .cell _ => true
  | .elem _ _ => true
  | _ => false

/-- The memory without the C++ temporaries. -/
def St.mem (σ : St) : Addr → Val := fun a => if a.real then σ.cell a else .other

def St.set (σ : St) (a : Addr) (v : Val) : St :=
  { σ with cell := fun b => if b = a then v else σ.cell b }

def St.setObj (σ : St) (o : Nat) (x : Obj) : St :=
  { σ with obj := fun p => if p = o then x else σ.obj p }

/-- Outcomes: `ub` = undefined behaviour of the C++ code (or a payload read at the wrong
type), `oof` = the model's fuel ran out. -/
inductive Res (α : Type) where
  | ok (a : α)
  | ub
  | oof
deriving DecidableEq, Repr

def Res.bind {α β : Type} : Res α → (α → Res β) → Res β
  | .ok a, f => f a
  | .ub, _ => .ub
  | .oof, _ => .oof

instance : Monad Res where
  pure := Res.ok
  bind := Res.bind

/-- Float arithmetic and other facilities left abstract. -/
structure Env where
  ofInt : Word32 → Word32
  fadd : Word32 → Word32 → Word32
  fsub : Word32 → Word32 → Word32
  fmul : Word32 → Word32 → Word32
  fdiv : Word32 → Word32 → Word32
  fneg : Word32 → Word32
  fnonzero : Word32 → Bool
  flt : Word32 → Word32 → Bool
  feq : Word32 → Word32 → Bool
  hashObj : (Addr → Val) → (Nat → Obj) → Val → Word32
  asStr : (Addr → Val) → (Nat → Obj) → Val → List Byte

/-- The 32 payload bits read as `i`/`ui`/`f`.  Reading them from a pointer-carrying value
is a type confusion, reported as `ub`. -/
def Val.bits : Val → Res Word32
  | .int w => .ok w
  | .float w => .ok w
  | _ => .ub

/-- `WRValue::getHash/getHashEx` for a value that is not a reference or member,
wrench.h 875, operations.cpp 181-237. -/
def getHash (E : Env) (σ : St) (v : Val) : Word32 :=
  match v with
  | .int w => w
  | .float w => w
  | .arr o => match σ.obj o with
    | .chars bs _ => wrHash bs
    | _ => E.hashObj σ.mem σ.obj v
  | _ => E.hashObj σ.mem σ.obj v

/-- `p2 = INIT_AS_INT`: the payload stays. -/
def Val.retypeInt : Val → Val
  | .float w => .int w
  | v => v

/-- `p2 = INIT_AS_FLOAT`: the payload stays. -/
def Val.retypeFloat : Val → Val
  | .int w => .float w
  | v => v

/-- `WRValue::deref`, operations.cpp 142-178: the location designated. -/
def deref : Nat → St → Addr → Res (St × Addr)
  | 0, _, _ => .oof
  | f + 1, σ, a =>
    match σ.cell a with
    | .ref r => deref f σ r
    | .hmem e => deref f (σ.set .t2 (σ.cell .t2).retypeInt) e
    | .mem b s =>
      let σ := σ.set .t2 (σ.cell .t2).retypeInt
      match σ.cell b with
      | .raw p n => .ok (σ.set .t2 (.int (if s < n then (σ.rawMem p s).setWidth 32 else 0)), .t2)
      | .arr o =>
        match σ.obj o with
        | .vals n => if s < n then .ok (σ, .elem o s) else .ok (σ, .t2)
        | .chars bs _ =>
          match bs[s]? with
          | some c => .ok (σ.set .t2 (.int (c.setWidth 32)), .t2)
          | none => .ok (σ, .t2)
        | .other => .ub
      | _ => .ub
    | _ => .ok (σ, a)

/-- `WRValue::singleValue`, operations.cpp 128-137: leaves a number in `s_temp1`. -/
def single (E : Env) (f : Nat) (σ : St) (a : Addr) : Res St := do
  let (σ, l) ← deref f σ a
  match σ.cell l with
  | .int w => return σ.set .t1 (.int w)
  | .float w => return σ.set .t1 (.float w)
  | v => return σ.set .t1 (.int (getHash E σ v))

/-! ### Dispatch tables -/

/-- One table entry.  `R` is the result type (`Unit` for operators with a target, `Bool`
for comparisons). -/
inductive Entry (R : Type) where
  /-- compute from the operands -/
  | leaf (g : St → Addr → Addr → Res (St × R))
  /-- `X[(to->r->type<<2)|ty](to->r, from)` -/
  | refL
  /-- `X[(ty<<2)|from->r->type](to, from->r)` -/
  | refR
  /-- `X[(to->r->type<<2)|from->r->type](to->r, from->r)` -/
  | refLR
  /-- `V = to->singleValue(); X[(V.type<<2)|ty](&V, from)` -/
  | exL
  /-- `V = from->singleValue(); X[(ty<<2)|V.type](to, &V)` -/
  | exR
  /-- both, the first copied to a local -/
  | exLR
  /-- `if ( !wr_concatStringCheck(..) )` then `exL` / `exR` -/
  | catL
  | catR
  /-- `wr_AdditionBinary_E_E` -/
  | catLR
  /-- `X_INT_BINARY`'s `E_R`: index `(WR_EX)|from->r->type` instead of
  `(WR_EX<<2)|from->r->type` -/
  | badER
  /-- blank function -/
  | skip (r : R)

/-- `IS_CONTAINER_MEMBER`, utils.h 441-473. -/
def isMember : Val → Bool
  | .mem _ _ => true
  | .hmem _ => true
  | _ => false

/-- Interpreter of a table.  `cat σ to from = some σ'` when `wr_concatStringCheck` found a
string and built the concatenation, with the given result. -/
def disp {R : Type} (E : Env) (T : Ty → Ty → Entry R)
    (cat : St → Addr → Addr → Option (St × R)) (none_ : R) :
    Nat → St → Addr → Addr → Res (St × R)
  | 0, _, _, _ => .oof
  | f + 1, σ, to, from_ =>
    let go (r c : Ty) (σ : St) (to from_ : Addr) : Res (St × R) :=
      match T r c with
      | .leaf g => g σ to from_
      | .refL => match σ.cell to with
        | .ref a => disp E T cat none_ f σ a from_
        | _ => .ub
      | .refR => match σ.cell from_ with
        | .ref b => disp E T cat none_ f σ to b
        | _ => .ub
      | .refLR => match σ.cell to, σ.cell from_ with
        | .ref a, .ref b => disp E T cat none_ f σ a b
        | _, _ => .ub
      | .exL => do
        let σ ← single E f σ to
        disp E T cat none_ f σ .t1 from_
      | .exR => do
        let σ ← single E f σ from_
        disp E T cat none_ f σ to .t1
      | .exLR => do
        let σ ← single E f σ to
        let σ := σ.set (.loc f) (σ.cell .t1)
        let σ ← single E f σ from_
        disp E T cat none_ f σ (.loc f) .t1
      | .catL => match cat σ to from_ with
        | some r => .ok r
        | none => do
          let σ ← single E f σ to
          disp E T cat none_ f σ .t1 from_
      | .catR => match cat σ to from_ with
        | some r => .ok r
        | none => do
          let σ ← single E f σ from_
          disp E T cat none_ f σ to .t1
      | .catLR =>
        if isMember (σ.cell to) || isMember (σ.cell from_) then do
          let (σ, l) ← deref f σ to
          let σ := σ.set (.loc f) (σ.cell l)
          let (σ, m) ← deref f σ from_
          disp E T cat none_ f σ (.loc f) m
        else match cat σ to from_ with
          | some r => .ok r
          | none => .ok (σ, none_)
      | .badER => match σ.cell from_ with
        | .ref b =>
          -- index 3 | type: row 0 (INT), column E for INT (0), FLOAT (1), REF (2), EX (3)
          match T .I .E with
          | .exR => do
            let σ ← single E f σ b
            -- `X[(WR_INT<<2)+V.type](to, &V)`
            match T .I (σ.cell .t1).ty with
            | .leaf g => g σ to .t1
            | _ => .ok (σ, none_)
          | _ => .ub
        | _ => .ub
      | .skip r => .ok (σ, r)
    go (σ.cell to).ty (σ.cell from_).ty σ to from_

/-- The table of `X_BINARY` and `wr_DivideBinary`, operations_non_compact.cpp 417-461,
468-572: numeric leaves and standard routing. -/
def stdTable {R : Type} (ii iF fI fF : St → Addr → Addr → Res (St × R)) : Ty → Ty → Entry R
  | .I, .I => .leaf ii
  | .I, .F => .leaf iF
  | .I, .R => .refR
  | .I, .E => .exR
  | .F, .I => .leaf fI
  | .F, .F => .leaf fF
  | .F, .R => .refR
  | .F, .E => .exR
  | .R, .I => .refL
  | .R, .F => .refL
  | .R, .R => .refLR
  | .R, .E => .refL
  | .E, .I => .exL
  | .E, .F => .exL
  | .E, .R => .refR
  | .E, .E => .exLR

/-- The table of `wr_AdditionBinary`, operations_non_compact.cpp 575-633. -/
def addTable {R : Type} (ii iF fI fF : St → Addr → Addr → Res (St × R)) : Ty → Ty → Entry R
  | .I, .E => .catR
  | .E, .I => .catL
  | .E, .E => .catLR
  | r, c => stdTable ii iF fI fF r c

/-- The table of `X_INT_BINARY`, operations_non_compact.cpp 639-668. -/
def intTable {R : Type} (blank : R) (ii : St → Addr → Addr → Res (St × R)) : Ty → Ty → Entry R
  | .I, .I => .leaf ii
  | .I, .R => .refR
  | .I, .E => .exR
  | .R, .I => .refL
  | .R, .R => .refLR
  | .R, .E => .refL
  | .E, .I => .exL
  | .E, .R => .badER
  | .E, .E => .exLR
  | _, _ => .skip blank

/-- Leaf with a target: `target->p2 = …; target->… = op(to->…, from->…)`. -/
def leafT (tgt : Addr) (k : Word32 → Val) (op : Word32 → Word32 → Res Word32) :
    St → Addr → Addr → Res (St × Unit) := fun σ to from_ => do
  let a ← (σ.cell to).bits
  let b ← (σ.cell from_).bits
  let r ← op a b
  return (σ.set tgt (k r), ())

/-- Lift a total operation. -/
def tot (op : Word32 → Word32 → Word32) : Word32 → Word32 → Res Word32 := fun a b => .ok (op a b)

/-- Integer division with the code's zero test (operations_non_compact.cpp 501-516): the
quotient `INT_MIN / -1` overflows. -/
def idiv (a b : Word32) : Res Word32 :=
  if b = 0 then .ok 0
  else if a = 0x80000000#32 ∧ b = 0xFFFFFFFF#32 then .ub
  else .ok (a.sdiv b)

/-- C++ `%` with no test at all (`X_INT_BINARY( wr_Mod, % )`). -/
def imod (a b : Word32) : Res Word32 :=
  if b = 0 then .ub
  else if a = 0x80000000#32 ∧ b = 0xFFFFFFFF#32 then .ub
  else .ok (a.srem b)

/-- C++ `<<`: shift counts outside `0..31` are undefined.  (Left shifts of negative
values, undefined before C++20, are taken to wrap.) -/
def ishl (a b : Word32) : Res Word32 := if b.toNat < 32 then .ok (a <<< b.toNat) else .ub

/-- C++ `>>` on `int`: arithmetic shift. -/
def ishr (a b : Word32) : Res Word32 := if b.toNat < 32 then .ok (a.sshiftRight b.toNat) else .ub

/-- `wr_DivideBinary`'s float leaves: a zero divisor gives payload 0. -/
def fdivOr0 (E : Env) (a b : Word32) : Word32 := if E.fnonzero b then E.fdiv a b else 0
def fdivI (E : Env) (a b : Word32) : Word32 := if b ≠ 0 then E.fdiv a (E.ofInt b) else 0

/-- The binary operators. -/
inductive BinOp where
  | add | sub | mul | div | mod | and | or | xor | shl | shr
deriving DecidableEq, Repr

/-- `wr_concatStringCheck` with a separate target, operations.cpp 31-92 (no malloc
failure): allocate and fill the concatenation, when one operand is a string object that
has a context. `none` = returned false. -/
def catCheck (E : Env) (tgt : Addr) (σ : St) (to from_ : Addr) : Option (St × Unit) :=
  let alloc (bs : List Byte) : Option (St × Unit) :=
    some (({ σ.setObj σ.next (.chars bs false) with next := σ.next + 1 }).set tgt (.arr σ.next), ())
  let strOf (v : Val) : Option (List Byte × Bool) := match v with
    | .arr o => match σ.obj o with
      | .chars bs nc => some (bs, nc)
      | _ => none
    | _ => none
  match strOf (σ.cell to) with
  | some (bs, false) =>
    match strOf (σ.cell from_) with
    | some (cs, _) => alloc (bs ++ cs)
    | none => alloc (bs ++ E.asStr σ.mem σ.obj (σ.cell from_))
  | _ =>
    match strOf (σ.cell from_) with
    | some (cs, false) => alloc (E.asStr σ.mem σ.obj (σ.cell to) ++ cs)
    | _ => none

/-- The table of each binary operator (target `tgt`). -/
def binTable (E : Env) (tgt : Addr) : BinOp → Ty → Ty → Entry Unit
  | .add => addTable (leafT tgt .int (tot (· + ·)))
      (leafT tgt .float (tot fun a b => E.fadd (E.ofInt a) b))
      (leafT tgt .float (tot fun a b => E.fadd a (E.ofInt b))) (leafT tgt .float (tot E.fadd))
  | .sub => stdTable (leafT tgt .int (tot (· - ·)))
      (leafT tgt .float (tot fun a b => E.fsub (E.ofInt a) b))
      (leafT tgt .float (tot fun a b => E.fsub a (E.ofInt b))) (leafT tgt .float (tot E.fsub))
  | .mul => stdTable (leafT tgt .int (tot (· * ·)))
      (leafT tgt .float (tot fun a b => E.fmul (E.ofInt a) b))
      (leafT tgt .float (tot fun a b => E.fmul a (E.ofInt b))) (leafT tgt .float (tot E.fmul))
  | .div => stdTable (leafT tgt .int idiv)
      (leafT tgt .float (tot fun a b => fdivOr0 E (E.ofInt a) b))
      (leafT tgt .float (tot (fdivI E))) (leafT tgt .float (tot (fdivOr0 E)))
  | .mod => intTable () (leafT tgt .int imod)
  | .and => intTable () (leafT tgt .int (tot (· &&& ·)))
  | .or => intTable () (leafT tgt .int (tot (· ||| ·)))
  | .xor => intTable () (leafT tgt .int (tot (· ^^^ ·)))
  | .shl => intTable () (leafT tgt .int ishl)
  | .shr => intTable () (leafT tgt .int ishr)

/-- `targetFunc[(to->type<<2)|from->type]( to, from, target )`, vm.cpp 3137-3139. -/
def binary (E : Env) (op : BinOp) (f : Nat) (σ : St) (to from_ tgt : Addr) : Res St := do
  let (σ, _) ← disp E (binTable E tgt op) (catCheck E tgt) () f σ to from_
  return σ

/-! ### Comparisons -/

/-- The comparison operators.  `<=`, `>=`, `!=` are the negations of `>`, `<`, `==`. -/
inductive CmpOp where
  | gt | lt | eq | land | lor
deriving DecidableEq, Repr

def leafC (op : Word32 → Word32 → Bool) : St → Addr → Addr → Res (St × Bool) := fun σ to from_ => do
  let a ← (σ.cell to).bits
  let b ← (σ.cell from_).bits
  return (σ, op a b)

/-- `NAME##_I_F`, operations_non_compact.cpp 714, 775: `to->p2 = INIT_AS_FLOAT` before the
comparison `to->i OP from->f`. -/
def leafCIF (op : Word32 → Word32 → Bool) : St → Addr → Addr → Res (St × Bool) := fun σ to from_ => do
  let a ← (σ.cell to).bits
  let b ← (σ.cell from_).bits
  return (σ.set to (σ.cell to).retypeFloat, op a b)

/-- Tables of `X_COMPARE` (679-727), `wr_CompareLT` (741-784), `wr_CompareEQ` (786-838). -/
def cmpTable (E : Env) : CmpOp → Ty → Ty → Entry Bool
  | .gt => stdTable (leafC fun a b => b.slt a) (leafCIF fun a b => E.flt b (E.ofInt a))
      (leafC fun a b => E.flt (E.ofInt b) a) (leafC fun a b => E.flt b a)
  | .lt => stdTable (leafC fun a b => a.slt b) (leafCIF fun a b => E.flt (E.ofInt a) b)
      (leafC fun a b => E.flt a (E.ofInt b)) (leafC fun a b => E.flt a b)
  | .eq => stdTable (leafC fun a b => a == b) (leafC fun a b => E.feq (E.ofInt a) b)
      (leafC fun a b => E.feq a (E.ofInt b)) (leafC fun a b => E.feq a b)
  | .land => stdTable (leafC fun a b => a != 0 && b != 0)
      (leafCIF fun a b => a != 0 && E.fnonzero b)
      (leafC fun a b => E.fnonzero a && E.fnonzero (E.ofInt b))
      (leafC fun a b => E.fnonzero a && E.fnonzero b)
  | .lor => stdTable (leafC fun a b => a != 0 || b != 0)
      (leafCIF fun a b => a != 0 || E.fnonzero b)
      (leafC fun a b => E.fnonzero a || E.fnonzero (E.ofInt b))
      (leafC fun a b => E.fnonzero a || E.fnonzero b)

def compare (E : Env) (op : CmpOp) (f : Nat) (σ : St) (to from_ : Addr) : Res (St × Bool) :=
  disp E (cmpTable E op) (fun _ _ _ => none) false f σ to from_

/-! ### Assignment -/

/-- `c[s] = value->ui` into a raw host array. -/
def storeByte (σ : St) (p s : Nat) (w : Word32) : St :=
  { σ with rawMem := fun q i => if q = p ∧ i = s then w.setWidth 8 else σ.rawMem q i }

mutual

/-- `wr_valueToEx`, operations.cpp 241-284 (no allocation failure).  A plain array as `ex`
has element index 0. -/
def valueToEx (E : Env) : Nat → St → Addr → Addr → Res St
  | 0, _, _, _ => .oof
  | f + 1, σ, ex, val =>
    let viaDeref : Res St := do
      let (σ, l) ← deref f σ ex
      let (σ, m) ← deref f σ val
      return σ.set l (σ.cell m)
    match σ.cell ex with
    | .arr o =>
      match σ.obj o with
      | .chars bs nc => do
        let w ← (σ.cell val).bits
        return σ.setObj o (.chars ((if bs = [] then [0] else bs).set 0 (w.setWidth 8)) nc)
      | .vals n =>
        let σ := if n = 0 then (σ.setObj o (.vals 1)).set (.elem o 0) (.int 0) else σ
        assign E f σ (.elem o 0) val
      | .other => .ub
    | .mem b s =>
      match σ.cell b with
      | .raw p _ => do
        let w ← (σ.cell val).bits
        return storeByte σ p s w
      | _ => viaDeref
    | _ => viaDeref

/-- `wr_assign`, operations.cpp 431-464. -/
def assign (E : Env) : Nat → St → Addr → Addr → Res St
  | 0, _, _, _ => .oof
  | f + 1, σ, to, from_ =>
    match (σ.cell to).ty, (σ.cell from_).ty with
    -- doAssign_X_X
    | .I, .I | .I, .F | .F, .I | .F, .F => .ok (σ.set to (σ.cell from_))
    -- doAssign_I_R, doAssign_F_R, doAssign_E_R
    | .I, .R | .F, .R | .E, .R => match σ.cell from_ with
      | .ref b => assign E f σ to b
      | _ => .ub
    -- doAssign_IF_E
    | .I, .E | .F, .E => do
      let (σ, l) ← deref f σ from_
      return σ.set to (σ.cell l)
    -- doAssign_R_I, doAssign_R_F, doAssign_R_E
    | .R, .I | .R, .F | .R, .E => match σ.cell to with
      | .ref a => assign E f σ a from_
      | _ => .ub
    -- doAssign_R_R
    | .R, .R => match σ.cell to, σ.cell from_ with
      | .ref a, .ref b => assign E f σ a b
      | _, _ => .ub
    -- doAssign_E_X
    | .E, .I | .E, .F | .E, .E => do
      let (σ, l) ← deref f σ from_
      if isMember (σ.cell to) then valueToEx E f σ to l
      else return σ.set to (σ.cell l)

end

/-! ### Compound assignment -/

/-- Entries of the `…Assign` tables. -/
inductive AEntry where
  | leaf (g : St → Addr → Addr → Res St)
  /-- `X(to, from->r); *from = *to` (I_R, F_R) -/
  | refRCopy
  /-- `temp = *from->r; X(to, &temp); *from = *to` (I_R of X_LOGIC_ASSIGN) -/
  | refRTmp
  /-- `X(to->r, from); *from = *to->r` -/
  | refLCopy
  /-- `X(to->r, from)` (R_E of X_LOGIC_ASSIGN) -/
  | refL
  /-- `temp = *from->r; X(to->r, &temp); *from = *to->r` (R_R) -/
  | refLR
  /-- `X(to, from->r)` (E_R) -/
  | refR
  /-- `V = from->singleValue(); X(to, &V); *from = *to` (I_E, F_E) -/
  | exR
  /-- `V = to->singleValue(); X(&V, from); wr_valueToEx(to, &V); *from = V` (E_I, E_F) -/
  | exL
  /-- `V = from->singleValue(); X(to, &V); *from = to->deref()` (E_E) -/
  | exLR
  /-- the same three guarded by `wr_concatStringCheck(to, from, to)` -/
  | catR
  | catL
  | catLR
  | skip

/-- Interpreter of a compound-assignment table. -/
def adisp (E : Env) (T : Ty → Ty → AEntry) : Nat → St → Addr → Addr → Res St
  | 0, _, _, _ => .oof
  | f + 1, σ, to, from_ =>
    let doExR : Res St := do
      let σ ← single E f σ from_
      let σ ← adisp E T f σ to .t1
      return σ.set from_ (σ.cell to)
    let doExL : Res St := do
      let σ ← single E f σ to
      let σ ← adisp E T f σ .t1 from_
      let σ ← valueToEx E f σ to .t1
      return σ.set from_ (σ.cell .t1)
    match T (σ.cell to).ty (σ.cell from_).ty with
    | .leaf g => g σ to from_
    | .refRCopy => match σ.cell from_ with
      | .ref b => do
        let σ ← adisp E T f σ to b
        return σ.set from_ (σ.cell to)
      | _ => .ub
    | .refRTmp => match σ.cell from_ with
      | .ref b => do
        let σ ← adisp E T f (σ.set (.loc f) (σ.cell b)) to (.loc f)
        return σ.set from_ (σ.cell to)
      | _ => .ub
    | .refLCopy => match σ.cell to with
      | .ref a => do
        let σ ← adisp E T f σ a from_
        match σ.cell to with
        | .ref a => return σ.set from_ (σ.cell a)
        | _ => .ub
      | _ => .ub
    | .refL => match σ.cell to with
      | .ref a => adisp E T f σ a from_
      | _ => .ub
    | .refLR => match σ.cell to, σ.cell from_ with
      | .ref a, .ref b => do
        let σ ← adisp E T f (σ.set (.loc f) (σ.cell b)) a (.loc f)
        match σ.cell to with
        | .ref a => return σ.set from_ (σ.cell a)
        | _ => .ub
      | _, _ => .ub
    | .refR => match σ.cell from_ with
      | .ref b => adisp E T f σ to b
      | _ => .ub
    | .exR => doExR
    | .exL => doExL
    | .exLR => do
      let σ ← single E f σ from_
      let σ ← adisp E T f σ to .t1
      let (σ, l) ← deref f σ to
      return σ.set from_ (σ.cell l)
    | .catR => match catCheck E to σ to from_ with
      | some r => .ok r.1
      | none => doExR
    | .catL => match catCheck E to σ to from_ with
      | some r => .ok r.1
      | none => doExL
    | .catLR =>
      if isMember (σ.cell from_) then do
        let (σ, l) ← deref f σ from_
        let σ ← adisp E T f σ to l
        let (σ, l) ← deref f σ to
        return σ.set from_ (σ.cell l)
      else match catCheck E to σ to from_ with
        | some r => .ok r.1
        | none => .ok σ
    | .skip => .ok σ

/-- `to->i = op(to->i, from->i)` -/
def aII (op : Word32 → Word32 → Res Word32) : St → Addr → Addr → Res St := fun σ to from_ => do
  let a ← (σ.cell to).bits
  let b ← (σ.cell from_).bits
  let r ← op a b
  return σ.set to (.int r)

/-- `to->p2 = INIT_AS_FLOAT; to->f = …` and the F_F forms -/
def aXF (op : Word32 → Word32 → Word32) : St → Addr → Addr → Res St := fun σ to from_ => do
  let a ← (σ.cell to).bits
  let b ← (σ.cell from_).bits
  return σ.set to (.float (op a b))

/-- F_I: `from->p2 = INIT_AS_FLOAT; to->f op= (float)from->i` -/
def aFI (op : Word32 → Word32 → Word32) : St → Addr → Addr → Res St := fun σ to from_ => do
  let a ← (σ.cell to).bits
  let b ← (σ.cell from_).bits
  return (σ.set from_ (σ.cell from_).retypeFloat).set to (.float (op a b))

/-- The tables of `wr_SubtractAssign`, `wr_MultiplyAssign`, `wr_DivideAssign`,
operations_non_compact.cpp 82-320. -/
def astd (ii iF fI fF : St → Addr → Addr → Res St) : Ty → Ty → AEntry
  | .I, .I => .leaf ii
  | .I, .F => .leaf iF
  | .I, .R => .refRCopy
  | .I, .E => .exR
  | .F, .I => .leaf fI
  | .F, .F => .leaf fF
  | .F, .R => .refRCopy
  | .F, .E => .exR
  | .R, .I => .refLCopy
  | .R, .F => .refLCopy
  | .R, .R => .refLR
  | .R, .E => .refLCopy
  | .E, .I => .exL
  | .E, .F => .exL
  | .E, .R => .refR
  | .E, .E => .exLR

/-- The table of `wr_AddAssign`, operations_non_compact.cpp 323-413. -/
def aadd (ii iF fI fF : St → Addr → Addr → Res St) : Ty → Ty → AEntry
  | .I, .E => .catR
  | .F, .E => .catR
  | .E, .I => .catL
  | .E, .F => .catL
  | .E, .E => .catLR
  | r, c => astd ii iF fI fF r c

/-- The table of `X_LOGIC_ASSIGN`, operations_non_compact.cpp 36-71. -/
def alogic (ii : St → Addr → Addr → Res St) : Ty → Ty → AEntry
  | .I, .I => .leaf ii
  | .I, .R => .refRTmp
  | .I, .E => .exR
  | .R, .I => .refLCopy
  | .R, .R => .refLR
  | .R, .E => .refL
  | .E, .I => .exL
  | .E, .R => .refR
  | .E, .E => .exLR
  | _, _ => .skip

/-- `to->i *= from->i` (line 190): plain signed multiplication, undefined on overflow. -/
def imulAssign (a b : Word32) : Res Word32 :=
  if -2147483648 ≤ a.toInt * b.toInt ∧ a.toInt * b.toInt ≤ 2147483647 then .ok (a * b) else .ub

def assignTable (E : Env) : BinOp → Ty → Ty → AEntry
  | .add => aadd (aII (tot (· + ·))) (aXF fun a b => E.fadd (E.ofInt a) b)
      (aFI fun a b => E.fadd a (E.ofInt b)) (aXF E.fadd)
  | .sub => astd (aII (tot (· - ·))) (aXF fun a b => E.fsub (E.ofInt a) b)
      (aFI fun a b => E.fsub a (E.ofInt b)) (aXF E.fsub)
  | .mul => astd (aII imulAssign) (aXF fun a b => E.fmul (E.ofInt a) b)
      (aFI fun a b => E.fmul a (E.ofInt b)) (aXF E.fmul)
  | .div => astd (aII idiv) (aXF fun a b => fdivOr0 E (E.ofInt a) b)
      (aFI (fdivI E)) (aXF (fdivOr0 E))
  | .mod => alogic (aII imod)
  | .and => alogic (aII (tot (· &&& ·)))
  | .or => alogic (aII (tot (· ||| ·)))
  | .xor => alogic (aII (tot (· ^^^ ·)))
  | .shl => alogic (aII ishl)
  | .shr => alogic (aII ishr)

/-- `voidFunc[(to->type<<2)|from->type]( to, from )`, vm.cpp 3164-3166, 3192-3194. -/
def compound (E : Env) (op : BinOp) (f : Nat) (σ : St) (to from_ : Addr) : Res St :=
  adisp E (assignTable E op) f σ to from_

/-! ### Unary -/

/-- `wr_negate`, operations.cpp 383-398. -/
def negate (E : Env) : Nat → St → Addr → Addr → Res St
  | 0, _, _, _ => .oof
  | f + 1, σ, a, tgt =>
    match σ.cell a with
    | .int w => .ok (σ.set tgt (.int (0 - w)))
    | .float w => .ok (σ.set tgt (.float (E.fneg w)))
    | .ref r => negate E f σ r tgt
    | _ => do
      let σ ← single E f σ a
      negate E f σ .t1 tgt

/-- `wr_LogicalNot`, operations.cpp 369-379: tests the payload bits, also of floats. -/
def logicalNot (E : Env) : Nat → St → Addr → Res (St × Bool)
  | 0, _, _ => .oof
  | f + 1, σ, a =>
    match σ.cell a with
    | .int w => .ok (σ, w == 0)
    | .float w => .ok (σ, w == 0)
    | .ref r => logicalNot E f σ r
    | _ => do
      let σ ← single E f σ a
      logicalNot E f σ .t1

/-- `wr_bitwiseNot`, operations.cpp 401-412. -/
def bitwiseNot (E : Env) : Nat → St → Addr → Res (St × Word32)
  | 0, _, _ => .oof
  | f + 1, σ, a =>
    match σ.cell a with
    | .int w => .ok (σ, ~~~w)
    | .float _ => .ok (σ, 0)
    | .ref r => bitwiseNot E f σ r
    | _ => do
      let σ ← single E f σ a
      bitwiseNot E f σ .t1

/-- `++value->i` / `--value->i`: undefined on overflow. -/
def bump (d : Word32) (w : Word32) : Res Word32 :=
  if (d = 1 ∧ w = 0x7FFFFFFF#32) ∨ (d ≠ 1 ∧ w = 0x80000000#32) then .ub else .ok (w + d)

/-- `wr_preinc` (`d = 1`) and `wr_predec` (`d = -1`), operations_non_compact.cpp 841-857. -/
def preBump (E : Env) (d : Word32) : Nat → St → Addr → Res St
  | 0, _, _ => .oof
  | f + 1, σ, a =>
    match σ.cell a with
    | .int w => do
      let r ← bump d w
      return σ.set a (.int r)
    | .float w => .ok (σ.set a (.float (E.fadd w (E.ofInt d))))
    | .ref r => do
      let σ ← preBump E d f σ r
      match σ.cell a with
      | .ref r => return σ.set a (σ.cell r)
      | _ => .ub
    | _ => do
      let σ ← single E f σ a
      let σ ← preBump E d f σ .t1
      valueToEx E f σ a .t1

/-- `wr_postinc`, `wr_postdec`, operations_non_compact.cpp 860-878. -/
def postBump (E : Env) (d : Word32) : Nat → St → Addr → Addr → Res St
  | 0, _, _, _ => .oof
  | f + 1, σ, a, stack =>
    match σ.cell a with
    | .int w => do
      let r ← bump d w
      return (σ.set a (.int r)).set stack (.int w)
    | .float w => .ok ((σ.set a (.float (E.fadd w (E.ofInt d)))).set stack (.float w))
    | .ref r => postBump E d f σ r stack
    | _ => do
      let σ ← single E f σ a
      let σ ← postBump E d f σ .t1 (.loc f)
      let σ ← valueToEx E f σ a .t1
      return σ.set stack (σ.cell (.loc f))

end Wrench.Ops
