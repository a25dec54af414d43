import Verif.Ops.Model

/-
The operators of the `WRENCH_COMPACT` build (operations_compact.cpp and the callbacks of
vm.cpp 238-275), over the same memory as the normal build's operators (Verif.Ops.Model).
One table serves every operator; the operator is a pair of callbacks on two ints and on
two floats.
-/
namespace Wrench.Compact

open Wrench.Ops

/-- A signed C++ `int` result: undefined outside 32 bits. -/
def checked (exact : Int) (w : Word32) : Res Word32 :=
  if -2147483648 ≤ exact ∧ exact ≤ 2147483647 then .ok w else .ub

/-- The int callbacks, vm.cpp 248-261: `wr_addI`, `subtractionI` and `multiplicationI` are
plain signed arithmetic, `divisionI` tests for zero, `modI` and the shifts test nothing. -/
def intCall : BinOp → Word32 → Word32 → Res Word32
  | .add => fun a b => checked (a.toInt + b.toInt) (a + b)
  | .sub => fun a b => checked (a.toInt - b.toInt) (a - b)
  | .mul => fun a b => checked (a.toInt * b.toInt) (a * b)
  | .div => idiv
  | .mod => imod
  | .and => tot (· &&& ·)
  | .or => tot (· ||| ·)
  | .xor => tot (· ^^^ ·)
  | .shl => ishl
  | .shr => ishr

/-- The float callbacks, vm.cpp 240-246 and `blankF` 275 (which the integer-only operators
get, vm.cpp 1807, 1823-1828). -/
def floatCall (E : Env) : BinOp → Word32 → Word32 → Word32
  | .add => E.fadd
  | .sub => E.fsub
  | .mul => E.fmul
  | .div => fdivOr0 E
  | _ => fun _ _ => 0

/-- `wr_funcBinary`, operations_compact.cpp 143-223. -/
def binTable (E : Env) (tgt : Addr) (op : BinOp) : Ty → Ty → Entry Unit
  | .I, .I => .leaf (leafT tgt .int (intCall op))
  | .I, .F => .leaf (leafT tgt .float (tot fun a b => floatCall E op (E.ofInt a) b))
  | .I, .R => .refR
  | .I, .E => .catR
  | .F, .I => .leaf (leafT tgt .float (tot fun a b => floatCall E op a (E.ofInt b)))
  | .F, .F => .leaf (leafT tgt .float (tot (floatCall E op)))
  | .F, .R => .refR
  | .F, .E => .catR
  | .R, .I => .refL
  | .R, .F => .refL
  | .R, .R => .refLR
  | .R, .E => .refL
  | .E, .I => .catL
  | .E, .F => .catL
  | .E, .R => .refR
  | .E, .E => .catLR

/-- `intCall != wr_addI || !wr_concatStringCheck(..)`, operations_compact.cpp 145, 159-161,
166: only addition tries a concatenation. -/
def catFor (E : Env) (tgt : Addr) (op : BinOp) (σ : St) (to from_ : Addr) : Option (St × Unit) :=
  if op = .add then catCheck E tgt σ to from_ else none

/-- `wr_funcBinary[..]( register1, register0, register2, intCall, floatCall )`,
vm.cpp 1811-1815. -/
def binary (E : Env) (op : BinOp) (f : Nat) (σ : St) (to from_ tgt : Addr) : Res St := do
  let (σ, _) ← disp E (binTable E tgt op) (catFor E tgt op) () f σ to from_
  return σ

/-! ### Comparisons -/

/-- Where a comparison's answer goes: onto the stack or into a branch.  For `&&` and `||`
the two differ: `LogicalAnd` and `LogicalOr` set no float callback at all (vm.cpp
2144-2145), `BLA` and `BLO` set `CompareBlankF` (vm.cpp 1989-2033). -/
inductive Form where
  | value | branch
deriving DecidableEq, Repr

/-- The int callbacks, vm.cpp 263-266, 271. -/
def cmpInt : CmpOp → Word32 → Word32 → Bool
  | .gt => fun a b => b.slt a
  | .lt => fun a b => a.slt b
  | .eq => fun a b => a == b
  | .land => fun a b => a != 0 && b != 0
  | .lor => fun a b => a != 0 || b != 0

/-- The float callbacks, vm.cpp 268-269, 272, 274.  `none`: whatever the callback register
last held (or nothing yet). -/
def cmpFloat (E : Env) (form : Form) : CmpOp → Option (Word32 → Word32 → Bool)
  | .gt => some fun a b => E.flt b a
  | .lt => some E.flt
  | .eq => some E.feq
  | _ => match form with
    | .value => none
    | .branch => some fun _ _ => false

/-- Calling the float callback. -/
def leafF (g : Option (Word32 → Word32 → Bool)) (l r : Word32 → Word32) :
    St → Addr → Addr → Res (St × Bool) := fun σ to from_ => do
  let a ← (σ.cell to).bits
  let b ← (σ.cell from_).bits
  match g with
  | some g => return (σ, g (l a) (r b))
  | none => .ub

/-- `wr_Compare`, operations_compact.cpp 227-258. -/
def cmpTable (E : Env) (form : Form) (op : CmpOp) : Ty → Ty → Entry Bool :=
  stdTable (leafC (cmpInt op)) (leafF (cmpFloat E form op) E.ofInt id)
    (leafF (cmpFloat E form op) id E.ofInt) (leafF (cmpFloat E form op) id id)

/-- `wr_Compare[..]( register0, register1, boolIntCall, boolFloatCall )`. -/
def compare (E : Env) (form : Form) (op : CmpOp) (f : Nat) (σ : St) (to from_ : Addr) :
    Res (St × Bool) :=
  disp E (cmpTable E form op) (fun _ _ _ => none) false f σ to from_

/-! ### Compound assignment and increments -/

/-- `wr_FuncAssign`, operations_compact.cpp 49-139.  `wr_concatStringCheck` is tried for
every operator. -/
def funcAssign (E : Env) (op : BinOp) : Nat → St → Addr → Addr → Res St
  | 0, _, _, _ => .oof
  | f + 1, σ, to, from_ =>
    match (σ.cell to).ty, (σ.cell from_).ty with
    -- FuncAssign_I_I
    | .I, .I => do
      let a ← (σ.cell to).bits
      let b ← (σ.cell from_).bits
      let r ← intCall op a b
      return σ.set to (.int r)
    -- FuncAssign_I_F
    | .I, .F => do
      let a ← (σ.cell to).bits
      let b ← (σ.cell from_).bits
      return σ.set to (.float (floatCall E op (E.ofInt a) b))
    -- FuncAssign_F_I
    | .F, .I => do
      let a ← (σ.cell to).bits
      let b ← (σ.cell from_).bits
      return σ.set to (.float (floatCall E op a (E.ofInt b)))
    -- FuncAssign_F_F
    | .F, .F => do
      let a ← (σ.cell to).bits
      let b ← (σ.cell from_).bits
      return σ.set to (.float (floatCall E op a b))
    -- FuncAssign_X_R
    | .I, .R | .F, .R => match σ.cell from_ with
      | .ref b => do
        let σ ← funcAssign E op f σ to b
        return σ.set from_ (σ.cell to)
      | _ => .ub
    -- FuncAssign_X_E
    | .I, .E | .F, .E => match catCheck E to σ to from_ with
      | some r => return r.1.set from_ (r.1.cell to)
      | none => do
        let σ ← single E f σ from_
        let σ ← funcAssign E op f σ to .t1
        return σ.set from_ (σ.cell to)
    -- FuncAssign_R_X
    | .R, .I | .R, .F => match σ.cell to with
      | .ref a => do
        let σ ← funcAssign E op f σ a from_
        match σ.cell to with
        | .ref a => return σ.set from_ (σ.cell a)
        | _ => .ub
      | _ => .ub
    -- FuncAssign_R_R
    | .R, .R => match σ.cell to, σ.cell from_ with
      | .ref a, .ref b => do
        let σ ← funcAssign E op f (σ.set (.loc f) (σ.cell b)) a (.loc f)
        match σ.cell to with
        | .ref a => return σ.set from_ (σ.cell a)
        | _ => .ub
      | _, _ => .ub
    -- FuncAssign_R_E
    | .R, .E => match σ.cell to with
      | .ref a => funcAssign E op f σ a from_
      | _ => .ub
    -- FuncAssign_E_R
    | .E, .R => match σ.cell from_ with
      | .ref b => funcAssign E op f σ to b
      | _ => .ub
    -- FuncAssign_E_X
    | .E, .I | .E, .F => match catCheck E to σ to from_ with
      | some r => return r.1.set from_ (r.1.cell to)
      | none => do
        let σ ← single E f σ to
        let σ ← funcAssign E op f σ .t1 from_
        let σ ← valueToEx E f σ to .t1
        return σ.set from_ (σ.cell .t1)
    -- FuncAssign_E_E
    | .E, .E =>
      if isMember (σ.cell from_) then do
        let (σ, l) ← deref f σ from_
        let σ ← funcAssign E op f σ to l
        let (σ, l) ← deref f σ to
        return σ.set from_ (σ.cell l)
      else match catCheck E to σ to from_ with
        | some r => return r.1.set from_ (r.1.cell to)
        | none => return σ

/-- `PreIncrement` / `PreDecrement` and the `IncGlobal` family, vm.cpp 1932-1987: the
constant 1 is put in an unused stack slot and added or subtracted. -/
def preBump (E : Env) (op : BinOp) (f : Nat) (σ : St) (a scratch : Addr) : Res St :=
  funcAssign E op f (σ.set scratch (.int 1)) a scratch

/-- `value->i += add` -/
def bumpBy (d : Int) (w : Word32) : Res Word32 :=
  checked (w.toInt + d) (w + BitVec.ofInt 32 d)

/-- `m_unaryPost`, operations_compact.cpp 33-47, with `add` = 1 or -1. -/
def postBump (E : Env) (d : Int) : Nat → St → Addr → Addr → Res St
  | 0, _, _, _ => .oof
  | f + 1, σ, a, stack =>
    match σ.cell a with
    | .int w => do
      let σ' := σ.set stack (.int w)
      match σ'.cell a with
      | .int w => do
        let r ← bumpBy d w
        return σ'.set a (.int r)
      | _ => .ub
    | .float w => do
      let σ' := σ.set stack (.float w)
      match σ'.cell a with
      | .float w => return σ'.set a (.float (E.fadd w (E.ofInt (BitVec.ofInt 32 d))))
      | _ => .ub
    | .ref r => postBump E d f σ r stack
    | _ => do
      let σ ← single E f σ a
      let σ ← postBump E d f σ .t1 (.loc f)
      let σ ← valueToEx E f σ a .t1
      return σ.set stack (σ.cell (.loc f))

end Wrench.Compact
