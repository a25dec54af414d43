import Verif.Whole.Spec
import Verif.Vm.JumpProps
import Verif.Flow.Spec

/-
Programs of integer assignments, conditionals and loops: from statements to the bytes of a unit, and the
interpreter that runs them.  Expressions are those of `Whole`, jumps those of `Vm/Jump`, the emitter that of
`Peep`.

Simplifications: which slot a variable has is given; declarations, debug information and the end of the unit
are left out; the right side of an assignment is resolved as an expression of its own (the contexts of the
left side and of `=` are not touched before, cc.cpp 1098-1141: `=` and the compound assignments have the
largest precedence).
-/
namespace Wrench.Prog
open Wrench.Vm Wrench.Vm.Jump Wrench.Peep Wrench.Whole Wrench.Ops

/-- The assignment `v i = e`. -/
structure Asg where
  v : Sp
  i : Byte
  e : IE

/-- What changes a variable: an assignment, a compound assignment, `++` or `--` in front or behind. -/
inductive Eff where
  | set (a : Asg)
  | comp (op : BinOp) (a : Asg)
  | bump (dec post : Bool) (v : Sp) (i : Byte)

/-- Statements. -/
inductive IS where
  | skip
  | asg (a : Eff)
  | seq (s t : IS)
  | ifThen (e : IE) (s : IS)
  | ifElse (e : IE) (s t : IS)
  | loop (e : IE) (s : IS)
  | doLoop (s : IS) (e : IE)
  | forLoop (init : List Eff) (e : Option IE) (post : List Eff) (s : IS)
  | brk
  | cont
  | ret (e : Option IE)

/-- A unit while it is compiled: `all` and `opcodes`, `jumpOffsetTargets`, `m_continueTargets`,
`m_breakTargets` (cc.h 171-225, 514-515). -/
structure BU where
  code : Code
  ts : List Target
  cs : List Nat
  bs : List Nat

/-- The bytes, first byte first. -/
def BU.all (u : BU) : List Byte := u.code.rall.reverse

/-- `addRelativeJumpTarget`, cc.cpp 346-350. -/
def BU.new (u : BU) : BU := { u with ts := u.ts ++ [⟨0, []⟩] }

/-- `setRelativeJumpTarget`, cc.cpp 353-356. -/
def BU.place (u : BU) (id : Nat) : BU :=
  { u with ts := u.ts.modify id fun t => { t with offset := u.code.rall.length } }

/-- `addRelativeJumpSource`, cc.cpp 376-426. -/
def BU.source (neg : Word32 → Word32) (u : BU) (op : Op) (id : Nat) : Option BU :=
  (pushOpcode neg u.code op).bind fun c =>
  c.rops.head?.map fun last =>
    let r := addSource c.rall.reverse last
    { u with code := ⟨r.1.reverse, c.rops⟩, ts := addRef u.ts id r.2 }

/-- `resolveRelativeJumps`, cc.cpp 429-752; `none` is a compile error. -/
def BU.resolve (u : BU) : Option BU :=
  match Jump.resolve u.ts u.all with
  | .ok all => some { u with code := ⟨all.reverse, u.code.rops⟩ }
  | _ => none

/-- The condition `e` followed by a jump to `id` if it is zero: cc.cpp 1979-1986, 2057-2059, 2330-2333,
2986-2990. -/
def BU.cond (neg : Word32 → Word32) (u : BU) (e : IE) (id : Nat) : Option BU :=
  (Whole.compile neg true e).bind fun c =>
  (appendCode neg u.code c).bind fun c => BU.source neg { u with code := c } .BZ id

/-- The bytecode of `v i = e` or `v i op= e` as an expression: the right side, the variable, the operator
(cc.cpp 1247-1289). -/
def Asg.code (neg : Word32 → Word32) (o : Op) (a : Asg) : Option Code :=
  (Whole.compile neg true a.e).bind fun c =>
  (emit neg c (loadOp a.v) [a.i]).bind fun c => emit neg c o []

/-- The compound assignments, cc.h 102-111. -/
def compOp : BinOp → Op
  | .add => .AddAssign | .sub => .SubtractAssign | .mod => .ModAssign | .mul => .MultiplyAssign
  | .div => .DivideAssign | .or => .ORAssign | .and => .ANDAssign | .xor => .XORAssign
  | .shr => .RightShiftAssign | .shl => .LeftShiftAssign

/-- `++` and `--`, cc.h 76-80. -/
def bumpOp : Bool → Bool → Op
  | false, false => .PreIncrement
  | false, true => .PostIncrement
  | true, false => .PreDecrement
  | true, true => .PostDecrement

/-- The bytecode as an expression; `++` and `--`: the variable, the operator (cc.cpp 1148-1165, 1374-1398). -/
def Eff.code (neg : Word32 → Word32) : Eff → Option Code
  | .set a => a.code neg .Assign
  | .comp op a => a.code neg (compOp op)
  | .bump dec post v i => (emit neg ⟨[], []⟩ (loadOp v) [i]).bind fun c => emit neg c (bumpOp dec post) []

/-- An assignment as a statement, cc.cpp 3234-3254. -/
def BU.asg (neg : Word32 → Word32) (u : BU) (a : Eff) : Option BU :=
  (a.code neg).bind fun c =>
  (appendCode neg u.code c).bind fun c => (pushOpcode neg c .PopOne).map fun c => { u with code := c }

/-- An assignment in the head of a `for`, cc.cpp 2177-2179. -/
def BU.setup (neg : Word32 → Word32) (u : BU) (a : Eff) : Option BU :=
  (a.code neg).bind fun c =>
  (pushOpcode neg c .PopOne).bind fun c => (appendCode neg u.code c).map fun c => { u with code := c }

/-- The setup of a `for`. -/
def BU.setups (neg : Word32 → Word32) : BU → List Eff → Option BU
  | u, [] => some u
  | u, a :: l => (u.setup neg a).bind fun u => u.setups neg l

/-- `post.bytecode`, cc.cpp 2337-2371. -/
def postCode (neg : Word32 → Word32) : Code → List Eff → Option Code
  | p, [] => some p
  | p, a :: l => (a.code neg).bind fun c =>
    (pushOpcode neg c .PopOne).bind fun c => (appendCode neg p c).bind fun p => postCode neg p l

/-- `appendBytecode` of the post code, cc.cpp 2393. -/
def BU.post (neg : Word32 → Word32) (u : BU) (l : List Eff) : Option BU :=
  (postCode neg ⟨[], []⟩ l).bind fun p => (appendCode neg u.code p).map fun c => { u with code := c }

/-- `opcodeToReturn` at the top level and in a function, cc.cpp 107, 1932. -/
def retOp (glob : Bool) : Op := if glob then .GlobalStop else .Return

/-- `return e;` and `return;`, cc.cpp 3077-3109. -/
def BU.ret (neg : Word32 → Word32) (glob : Bool) (u : BU) (e : Option IE) : Option BU :=
  (match e with
    | none => pushOpcode neg u.code .LiteralZero
    | some e => (Whole.compile neg true e).bind fun c => appendCode neg u.code c).bind fun c =>
  (pushOpcode neg c (retOp glob)).map fun c => { u with code := c }

/-- The statement parsers: `parseStatement` 3178-3254, `parseIf` 2961-3033, `parseWhile` 1947-2001,
`parseDoWhile` 2004-2073, `parseForLoop` 2076-2405 (cc.cpp).  `glob`: the unit is
the top level.  `none` is a compile error. -/
def compile (neg : Word32 → Word32) (glob : Bool) : IS → BU → Option BU
  | .skip, u => some u
  | .asg a, u => u.asg neg a
  | .seq s t, u => (compile neg glob s u).bind (compile neg glob t)
  | .ifThen e s, u =>
    let f := u.ts.length
    (u.new.cond neg e f).bind fun u => (compile neg glob s u).bind fun u => (u.place f).resolve
  | .ifElse e s t, u =>
    let f := u.ts.length
    (u.new.cond neg e f).bind fun u => (compile neg glob s u).bind fun u =>
    let g := u.ts.length
    (u.new.source neg .RelativeJump g).bind fun u =>
    (compile neg glob t (u.place f)).bind fun u => (u.place g).resolve
  | .loop e s, u =>
    let ct := u.ts.length
    let br := u.ts.length + 1
    ((u.new.place ct).new.cond neg e br).bind fun u' =>
    (compile neg glob s { u' with cs := ct :: u.cs, bs := br :: u.bs }).bind fun u' =>
    (u'.source neg .RelativeJump ct).bind fun u' =>
    BU.resolve { u'.place br with cs := u.cs, bs := u.bs }
  | .doLoop s e, u =>
    let ct := u.ts.length
    let br := u.ts.length + 1
    let top := u.ts.length + 2
    (compile neg glob s { (u.new.new.new).place top with cs := ct :: u.cs, bs := br :: u.bs }).bind fun u' =>
    ((u'.place ct).cond neg e br).bind fun u' => (u'.source neg .RelativeJump top).bind fun u' =>
    BU.resolve { u'.place br with cs := u.cs, bs := u.bs }
  | .forLoop init e post s, u =>
    let ct := u.ts.length
    let br := u.ts.length + 1
    let top := u.ts.length + 2
    (u.new.new.setups neg init).bind fun u' =>
    let u' := u'.new.place top
    (match e with
      | none => some u'
      | some e => u'.cond neg e br).bind fun u' =>
    (compile neg glob s { u' with cs := ct :: u.cs, bs := br :: u.bs }).bind fun u' =>
    ((u'.place ct).post neg post).bind fun u' => (u'.source neg .RelativeJump top).bind fun u' =>
    BU.resolve { u'.place br with cs := u.cs, bs := u.bs }
  | .brk, u => u.bs.head?.bind fun b => u.source neg .RelativeJump b
  | .cont, u => u.cs.head?.bind fun c => u.source neg .RelativeJump c
  | .ret e, u => u.ret neg glob e

/-- A whole unit. -/
def compileUnit (neg : Word32 → Word32) (s : IS) (glob : Bool := false) : Option BU :=
  compile neg glob s ⟨⟨[], []⟩, [], [], []⟩

/-! ### The interpreter -/

/-- One instruction, vm.cpp 749-3250: program counter and state afterwards.  `none`: no instruction there, or
undefined behaviour.  An operator follows at most one reference per operand, which is all that integers and
variables need. -/
def bstep (E : Env) (all : List Byte) (p : Nat × M) : Option (Nat × M) :=
  match opAt all p.1 with
  | none => none
  | some op =>
    if testOf op = .RelativeJump then
      match branch all p.1 true with
      | some (.ofNat q) => some (q, p.2)
      | _ => none
    else
      match act (testOf op) with
      | none => none
      | some a =>
        if all.length < p.1 + 1 + dlen a then none
        else
          match Peep.exec E 2 a ((all.drop (p.1 + 1)).take (dlen a)) p.2 with
          | .ok (.next m) => some (p.1 + 1 + dlen a, m)
          | .ok (.jump m) =>
            match branch all p.1 true with
            | some (.ofNat q) => some (q, m)
            | _ => none
          | _ => none

/-- `n` instructions. -/
def bsteps (E : Env) (all : List Byte) : Nat → Nat × M → Option (Nat × M)
  | 0, p => some p
  | n + 1, p => (bstep E all p).bind (bsteps E all n)

/-! ### What a program means -/

/-- The variable `v i` gets `w`. -/
def upd (ρ : Vars) (v : Sp) (i : Byte) (w : Word32) : Vars := fun v' i' => if v' = v ∧ i' = i then some w else ρ v' i'

/-- An assignment; `none` where the value is undefined or the variable does not exist. -/
def Asg.means (a : Asg) (x : Option Vars) : Option Vars :=
  x.bind fun ρ => (ρ a.v a.i).bind fun _ => (a.e.eval ρ).map fun w => upd ρ a.v a.i w

/-- The operator of a compound assignment. -/
def asBin : BinOp → Expr.Bin
  | .add => .add | .sub => .sub | .mul => .mul | .div => .div | .mod => .mod
  | .and => .and | .or => .or | .xor => .xor | .shl => .shl | .shr => .shr

/-- An integer is in the range of `int`. -/
def fits (x : Int) : Bool := -2147483648 ≤ x && x ≤ 2147483647

/-- The value `x op= y` stores; `*=` is undefined where the product overflows. -/
def compSpec (op : BinOp) (x y : Word32) : Option Word32 :=
  if op = .mul ∧ fits (x.toInt * y.toInt) = false then none else binSpec (asBin op) x y

/-- The value `++` or `--` stores; undefined on overflow. -/
def bumpSpec (dec : Bool) (x : Word32) : Option Word32 :=
  let y := if dec then x.toInt - 1 else x.toInt + 1
  if fits y then some (BitVec.ofInt 32 y) else none

def Eff.means : Eff → Option Vars → Option Vars
  | .set a, x => a.means x
  | .comp op a, x => x.bind fun ρ => (ρ a.v a.i).bind fun w0 => (a.e.eval ρ).bind fun w =>
      (compSpec op w0 w).map fun r => upd ρ a.v a.i r
  | .bump dec _ v i, x => x.bind fun ρ => (ρ v i).bind fun w0 => (bumpSpec dec w0).map fun r => upd ρ v i r

/-- A condition. -/
def test (e : IE) (x : Option Vars) : Bool × Option Vars :=
  match x with
  | none => (false, none)
  | some ρ => match e.eval ρ with
    | none => (false, none)
    | some w => (w != 0, some ρ)

/-- What `return` delivers: zero without an expression. -/
def retVal (e : Option IE) (ρ : Vars) : Option Word32 :=
  match e with
  | none => some 0
  | some e => e.eval ρ

/-- The statement over the state of the variables; what statements do is `Flow.exec`. -/
def IS.means : IS → Flow.Stmt (Option Vars) (Option Word32)
  | .skip => .skip
  | .asg a => .act a.means
  | .seq s t => .seq s.means t.means
  | .ifThen e s => .ifThen (test e) s.means
  | .ifElse e s t => .ifElse (test e) s.means t.means
  | .loop e s => .loop (test e) s.means
  | .doLoop s e => .doLoop s.means (test e)
  | .forLoop init e post s => .forLoop (init.map Eff.means) (e.map test) (post.map Eff.means) s.means
  | .brk => .brk
  | .cont => .cont
  | .ret e => .ret fun x => (x.bind (retVal e), x)

end Wrench.Prog
