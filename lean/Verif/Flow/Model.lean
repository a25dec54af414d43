import Verif.Bytes.Model

/-
Statements and the code the compiler emits for them: `parseStatement`, `parseIf`, `parseWhile`,
`parseDoWhile`, `parseForLoop`, `parseSwitch` (cc/cc.cpp 1947-3263).

Simplifications.
* The source is an abstract syntax tree; parsing is left out.  Expressions are opaque: an expression
  statement changes the state, a condition or selector yields a value and may change the state.
  Expressions complete normally.
* Code positions count instructions.  A jump refers to a jump target by number; that a resolved jump
  lands on the position recorded for its target is C24.  An unplaced target has position 0, as
  `WRJumpOffset::offset` has.
* The table lookup of the switch instructions is C26; here the instruction carries the list of cases.
* A condition and the branch that tests it are one instruction.
-/
namespace Wrench.Flow

open Wrench

mutual
/-- Statements.  `σ` is the state of the program, `ρ` what `return` delivers. -/
inductive Stmt (σ ρ : Type) where
  | skip
  | act (f : σ → σ)
  | seq (s t : Stmt σ ρ)
  | ifThen (c : σ → Bool × σ) (s : Stmt σ ρ)
  | ifElse (c : σ → Bool × σ) (s t : Stmt σ ρ)
  | loop (c : σ → Bool × σ) (s : Stmt σ ρ)
  | doLoop (s : Stmt σ ρ) (c : σ → Bool × σ)
  | forLoop (init : List (σ → σ)) (c : Option (σ → Bool × σ)) (post : List (σ → σ)) (s : Stmt σ ρ)
  | each (start : σ → σ) (next : σ → Bool × σ) (s : Stmt σ ρ)
  | brk
  | cont
  | ret (r : σ → ρ × σ)
  | switch (sel : σ → Word32 × σ) (b : Body σ ρ)
/-- The body of a `switch`. -/
inductive Body (σ ρ : Type) where
  | nil
  | case (h : Word32) (b : Body σ ρ)
  | dflt (b : Body σ ρ)
  | stmt (s : Stmt σ ρ) (b : Body σ ρ)
end

/-- Instructions.  `bz` evaluates a condition and jumps if it is false; `push` leaves a selector on
the stack, `sw` and `pop` take it off; `sw` jumps to the position of the matching case, or to the
default position, or to the next instruction. -/
inductive Instr (σ ρ : Type) where
  | act (f : σ → σ)
  | bz (c : σ → Bool × σ) (id : Nat)
  | jmp (id : Nat)
  | ret (r : σ → ρ × σ)
  | push (sel : σ → Word32 × σ)
  | pop
  | sw (cases : List (Word32 × Nat)) (d : Option Nat)

/-- `O_RelativeJump`? -/
def Instr.isJmp {σ ρ : Type} : Instr σ ρ → Bool
  | .jmp _ => true
  | _ => false

/-- The part of the compilation context used by statements: the code so far, the positions of the
jump targets (`jumpOffsetTargets`), `m_continueTargets` and `m_breakTargets`. -/
structure CS (σ ρ : Type) where
  code : List (Instr σ ρ)
  tg : List Nat
  cs : List Nat
  bs : List Nat

variable {σ ρ : Type}

/-- `addRelativeJumpTarget`, cc/cc.cpp 346-350; a new target has offset 0. -/
def CS.new (k : CS σ ρ) : CS σ ρ := { k with tg := k.tg ++ [0] }

/-- `setRelativeJumpTarget`, cc/cc.cpp 353-356. -/
def CS.place (k : CS σ ρ) (id : Nat) : CS σ ρ := { k with tg := k.tg.set id k.code.length }

def CS.emit (k : CS σ ρ) (i : Instr σ ρ) : CS σ ρ := { k with code := k.code ++ [i] }

def CS.emits (k : CS σ ρ) (l : List (Instr σ ρ)) : CS σ ρ := { k with code := k.code ++ l }

/-- Is the last opcode in the cache `O_RelativeJump`?  cc/cc.cpp 2790-2791. -/
def CS.endsJmp (k : CS σ ρ) : Bool :=
  match k.code.getLast? with
  | some i => i.isJmp
  | none => false

/-- State while parsing the body of a switch: context, `cases`, `defaultOffset`, cc/cc.cpp 2687-2689.
(`swCase` is null exactly when there are no cases yet.) -/
structure SwS (σ ρ : Type) where
  k : CS σ ρ
  cases : List (Word32 × Nat)
  d : Option Nat

mutual
/-- The statement parsers, cc/cc.cpp 1947-2405, 2656-3263.  `none` is a compile error. -/
def compile : Stmt σ ρ → CS σ ρ → Option (CS σ ρ)
  | .skip, k => some k
  | .act f, k => some (k.emit (.act f))                         -- 3234-3254
  | .seq s t, k => (compile s k).bind (compile t)
  | .ifThen c s, k =>                                           -- parseIf 2961-3033
    let f := k.tg.length
    (compile s (k.new.emit (.bz c f))).map fun k => k.place f
  | .ifElse c s t, k =>
    let f := k.tg.length
    (compile s (k.new.emit (.bz c f))).bind fun k =>
    let e := k.tg.length
    (compile t ((k.new.emit (.jmp e)).place f)).map fun k => k.place e
  | .loop c s, k =>                                             -- parseWhile 1947-2001
    let ct := k.tg.length
    let br := k.tg.length + 1
    (compile s { (((k.new.place ct).new).emit (.bz c br)) with cs := ct :: k.cs, bs := br :: k.bs }).map fun k' =>
      { ((k'.emit (.jmp ct)).place br) with cs := k.cs, bs := k.bs }
  | .doLoop s c, k =>                                           -- parseDoWhile 2004-2073
    let ct := k.tg.length
    let br := k.tg.length + 1
    let top := k.tg.length + 2
    (compile s { ((k.new.new.new).place top) with cs := ct :: k.cs, bs := br :: k.bs }).map fun k' =>
      { ((((k'.place ct).emit (.bz c br)).emit (.jmp top)).place br) with cs := k.cs, bs := k.bs }
  | .forLoop init c post s, k =>                                -- parseForLoop 2076-2405
    let ct := k.tg.length
    let br := k.tg.length + 1
    let top := k.tg.length + 2
    let k1 := ((k.new.new.emits (init.map .act)).new).place top
    let k2 := match c with
      | none => k1
      | some c => k1.emit (.bz c br)
    (compile s { k2 with cs := ct :: k.cs, bs := br :: k.bs }).map fun k' =>
      { ((((k'.place ct).emits (post.map .act)).emit (.jmp top)).place br) with cs := k.cs, bs := k.bs }
  | .each start next s, k =>                                    -- 2190-2308, 2391-2405
    let ct := k.tg.length
    let br := k.tg.length + 1
    let top := k.tg.length + 2
    let k1 := ((k.new.new.emit (.act start)).new).place top
    (compile s { k1.emit (.bz next br) with cs := ct :: k.cs, bs := br :: k.bs }).map fun k' =>
      { ((k'.emit (.jmp top)).place br) with cs := k.cs, bs := k.bs }
  | .brk, k => k.bs.head?.map fun b => k.emit (.jmp b)          -- 3178-3187
  | .cont, k => k.cs.head?.map fun c => k.emit (.jmp c)         -- 3188-3197
  | .ret r, k => some (k.emit (.ret r))
  | .switch sel b, k =>                                         -- parseSwitch 2656-2958
    let dt := k.tg.length
    let br := k.tg.length + 1
    let sp := k.tg.length + 2
    let k1 := ((k.emit (.push sel)).new.new.new).emit (.jmp sp)
    (compileBody dt b { k := { k1 with bs := br :: k.bs }, cases := [], d := none }).map fun w =>
      let k' := w.k
      if k1.code.length = k'.code.length then
        { code := k'.code.dropLast ++ [.pop], tg := k'.tg.dropLast, cs := k.cs, bs := k.bs }
      else
        let k2 := if k'.endsJmp = true then k' else k'.emit (.jmp br)
        { (((k2.place sp).emit (.sw w.cases w.d)).place br) with cs := k.cs, bs := k.bs }
/-- The loop over the body of a switch, cc/cc.cpp 2700-2768.  `dt` is `defaultCaseJumpTarget`. -/
def compileBody (dt : Nat) : Body σ ρ → SwS σ ρ → Option (SwS σ ρ)
  | .nil, w => some w
  | .case h b, w =>
    if w.cases.any (fun c => c.1 == h) then none
    else compileBody dt b { w with cases := w.cases ++ [(h, w.k.code.length)] }
  | .dflt b, w =>
    if w.d.isSome then none
    else compileBody dt b { w with k := w.k.place dt, d := some w.k.code.length }
  | .stmt s b, w =>
    if w.cases.isEmpty && w.d.isNone then none
    else (compile s w.k).bind fun k => compileBody dt b { w with k := k }
end

/-! ### The machine -/

structure Cfg (σ : Type) where
  pc : Nat
  st : σ
  stk : List Word32

/-- One instruction: continue, end of the code, return, or a fault (stack underflow, position outside
the code). -/
inductive Res (σ ρ : Type) where
  | go (c : Cfg σ)
  | fin (st : σ) (stk : List Word32)
  | ret (r : ρ) (st : σ) (stk : List Word32)
  | fault

/-- `F` is the code, `T` the positions of the jump targets. -/
def step (F : List (Instr σ ρ)) (T : List Nat) (c : Cfg σ) : Res σ ρ :=
  match F[c.pc]? with
  | none => if c.pc = F.length then .fin c.st c.stk else .fault
  | some (.act f) => .go ⟨c.pc + 1, f c.st, c.stk⟩
  | some (.bz t id) => .go ⟨if (t c.st).1 then c.pc + 1 else T.getD id 0, (t c.st).2, c.stk⟩
  | some (.jmp id) => .go ⟨T.getD id 0, c.st, c.stk⟩
  | some (.ret r) => .ret (r c.st).1 (r c.st).2 c.stk
  | some (.push s) => .go ⟨c.pc + 1, (s c.st).2, (s c.st).1 :: c.stk⟩
  | some .pop =>
    match c.stk with
    | [] => .fault
    | _ :: r => .go ⟨c.pc + 1, c.st, r⟩
  | some (.sw cases d) =>
    match c.stk with
    | [] => .fault
    | h :: r =>
      .go ⟨match cases.find? (fun x => x.1 == h) with
        | some x => x.2
        | none => match d with
          | some o => o
          | none => c.pc + 1, c.st, r⟩

/-- `n` instructions, all of them continuing. -/
def steps (F : List (Instr σ ρ)) (T : List Nat) : Nat → Cfg σ → Option (Cfg σ)
  | 0, c => some c
  | n + 1, c =>
    match step F T c with
    | .go c' => steps F T n c'
    | _ => none

/-- Run until the machine stops; `none` if it does not within `n` instructions. -/
def run (F : List (Instr σ ρ)) (T : List Nat) : Nat → Cfg σ → Option (Res σ ρ)
  | 0, _ => none
  | n + 1, c =>
    match step F T c with
    | .go c' => run F T n c'
    | r => some r

end Wrench.Flow
