import Verif.Bytes.Model

/-
`goto` and labels: the `goto` branch of `parseStatement` (cc/cc.cpp 3205-3231), labels
(cc/expression.cpp 500-543), and their resolution by the linker (cc/link.cpp 258-293), together with
the statements they can jump into and out of: `if`, `while`, `do`, `for`, `break`, `continue`, `return`.

Simplifications.
* As in `Flow`: the source is a syntax tree, expressions are opaque and complete normally, code
  positions count instructions, a condition and its branch are one instruction.
* `switch`, and `for ( x : y )`, are left out; they are in `Flow` (C40).
* A label is a target like others, with `gotoHash` set.  The table `lab` holds the targets with
  `gotoHash` set, in the order of their creation, which is how the linker searches them.  A name that
  hashes to 0, the `gotoHash` of ordinary targets, is not considered.
* A label as such compiles to `O_LiteralZero` and its recorded position lies behind it; `O_PopOne`
  then removes the instruction (cc/optimizer.cpp 1325-1400), and the linker subtracts 2 where the
  distance from the operand would be 1 less.  Both together amount to the position of the next
  statement, which is what is recorded here.  That a jump patched in by the linker lands there is C24,
  including the refusal of distances beyond 16 bits.
-/
namespace Wrench.Goto

open Wrench

/-- Statements of one function (or of the top level).  A label is given by the hash of its name. -/
inductive Stmt (σ ρ : Type) where
  | skip
  | act (f : σ → σ)
  | seq (s t : Stmt σ ρ)
  | ifThen (c : σ → Bool × σ) (s : Stmt σ ρ)
  | ifElse (c : σ → Bool × σ) (s t : Stmt σ ρ)
  | loop (c : σ → Bool × σ) (s : Stmt σ ρ)
  | doLoop (s : Stmt σ ρ) (c : σ → Bool × σ)
  | forLoop (init : List (σ → σ)) (c : Option (σ → Bool × σ)) (post : List (σ → σ)) (s : Stmt σ ρ)
  | brk
  | cont
  | ret (r : σ → ρ × σ)
  | goto (h : Word32)
  | label (h : Word32)

inductive Instr (σ ρ : Type) where
  | act (f : σ → σ)
  | bz (c : σ → Bool × σ) (id : Nat)
  | jmp (id : Nat)
  | ret (r : σ → ρ × σ)
  /-- The three bytes of a `goto`, with their entry in `gotoSource`. -/
  | goto (h : Word32)

/-- The compilation context: code, positions of jump targets, labels, `m_continueTargets`,
`m_breakTargets`. -/
structure CS (σ ρ : Type) where
  code : List (Instr σ ρ)
  tg : List Nat
  lab : List (Word32 × Nat)
  cs : List Nat
  bs : List Nat

variable {σ ρ : Type}

/-- `addRelativeJumpTarget`, cc/cc.cpp 346-350. -/
def CS.new (k : CS σ ρ) : CS σ ρ := { k with tg := k.tg ++ [0] }

/-- `setRelativeJumpTarget`, cc/cc.cpp 353-356. -/
def CS.place (k : CS σ ρ) (id : Nat) : CS σ ρ := { k with tg := k.tg.set id k.code.length }

def CS.emit (k : CS σ ρ) (i : Instr σ ρ) : CS σ ρ := { k with code := k.code ++ [i] }

def CS.emits (k : CS σ ρ) (l : List (Instr σ ρ)) : CS σ ρ := { k with code := k.code ++ l }

/-- The start of a `for`, up to its body, cc/cc.cpp 2076-2189, 2310-2390. -/
def forStart (init : List (σ → σ)) (c : Option (σ → Bool × σ)) (k : CS σ ρ) : CS σ ρ :=
  let k1 := ((k.new.new.emits (init.map .act)).new).place (k.tg.length + 2)
  match c with
  | none => k1
  | some c => k1.emit (.bz c (k.tg.length + 1))

/-- The statement parsers.  `none` is a compile error (`break` or `continue` outside a loop). -/
def compile : Stmt σ ρ → CS σ ρ → Option (CS σ ρ)
  | .skip, k => some k
  | .act f, k => some (k.emit (.act f))                         -- 3234-3254
  | .seq s t, k => (compile s k).bind (compile t)
  | .ifThen c s, k =>                                           -- parseIf 2961-3033
    let f := k.tg.length
    (compile s (k.new.emit (.bz c f))).map fun k => k.place f
  | .ifElse c s t, k =>
    let f := k.tg.length
    (compile s (k.new.emit (.bz c f))).bind fun k =>
    let e := k.tg.length
    (compile t ((k.new.emit (.jmp e)).place f)).map fun k => k.place e
  | .loop c s, k =>                                             -- parseWhile 1947-2001
    let ct := k.tg.length
    let br := k.tg.length + 1
    (compile s { (((k.new.place ct).new).emit (.bz c br)) with cs := ct :: k.cs, bs := br :: k.bs }).map fun k' =>
      { ((k'.emit (.jmp ct)).place br) with cs := k.cs, bs := k.bs }
  | .doLoop s c, k =>                                           -- parseDoWhile 2004-2073
    let ct := k.tg.length
    let br := k.tg.length + 1
    let top := k.tg.length + 2
    (compile s { ((k.new.new.new).place top) with cs := ct :: k.cs, bs := br :: k.bs }).map fun k' =>
      { ((((k'.place ct).emit (.bz c br)).emit (.jmp top)).place br) with cs := k.cs, bs := k.bs }
  | .forLoop init c post s, k =>                                -- parseForLoop 2076-2405
    let ct := k.tg.length
    let br := k.tg.length + 1
    let top := k.tg.length + 2
    (compile s { forStart init c k with cs := ct :: k.cs, bs := br :: k.bs }).map fun k' =>
      { ((((k'.place ct).emits (post.map .act)).emit (.jmp top)).place br) with cs := k.cs, bs := k.bs }
  | .brk, k => k.bs.head?.map fun b => k.emit (.jmp b)          -- 3178-3187
  | .cont, k => k.cs.head?.map fun c => k.emit (.jmp c)         -- 3188-3197
  | .ret r, k => some (k.emit (.ret r))
  | .goto h, k => some (k.emit (.goto h))                       -- 3205-3231
  | .label h, k => some { k with lab := k.lab ++ [(h, k.code.length)] }   -- expression.cpp 521-543

/-- The position a `goto` is resolved to: that of the first target with its hash, cc/link.cpp 258-293. -/
def resolve (lab : List (Word32 × Nat)) (h : Word32) : Option Nat :=
  (lab.find? (fun l => l.1 == h)).map (·.2)

/-- A unit after linking. -/
structure Linked (σ ρ : Type) where
  code : List (Instr σ ρ)
  tg : List Nat
  lab : List (Word32 × Nat)

/-- Has the instruction a target, if it is a `goto`? -/
def Instr.resolved (lab : List (Word32 × Nat)) : Instr σ ρ → Bool
  | .goto h => (resolve lab h).isSome
  | _ => true

/-- Compile and link one unit.  `WR_ERR_goto_target_not_found` if some `goto` has no label in the unit. -/
def build (s : Stmt σ ρ) : Option (Linked σ ρ) :=
  (compile s ⟨[], [], [], [], []⟩).bind fun k =>
    if k.code.all (Instr.resolved k.lab) then
      some ⟨k.code, k.tg, k.lab⟩
    else none

/-! ### The machine -/

inductive Res (σ ρ : Type) where
  | go (pc : Nat) (x : σ)
  | fin (x : σ)
  | ret (r : ρ) (x : σ)
  | fault

/-- One instruction. -/
def step (P : Linked σ ρ) (pc : Nat) (x : σ) : Res σ ρ :=
  match P.code[pc]? with
  | none => if pc = P.code.length then .fin x else .fault
  | some (.act f) => .go (pc + 1) (f x)
  | some (.bz t id) => .go (if (t x).1 then pc + 1 else P.tg.getD id 0) (t x).2
  | some (.jmp id) => .go (P.tg.getD id 0) x
  | some (.ret r) => .ret (r x).1 (r x).2
  | some (.goto h) =>
    match resolve P.lab h with
    | some q => .go q x
    | none => .fault

/-- At most `n` instructions; `none` if the machine has not stopped by then. -/
def run (P : Linked σ ρ) : Nat → Nat → σ → Option (Res σ ρ)
  | 0, _, _ => none
  | n + 1, pc, x =>
    match step P pc x with
    | .go pc' x' => run P n pc' x'
    | r => some r

end Wrench.Goto
