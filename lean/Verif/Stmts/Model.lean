import Verif.Flow.Props

/-
The statement parsers read as parsers: which tokens `parseStatement`, `parseIf`, `parseWhile`,
`parseDoWhile`, `parseForLoop` and `parseSwitch` (cc/cc.cpp 1947-3263) consume, and which tree of
statements they emit code for.  Flow/Model.lean says what that code is.

Simplifications.
* The source is a list of tokens.  A whole expression is one token, since `parseExpression`
  (cc/expression.cpp 60-614) reads up to the first `;`, `)`, `}`, `,`, `]` or `:` outside of it; a
  plain variable name is told apart because for-each and labels need one.  The keywords are reserved
  words (cc/cc.cpp 30-57), so a keyword where an expression should start is an error.
* Labels, `goto`, `enum`, `export`, `function` and `struct` are left out.  `none` is a compile error or
  one of these.
* Trees are built first and compiled afterwards; the compiler does both in one pass, in the same order.
* Every parser takes a bound on the depth of the recursion; `parse` and `program` supply one that
  always suffices for what the theorems say.
-/
namespace Wrench.Stmts

open Wrench

/-- An expression: a plain variable name, or anything else. -/
inductive E where
  | ex (n : Nat)
  | nm (n : Nat)
deriving DecidableEq, Repr

/-- Tokens.  `lit h` is a constant with hash `h`. -/
inductive Tok where
  | lp | rp | lb | rb | semi | comma | colon
  | kIf | kElse | kWhile | kDo | kFor | kSwitch | kCase | kDefault | kBreak | kContinue | kReturn
  | e (x : E)
  | lit (h : Word32)
deriving DecidableEq, Repr

mutual
/-- What the parser emits code for.  `pop` is an expression statement without expression: only
`O_PopOne` is emitted.  A condition `none` is a condition without expression: only the branch is
emitted. -/
inductive P where
  | skip
  | pop
  | ex (x : E)
  | seq (s t : P)
  | ifThen (c : Option E) (s : P)
  | ifElse (c : Option E) (s t : P)
  | loop (c : Option E) (s : P)
  | doLoop (s : P) (c : Option E)
  | forLoop (init : List (Option E)) (c : Option E) (post : List (Option E)) (s : P)
  | each (vars : List Nat) (a : Nat) (s : P)
  | brk
  | cont
  | ret (x : Option E)
  | switch (sel : Option E) (b : PB)
/-- The body of a switch. -/
inductive PB where
  | nil
  | case (h : Word32) (b : PB)
  | dflt (b : PB)
  | stmt (s : P) (b : PB)
end

/-- The tokens at which `parseExpression` stops, cc/expression.cpp 101-105. -/
def Tok.ends : Tok → Bool
  | .semi => true
  | .rp => true
  | .rb => true
  | .comma => true
  | .colon => true
  | _ => false

/-- `parseExpression`, cc/expression.cpp 60-614: the expression, the token that ends it, the rest.
Without an expression the code is empty and there is no error (101-105, 566, and cc/cc.cpp 1085-1140
with no context at all).  A name and `:` is a label (502-542). -/
def pEx : List Tok → Option (Option E × Tok × List Tok)
  | .e (.nm _) :: .colon :: _ => none
  | .e x :: t :: r => if t.ends = true then some (some x, t, r) else none
  | t :: r => if t.ends = true then some (none, t, r) else none
  | [] => none

/-- `getSingleValueHash`, cc/cc.cpp 2589-2616.  After an opening parenthesis the closing one takes the
place of the token asked for. -/
def pVal (stop : Tok) : List Tok → Option (Word32 × List Tok)
  | .lp :: r => pVal .rp r
  | .lit h :: t :: r => if t = stop then some (h, r) else none
  | _ => none

/-- The setup of a `for`, cc/cc.cpp 2127-2254: the expressions, the array if it is a for-each, the
rest. -/
def pInit : List Tok → Option (List (Option E) × Option Nat × List Tok)
  | .semi :: r => some ([], none, r)
  | .comma :: r => (pInit r).map fun (l, a, r) => (none :: l, a, r)
  | .e x :: .semi :: r => some ([some x], none, r)
  | .e x :: .comma :: r => (pInit r).map fun (l, a, r) => (some x :: l, a, r)
  | .e x :: .colon :: .e (.nm a) :: .rp :: r => some ([some x], some a, r)
  | _ => none

/-- The condition of a `for`, cc/cc.cpp 2311-2339. -/
def pCond : List Tok → Option (Option E × List Tok)
  | .semi :: r => some (none, r)
  | .e x :: .semi :: r => some (some x, r)
  | _ => none

/-- The post code of a `for`, cc/cc.cpp 2342-2379. -/
def pPost : List Tok → Option (List (Option E) × List Tok)
  | .rp :: r => some ([], r)
  | .comma :: r => (pPost r).map fun (l, r) => (none :: l, r)
  | .e x :: .rp :: r => some ([some x], r)
  | .e x :: .comma :: r => (pPost r).map fun (l, r) => (some x :: l, r)
  | _ => none

/-- The variables of a for-each, `foreachPossible` and `foreachLoadI`, cc/cc.cpp 2151-2181, 2215-2227:
one or two plain names. -/
def eachVars : List (Option E) → Option (List Nat)
  | [some (.nm v)] => some [v]
  | [some (.nm k), some (.nm v)] => some [k, v]
  | _ => none

/-- A parenthesized expression: `(`, the expression, `)`. -/
def pParen : List Tok → Option (Option E × List Tok)
  | .lp :: r =>
    match pEx r with
    | some (c, .rp, r) => some (c, r)
    | _ => none
  | _ => none

/-- The header of a `for`. -/
inductive Head where
  | plain (init : List (Option E)) (c : Option E) (post : List (Option E))
  | each (vars : List Nat) (a : Nat)

/-- cc/cc.cpp 2082-2380 without the body. -/
def pHead : List Tok → Option (Head × List Tok)
  | .lp :: r =>
    match pInit r with
    | some (l, some a, r) => (eachVars l).map fun vs => (.each vs a, r)
    | some (l, none, r) =>
      (pCond r).bind fun (c, r) => (pPost r).map fun (p, r) => (.plain l c p, r)
    | none => none
  | _ => none

mutual
/-- `parseStatement`, cc/cc.cpp 3036-3263; `b` is whether `end` is `}`, otherwise it is `;`. -/
def pStmt : Nat → Bool → List Tok → Option (P × List Tok)
  | 0, _, _ => none
  | n + 1, b, ts =>
    match ts with
    | [] => if b = true then none else some (.skip, [])         -- 3047-3056
    | .semi :: r =>
      if b = true then                                          -- 3234-3254
        (pStmt n b r).map fun (t, r) => (.seq .pop t, r)
      else some (.skip, r)                                      -- 3058-3061
    | .rb :: r => if b = true then some (.skip, r) else none    -- 3058-3061
    | .lb :: r => pStmt n true r                                -- 3072-3075
    | t :: r =>
      (pOne n (t :: r)).bind fun (s, r) =>
        if b = true then (pStmt n b r).map fun (t, r) => (.seq s t, r)
        else some (s, r)                                        -- 3256-3259
/-- One statement: the chain of keywords of `parseStatement`, cc/cc.cpp 3077-3254. -/
def pOne : Nat → List Tok → Option (P × List Tok)
  | 0, _ => none
  | n + 1, ts =>
    match ts with
    | .kIf :: r =>                                              -- parseIf 2961-3033
      (pParen r).bind fun (c, r) => (pStmt n false r).bind fun (s, r) =>
        match r with
        | .kElse :: r => (pStmt n false r).map fun (t, r) => (.ifElse c s t, r)
        | _ => some (.ifThen c s, r)
    | .kWhile :: r =>                                           -- parseWhile 1947-2001
      (pParen r).bind fun (c, r) => (pStmt n false r).map fun (s, r) => (.loop c s, r)
    | .kDo :: r =>                                              -- parseDoWhile 2004-2073
      (pStmt n false r).bind fun (s, r) =>
        match r with
        | .kWhile :: r => (pParen r).bind fun (c, r) =>
          match r with
          | .semi :: r => some (.doLoop s c, r)
          | _ => none
        | _ => none
    | .kFor :: r =>                                             -- parseForLoop 2076-2405
      (pHead r).bind fun (h, r) => (pStmt n false r).map fun (s, r) =>
        match h with
        | .plain l c p => (.forLoop l c p s, r)
        | .each vs a => (.each vs a s, r)
    | .kSwitch :: r =>                                          -- parseSwitch 2656-2768
      (pParen r).bind fun (c, r) =>
        match r with
        | .lb :: r => (pBody n r).map fun (b, r) => (.switch c b, r)
        | _ => none
    | .kBreak :: r => some (.brk, r)                            -- 3178-3187
    | .kContinue :: r => some (.cont, r)                        -- 3188-3197
    | .kReturn :: .semi :: r => some (.ret none, r)             -- 3077-3109
    | .kReturn :: r =>
      match pEx r with
      | some (x, .semi, r) => some (.ret x, r)
      | _ => none
    | r =>                                                      -- 3232-3254
      match pEx r with
      | some (some x, .semi, r) => some (.ex x, r)
      | some (none, .semi, r) => some (.pop, r)
      | _ => none
/-- The loop over the body of a switch, cc/cc.cpp 2700-2768.  That a statement needs a label before
it, and that no label is repeated, is checked by `Flow.compileBody`. -/
def pBody : Nat → List Tok → Option (PB × List Tok)
  | 0, _ => none
  | n + 1, ts =>
    match ts with
    | [] => none
    | .rb :: r => some (.nil, r)
    | .kCase :: r => (pVal .colon r).bind fun (h, r) => (pBody n r).map fun (b, r) => (.case h b, r)
    | .kDefault :: .colon :: r => (pBody n r).map fun (b, r) => (.dflt b, r)
    | .kDefault :: _ => none
    | r => (pStmt n false r).bind fun (s, r) => (pBody n r).map fun (b, r) => (.stmt s b, r)
end

/-- The loop over the top level, cc/cc.cpp 93-108. -/
def pTop : Nat → List Tok → Option P
  | 0, _ => none
  | n + 1, ts =>
    match ts with
    | [] => some .skip
    | t :: r => (pStmt n false (t :: r)).bind fun (s, r) => (pTop n r).map fun t => .seq s t

/-- The body of a function, cc/cc.cpp 1932: everything up to the closing brace. -/
def parse (ts : List Tok) : Option (P × List Tok) := pStmt (8 * ts.length + 8) true ts

/-- The top level of a program. -/
def program (ts : List Tok) : Option P := pTop (8 * ts.length + 8) ts

/-! ### The code -/

/-- What expressions do to the state of the program.  `junk` is the truth value, hash or return value of
whatever happens to be on the stack. -/
structure Env (σ ρ : Type) where
  act : E → σ → σ
  test : E → σ → Bool × σ
  hash : E → σ → Word32 × σ
  result : Option E → σ → ρ × σ
  start : Nat → σ → σ
  next : List Nat → Nat → σ → Bool × σ
  junk : σ → Bool
  junkHash : σ → Word32

/-- The state while a unit runs: how far the top of the stack is above where it was when the unit was
entered, and the state of the program. -/
abbrev Lv (σ : Type) := Int × σ

variable {σ ρ : Type}

/-- An expression statement: an expression leaves one value, `O_PopOne` takes one
(cc/cc.cpp 3252-3253, vm/vm.cpp 1241-1245). -/
def Env.stmt (v : Env σ ρ) : Option E → Lv σ → Lv σ
  | some x, s => (s.1, v.act x s.2)
  | none, s => (s.1 - 1, s.2)

/-- A condition: an expression leaves one value, the branch takes one. -/
def Env.cond (v : Env σ ρ) : Option E → Lv σ → Bool × Lv σ
  | some x, s => ((v.test x s.2).1, s.1, (v.test x s.2).2)
  | none, s => (v.junk s.2, s.1 - 1, s.2)

/-- The selector of a switch. -/
def Env.sel (v : Env σ ρ) : Option E → Lv σ → Word32 × Lv σ
  | some x, s => ((v.hash x s.2).1, s.1, (v.hash x s.2).2)
  | none, s => (v.junkHash s.2, s.1 - 1, s.2)

mutual
/-- A parsed statement as a statement of Flow/Model.lean, which says what its code is. -/
def P.flow (v : Env σ ρ) : P → Flow.Stmt (Lv σ) ρ
  | .skip => .skip
  | .pop => .act (v.stmt none)
  | .ex x => .act (v.stmt (some x))
  | .seq s t => .seq (s.flow v) (t.flow v)
  | .ifThen c s => .ifThen (v.cond c) (s.flow v)
  | .ifElse c s t => .ifElse (v.cond c) (s.flow v) (t.flow v)
  | .loop c s => .loop (v.cond c) (s.flow v)
  | .doLoop s c => .doLoop (s.flow v) (v.cond c)
  | .forLoop i c p s =>
    .forLoop (i.map v.stmt) (c.map fun x => v.cond (some x)) (p.map v.stmt) (s.flow v)
  | .each vs a s =>
    .each (fun x => (x.1, v.start a x.2)) (fun x => ((v.next vs a x.2).1, x.1, (v.next vs a x.2).2)) (s.flow v)
  | .brk => .brk
  | .cont => .cont
  | .ret r => .ret fun x => ((v.result r x.2).1, x.1, (v.result r x.2).2)
  | .switch c b => .switch (v.sel c) (b.flow v)
def PB.flow (v : Env σ ρ) : PB → Flow.Body (Lv σ) ρ
  | .nil => .nil
  | .case h b => .case h (b.flow v)
  | .dflt b => .dflt (b.flow v)
  | .stmt s b => .stmt (s.flow v) (b.flow v)
end

end Wrench.Stmts
