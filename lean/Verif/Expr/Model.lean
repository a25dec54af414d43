/-
Compilation of infix expressions: `WRCompilationContext::operatorFound`,
`resolveExpression`, `resolveExpressionEx`, `loadExpressionContext`
(discrete_src/cc/cc.cpp 968-1418), `WRExpression::swapWithTop` (cc.cpp 1050-1082),
`pushToStack` (cc/cc.h 273-314), and the stack instructions they emit
(`StackSwap`, `SwapTwoToTop`, discrete_src/vm/vm.cpp 1385-1426).

Operands (labels, literals, parenthesised sub-expressions, calls) are leaves that load one
value; the operators are those of the table without side effects.  Left out: assignment,
`++`/`--`, `.`, indexing, `new`, initialisers.  The peephole rewriting done by
`pushOpcode`/`appendBytecode` is not part of this model.
-/
namespace Wrench.Expr

/-- Binary operators of `c_operations` (cc.h 64-130) without side effects. -/
inductive Bin where
  | eq | ne | ge | le | gt | lt | land | lor
  | add | sub | mul | div | mod | or | and | xor | shr | shl
deriving DecidableEq, Repr

/-- Prefix operators: `!`, `~`, `-`, `(int)`, `(float)`. -/
inductive Pre where
  | lnot | bnot | neg | toInt | toFloat
deriving DecidableEq, Repr

/-- Postfix operators: `._count`, `._hash`. -/
inductive Post where
  | count | hash
deriving DecidableEq, Repr

/-- `WROperationType` together with the opcode of the table row. -/
inductive Oper where
  | pre (u : Pre)
  | bin (b : Bin)
  | post (q : Post)
deriving DecidableEq, Repr

/-- Operator tokens of the source.  `-` is one token for two table rows. -/
inductive Sym where
  | eq | ne | ge | le | gt | lt | land | lor
  | plus | minus | star | slash | percent | bar | amp | caret | shr | shl
  | bang | tilde | castInt | castFloat | count | hash
deriving DecidableEq, Repr

/-- The rows of `c_operations` (cc.h 64-130), in table order. -/
def table : List (Sym × Oper) :=
  [ (.eq, .bin .eq), (.ne, .bin .ne), (.ge, .bin .ge), (.le, .bin .le), (.gt, .bin .gt),
    (.lt, .bin .lt), (.land, .bin .land), (.lor, .bin .lor),
    (.bang, .pre .lnot), (.tilde, .pre .bnot), (.minus, .pre .neg),
    (.plus, .bin .add), (.minus, .bin .sub), (.star, .bin .mul), (.slash, .bin .div),
    (.percent, .bin .mod), (.bar, .bin .or), (.amp, .bin .and), (.caret, .bin .xor),
    (.shr, .bin .shr), (.shl, .bin .shl),
    (.castInt, .pre .toInt), (.castFloat, .pre .toFloat),
    (.count, .post .count), (.hash, .post .hash) ]

/-- Column `precedence`. -/
def Bin.prec : Bin → Nat
  | .eq => 10 | .ne => 10 | .ge => 9 | .le => 9 | .gt => 9 | .lt => 9
  | .land => 14 | .lor => 15 | .add => 6 | .sub => 6 | .mul => 5 | .div => 5 | .mod => 6
  | .or => 13 | .and => 11 | .xor => 11 | .shr => 7 | .shl => 7

/-- Column `type`: `WR_OPER_BINARY_COMMUTE`. -/
def Bin.commute : Bin → Bool
  | .eq | .ne | .land | .lor | .mul | .or | .and | .xor => true
  | _ => false

/-- Column `alt`. -/
def Bin.alt : Bin → Option Bin
  | .ge => some .le | .le => some .ge | .gt => some .lt | .lt => some .gt
  | _ => none

def Oper.prec : Oper → Nat
  | .pre _ => 3
  | .bin b => b.prec
  | .post _ => 2

/-- Column `L2R`. -/
def Oper.l2r : Oper → Bool
  | .pre _ => false
  | _ => true

/-- A source token: an operand or an operator symbol. -/
inductive Tok (V : Type) where
  | val (v : V)
  | sym (s : Sym)

/-- `EXTYPE_…` of a context (cc.h 132-143): unloaded operand, operator, resolved. -/
inductive Kind (V : Type) where
  | operand (v : V)
  | oper (o : Oper)
  | resolved

/-- `WRExpressionContext`: kind and `stackPosition` (`none` = -1). -/
structure Ctx (V : Type) where
  kind : Kind V
  pos : Option Nat

/-- Emitted instructions. -/
inductive Instr (V : Type) where
  | load (v : V)
  | stackSwap (n : Nat)
  | swapTwoToTop (a b : Nat)
  | app (o : Oper)

structure Ex (V : Type) where
  ctx : List (Ctx V)
  code : List (Instr V)

variable {V : Type}

/-! ### Tokens to contexts -/

/-- The skip test of `operatorFound`, cc.cpp 1399-1405: a prefix row is skipped unless it
comes first or directly after a binary operator. -/
def preAllowed (prev : Option (Ctx V)) : Bool :=
  match prev with
  | none => true
  | some c => match c.kind with
    | .oper (.bin _) => true
    | _ => false

/-- `operatorFound`, cc.cpp 1393-1418: the first admissible row. -/
def operatorFound (prev : Option (Ctx V)) (s : Sym) : Option Oper :=
  (table.find? fun row => row.1 == s && (match row.2 with
    | .pre _ => preAllowed prev
    | _ => true)).map (·.2)

/-- The token loop of `parseExpression`, expression.cpp 67-160 (operands are taken as
given, two operands in a row are refused, lines 77-84).  `none` = compile error. -/
def toContexts (prev : Option (Ctx V)) : List (Tok V) → Option (List (Ctx V))
  | [] => some []
  | .val v :: ts =>
    match prev with
    | some ⟨.operand _, _⟩ => none
    | _ => (toContexts (some ⟨.operand v, none⟩) ts).map (⟨.operand v, none⟩ :: ·)
  | .sym s :: ts =>
    match operatorFound prev s with
    | none => none
    | some o => (toContexts (some ⟨.oper o, none⟩) ts).map (⟨.oper o, none⟩ :: ·)

/-! ### Stack bookkeeping -/

/-- The compaction loop of `pushToStack`, cc.h 288-313. -/
def compact : Nat → Nat → Nat → List (Ctx V) → List (Ctx V)
  | 0, _, _, cs => cs
  | f + 1, h, highest, cs =>
    if h < highest then
      if cs.any (fun c => c.pos == some h) then compact f (h + 1) highest cs
      else compact f h (highest - 1)
        (cs.map fun c => { c with pos := c.pos.map fun p => if p > h then p - 1 else p })
    else cs

/-- `pushToStack`, cc.h 273-314.  The fuel bounds the number of loop rounds: each round
either advances `h` or lowers `highest`. -/
def pushToStack (index : Nat) (cs : List (Ctx V)) : List (Ctx V) :=
  let cs := cs.mapIdx fun i c =>
    if i = index then { c with pos := some 0 }
    else { c with pos := c.pos.map (· + 1) }
  let highest := cs.foldl (fun m c => max m (c.pos.getD 0)) 0
  compact (highest + 1) 0 highest cs

/-- The relabelling of `swapWithTop`, cc.cpp 1057-1071, 1080-1081.  (The loop keeps the last
match; positions are pairwise distinct, so there is only one.) -/
def relabel (p : Nat) (cs : List (Ctx V)) : List (Ctx V) :=
  cs.map fun c =>
    if c.pos = some p then { c with pos := some 0 }
    else if c.pos = some 0 then { c with pos := some p }
    else c

/-- `swapWithTop( stackPosition, addOpcodes )`, cc.cpp 1050-1082.  The operand is an
`unsigned char`. -/
def swapWithTop (p : Nat) (emit : Bool) (e : Ex V) : Ex V :=
  if p = 0 then e
  else { ctx := relabel p e.ctx,
         code := if emit then e.code ++ [.stackSwap ((p + 1) % 256)] else e.code }

/-- `loadExpressionContext`, cc.cpp 968-1047. -/
def load (depth : Nat) (e : Ex V) : Ex V :=
  let code := match (e.ctx[depth]?).map Ctx.kind with
    | some (.operand v) => e.code ++ [.load v]
    | _ => e.code
  { ctx := (pushToStack depth e.ctx).modify depth (fun c => { c with kind := .resolved }),
    code := code }

/-- `context[i].stackPosition`. -/
def posOf (e : Ex V) (i : Nat) : Option Nat := ((e.ctx[i]?).bind Ctx.pos)

/-- `swapWithTop( context[i].stackPosition, … )`. -/
def swapCtx (i : Nat) (emit : Bool) (e : Ex V) : Ex V :=
  match posOf e i with
  | some p => swapWithTop p emit e
  | none => e

def emit (i : Instr V) (e : Ex V) : Ex V := { e with code := e.code ++ [i] }

/-- Operand byte of a stack position. -/
def posByte (e : Ex V) (i : Nat) : Nat := ((posOf e i).getD 0 + 1) % 256

/-- The branch common to both binary kinds in which both operands are loaded and neither
is in place, cc.cpp 1222-1234, 1333-1345. -/
def swapBoth (first second : Nat) (e : Ex V) : Ex V :=
  let e := emit (.swapTwoToTop (posByte e first) (posByte e second)) e
  let e := swapCtx second false e
  let e := swapWithTop 1 false e
  swapCtx first false e

/-- Operand placement for `WR_OPER_BINARY_COMMUTE`, cc.cpp 1183-1235. -/
def placeCommute (first second : Nat) (e : Ex V) : Ex V :=
  match posOf e second, posOf e first with
  | none, none => load second (load first e)
  | none, some p => load second (swapWithTop p true e)
  | some s, none => load first (swapWithTop s true e)
  | some s, some f =>
    if s = 1 then swapWithTop f true e
    else if f = 1 then swapWithTop s true e
    else swapBoth first second e

/-- Operand placement for `WR_OPER_BINARY`, cc.cpp 1263-1345; the flag is `useAlt`. -/
def placeBinary (b : Bin) (first second : Nat) (e : Ex V) : Ex V × Bool :=
  match posOf e second, posOf e first with
  | none, none => (load first (load second e), false)
  | none, some p =>
    let e := load second (swapWithTop p true e)
    if b.alt.isNone then (swapWithTop 1 true e, false) else (e, true)
  | some s, none => (load first (swapWithTop s true e), false)
  | some s, some f =>
    if s = 1 then (if f ≠ 0 then swapWithTop f true e else e, false)
    else if s = 0 then
      if f = 1 then (swapWithTop 1 true e, false)
      else
        let e := emit (.swapTwoToTop (posByte e first) 2) e
        let e := swapWithTop 1 false e
        (swapCtx first false e, false)
    else (swapBoth first second e, false)

/-- `resolveExpressionEx`, cc.cpp 1143-1390, for the operator at context `o`: the new
expression and the number of contexts consumed; `none` = `m_err` or a context index out of
range. -/
def resolveEx (e : Ex V) (o : Nat) : Option (Ex V × Nat) :=
  match (e.ctx[o]?).map Ctx.kind with
  | some (.oper (.pre u)) =>
    if o + 1 < e.ctx.length then
      let e := match posOf e (o + 1) with
        | none => load (o + 1) e
        | some p => swapWithTop p true e
      let e := emit (.app (.pre u)) e
      some ({ e with ctx := pushToStack o (e.ctx.eraseIdx o) }, 1)
    else none
  | some (.oper (.bin b)) =>
    if o = 0 then none
    else if o + 1 < e.ctx.length then
      let (e, useAlt) := if b.commute then (placeCommute (o - 1) (o + 1) e, false)
        else placeBinary b (o - 1) (o + 1) e
      let e := emit (.app (.bin (if useAlt then b.alt.getD b else b))) e
      some ({ e with ctx := pushToStack (o - 1) ((e.ctx.eraseIdx (o - 1)).eraseIdx (o - 1)) }, 2)
    else none
  | some (.oper (.post q)) =>
    if o = 0 then none
    else
      let e := match posOf e (o - 1) with
        | none => load (o - 1) e
        | some p => swapWithTop p true e
      let e := emit (.app (.post q)) e
      some ({ e with ctx := pushToStack (o - 1) (e.ctx.eraseIdx o) }, 1)
  | _ => none

/-- Does the pass for level `p` and direction `l2r` take this context? (cc.cpp 1100-1105,
1117-1122) -/
def takes (p : Nat) (l2r : Bool) (c : Ctx V) : Bool :=
  match c.kind with
  | .oper o => o.prec ≤ p && o.l2r == l2r
  | _ => false

/-- Index of the last context satisfying a test. -/
def findLast? (t : Ctx V → Bool) (cs : List (Ctx V)) : Option Nat :=
  match cs.reverse.findIdx? t with
  | some i => some (cs.length - 1 - i)
  | none => none

/-- The inner loops of `resolveExpression`, cc.cpp 1098-1130: leftmost (`l2r`) or rightmost
candidate, restarting after every resolution. -/
def pass (p : Nat) (l2r : Bool) : Nat → Ex V × Nat → Option (Ex V × Nat)
  | 0, s => some s
  | f + 1, (e, n) =>
    match (if l2r then e.ctx.findIdx? (takes p true) else findLast? (takes p false) e.ctx) with
    | none => some (e, n)
    | some o =>
      match resolveEx e o with
      | none => none
      | some (e', k) => pass p l2r f (e', n + k)

/-- The loop over precedence levels, cc.cpp 1096-1131 (`c_highestPrecedence = 17`). -/
def levels : List Nat → Ex V × Nat → Option (Ex V × Nat)
  | [], s => some s
  | p :: ps, (e, n) =>
    if e.ctx.length > 1 then
      match pass p true e.ctx.length (e, n) with
      | none => none
      | some s =>
        match pass p false s.1.ctx.length s with
        | none => none
        | some s => levels ps s
    else some (e, n)

/-- `resolveExpression`, cc.cpp 1085-1140. -/
def resolveExpression (cs : List (Ctx V)) : Option (List (Instr V)) :=
  match cs with
  | [_] => some (load 0 ⟨cs, []⟩).code
  | _ =>
    match levels (List.range 17) (⟨cs, []⟩, 1) with
    | none => none
    | some (e, n) => if cs.length ≠ 0 ∧ n ≠ cs.length then none else some e.code

/-- `parseExpression` on a token list. -/
def compile (ts : List (Tok V)) : Option (List (Instr V)) :=
  (toContexts none ts).bind resolveExpression

/-! ### The machine -/

/-- Exchange two positions of the stack (position 0 is the top). -/
def swapAt (i j : Nat) (st : List V) : Option (List V) :=
  match st[i]?, st[j]? with
  | some x, some y => some ((st.set i y).set j x)
  | _, _ => none

/-- What the operators compute. -/
structure Interp (V : Type) where
  pre : Pre → V → V
  post : Post → V → V
  bin : Bin → V → V → V

/-- One instruction.  `StackSwap`, vm.cpp 1385-1399: top with `stackTop - n`;
`SwapTwoToTop`, vm.cpp 1401-1426: top with `stackTop - a`, then `stackTop - 2` with
`stackTop - b`; binary operators take the top as first operand (vm.cpp 3136-3148). -/
def exec (I : Interp V) : Instr V → List V → Option (List V)
  | .load v, st => some (v :: st)
  | .stackSwap n, st => if n = 0 then none else swapAt 0 (n - 1) st
  | .swapTwoToTop a b, st =>
    if a = 0 ∨ b = 0 then none
    else (swapAt 0 (a - 1) st).bind (swapAt 1 (b - 1))
  | .app (.pre u), x :: st => some (I.pre u x :: st)
  | .app (.post q), x :: st => some (I.post q x :: st)
  | .app (.bin b), x :: y :: st => some (I.bin b x y :: st)
  | .app _, _ => none

def run (I : Interp V) : List (Instr V) → List V → Option (List V)
  | [], st => some st
  | i :: is, st => (exec I i st).bind (run I is)

end Wrench.Expr
