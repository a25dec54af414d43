/-
Compilation of expressions with the whole operator table: assignment, `++`/`--`, member access,
indexing, `._remove`, `._exists`, calls and parentheses.  `WRCompilationContext::parseExpression`
(discrete_src/cc/expression.cpp 60-614), `parseCallFunction`, `operatorFound`, `loadExpressionContext`,
`resolveExpression`, `resolveExpressionEx` (cc/cc.cpp 968-1487), `pushToStack`, `swapWithTop`.

What is kept of an instruction is what it does to the height of the stack.  The order of instructions, what
is emitted for what, and what is refused are the code's.  (Values are the subject of Verif/Expr/Model.lean, C28,
for the operators without side effects.)

Simplified: operands are variables, literals, parentheses and calls; `new`, initializers `{ … }`, `var`,
`blank`, labels and the declaration `a[n];` are left out.  Instructions are those before the peephole
rules (C25) join them; the one refusal made there, for `.`, is kept (`dotOk`).
-/
namespace Wrench.Full

inductive Bin where
  | eq | ne | ge | le | gt | lt | land | lor
  | add | sub | mul | div | mod | or | and | xor | shr | shl
  | addA | subA | modA | mulA | divA | orA | andA | xorA | shrA | shlA | assign
  | dot
deriving DecidableEq, Repr

inductive Pre where
  | inc | dec | lnot | bnot | neg | toInt | toFloat
deriving DecidableEq, Repr

inductive Post where
  | inc | dec | count | hash
  /-- `@[]`, `._remove`, `._exists`: these have a key. -/
  | index | remove | exist
deriving DecidableEq, Repr

def Post.keyed : Post → Bool
  | .index | .remove | .exist => true
  | _ => false

/-- Operator tokens. -/
inductive Sym where
  | eq | ne | ge | le | gt | lt | land | lor
  | incr | decr | dot | bang | tilde | plus | minus | star | slash | percent | bar | amp | caret | shr | shl
  | addA | subA | modA | mulA | divA | orA | andA | xorA | shrA | shlA | assign
  | castInt | castFloat | index | count | hash | remove | exist
deriving DecidableEq, Repr

inductive Row where
  | pre (u : Pre)
  | bin (b : Bin)
  | post (q : Post)
deriving DecidableEq, Repr

/-- The rows of `c_operations`, cc/cc.h 64-125, in table order (without `@init` and the marker). -/
def table : List (Sym × Row) :=
  [ (.eq, .bin .eq), (.ne, .bin .ne), (.ge, .bin .ge), (.le, .bin .le), (.gt, .bin .gt), (.lt, .bin .lt),
    (.land, .bin .land), (.lor, .bin .lor),
    (.incr, .pre .inc), (.incr, .post .inc), (.decr, .pre .dec), (.decr, .post .dec),
    (.dot, .bin .dot), (.bang, .pre .lnot), (.tilde, .pre .bnot), (.minus, .pre .neg),
    (.plus, .bin .add), (.minus, .bin .sub), (.star, .bin .mul), (.slash, .bin .div), (.percent, .bin .mod),
    (.bar, .bin .or), (.amp, .bin .and), (.caret, .bin .xor), (.shr, .bin .shr), (.shl, .bin .shl),
    (.addA, .bin .addA), (.subA, .bin .subA), (.modA, .bin .modA), (.mulA, .bin .mulA), (.divA, .bin .divA),
    (.orA, .bin .orA), (.andA, .bin .andA), (.xorA, .bin .xorA), (.shrA, .bin .shrA), (.shlA, .bin .shlA),
    (.assign, .bin .assign), (.castInt, .pre .toInt), (.castFloat, .pre .toFloat), (.index, .post .index),
    (.count, .post .count), (.hash, .post .hash), (.remove, .post .remove), (.exist, .post .exist) ]

/-- Columns `precedence` and `L2R` of the rows, cc/cc.h 68-122. -/
def Bin.prec : Bin → Nat
  | .eq | .ne => 10
  | .ge | .le | .gt | .lt => 9
  | .land => 14
  | .lor => 15
  | .dot => 2
  | .add | .sub | .mod => 6
  | .mul | .div => 5
  | .or => 13
  | .and | .xor => 11
  | .shr | .shl => 7
  | _ => 16

def Bin.l2r : Bin → Bool
  | .shrA | .shlA | .assign => false
  | _ => true

/-- Column `type` is `WR_OPER_BINARY_COMMUTE`. -/
def Bin.commute : Bin → Bool
  | .eq | .ne | .land | .lor | .mul | .or | .and | .xor => true
  | _ => false

/-- Column `alt` is not `O_LAST`. -/
def Bin.hasAlt : Bin → Bool
  | .ge | .le | .gt | .lt => true
  | _ => false

def Row.prec : Row → Nat
  | .pre _ => 3
  | .bin b => b.prec
  | .post _ => 2

def Row.l2r : Row → Bool
  | .pre .inc | .pre .dec => true
  | .pre _ => false
  | .bin b => b.l2r
  | .post _ => true

/-- Tokens, as far as the name after a `.` depends on them. -/
inductive Tok where
  | name (n : Nat)
  | num (n : Nat)
  | punct
deriving DecidableEq, Repr

/-- Instructions. -/
inductive I where
  /-- `LoadFromLocal`, `LoadFromGlobal`. -/
  | var (n : Nat)
  /-- Literals and library constants. -/
  | lit (n : Nat)
  /-- The literal hash of the token after a `.`. -/
  | name (t : Tok)
  | swap (n : Nat)
  | swap2 (a b : Nat)
  | un (u : Pre)
  | bin (b : Bin) (alt : Bool)
  | post (q : Post)
  | deref
  | call (f n : Nat)
deriving DecidableEq, Repr

/-- What an instruction does to the height of the stack; `none`: it takes a value that is not there.
vm.cpp: `StackSwap` 1385-1399, `SwapTwoToTop` 1401-1426, `Assign` 1862-1867, `Index` 1315-1325,
`Remove` 1199-1228, `HashEntryExists` 1230-1239, `CountOf`, `HashOf` 1327-1340, `ToInt` 1271-1277, `Negate`
1501-1506, `BinaryAddition` and the others 3133-3148.  A call takes its arguments and leaves one value (C33). -/
def I.eff : I → Nat → Option Nat
  | .var _, d | .lit _, d | .name _, d => some (d + 1)
  | .swap n, d => if 1 ≤ n ∧ n ≤ d then some d else none
  | .swap2 a b, d => if 1 ≤ a ∧ a ≤ d ∧ 1 ≤ b ∧ b ≤ d ∧ 2 ≤ d then some d else none
  | .un _, d | .deref, d => if 1 ≤ d then some d else none
  | .bin _ _, d => if 2 ≤ d then some (d - 1) else none
  | .post q, d => if q.keyed then (if 2 ≤ d then some (d - 1) else none) else if 1 ≤ d then some d else none
  | .call _ n, d => if n ≤ d then some (d - n + 1) else none

def height : List I → Nat → Option Nat
  | [], d => some d
  | i :: is, d => (i.eff d).bind (height is)

/-- `EXTYPE_LABEL`, `EXTYPE_LITERAL`, `EXTYPE_BYTECODE_RESULT`. -/
inductive Cls where
  | label | literal | result
deriving DecidableEq, Repr

/-- An operand: the code that loads it (a variable's load, a literal, the code of a parenthesis or call), and its
token. -/
structure Opd where
  code : List I
  tok : Tok
  cls : Cls

/-- `EXTYPE_…`, cc/cc.h 132-143; a post operator carries the code of its key. -/
inductive Kind where
  | empty
  | operand (o : Opd)
  | oper (r : Row) (key : List I)
  | resolved

/-- `WRExpressionContext`: type and `stackPosition` (`none` is -1). -/
structure Ctx where
  kind : Kind
  pos : Option Nat

structure Ex where
  ctx : List Ctx
  code : List I

/-! ### Stack bookkeeping -/

/-- The compaction loop of `pushToStack`, cc/cc.h 288-313. -/
def compact : Nat → Nat → Nat → List Ctx → List Ctx
  | 0, _, _, cs => cs
  | f + 1, h, highest, cs =>
    if h < highest then
      if cs.any (fun c => c.pos == some h) then compact f (h + 1) highest cs
      else compact f h (highest - 1) (cs.map fun c => { c with pos := c.pos.map fun p => if p > h then p - 1 else p })
    else cs

/-- `pushToStack`, cc/cc.h 273-314. -/
def pushToStack (index : Nat) (cs : List Ctx) : List Ctx :=
  let cs := cs.mapIdx fun i c => if i = index then { c with pos := some 0 } else { c with pos := c.pos.map (· + 1) }
  let highest := cs.foldl (fun m c => max m (c.pos.getD 0)) 0
  compact (highest + 1) 0 highest cs

/-- The exchange of labels in `swapWithTop`, cc.cpp 1057-1071, 1080-1081. -/
def relabel (p : Nat) (cs : List Ctx) : List Ctx :=
  cs.map fun c =>
    if c.pos = some p then { c with pos := some 0 } else if c.pos = some 0 then { c with pos := some p } else c

/-- `swapWithTop`, cc.cpp 1050-1082. -/
def swapWithTop (p : Nat) (emit : Bool) (e : Ex) : Ex :=
  if p = 0 then e
  else { ctx := relabel p e.ctx, code := if emit then e.code ++ [.swap ((p + 1) % 256)] else e.code }

def Kind.tok : Kind → Tok
  | .operand o => o.tok
  | _ => .punct

def Kind.code : Kind → List I
  | .operand o => o.code
  | _ => []

def kindAt (cs : List Ctx) (i : Nat) : Kind := ((cs[i]?).map Ctx.kind).getD .empty

/-- `loadExpressionContext`, cc.cpp 968-1047; `dot`: it is the right operand of a `.` (lines 970-980). -/
def load (depth : Nat) (dot : Bool) (e : Ex) : Ex :=
  { ctx := (pushToStack depth e.ctx).modify depth fun c => { c with kind := .resolved },
    code := e.code ++ if dot then [.name (kindAt e.ctx depth).tok] else (kindAt e.ctx depth).code }

/-- `context[i].stackPosition`. -/
def posOf (e : Ex) (i : Nat) : Option Nat := (e.ctx[i]?).bind Ctx.pos

def swapCtx (i : Nat) (emit : Bool) (e : Ex) : Ex :=
  match posOf e i with
  | some p => swapWithTop p emit e
  | none => e

def emit (is : List I) (e : Ex) : Ex := { e with code := e.code ++ is }

def posByte (e : Ex) (i : Nat) : Nat := ((posOf e i).getD 0 + 1) % 256

/-- cc.cpp 1222-1234, 1333-1345. -/
def swapBoth (first second : Nat) (e : Ex) : Ex :=
  let e := emit [.swap2 (posByte e first) (posByte e second)] e
  let e := swapCtx second false e
  let e := swapWithTop 1 false e
  swapCtx first false e

/-- `WR_OPER_BINARY_COMMUTE`, cc.cpp 1183-1235. -/
def placeCommute (first second : Nat) (e : Ex) : Ex :=
  match posOf e second, posOf e first with
  | none, none => load second false (load first false e)
  | none, some p => load second false (swapWithTop p true e)
  | some s, none => load first false (swapWithTop s true e)
  | some s, some f =>
    if s = 1 then swapWithTop f true e
    else if f = 1 then swapWithTop s true e
    else swapBoth first second e

/-- `WR_OPER_BINARY`, cc.cpp 1263-1345; the flag is `useAlt`. -/
def placeBinary (b : Bin) (first second : Nat) (e : Ex) : Ex × Bool :=
  match posOf e second, posOf e first with
  | none, none => (load first false (load second (b == .dot) e), false)
  | none, some p =>
    let e := load second (b == .dot) (swapWithTop p true e)
    if b.hasAlt then (e, true) else (swapWithTop 1 true e, false)
  | some s, none => (load first false (swapWithTop s true e), false)
  | some s, some f =>
    if s = 1 then (if f ≠ 0 then swapWithTop f true e else e, false)
    else if s = 0 then
      if f = 1 then (swapWithTop 1 true e, false)
      else
        let e := emit [.swap2 (posByte e first) 2] e
        let e := swapWithTop 1 false e
        (swapCtx first false e, false)
    else (swapBoth first second e, false)

/-- Access to a context that does not exist makes one (`WRarray::get`, utils/utils.h 229-242). -/
def grow (i : Nat) (cs : List Ctx) : List Ctx := cs ++ List.replicate (i + 1 - cs.length) ⟨.empty, none⟩

/-- `appendBytecode` of `.` needs a name followed by the load of a variable or a swap, otherwise
`WR_ERR_compiler_panic`; cc/optimizer.cpp 1534-1588. -/
def dotOk (code : List I) : Bool :=
  match code.reverse with
  | .var _ :: .name _ :: _ => true
  | .swap _ :: .name _ :: _ => true
  | _ => false

/-- The operand of a prefix or postfix operator is loaded, or brought to the top; cc.cpp 1152-1159, 1369-1376. -/
def bringUp (i : Nat) (e : Ex) : Ex :=
  match posOf e i with
  | none => load i false e
  | some p => swapWithTop p true e

/-- `resolveExpressionEx`, cc.cpp 1143-1390; `none`: `m_err`. -/
def resolveEx (e : Ex) (o : Nat) : Option (Ex × Nat) :=
  match kindAt e.ctx o with
  | .oper (.pre u) _ =>
    let e := { e with ctx := grow (o + 1) e.ctx }
    let e := emit [.un u] (bringUp (o + 1) e)
    some ({ e with ctx := pushToStack o (e.ctx.eraseIdx o) }, 1)
  | .oper (.bin b) _ =>
    if o = 0 then none
    else
      let e := { e with ctx := grow (o + 1) e.ctx }
      let x := if b.commute then (placeCommute (o - 1) (o + 1) e, false) else placeBinary b (o - 1) (o + 1) e
      if b = .dot ∧ dotOk x.1.code = false then none
      else
        let e := emit [.bin b x.2] x.1
        some ({ e with ctx := pushToStack (o - 1) ((e.ctx.eraseIdx (o - 1)).eraseIdx (o - 1)) }, 2)
  | .oper (.post q) key =>
    if o = 0 then none
    else
      let e := emit (key ++ [.post q]) (bringUp (o - 1) e)
      some ({ e with ctx := pushToStack (o - 1) (e.ctx.eraseIdx o) }, 1)
  | _ => none

/-- cc.cpp 1100-1105, 1117-1122. -/
def takes (p : Nat) (l2r : Bool) (c : Ctx) : Bool :=
  match c.kind with
  | .oper r _ => r.prec ≤ p && r.l2r == l2r
  | _ => false

/-- Index of the last context satisfying a test. -/
def findLast? (t : Ctx → Bool) (cs : List Ctx) : Option Nat :=
  match cs.reverse.findIdx? t with
  | some i => some (cs.length - 1 - i)
  | none => none

def pick (p : Nat) (l2r : Bool) (cs : List Ctx) : Option Nat :=
  if l2r then cs.findIdx? (takes p true) else findLast? (takes p false) cs

/-- The inner loops of `resolveExpression`, cc.cpp 1098-1130. -/
def pass (p : Nat) (l2r : Bool) : Nat → Ex × Nat → Option (Ex × Nat)
  | 0, s => some s
  | f + 1, (e, n) =>
    match pick p l2r e.ctx with
    | none => some (e, n)
    | some o =>
      match resolveEx e o with
      | none => none
      | some (e', k) => pass p l2r f (e', n + k)

/-- cc.cpp 1096-1131. -/
def levels : List Nat → Ex × Nat → Option (Ex × Nat)
  | [], s => some s
  | p :: ps, (e, n) =>
    if e.ctx.length > 1 then
      match pass p true e.ctx.length (e, n) with
      | none => none
      | some s =>
        match pass p false s.1.ctx.length s with
        | none => none
        | some s => levels ps s
    else some (e, n)

/-- `resolveExpression`, cc.cpp 1085-1140. -/
def resolveExpression (cs : List Ctx) : Option (List I) :=
  match cs with
  | [_] => some (load 0 false ⟨cs, []⟩).code
  | _ =>
    match levels (List.range 17) (⟨cs, []⟩, 1) with
    | none => none
    | some (e, n) => if cs.length ≠ 0 ∧ n ≠ cs.length then none else some e.code

/-! ### The source -/

mutual
/-- Operands. -/
inductive Opnd where
  | var (n : Nat)
  | lit (n : Nat)
  | paren (e : Items)
  | call (f : Nat) (args : Args)

/-- The tokens of an expression, with what stands in brackets grouped. -/
inductive Items where
  | nil
  | opd (o : Opnd) (r : Items)
  | sym (s : Sym) (r : Items)
  /-- `[ e ]`, `._remove( e )`, `._exists( e )`. -/
  | key (q : Post) (e : Items) (r : Items)

/-- Arguments, as separated by commas. -/
inductive Args where
  | nil
  | cons (e : Items) (a : Args)
end

/-- cc.cpp 1399-1405: a prefix row is skipped unless it comes first or directly after a binary operator. -/
def preAllowed (prev : Option Kind) : Bool :=
  match prev with
  | none => true
  | some (.oper (.bin _) _) => true
  | _ => false

/-- `operatorFound`, cc.cpp 1393-1418. -/
def operatorFound (prev : Option Kind) (s : Sym) : Option Row :=
  (table.find? fun row => row.1 == s && (match row.2 with
    | .pre _ => preAllowed prev
    | _ => true)).map (·.2)

/-- May a label or literal follow? expression.cpp 79-88, 488-497. -/
def prevPlain : Option Kind → Bool
  | some (.operand o) => o.cls == .label || o.cls == .literal
  | _ => false

/-- A `(` after a label makes a call, after `._remove` or `._exists` the key (expression.cpp 365-376, 428-443): there
it is not an operand of its own, and trees that say so stand for no source. -/
def parenTaken : Option Kind → Bool
  | some (.operand o) => o.cls == .label
  | some (.oper (.post .remove) _) | some (.oper (.post .exist) _) => true
  | _ => false

/-- An operand that may not follow. -/
def refused (prev : Option Kind) : Opnd → Bool
  | .paren _ => parenTaken prev
  | _ => prevPlain prev

def Items.isNil : Items → Bool
  | .nil => true
  | _ => false

/-- The first token of an expression: what is left in `token` of the context that holds a parenthesis. -/
def Items.firstTok : Items → Tok
  | .opd (.var n) _ => .name n
  | .opd (.lit n) _ => .num n
  | .opd (.call f _) _ => .name f
  | _ => .punct

/-- What is left in `token` of the context that holds a call: `token2` in `parseCallFunction` is that token, and
each argument's first token is read into it (cc.cpp 1430-1452).  (A comma before the `)` is not modelled.) -/
def Args.lastTok : Args → Tok
  | .nil => .punct
  | .cons e .nil => e.firstTok
  | .cons _ a => a.lastTok

/-- The code in front of the operator: `[]` is `LiteralZero`, `InitArray` (like `Index`, two values become one);
expression.cpp 465-476. -/
def keyCode (q : Post) (c : List I) : List I :=
  if q = .index ∧ c = [] then [.lit 0] else c

/-- `nex.bytecode.all += O_Dereference`, cc.cpp 1458-1473. -/
def derefArg (code : List I) : List I :=
  match code.getLast? with
  | some (.post .index) => code ++ [.deref]
  | _ => code

mutual
def operand : Opnd → Option Opd
  | .var n => some ⟨[.var n], .name n, .label⟩
  | .lit n => some ⟨[.lit n], .num n, .literal⟩
  -- expression.cpp 378-451; `()` is `WR_ERR_empty_parens`
  | .paren e =>
    if e.isNil then none else ((contexts none e).bind resolveExpression).map fun c => ⟨c, e.firstTok, .result⟩
  -- `parseCallFunction`, cc.cpp 1420-1487 and the rest to 1535
  | .call f args => (arguments args).map fun x => ⟨x.1 ++ [.call f (x.2 % 256)], args.lastTok, .result⟩

/-- The token loop of `parseExpression`, expression.cpp 67-560. -/
def contexts : Option Kind → Items → Option (List Ctx)
  | _, .nil => some []
  | prev, .opd o r =>
    if refused prev o then none
    else
      match operand o with
      | none => none
      | some x => (contexts (some (.operand x)) r).map (⟨.operand x, none⟩ :: ·)
  | prev, .sym s r =>
    match operatorFound prev s with
    | none =>
      -- a cast that is not allowed leaves a context of type `EXTYPE_NONE`, expression.cpp 388-407
      if s = .castInt ∨ s = .castFloat then (contexts (some .empty) r).map (⟨.empty, none⟩ :: ·) else none
    | some row => (contexts (some (.oper row [])) r).map (⟨.oper row [], none⟩ :: ·)
  -- expression.cpp 428-443, 453-482: the code of the key goes in front of the operator
  | _, .key q e r =>
    if q.keyed = false ∨ (q ≠ .index ∧ e.isNil) then none
    else
      match (contexts none e).bind resolveExpression with
      | none => none
      | some c =>
        (contexts (some (.oper (.post q) (keyCode q c))) r).map (⟨.oper (.post q) (keyCode q c), none⟩ :: ·)

/-- Code and number of the arguments, cc.cpp 1431-1487. -/
def arguments : Args → Option (List I × Nat)
  | .nil => some ([], 0)
  | .cons e a =>
    match (contexts none e).bind resolveExpression with
    | none => none
    | some c => (arguments a).map fun x => (derefArg c ++ x.1, x.2 + 1)
end

/-- `parseExpression`. -/
def compile (e : Items) : Option (List I) := (contexts none e).bind resolveExpression

end Wrench.Full
