import Verif.Bytes.Model

/-
How the compiler turns names into variables: `addLocalSpaceLoad`, `addGlobalSpaceLoad`,
`loadExpressionContext`, the copies of the local space handed to expressions and sub-expressions,
`appendBytecode` and the argument list of `parseUnit` (discrete_src/cc/cc.cpp, cc/expression.cpp,
cc/cc.h, cc/optimizer.cpp).

Of the byte code only the local space and the instructions that name a variable are kept
(`LoadFromLocal`, `LoadFromGlobal` and the function-name literal), in the order they are emitted.
The source is given after tokenizing, as the sequence of contexts `parseExpression` builds: labels,
contexts holding code of their own (parenthesis, index, call with arguments, initializer, `new`) and
others (literals, plain operators).  The order in which `resolveExpression` loads the contexts depends
on the operators; it is given as a list of context numbers and the theorems hold for every such list.

Simplifications: the constants of the enums are those present at the end of the compilation; a
parenthesis is taken to append its code to the empty code of its context (the code assigns it, which
gives the same result because both start from the same local space); in the main program the copies of
the local space of the post expressions of a `for` are taken at the head of the loop (they are not
consulted there).
-/
namespace Wrench.Names

abbrev Name := List Byte

/-- `"::"`. -/
def colons : Name := [58#8, 58#8]

/-- A label as `isValidLabel` (cc.cpp 193-275) leaves it in a context: `x` or `::x`
(`context.global`), after `var` or not (`context.varSeen`). -/
structure Lab where
  name : Name
  glob : Bool
  var : Bool
deriving DecidableEq, Repr

/-- The token of the label. -/
def Lab.tok (l : Lab) : Name := if l.glob then colons ++ l.name else l.name

mutual
/-- `WRExpression`, cc.h 262-350, as `parseExpression` fills it.  `relax`: parsed with `m_needVar` off
(members of `new`, cc.cpp 1588-1591); `allow`: `allowFunctionNameHashLiteral`; `order`: the contexts in
the order they are loaded. -/
inductive Expr where
  | mk (relax allow : Bool) (items : Items) (order : List Nat)

/-- The contexts of an expression, in source order. -/
inductive Items where
  | nil
  | label (l : Lab) (rest : Items)
  | code (subs : Subs) (rest : Items)
  | other (rest : Items)

/-- The expressions compiled into one context. -/
inductive Subs where
  | nil
  | cons (e : Expr) (rest : Subs)
end

/-- The instructions that name something: `LoadFromLocal`, `LoadFromGlobal` with their one-byte operand
and the `LiteralInt32` for the name of a function. -/
inductive Load where
  | loc (i : Byte)
  | glob (i : Byte)
  | lit (h : Word32)
deriving DecidableEq, Repr

/-- `WRBytecode`, cc.h 178-209: `localSpace` and the loads in `all`. -/
structure BC where
  space : List Word32
  loads : List Load
deriving DecidableEq, Repr

/-- What does not change while one unit is parsed: `m_unitTop == 0`, `bytecode.isStructSpace`,
`isNamedEnumMember` (cc.cpp 815-831). -/
structure Cfg where
  top : Bool
  isStruct : Bool
  enumMember : Name → Bool

/-- `pushOpcode` and `pushData` of a load. -/
def BC.push (b : BC) (x : Load) : BC := { b with loads := b.loads ++ [x] }

/-- `unsigned char c = i`. -/
def byte (i : Nat) : Byte := BitVec.ofNat 8 i

/-- `for( ; i<space.count(); ++i ) if ( space[i].hash == hash ) break;`: the final `i`. -/
def find (h : Word32) (hs : List Word32) : Nat := hs.findIdx (· == h)

/-- `space[i].hash = hash`, which grows the array when `i` is its count. -/
def put (hs : List Word32) (i : Nat) (h : Word32) : List Word32 :=
  if i < hs.length then hs.set i h else hs ++ [h]

/-- `addGlobalSpaceLoad`, cc.cpp 916-964.  `G` is `m_units[0].bytecode.localSpace`; `none` is
`WR_ERR_var_not_seen_before_label`. -/
def addGlobal (c : Cfg) (nv : Bool) (G : List Word32) (b : BC) (tok : Name)
    (addOnly var allow : Bool) : Option (List Word32 × BC × Nat) :=
  let t2 := if tok.take 2 = colons then tok else colons ++ tok
  let h := wrHash t2
  let i := find h G
  if nv && !var && decide (G.length ≤ i) then
    if !addOnly && allow && !c.enumMember tok then some (G, b.push (.lit (hashStr tok)), 0) else none
  else some (put G i h, if addOnly then b else b.push (.glob (byte i)), i)

/-- `addLocalSpaceLoad`, cc.cpp 834-913. -/
def addLocal (c : Cfg) (nv : Bool) (G : List Word32) (b : BC) (tok : Name)
    (addOnly var allow : Bool) : Option (List Word32 × BC × Nat) :=
  if c.top then addGlobal c nv G b tok addOnly var allow
  else
    let h := hashStr tok
    let i := find h b.space
    let here : BC :=
      ⟨put b.space i h, if addOnly then b.loads else b.loads ++ [.loc (byte i)]⟩
    if i < b.space.length then some (G, here, i)
    else
      let t2 := if var || decide (tok.take 2 = colons) then tok else colons ++ tok
      let j := find (hashStr t2) G
      if !addOnly && (!c.isStruct || var) && decide (j < G.length) then
        some (G, b.push (.glob (byte j)), j)
      else if nv && !var then
        if !addOnly && allow && !c.enumMember tok then some (G, b.push (.lit (hashStr tok)), 0)
        else none
      else some (G, here, i)

/-- `appendBytecode`, optimizer.cpp 1338-1364: names not yet in the local space are added to it, the
code (with its slot numbers) follows unchanged. -/
def append (b a : BC) : BC :=
  ⟨a.space.foldl (fun s h => if h ∈ s then s else s ++ [h]) b.space, b.loads ++ a.loads⟩

/-- `WRExpressionContext` after parsing: `EXTYPE_LABEL`, code of its own, anything else. -/
inductive Ctx where
  | label (l : Lab)
  | code (b : BC)
  | other

/-- `loadExpressionContext` (cc.cpp 968-1040) and the `appendBytecode` of an operator
(cc.cpp 1136-1395) for the context `i`. -/
def load (c : Cfg) (nv allow : Bool) (cs : List Ctx) (s : List Word32 × BC) (i : Nat) :
    Option (List Word32 × BC) :=
  match cs[i]? with
  | some (.label l) =>
    if l.glob then (addGlobal c nv s.1 s.2 l.tok false l.var allow).map fun r => (r.1, r.2.1)
    else (addLocal c nv s.1 s.2 l.tok false l.var allow).map fun r => (r.1, r.2.1)
  | some (.code b) => some (s.1, append s.2 b)
  | _ => some s

mutual
/-- `parseExpression` (expression.cpp 60-640) on an expression made from the local space `S`
(cc.h 334-342): the contexts are parsed in source order, every one on a copy of `S`
(expression.cpp 72-73), then loaded. -/
def compile (c : Cfg) (nv : Bool) (G S : List Word32) : Expr → Option (List Word32 × BC)
  | .mk relax allow items order => do
    let nv := nv && !relax
    let (G, cs) ← compileItems c nv G S items
    order.foldlM (load c nv allow cs) (G, ⟨S, []⟩)

/-- The contexts, in source order. -/
def compileItems (c : Cfg) (nv : Bool) (G S : List Word32) : Items → Option (List Word32 × List Ctx)
  | .nil => some (G, [])
  | .label l rest => do
    let (G, cs) ← compileItems c nv G S rest
    return (G, .label l :: cs)
  | .other rest => do
    let (G, cs) ← compileItems c nv G S rest
    return (G, .other :: cs)
  | .code subs rest => do
    let (G, b) ← compileSubs c nv G S ⟨S, []⟩ subs
    let (G, cs) ← compileItems c nv G S rest
    return (G, .code b :: cs)

/-- The expressions inside one context (arguments, cc.cpp 1448-1480; initializers, 1710-1810; members of
`new`, 1582-1597; index and parenthesis, expression.cpp 415, 455), each made from the local space of the
enclosing expression and appended to the context. -/
def compileSubs (c : Cfg) (nv : Bool) (G S : List Word32) (b : BC) : Subs → Option (List Word32 × BC)
  | .nil => some (G, b)
  | .cons e rest => do
    let (G, x) ← compile c nv G S e
    compileSubs c nv G S (append b x) rest
end

/-- The statements of a unit, as far as names are concerned: an expression (statement, condition,
`return`), the hidden global of a `foreach` (cc.cpp 2204-2206) and the body of a `for` loop with its
post expressions (setup and condition come before it as expressions). -/
inductive Stmts where
  | nil
  | expr (e : Expr) (rest : Stmts)
  | temp (x : Name) (rest : Stmts)
  | loop (post : Subs) (body : Stmts) (rest : Stmts)

/-- `m_units[0].bytecode.localSpace` and the unit being parsed.  In the main program the two local
spaces are one; `U.space` is then not used. -/
structure St where
  G : List Word32
  U : BC
deriving DecidableEq, Repr

/-- The local space of the unit being parsed. -/
def St.space (c : Cfg) (s : St) : List Word32 := if c.top then s.G else s.U.space

/-- `appendBytecode( m_units[m_unitTop].bytecode, nex.bytecode )`. -/
def St.append (c : Cfg) (s : St) (b : BC) : St :=
  let r := Names.append ⟨s.space c, s.U.loads⟩ b
  if c.top then ⟨r.space, ⟨s.U.space, r.loads⟩⟩ else ⟨s.G, r⟩

/-- `parseStatement` (cc.cpp 3036-3265), `parseForLoop` (cc.cpp 2128-2405): the post expressions are
compiled before the body and appended after it. -/
def stmts (c : Cfg) (nv : Bool) (s : St) : Stmts → Option St
  | .nil => some s
  | .expr e rest => do
    let (G, b) ← compile c nv s.G (s.space c) e
    stmts c nv (({ s with G := G } : St).append c b) rest
  | .temp x rest => do
    let (G, _, i) ← addGlobal c nv s.G ⟨[], []⟩ x true true false
    stmts c nv ⟨G, s.U.push (.glob (byte i))⟩ rest
  | .loop post body rest => do
    let (G, p) ← compileSubs c nv s.G (s.space c) ⟨s.space c, []⟩ post
    let s ← stmts c nv { s with G := G } body
    stmts c nv (s.append c p) rest

/-- A `function` or `struct`. -/
structure UnitDef where
  isStruct : Bool
  args : List Name
  body : Stmts

/-- The top level of a source: statements and units. -/
inductive Top where
  | code (s : Stmts)
  | unit (u : UnitDef)

/-- `++arguments; addLocalSpaceLoad( m_units[m_unitTop].bytecode, token, true, true )`, cc.cpp 1894-1900. -/
def addArgs (c : Cfg) (nv : Bool) (s : St) : List Name → Option St
  | [] => some s
  | x :: xs => do
    let (G, b, _) ← addLocal c nv s.G s.U x true true false
    addArgs c nv ⟨G, b⟩ xs

/-- What is linked of a unit: `arguments` and its code. -/
structure Out where
  arguments : Nat
  code : BC
deriving DecidableEq, Repr

/-- `parseUnit`, cc.cpp 1836-1946. -/
def unit (enum : Name → Bool) (nv : Bool) (G : List Word32) (u : UnitDef) : Option (List Word32 × Out) := do
  let c : Cfg := ⟨false, u.isStruct, enum⟩
  let s ← addArgs c nv ⟨G, ⟨[], []⟩⟩ u.args
  let s ← stmts c nv s u.body
  return (s.G, ⟨u.args.length, s.U⟩)

/-- The compiled program: `m_units[0].bytecode.localSpace`, the loads of the main program and the other
units. -/
structure Compiled where
  globals : List Word32
  main : List Load
  units : List Out
deriving DecidableEq, Repr

/-- The top level, one part after another. -/
def tops (enum : Name → Bool) (nv : Bool) (p : Compiled) : List Top → Option Compiled
  | [] => some p
  | .code s :: rest => do
    let r ← stmts ⟨true, false, enum⟩ nv ⟨p.globals, ⟨[], p.main⟩⟩ s
    tops enum nv { p with globals := r.G, main := r.U.loads } rest
  | .unit u :: rest => do
    let (G, o) ← unit enum nv p.globals u
    tops enum nv { p with globals := G, units := p.units ++ [o] } rest

/-- The whole source; `nv` is `m_needVar`, off with `WR_NON_STRICT_VAR` (cc.cpp 91). -/
def program (enum : Name → Bool) (nv : Bool) (src : List Top) : Option Compiled :=
  tops enum nv ⟨[], [], []⟩ src

end Wrench.Names
