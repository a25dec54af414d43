import Verif.Names.Model

/-
What names mean, without slots or hashes: a unit has local variables, the program has global
variables, and a name means the local variable of that name when the unit has declared one, else the
global variable, else it declares a new one (or is refused when `var` is needed, except that the name of
a function may stand as a value).  Names are met in the order their code runs.

A sub-expression (argument, index, parenthesis, initializer) or a post expression of a `for` must only
use names that mean the same before the expression (loop) it is part of and at the point where it runs,
and must declare nothing; otherwise the outcome is `hidden`, about which nothing is claimed.
-/
namespace Wrench.Names.Spec

open Wrench.Names

/-- Outcome: a meaning, a compile error, or a declaration inside a sub-expression. -/
inductive Res (α : Type) where
  | ok (a : α)
  | err
  | hidden
deriving DecidableEq

def Res.bind {α β : Type} : Res α → (α → Res β) → Res β
  | .ok a, f => f a
  | .err, _ => .err
  | .hidden, _ => .hidden

/-- Variables declared so far, oldest first. -/
structure Env where
  locals : List Name
  globals : List Name
deriving DecidableEq, Repr

/-- What an occurrence of a name means. -/
inductive Ref where
  | loc (x : Name)
  | glob (x : Name)
  | fn (tok : Name)
deriving DecidableEq, Repr

/-- A name nobody declared: a new variable, the name of a function, or an error. -/
def undeclared (c : Cfg) (nv allow : Bool) (env : Env) (l : Lab) (new : Env × Ref) : Res (Env × Ref) :=
  if nv && !l.var then
    if allow && !c.enumMember l.tok then .ok (env, .fn l.tok) else .err
  else .ok new

/-- The meaning of one occurrence. -/
def resolve (c : Cfg) (nv allow : Bool) (env : Env) (l : Lab) : Res (Env × Ref) :=
  if c.top || l.glob then
    if l.name ∈ env.globals then .ok (env, .glob l.name)
    else undeclared c nv allow env l ({ env with globals := env.globals ++ [l.name] }, .glob l.name)
  else if l.name ∈ env.locals then .ok (env, .loc l.name)
  else if !l.var && !c.isStruct && decide (l.name ∈ env.globals) then .ok (env, .glob l.name)
  else undeclared c nv allow env l ({ env with locals := env.locals ++ [l.name] }, .loc l.name)

/-- The meaning of an occurrence that must not declare anything. -/
def known (c : Cfg) (nv allow : Bool) (env : Env) (l : Lab) : Res Ref :=
  (resolve c nv allow env l).bind fun (e, r) => if e = env then .ok r else .hidden

/-- A context: a label, sub-expressions with their meaning, anything else. -/
inductive Item where
  | label (l : Lab)
  | code (subs : Subs) (refs : List Ref)
  | other

/-- One context of a sub-expression. -/
def knownItem (c : Cfg) (nv allow : Bool) (env : Env) (cs : List Item) (rs : List Ref) (i : Nat) :
    Res (List Ref) :=
  match cs[i]? with
  | some (.label l) => (known c nv allow env l).bind fun r => .ok (rs ++ [r])
  | some (.code _ refs) => .ok (rs ++ refs)
  | _ => .ok rs

/-- Contexts one after another. -/
def fold {α : Type} (f : α → Nat → Res α) : α → List Nat → Res α
  | a, [] => .ok a
  | a, i :: is => (f a i).bind fun a => fold f a is

mutual
/-- The meanings of the names of a sub-expression, which declares nothing. -/
def knownE (c : Cfg) (nv : Bool) (env : Env) : Expr → Res (List Ref)
  | .mk relax allow items order =>
    (knownI c (nv && !relax) env items).bind fun cs =>
    fold (knownItem c (nv && !relax) allow env cs) [] order

def knownI (c : Cfg) (nv : Bool) (env : Env) : Items → Res (List Item)
  | .nil => .ok []
  | .label l rest => (knownI c nv env rest).bind fun cs => .ok (.label l :: cs)
  | .other rest => (knownI c nv env rest).bind fun cs => .ok (.other :: cs)
  | .code subs rest =>
    (knownS c nv env subs).bind fun rs =>
    (knownI c nv env rest).bind fun cs => .ok (.code subs rs :: cs)

def knownS (c : Cfg) (nv : Bool) (env : Env) : Subs → Res (List Ref)
  | .nil => .ok []
  | .cons e rest =>
    (knownE c nv env e).bind fun rs => (knownS c nv env rest).bind fun rs' => .ok (rs ++ rs')
end

/-- Sub-expressions met at `env` keep the meaning they had. -/
def again (c : Cfg) (nv : Bool) (env : Env) (subs : Subs) (refs : List Ref) : Res (List Ref) :=
  match knownS c nv env subs with
  | .ok rs => if rs = refs then .ok refs else .hidden
  | _ => .hidden

/-- One context of a statement's expression. -/
def item (c : Cfg) (nv allow : Bool) (cs : List Item) (s : Env × List Ref) (i : Nat) :
    Res (Env × List Ref) :=
  match cs[i]? with
  | some (.label l) => (resolve c nv allow s.1 l).bind fun (e, r) => .ok (e, s.2 ++ [r])
  | some (.code subs refs) => (again c nv s.1 subs refs).bind fun rs => .ok (s.1, s.2 ++ rs)
  | _ => .ok s

/-- The expression of a statement. -/
def expr (c : Cfg) (nv : Bool) (env : Env) : Expr → Res (Env × List Ref)
  | .mk relax allow items order =>
    (knownI c (nv && !relax) env items).bind fun cs =>
    fold (item c (nv && !relax) allow cs) (env, []) order

/-- The statements of a unit. -/
def stmts (c : Cfg) (nv : Bool) (env : Env) (rs : List Ref) : Stmts → Res (Env × List Ref)
  | .nil => .ok (env, rs)
  | .expr e rest => (expr c nv env e).bind fun (env, rs') => stmts c nv env (rs ++ rs') rest
  | .temp x rest =>
    stmts c nv (if x ∈ env.globals then env else { env with globals := env.globals ++ [x] })
      (rs ++ [.glob x]) rest
  | .loop post body rest =>
    (knownS c nv env post).bind fun refs =>
    (stmts c nv env rs body).bind fun (env, rs) =>
    (again c nv env post refs).bind fun refs => stmts c nv env (rs ++ refs) rest

/-- A unit: its arguments are its first local variables. -/
structure OutS where
  locals : List Name
  refs : List Ref
deriving DecidableEq, Repr

/-- Distinct names in order of first appearance. -/
def distinct : List Name → List Name → List Name
  | ys, [] => ys
  | ys, x :: xs => distinct (if x ∈ ys then ys else ys ++ [x]) xs

def unit (enum : Name → Bool) (nv : Bool) (globals : List Name) (u : UnitDef) : Res (List Name × OutS) :=
  (stmts ⟨false, u.isStruct, enum⟩ nv ⟨distinct [] u.args, globals⟩ [] u.body).bind fun (env, rs) =>
  .ok (env.globals, ⟨env.locals, rs⟩)

/-- A program: its global variables, the meanings in the main program, and its units. -/
structure Meaning where
  globals : List Name
  main : List Ref
  units : List OutS
deriving DecidableEq, Repr

def tops (enum : Name → Bool) (nv : Bool) (m : Meaning) : List Top → Res Meaning
  | [] => .ok m
  | .code s :: rest =>
    (stmts ⟨true, false, enum⟩ nv ⟨[], m.globals⟩ m.main s).bind fun (env, rs) =>
    tops enum nv { m with globals := env.globals, main := rs } rest
  | .unit u :: rest =>
    (unit enum nv m.globals u).bind fun (g, o) =>
    tops enum nv { m with globals := g, units := m.units ++ [o] } rest

def program (enum : Name → Bool) (nv : Bool) (src : List Top) : Res Meaning := tops enum nv ⟨[], [], []⟩ src

/-! ### From meanings to slots -/

/-- The instruction for a meaning: the number of the variable in the list of variables. -/
def Ref.load (locals globals : List Name) : Ref → Load
  | .loc x => .loc (byte (locals.idxOf x))
  | .glob x => .glob (byte (globals.idxOf x))
  | .fn tok => .lit (hashStr tok)

/-! ### The names of a source -/

mutual
def namesE : Expr → List Name
  | .mk _ _ items _ => namesI items

def namesI : Items → List Name
  | .nil => []
  | .label l rest => l.name :: namesI rest
  | .code subs rest => namesS subs ++ namesI rest
  | .other rest => namesI rest

def namesS : Subs → List Name
  | .nil => []
  | .cons e rest => namesE e ++ namesS rest
end

def namesB : Stmts → List Name
  | .nil => []
  | .expr e rest => namesE e ++ namesB rest
  | .temp x rest => x :: namesB rest
  | .loop post body rest => namesS post ++ (namesB body ++ namesB rest)

def namesT : List Top → List Name
  | [] => []
  | .code s :: rest => namesB s ++ namesT rest
  | .unit u :: rest => u.args ++ (namesB u.body ++ namesT rest)

/-- The names are 7-bit text without NUL, do not begin with `::`, and no two of the names `x` and `::x`
have the same 32-bit hash. -/
structure HashOk (N : List Name) : Prop where
  shape : ∀ x ∈ N, x.take 2 ≠ colons ∧ ∀ b ∈ x, b ≠ 0#8 ∧ b.toNat < 128
  loc : ∀ x ∈ N, ∀ y ∈ N, hashStr x = hashStr y → x = y
  glob : ∀ x ∈ N, ∀ y ∈ N, hashStr (colons ++ x) = hashStr (colons ++ y) → x = y
  cross : ∀ x ∈ N, ∀ y ∈ N, hashStr x ≠ hashStr (colons ++ y)

instance (N : List Name) : Decidable (HashOk N) :=
  decidable_of_iff ((∀ x ∈ N, x.take 2 ≠ colons ∧ ∀ b ∈ x, b ≠ 0#8 ∧ b.toNat < 128) ∧
    (∀ x ∈ N, ∀ y ∈ N, hashStr x = hashStr y → x = y) ∧
    (∀ x ∈ N, ∀ y ∈ N, hashStr (colons ++ x) = hashStr (colons ++ y) → x = y) ∧
    (∀ x ∈ N, ∀ y ∈ N, hashStr x ≠ hashStr (colons ++ y)))
    ⟨fun ⟨a, b, c, d⟩ => ⟨a, b, c, d⟩, fun ⟨a, b, c, d⟩ => ⟨a, b, c, d⟩⟩

end Wrench.Names.Spec
