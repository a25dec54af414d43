import Verif.Ops.Model

/-
What an operand means, stated without the operator code: follow references, and take the
element a container member designates.
-/
namespace Wrench.Ops

/-- A value that stands for itself: a number or an object handle. -/
def Val.plain : Val → Bool
  | .ref _ => false
  | .mem _ _ => false
  | .hmem _ => false
  | _ => true

/-- `Reads σ mb k a v`: the operand at `a` designates the plain value `v`, through at most
`k` references / container members.  Everything on the way is in real memory.  With
`mb = false` container members are excluded (a variable or a literal). -/
inductive Reads (σ : St) (mb : Bool) : Nat → Addr → Val → Prop where
  | here {k a} : (σ.cell a).plain = true → Reads σ mb k a (σ.cell a)
  | ref {k a r v} : σ.cell a = .ref r → r.real = true → Reads σ mb k r v → Reads σ mb (k + 1) a v
  | velem {k a b s o n} : mb = true → σ.cell a = .mem b s → b.real = true → σ.cell b = .arr o →
      σ.obj o = .vals n → s < n → (σ.cell (.elem o s)).plain = true →
      Reads σ mb (k + 1) a (σ.cell (.elem o s))
  | celem {k a b s o bs nc c} : mb = true → σ.cell a = .mem b s → b.real = true →
      σ.cell b = .arr o → σ.obj o = .chars bs nc → bs[s]? = some c →
      Reads σ mb (k + 1) a (.int (c.setWidth 32))
  | relem {k a b s p n} : mb = true → σ.cell a = .mem b s → b.real = true →
      σ.cell b = .raw p n → s < n → Reads σ mb (k + 1) a (.int ((σ.rawMem p s).setWidth 32))
  | helem {k a e v} : mb = true → σ.cell a = .hmem e → e.real = true → Reads σ mb k e v →
      Reads σ mb (k + 1) a v

/-- The number an operand contributes to arithmetic: itself, or the hash of an object. -/
def Val.num (E : Env) (σ : St) : Val → Val
  | .int w => .int w
  | .float w => .float w
  | v => .int (getHash E σ v)

/-- A number. -/
def Val.isNum : Val → Bool
  | .int _ => true
  | .float _ => true
  | _ => false

/-- Real memory (cells, array elements, objects, raw arrays) is the same. -/
structure SameReal (σ σ' : St) : Prop where
  cell : ∀ a, a.real = true → σ'.cell a = σ.cell a
  obj : σ'.obj = σ.obj
  next : σ'.next = σ.next
  raw : σ'.rawMem = σ.rawMem

/-- Real memory is the same except that `t` now holds `v`. -/
structure OnlySet (σ σ' : St) (t : Addr) (v : Val) : Prop where
  here : σ'.cell t = v
  cell : ∀ a, a.real = true → a ≠ t → σ'.cell a = σ.cell a
  obj : σ'.obj = σ.obj
  raw : σ'.rawMem = σ.rawMem

end Wrench.Ops
