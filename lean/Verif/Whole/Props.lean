import Verif.Whole.Total

/-
C111: an integer expression is compiled, optimised and executed to its value.
-/
namespace Wrench.Whole
open Wrench.Vm Wrench.Peep Wrench.Ops

/-- The expression has no parentheses. -/
def IE.bare : IE → Prop
  | .paren _ => False
  | .pre _ e => e.bare
  | .bin _ l r => l.bare ∧ r.bare
  | _ => True

theorem IE.bare_clearIn {f : Code → Expr.Instr Opnd → Option Code} {e : IE} (h : e.bare) : e.clearIn f := by
  induction e with
  | var v i => trivial
  | lit w => trivial
  | paren e => exact h.elim
  | pre u e ih => exact ih h
  | bin b l r ihl ihr => exact ⟨ihl h.1, ihr h.2⟩

theorem IE.bare_parts {f : Code → Expr.Instr Opnd → Option Code} {K : Code → Prop} {e : IE} (h : e.bare) :
    e.parts f K := by
  induction e with
  | var v i => trivial
  | lit w => trivial
  | paren e => exact h.elim
  | pre u e ih => exact ih h
  | bin b l r ihl ihr => exact ⟨ihl h.1, ihr h.2⟩

/-- **C111** (partial).  Where appended code never leaves stale entries in the emitter's cache, the bytes of
the compiler, run on any machine whose variables hold the integers `ρ`, push the value of the expression and
change nothing below.  What is missing: expressions with stale entries (`C111_fails_*`) and with operands in
the wrong place (C28). -/
theorem C111_calm_partial {neg : Word32 → Word32} {tame : Bool} {ρ : Vars} {e : IE} {c : Code} {w : Word32}
    (ho : e.ok) (hc : e.clear (itemCalm neg tame)) (hw : e.eval ρ = some w) (h : compileCalm neg tame e = some c)
    (E : Env) {m : M} (hm : Start ρ m) :
    compile neg tame e = some c ∧ ∃ m', Runs E c.rall.reverse m (.next m') ∧ Pushed m w m' :=
  ⟨compile_mono calm_item h, compile_runs (fine_calm ρ neg tame) ho hc hw h E hm⟩

/-- The same in terms of the text: at most two operators with plain operands outside parentheses and inside
every pair of them, and every parenthesised part leaves an entry that hides the cache. -/
theorem C111_settled_partial {neg : Word32 → Word32} {ρ : Vars} {e : IE} {w : Word32} (ho : e.ok) (hf : e.few)
    (hs : e.parts (itemCalm neg true) fun c => settled c = true) (hw : e.eval ρ = some w) (E : Env) {m : M}
    (hm : Start ρ m) :
    ∃ c, compile neg true e = some c ∧ ∃ m', Runs E c.rall.reverse m (.next m') ∧ Pushed m w m' := by
  obtain ⟨c, h⟩ := compile_total (fine_calm ρ neg true) (live_calm ρ neg) ho (IE.few_clear hf) hs hw
  exact ⟨c, C111_calm_partial ho (IE.few_clear hf) hw h E hm⟩

/-- Without parentheses: every such expression whose operands the compiler puts in place compiles, and its
bytes push its value. -/
theorem C111_bare_partial {neg : Word32 → Word32} {ρ : Vars} {e : IE} {w : Word32} (ho : e.ok) (hb : e.bare)
    (hl : ∀ T, prep (itemCalm neg true) e = some T → lucid T) (hw : e.eval ρ = some w) (E : Env) {m : M}
    (hm : Start ρ m) :
    ∃ c, compile neg true e = some c ∧ ∃ m', Runs E c.rall.reverse m (.next m') ∧ Pushed m w m' := by
  have hc : e.clear (itemCalm neg true) := ⟨hl, IE.bare_clearIn hb⟩
  obtain ⟨c, h⟩ := compile_total (fine_calm ρ neg true) (live_calm ρ neg) ho hc (IE.bare_parts hb) hw
  exact ⟨c, C111_calm_partial ho hc hw h E hm⟩

/-- With the cache forgotten where appended code hides it, every expression with a value compiles, and its
bytes push its value. -/
theorem C111_reference {neg : Word32 → Word32} {ρ : Vars} {e : IE} {w : Word32} (ho : e.ok)
    (hc : e.clear (itemRef neg true)) (hw : e.eval ρ = some w) (E : Env) {m : M} (hm : Start ρ m) :
    ∃ c, compileRef neg true e = some c ∧ ∃ m', Runs E c.rall.reverse m (.next m') ∧ Pushed m w m' := by
  have hp : e.parts (itemRef neg true) fun _ => True := by
    clear ho hc hw
    induction e with
    | var v i => trivial
    | lit w => trivial
    | paren e ih => exact ⟨fun _ _ => trivial, ih⟩
    | pre u e ih => exact ih
    | bin b l r ihl ihr => exact ⟨ihl, ihr⟩
  obtain ⟨c, h⟩ := compile_total (fine_ref ρ neg true) (live_ref ρ neg) ho hc hp hw
  exact ⟨c, h, compile_runs (fine_ref ρ neg true) ho hc hw h E hm⟩

/-- `C111` for code that happens to have the same bytes. -/
theorem C111_same_bytes_partial {neg : Word32 → Word32} {ρ : Vars} {e : IE} {c c' : Code} {w : Word32} (ho : e.ok)
    (hf : e.few) (hw : e.eval ρ = some w) (h : compile neg true e = some c) (h' : compileRef neg true e = some c')
    (hb : c.rall = c'.rall) (E : Env) {m : M} (hm : Start ρ m) :
    ∃ m', Runs E c.rall.reverse m (.next m') ∧ Pushed m w m' := by
  rw [hb]
  exact compile_runs (fine_ref ρ neg true) ho (IE.few_clear hf) hw h' E hm

end Wrench.Whole
