import Verif.Prog.Sim
import Verif.Whole.Text

/-
C112: integer programs do what they say.
-/
namespace Wrench.Prog
open Wrench.Vm Wrench.Vm.Jump Wrench.Peep Wrench.Whole Wrench.Ops

theorem means_ok (s : IS) : Flow.Ok s.means := by
  induction s with
  | seq s t ihs iht => exact ⟨ihs, iht⟩
  | ifThen e s ih => exact ih
  | ifElse e s t ihs iht => exact ⟨ihs, iht⟩
  | loop e s ih => exact ih
  | doLoop s e ih => exact ih
  | forLoop i e p s ih => exact ih
  | _ => trivial

theorem unit_done {neg : Word32 → Word32} {glob : Bool} {s : IS} {U : BU} (hg : s.good neg)
    (hc : compileUnit neg s glob = some U) :
    ∃ k L, Flow.compileUnit s.means = some k ∧ Done glob U k L ∧ Ends glob U k := by
  obtain ⟨k, L, h1, h2, -, h3, h4⟩ := compile_rep s hg Rep.start hc
  exact ⟨k, L, h1, ⟨h2, h3 rfl rfl (fun t ht => by cases ht)⟩, h4 rfl⟩

/-- **C112** (partial).  A program of assignments and compound assignments of integers, `++`, `--`, conditionals and loops that
compiles, and whose source ends normally with the variables `ρ'`: its bytes, with all jumps resolved and possibly shortened, run from the
start on any machine whose variables hold `ρ` reach the end of the unit with the variables holding `ρ'`, the
stack as high as before and everything below it unchanged.  What is missing: expressions the emitter gets wrong
(C111), other types, calls, declarations, `switch`, for-each, `goto`; for `return` see C113. -/
theorem C112_terminates_partial {neg : Word32 → Word32} {glob : Bool} {s : IS} {U : BU} (hg : s.good neg)
    (hc : compileUnit neg s glob = some U) {ρ ρ' : Vars} {n : Nat}
    (hx : Flow.exec n s.means (some ρ) = some (.nrm, some ρ')) (E : Env) {m : M} (hm : Ready ρ m) :
    ∃ N m', bsteps E U.all N (0, m) = some (U.all.length, m') ∧ Ready ρ' m' ∧ Frame m m' := by
  obtain ⟨k, L, h1, h2, -⟩ := unit_done hg hc
  obtain ⟨n', h3⟩ := (Flow.C40_normal_partial h1 (means_ok s) (some ρ) (some ρ')).mp ⟨n, hx⟩
  have := h2.run (E := E) h3 hm
  rwa [off_zero] at this

/-! ### Programs that do not end -/

/-- The same variables exist. -/
def Dom (ρ0 ρ : Vars) : Prop := ∀ v i, (ρ v i).isSome = (ρ0 v i).isSome

/-- The expression has a value, whatever the variables hold. -/
def Safe (ρ0 : Vars) (e : IE) : Prop := ∀ ρ, Dom ρ0 ρ → ∃ w, e.eval ρ = some w

/-- It has an effect, whatever the variables hold. -/
def Eff.safe (ρ0 : Vars) (x : Eff) : Prop := ∀ ρ, Dom ρ0 ρ → ∃ ρ', x.means (some ρ) = some ρ'

/-- All expressions are safe and all assigned variables exist. -/
def IS.safe (ρ0 : Vars) : IS → Prop
  | .skip => True
  | .asg a => a.safe ρ0
  | .seq s t => s.safe ρ0 ∧ t.safe ρ0
  | .ifThen e s => Safe ρ0 e ∧ s.safe ρ0
  | .ifElse e s t => Safe ρ0 e ∧ s.safe ρ0 ∧ t.safe ρ0
  | .loop e s => Safe ρ0 e ∧ s.safe ρ0
  | .doLoop s e => s.safe ρ0 ∧ Safe ρ0 e
  | .forLoop init e post s =>
    (∀ a ∈ init, a.safe ρ0) ∧ (∀ x ∈ e, Safe ρ0 x) ∧ (∀ a ∈ post, a.safe ρ0) ∧ s.safe ρ0
  | .brk => True
  | .cont => True
  | .ret e => ∀ x ∈ e, Safe ρ0 x

/-- An instruction that keeps the state defined. -/
def Keeps (ρ0 : Vars) : Flow.Instr (Option Vars) (Option Word32) → Prop
  | .act f => ∀ ρ, Dom ρ0 ρ → ∃ ρ', f (some ρ) = some ρ' ∧ Dom ρ0 ρ'
  | .bz t _ => ∀ ρ, Dom ρ0 ρ → (t (some ρ)).2 = some ρ
  | _ => True

theorem upd_dom {ρ0 ρ : Vars} (hd : Dom ρ0 ρ) {v : Sp} {i : Byte} {w0 : Word32} (hv : ρ v i = some w0) (w : Word32) :
    Dom ρ0 (upd ρ v i w) := by
  intro v' i'
  unfold upd
  by_cases hvi : v' = v ∧ i' = i
  · rw [if_pos hvi, hvi.1, hvi.2, ← hd, hv]
    rfl
  · rw [if_neg hvi]
    exact hd v' i'

theorem Eff.dom {ρ0 ρ ρ' : Vars} {x : Eff} (hd : Dom ρ0 ρ) (h : x.means (some ρ) = some ρ') : Dom ρ0 ρ' := by
  cases x with
  | set a =>
    simp only [Eff.means, Asg.means, Option.bind_some, Option.bind_eq_some_iff, Option.map_eq_some_iff] at h
    obtain ⟨w0, h3, w, h4, rfl⟩ := h
    exact upd_dom hd h3 w
  | comp op a =>
    simp only [Eff.means, Option.bind_some, Option.bind_eq_some_iff, Option.map_eq_some_iff] at h
    obtain ⟨w0, h3, w, -, r, -, rfl⟩ := h
    exact upd_dom hd h3 r
  | bump dec post v i =>
    simp only [Eff.means, Option.bind_some, Option.bind_eq_some_iff, Option.map_eq_some_iff] at h
    obtain ⟨w0, h3, r, -, rfl⟩ := h
    exact upd_dom hd h3 r

theorem Eff.keeps {ρ0 : Vars} {a : Eff} (h : a.safe ρ0) : Keeps ρ0 (.act a.means) := by
  intro ρ hd
  obtain ⟨ρ', h1⟩ := h ρ hd
  exact ⟨ρ', h1, Eff.dom hd h1⟩

theorem test_keeps {ρ0 : Vars} {e : IE} (h : Safe ρ0 e) (id : Nat) : Keeps ρ0 (.bz (test e) id) := by
  intro ρ hd
  obtain ⟨w, hw⟩ := h ρ hd
  simp [test, hw]

def AllKeep (ρ0 : Vars) (k : Flow.CS (Option Vars) (Option Word32)) : Prop := ∀ x ∈ k.code, Keeps ρ0 x

theorem AllKeep.emit {ρ0 : Vars} {k : Flow.CS (Option Vars) (Option Word32)} (h : AllKeep ρ0 k) {x : Flow.Instr (Option Vars) (Option Word32)}
    (hx : Keeps ρ0 x) : AllKeep ρ0 (k.emit x) := by
  intro y hy
  simp only [Flow.CS.emit, List.mem_append, List.mem_singleton] at hy
  rcases hy with hy | rfl
  · exact h y hy
  · exact hx

theorem AllKeep.emits {ρ0 : Vars} {k : Flow.CS (Option Vars) (Option Word32)} (h : AllKeep ρ0 k) {l : List Eff}
    (hl : ∀ a ∈ l, a.safe ρ0) : AllKeep ρ0 (k.emits ((l.map Eff.means).map .act)) := by
  intro y hy
  simp only [Flow.CS.emits, List.mem_append, List.mem_map] at hy
  rcases hy with hy | ⟨f, ⟨a, ha, rfl⟩, rfl⟩
  · exact h y hy
  · exact Eff.keeps (hl a ha)

theorem compile_keeps {ρ0 : Vars} (s : IS) : ∀ {k k' : Flow.CS (Option Vars) (Option Word32)}, s.safe ρ0 → AllKeep ρ0 k →
    Flow.compile s.means k = some k' → AllKeep ρ0 k' := by
  induction s with
  | skip => intro k k' _ hk hc; cases hc; exact hk
  | asg a => intro k k' hs hk hc; cases hc; exact hk.emit (Eff.keeps hs)
  | seq s t ihs iht =>
    intro k k' hs hk hc
    simp only [IS.means, Flow.compile, Option.bind_eq_some_iff] at hc
    obtain ⟨k1, h1, h2⟩ := hc
    exact iht hs.2 (ihs hs.1 hk h1) h2
  | ifThen e s ih =>
    intro k k' hs hk hc
    simp only [IS.means, Flow.compile, Option.map_eq_some_iff] at hc
    obtain ⟨k1, h1, rfl⟩ := hc
    have h0 : AllKeep ρ0 k.new := hk
    exact ih (k' := k1) hs.2 (h0.emit (test_keeps hs.1 _)) h1
  | ifElse e s t ihs iht =>
    intro k k' hs hk hc
    simp only [IS.means, Flow.compile, Option.map_eq_some_iff, Option.bind_eq_some_iff] at hc
    obtain ⟨k1, h1, k2, h2, rfl⟩ := hc
    have h0 : AllKeep ρ0 k.new := hk
    have h3 : AllKeep ρ0 k1.new := ihs (k' := k1) hs.2.1 (h0.emit (test_keeps hs.1 _)) h1
    have h4 := h3.emit (x := .jmp k1.tg.length) trivial
    exact iht (k' := k2) hs.2.2 (by exact h4) h2
  | loop e s ih =>
    intro k k' hs hk hc
    simp only [IS.means, Flow.compile, Option.map_eq_some_iff] at hc
    obtain ⟨k1, h1, rfl⟩ := hc
    have h0 : AllKeep ρ0 (k.new.place k.tg.length).new := hk
    have h4 := h0.emit (test_keeps hs.1 (k.tg.length + 1))
    have h3 := ih (k' := k1) hs.2 (by exact h4) h1
    exact h3.emit (x := .jmp k.tg.length) trivial
  | doLoop s e ih =>
    intro k k' hs hk hc
    simp only [IS.means, Flow.compile, Option.map_eq_some_iff] at hc
    obtain ⟨k1, h1, rfl⟩ := hc
    have h0 : AllKeep ρ0 (k1.place k.tg.length) := ih (k' := k1) hs.1 (by exact hk) h1
    exact (h0.emit (test_keeps hs.2 (k.tg.length + 1))).emit (x := .jmp (k.tg.length + 2)) trivial
  | forLoop init c post s ih =>
    intro k k' hs hk hc
    obtain ⟨hs1, hs2, hs3, hs4⟩ := hs
    simp only [IS.means, Flow.compile, Option.map_eq_some_iff] at hc
    obtain ⟨k1, h1, rfl⟩ := hc
    have h0 : AllKeep ρ0 k.new.new := hk
    have h2 := h0.emits hs1
    have h3 : AllKeep ρ0 k1 := by
      cases c with
      | none => exact ih hs4 (by exact h2) h1
      | some e =>
        refine ih hs4 ?_ h1
        have h4 : AllKeep ρ0 (((k.new.new.emits ((init.map Eff.means).map .act)).new).place (k.tg.length + 2)) := h2
        exact h4.emit (test_keeps (hs2 e rfl) (k.tg.length + 1))
    have h5 : AllKeep ρ0 (k1.place k.tg.length) := h3
    exact (h5.emits hs3).emit (x := .jmp (k.tg.length + 2)) trivial
  | ret e => intro k k' _ hk hc; cases hc; exact hk.emit trivial
  | brk =>
    intro k k' _ hk hc
    simp only [IS.means, Flow.compile, Option.map_eq_some_iff] at hc
    obtain ⟨b, -, rfl⟩ := hc
    exact hk.emit trivial
  | cont =>
    intro k k' _ hk hc
    simp only [IS.means, Flow.compile, Option.map_eq_some_iff] at hc
    obtain ⟨b, -, rfl⟩ := hc
    exact hk.emit trivial

theorem bsteps_le {E : Env} {all : List Byte} {n n' : Nat} {p q : Nat × M} (h : bsteps E all n p = some q) (hn : n' ≤ n) :
    ∃ r, bsteps E all n' p = some r := by
  induction n' generalizing n p with
  | zero => exact ⟨p, rfl⟩
  | succ n' ih =>
    cases n with
    | zero => omega
    | succ n =>
      simp only [bsteps, Option.bind_eq_some_iff] at h
      obtain ⟨x, h1, h2⟩ := h
      obtain ⟨r, hr⟩ := ih h2 (by omega)
      exact ⟨r, by simp only [bsteps, h1, Option.bind_some, hr]⟩

theorem Done.goes {glob : Bool} {E : Env} {u : BU} {k : Flow.CS (Option Vars) (Option Word32)} {L : List Chunk} (h : Done glob u k L) {ρ0 : Vars}
    (hk : AllKeep ρ0 k) (n : Nat) : ∀ {i : Nat} {ρ : Vars} {m : M}, Dom ρ0 ρ → Ready ρ m →
    (∀ n, Flow.run k.code k.tg n ⟨i, some ρ, []⟩ = none) → ∃ N q, n ≤ N ∧ bsteps E u.all N (off L i, m) = some q := by
  induction n with
  | zero => intro i ρ m _ _ _; exact ⟨0, _, Nat.le_refl _, rfl⟩
  | succ n ih =>
    intro i ρ m hd hm hr
    have hstep : ∃ c' ρ', Flow.step k.code k.tg ⟨i, some ρ, []⟩ = .go c' ∧ c'.st = some ρ' ∧ Dom ρ0 ρ' := by
      have h1 := hr 1
      unfold Flow.run at h1
      unfold Flow.step at h1 ⊢
      dsimp only at h1 ⊢
      cases hx : k.code[i]? with
      | none =>
        rw [hx] at h1
        dsimp only at h1
        by_cases hi : i = k.code.length
        · rw [if_pos hi] at h1
          cases h1
        · rw [if_neg hi] at h1
          cases h1
      | some x =>
        have hi := (List.getElem?_eq_some_iff.mp hx).1
        rw [← h.rep.len] at hi
        have hf := h.rep.fits i x _ hx (List.getElem?_eq_getElem hi)
        have hkx := hk x (List.mem_of_getElem? hx)
        cases x with
        | act f =>
          obtain ⟨ρ', h2, h3⟩ := hkx ρ hd
          exact ⟨_, ρ', rfl, h2, h3⟩
        | bz t id => exact ⟨_, ρ, rfl, hkx ρ hd, hd⟩
        | jmp id => exact ⟨_, ρ, rfl, rfl, hd⟩
        | ret r => rw [hx] at h1; cases h1
        | push s => exact hf.elim
        | pop => exact hf.elim
        | sw a b => exact hf.elim
    obtain ⟨⟨i', st', stk'⟩, ρ', h1, h2, h3⟩ := hstep
    obtain ⟨h4, N, m1, h5, h6, -⟩ := h.step (E := E) h1 h2 hm
    dsimp only at h2 h4 h5
    subst h2 h4
    obtain ⟨N', q, h7, h8⟩ := ih h3 h6 (fun n => by
      have := hr (n + 1)
      unfold Flow.run at this
      rw [h1] at this
      exact this)
    exact ⟨N + 1 + N', q, by omega, bsteps_add h5 h8⟩

/-- A program whose source does not end, and whose expressions always have a value, runs for ever: every number
of instructions is executed without undefined behaviour and without leaving the unit. -/
theorem C112_diverges_partial {neg : Word32 → Word32} {glob : Bool} {s : IS} {U : BU} (hg : s.good neg)
    (hc : compileUnit neg s glob = some U) {ρ : Vars} (hs : s.safe ρ) (hx : ∀ n, Flow.exec n s.means (some ρ) = none) (E : Env)
    {m : M} (hm : Ready ρ m) (N : Nat) : ∃ q, bsteps E U.all N (0, m) = some q := by
  obtain ⟨k, L, h1, h2, -⟩ := unit_done hg hc
  have h3 := Flow.C40_diverges_partial h1 (means_ok s) (some ρ) hx
  have hk : AllKeep ρ k := compile_keeps s hs (fun x hx => by cases hx) h1
  obtain ⟨N', q, h4, h5⟩ := h2.goes (E := E) hk N (fun _ _ => rfl) hm h3
  rw [off_zero] at h5
  exact bsteps_le h5 h4

/-- Expressions without parentheses, with at most two operators on plain operands, are handled: it is enough that
they have a value for some values of the variables. -/
theorem good_bare {neg : Word32 → Word32} {e : IE} (ho : e.ok) (hb : e.bare) (hf : e.few) {ρ : Vars} {w : Word32}
    (hw : e.eval ρ = some w) : Good neg e := by
  obtain ⟨c, h⟩ := compile_total (fine_calm ρ neg true) (live_calm ρ neg) ho (IE.few_clear hf) (IE.bare_parts hb) hw
  have h' : compileCalm neg true e = some c := h
  exact ⟨ho, IE.few_clear hf, by rw [h']; rfl⟩

/-- The same with parentheses that hold no sum, difference or quotient of two variables. -/
theorem good_text {neg : Word32 → Word32} {e : IE} (ho : e.ok) (hf : e.few) (ht : e.tight = true) {ρ : Vars}
    {w : Word32} (hw : e.eval ρ = some w) : Good neg e :=
  ⟨ho, IE.few_clear hf, calm_text ho hf ht hw⟩

end Wrench.Prog
