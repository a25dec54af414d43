import Verif.Frames.Chain
import Verif.Frames.Slice

/-
C99: running a script in time slices does what running it in one go does.
-/
namespace Wrench.Frames

/-! ### Two memories that differ above the stack -/

/-- Same cells outside the stack, same slots below `n`; further slots may have been cleared. -/
structure Agree (n : Nat) (mem mem' : Mem) : Prop where
  heap : mem'.heap = mem.heap
  stk : ∀ i, i < n → mem'.stk i = mem.stk i
  clear : ∀ i, mem'.stk i = mem.stk i ∨ mem'.stk i = .int 0

def TwoRes (n : Nat) : Res (Mem × Option Nat) → Res (Mem × Option Nat) → Prop
  | .ok (a, j), .ok (b, j') => j' = j ∧ Agree n a b
  | .err, .err => True
  | .ub, .ub => True
  | _, _ => False

/-- An instruction does not read above the stack. -/
def PTwo (n : Nat) (p : Plain) : Prop :=
  ∀ (S : Nat → Prop) (fb lo top : Nat) (mem mem' : Mem),
    (∀ i, i < n → S (fb + i)) → (∀ i, S i → i + 1 < lo) → Closed S mem → Operands S mem lo top →
    lo + p.need ≤ top → Agree top mem mem' →
    TwoRes (top - p.need + p.push) (p.run fb top mem) (p.run fb top mem')

/-- Container members and library calls depend on the cells outside the stack and on what their arguments
refer to. -/
structure Prog.Blind (P : Prog) : Prop where
  elem : ∀ (S : Nat → Prop) mem mem' a k, Closed S mem → mem'.heap = mem.heap → (∀ i, S i → mem'.stk i = mem.stk i) →
    Good S a → P.elem mem' a k = P.elem mem a k
  lib : ∀ (S : Nat → Prop) mem mem' k args, Closed S mem → mem'.heap = mem.heap →
    (∀ i, S i → mem'.stk i = mem.stk i) → (∀ v ∈ args, ∀ a, v.ptr = some a → Good S a) →
    P.lib k args mem' = P.lib k args mem

theorem Agree.put {n : Nat} {mem mem' : Mem} (h : Agree n mem mem') (a : Addr) (v : Val) :
    Agree n (mem.put a v) (mem'.put a v) := by
  cases a with
  | s i =>
    refine ⟨h.heap, fun j hj => ?_, fun j => ?_⟩ <;> simp only [Mem.put] <;> split
    · rfl
    · exact h.stk j hj
    · exact .inl rfl
    · exact h.clear j
  | h i => exact ⟨by simp only [Mem.put, h.heap], h.stk, h.clear⟩

theorem Agree.snoc {n : Nat} {mem mem' : Mem} (h : Agree n mem mem') (v : Val) :
    Agree (n + 1) (mem.put (.s n) v) (mem'.put (.s n) v) := by
  refine ⟨h.heap, fun j hj => ?_, (h.put (.s n) v).clear⟩
  simp only [Mem.put]
  split
  · rfl
  · exact h.stk j (by omega)

theorem Agree.mono {n k : Nat} {mem mem' : Mem} (h : Agree n mem mem') (hk : k ≤ n) : Agree k mem mem' :=
  ⟨h.heap, fun i hi => h.stk i (by omega), h.clear⟩

theorem Agree.refl (n : Nat) (mem : Mem) : Agree n mem mem := ⟨rfl, fun _ _ => rfl, fun _ => .inl rfl⟩

/-- Clearing the slot above the stack. -/
theorem Agree.force {n : Nat} {mem mem' : Mem} (h : Agree n mem mem') : Agree n mem (mem'.put (.s n) (.int 0)) := by
  refine ⟨h.heap, fun j hj => ?_, fun j => ?_⟩
  · rw [put_stk_ne _ _ (by omega)]; exact h.stk j hj
  · by_cases hj : j = n
    · subst hj; rw [put_stk_same]; exact .inr rfl
    · rw [put_stk_ne _ _ hj]; exact h.clear j

private theorem derefF_two {P : Prog} (hB : P.Blind) {S : Nat → Prop} {mem mem' : Mem} (hc : Closed S mem)
    (hh : mem'.heap = mem.heap) (hs : ∀ i, S i → mem'.stk i = mem.stk i) : ∀ (f : Nat) (v : Val),
    (∀ a, v.ptr = some a → Good S a) → derefF P mem' f v = derefF P mem f v
  | 0, _, _ => rfl
  | f + 1, v, hv => by
    cases v with
    | ref a =>
      simp only [derefF]
      cases a with
      | s i =>
        have hi : S i := hv _ rfl
        simp only [Mem.get]
        rw [hs i hi]
        exact derefF_two hB hc hh hs f _ (fun a ha => (hc.vars i hi a ha).mono fun j hj => hj.1)
      | h i =>
        simp only [Mem.get]
        rw [hh]
        exact derefF_two hB hc hh hs f _ (fun a ha => by rw [hc.heap i] at ha; cases ha)
    | mem a k =>
      simp only [derefF]
      rw [hB.elem S mem mem' a k hc hh hs (hv a rfl)]
    | int _ => rfl
    | obj _ => rfl
    | frame _ _ => rfl
    | nul => rfl

theorem deref_two {P : Prog} (hB : P.Blind) {S : Nat → Prop} {mem mem' : Mem} (hc : Closed S mem)
    (hh : mem'.heap = mem.heap) (hs : ∀ i, S i → mem'.stk i = mem.stk i) {v : Val}
    (hv : ∀ a, v.ptr = some a → Good S a) : deref P mem' v = deref P mem v :=
  derefF_two hB hc hh hs _ v hv

/-! ### Two runs -/

/-- The state of the sliced run `m'` is that of the run in one go `m`, up to cleared slots that are not in
use. -/
structure Alike (P : Prog) (stop : Nat) (m m' : M) : Prop where
  pc : m'.pc = m.pc
  fb : m'.fb = m.fb
  top : m'.top = m.top
  r0 : m'.r0 = m.r0
  mem : Agree m.top m.mem m'.mem
  ret : P.code m.pc = some .pushRet ∨ m.pc = stop → ∀ r, m.r0 = some r → ∀ i, i ≤ r + 1 → m'.mem.stk i = m.mem.stk i

def AlikeO (P : Prog) (stop : Nat) : Out → Out → Prop
  | .run m, .run m' => Alike P stop m m'
  | .done v mem, .done v' mem' => v' = v ∧ mem'.heap = mem.heap
  | .err, .err => True
  | .ub, .ub => True
  | _, _ => False

/-- At a call that leaves the first local where no argument was, that slot is clear. -/
def ClearAt (P : Prog) (m : M) : Prop :=
  ∀ g n F, P.code m.pc = some (.call g n) → P.fns g = some F → n ≤ F.arguments → 0 < F.frameSpaceNeeded →
    P.asInt (m.mem.stk (m.top - n + F.arguments)) = .int 0

/-- What is asked of the program: it is well formed, no instruction reads above the stack, and `stop` is
where the host's calls end. -/
structure Sliceable (P : Prog) (dep : Depths) (stop : Nat) : Prop where
  ok : P.Ok
  wf : WF P dep
  blind : P.Blind
  two : ∀ pc f d p, dep pc = some (f, d, false) → P.code pc = some (.plain p) → PTwo (nvars P f) p
  nodep : dep stop = none
  stops : ∀ pc, P.code pc = some .stop ↔ pc = stop

theorem Inv.notRet {P : Prog} {dep : Depths} {stop : Nat} (hS : Sliceable P dep stop) {S : Nat → Prop} {f : Option Nat}
    {d lo : Nat} {m : M} (h : Inv P dep S f d false lo m) : P.code m.pc ≠ some .pushRet ∧ m.pc ≠ stop := by
  obtain ⟨i, hi, hok⟩ := hS.wf.code _ _ _ h.pc
  refine ⟨fun hp => ?_, fun hp => ?_⟩
  · rw [hp] at hi
    injection hi with hi
    subst hi
    exact hok.elim
  · have := h.pc
    rw [hp, hS.nodep] at this
    cases this

/-- Slots read by a library call. -/
private theorem slots_two {mem mem' : Mem} {t n : Nat} (hn : n ≤ t) (h : Agree t mem mem') :
    slots mem' (t - n) n = slots mem (t - n) n := by
  simp only [slots]
  apply List.map_congr_left
  intro i hi
  rw [List.mem_range] at hi
  exact h.stk _ (by omega)

private theorem call_two {P : Prog} {dep : Depths} {stop base : Nat} (hS : Sliceable P dep stop) {m m' m1 : M}
    {S : Nat → Prop} {f : Option Nat} {d lo g n : Nat} {F : Fn} {v : Val} (h : Inv P dep S f d false lo m)
    (hz : Alike P stop m m') (hi : P.code m.pc = some (.call g n)) (hF : P.fns g = some F) (hcl : ClearAt P m)
    (e : stepH P base v m = .run m1) (E : Entered P F n (m.pc + 1) m m1)
    (hn1 : P.code m1.pc ≠ some .pushRet ∧ m1.pc ≠ stop) :
    ∃ m1', stepH P base v m' = .run m1' ∧ Alike P stop m1 m1' := by
  have ht := h.top
  obtain ⟨i, hi', hok⟩ := hS.wf.code _ _ _ h.pc
  rw [hi] at hi'
  injection hi' with hi'
  subst hi'
  obtain ⟨hn, -, -⟩ := hok
  have hn' : n ≤ m.top := by omega
  have ans : ∀ {o : Out} {x : M}, (∀ c, o ≠ .yielded c) → answer v o = .run x → o = .run x := by
    intro o x h1 h2
    cases o with
    | yielded c => exact absurd rfl (h1 c)
    | _ => exact h2
  have hns : ¬ m.top < n := by omega
  have noY : ∀ (y : M) (ret : Nat) c, callFn P F n y ret ≠ .yielded c := by
    intro y ret c hy
    unfold callFn at hy
    dsimp only at hy
    split at hy
    · cases hy
    · split at hy
      · cases hy
      · split at hy <;> cases hy
  simp only [stepH, step, hi, hF, if_neg hns] at e
  have e1 := ans (noY _ _) e
  obtain ⟨m1', c1, c2, c3, c4, c5, c6, c7⟩ := callFn_two hz.top hz.fb hn' e1
  have hpc' := hz.pc
  refine ⟨m1', ?_, c4, c3, c2, c5, ?_, fun hc => ?_⟩
  · simp only [stepH, step, hpc', hi, hF, hz.top, if_neg hns, c1]
    rfl
  · have E' : Entered P F n (m.pc + 1) m' m1' := by
      rcases callFn_entered (P := P) (m := m') (n := n) (ret := m.pc + 1) (hS.wf.fns g F hF).2
        (by rw [hz.top]; exact hn') with e' | ⟨x, e', E'⟩
      · rw [c1] at e'; cases e'
      · rw [c1] at e'
        injection e' with e'
        subst e'
        exact E'
    have efb : m1.fb = m.top - n := E.fb
    have efb' : m1'.fb = m.top - n := by rw [c3]; exact efb
    have etop := E.top
    have hst : ∀ i, i < m1.top → m1'.mem.stk i = m1.mem.stk i := by
      intro i hi1
      rw [etop] at hi1
      by_cases g1 : i < m.top - n
      · rw [E.below i g1, E'.below i (by rw [hz.top]; exact g1), hz.mem.stk i (by omega)]
      · by_cases g2 : i < m.top - n + F.arguments
        · obtain ⟨j, rfl⟩ : ∃ j, i = m.top - n + j := ⟨i - (m.top - n), by omega⟩
          have a1 := E.args j (by omega)
          have a2 := E'.args j (by omega)
          rw [efb] at a1
          rw [efb', hz.top] at a2
          rw [a1, a2]
          by_cases hj : j < n
          · rw [if_pos hj, if_pos hj, hz.mem.stk _ (by omega)]
          · rw [if_neg hj, if_neg hj]
        · by_cases g3 : i = m.top - n + F.arguments + F.frameSpaceNeeded
          · have a1 := E.vector
            have a2 := E'.vector
            rw [efb] at a1
            rw [efb', hz.fb] at a2
            rw [g3, a1, a2]
          · by_cases g4 : i = m.top - n + F.arguments
            · have a1 := E.local0 (by omega)
              have a2 := E'.local0 (by omega)
              rw [efb] at a1
              rw [efb', hz.top] at a2
              rw [g4, a1, a2]
              by_cases hna : n ≤ F.arguments
              · have hc := hcl g n F hi hF hna (by omega)
                rcases hz.mem.clear (m.top - n + F.arguments) with q | q
                · rw [q]
                · rw [q, hc]; rfl
              · rw [hz.mem.stk _ (by omega)]
            · obtain ⟨j, rfl⟩ : ∃ j, i = m.top - n + F.arguments + j := ⟨i - (m.top - n + F.arguments), by omega⟩
              have a1 := E.locals j (by omega) (by omega)
              have a2 := E'.locals j (by omega) (by omega)
              rw [efb] at a1
              rw [efb'] at a2
              rw [a1, a2]
    refine ⟨by rw [E.heap, E'.heap, hz.mem.heap], hst, fun i => ?_⟩
    by_cases hi1 : m1.top ≤ i
    · rw [c6 i hi1, c7 i hi1]; exact hz.mem.clear i
    · exact .inl (hst i (by omega))
  · rcases hc with hc | hc
    · exact absurd hc hn1.1
    · exact absurd hc hn1.2

/-- One instruction of both runs. -/
theorem alike_step {P : Prog} {dep : Depths} {stop base : Nat} (hS : Sliceable P dep stop) {m m' : M}
    (h : Sound P dep base stop m) (hz : Alike P stop m m') (hcl : ClearAt P m) {v : Val} (hv : v.ptr = none) :
    AlikeO P stop (stepH P base v m) (stepH P base v m') := by
  have inside : ∀ {S : Nat → Prop} {f : Option Nat} {d lo : Nat} {fr : Bool}, Inv P dep S f d fr lo m →
      (fr = true → Fresh m) → AlikeO P stop (stepH P base v m) (stepH P base v m') := by
    intro S f d lo fr inv fresh
    have ht := inv.top
    have hpc' := hz.pc
    have htop := hz.top
    have hSeq : ∀ i, S i → m'.mem.stk i = m.mem.stk i := fun i hi => by
      have := inv.below i hi
      exact hz.mem.stk i (by omega)
    cases fr with
    | true =>
      obtain ⟨h1, h2⟩ := hS.wf.fresh _ _ _ inv.pc
      obtain ⟨r, T, hr0, hT, hg, hle⟩ := fresh rfl
      have hag := hz.ret (.inl h1) r hr0
      obtain ⟨u, hu, huf⟩ := deref_ok hS.ok hT hg
      have hu' : deref P m'.mem (m'.mem.stk (r + 1)) = .ok u := by
        rw [hag _ (Nat.le_refl _), deref_two hS.blind hT hz.mem.heap (fun i hi => hag i (by have := hle i hi; omega)) hg, hu]
      have hr0' : m'.r0 = some r := by rw [hz.r0, hr0]
      simp only [stepH, step, hpc', h1, hr0, hr0', hu, hu', htop]
      by_cases hl : P.limit ≤ m.top + 1
      · rw [if_pos hl, if_pos hl]; trivial
      · rw [if_neg hl, if_neg hl]
        refine ⟨rfl, hz.fb, rfl, rfl, hz.mem.snoc u, ?_⟩
        intro hc
        exfalso
        obtain ⟨i, hi, hok⟩ := hS.wf.code _ _ _ h2
        rcases hc with hc | hc
        · rw [hi] at hc
          injection hc with hc
          subst hc
          exact hok
        · dsimp only at hc
          rw [hc, hS.nodep] at h2
          cases h2
    | false =>
      obtain ⟨ins, hi, hok⟩ := hS.wf.code _ _ _ inv.pc
      have notRet : ∀ {q : Nat} {e : Nat}, dep q = some (f, e, false) → ¬ (P.code q = some .pushRet ∨ q = stop) := by
        intro q e hd hc
        obtain ⟨i, hi, hok⟩ := hS.wf.code _ _ _ hd
        rcases hc with hc | hc
        · rw [hi] at hc
          injection hc with hc
          subst hc
          exact hok
        · rw [hc, hS.nodep] at hd
          cases hd
      have retCase : ∀ {x x' : M}, x.fb = m.fb → x'.fb = m'.fb → x'.top = x.top → m.fb ≤ x.top →
          Agree x.top x.mem x'.mem → AlikeO P stop (answer v (doRet x)) (answer v (doRet x')) := by
        intro x x' e1 e2 e3 e5 e4
        unfold doRet
        rw [e3]
        by_cases h2 : x.top < 2
        · rw [if_pos h2, if_pos h2]; trivial
        · rw [if_neg h2, if_neg h2, e4.stk _ (by omega)]
          cases hf : x.mem.stk (x.top - 2) with
          | frame fb ret =>
            refine ⟨rfl, rfl, by dsimp only; rw [e2, e1, hz.fb], rfl, ?_, ?_⟩
            · refine ⟨e4.heap, fun i hi => e4.stk i ?_, e4.clear⟩
              dsimp only at hi
              omega
            · intro _ r hr i hir
              injection hr with hr
              exact e4.stk i (by omega)
          | _ => trivial
      have hfb : f ≠ none → m.fb ≤ m.top := by
        intro hf
        cases f with
        | none => exact absurd rfl hf
        | some g =>
          obtain ⟨F, -, hlo⟩ := inv.frame g rfl
          omega
      have libTwo : ∀ k n, n ≤ m.top → n ≤ d →
          P.lib k (slots m'.mem (m.top - n) n) m'.mem = P.lib k (slots m.mem (m.top - n) n) m.mem := by
        intro k n hn hnd
        rw [slots_two hn hz.mem]
        refine hS.blind.lib S _ _ k _ inv.closed hz.mem.heap hSeq ?_
        intro x hx a ha
        simp only [slots, List.mem_map, List.mem_range] at hx
        obtain ⟨i, hi, rfl⟩ := hx
        exact inv.operands _ (by omega) (by omega) a ha
      cases ins with
      | plain p =>
        obtain ⟨hp, hn, hf, ht'⟩ := hok
        have two := hS.two _ _ _ p inv.pc hi S m.fb lo m.top m.mem m'.mem inv.cover inv.below inv.closed
          inv.operands (by omega) hz.mem
        have one := hp S m.fb lo m.top m.mem inv.cover inv.below inv.closed inv.operands (by omega)
        have hns : ¬ m.top < p.need := by omega
        simp only [stepH, step, hpc', hi, htop, hz.fb, if_neg hns]
        revert two one
        cases p.run m.fb m.top m.mem with
        | err => cases p.run m.fb m.top m'.mem <;> intro two <;> first | exact two.elim | (intros; trivial)
        | ub => intro _ one; exact one.elim
        | ok q =>
          obtain ⟨a, j⟩ := q
          cases p.run m.fb m.top m'.mem with
          | err => intro two; exact two.elim
          | ub => intro two; exact two.elim
          | ok q' =>
            obtain ⟨b, j'⟩ := q'
            rintro ⟨rfl, two⟩ ⟨-, -, -, hj⟩
            dsimp only
            by_cases hl : p.checked = true ∧ p.need < p.push ∧ P.limit ≤ m.top - p.need + p.push
            · rw [if_pos hl, if_pos hl]; trivial
            · rw [if_neg hl, if_neg hl]
              refine ⟨rfl, rfl, rfl, rfl, two, fun hc => ?_⟩
              exfalso
              cases j' with
              | none => exact notRet (hf hj) hc
              | some t => exact notRet (ht' t hj) hc
      | call g n =>
        obtain ⟨hn, ⟨F, hF⟩, -⟩ := hok
        have hns : ¬ m.top < n := by omega
        rcases call_step (base := base) hS.wf inv hi v with e | ⟨m1, F', hF', e, hE, hI⟩
        · have e' : stepH P base v m' = .err := by
            simp only [stepH, step, hpc', hi, hF, htop, if_neg hns] at e ⊢
            rcases callFn_entered (P := P) (m := m') (n := n) (ret := m.pc + 1) (hS.wf.fns g F hF).2
              (by omega) with e' | ⟨x, e', -⟩
            · rw [e']; rfl
            · obtain ⟨y, e'', -⟩ := callFn_two (m := m') (m' := m) hz.top.symm hz.fb.symm (by omega) e'
              rw [e''] at e
              cases e
          rw [e, e']
          trivial
        · obtain ⟨m1', e', hz1⟩ := call_two hS inv hz hi hF' hcl e hE (Inv.notRet hS hI)
          rw [e, e']
          exact hz1
      | pushRet => exact hok.elim
      | ret =>
        simp only [stepH, step, hpc', hi]
        exact retCase rfl rfl htop (hfb hok.2) hz.mem
      | retZero =>
        simp only [stepH, step, hpc', hi, htop]
        by_cases hl : P.limit ≤ m.top + 1
        · rw [if_pos hl, if_pos hl]; trivial
        · rw [if_neg hl, if_neg hl]
          exact retCase rfl rfl rfl (by have := hfb hok.2; dsimp only; omega) (hz.mem.snoc _)
      | lib k n =>
        obtain ⟨hn, hd⟩ := hok
        have hns : ¬ m.top < n := by omega
        simp only [stepH, step, hpc', hi, htop, if_neg hns, libTwo k n (by omega) hn]
        cases P.lib k (slots m.mem (m.top - n) n) m.mem with
        | none => trivial
        | some u =>
          dsimp only
          by_cases hn0 : n = 0
          · rw [if_pos hn0, if_pos hn0]
            by_cases hl : P.limit ≤ m.top + 1
            · rw [if_pos hl, if_pos hl]; trivial
            · rw [if_neg hl, if_neg hl]
              exact ⟨rfl, hz.fb, rfl, rfl, hz.mem.snoc u, fun hc => (notRet hd hc).elim⟩
          · rw [if_neg hn0, if_neg hn0]
            by_cases hl : P.limit ≤ m.top - (n - 1)
            · rw [if_pos hl, if_pos hl]; trivial
            · rw [if_neg hl, if_neg hl]
              refine ⟨rfl, hz.fb, rfl, rfl, ?_, fun hc => (notRet hd hc).elim⟩
              dsimp only
              have he : m.top - (n - 1) + (n - 1) = m.top := by omega
              rw [he, put_stk_same, put_stk_same]
              exact ((hz.mem.snoc u).put _ _).mono (by omega)
      | libPop k n =>
        obtain ⟨hn, hd⟩ := hok
        have hns : ¬ m.top < n := by omega
        simp only [stepH, step, hpc', hi, htop, if_neg hns, libTwo k n (by omega) hn]
        cases P.lib k (slots m.mem (m.top - n) n) m.mem with
        | none => trivial
        | some u =>
          exact ⟨rfl, hz.fb, rfl, rfl, (hz.mem.snoc u).mono (by dsimp only; omega), fun hc => (notRet hd hc).elim⟩
      | yield n =>
        obtain ⟨hn, hd⟩ := hok
        simp only [stepH, step, hpc', hi, htop, answer, resume, Ctx.setResult]
        refine ⟨rfl, hz.fb, rfl, rfl, ?_, fun hc => (notRet hd hc).elim⟩
        by_cases hn0 : n = 0
        · subst hn0
          simp only [ne_eq, not_true_eq_false, if_false]
          exact (hz.mem.snoc _).put _ _
        · simp only [ne_eq, hn0, not_false_eq_true, if_true, put_stk_same]
          exact (((hz.mem.snoc _).put _ _).put _ _).mono (by omega)
      | stop =>
        have := (hS.stops m.pc).mp hi
        have hd := inv.pc
        rw [this, hS.nodep] at hd
        cases hd
  cases h with
  | fn inv hF vars old vec susp fresh => exact inside inv fresh
  | glob inv fresh => exact inside inv fresh
  | @stop r T hpc hr0 closed good le out base_le =>
    have hi := (hS.stops m.pc).mpr hpc
    have hag := hz.ret (.inr hpc) r hr0
    have hr0' : m'.r0 = some r := by rw [hz.r0, hr0]
    simp only [stepH, step, hz.pc, hi, hr0, hr0', put_stk_same]
    have hd : deref P (m'.mem.put (.s base) (m'.mem.stk (r + 1))) (m'.mem.stk (r + 1)) =
        deref P (m.mem.put (.s base) (m.mem.stk (r + 1))) (m.mem.stk (r + 1)) := by
      rw [hag _ (Nat.le_refl _)]
      refine deref_two (mem := m.mem.put (.s base) (m.mem.stk (r + 1)))
        (mem' := m'.mem.put (.s base) (m.mem.stk (r + 1))) hS.blind (closed.put_out out _) hz.mem.heap (fun i hi => ?_) good
      have hne : i ≠ base := by rintro rfl; exact out hi
      rw [put_stk_ne _ _ hne, put_stk_ne _ _ hne]
      exact hag i (by have := le i hi; omega)
    rw [hd]
    cases deref P (m.mem.put (.s base) (m.mem.stk (r + 1))) (m.mem.stk (r + 1)) with
    | ok u => exact ⟨rfl, hz.mem.heap⟩
    | err => trivial
    | ub => trivial

/-! ### Runs -/

/-- The outcome of a sliced run is that of the run in one go. -/
def Same (P : Prog) (stop : Nat) : Out → SOut → Prop
  | .run m, .run s => Alike P stop m s.m
  | .done v mem, .done v' mem' _ => v' = v ∧ mem'.heap = mem.heap
  | .err, .err => True
  | .ub, .ub => True
  | _, _ => False

/-- Only instructions that stay in their frame end in CHECK_FORCE_YIELD. -/
def OnlyPlain (P : Prog) (chk : Nat → Bool) : Prop :=
  ∀ pc, chk pc = true → ∃ p, P.code pc = some (.plain p)

/-- The count is about to be decremented below the least `int`. -/
def Overflows (chk : Nat → Bool) (s : Sl) : Prop := chk s.m.pc = true ∧ s.count = BitVec.intMin 32

private theorem plain_run {P : Prog} {base : Nat} {m m1 : M} {p : Plain} (hp : P.code m.pc = some (.plain p))
    (h : step P base m = .run m1) : m1.r0 = none := by
  simp only [step, hp] at h
  split at h
  · cases h
  · split at h
    · split at h
      · cases h
      · injection h with h
        subst h; rfl
    · cases h
    · cases h

private theorem enter_m (n : Word32) (m : M) (k : Word32) : (enter n m k).m = m := by
  unfold enter; split <;> rfl

theorem same_step {P : Prog} {dep : Depths} {stop base : Nat} {chk : Nat → Bool} (hS : Sliceable P dep stop)
    (hchk : OnlyPlain P chk) {m : M} {s : Sl} (h : Sound P dep base stop m) (hz : Alike P stop m s.m)
    (hcl : ClearAt P m) {e : Visit} (hv : e.ans.ptr = none)
    (hov : ¬ Overflows chk (if e.force then s.forceYield else s)) :
    Same P stop (stepH P base e.ans m) (stepHS P base chk e s) := by
  have key := alike_step hS h hz hcl hv
  have hs : (if e.force then s.forceYield else s).m = s.m := by split <;> rfl
  unfold stepHS stepS
  generalize (if e.force then s.forceYield else s) = s' at hs hov
  rw [hs]
  unfold Overflows at hov
  rw [hs] at hov
  unfold stepH at key
  unfold stepH
  generalize step P base m = o at key
  revert key
  cases ho' : step P base s.m with
  | err => cases o <;> intro key <;> first | exact key | exact key.elim
  | ub => cases o <;> intro key <;> first | exact key | exact key.elim
  | done v mem => cases o <;> intro key <;> first | exact key | exact key.elim
  | yielded c =>
    cases o with
    | run m1 => intro key; simp only [answer, goOn, AlikeO] at key ⊢; simp only [Same, enter_m]; exact key
    | yielded c' => intro key; simp only [answer, goOn, AlikeO] at key ⊢; simp only [Same, enter_m]; exact key
    | _ => intro key; exact key.elim
  | run m1 =>
    intro key
    have key' : ∃ m0, answer e.ans o = .run m0 ∧ Alike P stop m0 m1 := by
      revert key
      cases answer e.ans o <;> intro key <;> first | exact ⟨_, rfl, key⟩ | exact key.elim
    obtain ⟨m0, e0, key⟩ := key'
    rw [e0]
    dsimp only
    by_cases hc : chk s.m.pc = true
    · rw [if_pos hc, if_neg (fun h => hov ⟨hc, h⟩)]
      by_cases hk : s'.count - 1 = 0 ∧ s'.enabled = true
      · rw [if_pos hk]
        simp only [goOn, Same, enter_m]
        obtain ⟨p, hp⟩ := hchk _ hc
        have hr := plain_run hp ho'
        refine ⟨key.pc, key.fb, key.top, ?_, ?_, ?_⟩
        · rw [← key.r0, hr]; rfl
        · have := key.mem.force
          simp only [resumeForced, force]
          rw [key.top]
          exact this
        · intro _ r hr'
          rw [← key.r0, hr] at hr'
          cases hr'
      · rw [if_neg hk]
        exact key
    · rw [if_neg hc]
      exact key

/-- No count of the run is decremented below the least `int`. -/
def NoOverflow (P : Prog) (base : Nat) (chk : Nat → Bool) : List Visit → SOut → Prop
  | e :: es, .run s => ¬ Overflows chk (if e.force then s.forceYield else s) ∧
      NoOverflow P base chk es (stepHS P base chk e s)
  | _, _ => True

/-- Every call of the run finds the slot of the first local clear. -/
def ClearRun (P : Prog) (base : Nat) : List Val → Out → Prop
  | v :: vs, .run m => ClearAt P m ∧ ClearRun P base vs (stepH P base v m)
  | _, _ => True

theorem same_run {P : Prog} {dep : Depths} {stop base : Nat} {chk : Nat → Bool} (hS : Sliceable P dep stop)
    (hchk : OnlyPlain P chk) : ∀ (es : List Visit) (m : M) (s : Sl), Sound P dep base stop m → Alike P stop m s.m →
    (∀ e ∈ es, e.ans.ptr = none) → ClearRun P base (es.map (·.ans)) (.run m) → NoOverflow P base chk es (.run s) →
    Same P stop (runH P base (es.map (·.ans)) (.run m)) (runS P base chk es (.run s))
  | [], m, s, _, hz, _, _, _ => hz
  | e :: es, m, s, h, hz, hv, hc, hn => by
    obtain ⟨hc1, hc2⟩ := hc
    obtain ⟨hn1, hn2⟩ := hn
    have hv1 := hv e (List.mem_cons_self ..)
    have one := same_step hS hchk h hz hc1 hv1 hn1
    simp only [List.map_cons, runH, runS]
    have snd : ∀ m1, stepH P base e.ans m = .run m1 → Sound P dep base stop m1 := by
      intro m1 e1
      by_cases hp : m.pc = stop
      · have hi := (hS.stops m.pc).mpr hp
        simp only [stepH, step, hi] at e1
        revert e1
        cases m.r0 with
        | none => intro e1; cases e1
        | some r =>
          dsimp only
          cases deref P (m.mem.put (.s base) (m.mem.stk (r + 1))) ((m.mem.put (.s base) (m.mem.stk (r + 1))).stk base) <;>
            intro e1 <;> cases e1
      · exact sound_step hS.ok hS.wf h hp hv1 e1
    revert one hc2 hn2 snd
    generalize stepH P base e.ans m = o
    generalize stepHS P base chk e s = o'
    intro hc2 hn2 one snd
    cases o with
    | run m1 =>
      cases o' with
      | run s1 => exact same_run hS hchk es m1 s1 (snd m1 rfl) one (fun x hx => hv x (List.mem_cons_of_mem _ hx)) hc2 hn2
      | _ => exact one.elim
    | done v mem =>
      cases o' with
      | done v' mem' k => cases es <;> exact one
      | _ => exact one.elim
    | err =>
      cases o' with
      | err => cases es <;> exact one
      | _ => exact one.elim
    | ub =>
      cases o' with
      | ub => cases es <;> exact one
      | _ => exact one.elim
    | yielded c => cases o' <;> exact one.elim

/-- **C99, partial.**  A host call of a function, run in slices of any sizes, with `wr_forceYield` at any
points and any values answering its `yield`s, goes through the states of the same call run in one go: same
instruction, frame, stack and cells outside the stack after every instruction, and when it ends, the same
result.  Missing: functions entered with something left in the slot of the first local
(`C99_fails_first_local`), calls into other contexts and host callbacks by hash. -/
theorem C99_slices_partial {P : Prog} {dep : Depths} {stop base g : Nat} {chk : Nat → Bool} {F : Fn} {mem : Mem}
    {argv : List Val} {m : M} (hS : Sliceable P dep stop) (hchk : OnlyPlain P chk) (hF : P.fns g = some F)
    (hh : ∀ i, (mem.heap i).ptr = none) (ha : ∀ v ∈ argv, v.ptr = none)
    (h : hostCall P none base stop mem F argv = .run m) (es : List Visit) (hv : ∀ e ∈ es, e.ans.ptr = none)
    (hc : ClearRun P base (es.map (·.ans)) (.run m)) (n count : Word32)
    (hn : NoOverflow P base chk es (.run (enter n m count))) :
    Same P stop (runH P base (es.map (·.ans)) (.run m)) (runS P base chk es (.run (enter n m count))) := by
  refine same_run hS hchk es m _ (sound_hostCall hS.wf hF hh ha h) ?_ hv hc hn
  rw [enter_m]
  exact ⟨rfl, rfl, rfl, rfl, Agree.refl _ _, fun _ _ _ _ _ => rfl⟩

/-! ### The length of a slice -/

/-- Counting down: `0 < n` as an `int`. -/
def Counting (s : Sl) : Prop := s.enabled = true ∧ 0#32 < s.count ∧ s.count < BitVec.intMin 32

private theorem counting_step {P : Prog} {base : Nat} {chk : Nat → Bool} {e : Visit} {s s1 : Sl} (hs : Counting s)
    (hn : 0#32 < e.slice ∧ e.slice < BitVec.intMin 32) (h : stepHS P base chk e s = .run s1) : Counting s1 := by
  have hent : ∀ m k, Counting (enter e.slice m k) := by
    intro m k
    unfold enter
    rw [if_neg (by intro h0; rw [h0] at hn; exact absurd hn.1 (by decide))]
    exact ⟨rfl, hn⟩
  have hs' : Counting (if e.force then s.forceYield else s) := by
    split
    · exact ⟨rfl, by simp [Sl.forceYield], by simp only [Sl.forceYield]; decide⟩
    · exact hs
  unfold stepHS stepS at h
  generalize (if e.force then s.forceYield else s) = s' at hs' h
  cases ho : step P base s'.m with
  | run m =>
    rw [ho] at h
    dsimp only at h
    by_cases hc : chk s'.m.pc = true
    · rw [if_pos hc] at h
      by_cases hk : s'.count = BitVec.intMin 32
      · rw [if_pos hk] at h; cases h
      · rw [if_neg hk] at h
        by_cases hf : s'.count - 1 = 0 ∧ s'.enabled = true
        · rw [if_pos hf] at h
          injection h with h
          subst h
          exact hent _ _
        · rw [if_neg hf] at h
          injection h with h
          subst h
          obtain ⟨h1, h2, h3⟩ := hs'
          refine ⟨h1, ?_, ?_⟩
          · dsimp only
            have : ¬ s'.count - 1 = 0 := fun h0 => hf ⟨h0, h1⟩
            generalize s'.count = k at *
            clear hf
            have h0 : (0#32).toNat < k.toNat := h2
            show (0#32).toNat < (k - 1#32).toNat
            rcases Nat.eq_zero_or_pos (k - 1#32).toNat with hz | hz
            · exact absurd (BitVec.eq_of_toNat_eq (by simpa using hz)) this
            · simpa using hz
          · dsimp only
            generalize s'.count = k at *
            have h0 : (0#32).toNat < k.toNat := h2
            have h4 : k.toNat < (BitVec.intMin 32).toNat := h3
            show (k - 1#32).toNat < (BitVec.intMin 32).toNat
            simp only [BitVec.toNat_sub, BitVec.toNat_ofNat] at h0 ⊢
            have := k.isLt
            omega
    · rw [if_neg hc] at h
      injection h with h
      subst h
      exact hs'
  | yielded c =>
    rw [ho] at h
    injection h with h
    subst h
    exact hent _ _
  | done v mem => rw [ho] at h; cases h
  | err => rw [ho] at h; cases h
  | ub => rw [ho] at h; cases h

/-- With slices switched on (positive sizes) the count never overflows: the hypothesis of
`C99_slices_partial` is met for every length of run. -/
theorem C99_no_overflow {P : Prog} {base : Nat} {chk : Nat → Bool} : ∀ (es : List Visit) (s : Sl), Counting s →
    (∀ e ∈ es, 0#32 < e.slice ∧ e.slice < BitVec.intMin 32) → NoOverflow P base chk es (.run s)
  | [], _, _, _ => trivial
  | e :: es, s, hs, hn => by
    refine ⟨?_, ?_⟩
    · rintro ⟨-, h⟩
      revert h
      split
      · simp only [Sl.forceYield]; decide
      · intro h
        have := hs.2.2
        rw [h] at this
        exact absurd this (by decide)
    · have hn1 := hn e (List.mem_cons_self ..)
      have hst := fun s1 => counting_step (P := P) (base := base) (chk := chk) (s1 := s1) hs hn1
      generalize stepHS P base chk e s = o at hst
      cases o with
      | run s1 =>
        exact C99_no_overflow es s1 (hst s1 rfl) (fun x hx => hn x (List.mem_cons_of_mem _ hx))
      | _ => cases es <;> trivial

/-- The instructions of one slice: run until something other than an instruction to execute comes. -/
inductive Uninterrupted (P : Prog) (base : Nat) (chk : Nat → Bool) : Nat → Sl → Sl → Prop where
  | nil {s : Sl} : Uninterrupted P base chk 0 s s
  | check {k : Nat} {s s1 s2 : Sl} : chk s.m.pc = true → stepS P base chk s = .run s1 →
      Uninterrupted P base chk k s1 s2 → Uninterrupted P base chk (k + 1) s s2
  | other {k : Nat} {s s1 s2 : Sl} : chk s.m.pc = false → stepS P base chk s = .run s1 →
      Uninterrupted P base chk k s1 s2 → Uninterrupted P base chk k s s2

private theorem stepS_check {P : Prog} {base : Nat} {chk : Nat → Bool} {s s1 : Sl} (hc : chk s.m.pc = true)
    (h : stepS P base chk s = .run s1) : s1.count = s.count - 1 ∧ s1.enabled = s.enabled ∧
      s.count ≠ BitVec.intMin 32 ∧ ¬ (s.count - 1 = 0 ∧ s.enabled = true) := by
  unfold stepS at h
  cases ho : step P base s.m with
  | run m =>
    rw [ho] at h
    dsimp only at h
    rw [if_pos hc] at h
    by_cases hk : s.count = BitVec.intMin 32
    · rw [if_pos hk] at h; cases h
    · rw [if_neg hk] at h
      by_cases hf : s.count - 1 = 0 ∧ s.enabled = true
      · rw [if_pos hf] at h; cases h
      · rw [if_neg hf] at h
        injection h with h
        subst h
        exact ⟨rfl, rfl, hk, hf⟩
  | _ => rw [ho] at h; cases h

private theorem stepS_other {P : Prog} {base : Nat} {chk : Nat → Bool} {s s1 : Sl} (hc : chk s.m.pc = false)
    (h : stepS P base chk s = .run s1) : s1.count = s.count ∧ s1.enabled = s.enabled := by
  unfold stepS at h
  cases ho : step P base s.m with
  | run m =>
    rw [ho] at h
    dsimp only at h
    rw [if_neg (by rw [hc]; decide)] at h
    injection h with h
    subst h
    exact ⟨rfl, rfl⟩
  | _ => rw [ho] at h; cases h

private theorem uninterrupted_count {P : Prog} {base : Nat} {chk : Nat → Bool} {k : Nat} {s s2 : Sl}
    (h : Uninterrupted P base chk k s s2) : s.enabled = true → 0 < s.count.toNat → 
    s2.enabled = true ∧ s2.count.toNat + k = s.count.toNat ∧ 0 < s2.count.toNat := by
  induction h with
  | nil => intro h1 h2; exact ⟨h1, rfl, h2⟩
  | @check k s s1 s2 hc hs _ ih =>
    intro h1 h2
    obtain ⟨a1, a2, a3, a4⟩ := stepS_check hc hs
    have hne : s.count - 1#32 ≠ 0#32 := fun h0 => a4 ⟨h0, h1⟩
    have hlt := s.count.isLt
    have e1 : (s.count - 1#32).toNat = s.count.toNat - 1 := by
      simp only [BitVec.toNat_sub, BitVec.toNat_ofNat]; omega
    have hpos : 0 < (s.count - 1#32).toNat := by
      rcases Nat.eq_zero_or_pos (s.count - 1#32).toNat with hz | hz
      · exact absurd (BitVec.eq_of_toNat_eq (by simpa using hz)) hne
      · exact hz
    obtain ⟨b1, b2, b3⟩ := ih (by rw [a2]; exact h1) (by rw [a1]; exact hpos)
    rw [a1] at b2
    have e2 : s2.count.toNat + k = (s.count - 1#32).toNat := b2
    exact ⟨b1, by omega, b3⟩
  | @other k s s1 s2 hc hs _ ih =>
    intro h1 h2
    obtain ⟨a1, a2⟩ := stepS_other hc hs
    rw [a1, a2] at ih
    exact ih h1 h2

/-- **C99, the length of a slice.**  With a slice size of `n`, fewer than `n` jumps are executed without a
forced yield, and the forced yield comes at the `n`-th: not before, not later. -/
theorem C99_slice_length {P : Prog} {base : Nat} {chk : Nat → Bool} {n : Word32} (hn : n ≠ 0) {m : M} {count : Word32}
    {k : Nat} {s : Sl} (h : Uninterrupted P base chk k (enter n m count) s) :
    k < n.toNat ∧ ∀ c j, stepS P base chk s = .forced c j → k + 1 = n.toNat ∧ j = 0 ∧ slicesUsed n j = n := by
  have he : (enter n m count).enabled = true ∧ (enter n m count).count = n := by
    unfold enter; rw [if_neg hn]; exact ⟨rfl, rfl⟩
  have hpos : 0 < n.toNat := by
    rcases Nat.eq_zero_or_pos n.toNat with hz | hz
    · exact absurd (BitVec.eq_of_toNat_eq (by simpa using hz)) hn
    · exact hz
  obtain ⟨b1, b2, b3⟩ := uninterrupted_count h he.1 (by rw [he.2]; exact hpos)
  rw [he.2] at b2
  refine ⟨by omega, fun c j hf => ?_⟩
  unfold stepS at hf
  cases ho : step P base s.m with
  | run m1 =>
    rw [ho] at hf
    dsimp only at hf
    split at hf
    · split at hf
      · cases hf
      · split at hf
        · next hk =>
          injection hf with _ hf
          subst hf
          have h1 : s.count = 1#32 := by
            have : s.count - 1#32 = 0#32 := hk.1
            exact BitVec.sub_eq_iff_eq_add.mp this |>.trans (by simp)
          have h2 : s.count.toNat = 1 := by rw [h1]; rfl
          refine ⟨by omega, hk.1, ?_⟩
          unfold slicesUsed
          rw [hk.1]
          simp
        · cases hf
    · cases hf
  | _ => rw [ho] at hf; cases hf

/-- **C99, the count.**  What `wr_slicesUsedLastCall` reports when the script returns or yields by itself is the
number of jumps it executed. -/
theorem C99_slices_used {P : Prog} {base : Nat} {chk : Nat → Bool} {n : Word32} (hn : n ≠ 0) {m : M} {count : Word32}
    {k : Nat} {s : Sl} (h : Uninterrupted P base chk k (enter n m count) s) :
    (∀ c j, stepS P base chk s = .yielded c j → (slicesUsed n j).toNat = k) ∧
      ∀ v mem j, stepS P base chk s = .done v mem j → (slicesUsed n j).toNat = k := by
  have he : (enter n m count).enabled = true ∧ (enter n m count).count = n := by
    unfold enter; rw [if_neg hn]; exact ⟨rfl, rfl⟩
  have hpos : 0 < n.toNat := by
    rcases Nat.eq_zero_or_pos n.toNat with hz | hz
    · exact absurd (BitVec.eq_of_toNat_eq (by simpa using hz)) hn
    · exact hz
  obtain ⟨-, b2, -⟩ := uninterrupted_count h he.1 (by rw [he.2]; exact hpos)
  rw [he.2] at b2
  have hu : (slicesUsed n s.count).toNat = k := by
    unfold slicesUsed
    rw [BitVec.toNat_sub]
    have := n.isLt
    have := s.count.isLt
    omega
  refine ⟨fun c j hf => ?_, fun v mem j hf => ?_⟩
  all_goals
    unfold stepS at hf
    cases ho : step P base s.m with
    | run m1 =>
      rw [ho] at hf
      dsimp only at hf
      split at hf
      · split at hf
        · cases hf
        · split at hf <;> cases hf
      · cases hf
    | _ => rw [ho] at hf; cases hf <;> exact hu

/-- **C99, off.**  With a slice size of 0 and no `wr_forceYield` there is no forced yield. -/
theorem C99_disabled {P : Prog} {base : Nat} {chk : Nat → Bool} {m : M} {count : Word32} {k : Nat} {s : Sl}
    (h : Uninterrupted P base chk k (enter 0 m count) s) : ∀ c j, stepS P base chk s ≠ .forced c j := by
  have he : (enter 0 m count).enabled = false := by simp [enter]
  have hd : s.enabled = false := by
    generalize enter 0 m count = s0 at h he
    induction h with
    | nil => exact he
    | check hc hs _ ih => exact ih (by rw [(stepS_check hc hs).2.1]; exact he)
    | other hc hs _ ih => exact ih (by rw [(stepS_other hc hs).2]; exact he)
  intro c j hf
  unfold stepS at hf
  rw [hd] at hf
  cases ho : step P base s.m with
  | run m1 =>
    rw [ho] at hf
    dsimp only at hf
    split at hf
    · split at hf
      · cases hf
      · rw [if_neg (by rintro ⟨-, h⟩; cases h)] at hf
        cases hf
    · cases hf
  | _ => rw [ho] at hf; cases hf

/-- **C99, wr_forceYield.**  The next jump after it yields, whatever the slice size. -/
theorem C99_force {P : Prog} {base : Nat} {chk : Nat → Bool} {s : Sl} {m1 : M} (hc : chk s.m.pc = true)
    (h : step P base s.m = .run m1) : ∃ c, stepS P base chk s.forceYield = .forced c 0 ∧ c.pc = m1.pc ∧ c.args = 0 := by
  refine ⟨force m1, ?_, rfl, rfl⟩
  unfold stepS
  simp only [Sl.forceYield, h, hc, if_true]
  rw [if_neg (by decide), if_pos (by decide)]
  rfl

end Wrench.Frames
