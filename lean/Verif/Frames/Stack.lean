import Verif.Frames.Chain
import Verif.Frames.Slice

/-
C106: the stack limit.  With WRENCH_PROTECT_STACK_FROM_OVERFLOW (wrench.h 109) the interpreter compares the
stack top with `stackLimit`, two slots before the end of the stack (vm.cpp 176, 681), after an instruction
has pushed (CHECK_STACK) and before the locals of a function are initialised (vm.cpp 1040-1046).

An instruction that ends in the error has already written; `after` is the memory it leaves.
-/
namespace Wrench.Frames

/-- The loop clearing missing arguments, vm.cpp 1028-1036: the memory it leaves, also when CHECK_STACK stops
it. -/
def fillMem (limit : Nat) : Nat → Mem → Nat → Mem
  | 0, mem, _ => mem
  | k + 1, mem, top =>
    let mem := mem.put (.s top) (.int 0)
    if limit ≤ top + 1 then mem else fillMem limit k mem (top + 1)

/-- What `callFunction:`, vm.cpp 1019-1066, leaves. -/
def callMem (P : Prog) (F : Fn) (n : Nat) (m : M) (ret : Nat) : Mem :=
  let filled := if F.arguments < n then some (m.mem, m.top - (n - F.arguments))
    else fillArgs P.limit (F.arguments - n) m.mem m.top
  match filled with
  | none => fillMem P.limit (F.arguments - n) m.mem m.top
  | some (mem, top) =>
    if P.limit ≤ top + F.frameSpaceNeeded + 2 then mem
    else
      let (mem, top) := initLocals P F.frameSpaceNeeded mem top
      mem.put (.s top) (.frame m.fb ret)

/-- The memory after one instruction, also when it ends in an error.  A library function (vm.cpp 1076-1136)
gets a pointer to the slot above its arguments. -/
def after (P : Prog) (base : Nat) (m : M) : Mem :=
  match P.code m.pc with
  | none => m.mem
  | some (.plain p) =>
    match p.run m.fb m.top m.mem with
    | .ok (mem, _) => mem
    | _ => m.mem
  | some (.call g n) =>
    match P.fns g with
    | none => m.mem
    | some F => callMem P F n m (m.pc + 1)
  | some .pushRet =>
    match m.r0 with
    | none => m.mem
    | some r => match deref P m.mem (m.mem.stk (r + 1)) with
      | .ok v => m.mem.put (.s m.top) v
      | _ => m.mem
  | some .ret => m.mem
  | some .retZero => m.mem.put (.s m.top) (.int 0)
  | some (.lib k n) =>
    match P.lib k (slots m.mem (m.top - n) n) m.mem with
    | none => m.mem.put (.s m.top) (.int 0)
    | some v =>
      let mem := m.mem.put (.s m.top) v
      if n = 0 then mem
      else
        let top := m.top - (n - 1)
        mem.put (.s (top - 1)) (mem.stk (top + (n - 1)))
  | some (.libPop k n) =>
    match P.lib k (slots m.mem (m.top - n) n) m.mem with
    | none => m.mem
    | some v => m.mem.put (.s m.top) v
  | some (.yield _) => m.mem.put (.s m.top) (.int 0)
  | some .stop =>
    match m.r0 with
    | none => m.mem
    | some r => m.mem.put (.s base) (m.mem.stk (r + 1))

/-- The memory of an outcome. -/
def Out.memory : Out → Option Mem
  | .run m => some m.mem
  | .yielded c => some c.mem
  | .done _ mem => some mem
  | .err => none
  | .ub => none

theorem callMem_agrees {P : Prog} {F : Fn} {n ret : Nat} {m m' : M} (h : callFn P F n m ret = .run m') :
    m'.mem = callMem P F n m ret ∧ m'.top < P.limit := by
  unfold callFn at h
  unfold callMem
  generalize (if F.arguments < n then some (m.mem, m.top - (n - F.arguments))
      else fillArgs P.limit (F.arguments - n) m.mem m.top) = x at h ⊢
  cases x with
  | none => cases h
  | some p =>
    obtain ⟨mem, top⟩ := p
    dsimp only at h ⊢
    split at h
    · cases h
    next hl =>
    rw [if_neg hl]
    split at h
    · cases h
    next hl2 =>
    injection h with h
    subst h
    exact ⟨rfl, by dsimp only; omega⟩

theorem callFn_memory {P : Prog} {F : Fn} {n ret : Nat} {m : M} {mem : Mem}
    (h : (callFn P F n m ret).memory = some mem) : mem = callMem P F n m ret := by
  have : (∃ m', callFn P F n m ret = .run m') ∨ callFn P F n m ret = .err := by
    unfold callFn
    generalize (if F.arguments < n then some (m.mem, m.top - (n - F.arguments))
      else fillArgs P.limit (F.arguments - n) m.mem m.top) = x
    cases x with
    | none => exact .inr rfl
    | some p =>
      dsimp only
      split
      · exact .inr rfl
      · split
        · exact .inr rfl
        · exact .inl ⟨_, rfl⟩
  rcases this with ⟨m', e⟩ | e
  · rw [e] at h
    cases h
    exact (callMem_agrees e).1
  · rw [e] at h; cases h

private theorem doRet_memory {m : M} {mem : Mem} (h : (doRet m).memory = some mem) : mem = m.mem := by
  unfold doRet at h
  split at h
  · cases h
  · split at h
    · cases h; rfl
    · cases h

/-- `after` is the memory of `step`. -/
theorem after_agrees {P : Prog} {base : Nat} {m : M} {mem : Mem} (h : (step P base m).memory = some mem) :
    mem = after P base m := by
  unfold step at h
  unfold after
  cases hc : P.code m.pc with
  | none => rw [hc] at h; cases h
  | some ins =>
    rw [hc] at h
    cases ins with
    | plain p =>
      dsimp only at h ⊢
      split at h
      · cases h
      · cases hr : p.run m.fb m.top m.mem with
        | ok q =>
          obtain ⟨q, j⟩ := q
          rw [hr] at h
          dsimp only at h ⊢
          split at h
          · cases h
          · cases h; rfl
        | err => rw [hr] at h; cases h
        | ub => rw [hr] at h; cases h
    | call g n =>
      dsimp only at h ⊢
      split at h
      · cases h
      · cases hF : P.fns g with
        | none => rw [hF] at h; cases h
        | some F => rw [hF] at h; exact callFn_memory h
    | pushRet =>
      dsimp only at h ⊢
      cases hr : m.r0 with
      | none => rw [hr] at h; cases h
      | some r =>
        rw [hr] at h
        dsimp only at h ⊢
        cases hd : deref P m.mem (m.mem.stk (r + 1)) with
        | ok v =>
          rw [hd] at h
          dsimp only at h ⊢
          split at h
          · cases h
          · cases h; rfl
        | err => rw [hd] at h; cases h
        | ub => rw [hd] at h; cases h
    | ret => exact doRet_memory h
    | retZero =>
      dsimp only at h ⊢
      split at h
      · cases h
      · exact doRet_memory h
    | lib k n =>
      dsimp only at h ⊢
      split at h
      · cases h
      · cases hl : P.lib k (slots m.mem (m.top - n) n) m.mem with
        | none => rw [hl] at h; cases h
        | some v =>
          rw [hl] at h
          dsimp only at h ⊢
          by_cases hn : n = 0
          · rw [if_pos hn] at h ⊢
            split at h
            · cases h
            · cases h; rfl
          · rw [if_neg hn] at h ⊢
            split at h
            · cases h
            · cases h; rfl
    | libPop k n =>
      dsimp only at h ⊢
      split at h
      · cases h
      · cases hl : P.lib k (slots m.mem (m.top - n) n) m.mem with
        | none => rw [hl] at h; cases h
        | some v => rw [hl] at h; cases h; rfl
    | yield n => cases h; rfl
    | stop =>
      dsimp only at h ⊢
      cases hr : m.r0 with
      | none => rw [hr] at h; cases h
      | some r =>
        rw [hr] at h
        dsimp only at h ⊢
        revert h
        generalize deref P _ _ = x
        cases x with
        | ok v => intro h; cases h; rfl
        | err => intro h; cases h
        | ub => intro h; cases h

/-! ### What is asked of the code -/

/-- An instruction that writes nothing above the slot it pushes to. -/
def Tame (n : Nat) (p : Plain) : Prop :=
  p.push ≤ p.need + 1 ∧ ∀ (S : Nat → Prop) (fb lo top : Nat) (mem mem' : Mem) (j : Option Nat),
    (∀ i, i < n → S (fb + i)) → (∀ i, S i → i + 1 < lo) → Closed S mem → Operands S mem lo top →
    lo + p.need ≤ top → p.run fb top mem = .ok (mem', j) → ∀ i, top < i → mem'.stk i = mem.stk i

/-- `U pc` bounds the number of slots above the limit in use at `pc`: what has been pushed without a check
since the last one. -/
structure Checked (P : Prog) (dep : Depths) (U : Nat → Nat) : Prop where
  le : ∀ pc, U pc ≤ 2
  plain : ∀ pc f d p, dep pc = some (f, d, false) → P.code pc = some (.plain p) → Tame (nvars P f) p ∧
    (p.checked = false ∨ p.push ≤ p.need →
      (p.falls = true → U pc + p.push ≤ U (pc + 1) + p.need) ∧
      ∀ t ∈ p.targets, U pc + p.push ≤ U t + p.need)
  libPop : ∀ pc k n, P.code pc = some (.libPop k n) → U pc ≤ U (pc + 1) + n
  yield : ∀ pc n, P.code pc = some (.yield n) → U pc + 1 ≤ U (pc + 1) + n

/-- The stack top is within the stack; a function's frame starts below the limit. -/
structure InStack (P : Prog) (dep : Depths) (U : Nat → Nat) (m : M) : Prop where
  top : m.top < P.limit + U m.pc
  fb : ∀ g d fr, dep m.pc = some (some g, d, fr) → m.fb < P.limit

/-! ### One instruction -/

theorem fillMem_above (limit : Nat) : ∀ (k : Nat) (mem : Mem) (top i : Nat), top ≤ limit + 1 → limit + 2 ≤ i →
    (fillMem limit k mem top).stk i = mem.stk i
  | 0, _, _, _, _, _ => rfl
  | k + 1, mem, top, i, h1, h2 => by
    simp only [fillMem]
    split
    · exact put_stk_ne _ _ (by omega)
    · rw [fillMem_above limit k _ _ i (by omega) h2, put_stk_ne _ _ (by omega)]

theorem callMem_above {P : Prog} {F : Fn} {n ret : Nat} {m : M} (ht : m.top ≤ P.limit + 1) {i : Nat}
    (hi : P.limit + 2 ≤ i) : (callMem P F n m ret).stk i = m.mem.stk i := by
  unfold callMem
  have key : ∀ mem top, (if F.arguments < n then some (m.mem, m.top - (n - F.arguments))
      else fillArgs P.limit (F.arguments - n) m.mem m.top) = some (mem, top) →
      top ≤ i → mem.stk i = m.mem.stk i := by
    intro mem top h
    split at h
    · cases h; exact fun _ => rfl
    · obtain ⟨q1, -, -, -, q5⟩ := fillArgs_spec _ _ _ _ _ _ h
      exact fun hti => q5 i (by omega)
  have key2 : ∀ k mem top mem' top', fillArgs P.limit k mem top = some (mem', top') →
      top' ≤ top ∨ top' < P.limit := by
    intro k
    induction k with
    | zero => intro mem top mem' top' h; simp only [fillArgs, Option.some.injEq, Prod.mk.injEq] at h; omega
    | succ k ih =>
      intro mem top mem' top' h
      simp only [fillArgs] at h
      split at h
      · cases h
      · rcases ih _ _ _ _ h with h | h <;> omega
  have key3 : ∀ mem top, (if F.arguments < n then some (m.mem, m.top - (n - F.arguments))
      else fillArgs P.limit (F.arguments - n) m.mem m.top) = some (mem, top) → top ≤ i := by
    intro mem top h
    split at h
    · cases h; omega
    · rcases key2 _ _ _ _ _ h with h | h <;> omega
  generalize hx : (if F.arguments < n then some (m.mem, m.top - (n - F.arguments))
      else fillArgs P.limit (F.arguments - n) m.mem m.top) = x at key key3 ⊢
  cases x with
  | none => exact fillMem_above _ _ _ _ _ ht hi
  | some p =>
    obtain ⟨mem, top⟩ := p
    dsimp only
    have e := key mem top rfl (key3 mem top rfl)
    split
    · exact e
    next hl =>
    obtain ⟨g1, -⟩ := initLocals_spec P F.frameSpaceNeeded mem top
    have a1 := initLocals_above P F.frameSpaceNeeded mem top i (by omega)
    generalize initLocals P F.frameSpaceNeeded mem top = q at g1 a1
    obtain ⟨mq, tq⟩ := q
    dsimp only at g1 a1 ⊢
    rw [put_stk_ne _ _ (by omega), a1, e]

private theorem after_inv {P : Prog} {dep : Depths} {U : Nat → Nat} (hW : WF P dep) (hU : Checked P dep U)
    {base : Nat} {S : Nat → Prop} {f : Option Nat} {d lo : Nat} {fr : Bool} {m : M}
    (hI : Inv P dep S f d fr lo m) (ht : m.top ≤ P.limit + 1) (hb : base ≤ P.limit + 1) {i : Nat}
    (hi : P.limit + 2 ≤ i) : (after P base m).stk i = m.mem.stk i := by
  unfold after
  cases hc : P.code m.pc with
  | none => rfl
  | some ins =>
    cases ins with
    | plain p =>
      dsimp only
      cases hr : p.run m.fb m.top m.mem with
      | err => rfl
      | ub => rfl
      | ok q =>
        obtain ⟨mem', j⟩ := q
        dsimp only
        cases fr with
        | true => have := (hW.fresh _ _ _ hI.pc).1; rw [hc] at this; cases this
        | false =>
          obtain ⟨ins, hc', hok⟩ := hW.code _ _ _ hI.pc
          rw [hc] at hc'
          injection hc' with hc'
          subst hc'
          exact (hU.plain _ _ _ _ hI.pc hc).1.2 S m.fb lo m.top m.mem mem' j hI.cover hI.below hI.closed
            hI.operands (by have := hok.2.1; have := hI.top; omega) hr i (by omega)
    | call g n =>
      dsimp only
      split
      · rfl
      · exact callMem_above ht hi
    | pushRet =>
      dsimp only
      split
      · rfl
      · split
        · exact put_stk_ne _ _ (by omega)
        · rfl
    | ret => rfl
    | retZero => exact put_stk_ne _ _ (by omega)
    | lib k n =>
      dsimp only
      split
      · exact put_stk_ne _ _ (by omega)
      · split
        · exact put_stk_ne _ _ (by omega)
        · rw [put_stk_ne _ _ (by omega), put_stk_ne _ _ (by omega)]
    | libPop k n =>
      dsimp only
      split
      · rfl
      · exact put_stk_ne _ _ (by omega)
    | yield n => exact put_stk_ne _ _ (by omega)
    | stop =>
      dsimp only
      split
      · rfl
      · exact put_stk_ne _ _ (by omega)

/-- No instruction writes outside the stack, also not one that ends in an error. -/
theorem after_above {P : Prog} {dep : Depths} {U : Nat → Nat} (hW : WF P dep) (hU : Checked P dep U)
    {base stop : Nat} (hstop : P.code stop = some .stop) {m : M} (h : Sound P dep base stop m)
    (hw : InStack P dep U m) (hb : base ≤ P.limit + 1) {i : Nat} (hi : P.limit + 2 ≤ i) :
    (after P base m).stk i = m.mem.stk i := by
  have ht : m.top ≤ P.limit + 1 := by have := hw.top; have := hU.le m.pc; omega
  cases h with
  | fn inv => exact after_inv hW hU inv ht hb hi
  | glob inv => exact after_inv hW hU inv ht hb hi
  | stop hp hr =>
    unfold after
    rw [hp, hstop, hr]
    exact put_stk_ne _ _ (by omega)

private theorem within_inv {P : Prog} {dep : Depths} {U : Nat → Nat} (hW : WF P dep) (hU : Checked P dep U)
    {base : Nat} {S : Nat → Prop} {f : Option Nat} {d lo : Nat} {fr : Bool} {m m1 : M} {v : Val}
    (hI : Inv P dep S f d fr lo m) (hw : InStack P dep U m) (hr : P.code m.pc ≠ some .ret)
    (hz : P.code m.pc ≠ some .retZero) (e : stepH P base v m = .run m1) : InStack P dep U m1 := by
  have ht := hw.top
  have htop := hI.top
  have fbKeep : ∀ {pc d' fr'}, dep pc = some (f, d', fr') → ∀ g d fr, dep pc = some (some g, d, fr) → m.fb < P.limit := by
    intro pc d' fr' h g d'' fr'' h'
    rw [h] at h'
    simp only [Option.some.injEq, Prod.mk.injEq] at h'
    exact hw.fb g d fr (by rw [hI.pc, h'.1])
  cases fr with
  | true =>
    obtain ⟨hc, hd⟩ := hW.fresh _ _ _ hI.pc
    simp only [stepH, step, hc] at e
    revert e
    cases m.r0 with
    | none => intro e; cases e
    | some r =>
      dsimp only
      cases deref P m.mem (m.mem.stk (r + 1)) with
      | err => intro e; cases e
      | ub => intro e; cases e
      | ok u =>
        dsimp only
        by_cases hl : P.limit ≤ m.top + 1
        · rw [if_pos hl]; intro e; cases e
        · rw [if_neg hl]
          intro e
          simp only [answer, Out.run.injEq] at e
          subst e
          exact ⟨by dsimp only; omega, fbKeep hd⟩
  | false =>
    obtain ⟨ins, hc, hok⟩ := hW.code _ _ _ hI.pc
    cases ins with
    | plain p =>
      obtain ⟨hp, hneed, hf, htg⟩ := hok
      have hT := hU.plain _ _ _ _ hI.pc hc
      have hpk := hp S m.fb lo m.top m.mem hI.cover hI.below hI.closed hI.operands (by omega)
      simp only [stepH, step, hc] at e
      rw [if_neg (by omega)] at e
      revert e hpk
      cases p.run m.fb m.top m.mem with
      | err => intro _ e; cases e
      | ub => intro h; exact h.elim
      | ok q =>
        obtain ⟨mem', j⟩ := q
        dsimp only
        intro hpk
        obtain ⟨-, -, -, hj⟩ := hpk
        by_cases hl : p.checked = true ∧ p.need < p.push ∧ P.limit ≤ m.top - p.need + p.push
        · rw [if_pos hl]; intro e; cases e
        · rw [if_neg hl]
          intro e
          simp only [answer, Out.run.injEq] at e
          subst e
          -- where it continues
          have hdst : (∃ d' fr', dep (j.getD (m.pc + 1)) = some (f, d', fr')) ∧
              (p.checked = false ∨ p.push ≤ p.need → U m.pc + p.push ≤ U (j.getD (m.pc + 1)) + p.need) := by
            cases j with
            | none => exact ⟨⟨_, _, hf hj⟩, fun h => (hT.2 h).1 hj⟩
            | some t => exact ⟨⟨_, _, htg t hj⟩, fun h => (hT.2 h).2 t hj⟩
          obtain ⟨⟨d', fr', hd'⟩, hu⟩ := hdst
          refine ⟨?_, fbKeep hd'⟩
          dsimp only
          by_cases hch : p.checked = false ∨ p.push ≤ p.need
          · have := hu hch; omega
          · have h1 : p.checked = true := by
              cases h : p.checked with
              | true => rfl
              | false => exact absurd (.inl h) hch
            have h2 : p.need < p.push := by
              refine Nat.lt_of_not_le fun h => hch (.inr h)
            have : ¬ P.limit ≤ m.top - p.need + p.push := fun h => hl ⟨h1, h2, h⟩
            omega
    | call g n =>
      obtain ⟨hn, ⟨F, hF⟩, -⟩ := hok
      simp only [stepH, step, hc, hF] at e
      rw [if_neg (by omega)] at e
      rcases callFn_entered (P := P) (m := m) (n := n) (ret := m.pc + 1) (hW.fns g F hF).2 (by omega) with e' | ⟨m', e', E⟩
      · rw [e'] at e; cases e
      · have hlim := (callMem_agrees e').2
        rw [e'] at e
        simp only [answer, Out.run.injEq] at e
        subst e
        refine ⟨by omega, fun _ _ _ _ => ?_⟩
        have := E.fb; have := E.top
        omega
    | pushRet => exact hok.elim
    | ret => exact absurd hc hr
    | retZero => exact absurd hc hz
    | lib k n =>
      obtain ⟨hn, hd⟩ := hok
      simp only [stepH, step, hc] at e
      rw [if_neg (by omega)] at e
      revert e
      cases P.lib k (slots m.mem (m.top - n) n) m.mem with
      | none => intro e; cases e
      | some u =>
        dsimp only
        by_cases hn0 : n = 0
        · rw [if_pos hn0]
          by_cases hl : P.limit ≤ m.top + 1
          · rw [if_pos hl]; intro e; cases e
          · rw [if_neg hl]
            intro e
            simp only [answer, Out.run.injEq] at e
            subst e
            exact ⟨by dsimp only; omega, fbKeep hd⟩
        · rw [if_neg hn0]
          by_cases hl : P.limit ≤ m.top - (n - 1)
          · rw [if_pos hl]; intro e; cases e
          · rw [if_neg hl]
            intro e
            simp only [answer, Out.run.injEq] at e
            subst e
            exact ⟨by dsimp only; omega, fbKeep hd⟩
    | libPop k n =>
      obtain ⟨hn, hd⟩ := hok
      have hu := hU.libPop _ _ _ hc
      simp only [stepH, step, hc] at e
      rw [if_neg (by omega)] at e
      revert e
      cases P.lib k (slots m.mem (m.top - n) n) m.mem with
      | none => intro e; cases e
      | some u =>
        dsimp only
        intro e
        simp only [answer, Out.run.injEq] at e
        subst e
        exact ⟨by dsimp only; omega, fbKeep hd⟩
    | yield n =>
      obtain ⟨hn, hd⟩ := hok
      have hu := hU.yield _ _ hc
      simp only [stepH, step, hc, answer, Out.run.injEq] at e
      subst e
      refine ⟨?_, fbKeep hd⟩
      simp only [resume, Ctx.setResult]
      by_cases h0 : n = 0
      · simp only [h0, ne_eq, not_true_eq_false, if_false]; omega
      · simp only [ne_eq, h0, not_false_eq_true, if_true]; omega
    | stop =>
      simp only [stepH, step, hc] at e
      revert e
      cases m.r0 with
      | none => intro e; cases e
      | some r =>
        dsimp only
        generalize deref P _ _ = x
        cases x <;> intro e <;> cases e

/-- The stack top stays within the stack. -/
theorem within_step {P : Prog} {dep : Depths} {U : Nat → Nat} (hW : WF P dep) (hU : Checked P dep U)
    {base stop : Nat} (hstop : P.code stop = some .stop) {m m1 : M} {v : Val} (h : Sound P dep base stop m)
    (hw : InStack P dep U m) (e : stepH P base v m = .run m1) : InStack P dep U m1 := by
  cases h with
  | stop hp hr =>
    simp only [stepH, step, hp, hstop, hr] at e
    revert e
    generalize deref P _ _ = x
    cases x <;> intro e <;> cases e
  | @glob S d lo fr inv _ =>
    refine within_inv hW hU inv hw ?_ ?_ e
    · intro hc
      cases fr with
      | true => have := (hW.fresh _ _ _ inv.pc).1; rw [hc] at this; cases this
      | false =>
        obtain ⟨i, hc', hok⟩ := hW.code _ _ _ inv.pc
        rw [hc] at hc'
        injection hc' with hc'
        subst hc'
        exact hok.2 rfl
    · intro hc
      cases fr with
      | true => have := (hW.fresh _ _ _ inv.pc).1; rw [hc] at this; cases this
      | false =>
        obtain ⟨i, hc', hok⟩ := hW.code _ _ _ inv.pc
        rw [hc] at hc'
        injection hc' with hc'
        subst hc'
        exact hok.2 rfl
  | @fn S R g d lo fb ret fr F inv hF vars old vec susp fresh =>
    have hfb := hw.fb _ _ _ inv.pc
    by_cases hrz : P.code m.pc = some .ret ∨ P.code m.pc = some .retZero
    · have hfr : fr = false := by
        cases fr with
        | false => rfl
        | true => have := (hW.fresh _ _ _ inv.pc).1; rcases hrz with h | h <;> rw [h] at this <;> cases this
      subst hfr
      obtain ⟨ins, hc, hrz'⟩ : ∃ ins, P.code m.pc = some ins ∧ (ins = .ret ∨ ins = .retZero) := by
        rcases hrz with h | h
        · exact ⟨_, h, .inl rfl⟩
        · exact ⟨_, h, .inr rfl⟩
      rcases ret_step (base := base) hW inv hc hrz' vec v with e' | ⟨m2, e', hR⟩
      · rw [e] at e'; cases e'
      · rw [e] at e'
        injection e' with e'
        subst e'
        refine ⟨by rw [hR.top]; omega, ?_⟩
        rw [hR.pc, hR.fb]
        intro g' d' fr' hd
        cases susp with
        | host h1 h2 =>
          exfalso
          cases fr' with
          | true => have := (hW.fresh _ _ _ hd).1; rw [hstop] at this; cases this
          | false =>
            obtain ⟨i, hc', hok⟩ := hW.code _ _ _ hd
            rw [hstop] at hc'
            injection hc' with hc'
            subst hc'
            cases hok
        | glob h1 => rw [h1] at hd; cases hd
        | fn h1 h2 h3 h4 => omega
    · exact within_inv hW hU inv hw (fun h => hrz (.inl h)) (fun h => hrz (.inr h)) e

/-! ### A run -/

/-- **C106.**  The host calls a function with at most `stackSize − 2` arguments (`limit` is two slots before
the end of the stack).  Whatever the script does — recursion without end, deep expressions — after any
number of instructions, and after the next one even if that is the one reported as an overflow, no slot
behind the end of the stack has been written, and the stack top is within the stack. -/
theorem C106_protected_partial {P : Prog} {dep : Depths} {U : Nat → Nat} (hP : P.Ok) (hW : WF P dep)
    (hU : Checked P dep U) {base stop g : Nat} (hstop : P.code stop = some .stop) {F : Fn} {mem : Mem}
    {argv : List Val} {m : M} (hF : P.fns g = some F) (hh : ∀ i, (mem.heap i).ptr = none)
    (ha : ∀ v ∈ argv, v.ptr = none) (hroom : base + argv.length ≤ P.limit)
    (h : hostCall P none base stop mem F argv = .run m) (vs : List Val) (hv : ∀ v ∈ vs, v.ptr = none) {m' : M}
    (hr : runH P base vs (.run m) = .run m') :
    m'.top ≤ P.limit + 1 ∧ ∀ i, P.limit + 2 ≤ i →
      m'.mem.stk i = mem.stk i ∧ (after P base m').stk i = mem.stk i := by
  have hS := sound_hostCall hW hF hh ha h
  have hm0 : ∀ i, P.limit + 2 ≤ i → m.mem.stk i = mem.stk i := by
    intro i hi
    have h' : callFn P F argv.length (hostState base stop mem argv) stop = .run m := h
    rw [(callMem_agrees h').1, callMem_above (by simp only [hostState]; omega) hi]
    simp only [hostState, Mem.put]
    rw [if_pos (by omega), List.getElem?_eq_none (by omega), Option.getD_none, if_neg (by omega)]
  have hw : InStack P dep U m := by
    have h' : callFn P F argv.length (hostState base stop mem argv) stop = .run m := h
    have hlim := (callMem_agrees h').2
    refine ⟨by omega, fun _ _ _ _ => ?_⟩
    rcases callFn_entered (P := P) (m := hostState base stop mem argv) (n := argv.length) (ret := stop)
      (hW.fns g F hF).2 (by simp only [hostState]; omega) with e' | ⟨m2, e', E⟩
    · rw [e'] at h'; cases h'
    · rw [e'] at h'
      injection h' with h'
      subst h'
      have := E.fb; have := E.top
      omega
  have hpost : ∀ {m : M} {v : Val} {m1 : M}, stepH P base v m = .run m1 → ∀ i, m.top < i →
      m1.mem.stk i = (after P base m).stk i := by
    intro m v m1 e i hi
    unfold stepH at e
    cases hs : step P base m with
    | run m2 =>
      rw [hs] at e
      simp only [answer, Out.run.injEq] at e
      subst e
      rw [after_agrees (P := P) (base := base) (m := m) (mem := m2.mem) (by rw [hs]; rfl)]
    | yielded c =>
      have hc := after_agrees (P := P) (base := base) (m := m) (mem := c.mem) (by rw [hs]; rfl)
      have hct : c.top = m.top := by
        unfold step at hs
        revert hs
        cases P.code m.pc with
        | none => intro hs; cases hs
        | some ins =>
          cases ins with
          | yield n => intro hs; cases hs; rfl
          | plain p =>
            dsimp only
            split
            · intro hs; cases hs
            · cases p.run m.fb m.top m.mem with
              | ok q =>
                dsimp only
                split <;> intro hs <;> cases hs
              | err => intro hs; cases hs
              | ub => intro hs; cases hs
          | call g n =>
            dsimp only
            split
            · intro hs; cases hs
            · split
              · intro hs; cases hs
              · next F' _ =>
                unfold callFn
                generalize (if F'.arguments < n then some (m.mem, m.top - (n - F'.arguments))
                  else fillArgs P.limit (F'.arguments - n) m.mem m.top) = x
                cases x with
                | none => intro hs; cases hs
                | some p =>
                  dsimp only
                  split
                  · intro hs; cases hs
                  · split <;> intro hs <;> cases hs
          | pushRet =>
            dsimp only
            cases m.r0 with
            | none => intro hs; cases hs
            | some r =>
              dsimp only
              cases deref P m.mem (m.mem.stk (r + 1)) with
              | ok u => dsimp only; split <;> intro hs <;> cases hs
              | err => intro hs; cases hs
              | ub => intro hs; cases hs
          | ret =>
            dsimp only
            unfold doRet
            split
            · intro hs; cases hs
            · split <;> intro hs <;> cases hs
          | retZero =>
            dsimp only
            split
            · intro hs; cases hs
            · unfold doRet
              split
              · intro hs; cases hs
              · split <;> intro hs <;> cases hs
          | lib k n =>
            dsimp only
            split
            · intro hs; cases hs
            · split
              · intro hs; cases hs
              · split
                · split <;> intro hs <;> cases hs
                · split <;> intro hs <;> cases hs
          | libPop k n =>
            dsimp only
            split
            · intro hs; cases hs
            · split <;> intro hs <;> cases hs
          | stop =>
            dsimp only
            cases m.r0 with
            | none => intro hs; cases hs
            | some r =>
              dsimp only
              generalize deref P _ _ = x
              cases x <;> intro hs <;> cases hs
      rw [hs] at e
      simp only [answer, Out.run.injEq] at e
      subst e
      rw [← hc]
      simp only [resume, Ctx.setResult]
      by_cases h0 : c.args = 0
      · simp only [h0, ne_eq, not_true_eq_false, if_false]
        rw [put_stk_ne _ _ (by omega)]
      · simp only [ne_eq, h0, not_false_eq_true, if_true]
        rw [put_stk_ne _ _ (by omega), put_stk_ne _ _ (by omega)]
    | done v mem => rw [hs] at e; cases e
    | err => rw [hs] at e; cases e
    | ub => rw [hs] at e; cases e
  clear h
  induction vs generalizing m with
  | nil =>
    simp only [runH, Out.run.injEq] at hr
    subst hr
    have := hw.top
    have := hU.le m.pc
    refine ⟨by omega, fun i hi => ⟨hm0 i hi, ?_⟩⟩
    rw [after_above hW hU hstop hS hw (by omega) hi, hm0 i hi]
  | cons v vs ih =>
    simp only [runH] at hr
    cases e : stepH P base v m with
    | run m1 =>
      rw [e] at hr
      have hns : m.pc ≠ stop := by
        intro hp
        simp only [stepH, step, hp, hstop] at e
        revert e
        cases m.r0 with
        | none => intro e; cases e
        | some r =>
          dsimp only
          generalize deref P _ _ = x
          cases x <;> intro e <;> cases e
      refine ih (fun u hu => hv u (List.mem_cons_of_mem _ hu)) hr
        (sound_step hP hW hS hns (hv v List.mem_cons_self) e) ?_ (within_step hW hU hstop hS hw e)
      intro i hi
      have := hw.top
      have := hU.le m.pc
      rw [hpost e i (by omega), after_above hW hU hstop hS hw (by omega) hi, hm0 i hi]
    | yielded c => rw [e] at hr; cases vs <;> cases hr
    | done u mem => rw [e] at hr; cases vs <;> cases hr
    | err => rw [e] at hr; cases vs <;> cases hr
    | ub => rw [e] at hr; cases vs <;> cases hr

/-- **C106, the entry.**  The same for the instructions before the first one of the function, also when the
function is not entered because of an overflow. -/
theorem C106_host_call {P : Prog} {base stop : Nat} {F : Fn} {mem : Mem} {argv : List Val}
    (hroom : base + argv.length ≤ P.limit) {i : Nat} (hi : P.limit + 2 ≤ i) :
    (callMem P F argv.length (hostState base stop mem argv) stop).stk i = mem.stk i := by
  rw [callMem_above (by simp only [hostState]; omega) hi]
  simp only [hostState, Mem.put]
  rw [if_pos (by omega), List.getElem?_eq_none (by omega), Option.getD_none, if_neg (by omega)]

/-! ### No false alarms -/

/-- What the next instruction may need above the stack top. -/
def room (P : Prog) (m : M) : Nat :=
  match P.code m.pc with
  | some (.plain p) => p.push
  | some (.call g _) => match P.fns g with
    | some F => F.arguments + F.frameSpaceNeeded + 2
    | none => 0
  | _ => 1

private theorem fillArgs_limit {L L' : Nat} (hL : L ≤ L') : ∀ (k : Nat) (mem : Mem) (top : Nat),
    fillArgs L' k mem top = fillArgs L k mem top ∨ (fillArgs L k mem top = none ∧ L ≤ top + k)
  | 0, _, _ => .inl rfl
  | k + 1, mem, top => by
    simp only [fillArgs]
    by_cases h : L ≤ top + 1
    · right; rw [if_pos h]; exact ⟨rfl, by omega⟩
    · rw [if_neg h, if_neg (by omega)]
      rcases fillArgs_limit hL k (mem.put (.s top) (.int 0)) (top + 1) with h | ⟨h, h'⟩
      · exact .inl h
      · exact .inr ⟨h, by omega⟩

private theorem initLocals_prog (P : Prog) (L : Nat) : ∀ (k : Nat) (mem : Mem) (top : Nat),
    initLocals { P with limit := L } k mem top = initLocals P k mem top
  | 0, _, _ => rfl
  | k + 1, mem, top => by
    simp only [initLocals]
    rw [initLocals_prog P L k]
    congr 2

private theorem derefF_prog (P : Prog) (L : Nat) (mem : Mem) : ∀ (k : Nat) (v : Val),
    derefF { P with limit := L } mem k v = derefF P mem k v
  | 0, _ => rfl
  | k + 1, v => by
    cases v with
    | ref a => simp only [derefF]; exact derefF_prog P L mem k _
    | _ => rfl

private theorem callFn_limit {P : Prog} {L : Nat} (hL : P.limit ≤ L) {F : Fn} {n ret : Nat} {m : M} (hn : n ≤ m.top) :
    callFn { P with limit := L } F n m ret = callFn P F n m ret ∨
      (callFn P F n m ret = .err ∧ P.limit ≤ m.top + (F.arguments + F.frameSpaceNeeded + 2)) := by
  unfold callFn
  have hx : (if F.arguments < n then some (m.mem, m.top - (n - F.arguments))
        else fillArgs L (F.arguments - n) m.mem m.top) =
      (if F.arguments < n then some (m.mem, m.top - (n - F.arguments))
        else fillArgs P.limit (F.arguments - n) m.mem m.top) ∨
      ((if F.arguments < n then some (m.mem, m.top - (n - F.arguments))
        else fillArgs P.limit (F.arguments - n) m.mem m.top) = none ∧ P.limit ≤ m.top + F.arguments) := by
    by_cases hg : F.arguments < n
    · simp only [if_pos hg, true_or]
    · simp only [if_neg hg]
      rcases fillArgs_limit hL (F.arguments - n) m.mem m.top with h | ⟨h, h'⟩
      · exact .inl h
      · exact .inr ⟨h, by omega⟩
  have htop : ∀ mem top, (if F.arguments < n then some (m.mem, m.top - (n - F.arguments))
        else fillArgs P.limit (F.arguments - n) m.mem m.top) = some (mem, top) → top ≤ m.top + F.arguments := by
    intro mem top h
    split at h
    · cases h; omega
    · have := (fillArgs_spec _ _ _ _ _ _ h).1; omega
  rcases hx with hx | ⟨hx, hl⟩
  · rw [hx]
    generalize (if F.arguments < n then some (m.mem, m.top - (n - F.arguments))
      else fillArgs P.limit (F.arguments - n) m.mem m.top) = x at htop ⊢
    cases x with
    | none => exact .inl rfl
    | some p =>
      obtain ⟨mem, top⟩ := p
      have ht := htop mem top rfl
      dsimp only
      by_cases h1 : P.limit ≤ top + F.frameSpaceNeeded + 2
      · right; rw [if_pos h1]; exact ⟨rfl, by omega⟩
      · rw [if_neg h1, if_neg (by omega), initLocals_prog]
        obtain ⟨g1, -⟩ := initLocals_spec P F.frameSpaceNeeded mem top
        generalize initLocals P F.frameSpaceNeeded mem top = q at g1
        obtain ⟨mq, tq⟩ := q
        dsimp only at g1 ⊢
        rw [if_neg (by omega), if_neg (by omega)]
        exact .inl rfl
  · right
    rw [hx]
    exact ⟨rfl, by omega⟩

/-- **C106, no false alarms.**  A larger stack (or no check at all) changes what an instruction does only if
it ends in the error, and then the stack top is within what the instruction needs of the limit. -/
theorem C106_no_false_alarm (P : Prog) {L : Nat} (hL : P.limit ≤ L) (base : Nat) (m : M) :
    step { P with limit := L } base m = step P base m ∨
      (step P base m = .err ∧ P.limit ≤ m.top + room P m) := by
  have hd : ∀ mem v, deref { P with limit := L } mem v = deref P mem v := fun mem v => derefF_prog P L mem _ v
  unfold step room
  simp only [hd]
  cases hc : P.code m.pc with
  | none => exact .inl rfl
  | some ins =>
    cases ins with
    | plain p =>
      dsimp only
      split
      · exact .inl rfl
      · cases p.run m.fb m.top m.mem with
        | err => exact .inl rfl
        | ub => exact .inl rfl
        | ok q =>
          obtain ⟨mem, j⟩ := q
          dsimp only
          by_cases h : p.checked = true ∧ p.need < p.push ∧ P.limit ≤ m.top - p.need + p.push
          · right; rw [if_pos h]; exact ⟨rfl, by omega⟩
          · left
            rw [if_neg h, if_neg (fun h' => h ⟨h'.1, h'.2.1, by omega⟩)]
    | call g n =>
      dsimp only
      by_cases hn : m.top < n
      · rw [if_pos hn, if_pos hn]; exact .inl rfl
      · rw [if_neg hn, if_neg hn]
        cases P.fns g with
        | none => exact .inl rfl
        | some F => exact callFn_limit hL (by omega)
    | pushRet =>
      dsimp only
      cases m.r0 with
      | none => exact .inl rfl
      | some r =>
        dsimp only
        cases deref P m.mem (m.mem.stk (r + 1)) with
        | err => exact .inl rfl
        | ub => exact .inl rfl
        | ok u =>
          dsimp only
          by_cases h : P.limit ≤ m.top + 1
          · right; rw [if_pos h]; exact ⟨rfl, h⟩
          · left; rw [if_neg h, if_neg (by omega)]
    | ret => exact .inl rfl
    | retZero =>
      dsimp only
      by_cases h : P.limit ≤ m.top + 1
      · right; rw [if_pos h]; exact ⟨rfl, h⟩
      · left; rw [if_neg h, if_neg (by omega)]
    | lib k n =>
      dsimp only
      split
      · exact .inl rfl
      · cases P.lib k (slots m.mem (m.top - n) n) m.mem with
        | none => exact .inl rfl
        | some u =>
          dsimp only
          by_cases hn : n = 0
          · rw [if_pos hn, if_pos hn]
            by_cases h : P.limit ≤ m.top + 1
            · right; rw [if_pos h]; exact ⟨rfl, h⟩
            · left; rw [if_neg h, if_neg (by omega)]
          · rw [if_neg hn, if_neg hn]
            by_cases h : P.limit ≤ m.top - (n - 1)
            · right; rw [if_pos h]; exact ⟨rfl, by omega⟩
            · left; rw [if_neg h, if_neg (by omega)]
    | libPop k n => exact .inl rfl
    | yield n => exact .inl rfl
    | stop => exact .inl rfl

/-! ### Instructions -/

section
open Instr

theorem lit_tame {n : Nat} (v : Val) : Tame n (lit v) := by
  refine ⟨by simp [lit], ?_⟩
  intro S fb lo top mem mem' j _ _ _ _ _ h i hi
  simp only [lit, Res.ok.injEq, Prod.mk.injEq] at h
  rw [← h.1, put_stk_ne _ _ (by omega)]

theorem litWide_tame {n : Nat} (v : Val) : Tame n (litWide v) := by
  refine ⟨by simp [litWide], ?_⟩
  intro S fb lo top mem mem' j _ _ _ _ _ h i hi
  simp only [litWide, Res.ok.injEq, Prod.mk.injEq] at h
  rw [← h.1, put_stk_ne _ _ (by omega)]

theorem litWide_ok {n : Nat} {v : Val} (hv : v.ptr = none) : POk n (litWide v) := by
  intro S fb lo top mem _ hlo hcl hop hle
  simp only [litWide]
  refine ⟨hcl.put_flat (.s top) hv, hop.snoc (flat_good hv), ?_, trivial⟩
  intro i _ hi
  exact put_stk_ne _ _ (by omega)

theorem loadLocal_tame {n : Nat} (k : Nat) : Tame n (loadLocal k) := by
  refine ⟨by simp [loadLocal], ?_⟩
  intro S fb lo top mem mem' j _ _ _ _ _ h i hi
  simp only [loadLocal, Res.ok.injEq, Prod.mk.injEq] at h
  rw [← h.1, put_stk_ne _ _ (by omega)]

theorem loadGlobal_tame {n : Nat} (k : Nat) : Tame n (loadGlobal k) := by
  refine ⟨by simp [loadGlobal], ?_⟩
  intro S fb lo top mem mem' j _ _ _ _ _ h i hi
  simp only [loadGlobal, Res.ok.injEq, Prod.mk.injEq] at h
  rw [← h.1, put_stk_ne _ _ (by omega)]

theorem binary_tame {n : Nat} (P : Prog) (g : Val → Val → Word32) : Tame n (binary P g) := by
  refine ⟨by simp [binary], ?_⟩
  intro S fb lo top mem mem' j _ _ _ _ hle h i hi
  simp only [binary] at h hle
  split at h
  · simp only [Res.ok.injEq, Prod.mk.injEq] at h
    rw [← h.1, put_stk_ne _ _ (by omega)]
  · cases h

theorem pop_tame {n : Nat} : Tame n pop := by
  refine ⟨by decide, ?_⟩
  intro S fb lo top mem mem' j _ _ _ _ _ h i hi
  simp only [pop, Res.ok.injEq, Prod.mk.injEq] at h
  rw [← h.1]

theorem jump_tame {n : Nat} (t : Nat) : Tame n (jump t) := by
  refine ⟨by simp [jump], ?_⟩
  intro S fb lo top mem mem' j _ _ _ _ _ h i hi
  simp only [jump, Res.ok.injEq, Prod.mk.injEq] at h
  rw [← h.1]

theorem bz_tame {n : Nat} (P : Prog) (z : Val → Bool) (t : Nat) : Tame n (bz P z t) := by
  refine ⟨by simp [bz], ?_⟩
  intro S fb lo top mem mem' j _ _ _ _ _ h i hi
  simp only [bz] at h
  split at h
  · simp only [Res.ok.injEq, Prod.mk.injEq] at h
    rw [← h.1]
  · cases h

private theorem place_good {S : Nat → Prop} {mem : Mem} (h : Closed S mem) : ∀ (f : Nat) (a b : Addr),
    Good S a → place mem f a = some b → Good S b
  | 0, _, _, _, e => by simp [place] at e
  | f + 1, a, b, ha, e => by
    simp only [place] at e
    cases hv : mem.get a with
    | ref c =>
      rw [hv] at e
      refine place_good h f c b ?_ e
      cases a with
      | s i =>
        exact (h.vars i ha c (by simp only [Mem.get] at hv; rw [hv]; rfl)).mono (fun j hj => hj.1)
      | h i =>
        have := h.heap i
        simp only [Mem.get] at hv
        rw [hv] at this
        cases this
    | _ => rw [hv] at e; cases e; exact ha

theorem storeLocal_tame {n k : Nat} (P : Prog) (hk : k < n) : Tame n (storeLocal P k) := by
  refine ⟨by simp [storeLocal], ?_⟩
  intro S fb lo top mem mem' j hcov hlo hcl _ hle h i hi
  simp only [storeLocal] at h hle
  split at h
  · next v a hv ha =>
    simp only [Res.ok.injEq, Prod.mk.injEq] at h
    have hg := place_good hcl _ _ _ (show Good S (.s (fb + k)) from hcov k hk) ha
    rw [← h.1]
    cases a with
    | s q =>
      have := hlo q hg
      exact put_stk_ne _ _ (by omega)
    | h q => rfl
  · cases h

theorem storeGlobal_tame {n : Nat} (P : Prog) (k : Nat) : Tame n (storeGlobal P k) := by
  refine ⟨by simp [storeGlobal], ?_⟩
  intro S fb lo top mem mem' j _ _ _ _ _ h i hi
  simp only [storeGlobal] at h
  split at h
  · simp only [Res.ok.injEq, Prod.mk.injEq] at h
    rw [← h.1]; rfl
  · cases h

/-! ### Where the checks are missing -/

/-- C106 fails: LiteralInt32 and LiteralFloat are not checked.  `k` of them in a row write `k` slots, whatever
the limit. -/
theorem C106_fails_literals (P : Prog) (base : Nat) (w v : Val) : ∀ (k : Nat) (m : M),
    (∀ i, i < k → P.code (m.pc + i) = some (.plain (litWide w))) →
    ∃ m', runH P base (List.replicate k v) (.run m) = .run m' ∧ m'.top = m.top + k ∧
      (∀ i, i < m.top → m'.mem.stk i = m.mem.stk i) ∧ ∀ i, i < k → m'.mem.stk (m.top + i) = w
  | 0, m, _ => ⟨m, rfl, rfl, fun _ _ => rfl, fun i h => by omega⟩
  | k + 1, m, h => by
    have h0 : P.code m.pc = some (.plain (litWide w)) := h 0 (by omega)
    obtain ⟨m', e, h1, h2, h3⟩ := C106_fails_literals P base w v k
      { m with mem := m.mem.put (.s m.top) w, top := m.top + 1, pc := m.pc + 1, r0 := none }
      (fun i hi => by
        have := h (i + 1) (by omega)
        rw [show m.pc + (i + 1) = m.pc + 1 + i by omega] at this
        exact this)
    dsimp only at h1 h2 h3
    refine ⟨m', ?_, by omega, ?_, ?_⟩
    · rw [List.replicate_succ]
      simp only [runH]
      rw [← e]
      congr 1
      simp [stepH, step, h0, litWide, answer]
    · intro i hi
      rw [h2 i (by omega), put_stk_ne _ _ (by omega)]
    · intro i hi
      by_cases hz : i = 0
      · subst hz
        rw [Nat.add_zero, h2 _ (by omega), put_stk_same]
      · have := h3 (i - 1) (by omega)
        rw [show m.top + 1 + (i - 1) = m.top + i by omega] at this
        exact this

/-- C106 fails: going on after a `yield()` without arguments pushes its value without a check (vm.cpp
684-709).  `k` of them in a row, as in `f( yield(), yield(), … )`, write `k` slots. -/
theorem C106_fails_yield (P : Prog) (base : Nat) (v : Val) : ∀ (k : Nat) (m : M),
    (∀ i, i < k → P.code (m.pc + i) = some (.yield 0)) →
    ∃ m', runH P base (List.replicate k v) (.run m) = .run m' ∧ m'.top = m.top + k ∧
      (∀ i, i < m.top → m'.mem.stk i = m.mem.stk i) ∧ ∀ i, i < k → m'.mem.stk (m.top + i) = v
  | 0, m, _ => ⟨m, rfl, rfl, fun _ _ => rfl, fun i h => by omega⟩
  | k + 1, m, h => by
    have h0 : P.code m.pc = some (.yield 0) := h 0 (by omega)
    obtain ⟨m', e, h1, h2, h3⟩ := C106_fails_yield P base v k
      { m with mem := (m.mem.put (.s m.top) (.int 0)).put (.s m.top) v, top := m.top + 1, pc := m.pc + 1, r0 := none }
      (fun i hi => by
        have := h (i + 1) (by omega)
        rw [show m.pc + (i + 1) = m.pc + 1 + i by omega] at this
        exact this)
    dsimp only at h1 h2 h3
    refine ⟨m', ?_, by omega, ?_, ?_⟩
    · rw [List.replicate_succ]
      simp only [runH]
      rw [← e]
      congr 1
      simp [stepH, step, h0, answer, resume, Ctx.setResult]
    · intro i hi
      rw [h2 i (by omega), put_stk_ne _ _ (by omega), put_stk_ne _ _ (by omega)]
    · intro i hi
      by_cases hz : i = 0
      · subst hz
        rw [Nat.add_zero, h2 _ (by omega), put_stk_same]
      · have := h3 (i - 1) (by omega)
        rw [show m.top + 1 + (i - 1) = m.top + i by omega] at this
        exact this

/-- C106 fails: the host's arguments are copied without a check (vm.cpp 716-719), and those the function does
not take are then dropped, so that the call goes on. -/
theorem C106_fails_host_arguments (P : Prog) (base stop entry : Nat) (mem : Mem) (argv : List Val)
    (h0 : argv ≠ []) (hroom : base + 3 < P.limit) :
    ∃ m, hostCall P none base stop mem ⟨entry, 0, 0, 1⟩ argv = .run m ∧
      ∀ i, 0 < i → ∀ h : i < argv.length, m.mem.stk (base + 1 + i) = argv[i] := by
  have hl : 0 < argv.length := List.length_pos_iff.mpr h0
  refine ⟨{ mem := (hostState base stop mem argv).mem.put (.s (base + 1)) (.frame 0 stop), top := base + 1 + 1,
            fb := base + 1 + 1 - 1, pc := entry, r0 := none }, ?_, ?_⟩
  · simp only [hostCall, callFn]
    rw [if_pos hl]
    dsimp only
    rw [show base + 1 + argv.length - (argv.length - 0) = base + 1 by omega, if_neg (by omega)]
    show (if P.limit ≤ base + 1 + 1 then _ else _) = _
    rw [if_neg (by omega)]
    rfl
  · intro i hi h
    dsimp only
    rw [put_stk_ne _ _ (by omega)]
    simp only [hostState]
    rw [if_pos (by omega), show base + 1 + i - (base + 1) = i by omega, List.getElem?_eq_getElem h, Option.getD_some]

end

end Wrench.Frames
