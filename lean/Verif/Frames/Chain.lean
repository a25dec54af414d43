import Verif.Frames.Props

/-
The whole call stack of a running context: every suspended caller has its frame in order, so that
the invariant of the running function holds in every state the interpreter reaches.
-/
namespace Wrench.Frames

/-- `Susp R b fb ret`: below slot `b`, where the running function's frame starts, is a caller whose frame
base is `fb` and which goes on at `ret`; `R` are the stack variables of it and of its own callers.  At the
bottom is the host, or the global code. -/
inductive Susp (P : Prog) (dep : Depths) (base stop : Nat) (mem : Mem) :
    (Nat → Prop) → Nat → Nat → Nat → Prop where
  | host {R : Nat → Prop} {b fb : Nat} : (∀ i, ¬ R i) → base < b → Susp P dep base stop mem R b fb stop
  | glob {R : Nat → Prop} {d lo b fb ret : Nat} {fr : Bool} : dep ret = some (none, d, fr) → b = lo + d →
      (∀ i, R i → i + 1 < lo) → Operands R mem lo b → Susp P dep base stop mem R b fb ret
  | fn {S R : Nat → Prop} {g d lo b fb ret fb' ret' : Nat} {fr : Bool} {F : Fn} :
      dep ret = some (some g, d, fr) → b = lo + d → P.fns g = some F →
      lo = fb + F.arguments + F.frameSpaceNeeded + 1 →
      (∀ i, S i ↔ R i ∨ (fb ≤ i ∧ i < fb + (F.arguments + F.frameSpaceNeeded))) → (∀ i, R i → i < fb) →
      Operands S mem lo b → mem.stk (lo - 1) = .frame fb' ret' → Susp P dep base stop mem R fb fb' ret' →
      Susp P dep base stop mem S b fb ret

/-- A function has just returned: `register0` is below its result, and what the result refers to is not
above that. -/
def Fresh (m : M) : Prop :=
  ∃ r T, m.r0 = some r ∧ Closed T m.mem ∧ (∀ a, (m.mem.stk (r + 1)).ptr = some a → Good T a) ∧
    ∀ i, T i → i ≤ r

/-- The states of a running context: in a function, in the global code, or back at the host. -/
inductive Sound (P : Prog) (dep : Depths) (base stop : Nat) (m : M) : Prop where
  | fn {S R : Nat → Prop} {g d lo fb ret : Nat} {fr : Bool} {F : Fn} (inv : Inv P dep S (some g) d fr lo m)
      (hF : P.fns g = some F)
      (vars : ∀ i, S i ↔ R i ∨ (m.fb ≤ i ∧ i < m.fb + (F.arguments + F.frameSpaceNeeded)))
      (old : ∀ i, R i → i < m.fb) (vec : m.mem.stk (lo - 1) = .frame fb ret)
      (susp : Susp P dep base stop m.mem R m.fb fb ret) (fresh : fr = true → Fresh m)
  | glob {S : Nat → Prop} {d lo : Nat} {fr : Bool} (inv : Inv P dep S none d fr lo m) (fresh : fr = true → Fresh m)
  | stop {r : Nat} {T : Nat → Prop} (pc : m.pc = stop) (r0 : m.r0 = some r) (closed : Closed T m.mem)
      (good : ∀ a, (m.mem.stk (r + 1)).ptr = some a → Good T a) (le : ∀ i, T i → i ≤ r) (out : ¬ T base)
      (base_le : base ≤ r)

/-- Callers only notice writes to their operands and return vectors. -/
theorem Susp.congr {P : Prog} {dep : Depths} {base stop : Nat} {mem mem' : Mem} {R : Nat → Prop} {b fb ret : Nat}
    (h : Susp P dep base stop mem R b fb ret) (hm : ∀ i, i < b → ¬ R i → mem'.stk i = mem.stk i) :
    Susp P dep base stop mem' R b fb ret := by
  induction h with
  | host h1 h2 => exact .host h1 h2
  | glob h1 h2 h3 h4 =>
    refine .glob h1 h2 h3 ?_
    intro i hl hb a ha
    rw [hm i hb (fun hR => by have := h3 i hR; omega)] at ha
    exact h4 i hl hb a ha
  | fn h1 h2 h3 h4 h5 h6 h7 h8 _ ih =>
    refine .fn h1 h2 h3 h4 h5 h6 ?_ ?_ (ih ?_)
    · intro i hl hb a ha
      rw [hm i hb (fun hS => by
        rcases (h5 i).mp hS with h | h
        · have := h6 i h; omega
        · omega)] at ha
      exact h7 i hl hb a ha
    · rw [hm _ (by omega) (fun hS => by
        rcases (h5 _).mp hS with h | h
        · have := h6 _ h; omega
        · omega)]
      exact h8
    · intro i hi hR
      exact hm i (by omega) (fun hS => by
        rcases (h5 i).mp hS with h | h
        · exact hR h
        · omega)

/-- What `callFn` leaves alone, and when it fails. -/
theorem initLocals_above (P : Prog) : ∀ (k : Nat) (mem : Mem) (top i : Nat), top + k < i →
    (initLocals P k mem top).1.stk i = mem.stk i
  | 0, _, _, _, _ => rfl
  | k + 1, mem, top, i, h => by
    simp only [initLocals]
    rw [initLocals_above P k _ (top + 1) i (by omega), put_stk_ne _ _ (by omega), put_stk_ne _ _ (by omega)]

theorem fillArgs_none (limit : Nat) : ∀ (k : Nat) (mem mem' : Mem) (top : Nat),
    fillArgs limit k mem top = none → fillArgs limit k mem' top = none
  | 0, _, _, _, h => by simp [fillArgs] at h
  | k + 1, mem, mem', top, h => by
    simp only [fillArgs] at h ⊢
    split at h
    · next hl => rw [if_pos hl]
    · next hl => rw [if_neg hl]; exact fillArgs_none limit k _ _ _ h

/-- Running instead of failing depends on the stack top only; slots above the new frame stay. -/
theorem callFn_two {P : Prog} {F : Fn} {n ret : Nat} {m m' m1 : M} (ht : m'.top = m.top) (hfb : m'.fb = m.fb)
    (hn : n ≤ m.top) (h : callFn P F n m ret = .run m1) :
    ∃ m1', callFn P F n m' ret = .run m1' ∧ m1'.top = m1.top ∧ m1'.fb = m1.fb ∧ m1'.pc = m1.pc ∧ m1'.r0 = m1.r0 ∧
      (∀ i, m1.top ≤ i → m1.mem.stk i = m.mem.stk i) ∧ ∀ i, m1.top ≤ i → m1'.mem.stk i = m'.mem.stk i := by
  unfold callFn at h ⊢
  rw [ht]
  have key : ∀ x : Option (Mem × Nat), x = (if F.arguments < n then some (m.mem, m.top - (n - F.arguments))
      else fillArgs P.limit (F.arguments - n) m.mem m.top) → ∀ mem top, x = some (mem, top) →
      ∃ mem', (if F.arguments < n then some (m'.mem, m.top - (n - F.arguments))
        else fillArgs P.limit (F.arguments - n) m'.mem m.top) = some (mem', top) ∧
        (∀ i, top ≤ i → mem.stk i = m.mem.stk i) ∧ ∀ i, top ≤ i → mem'.stk i = m'.mem.stk i := by
    intro x hx mem top hs
    rw [hs] at hx
    by_cases hg : F.arguments < n
    · rw [if_pos hg] at hx ⊢
      simp only [Option.some.injEq, Prod.mk.injEq] at hx
      obtain ⟨rfl, rfl⟩ := hx
      exact ⟨_, rfl, fun _ _ => rfl, fun _ _ => rfl⟩
    · rw [if_neg hg] at hx ⊢
      obtain ⟨q1, -, -, -, q5⟩ := fillArgs_spec _ _ _ _ _ _ hx.symm
      cases hf : fillArgs P.limit (F.arguments - n) m'.mem m.top with
      | none =>
        have := fillArgs_none P.limit _ _ m.mem _ hf
        rw [this] at hx
        cases hx
      | some p =>
        obtain ⟨mem', top'⟩ := p
        obtain ⟨p1, -, -, -, p5⟩ := fillArgs_spec _ _ _ _ _ _ hf
        obtain rfl : top' = top := by omega
        exact ⟨mem', rfl, fun i hi => q5 i (by omega), fun i hi => p5 i (by omega)⟩
  generalize hx : (if F.arguments < n then some (m.mem, m.top - (n - F.arguments))
      else fillArgs P.limit (F.arguments - n) m.mem m.top) = x at h
  cases x with
  | none => cases h
  | some p =>
    obtain ⟨mem, top⟩ := p
    obtain ⟨mem', e, k1, k2⟩ := key _ hx.symm mem top rfl
    rw [e]
    dsimp only at h ⊢
    split at h
    · cases h
    next hlim =>
    rw [if_neg hlim]
    obtain ⟨g1, -⟩ := initLocals_spec P F.frameSpaceNeeded mem top
    obtain ⟨g1', -⟩ := initLocals_spec P F.frameSpaceNeeded mem' top
    have a1 := initLocals_above P F.frameSpaceNeeded mem top
    have a1' := initLocals_above P F.frameSpaceNeeded mem' top
    generalize initLocals P F.frameSpaceNeeded mem top = q at h g1 a1
    generalize initLocals P F.frameSpaceNeeded mem' top = q' at g1' a1'
    obtain ⟨mq, tq⟩ := q
    obtain ⟨mq', tq'⟩ := q'
    dsimp only at g1 g1' a1 a1' h ⊢
    subst g1 g1'
    split at h
    · cases h
    next hl2 =>
    rw [if_neg hl2]
    injection h with h
    subst h
    refine ⟨_, rfl, rfl, rfl, rfl, rfl, ?_, ?_⟩
    · intro i hi
      dsimp only at hi ⊢
      rw [put_stk_ne _ _ (by omega), a1 i (by omega), k1 i (by omega)]
    · intro i hi
      dsimp only at hi ⊢
      rw [put_stk_ne _ _ (by omega), a1' i (by omega), k2 i (by omega)]

/-- Back in a suspended caller. -/
theorem sound_return {P : Prog} {dep : Depths} {base stop : Nat} {S R : Nat → Prop} {fb ret lo : Nat} {F : Fn} {m m2 : M}
    (vars : ∀ i, S i ↔ R i ∨ (m.fb ≤ i ∧ i < m.fb + (F.arguments + F.frameSpaceNeeded)))
    (old : ∀ i, R i → i < m.fb) (hlo : lo = m.fb + F.arguments + F.frameSpaceNeeded + 1)
    (susp : Susp P dep base stop m.mem R m.fb fb ret)
    (r : Returned P S m.fb fb ret m m m2) (hr0 : m2.r0 = some (lo - 1)) : Sound P dep base stop m2 := by
  have hfresh : Fresh m2 := by
    obtain ⟨q, h1, -, h3⟩ := r.value
    rw [hr0] at h1
    injection h1 with h1
    subst h1
    refine ⟨lo - 1, S, hr0, r.all, h3, fun i hi => ?_⟩
    rcases (vars i).mp hi with h | h
    · have := old i h; omega
    · omega
  have hnS : ∀ i, i < m.fb → ¬ R i → m2.mem.stk i = m.mem.stk i := by
    intro i hi hR
    refine r.below i hi (fun hS => ?_)
    rcases (vars i).mp hS with h | h
    · exact hR h
    · omega
  have hcR : Closed R m2.mem := by
    refine ⟨r.closed.heap, fun i hR a ha => ?_⟩
    have hi := old i hR
    refine (r.closed.vars i ⟨(vars i).mpr (.inl hR), hi⟩ a ha).mono (fun j hj => ?_)
    rcases (vars j).mp hj.1.1 with h | h
    · exact ⟨h, hj.2⟩
    · omega
  have hsusp := susp.congr hnS
  have hval := r.value
  cases hsusp with
  | host h1 h2 =>
    obtain ⟨q, T, e1, e2, e3, e4⟩ := hfresh
    obtain ⟨q', e5, -, e6⟩ := hval
    rw [hr0] at e5
    injection e5 with e5
    subst e5
    refine .stop r.pc hr0 r.all e6 (fun i hi => ?_) (fun hS => ?_) (by omega)
    · rcases (vars i).mp hi with h | h
      · exact absurd h (h1 i)
      · omega
    · rcases (vars base).mp hS with h | h
      · exact absurd h (h1 base)
      · omega
  | glob h1 h2 h3 h4 =>
    refine .glob (S := R) ⟨by rw [r.pc]; exact h1, by rw [r.top]; exact h2, (by intro g hg; cases hg), ?_, h3, hcR, ?_, ?_⟩
      (fun _ => hfresh)
    · intro i hi; simp [nvars] at hi
    · rw [r.top]; exact h4
    · intro _
      obtain ⟨q, T, e1, e2, e3, e4⟩ := hfresh
      exact ⟨q, T, e1, e2, e3⟩
  | @fn S' R' g d lo' _ _ _ fb' ret' fr F' h1 h2 h3 h4 h5 h6 h7 h8 h9 =>
    have hnv : nvars P (some g) = F'.arguments + F'.frameSpaceNeeded := by simp [nvars, h3]
    refine .fn (S := R) (R := R') (lo := lo') ⟨by rw [r.pc]; exact h1, by rw [r.top]; exact h2, ?_, ?_, ?_, hcR, ?_, ?_⟩
      h3 (by rw [r.fb]; exact h5) (by rw [r.fb]; exact h6) h8 (by rw [r.fb]; exact h9) (fun _ => hfresh)
    · intro g' hg'
      injection hg' with hg'
      subst hg'
      exact ⟨F', h3, by rw [r.fb]; exact h4⟩
    · intro i hi
      rw [hnv] at hi
      rw [r.fb]
      exact (h5 _).mpr (.inr ⟨by omega, by omega⟩)
    · intro i hi
      rcases (h5 i).mp hi with h | h
      · have := h6 i h; omega
      · omega
    · rw [r.top]; exact h7
    · intro _
      obtain ⟨q, T, e1, e2, e3, e4⟩ := hfresh
      exact ⟨q, T, e1, e2, e3⟩

theorem ret_r0 {P : Prog} {dep : Depths} {base : Nat} {S : Nat → Prop} {g d lo : Nat} {m m2 : M} {ins : Instr}
    (hW : WF P dep) (h : Inv P dep S (some g) d false lo m) (hi : P.code m.pc = some ins)
    (hrz : ins = .ret ∨ ins = .retZero) {v : Val} (e : stepH P base v m = .run m2) : m2.r0 = some (lo - 1) := by
  have ht := h.top
  obtain ⟨i, hi', hok⟩ := hW.code _ _ _ h.pc
  rw [hi] at hi'
  injection hi' with hi'
  subst hi'
  have hd : ∀ {m : M} {m2 : M}, answer v (doRet m) = .run m2 → m2.r0 = some (m.top - 2) := by
    intro m m2 e
    unfold doRet at e
    split at e
    · cases e
    · split at e
      · simp only [answer, Out.run.injEq] at e
        subst e; rfl
      · cases e
  rcases hrz with rfl | rfl
  · obtain ⟨rfl, -⟩ := hok
    simp only [stepH, step, hi] at e
    rw [hd e]
    congr 1
    omega
  · obtain ⟨rfl, -⟩ := hok
    simp only [stepH, step, hi] at e
    split at e
    · cases e
    · rw [hd e]
      congr 1
      dsimp only
      omega

/-- Every state reached is in order: one step from a sound state is a run-time error, the end of the global
code, the end of the host's call, or again a sound state. -/
theorem sound_step {P : Prog} {dep : Depths} (hP : P.Ok) (hW : WF P dep) {base stop : Nat} {m m1 : M}
    (h : Sound P dep base stop m) (hns : m.pc ≠ stop) {v : Val} (hv : v.ptr = none)
    (e : stepH P base v m = .run m1) : Sound P dep base stop m1 := by
  have callCase : ∀ {S : Nat → Prop} {f : Option Nat} {d lo g n : Nat} {m' : M} {F : Fn}, Inv P dep S f d false lo m →
      P.code m.pc = some (.call g n) → P.fns g = some F → stepH P base v m = .run m' →
      Entered P F n (m.pc + 1) m m' →
      Susp P dep base stop m'.mem S (m.top - n) m.fb (m.pc + 1) →
      (∀ i, S i → i < m.top - n) →
      Inv P dep (fun i => S i ∨ (m.top - n ≤ i ∧ i < m.top - n + (F.arguments + F.frameSpaceNeeded)))
        (some g) 0 false (m.top - n + F.arguments + F.frameSpaceNeeded + 1) m' → Sound P dep base stop m' := by
    intro S f d lo g n m' F hI hc hF e' E hs ho hI'
    refine .fn (R := S) (fb := m.fb) (ret := m.pc + 1) hI' hF ?_ ?_ ?_ ?_ (by intro h; cases h)
    · rw [E.fb]; exact fun i => Iff.rfl
    · rw [E.fb]; exact ho
    · have := E.vector
      rw [E.fb] at this
      exact this
    · rw [E.fb]; exact hs
  cases h with
  | stop hp => exact absurd hp hns
  | @glob S d lo fr inv fresh =>
    have hins : ∃ ins, P.code m.pc = some ins := by
      cases fr with
      | true => exact ⟨_, (hW.fresh _ _ _ inv.pc).1⟩
      | false => obtain ⟨i, hi, -⟩ := hW.code _ _ _ inv.pc; exact ⟨i, hi⟩
    obtain ⟨ins, hi⟩ := hins
    have inner : (∀ g n, ins ≠ .call g n) → ins ≠ .ret → ins ≠ .retZero → ins ≠ .stop → Sound P dep base stop m1 := by
      intro h1 h2 h3 h4
      rcases inner_step (base := base) hP hW inv hi h1 h2 h3 h4 hv with e' | ⟨m', d', e', hI, hfb, hsame⟩
      · rw [e] at e'; cases e'
      · rw [e] at e'
        injection e' with e'
        subst e'
        exact .glob hI (by intro h; cases h)
    cases fr with
    | true =>
      have h1 := (hW.fresh _ _ _ inv.pc).1
      rw [hi] at h1
      injection h1 with h1
      subst h1
      exact inner (by intros; simp) (by simp) (by simp) (by simp)
    | false =>
      obtain ⟨i, hi', hok⟩ := hW.code _ _ _ inv.pc
      rw [hi] at hi'
      injection hi' with hi'
      subst hi'
      cases ins with
      | plain p => exact inner (by intros; simp) (by simp) (by simp) (by simp)
      | lib k n => exact inner (by intros; simp) (by simp) (by simp) (by simp)
      | libPop k n => exact inner (by intros; simp) (by simp) (by simp) (by simp)
      | yield n => exact inner (by intros; simp) (by simp) (by simp) (by simp)
      | pushRet => exact hok.elim
      | ret => exact absurd rfl hok.2
      | retZero => exact absurd rfl hok.2
      | stop =>
        simp only [stepH, step, hi] at e
        revert e
        cases m.r0 with
        | none => intro e; cases e
        | some r =>
          dsimp only
          cases deref P (m.mem.put (.s base) (m.mem.stk (r + 1))) ((m.mem.put (.s base) (m.mem.stk (r + 1))).stk base) <;>
            intro e <;> cases e
      | call g n =>
        obtain ⟨hn, -, fr', hd'⟩ := hok
        rcases call_step (base := base) hW inv hi v with e' | ⟨m', F, hF, e', hE, hI⟩
        · rw [e] at e'; cases e'
        · rw [e] at e'
          injection e' with e'
          subst e'
          have ht := inv.top
          refine callCase inv hi hF e hE ?_ (fun i hi => by have := inv.below i hi; omega) hI
          refine .glob hd' (by omega) inv.below ?_
          intro i h1 h2 a ha
          rw [hE.below i h2] at ha
          exact inv.operands i h1 (by omega) a ha
  | @fn S R g d lo fb ret fr F inv hF vars old vec susp fresh =>
    have ht := inv.top
    obtain ⟨F2, hF2, hlo⟩ := inv.frame g rfl
    rw [hF] at hF2
    injection hF2 with hF2
    subst hF2
    have hins : ∃ ins, P.code m.pc = some ins := by
      cases fr with
      | true => exact ⟨_, (hW.fresh _ _ _ inv.pc).1⟩
      | false => obtain ⟨i, hi, -⟩ := hW.code _ _ _ inv.pc; exact ⟨i, hi⟩
    obtain ⟨ins, hi⟩ := hins
    have hnotS : ¬ S (lo - 1) := fun hS => by have := inv.below _ hS; omega
    have hnR : ∀ i, i < m.fb → ¬ R i → ¬ S i := by
      intro i h1 h2 h3
      rcases (vars i).mp h3 with h | h
      · exact h2 h
      · omega
    have inner : (∀ g n, ins ≠ .call g n) → ins ≠ .ret → ins ≠ .retZero → ins ≠ .stop → Sound P dep base stop m1 := by
      intro h1 h2 h3 h4
      rcases inner_step (base := base) hP hW inv hi h1 h2 h3 h4 hv with e' | ⟨m', d', e', hI, hfb, hsame⟩
      · rw [e] at e'; cases e'
      · rw [e] at e'
        injection e' with e'
        subst e'
        refine .fn hI hF (by rw [hfb]; exact vars) (by rw [hfb]; exact old) (by rw [hsame _ hnotS (by omega), vec]) ?_
          (by intro h; cases h)
        rw [hfb]
        exact susp.congr (fun i h1 h2 => hsame i (hnR i h1 h2) (by omega))
    cases fr with
    | true =>
      have h1 := (hW.fresh _ _ _ inv.pc).1
      rw [hi] at h1
      injection h1 with h1
      subst h1
      exact inner (by intros; simp) (by simp) (by simp) (by simp)
    | false =>
      obtain ⟨i, hi', hok⟩ := hW.code _ _ _ inv.pc
      rw [hi] at hi'
      injection hi' with hi'
      subst hi'
      have retCase : ins = .ret ∨ ins = .retZero → Sound P dep base stop m1 := by
        intro hrz
        rcases ret_step (base := base) hW inv hi hrz vec v with e' | ⟨m2, e', hR⟩
        · rw [e] at e'; cases e'
        · have hr0 := ret_r0 hW inv hi hrz e'
          rw [e] at e'
          injection e' with e'
          subst e'
          exact sound_return vars old hlo susp hR hr0
      cases ins with
      | plain p => exact inner (by intros; simp) (by simp) (by simp) (by simp)
      | lib k n => exact inner (by intros; simp) (by simp) (by simp) (by simp)
      | libPop k n => exact inner (by intros; simp) (by simp) (by simp) (by simp)
      | yield n => exact inner (by intros; simp) (by simp) (by simp) (by simp)
      | pushRet => exact hok.elim
      | stop => cases hok
      | ret => exact retCase (.inl rfl)
      | retZero => exact retCase (.inr rfl)
      | call g' n =>
        obtain ⟨hn, -, fr', hd'⟩ := hok
        rcases call_step (base := base) hW inv hi v with e' | ⟨m', F', hF', e', hE, hI⟩
        · rw [e] at e'; cases e'
        · rw [e] at e'
          injection e' with e'
          subst e'
          have hSb : ∀ i, S i → i < m.top - n := fun i hi => by have := inv.below i hi; omega
          refine callCase inv hi hF' e hE ?_ hSb hI
          refine .fn (lo := lo) hd' (by omega) hF hlo vars old ?_ (by rw [hE.below _ (by omega), vec]) ?_
          · intro i h1 h2 a ha
            rw [hE.below i h2] at ha
            exact inv.operands i h1 (by omega) a ha
          · exact susp.congr (fun i h1 _ => hE.below i (by omega))

/-- The state in which a host call enters a function is sound. -/
theorem sound_hostCall {P : Prog} {dep : Depths} (hW : WF P dep) {base stop g : Nat} {F : Fn} {mem : Mem}
    {argv : List Val} {m : M} (hF : P.fns g = some F) (hh : ∀ i, (mem.heap i).ptr = none)
    (ha : ∀ v ∈ argv, v.ptr = none) (h : hostCall P none base stop mem F argv = .run m) :
    Sound P dep base stop m := by
  generalize hm : hostState base stop mem argv = m0
  have hc0 : hostCall P none base stop mem F argv = callFn P F argv.length m0 stop := by
    rw [← hm]; rfl
  have hmt : m0.top = base + 1 + argv.length := by rw [← hm]; rfl
  have hmb : m0.top - argv.length = base + 1 := by omega
  have hstk : ∀ i, i < argv.length → m0.mem.stk (base + 1 + i) = (argv[i]?).getD (.int 0) := by
    intro i hi
    rw [← hm]
    simp [hostState, hi]
  rw [hc0] at h
  rcases callFn_entered (P := P) (m := m0) (ret := stop) (hW.fns g F hF).2
    (show argv.length ≤ m0.top by omega) with e | ⟨m', e, E⟩
  · rw [e] at h; cases h
  · rw [e] at h
    injection h with h
    subst h
    have hcl : Closed (fun _ => False) m0.mem :=
      ⟨fun i => by rw [← hm]; exact hh i, fun i h => h.elim⟩
    have hop : Operands (fun _ => False) m0.mem (m0.top - argv.length) m0.top := by
      intro i h1 h2 a hpa
      obtain ⟨j, rfl⟩ : ∃ j, i = base + 1 + j := ⟨i - (base + 1), by omega⟩
      rw [hstk j (by omega), List.getElem?_eq_getElem (by omega), Option.getD_some,
        ha _ (List.getElem_mem _)] at hpa
      cases hpa
    have hI := callee_inv (dep := dep) hW hF (by omega) (fun i h => h.elim) hcl hop E
    refine .fn (R := fun _ => False) (fb := m0.fb) (ret := stop) hI hF ?_ (fun i h => h.elim) ?_ (.host (fun i h => h) (by rw [E.fb]; omega))
      (by intro h; cases h)
    · rw [E.fb]; exact fun i => Iff.rfl
    · have := E.vector
      rw [E.fb] at this
      exact this

end Wrench.Frames
