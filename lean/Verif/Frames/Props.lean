import Verif.Frames.Inv

/-
C33 (calls and returns) and C32 (yield and resume).
-/
namespace Wrench.Frames

/-! ### One instruction -/

private theorem inv_flat {P : Prog} {dep : Depths} {S : Nat → Prop} {f : Option Nat} {lo d n : Nat}
    {m : M} {mem : Mem} {v : Val} (h : Inv P dep S f d false lo m) (hn : n ≤ d)
    (hv : v.ptr = none) (hd : dep (m.pc + 1) = some (f, d - n + 1, false))
    (hm : ∀ i, i < m.top - n → mem.stk i = m.mem.stk i) (hh : mem.heap = m.mem.heap)
    (hx : mem.stk (m.top - n) = v) :
    Inv P dep S f (d - n + 1) false lo
      { m with mem := mem, top := m.top - n + 1, pc := m.pc + 1, r0 := none } := by
  have ht := h.top
  refine ⟨hd, by dsimp only; omega, h.frame, h.cover, h.below, ?_, ?_, by intro h; cases h⟩
  · refine ⟨by dsimp only; rw [hh]; exact h.closed.heap, ?_⟩
    intro i hi a ha
    have := h.below i hi
    dsimp only at ha
    rw [hm i (by omega)] at ha
    exact h.closed.vars i hi a ha
  · intro i h1 h2 a ha
    dsimp only at h2 ha
    by_cases hi : i = m.top - n
    · subst hi; rw [hx, hv] at ha; cases ha
    · rw [hm i (by omega)] at ha
      exact h.operands i h1 (by omega) a ha

/-- An instruction other than a call or a return keeps the invariant, the frame base, and every
slot below the operands that is not a variable of `S`; or it is a run-time error. -/
theorem inner_step {P : Prog} {dep : Depths} (hP : P.Ok) (hW : WF P dep) {base : Nat}
    {S : Nat → Prop} {f : Option Nat} {d lo : Nat} {fr : Bool} {m : M} {ins : Instr}
    (h : Inv P dep S f d fr lo m) (hi : P.code m.pc = some ins) (hc : ∀ g n, ins ≠ .call g n)
    (hr : ins ≠ .ret) (hz : ins ≠ .retZero) (hs : ins ≠ .stop) {v : Val} (hv : v.ptr = none) :
    stepH P base v m = .err ∨ ∃ m' d', stepH P base v m = .run m' ∧
      Inv P dep S f d' false lo m' ∧ m'.fb = m.fb ∧
      ∀ i, ¬ S i → i < lo → m'.mem.stk i = m.mem.stk i := by
  have ht := h.top
  cases fr with
  | true =>
    obtain ⟨h1, h2⟩ := hW.fresh _ _ _ h.pc
    rw [hi] at h1
    injection h1 with h1
    subst h1
    obtain ⟨r, T, hr0, hT, hg⟩ := h.ret rfl
    obtain ⟨u, hu, huf⟩ := deref_ok hP hT hg
    simp only [stepH, step, hi, hr0, hu]
    by_cases hl : P.limit ≤ m.top + 1
    · rw [if_pos hl]; left; rfl
    · rw [if_neg hl]
      right
      refine ⟨_, d + 1, rfl, ?_, rfl, ?_⟩
      · refine ⟨h2, by dsimp only; omega, h.frame, h.cover, h.below, h.closed.put_flat (.s m.top) huf, ?_,
          by intro h; cases h⟩
        exact h.operands.snoc (flat_good huf)
      · intro i _ hlo
        exact put_stk_ne _ _ (by omega)
  | false =>
    obtain ⟨i, hi', hok⟩ := hW.code _ _ _ h.pc
    rw [hi] at hi'
    injection hi' with hi'
    subst hi'
    cases ins with
    | call g n => exact absurd rfl (hc g n)
    | ret => exact absurd rfl hr
    | retZero => exact absurd rfl hz
    | stop => exact absurd rfl hs
    | pushRet => exact hok.elim
    | plain p =>
      obtain ⟨hp, hneed, hfall, htg⟩ := hok
      have hq := hp S m.fb lo m.top m.mem h.cover h.below h.closed h.operands (by omega)
      simp only [stepH, step, hi]
      rw [if_neg (by omega)]
      generalize p.run m.fb m.top m.mem = q at hq
      cases q with
      | err => left; rfl
      | ub => exact hq.elim
      | ok q =>
        obtain ⟨mem', j⟩ := q
        dsimp only at hq ⊢
        obtain ⟨q1, q2, q3, q4⟩ := hq
        by_cases hl : p.checked = true ∧ p.need < p.push ∧ P.limit ≤ m.top - p.need + p.push
        · rw [if_pos hl]; left; rfl
        · rw [if_neg hl]
          right
          refine ⟨_, d - p.need + p.push, rfl, ?_, rfl, ?_⟩
          · refine ⟨?_, by dsimp only; omega, h.frame, h.cover, h.below, q1, q2,
              by intro h; cases h⟩
            cases j with
            | none => exact hfall q4
            | some t => exact htg t q4
          · intro i hS hlo
            exact q3 i hS (by omega)
    | lib k n =>
      obtain ⟨hn, hd⟩ := hok
      simp only [stepH, step, hi]
      rw [if_neg (by omega)]
      cases hl : P.lib k (slots m.mem (m.top - n) n) m.mem with
      | none => left; rfl
      | some u =>
        have huf := hP.lib _ _ _ _ hl
        dsimp only
        by_cases hn0 : n = 0
        · subst hn0
          rw [if_pos rfl]
          by_cases hlim : P.limit ≤ m.top + 1
          · rw [if_pos hlim]; left; rfl
          · rw [if_neg hlim]
            right
            refine ⟨_, d - 0 + 1, rfl, ?_, rfl, ?_⟩
            · exact inv_flat (v := u) h hn huf hd (fun i hi => put_stk_ne _ _ (by omega)) rfl
                (put_stk_same ..)
            · intro i _ hlo
              exact put_stk_ne _ _ (by omega)
        · rw [if_neg hn0]
          by_cases hlim : P.limit ≤ m.top - (n - 1)
          · rw [if_pos hlim]; left; rfl
          · rw [if_neg hlim]
            right
            have e1 : m.top - (n - 1) = m.top - n + 1 := by omega
            have e2 : m.top - (n - 1) - 1 = m.top - n := by omega
            have e3 : m.top - (n - 1) + (n - 1) = m.top := by omega
            refine ⟨_, d - n + 1, rfl, ?_, rfl, ?_⟩
            · rw [e2, e3, e1]
              refine inv_flat (v := u) h hn huf hd ?_ rfl ?_
              · intro i hi
                rw [put_stk_ne _ _ (by omega), put_stk_ne _ _ (by omega)]
              · rw [put_stk_same, put_stk_same]
            · intro i _ hlo
              dsimp only
              rw [put_stk_ne _ _ (by omega), put_stk_ne _ _ (by omega)]
    | libPop k n =>
      obtain ⟨hn, hd⟩ := hok
      simp only [stepH, step, hi]
      rw [if_neg (by omega)]
      cases hl : P.lib k (slots m.mem (m.top - n) n) m.mem with
      | none => left; rfl
      | some u =>
        have huf := hP.lib _ _ _ _ hl
        right
        refine ⟨_, d - n, rfl, ?_, rfl, ?_⟩
        · refine ⟨hd, by dsimp only; omega, h.frame, h.cover, h.below, h.closed.put_flat (.s m.top) huf, ?_,
            by intro h; cases h⟩
          exact (h.operands.mono (hi' := m.top - n) (Nat.le_refl _) (by omega)).put (flat_good huf)
        · intro i _ hlo
          exact put_stk_ne _ _ (by omega)
    | yield n =>
      obtain ⟨hn, hd⟩ := hok
      simp only [stepH, step, hi]
      right
      by_cases hn0 : n = 0
      · subst hn0
        refine ⟨_, d - 0 + 1, rfl, ?_, rfl, ?_⟩
        · have := inv_flat (v := v) (mem := (m.mem.put (.s m.top) (.int 0)).put (.s m.top) v) h hn hv
            hd (fun i hi => by rw [put_stk_ne _ _ (by omega), put_stk_ne _ _ (by omega)]) rfl
            (put_stk_same ..)
          exact this
        · intro i _ hlo
          show ((m.mem.put (.s m.top) (.int 0)).put (.s m.top) v).stk i = _
          rw [put_stk_ne _ _ (by omega), put_stk_ne _ _ (by omega)]
      · refine ⟨_, d - n + 1, rfl, ?_, rfl, ?_⟩
        · have := inv_flat (v := v) (mem := ((m.mem.put (.s m.top) (.int 0)).put (.s m.top) v).put
            (.s (m.top - n)) v) h hn hv hd
            (fun i hi => by
              rw [put_stk_ne _ _ (by omega), put_stk_ne _ _ (by omega), put_stk_ne _ _ (by omega)])
            rfl (put_stk_same ..)
          simpa [resume, Ctx.setResult, hn0] using this
        · intro i _ hlo
          simp only [resume, Ctx.setResult, ne_eq, put_stk_same, not_false_eq_true, hn0, if_true]
          rw [put_stk_ne _ _ (by omega), put_stk_ne _ _ (by omega), put_stk_ne _ _ (by omega)]

private theorem asInt_flat (P : Prog) (v : Val) : (P.asInt v).ptr = none := by
  cases v <;> rfl

private theorem entered_local {P : Prog} {F : Fn} {n ret : Nat} {m m' : M}
    (E : Entered P F n ret m m') {j : Nat} (h1 : F.arguments ≤ j)
    (h2 : j < F.arguments + F.frameSpaceNeeded) : (m'.mem.stk (m.top - n + j)).ptr = none := by
  have hfb := E.fb
  rcases Nat.eq_or_lt_of_le h1 with h | h
  · have := E.local0 (by omega)
    rw [hfb, h] at this
    rw [this]
    exact asInt_flat _ _
  · have := E.locals (j - F.arguments) (by omega) (by omega)
    rw [hfb, show m.top - n + F.arguments + (j - F.arguments) = m.top - n + j by omega] at this
    rw [this]
    rfl

/-- The callee starts in a frame of its own: its variables together with any closed set `R` of
older variables containing what the arguments refer to. -/
theorem callee_inv {P : Prog} {dep : Depths} (hW : WF P dep) {R : Nat → Prop}
    {g n ret : Nat} {m m' : M} {F : Fn} (hF : P.fns g = some F) (hn : n ≤ m.top)
    (hR : ∀ i, R i → i < m.top - n) (hc : Closed R m.mem)
    (ho : Operands R m.mem (m.top - n) m.top) (E : Entered P F n ret m m') :
    Inv P dep (fun i => R i ∨ (m.top - n ≤ i ∧ i < m.top - n + (F.arguments + F.frameSpaceNeeded)))
      (some g) 0 false (m.top - n + F.arguments + F.frameSpaceNeeded + 1) m' := by
  obtain ⟨hent, -⟩ := hW.fns g F hF
  have hnv : nvars P (some g) = F.arguments + F.frameSpaceNeeded := by simp [nvars, hF]
  refine ⟨by rw [E.pc]; exact hent, by rw [E.top], ?_, ?_, ?_, ?_, ?_, by intro h; cases h⟩
  · intro g' hg'
    injection hg' with hg'
    subst hg'
    exact ⟨F, hF, by rw [E.fb]⟩
  · intro i hil
    rw [hnv] at hil
    right; rw [E.fb]; omega
  · rintro i (hS | hS)
    · have := hR i hS; omega
    · omega
  · refine ⟨by rw [E.heap]; exact hc.heap, ?_⟩
    rintro i hS a ha
    by_cases hib : i < m.top - n
    · have hS' : R i := by rcases hS with hS | hS; exact hS; omega
      rw [E.below i hib] at ha
      exact (hc.vars i hS' a ha).mono (fun j hj => ⟨.inl hj.1, hj.2⟩)
    · have hS' : m.top - n ≤ i ∧ i < m.top - n + (F.arguments + F.frameSpaceNeeded) := by
        rcases hS with hS | hS
        · have := hR i hS; omega
        · exact hS
      obtain ⟨j, rfl⟩ : ∃ j, i = m.top - n + j := ⟨i - (m.top - n), by omega⟩
      by_cases hja : j < F.arguments
      · have := E.args j hja
        rw [E.fb] at this
        rw [this] at ha
        split at ha
        · have hg := ho (m.top - n + j) (by omega) (by omega) a ha
          exact hg.mono (fun k hk => ⟨.inl hk, by have := hR k hk; omega⟩)
        · simp [Val.ptr] at ha
      · rw [entered_local E (by omega) (by omega)] at ha
        cases ha
  · intro i h1 h2
    rw [E.top] at h2
    omega

private theorem call_run {P : Prog} {base g n : Nat} {F : Fn} {m : M}
    (hadj : F.frameBaseAdjustment = 1 + F.arguments + F.frameSpaceNeeded)
    (hF : P.fns g = some F) (hn : n ≤ m.top) (hi : P.code m.pc = some (.call g n)) (v : Val) :
    stepH P base v m = .err ∨ ∃ m', stepH P base v m = .run m' ∧ Entered P F n (m.pc + 1) m m' := by
  have hst : stepH P base v m = answer v (callFn P F n m (m.pc + 1)) := by
    simp only [stepH, step, hi, hF]
    rw [if_neg (by omega)]
  rcases callFn_entered (P := P) (ret := m.pc + 1) hadj hn with e | ⟨m', e, E⟩
  · left; rw [hst, e]; rfl
  · exact .inr ⟨m', by rw [hst, e]; rfl, E⟩

theorem call_step {P : Prog} {dep : Depths} (hW : WF P dep) {base : Nat}
    {S : Nat → Prop} {f : Option Nat} {d lo g n : Nat} {m : M}
    (h : Inv P dep S f d false lo m) (hi : P.code m.pc = some (.call g n)) (v : Val) :
    stepH P base v m = .err ∨ ∃ m' F, P.fns g = some F ∧ stepH P base v m = .run m' ∧
      Entered P F n (m.pc + 1) m m' ∧
      Inv P dep (fun i => S i ∨ (m.top - n ≤ i ∧ i < m.top - n + (F.arguments + F.frameSpaceNeeded)))
        (some g) 0 false (m.top - n + F.arguments + F.frameSpaceNeeded + 1) m' := by
  have ht := h.top
  obtain ⟨i, hi', hok⟩ := hW.code _ _ _ h.pc
  rw [hi] at hi'
  injection hi' with hi'
  subst hi'
  obtain ⟨hn, ⟨F, hF⟩, -⟩ := hok
  rcases call_run (base := base) (hW.fns g F hF).2 hF (show n ≤ m.top by omega) hi v with
    e | ⟨m', e, E⟩
  · exact .inl e
  · exact .inr ⟨m', F, hF, e, E, callee_inv hW hF (by omega)
      (fun i hi => by have := h.below i hi; omega) h.closed
      (h.operands.mono (by omega) (Nat.le_refl _)) E⟩

/-! ### Whole runs -/

/-- `Within P base b as m m'`: from `m` the machine goes to `m'`, one step per element of `as`
(the host's answer should that step be a yield), and the stack top is above `b` all along. -/
inductive Within (P : Prog) (base b : Nat) : List Val → M → M → Prop where
  | nil {m} : b < m.top → Within P base b [] m m
  | cons {v as m m1 m2} : b < m.top → stepH P base v m = .run m1 → Within P base b as m1 m2 →
      Within P base b (v :: as) m m2

theorem Within.append {P : Prog} {base b : Nat} {as bs : List Val} {m1 m2 m3 : M}
    (h : Within P base b as m1 m2) (g : Within P base b bs m2 m3) :
    Within P base b (as ++ bs) m1 m3 := by
  induction h with
  | nil _ => exact g
  | cons h1 h2 _ ih => exact .cons h1 h2 (ih g)

theorem Within.mono {P : Prog} {base b c : Nat} (hbc : c ≤ b) {as : List Val} {m1 m2 : M}
    (h : Within P base b as m1 m2) : Within P base c as m1 m2 := by
  induction h with
  | nil h => exact .nil (by omega)
  | cons h1 h2 _ ih => exact .cons (by omega) h2 ih

theorem Within.last {P : Prog} {base b : Nat} {as : List Val} {m1 m2 : M}
    (h : Within P base b as m1 m2) : b < m2.top := by
  induction h with
  | nil h => exact h
  | cons _ _ _ ih => exact ih

/-- The state `m2` after a return from the frame that started at `b`, given the saved frame
base and return position, relative to the state `m` at which we look at the frame and the
state `m1` at the return instruction. -/
structure Returned (P : Prog) (S : Nat → Prop) (b fb ret : Nat) (m m1 m2 : M) : Prop where
  top : m2.top = b
  fb : m2.fb = fb
  pc : m2.pc = ret
  /-- slots below the frame are untouched, variables of `S` excepted -/
  below : ∀ i, i < b → ¬ S i → m2.mem.stk i = m.mem.stk i
  /-- `register0` points below the returned value -/
  value : ∃ r, m2.r0 = some r ∧
    ((P.code m1.pc = some .ret ∧ m2.mem.stk (r + 1) = m1.mem.stk (m1.top - 1)) ∨
     (P.code m1.pc = some .retZero ∧ m2.mem.stk (r + 1) = .int 0)) ∧
    ∀ a, (m2.mem.stk (r + 1)).ptr = some a → Good S a
  /-- references still go to `S` only, and older variables refer to older variables -/
  all : Closed S m2.mem
  closed : Closed (fun i => S i ∧ i < b) m2.mem
  /-- the return instruction is one of this frame, and the variables are still in their slots -/
  own : m1.fb = b
  vars : ∀ i, S i → m2.mem.stk i = m1.mem.stk i

/-- The frame starting at `b` is still active after all of `as`, or stopped by a run-time error,
or it returned. -/
def Outcome (P : Prog) (base b : Nat) (S : Nat → Prop) (fb ret : Nat) (as : List Val) (m : M) : Prop :=
  (∃ m', Within P base b as m m') ∨
  (∃ as1 v as2 m1, as = as1 ++ v :: as2 ∧ Within P base b as1 m m1 ∧ stepH P base v m1 = .err) ∨
  (∃ as1 v as2 m1 m2, as = as1 ++ v :: as2 ∧ Within P base b as1 m m1 ∧
    stepH P base v m1 = .run m2 ∧ Returned P S b fb ret m m1 m2)

/-- Prefixing an outcome with a run that leaves the slots below the frame alone. -/
private theorem Outcome.prefix {P : Prog} {base b : Nat} {S : Nat → Prop} {fb ret : Nat}
    {as bs : List Val} {m m' : M} (h : Within P base b as m m')
    (hs : ∀ i, i < b → ¬ S i → m'.mem.stk i = m.mem.stk i)
    (g : Outcome P base b S fb ret bs m') : Outcome P base b S fb ret (as ++ bs) m := by
  rcases g with ⟨m2, g⟩ | ⟨a1, v, a2, m1, rfl, g, e⟩ | ⟨a1, v, a2, m1, m2, rfl, g, e, r⟩
  · exact .inl ⟨m2, h.append g⟩
  · exact .inr (.inl ⟨as ++ a1, v, a2, m1, by simp, h.append g, e⟩)
  · refine .inr (.inr ⟨as ++ a1, v, a2, m1, m2, by simp, h.append g, e, ?_⟩)
    exact ⟨r.top, r.fb, r.pc, fun i hi hS => (r.below i hi hS).trans (hs i hi hS), r.value, r.all,
      r.closed, r.own, r.vars⟩

theorem ret_step {P : Prog} {dep : Depths} {base : Nat}
    {S : Nat → Prop} {g d lo fb ret : Nat} {m : M} {ins : Instr}
    (hW : WF P dep) (h : Inv P dep S (some g) d false lo m) (hi : P.code m.pc = some ins)
    (hrz : ins = .ret ∨ ins = .retZero) (hvec : m.mem.stk (lo - 1) = .frame fb ret) (v : Val) :
    stepH P base v m = .err ∨ ∃ m2, stepH P base v m = .run m2 ∧
      Returned P S m.fb fb ret m m m2 := by
  have ht := h.top
  obtain ⟨F, hF, hlo⟩ := h.frame g rfl
  obtain ⟨i, hi', hok⟩ := hW.code _ _ _ h.pc
  rw [hi] at hi'
  injection hi' with hi'
  subst hi'
  have hcl : ∀ {mem : Mem}, Closed S mem → Closed (fun i => S i ∧ i < m.fb) mem := by
    intro mem hc
    refine ⟨hc.heap, fun i hi a ha => ?_⟩
    exact (hc.vars i hi.1 a ha).mono (fun j hj => ⟨⟨hj.1, by omega⟩, hj.2⟩)
  rcases hrz with rfl | rfl
  · obtain ⟨rfl, -⟩ := hok
    right
    have e1 : m.top - 2 = lo - 1 := by omega
    have hst : stepH P base v m = .run { m with top := m.fb, fb := fb, pc := ret, r0 := some (lo - 1) } := by
      simp only [stepH, step, hi, doRet]
      rw [if_neg (by omega), e1, hvec]
      rfl
    refine ⟨_, hst, rfl, rfl, rfl, fun _ _ _ => rfl, ?_, h.closed, hcl h.closed, rfl, fun _ _ => rfl⟩
    refine ⟨lo - 1, rfl, .inl ⟨hi, ?_⟩, ?_⟩
    · dsimp only; rw [show lo - 1 + 1 = m.top - 1 by omega]
    · intro a ha
      dsimp only at ha
      exact h.operands _ (by omega) (by omega) a ha
  · obtain ⟨rfl, -⟩ := hok
    by_cases hlim : P.limit ≤ m.top + 1
    · left
      simp only [stepH, step, hi]
      rw [if_pos hlim]
      rfl
    · right
      have e1 : m.top + 1 - 2 = lo - 1 := by omega
      have hst : stepH P base v m = .run
          ⟨m.mem.put (.s m.top) (.int 0), m.fb, fb, ret, some (lo - 1)⟩ := by
        simp only [stepH, step, hi]
        rw [if_neg hlim]
        simp only [doRet]
        rw [if_neg (by omega), e1, put_stk_ne _ _ (by omega), hvec]
        rfl
      have hc0 : Closed S (m.mem.put (.s m.top) (.int 0)) := h.closed.put_flat _ rfl
      refine ⟨_, hst, rfl, rfl, rfl, fun i hib _ => put_stk_ne _ _ (by omega), ?_, hc0, hcl hc0, rfl,
        fun i hS => put_stk_ne _ _ (by have := h.below i hS; omega)⟩
      have hx : (m.mem.put (.s m.top) (.int 0)).stk (lo - 1 + 1) = .int 0 := by
        rw [show lo - 1 + 1 = m.top by omega, put_stk_same]
      refine ⟨lo - 1, rfl, .inr ⟨hi, hx⟩, ?_⟩
      intro a ha
      dsimp only at ha
      rw [hx] at ha; cases ha

/-- The frame theorem: from any point inside a function whose return vector holds `(fb, ret)`,
for every continuation. -/
theorem frame_run {P : Prog} {dep : Depths} (hP : P.Ok) (hW : WF P dep) {base : Nat} :
    ∀ (N : Nat) (as : List Val), as.length ≤ N → (∀ v ∈ as, v.ptr = none) →
    ∀ (S : Nat → Prop) (g d lo fb ret : Nat) (fr : Bool) (m : M),
      Inv P dep S (some g) d fr lo m → m.mem.stk (lo - 1) = .frame fb ret →
      Outcome P base m.fb S fb ret as m := by
  intro N
  induction N with
  | zero =>
    intro as hN _ S g d lo fb ret fr m h hvec
    obtain rfl : as = [] := List.length_eq_zero_iff.mp (by omega)
    obtain ⟨F, -, hlo⟩ := h.frame g rfl
    exact .inl ⟨m, .nil (by have := h.top; omega)⟩
  | succ N ih =>
    intro as hN hfl S g d lo fb ret fr m h hvec
    obtain ⟨F, hF, hlo⟩ := h.frame g rfl
    have ht := h.top
    have hbt : m.fb < m.top := by omega
    cases as with
    | nil => exact .inl ⟨m, .nil hbt⟩
    | cons v as =>
      have hv : v.ptr = none := hfl v (by simp)
      have hfl' : ∀ v ∈ as, v.ptr = none := fun w hw => hfl w (by simp [hw])
      have hN' : as.length ≤ N := by simp at hN; omega
      -- which instruction?
      have hins : ∃ ins, P.code m.pc = some ins := by
        cases fr with
        | true => exact ⟨_, (hW.fresh _ _ _ h.pc).1⟩
        | false => obtain ⟨i, hi, -⟩ := hW.code _ _ _ h.pc; exact ⟨i, hi⟩
      obtain ⟨ins, hi⟩ := hins
      have hnotS : ¬ S (lo - 1) := fun hS => by have := h.below _ hS; omega
      -- an instruction that is not a call or return
      have inner : (∀ g n, ins ≠ .call g n) → ins ≠ .ret → ins ≠ .retZero → ins ≠ .stop →
          Outcome P base m.fb S fb ret (v :: as) m := by
        intro h1 h2 h3 h4
        rcases inner_step (base := base) hP hW h hi h1 h2 h3 h4 hv with e | ⟨m', d', e, hI, hfb, hsame⟩
        · exact .inr (.inl ⟨[], v, as, m, rfl, .nil hbt, e⟩)
        · have o := ih as hN' hfl' S g d' lo fb ret false m' hI
            (by rw [hsame _ hnotS (by omega), hvec])
          rw [hfb] at o
          have hw : Within P base m.fb [v] m m' := .cons hbt e (.nil (by
            have := hI.top
            obtain ⟨F', -, hlo'⟩ := hI.frame g rfl
            omega))
          exact Outcome.prefix hw (fun i hi hS => hsame i hS (by omega)) o
      cases fr with
      | true =>
        have h1 := (hW.fresh _ _ _ h.pc).1
        rw [hi] at h1
        injection h1 with h1
        subst h1
        exact inner (by intros; simp) (by simp) (by simp) (by simp)
      | false =>
        obtain ⟨i, hi', hok⟩ := hW.code _ _ _ h.pc
        rw [hi] at hi'
        injection hi' with hi'
        subst hi'
        cases ins with
        | plain p => exact inner (by intros; simp) (by simp) (by simp) (by simp)
        | lib k n => exact inner (by intros; simp) (by simp) (by simp) (by simp)
        | libPop k n => exact inner (by intros; simp) (by simp) (by simp) (by simp)
        | yield n => exact inner (by intros; simp) (by simp) (by simp) (by simp)
        | pushRet => exact hok.elim
        | stop => cases hok
        | ret =>
          rcases ret_step (base := base) hW h hi (.inl rfl) hvec v with e | ⟨m2, e, hR⟩
          · exact .inr (.inl ⟨[], v, as, m, rfl, .nil hbt, e⟩)
          · exact .inr (.inr ⟨[], v, as, m, m2, rfl, .nil hbt, e, hR⟩)
        | retZero =>
          rcases ret_step (base := base) hW h hi (.inr rfl) hvec v with e | ⟨m2, e, hR⟩
          · exact .inr (.inl ⟨[], v, as, m, rfl, .nil hbt, e⟩)
          · exact .inr (.inr ⟨[], v, as, m, m2, rfl, .nil hbt, e, hR⟩)
        | call g' n =>
          obtain ⟨hn, -, fr', hd'⟩ := hok
          rcases call_step (base := base) hW h hi v with e | ⟨m', F', hF', e, hE, hI⟩
          · exact .inr (.inl ⟨[], v, as, m, rfl, .nil hbt, e⟩)
          · have hb' : m'.fb = m.top - n := hE.fb
            have hbm : m.fb ≤ m'.fb := by omega
            have o := ih as hN' hfl' _ g' 0 _ m.fb (m.pc + 1) false m' hI (by
              have := hE.vector
              rw [hb'] at this
              exact this)
            have htop' : m.fb < m'.top := by rw [hE.top]; omega
            rcases o with ⟨m2, o⟩ | ⟨a1, u, a2, m1, rfl, o, e2⟩ | ⟨a1, u, a2, m1, m2, rfl, o, e2, r⟩
            · exact .inl ⟨m2, .cons hbt e (o.mono hbm)⟩
            · exact .inr (.inl ⟨v :: a1, u, a2, m1, rfl, .cons hbt e (o.mono hbm), e2⟩)
            · -- the callee returned: we are back in the caller
              have hIb : Inv P dep S (some g) (d - n) fr' lo m2 := by
                have hSS : ∀ i, i < m.top - n → ((S i ∨ (m.top - n ≤ i ∧ i < m.top - n +
                    (F'.arguments + F'.frameSpaceNeeded))) ↔ S i) := by
                  intro i hib; constructor
                  · rintro (h | h); exact h; omega
                  · exact .inl
                have rt := r.top
                rw [hb'] at rt
                refine ⟨by rw [r.pc]; exact hd', by rw [rt]; omega, ?_, ?_, h.below, ?_, ?_, ?_⟩
                · intro g2 hg2
                  rw [r.fb]
                  exact h.frame g2 hg2
                · intro i hil; rw [r.fb]; exact h.cover i hil
                · refine ⟨r.closed.heap, fun i hS a ha => ?_⟩
                  have hil := h.below i hS
                  refine (r.closed.vars i ⟨.inl hS, by omega⟩ a ha).mono (fun j hj => ?_)
                  exact ⟨(hSS j (by omega)).mp hj.1.1, hj.2⟩
                · intro i h1 h2 a ha
                  rw [rt] at h2
                  have hns : ¬ (S i ∨ (m.top - n ≤ i ∧ i < m.top - n +
                      (F'.arguments + F'.frameSpaceNeeded))) := by
                    rintro (h' | h')
                    · have := h.below i h'; omega
                    · omega
                  rw [r.below i (by omega) hns, hE.below i h2] at ha
                  exact h.operands i h1 (by omega) a ha
                · intro _
                  obtain ⟨q, hq1, -, hTg⟩ := r.value
                  exact ⟨q, _, hq1, r.all, hTg⟩
              have hsame : ∀ i, i < m.top - n → ¬ S i → m2.mem.stk i = m.mem.stk i := by
                intro i hib hS
                rw [r.below i (by omega) (by rintro (h' | h'); exact hS h'; omega), hE.below i hib]
              have hlow : lo ≤ m.top - n := by omega
              have hlen : a2.length ≤ N := by simp at hN'; omega
              have hfl2 : ∀ v ∈ a2, v.ptr = none := fun w hw => hfl' w (by simp [hw])
              have o2 := ih a2 hlen hfl2 S g (d - n) lo fb ret fr' m2 hIb
                (by rw [hsame _ (by omega) hnotS, hvec])
              rw [r.fb] at o2
              have hw2 : m.fb < m2.top := by rw [r.top]; omega
              have hw : Within P base m.fb ((v :: a1) ++ [u]) m m2 :=
                (Within.cons hbt e (o.mono hbm)).append
                  (.cons (by have := o.last; omega) e2 (.nil hw2))
              have := Outcome.prefix hw (fun i hi hS => hsame i (by omega) hS) o2
              simpa using this

/-! ### C33 -/

/-- C33: calling a script function, for every caller state, argument count, function, and every
continuation of the program (`as` holds one host answer per step, used when that step is a
yield).  `R` is any set of older stack variables closed under references that contains what the
arguments refer to (for arguments passed by value: none).

The call ends in a run-time error (stack overflow), or enters the function with the arguments
as `Entered` says; from there on, either the function is still active, or a run-time error
occurred, or it returned, and then the stack top is where the arguments began, the frame base is
the caller's, execution goes on after the call, and every slot of the caller outside `R` is
untouched; nothing undefined happens on the way. -/
theorem C33_call_and_return_partial {P : Prog} {dep : Depths} (hP : P.Ok) (hW : WF P dep)
    {base g n : Nat} {F : Fn} {m : M} {R : Nat → Prop}
    (hi : P.code m.pc = some (.call g n)) (hF : P.fns g = some F) (hn : n ≤ m.top)
    (hR : ∀ i, R i → i < m.top - n) (hc : Closed R m.mem)
    (ho : Operands R m.mem (m.top - n) m.top) (v : Val) :
    stepH P base v m = .err ∨ ∃ m', stepH P base v m = .run m' ∧ Entered P F n (m.pc + 1) m m' ∧
      ∀ as : List Val, (∀ w ∈ as, w.ptr = none) →
        (∃ m2, Within P base (m.top - n) as m' m2) ∨
        (∃ as1 u as2 m1, as = as1 ++ u :: as2 ∧ Within P base (m.top - n) as1 m' m1 ∧
          stepH P base u m1 = .err) ∨
        (∃ as1 u as2 m1 m2, as = as1 ++ u :: as2 ∧ Within P base (m.top - n) as1 m' m1 ∧
          stepH P base u m1 = .run m2 ∧ m2.top = m.top - n ∧ m2.fb = m.fb ∧ m2.pc = m.pc + 1 ∧
          (∀ i, i < m.top - n → ¬ R i → m2.mem.stk i = m.mem.stk i) ∧ m1.fb = m.top - n ∧
          (∀ i, i < F.arguments + F.frameSpaceNeeded →
            m2.mem.stk (m2.top + i) = m1.mem.stk (m1.fb + i)) ∧
          ∃ r x, m2.r0 = some r ∧ m2.mem.stk (r + 1) = x ∧
            ((P.code m1.pc = some .ret ∧ x = m1.mem.stk (m1.top - 1)) ∨
             (P.code m1.pc = some .retZero ∧ x = .int 0)) ∧
            ∃ y, deref P m2.mem x = .ok y ∧ y.ptr = none) := by
  rcases call_run (base := base) (hW.fns g F hF).2 hF hn hi v with e | ⟨m', e, E⟩
  · exact .inl e
  · refine .inr ⟨m', e, E, fun as has => ?_⟩
    have hI := callee_inv (dep := dep) hW hF hn hR hc ho E
    have hvec : m'.mem.stk (m.top - n + F.arguments + F.frameSpaceNeeded + 1 - 1)
        = .frame m.fb (m.pc + 1) := by
      have := E.vector
      rw [E.fb] at this
      exact this
    have o := frame_run (base := base) hP hW as.length as (Nat.le_refl _) has _ _ _ _ _ _ _ _ hI hvec
    rw [E.fb] at o
    rcases o with o | o | ⟨a1, u, a2, m1, m2, ha, w, e2, r⟩
    · exact .inl o
    · exact .inr (.inl o)
    · refine .inr (.inr ⟨a1, u, a2, m1, m2, ha, w, e2, r.top, r.fb, r.pc, ?_, r.own, ?_, ?_⟩)
      · intro i hib hRi
        rw [r.below i hib (by rintro (h | h); exact hRi h; omega), E.below i hib]
      · intro i hil
        rw [r.top, r.own]
        exact r.vars _ (.inr ⟨by omega, by omega⟩)
      · obtain ⟨q, h1, h2, h3⟩ := r.value
        obtain ⟨y, hy, hyf⟩ := deref_ok hP r.all h3
        refine ⟨q, _, h1, rfl, ?_, y, hy, hyf⟩
        exact h2

/-- C33: the instruction after the call, when its value is used, leaves exactly the returned
value in place of the arguments. -/
theorem C33_push_return_value {P : Prog} {base r : Nat} {m2 : M} {x y : Val}
    (hi : P.code m2.pc = some .pushRet) (hr : m2.r0 = some r) (hx : m2.mem.stk (r + 1) = x)
    (hy : deref P m2.mem x = .ok y) (v : Val) :
    stepH P base v m2 = .err ∨ ∃ m3, stepH P base v m2 = .run m3 ∧ m3.top = m2.top + 1 ∧
      m3.fb = m2.fb ∧ m3.pc = m2.pc + 1 ∧ m3.mem.stk m2.top = y ∧
      m3.mem.heap = m2.mem.heap ∧ ∀ i, i ≠ m2.top → m3.mem.stk i = m2.mem.stk i := by
  subst hx
  simp only [stepH, step, hi, hr, hy]
  by_cases hl : P.limit ≤ m2.top + 1
  · rw [if_pos hl]; exact .inl rfl
  · rw [if_neg hl]
    exact .inr ⟨_, rfl, rfl, rfl, rfl, put_stk_same .., rfl, fun i hi => put_stk_ne _ _ hi⟩

/-- C33: the state in which a function starts.  Missing arguments are 0, extra ones dropped,
locals after the first are 0 (see `C33_fails_first_local` for the first). -/
theorem C33_entry_partial {P : Prog} {F : Fn} {n ret : Nat} {m m' : M} (E : Entered P F n ret m m') :
    m'.fb = m.top - n ∧ m'.pc = F.entry ∧
    (∀ i, i < F.arguments → i < n → m'.mem.stk (m'.fb + i) = m.mem.stk (m.top - n + i)) ∧
    (∀ i, i < F.arguments → n ≤ i → m'.mem.stk (m'.fb + i) = .int 0) ∧
    (∀ j, 0 < j → j < F.frameSpaceNeeded → m'.mem.stk (m'.fb + F.arguments + j) = .int 0) ∧
    (∀ i, i < m.top - n → m'.mem.stk i = m.mem.stk i) := by
  refine ⟨E.fb, E.pc, ?_, ?_, E.locals, E.below⟩
  · intro i h1 h2; rw [E.args i h1, if_pos h2]
  · intro i h1 h2; rw [E.args i h1, if_neg (by omega)]

/-- C33: what the linker writes fits the frame when arguments and locals together are at most
254. -/
theorem C33_linked_adjustment (entry a l : Nat) (h : a + l ≤ 254) :
    (linkFn entry a l).frameBaseAdjustment
      = 1 + (linkFn entry a l).arguments + (linkFn entry a l).frameSpaceNeeded := by
  simp only [linkFn]; omega

/-- C33 fails: the first local of a function does not start as 0 but with the bits its stack
slot happened to hold. -/
theorem C33_fails_first_local {P : Prog} {F : Fn} {n ret : Nat} {m m' : M}
    (E : Entered P F n ret m m') (hl : 0 < F.frameSpaceNeeded) (w : Word32)
    (hw : m.mem.stk (m.top - n + F.arguments) = .int w) :
    m'.mem.stk (m'.fb + F.arguments) = .int w := by
  rw [E.local0 hl, hw]; rfl

/-- The state in which `hostCall` enters the function. -/
def hostState (base stop : Nat) (mem : Mem) (argv : List Val) : M :=
  let mem := mem.put (.s base) (.int 0)
  let mem := { mem with stk := fun i =>
    if base + 1 ≤ i then (argv[i - (base + 1)]?).getD (mem.stk i) else mem.stk i }
  { mem := mem, top := base + 1 + argv.length, fb := 0, pc := stop, r0 := none }

/-- C33, host calls: `wr_callFunction` on a context that is not yielded, from any memory, with
plain arguments.  When the function returns, the next instruction is `stop` and the host gets
the returned value. -/
theorem C33_host_call_partial {P : Prog} {dep : Depths} (hP : P.Ok) (hW : WF P dep)
    {base stop g : Nat} {F : Fn} {mem : Mem} {argv : List Val} (hF : P.fns g = some F)
    (hs : P.code stop = some .stop) (hh : ∀ i, (mem.heap i).ptr = none)
    (ha : ∀ v ∈ argv, v.ptr = none) :
    hostCall P none base stop mem F argv = .err ∨
    ∃ m', hostCall P none base stop mem F argv = .run m' ∧ m'.fb = base + 1 ∧ m'.pc = F.entry ∧
      (∀ i, i < F.arguments → m'.mem.stk (m'.fb + i) = (argv[i]?).getD (.int 0)) ∧
      ∀ as : List Val, (∀ w ∈ as, w.ptr = none) →
        (∃ m2, Within P base (base + 1) as m' m2) ∨
        (∃ as1 u as2 m1, as = as1 ++ u :: as2 ∧ Within P base (base + 1) as1 m' m1 ∧
          stepH P base u m1 = .err) ∨
        (∃ as1 u as2 m1 m2 x, as = as1 ++ u :: as2 ∧ Within P base (base + 1) as1 m' m1 ∧
          stepH P base u m1 = .run m2 ∧ m2.top = base + 1 ∧ m2.pc = stop ∧
          (∀ i, i < base → m2.mem.stk i = mem.stk i) ∧ m1.fb = base + 1 ∧
          (∀ i, i < F.arguments + F.frameSpaceNeeded →
            m2.mem.stk (base + 1 + i) = m1.mem.stk (m1.fb + i)) ∧
          ((P.code m1.pc = some .ret ∧ x = m1.mem.stk (m1.top - 1)) ∨
           (P.code m1.pc = some .retZero ∧ x = .int 0)) ∧
          ∃ y, deref P (m2.mem.put (.s base) x) x = .ok y ∧
            step P base m2 = .done y (m2.mem.put (.s base) x)) := by
  generalize hm : hostState base stop mem argv = m
  have hc0 : hostCall P none base stop mem F argv = callFn P F argv.length m stop := by
    rw [← hm]; rfl
  have hmt : m.top = base + 1 + argv.length := by rw [← hm]; rfl
  have hmb : m.top - argv.length = base + 1 := by omega
  have hstk : ∀ i, i < argv.length → m.mem.stk (base + 1 + i) = (argv[i]?).getD (.int 0) := by
    intro i hi
    rw [← hm]
    simp [hostState, hi]
  have hlow : ∀ i, i < base → m.mem.stk i = mem.stk i := by
    intro i hi
    rw [← hm]
    dsimp only [hostState]
    rw [if_neg (by omega), put_stk_ne _ _ (by omega)]
  rw [hc0]
  rcases callFn_entered (P := P) (m := m) (ret := stop) (hW.fns g F hF).2
    (show argv.length ≤ m.top by omega) with e | ⟨m', e, E⟩
  · exact .inl e
  · right
    have hfb : m'.fb = base + 1 := by rw [E.fb, hmb]
    refine ⟨m', e, hfb, E.pc, ?_, fun as has => ?_⟩
    · intro i hi
      rw [E.args i hi, hmb]
      split
      · next h => exact hstk i h
      · next h => rw [List.getElem?_eq_none (by omega)]; rfl
    · have hcl : Closed (fun _ => False) m.mem :=
        ⟨fun i => by rw [← hm]; exact hh i, fun i h => h.elim⟩
      have hop : Operands (fun _ => False) m.mem (m.top - argv.length) m.top := by
        intro i h1 h2 a hpa
        obtain ⟨j, rfl⟩ : ∃ j, i = base + 1 + j := ⟨i - (base + 1), by omega⟩
        rw [hstk j (by omega), List.getElem?_eq_getElem (by omega), Option.getD_some,
          ha _ (List.getElem_mem _)] at hpa
        cases hpa
      have hI := callee_inv (dep := dep) hW hF (by omega) (fun i h => h.elim) hcl hop E
      have hvec : m'.mem.stk (m.top - argv.length + F.arguments + F.frameSpaceNeeded + 1 - 1)
          = .frame m.fb stop := by
        have := E.vector
        rw [E.fb] at this
        exact this
      have o := frame_run (base := base) hP hW as.length as (Nat.le_refl _) has _ _ _ _ _ _ _ _ hI
        hvec
      rw [hfb] at o
      rcases o with o | o | ⟨a1, u, a2, m1, m2, ha', w, e2, r⟩
      · exact .inl o
      · exact .inr (.inl o)
      · obtain ⟨q, h1, h2, h3⟩ := r.value
        have hb : ¬ (False ∨ (m.top - argv.length ≤ base ∧
            base < m.top - argv.length + (F.arguments + F.frameSpaceNeeded))) := by
          rintro (h | h); exact h; omega
        obtain ⟨y, hy, -⟩ := deref_ok hP (r.all.put_out (i := base) hb (m2.mem.stk (q + 1))) h3
        refine .inr (.inr ⟨a1, u, a2, m1, m2, m2.mem.stk (q + 1), ha', w, e2, r.top, r.pc, ?_,
          r.own, ?_, h2, y, hy, ?_⟩)
        · intro i hib
          rw [r.below i (by omega) (by rintro (h | h); exact h; omega), E.below i (by omega),
            hlow i hib]
        · intro i hil
          rw [r.own]
          exact r.vars _ (.inr ⟨by omega, by omega⟩)
        · simp only [step, r.pc, hs, h1, put_stk_same, hy]

/-! ### C32 -/

/-- C32: `yield(a1, …, an)` from any state, and continuing with the host's value `v`.  The host
sees the arguments; execution goes on at the next instruction with the same frame base, the same
memory and the same operands below, the arguments replaced by `v`. -/
theorem C32_resume_continues {P : Prog} {base n : Nat} {m : M}
    (hi : P.code m.pc = some (.yield n)) (hn : n ≤ m.top) :
    ∃ c, step P base m = .yielded c ∧ c.yieldArguments = slots m.mem (m.top - n) n ∧
      ∀ v, ∃ m', wrContinue (some (c.setResult v)) = some m' ∧ m'.pc = m.pc + 1 ∧ m'.fb = m.fb ∧
        m'.top = m.top - n + 1 ∧ m'.mem.stk (m.top - n) = v ∧ m'.mem.heap = m.mem.heap ∧
        ∀ i, i < m.top - n → m'.mem.stk i = m.mem.stk i := by
  refine ⟨⟨m.mem.put (.s m.top) (.int 0), m.pc + 1, m.top, m.fb, n⟩, by simp only [step, hi], ?_, ?_⟩
  · simp only [Ctx.yieldArguments, slots]
    apply List.map_congr_left
    intro i hi
    exact put_stk_ne _ _ (by simp at hi; omega)
  · intro v
    by_cases h0 : n = 0
    · subst h0
      refine ⟨_, rfl, rfl, rfl, by simp [resume, Ctx.setResult], ?_, by
        simp [resume, Ctx.setResult, Mem.put], ?_⟩
      · simp [resume, Ctx.setResult, Mem.put]
      · intro i hib
        have : i ≠ m.top := by omega
        simp [resume, Ctx.setResult, Mem.put, this]
    · refine ⟨_, rfl, rfl, rfl, by simp [resume, Ctx.setResult, h0], ?_, by
        simp [resume, Ctx.setResult, Mem.put, h0], ?_⟩
      · simp [resume, Ctx.setResult, Mem.put, h0]
      · intro i hib
        have h1 : i ≠ m.top := by omega
        have h2 : i ≠ m.top - n := by omega
        simp [resume, Ctx.setResult, Mem.put, h0, h1, h2]

/-- C32: a host that sets no value makes `yield()` 0. -/
theorem C32_default_value {P : Prog} {base n : Nat} {m : M} {c : Ctx}
    (hi : P.code m.pc = some (.yield n)) (hn : n ≤ m.top) (hc : step P base m = .yielded c) :
    (resume c).mem.stk (m.top - n) = .int 0 ∧ (resume c).top = m.top - n + 1 := by
  simp only [step, hi, Out.yielded.injEq] at hc
  subst hc
  by_cases h0 : n = 0
  · subst h0
    simp [resume, Mem.put]
  · simp [resume, Mem.put, h0]

/-- C32: continuing a context that has not yielded is refused. -/
theorem C32_not_yielded_refused : wrContinue none = none := rfl

/-- C32: in well-formed code a yield is an instruction like any other: the invariant of the
frame holds again when execution continues, at any call depth (the frames of the callers are
below and untouched). -/
theorem C32_frame_kept {P : Prog} {dep : Depths} (hP : P.Ok) (hW : WF P dep) {base n : Nat}
    {S : Nat → Prop} {f : Option Nat} {d lo : Nat} {m : M} (h : Inv P dep S f d false lo m)
    (hi : P.code m.pc = some (.yield n)) {v : Val} (hv : v.ptr = none) :
    ∃ c m' d', step P base m = .yielded c ∧ wrContinue (some (c.setResult v)) = some m' ∧
      Inv P dep S f d' false lo m' ∧ m'.fb = m.fb ∧
      ∀ i, ¬ S i → i < lo → m'.mem.stk i = m.mem.stk i := by
  have hst : ∃ c, step P base m = .yielded c := by simp [step, hi]
  obtain ⟨c, hc⟩ := hst
  rcases inner_step (base := base) hP hW h hi (by simp) (by simp) (by simp) (by simp) hv with
    e | ⟨m', d', e, h1, h2, h3⟩
  · rw [stepH, hc] at e; cases e
  · rw [stepH, hc] at e
    injection e with e
    exact ⟨c, m', d', hc, by rw [wrContinue, Option.map_some, e], h1, h2, h3⟩

/-- `wr_callFunction` on a yielded context does not call the function: it continues the yielded
code, with whatever arguments. -/
theorem C32_host_call_resumes_instead (P : Prog) (c : Ctx) (base stop : Nat) (mem : Mem) (F : Fn)
    (argv : List Val) : hostCall P (some c) base stop mem F argv = .run (resume c) := rfl

end Wrench.Frames
