import Verif.Peep.Sound

/-
Each rewriting rule of the emitter is sound on the machine.
-/
namespace Wrench.Peep
open Wrench.Vm Wrench.Ops

variable {E : Env}

theorem sound_keep (is : List Ins) : Sound E is is fun _ => True :=
  fun _ o _ _ h => ⟨o, h, SameO.refl o⟩

theorem sound_negLit {k : Lit} {d d' : List Byte} {w : Val} (h1 : litVal k d = some w)
    (h2 : litVal k d' = some (negVal E w)) : Sound E [(.lit k, d), (.neg, [])] [(.lit k, d')] fun _ => True := by
  intro m o hm _ h
  obtain ⟨w', hw, h⟩ := runs_lit.mp h
  rw [h1] at hw
  simp only [Option.some.injEq] at hw
  subst hw
  obtain ⟨f, h⟩ := runs_one.mp h
  rw [exec_neg, peek_push hm.locals] at h
  simp only [res_bind_ok] at h
  obtain ⟨σ', h3, h⟩ := bind_ok h
  simp only [Res.ok.injEq] at h
  subst h
  refine ⟨.next (m.push (negVal E w)), runs_lit.mpr ⟨_, h2, ?_⟩, ?_⟩
  · rfl
  · have hn := (litVal_num h1).1
    refine ⟨rfl, rfl, rfl, rfl, rfl, ?_⟩
    cases f with
    | zero => simp [negate] at h3
    | succ f =>
      unfold negate at h3
      have hc : (m.push w).σ.cell (.cell m.top) = w := by simp [M.push]
      rw [hc] at h3
      rcases isNum_cases hn with ⟨i, rfl⟩ | ⟨i, rfl⟩
      · simp only [Val.ty, Res.ok.injEq] at h3
        subst h3
        refine ⟨fun a _ => ?_, rfl, rfl, rfl⟩
        by_cases ha : a = .cell m.top
        · subst ha; simp [M.push, negVal]
        · simp only [M.push]
          rw [St.set_ne _ _ ha, St.set_ne _ _ ha, St.set_ne _ _ ha]
      · simp only [Val.ty, Res.ok.injEq] at h3
        subst h3
        refine ⟨fun a _ => ?_, rfl, rfl, rfl⟩
        by_cases ha : a = .cell m.top
        · subst ha; simp [M.push, negVal]
        · simp only [M.push]
          rw [St.set_ne _ _ ha, St.set_ne _ _ ha, St.set_ne _ _ ha]

/-- Two variables loaded. -/
theorem runs_two {v w : Sp} {i j : Byte} {is : List Ins} {m : M} {o : Out}
    (h : RunsI E ((.load v, [i]) :: (.load w, [j]) :: is) m o) : ∃ x y, m.var v i = .ok x ∧
    m.var w j = .ok y ∧ RunsI E is ((m.push (.ref x)).push (.ref y)) o := by
  obtain ⟨x, hx, h⟩ := runs_load.mp h
  obtain ⟨y, hy, h⟩ := runs_load.mp h
  rw [var_push] at hy
  exact ⟨x, y, hx, hy, h⟩

/-- The answers of two comparisons in the same state. -/
theorem finish_same {m m' : M} {bz r : Bool} (h1 : m'.top = m.top) (h2 : m'.fb = m.fb)
    (h3 : m'.gb = m.gb) (h4 : m'.nl = m.nl) (h5 : m'.ng = m.ng) (h : AgreeOff (deadAt m.top) m.σ m'.σ) :
    SameO (finish bz m r) (finish bz m' r) := by
  unfold finish
  cases bz <;> simp only [if_true, if_false, Bool.false_eq_true]
  · refine ⟨by simp [M.push, h1], h2, h3, h4, h5, ?_⟩
    simp only [M.push]
    rw [h1]
    exact agree_set h fun a ha hn => live_succ ha hn
  · cases r <;> exact ⟨h1, h2, h3, h4, h5, h.agree fun a ha => live_not_dead ha⟩

theorem sound_cmpVV (hE : EnvOk E) {op : CmpOp} {inv : Bool} {v w : Sp} {i j : Byte} :
    Sound E [(.load v, [i]), (.load w, [j]), (.cmp op inv .stack false, [])]
      [(.cmp op inv (.two v w) false, [i, j])] fun _ => True := by
  intro m o hm _ h
  obtain ⟨x, y, hx, hy, h⟩ := runs_two h
  obtain ⟨f, h⟩ := runs_one.mp h
  rw [exec_cmp, pop_push2 hm.locals] at h
  simp only [res_bind_ok] at h
  rw [pop_top1 hm.locals] at h
  simp only [res_bind_ok] at h
  obtain ⟨⟨σ', r⟩, h1, h⟩ := bind_ok h
  simp only [Res.ok.injEq] at h
  subst h
  cases f with
  | zero => simp [Ops.compare, disp] at h1
  | succ f =>
    rw [compare_rr two_hi two_lo] at h1
    obtain ⟨τ', h2, hr⟩ := (hm.relTwo _ _).compare (dead_deadAt _) (loc_deadAt _) hE.loc op f
      (hm.var hy) (hm.var hx) h1
    refine ⟨finish false { m with σ := τ' } (r != inv), runs_one.mpr ⟨f, ?_⟩, ?_⟩
    · rw [exec_cmp2, hx, hy]
      simp only [res_bind_ok]
      rw [h2]
      rfl
    · exact finish_same rfl rfl rfl rfl rfl hr.agreeOff

theorem sound_cmpLitVar (hE : EnvOk E) {op : CmpOp} {inv : Bool} {k : Lit} {d : List Byte} {v : Sp}
    {i : Byte} : Sound E [(.lit k, d), (.load v, [i]), (.cmp op inv .stack false, [])]
        [(.lit k, d), (.cmp op inv (.one v) false, [i])] fun _ => True := by
  intro m o hm _ h
  obtain ⟨L, hL, h⟩ := runs_lit.mp h
  obtain ⟨x, hx, h⟩ := runs_load.mp h
  rw [var_push] at hx
  have hn := (litVal_num hL).1
  have hm1 : OkM (m.push L) := hm.push (by rw [num_ptr hn]; simp)
  obtain ⟨f, h⟩ := runs_one.mp h
  rw [exec_cmp, pop_push2 hm.locals] at h
  simp only [res_bind_ok] at h
  rw [pop_top1 hm.locals] at h
  simp only [res_bind_ok] at h
  obtain ⟨⟨σ', r⟩, h1, h⟩ := bind_ok h
  simp only [Res.ok.injEq] at h
  subst h
  cases f with
  | zero => simp [Ops.compare, disp] at h1
  | succ f =>
    rw [compare_rn two_hi (by simpa using hn)] at h1
    obtain ⟨τ', h2, hr⟩ := (hm1.relOne (.ref x)).compare (dead_deadAt _) (loc_deadAt _) hE.loc op f
      (hm1.var (by rw [var_push]; exact hx)) (by
        rintro ⟨j, hj, h⟩
        simp only [Addr.cell.injEq, M.push] at h hj
        omega) h1
    refine ⟨finish false { m with σ := τ' } (r != inv), runs_lit.mpr ⟨L, hL, runs_one.mpr ⟨f, ?_⟩⟩, ?_⟩
    · rw [exec_cmp1, var_push, hx]
      simp only [res_bind_ok]
      rw [pop_push hm.locals]
      simp only [res_bind_ok]
      rw [show m.σ.set (.cell m.top) L = (m.push L).σ from rfl, h2]
      rfl
    · refine finish_same rfl rfl rfl rfl rfl ?_
      exact ⟨fun a _ ha => hr.off a fun ⟨j, hj, h⟩ => ha ⟨j, by simp only [M.push] at hj ⊢; omega, h⟩,
        hr.obj, hr.next, hr.raw⟩

theorem sound_cmpVarLit (hE : EnvOk E) {op : CmpOp} {inv : Bool} {k : Lit} {d : List Byte} {v : Sp}
    {i : Byte} (hop : op = .gt ∨ op = .lt ∨ op = .eq) :
    Sound E [(.load v, [i]), (.lit k, d), (.cmp op inv .stack false, [])]
        [(.lit k, d), (.cmp (CmpOp.flip op) inv (.one v) false, [i])] fun m =>
          k = .f32 → op ≠ .eq → ∀ x, m.var v i = .ok x →
            ∀ b, Ends m.σ x b → (m.σ.cell b).ty ≠ .I := by
  intro m o hm hP h
  obtain ⟨x, hx, h⟩ := runs_load.mp h
  obtain ⟨L, hL, h⟩ := runs_lit.mp h
  have hn := litVal_num hL
  obtain ⟨f, h⟩ := runs_one.mp h
  rw [exec_cmp, pop_push2 hm.locals] at h
  simp only [res_bind_ok] at h
  rw [pop_top1 hm.locals] at h
  simp only [res_bind_ok] at h
  obtain ⟨⟨σ', r⟩, h1, h⟩ := bind_ok h
  simp only [Res.ok.injEq] at h
  subst h
  cases f with
  | zero => simp [Ops.compare, disp] at h1
  | succ f =>
    rw [compare_nr (by simpa using hn.1) two_lo] at h1
    have hr : Rel (deadAt m.top) _ _ (two m.σ m.top (.ref x) L) (m.σ.set (.cell m.top) L) :=
      rel_of hm (fun _ ha => two_off ha) (fun _ ha => set_off (Nat.le_refl _) ha) rfl rfl rfl
    have hv := hm.var hx
    obtain ⟨τ', h2, hr'⟩ := compare_flip hE (dead_deadAt _) (loc_deadAt _) hop
      (c := .cell (m.top + 1)) (c' := .cell m.top) ⟨_, by omega, rfl⟩ hn.1 f hr ⟨_, Nat.le_refl _, rfl⟩
      hv (by simp) (by simp) (.inr (by
        intro hF hne b hb
        have := hb.rel (hm.relTwo (.ref x) L) hv
        rw [two_off this.1]
        exact hP (hn.2.mp hF) hne x hx b this.2)) h1
    refine ⟨finish false { m with σ := τ' } (r != inv), runs_lit.mpr ⟨L, hL, runs_one.mpr ⟨f, ?_⟩⟩, ?_⟩
    · rw [exec_cmp1, var_push, hx]
      simp only [res_bind_ok]
      rw [pop_push hm.locals]
      simp only [res_bind_ok]
      rw [h2]
      rfl
    · exact finish_same rfl rfl rfl rfl rfl hr'

/-- What two loads and an operator leave. -/
theorem bin_two {op : BinOp} {v w : Sp} {i j : Byte} {m : M} {o : Out} (hm : OkM m)
    (h : RunsI E [(.load v, [i]), (.load w, [j]), (.bin op .stack, [])] m o) :
    ∃ x y f σ' r, m.var v i = .ok x ∧ m.var w j = .ok y ∧
      binVal E op f (two m.σ m.top (.ref x) (.ref y)) y x = .ok (σ', r) ∧
      o = .next { m with σ := put' (.cell m.top) (σ', r), top := m.top + 1 } := by
  obtain ⟨x, y, hx, hy, h⟩ := runs_two h
  obtain ⟨f, h⟩ := runs_one.mp h
  rw [exec_bin, pop_push2 hm.locals] at h
  simp only [res_bind_ok] at h
  rw [peek_top1 hm.locals] at h
  simp only [res_bind_ok] at h
  rw [binary_eq] at h
  obtain ⟨σ2, h0, h⟩ := bind_ok h
  obtain ⟨⟨σ', r⟩, h1, rfl⟩ := map_ok h0
  simp only [Res.ok.injEq] at h
  subst h
  cases f with
  | zero => simp [binVal, disp] at h1
  | succ f =>
    rw [binVal_rr two_hi two_lo] at h1
    exact ⟨x, y, f, σ', r, hx, hy, h1, rfl⟩

theorem bin_same {m : M} {σ' τ' : St} {r0 r1 : Addr} {w : Val} (h : AgreeOff (deadAt m.top) σ' τ') :
    SameO (.next { m with σ := put' (.cell m.top) (σ', some w), top := m.top + 1 })
      (.next { m with σ := put' (.cell m.top) (τ', some w), top := m.top + 1, r0 := r0, r1 := r1 }) :=
  ⟨rfl, rfl, rfl, rfl, rfl, agree_set h fun a ha hn => live_succ ha hn⟩

theorem sound_binSkip (hE : EnvOk E) {op : BinOp} {v w : Sp} {i j : Byte} :
    Sound E [(.load v, [i]), (.load w, [j]), (.bin op .stack, [])]
      [(.values v w, [i, j]), (.bin op .regs, [])] fun m =>
        ∀ x y, m.var v i = .ok x → m.var w j = .ok y → Yields E op m.σ y x := by
  intro m o hm hP h
  obtain ⟨x, y, f, σ', r, hx, hy, h1, rfl⟩ := bin_two hm h
  obtain ⟨τ', h2, hr⟩ := (hm.relTwo _ _).binVal (dead_deadAt _) (loc_deadAt _) hE.loc op f
    (hm.var hy) (hm.var hx) h1
  cases r with
  | none => exact absurd h2 (hP x y hx hy f τ')
  | some z =>
    refine ⟨_, runs_values.mpr ⟨x, y, hx, hy, runs_one.mpr ⟨f, ?_⟩⟩, bin_same (r0 := x) (r1 := y) hr.agreeOff⟩
    rw [exec_binR, binary_eq, h2]
    rfl

theorem sound_binVV (hE : EnvOk E) {op : BinOp} {v w : Sp} {i j : Byte} :
    Sound E [(.load v, [i]), (.load w, [j]), (.bin op .stack, [])]
      [(.bin op (.two v w), [i, j])] fun m =>
        ∀ x y, m.var v i = .ok x → m.var w j = .ok y → Yields E op m.σ y x := by
  intro m o hm hP h
  obtain ⟨x, y, f, σ', r, hx, hy, h1, rfl⟩ := bin_two hm h
  obtain ⟨τ', h2, hr⟩ := (hm.relTwo _ _).binVal (dead_deadAt _) (loc_deadAt _) hE.loc op f
    (hm.var hy) (hm.var hx) h1
  cases r with
  | none => exact absurd h2 (hP x y hx hy f τ')
  | some z =>
    refine ⟨_, runs_one.mpr ⟨f, ?_⟩, bin_same (r0 := m.r0) (r1 := m.r1) hr.agreeOff⟩
    rw [exec_bin2, hx, hy]
    simp only [res_bind_ok]
    rw [binary_eq, h2]
    rfl

theorem sound_binVVx (hE : EnvOk E) {op : BinOp} {v w : Sp} {i j : Byte} (hop : op = .add ∨ op = .mul) :
    Sound E [(.load v, [i]), (.load w, [j]), (.bin op .stack, [])]
      [(.bin op (.two w v), [j, i])] fun m =>
        ∀ x y, m.var v i = .ok x → m.var w j = .ok y → IsNumber m.σ x ∧ IsNumber m.σ y := by
  intro m o hm hP h
  obtain ⟨x, y, f, σ', r, hx, hy, h1, rfl⟩ := bin_two hm h
  have hr := hm.relTwo (.ref x) (.ref y)
  have num : ∀ z, ¬deadAt m.top z → IsNumber m.σ z → IsNumber (two m.σ m.top (.ref x) (.ref y)) z := by
    rintro z hz ⟨b, hb, hn⟩
    have := hb.rel hr.symm hz
    exact ⟨b, this.2, by rw [two_off this.1]; exact hn⟩
  obtain ⟨hnx, hny⟩ := hP x y hx hy
  obtain ⟨τ', h2, hr', z, rfl⟩ := binVal_swap hE hop f hr (hm.var hy) (hm.var hx)
    (num _ (hm.var hy) hny) (num _ (hm.var hx) hnx) h1
  refine ⟨_, runs_one.mpr ⟨f, ?_⟩, bin_same (r0 := m.r0) (r1 := m.r1) hr'.agreeOff⟩
  rw [exec_bin2, hx, hy]
  simp only [res_bind_ok]
  rw [binary_eq, h2]
  rfl

/-- Two indexings with the same index at the same place. -/
theorem sound_indexLit {k : Lit} {d : List Byte}
    (hk : ∀ w, litVal k d = some w → ∃ z, w = .int z ∧ idxVal k d = some z) :
    Sound E [(.lit k, d), (.index .stack, [])] [(.indexLit k .stack, d)] fun _ => True := by
  intro m o hm _ h
  obtain ⟨L, hL, h⟩ := runs_lit.mp h
  obtain ⟨z, rfl, hz⟩ := hk L hL
  obtain ⟨f, h⟩ := runs_one.mp h
  rw [exec_index, pop_push hm.locals] at h
  simp only [res_bind_ok] at h
  obtain ⟨b, h1, h⟩ := bind_ok h
  obtain ⟨ht, rfl⟩ := pop_ok h1
  obtain ⟨σ', h2, h⟩ := bind_ok h
  simp only [Res.ok.injEq] at h
  dsimp only at h2 ht h
  subst h
  refine ⟨.next { m with σ := σ' }, runs_one.mpr ⟨f, ?_⟩, ?_⟩
  · rw [exec_indexLit, hz]
    dsimp only
    rw [M.peek, if_pos ht]
    simp only [res_bind_ok]
    rw [h2]
    rfl
  · have : m.top - 1 + 1 = m.top := by omega
    rw [this]
    exact SameM.refl _

theorem sound_cmpBZ {op : CmpOp} {inv : Bool} {s : Src} {d e : List Byte} :
    Sound E [(.cmp op inv s false, d), (.bz .stack, e)] [(.cmp op inv s true, d ++ e)]
      fun _ => True := by
  intro m o hm _ h
  simp only [RunsI] at h
  obtain ⟨f, x, h1, h⟩ := h
  -- the test ends in `finish`
  have key : ∃ m' r, m'.fb + m'.nl ≤ m'.top ∧ x = finish false m' r ∧
      exec E f (.cmp op inv s true) (d ++ e) m = .ok (finish true m' r) := by
    cases s with
    | stack =>
      rw [exec_cmp] at h1
      obtain ⟨p, hp, h2⟩ := bind_ok h1
      obtain ⟨q, hq, h3⟩ := bind_ok h2
      obtain ⟨r, hr, h4⟩ := bind_ok h3
      simp only [Res.ok.injEq] at h4
      obtain ⟨ht, rfl⟩ := pop_ok hp
      obtain ⟨ht2, rfl⟩ := pop_ok hq
      refine ⟨_, _, ?_, h4.symm, ?_⟩
      · dsimp only at ht2 ⊢; omega
      · rw [exec_cmp, hp]
        simp only [res_bind_ok]
        rw [hq]
        simp only [res_bind_ok]
        rw [hr]
        rfl
    | one v =>
      cases d with
      | nil => exact absurd h1 (by intro h; cases h)
      | cons i d =>
        rw [exec_cmp1] at h1
        obtain ⟨a, ha, h2⟩ := bind_ok h1
        obtain ⟨p, hp, h3⟩ := bind_ok h2
        obtain ⟨r, hr, h4⟩ := bind_ok h3
        simp only [Res.ok.injEq] at h4
        obtain ⟨ht, rfl⟩ := pop_ok hp
        refine ⟨_, _, ?_, h4.symm, ?_⟩
        · dsimp only; omega
        · rw [List.cons_append, exec_cmp1, ha]
          simp only [res_bind_ok]
          rw [hp]
          simp only [res_bind_ok]
          rw [hr]
          rfl
    | two v w =>
      cases d with
      | nil => exact absurd h1 (by intro h; cases h)
      | cons i d =>
        cases d with
        | nil => exact absurd h1 (by intro h; cases h)
        | cons j d =>
          rw [exec_cmp2] at h1
          obtain ⟨a, ha, h2⟩ := bind_ok h1
          obtain ⟨b, hb, h3⟩ := bind_ok h2
          obtain ⟨r, hr, h4⟩ := bind_ok h3
          simp only [Res.ok.injEq] at h4
          refine ⟨_, _, ?_, h4.symm, ?_⟩
          · exact hm.locals
          · rw [List.cons_append, List.cons_append, exec_cmp2, ha, hb]
            simp only [res_bind_ok]
            rw [hr]
            rfl
    | regs => exact absurd h1 (by intro h; cases h)
  obtain ⟨m', r, ht, rfl, h2⟩ := key
  simp only [finish, Bool.false_eq_true, if_false] at h
  obtain ⟨g, y, h3, h⟩ := h
  rw [exec_bz, pop_push ht] at h3
  simp only [res_bind_ok] at h3
  obtain ⟨⟨σ', z⟩, h4, h3⟩ := bind_ok h3
  have hz : σ' = m'.σ.set (.cell m'.top) (boolVal r) ∧ z = !r := by
    cases g with
    | zero => simp [logicalNot] at h4
    | succ g =>
      unfold logicalNot at h4
      cases r <;> simp [boolVal] at h4 <;> simp [h4, boolVal]
  obtain ⟨rfl, rfl⟩ := hz
  have ag : Agree m'.top (m'.σ.set (.cell m'.top) (boolVal r)) m'.σ :=
    ⟨fun a ha => (set_off (Nat.le_refl _) (live_not_dead ha)).symm, rfl, rfl, rfl⟩
  refine ⟨_, runs_one.mpr ⟨f, h2⟩, ?_⟩
  simp only [finish, if_true]
  simp only [Res.ok.injEq] at h3
  subst h3
  cases r <;> simp only [Bool.not_false, Bool.not_true, if_true, if_false, Bool.false_eq_true] at h ⊢ <;>
    subst h <;> exact ⟨rfl, rfl, rfl, rfl, rfl, ag⟩

theorem sound_loadBZ (hE : EnvOk E) {v : Sp} {i : Byte} {e : List Byte} :
    Sound E [(.load v, [i]), (.bz .stack, e)] [(.bz (.one v), i :: e)] fun _ => True := by
  intro m o hm _ h
  obtain ⟨x, hx, h⟩ := runs_load.mp h
  obtain ⟨f, h⟩ := runs_one.mp h
  rw [exec_bz, pop_push hm.locals] at h
  simp only [res_bind_ok] at h
  obtain ⟨⟨σ', z⟩, h1, h⟩ := bind_ok h
  simp only [Res.ok.injEq] at h
  subst h
  cases f with
  | zero => simp [logicalNot] at h1
  | succ f =>
    have h1' : logicalNot E f (m.σ.set (.cell m.top) (.ref x)) x = .ok (σ', z) := by
      unfold logicalNot at h1
      simpa using h1
    obtain ⟨τ', h2, hr⟩ := Rel.logicalNot (dead_deadAt _) hE.loc f (hm.relOne _) (hm.var hx) h1'
    refine ⟨if z then .jump { m with σ := τ' } else .next { m with σ := τ' }, runs_one.mpr ⟨f, ?_⟩, ?_⟩
    · rw [exec_bz1, hx]
      simp only [res_bind_ok]
      rw [h2]
      rfl
    · have := agree_of_rel hr (n := m.top) fun a ha => live_not_dead ha
      cases z <;> exact ⟨rfl, rfl, rfl, rfl, rfl, this⟩

theorem sound_popLoad {v : Sp} {i : Byte} : Sound E [(.load v, [i]), (.pop, [])] [] fun _ => True := by
  intro m o hm _ h
  obtain ⟨x, hx, h⟩ := runs_load.mp h
  obtain ⟨-, h⟩ := runs_pop.mp h
  simp only [RunsI] at h
  subst h
  refine ⟨.next m, rfl, rfl, rfl, rfl, rfl, rfl, ?_⟩
  exact ⟨fun a ha => (set_off (Nat.le_refl _) (live_not_dead ha)).symm, rfl, rfl, rfl⟩

theorem sound_popZero : Sound E [(.lit .zero, []), (.pop, [])] [] fun _ => True := by
  intro m o hm _ h
  obtain ⟨x, hx, h⟩ := runs_lit.mp h
  obtain ⟨-, h⟩ := runs_pop.mp h
  simp only [RunsI] at h
  subst h
  refine ⟨.next m, rfl, rfl, rfl, rfl, rfl, rfl, ?_⟩
  exact ⟨fun a ha => (set_off (Nat.le_refl _) (live_not_dead ha)).symm, rfl, rfl, rfl⟩

/-- An instruction that keeps going, then a `pop`. -/
theorem runs_then_pop {a : Act} {d : List Byte} {m : M} {o : Out}
    (hne : ∀ f x, exec E f a d m = .ok x → ∃ m', x = .next m')
    (h : RunsI E [(a, d), (.pop, [])] m o) : ∃ f m', exec E f a d m = .ok (.next m') ∧
      m'.fb + m'.nl < m'.top ∧ o = .next { m' with top := m'.top - 1 } := by
  obtain ⟨f, x, h1, h2⟩ := h
  obtain ⟨m', rfl⟩ := hne f x h1
  have h2 : RunsI E [(.pop, [])] m' o := h2
  have h3 := runs_pop.mp h2
  exact ⟨f, m', h1, h3.1, h3.2⟩

theorem sound_bumpPre (hE : EnvOk E) {dd : Word32} {v : Sp} {i : Byte} :
    Sound E [(.load v, [i]), (.pre dd false, []), (.pop, [])] [(.bumpVar dd v, [i])]
      fun _ => True := by
  intro m o hm _ h
  obtain ⟨x, hx, h⟩ := runs_load.mp h
  obtain ⟨f, m', h', -, rfl⟩ := runs_then_pop (by
    intro f x h
    rw [exec_pre, pop_push hm.locals] at h
    simp only [res_bind_ok] at h
    obtain ⟨σ', -, h⟩ := bind_ok h
    simp only [Res.ok.injEq] at h
    exact ⟨_, h.symm⟩) h
  replace h := h'
  rw [exec_pre, pop_push hm.locals] at h
  simp only [res_bind_ok, Bool.false_eq_true, if_false] at h
  obtain ⟨σ', h1, h⟩ := bind_ok h
  simp only [Res.ok.injEq, Out.next.injEq] at h
  subst h
  cases f with
  | zero => simp [preBump] at h1
  | succ f =>
    unfold preBump at h1
    have hc : (m.push (.ref x)).σ.cell (.cell m.top) = .ref x := by simp [M.push]
    rw [hc] at h1
    dsimp only at h1
    obtain ⟨σ1, h2, h1⟩ := bind_ok h1
    obtain ⟨τ', h3, hr⟩ := Rel.preBump (dead_deadAt _) hE.loc dd f (hm.relOne _) (hm.var hx) h2
    have hc1 : σ1.cell (.cell m.top) = .ref x := by
      rw [hr.inL _ ⟨_, Nat.le_refl _, rfl⟩]; exact hc
    rw [hc1] at h1
    simp only [res_pure, Res.ok.injEq] at h1
    subst h1
    refine ⟨.next { m with σ := τ' }, runs_one.mpr ⟨f, ?_⟩, rfl, rfl, rfl, rfl, rfl, ?_⟩
    · rw [exec_bump, hx]
      simp only [res_bind_ok]
      rw [h3]
      rfl
    · refine ⟨fun a ha => ?_, hr.obj, hr.next, hr.raw⟩
      have hd := live_not_dead (n := m.top) ha
      show τ'.cell a = (σ1.set (.cell m.top) _).cell a
      rw [set_off (Nat.le_refl _) hd]
      exact hr.off a hd

theorem sound_prePop {dd : Word32} : Sound E [(.pre dd false, []), (.pop, [])] [(.pre dd true, [])]
    fun _ => True := by
  intro m o hm _ h
  obtain ⟨f, m', h', ht, rfl⟩ := runs_then_pop (by
    intro f x h
    rw [exec_pre] at h
    obtain ⟨p, -, h⟩ := bind_ok h
    obtain ⟨σ', -, h⟩ := bind_ok h
    simp only [Res.ok.injEq] at h
    exact ⟨_, h.symm⟩) h
  replace h := h'
  rw [exec_pre] at h
  obtain ⟨p, hp, h⟩ := bind_ok h
  obtain ⟨σ', h1, h⟩ := bind_ok h
  simp only [Res.ok.injEq, Out.next.injEq, Bool.false_eq_true, if_false] at h
  subst h
  refine ⟨_, runs_one.mpr ⟨f, ?_⟩, SameO.refl _⟩
  rw [exec_pre, hp]
  simp only [res_bind_ok]
  rw [h1]
  obtain ⟨-, rfl⟩ := pop_ok hp
  rfl

theorem sound_compoundPop {op : BinOp} : Sound E [(.compound op false, []), (.pop, [])]
    [(.compound op true, [])] fun _ => True := by
  intro m o hm _ h
  obtain ⟨f, m', h', ht, rfl⟩ := runs_then_pop (by
    intro f x h
    rw [exec_compound] at h
    obtain ⟨p, -, h⟩ := bind_ok h
    obtain ⟨q, -, h⟩ := bind_ok h
    obtain ⟨σ', -, h⟩ := bind_ok h
    simp only [Res.ok.injEq] at h
    exact ⟨_, h.symm⟩) h
  replace h := h'
  rw [exec_compound] at h
  obtain ⟨p, hp, h⟩ := bind_ok h
  obtain ⟨q, hq, h⟩ := bind_ok h
  obtain ⟨σ', h1, h⟩ := bind_ok h
  simp only [Res.ok.injEq, Out.next.injEq, Bool.false_eq_true, if_false] at h
  subst h
  refine ⟨_, runs_one.mpr ⟨f, ?_⟩, SameO.refl _⟩
  rw [exec_compound, hp]
  simp only [res_bind_ok]
  rw [hq]
  simp only [res_bind_ok]
  rw [h1]
  obtain ⟨-, rfl⟩ := pop_ok hp
  obtain ⟨-, rfl⟩ := pop_ok hq
  rfl

theorem sound_assignPop : Sound E [(.assign .stack false, []), (.pop, [])]
    [(.assign .stack true, [])] fun _ => True := by
  intro m o hm _ h
  obtain ⟨f, m', h', ht, rfl⟩ := runs_then_pop (by
    intro f x h
    rw [exec_assign] at h
    obtain ⟨p, -, h⟩ := bind_ok h
    obtain ⟨q, -, h⟩ := bind_ok h
    obtain ⟨σ', -, h⟩ := bind_ok h
    simp only [Res.ok.injEq] at h
    exact ⟨_, h.symm⟩) h
  replace h := h'
  rw [exec_assign] at h
  obtain ⟨p, hp, h⟩ := bind_ok h
  obtain ⟨q, hq, h⟩ := bind_ok h
  obtain ⟨σ', h1, h⟩ := bind_ok h
  simp only [Res.ok.injEq, Out.next.injEq, Bool.false_eq_true, if_false] at h
  subst h
  refine ⟨_, runs_one.mpr ⟨f, ?_⟩, SameO.refl _⟩
  rw [exec_assign, hp]
  simp only [res_bind_ok]
  rw [hq]
  simp only [res_bind_ok]
  rw [h1]
  obtain ⟨-, rfl⟩ := pop_ok hp
  obtain ⟨-, rfl⟩ := pop_ok hq
  rfl

/-- A store, then a pop. -/
theorem runs_store {m : M} {o : Out} (h : RunsI E [(.assign .stack false, []), (.pop, [])] m o) :
    ∃ f p q σ', m.pop = .ok p ∧ p.1.pop = .ok q ∧ Ops.assign E f m.σ p.2 q.2 = .ok σ' ∧
      o = .next { q.1 with σ := σ' } := by
  obtain ⟨f, m', h', ht, rfl⟩ := runs_then_pop (by
    intro f x h
    rw [exec_assign] at h
    obtain ⟨p, -, h⟩ := bind_ok h
    obtain ⟨q, -, h⟩ := bind_ok h
    obtain ⟨σ', -, h⟩ := bind_ok h
    simp only [Res.ok.injEq] at h
    exact ⟨_, h.symm⟩) h
  replace h := h'
  rw [exec_assign] at h
  obtain ⟨p, hp, h⟩ := bind_ok h
  obtain ⟨q, hq, h⟩ := bind_ok h
  obtain ⟨σ', h1, h⟩ := bind_ok h
  simp only [Res.ok.injEq, Out.next.injEq, Bool.false_eq_true, if_false] at h
  subst h
  obtain ⟨-, rfl⟩ := pop_ok hp
  refine ⟨f, _, q, σ', hp, hq, h1, ?_⟩
  obtain ⟨-, rfl⟩ := pop_ok hq
  rfl

theorem sound_store {k k' : Lit} {d d' : List Byte} {v : Sp} {i : Byte}
    (hk : ∀ w, litVal k d = some w → litVal k' d' = some w) :
    Sound E [(.lit k, d), (.load v, [i]), (.assign .stack false, []), (.pop, [])]
      [(.litTo k' v, i :: d')] fun m => ∀ x, m.var v i = .ok x → (m.σ.cell x).plain = true := by
  intro m o hm hP h
  obtain ⟨L, hL, h⟩ := runs_lit.mp h
  obtain ⟨x, hx, h⟩ := runs_load.mp h
  rw [var_push] at hx
  obtain ⟨f, p, q, σ', hp, hq, h1, rfl⟩ := runs_store h
  rw [pop_push2 hm.locals] at hp
  simp only [Res.ok.injEq] at hp
  subst hp
  rw [pop_top1 hm.locals] at hq
  simp only [Res.ok.injEq] at hq
  subst hq
  dsimp only at h1 ⊢
  have hn := (litVal_num hL).1
  have hv := hm.var hx
  change Ops.assign E f (two m.σ m.top L (.ref x)) _ _ = _ at h1
  cases f with
  | zero => simp [Ops.assign] at h1
  | succ f =>
    rw [assign_r two_hi (by rw [two_lo]; rcases isNum_cases hn with ⟨z, rfl⟩ | ⟨z, rfl⟩ <;> simp [Val.ty])] at h1
    have := assign_plain (by rw [two_off hv]; exact hP x hx) (by
      rw [two_lo]; rcases isNum_cases hn with ⟨z, rfl⟩ | ⟨z, rfl⟩ <;> rfl) h1
    rw [two_lo] at this
    subst this
    refine ⟨.next { m with σ := m.σ.set x L }, runs_one.mpr ⟨0, ?_⟩, rfl, rfl, rfl, rfl, rfl, ?_⟩
    · rw [exec_litTo, hx]
      simp only [res_bind_ok]
      rw [hk L hL]
    · refine ⟨fun a ha => ?_, rfl, rfl, rfl⟩
      have hd := live_not_dead (n := m.top) ha
      show (m.σ.set x L).cell a = ((two m.σ m.top L (.ref x)).set x L).cell a
      by_cases hax : a = x
      · subst hax; simp
      · rw [St.set_ne _ _ hax, St.set_ne _ _ hax, two_off hd]

theorem sound_assignVar {v : Sp} {i : Byte} :
    Sound E [(.load v, [i]), (.assign .stack false, []), (.pop, [])] [(.assign (.one v) true, [i])]
      fun _ => True := by
  intro m o hm _ h
  obtain ⟨x, hx, h⟩ := runs_load.mp h
  obtain ⟨f, p, q, σ', hp, hq, h1, rfl⟩ := runs_store h
  rw [pop_push hm.locals] at hp
  simp only [Res.ok.injEq] at hp
  subst hp
  obtain ⟨ht, rfl⟩ := pop_ok hq
  dsimp only at h1 ht ⊢
  have hv := hm.var hx
  have hf : ¬deadAt m.top (.cell (m.top - 1)) := by
    rintro ⟨j, hj, h⟩
    simp only [Addr.cell.injEq] at h
    omega
  have hr := hm.relOne (.ref x)
  change Ops.assign E f (m.σ.set (.cell m.top) (.ref x)) _ _ = _ at h1
  have key : ∃ g τ', Ops.assign E g m.σ x (.cell (m.top - 1)) = .ok τ' ∧ Agree m.top σ' τ' := by
    cases f with
    | zero => simp [Ops.assign] at h1
    | succ f =>
      have hb : (m.σ.set (.cell m.top) (.ref x)).cell (.cell (m.top - 1)) =
        m.σ.cell (.cell (m.top - 1)) := set_off (Nat.le_refl _) hf
      by_cases hR : (m.σ.cell (.cell (m.top - 1))).ty = .R
      · obtain ⟨y, hy⟩ : ∃ y, m.σ.cell (.cell (m.top - 1)) = .ref y := by
          generalize m.σ.cell (.cell (m.top - 1)) = w at hR
          cases w <;> simp_all [Val.ty]
        rw [assign_rr (x := x) (by simp) (hb.trans hy)] at h1
        obtain ⟨τ', h2, hr2⟩ := hr.assign (dead_deadAt _) E f hv
          (hr.closed _ hf y (by rw [hb, hy]; rfl)) h1
        obtain ⟨g, hg⟩ := assign_from_ref f hy h2
        exact ⟨g, τ', hg, agree_of_rel hr2 fun a ha => live_not_dead ha⟩
      · rw [assign_r (x := x) (by simp) (by rw [hb]; exact hR)] at h1
        obtain ⟨τ', h2, hr2⟩ := hr.assign (dead_deadAt _) E f hv hf h1
        exact ⟨f, τ', h2, agree_of_rel hr2 fun a ha => live_not_dead ha⟩
  obtain ⟨g, τ', hg, ha⟩ := key
  refine ⟨.next { m with σ := τ', top := m.top - 1 }, runs_one.mpr ⟨g, ?_⟩, rfl, rfl, rfl, rfl, rfl, ?_⟩
  · rw [exec_assign1, hx]
    simp only [res_bind_ok]
    rw [M.pop, if_pos ht]
    simp only [res_bind_ok]
    rw [hg]
    rfl
  · refine ⟨fun a h => ha.cell a ?_, ha.obj, ha.next, ha.raw⟩
    cases a <;> simp_all [liveAt]
    omega

theorem sound_binStore {op : BinOp} {v : Sp} {i : Byte} :
    Sound E [(.bin op .stack, []), (.load v, [i]), (.assign .stack false, []), (.pop, [])]
      [(.binStore op v, [i])] fun m => ∀ x, m.var v i = .ok x → (m.σ.cell x).plain = true ∧
        Yields E op m.σ (.cell (m.top - 1)) (.cell (m.top - 2)) := by
  intro m o hm hP h
  obtain ⟨f, x0, h1, h⟩ := h
  rw [exec_bin] at h1
  obtain ⟨p, hp, h1⟩ := bind_ok h1
  obtain ⟨r0, hr0, h1⟩ := bind_ok h1
  obtain ⟨ht, rfl⟩ := pop_ok hp
  obtain ⟨ht2, rfl⟩ := peek_ok hr0
  rw [binary_eq] at h1
  obtain ⟨σ2, h0, h1⟩ := bind_ok h1
  obtain ⟨⟨σ1, r⟩, h2, rfl⟩ := map_ok h0
  simp only [Res.ok.injEq] at h1
  subst h1
  dsimp only at h2 ht2 h
  have hlo := hm.locals
  replace h : RunsI E [(.load v, [i]), (.assign .stack false, []), (.pop, [])] _ o := h
  obtain ⟨x, hx, h⟩ := runs_load.mp h
  have hx' : m.var v i = .ok x := by cases v <;> exact hx
  obtain ⟨kx, hkx, hkl⟩ := var_live hm hx'
  obtain ⟨hpl, hy⟩ := hP x hx'
  have e2 : m.top - 1 - 1 = m.top - 2 := by omega
  rw [e2] at h2 h hx
  have hfr := binVal_frame h2
  obtain ⟨w, rfl⟩ : ∃ w, r = some w := by
    cases r with
    | none => exact absurd h2 (hy f σ1)
    | some w => exact ⟨w, rfl⟩
  obtain ⟨g, p, q, σ', hp', hq', h3, rfl⟩ := runs_store h
  rw [pop_push (by dsimp only; omega)] at hp'
  simp only [Res.ok.injEq] at hp'
  subst hp'
  obtain ⟨ht3, rfl⟩ := pop_ok hq'
  dsimp only [M.push, put'] at h3 ht3 hq' ⊢
  rw [e2] at h3
  have hwp := hfr.2 w rfl
  -- the place stored into and the value
  have hne1 : x ≠ .cell (m.top - 1) := by rw [hkx]; simp only [ne_eq, Addr.cell.injEq]; omega
  have hne2 : x ≠ .cell (m.top - 2) := by rw [hkx]; simp only [ne_eq, Addr.cell.injEq]; omega
  have hne3 : Addr.cell (m.top - 2) ≠ .cell (m.top - 1) := by
    simp only [ne_eq, Addr.cell.injEq]; omega
  cases g with
  | zero => simp [Ops.assign] at h3
  | succ g =>
    rw [assign_r (x := x) (by simp) (by
      rw [St.set_ne _ _ hne3, St.set_same]
      cases w <;> simp_all [Val.plain, Val.ty])] at h3
    have := assign_plain (by
      rw [St.set_ne _ _ hne1, St.set_ne _ _ hne2, hfr.1 x (by rw [hkx]; rfl)]; exact hpl) (by
      rw [St.set_ne _ _ hne3, St.set_same]; exact hwp) h3
    rw [St.set_ne _ _ hne3, St.set_same] at this
    subst this
    refine ⟨.next { m with σ := σ1.set x w, top := m.top - 2 }, runs_one.mpr ⟨f, ?_⟩, ?_⟩
    · rw [exec_binStore, hp]
      simp only [res_bind_ok]
      rw [M.pop, if_pos ht2]
      simp only [res_bind_ok]
      rw [e2, show M.var { m with top := m.top - 2 } v i = m.var v i by cases v <;> rfl, hx']
      simp only [res_bind_ok]
      rw [binary_eq, h2]
      rfl
    · refine ⟨?_, rfl, rfl, rfl, rfl, ?_⟩
      · show m.top - 2 = m.top - 1 - 1
        omega
      · refine ⟨fun a ha => ?_, rfl, rfl, rfl⟩
        dsimp only at ha ⊢
        by_cases hax : a = x
        · subst hax; simp
        · rw [St.set_ne _ _ hax, St.set_ne _ _ hax, St.set_ne _ _ (by
            rintro rfl; simp only [liveAt] at ha; omega), St.set_ne _ _ (by
            rintro rfl; simp only [liveAt] at ha; omega)]

/-- Stepping a number, an element or a member up or down is the same whether or not the old value
is kept, apart from where it is kept. -/
theorem post_pre (hE : EnvOk E) {n : Nat} {u v : Addr → Val} {d : Word32} {f : Nat} {σ τ σ' : St}
    {a s : Addr} (hr : Rel (deadLoc n) u v σ τ) (ha : ¬deadLoc n a) (ht : (σ.cell a).ty ≠ .R)
    (h : postBump E d f σ a s = .ok σ') : ∃ σ1 τ1 w u', σ' = σ1.set s w ∧
      preBump E d f τ a = .ok τ1 ∧ Rel (deadLoc n) u' v σ1 τ1 ∧
      ∀ k, (∀ j, k ≠ .loc j) → u' k = u k := by
  cases f with
  | zero => simp [postBump] at h
  | succ f =>
    unfold postBump at h
    unfold preBump
    rw [hr.off a ha]
    have hex : (do
        let σ ← single E f σ a
        let σ ← postBump E d f σ .t1 (.loc f)
        let σ ← valueToEx E f σ a .t1
        return σ.set s (σ.cell (.loc f))) = Res.ok σ' → ∃ σ1 τ1 w u', σ' = σ1.set s w ∧ (do
        let σ ← single E f τ a
        let σ ← preBump E d f σ .t1
        valueToEx E f σ a .t1) = Res.ok τ1 ∧ Rel (deadLoc n) u' v σ1 τ1 ∧
        ∀ k, (∀ j, k ≠ .loc j) → u' k = u k := by
      intro h
      obtain ⟨σ1, h1, h⟩ := bind_ok h
      obtain ⟨σ2, h2, h⟩ := bind_ok h
      obtain ⟨σ3, h3, h⟩ := bind_ok h
      simp only [res_pure, Res.ok.injEq] at h
      subst h
      have hD := dead_deadLoc n
      obtain ⟨τ1, g1, hr1⟩ := hr.single hD hE.loc f ha h1
      rw [g1]
      simp only [res_bind_ok]
      have hn := single_num h1
      have hl : deadLoc n (.loc f) := .inr ⟨f, rfl⟩
      have key : ∃ z w, σ2 = (σ1.set .t1 z).set (.loc f) w ∧ preBump E d f τ1 .t1 = .ok (τ1.set .t1 z) ∧
          z.isNum = true := by
        cases f with
        | zero => simp [postBump] at h2
        | succ f =>
          unfold postBump at h2
          unfold preBump
          rw [hr1.off .t1 hD.t1]
          generalize σ1.cell .t1 = w at h2 hn
          cases w <;> simp only [Val.isNum, Bool.false_eq_true] at hn
          · obtain ⟨r, h4, h2⟩ := bind_ok h2
            simp only [res_pure, Res.ok.injEq] at h2
            simp only [h4, res_bind_ok, res_pure]
            exact ⟨_, _, h2.symm, rfl, rfl⟩
          · simp only [Res.ok.injEq] at h2
            exact ⟨_, _, h2.symm, rfl, rfl⟩
      obtain ⟨z, w, rfl, g2, hz⟩ := key
      rw [g2]
      simp only [res_bind_ok]
      have hr2 : Rel (deadLoc n) u v (σ1.set .t1 z) (τ1.set .t1 z) := hr1.set hD.t1 (by
        rw [num_ptr hz]; simp)
      have hr3 := hr2.setDead hl w
      obtain ⟨τ3, g3, hr4⟩ := hr3.valueToEx hD E f ha hD.t1 h3
      refine ⟨σ3, τ3, _, _, rfl, g3, hr4, ?_⟩
      intro k hk
      rw [if_neg (hk f)]
    generalize σ.cell a = w at h ht
    cases w <;> simp only at h ⊢ <;> first
      | exact absurd rfl ht
      | exact hex h
      | (obtain ⟨r, h4, h⟩ := bind_ok h
         simp only [res_pure, Res.ok.injEq] at h
         rw [h4]
         exact ⟨_, _, _, _, h.symm, rfl, hr.set ha (by simp [ptr]), fun _ _ => rfl⟩)
      | (simp only [Res.ok.injEq] at h
         exact ⟨_, _, _, _, h.symm, rfl, hr.set ha (by simp [ptr]), fun _ _ => rfl⟩)

theorem runs_post_pop {dd : Word32} {m : M} {o : Out} (h : RunsI E [(.post dd, []), (.pop, [])] m o) :
    ∃ f σ', m.fb + m.nl < m.top ∧
      postBump E dd f m.σ (.cell (m.top - 1)) (.cell (m.top - 1)) = .ok σ' ∧
      o = .next { m with σ := σ', top := m.top - 1 } := by
  obtain ⟨f, m', h', ht, rfl⟩ := runs_then_pop (by
    intro f x h
    rw [exec_post] at h
    obtain ⟨p, -, h⟩ := bind_ok h
    obtain ⟨σ', -, h⟩ := bind_ok h
    simp only [Res.ok.injEq] at h
    exact ⟨_, h.symm⟩) h
  rw [exec_post] at h'
  obtain ⟨p, hp, h1⟩ := bind_ok h'
  obtain ⟨σ', h2, h3⟩ := bind_ok h1
  simp only [Res.ok.injEq, Out.next.injEq] at h3
  subst h3
  obtain ⟨ht', rfl⟩ := pop_ok hp
  exact ⟨f, σ', ht', h2, rfl⟩

theorem live_not_deadLoc' {n : Nat} {a : Addr} (h : ¬deadAt n a) (hl : ∀ k, a ≠ .loc k) :
    ¬deadLoc n a := by
  rintro (h' | ⟨k, rfl⟩)
  · exact h h'
  · exact hl k rfl

theorem sound_bumpPost (hE : EnvOk E) {dd : Word32} {v : Sp} {i : Byte} :
    Sound E [(.load v, [i]), (.post dd, []), (.pop, [])] [(.bumpVar dd v, [i])]
      fun m => ∀ x, m.var v i = .ok x → (m.σ.cell x).ty ≠ .R := by
  intro m o hm hP h
  obtain ⟨x, hx, h⟩ := runs_load.mp h
  obtain ⟨f, σ', -, h1, rfl⟩ := runs_post_pop h
  obtain ⟨kx, hkx, hkl⟩ := var_live hm hx
  have hv := hm.var hx
  have hvl : ¬deadLoc m.top x := live_not_deadLoc' hv (by rw [hkx]; simp)
  change postBump E dd f (m.σ.set (.cell m.top) (.ref x)) (.cell m.top) (.cell m.top) = _ at h1
  cases f with
  | zero => simp [postBump] at h1
  | succ f =>
    have h2 : postBump E dd f (m.σ.set (.cell m.top) (.ref x)) x (.cell m.top) = .ok σ' := by
      unfold postBump at h1
      simpa using h1
    have hr : Rel (deadLoc m.top) _ _ (m.σ.set (.cell m.top) (.ref x)) m.σ :=
      rel_of_loc hm (fun a ha => set_off (Nat.le_refl _) fun h => ha (.inl h)) (fun _ _ => rfl) rfl rfl rfl
    obtain ⟨σ1, τ1, w, u', rfl, h3, hr', -⟩ := post_pre hE hr hvl (by
      rw [set_off (Nat.le_refl _) hv]; exact hP x hx) h2
    refine ⟨.next { m with σ := τ1 }, runs_one.mpr ⟨f, ?_⟩, rfl, rfl, rfl, rfl, rfl, ?_⟩
    · rw [exec_bump, hx]
      simp only [res_bind_ok]
      rw [h3]
      rfl
    · refine ⟨fun a ha => ?_, hr'.obj, hr'.next, hr'.raw⟩
      show τ1.cell a = (σ1.set (.cell m.top) w).cell a
      replace ha : liveAt m.top a := ha
      rw [set_off (Nat.le_refl _) (live_not_dead ha)]
      exact hr'.off a (live_not_deadLoc ha)

theorem sound_postPop (hE : EnvOk E) {dd : Word32} : Sound E [(.post dd, []), (.pop, [])]
    [(.pre dd true, [])] fun m =>
      ∀ x, m.σ.cell (.cell (m.top - 1)) = .ref x → (m.σ.cell x).ty ≠ .R ∧
        ∀ a, (∀ k, a = .cell k → k < m.top) → ptr (m.σ.cell a) ≠ some (.cell (m.top - 1)) := by
  intro m o hm hP h
  obtain ⟨f, σ', ht, h1, rfl⟩ := runs_post_pop h
  -- it is enough to find the other state
  suffices key : ∃ τ', preBump E dd f m.σ (.cell (m.top - 1)) = .ok τ' ∧ Agree (m.top - 1) σ' τ' by
    obtain ⟨τ', h2, ha⟩ := key
    refine ⟨.next { m with σ := τ', top := m.top - 1 }, runs_one.mpr ⟨f, ?_⟩, rfl, rfl, rfl, rfl, rfl, ha⟩
    rw [exec_pre, M.pop, if_pos ht]
    simp only [res_bind_ok]
    rw [h2]
    rfl
  have hna : ∀ {σ1 τ1 : St} {n : Nat} {u v : Addr → Val} {w : Val}, m.top - 1 ≤ n →
      Rel (deadLoc n) u v σ1 τ1 → Agree (m.top - 1) (σ1.set (.cell (m.top - 1)) w) τ1 := by
    intro σ1 τ1 n u v w hn hr
    refine ⟨fun a ha => ?_, hr.obj, hr.next, hr.raw⟩
    rw [set_off (Nat.le_refl _) (live_not_dead ha)]
    refine hr.off a (live_not_deadLoc ?_)
    cases a <;> simp_all [liveAt]
    omega
  by_cases hR : (m.σ.cell (.cell (m.top - 1))).ty = .R
  · obtain ⟨x, hx⟩ : ∃ y, m.σ.cell (.cell (m.top - 1)) = .ref y := by
      generalize m.σ.cell (.cell (m.top - 1)) = w at hR
      cases w <;> simp_all [Val.ty]
    obtain ⟨hxt, hnp⟩ := hP x hx
    cases f with
    | zero => simp [postBump] at h1
    | succ f =>
      have h2 : postBump E dd f m.σ x (.cell (m.top - 1)) = .ok σ' := by
        unfold postBump at h1
        rw [hx] at h1
        exact h1
      -- the slot is not pointed to
      have hlive : ∀ a, ¬deadAt (m.top - 1) a → ∀ p, ptr (m.σ.cell a) = some p →
          liveAt (m.top - 1) p := by
        intro a ha p hp
        have hk : ∀ k, a = .cell k → k < m.top := fun k hk => by
          have := not_dead ha k hk; omega
        have := hm.closed a hk p hp
        have hne := hnp a hk
        rw [hp] at hne
        cases p <;> simp_all [liveAt]
        omega
      have hr : Rel (deadLoc (m.top - 1)) m.σ.cell m.σ.cell m.σ m.σ :=
        ⟨fun _ _ => rfl, fun a ha p hp => live_not_deadLoc (hlive a (fun h => ha (.inl h)) p hp),
          fun _ _ => rfl, fun _ _ => rfl, rfl, rfl, rfl⟩
      have hxl : liveAt (m.top - 1) x := by
        have h3 := hm.closed (.cell (m.top - 1)) (by simp; omega) x (by rw [hx]; rfl)
        have h4 := hnp (.cell (m.top - 1)) (by simp; omega)
        rw [hx] at h4
        cases x <;> simp_all [liveAt, ptr]
        omega
      obtain ⟨σ1, τ1, w, u', rfl, h3, hr', hu⟩ := post_pre hE hr (live_not_deadLoc hxl) hxt h2
      have hslot : τ1.cell (.cell (m.top - 1)) = .ref x := by
        rw [hr'.inR _ (.inl ⟨_, Nat.le_refl _, rfl⟩)]; exact hx
      refine ⟨τ1.set (.cell (m.top - 1)) (τ1.cell x), ?_, ?_⟩
      · unfold preBump
        rw [hx]
        dsimp only
        rw [h3]
        simp only [res_bind_ok, hslot, res_pure]
      · have := hna (w := w) (Nat.le_refl _) hr'
        refine ⟨fun a ha => ?_, this.obj, this.next, this.raw⟩
        rw [set_off (Nat.le_refl _) (live_not_dead ha)]
        exact this.cell a ha
  · have hr : Rel (deadLoc m.top) m.σ.cell m.σ.cell m.σ m.σ :=
      rel_of_loc hm (fun _ _ => rfl) (fun _ _ => rfl) rfl rfl rfl
    obtain ⟨σ1, τ1, w, u', rfl, h3, hr', -⟩ := post_pre hE hr (live_not_deadLoc (by
      simp only [liveAt]; omega)) hR h1
    exact ⟨τ1, h3, hna (by omega) hr'⟩

theorem sound_indexLitVar {k : Lit} {v : Sp} {i : Byte} {d : List Byte} :
    Sound E [(.load v, [i]), (.indexLit k .stack, d)] [(.indexLit k (.one v), i :: d)]
      fun _ => True := by
  intro m o hm _ h
  obtain ⟨x, hx, h⟩ := runs_load.mp h
  obtain ⟨f, h⟩ := runs_one.mp h
  rw [exec_indexLit] at h
  cases hz : idxVal k d with
  | none => rw [hz] at h; simp at h
  | some z =>
    rw [hz] at h
    dsimp only at h
    rw [peek_push hm.locals] at h
    simp only [res_bind_ok] at h
    obtain ⟨σ', h1, h⟩ := bind_ok h
    simp only [Res.ok.injEq] at h
    subst h
    change index f (two m.σ m.top (.ref x) (.int z)) (.cell (m.top + 1)) (.cell m.top) (.cell m.top) = _
      at h1
    cases f with
    | zero => simp [index] at h1
    | succ f =>
      rw [index_ir two_hi two_lo] at h1
      have hv := hm.var hx
      let D : Addr → Prop := fun a => deadAt m.top a ∧ a ≠ .cell (m.top + 1)
      have hD : Dead D := ⟨fun o i h => (dead_deadAt m.top).elem o i h.1,
        fun h => (dead_deadAt m.top).t1 h.1, fun h => (dead_deadAt m.top).t2 h.1⟩
      have hlo : ∀ a, ¬D a → a ≠ .cell m.top := by
        rintro a ha rfl
        exact ha ⟨⟨_, Nat.le_refl _, rfl⟩, by simp⟩
      have hoff : ∀ a, ¬D a → a ≠ .cell (m.top + 1) → ¬deadAt m.top a := fun a ha hn h => ha ⟨h, hn⟩
      have hr : Rel D (two m.σ m.top (.ref x) (.int z)).cell (m.σ.set (.cell (m.top + 1)) (.int z)).cell
          (two m.σ m.top (.ref x) (.int z)) (m.σ.set (.cell (m.top + 1)) (.int z)) := by
        refine ⟨fun a ha => ?_, fun a ha p hp => ?_, fun _ _ => rfl, fun _ _ => rfl, rfl, rfl, rfl⟩
        · by_cases hn : a = .cell (m.top + 1)
          · subst hn; simp
          · rw [St.set_ne _ _ hn, two_off (hoff a ha hn)]
        · by_cases hn : a = .cell (m.top + 1)
          · subst hn; simp [ptr] at hp
          · rw [two_off (hoff a ha hn)] at hp
            exact fun h => live_not_dead (hm.closed a (not_dead (hoff a ha hn)) p hp) h.1
      obtain ⟨τ', h2, σ1, τ1, w, hr', rfl, rfl⟩ := Rel.index hD f hr
        (⟨⟨_, Nat.le_refl _, rfl⟩, by simp⟩ : D (.cell m.top)) (fun h => h.2 rfl) (fun h => hv h.1) (by
          intro b hb
          cases hb with
          | here _ => simp [Val.ty]
          | ref h _ => simp at h) h1
      refine ⟨.next { m with σ := τ1.set (.cell m.top) w, top := m.top + 1 },
        runs_one.mpr ⟨f, ?_⟩, rfl, rfl, rfl, rfl, rfl, ?_⟩
      · rw [exec_indexLit1, hz]
        dsimp only
        rw [hx]
        simp only [res_bind_ok]
        rw [h2]
        rfl
      · exact agree_of_set hr' fun a ha hn h => live_succ ha hn h.1

theorem sound_indexVV {v w : Sp} {i j : Byte} :
    Sound E [(.load v, [i]), (.load w, [j]), (.index .stack, [])]
      [(.values w v, [j, i]), (.index .regs, [])] fun m =>
        ∀ y, m.var w j = .ok y → NotFloat m.σ y := by
  intro m o hm hP h
  obtain ⟨x, y, hx, hy, h⟩ := runs_two h
  obtain ⟨f, h⟩ := runs_one.mp h
  rw [exec_index, pop_push2 hm.locals] at h
  simp only [res_bind_ok] at h
  rw [pop_top1 hm.locals] at h
  simp only [res_bind_ok] at h
  obtain ⟨σ', h1, h⟩ := bind_ok h
  simp only [Res.ok.injEq] at h
  subst h
  cases f with
  | zero => simp [index] at h1
  | succ f =>
    rw [index_rr two_hi two_lo] at h1
    have hr := hm.relTwo (.ref x) (.ref y)
    obtain ⟨τ', h2, σ1, τ1, z, hr', rfl, rfl⟩ := Rel.index (dead_deadAt _) f hr
      (⟨_, Nat.le_refl _, rfl⟩ : deadAt m.top (.cell m.top)) (hm.var hy) (hm.var hx) (by
        intro b hb
        have := hb.rel hr (hm.var hy)
        rw [two_off this.1]
        exact hP y hy b this.2) h1
    refine ⟨.next { m with σ := τ1.set (.cell m.top) z, top := m.top + 1, r0 := y, r1 := x },
      runs_values.mpr ⟨y, x, hy, hx, runs_one.mpr ⟨f, ?_⟩⟩, rfl, rfl, rfl, rfl, rfl, ?_⟩
    · rw [exec_indexR]
      dsimp only
      rw [h2]
      rfl
    · exact agree_of_set hr' fun a ha hn => live_succ ha hn

/-- Every rule preserves what the code does, from the states it is meant for. -/
theorem Rw.sound (hE : EnvOk E) {is js : List Ins} {P : M → Prop} (h : Rw E is js P) :
    Sound E is js P := by
  cases h with
  | keep => exact sound_keep _
  | retZero => exact sound_retZero
  | negLit h1 h2 => exact sound_negLit h1 h2
  | negLitBad => exact fun _ _ _ h => h.elim
  | cmpVV => exact sound_cmpVV hE
  | cmpLitVar => exact sound_cmpLitVar hE
  | cmpVarLit h => exact sound_cmpVarLit hE h
  | binSkip => exact sound_binSkip hE
  | indexSkip => exact fun _ _ _ h => h.elim
  | binVV => exact sound_binVV hE
  | binVVx h => exact sound_binVVx hE h
  | indexLit16 =>
    refine sound_indexLit ?_
    intro w hw
    unfold litVal at hw
    split at hw <;> simp_all [idxVal]
  | indexLit8 =>
    intro m o hm hP
    refine sound_indexLit ?_ m o hm trivial
    intro w hw
    simp only [litVal, Option.some.injEq] at hw
    exact ⟨_, hw.symm, by simp only [idxVal, BitVec.signExtend_eq_setWidth_of_msb_false hP]⟩
  | cmpBZ => exact sound_cmpBZ
  | loadBZ => exact sound_loadBZ hE
  | popLoad => exact sound_popLoad
  | popZero => exact sound_popZero
  | bumpPre => exact sound_bumpPre hE
  | bumpPost => exact sound_bumpPost hE
  | prePop => exact sound_prePop
  | postPop => exact sound_postPop hE
  | compoundPop => exact sound_compoundPop
  | assignPop => exact sound_assignPop
  | litTo => exact sound_store fun _ h => h
  | zeroTo =>
    refine sound_store ?_
    intro w hw
    simp only [litVal, Option.some.injEq] at hw
    subst hw
    rfl
  | binStore => exact sound_binStore
  | assignVar => exact sound_assignVar
  | indexLitVar => exact sound_indexLitVar
  | indexVV => exact sound_indexVV

end Wrench.Peep
