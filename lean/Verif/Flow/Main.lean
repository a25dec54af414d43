import Verif.Flow.Sim
import Mathlib.Tactic.ByContra

namespace Wrench.Flow

open Wrench

variable {σ ρ : Type}

theorem find_append_some {l : List (Word32 × Nat)} {h : Word32} {x : Word32 × Nat} (c : Word32 × Nat)
    (hf : l.find? (fun x => x.1 == h) = some x) : (l ++ [c]).find? (fun x => x.1 == h) = some x := by
  simp [List.find?_append, hf]

/-- Cases and default recorded earlier stay. -/
theorem body_keeps (dt : Nat) : ∀ (b : Body σ ρ) (w w' : SwS σ ρ), compileBody dt b w = some w' →
    (∀ h x, w.cases.find? (fun x => x.1 == h) = some x → w'.cases.find? (fun x => x.1 == h) = some x) ∧
    (∀ o, w.d = some o → w'.d = some o) := by
  intro b
  induction b using Body.rec (motive_1 := fun _ => True) with
  | nil =>
    intro w w' h
    simp only [compileBody, Option.some.injEq] at h; subst h
    exact ⟨fun _ _ h => h, fun _ h => h⟩
  | case hh b ih =>
    intro w w' h
    simp only [compileBody] at h
    split at h
    · exact absurd h (by simp)
    · obtain ⟨i1, i2⟩ := ih _ _ h
      exact ⟨fun h x hx => i1 h x (find_append_some _ hx), i2⟩
  | dflt b ih =>
    intro w w' h
    simp only [compileBody] at h
    split at h
    · exact absurd h (by simp)
    · rename_i hd
      obtain ⟨i1, i2⟩ := ih _ _ h
      exact ⟨i1, fun o ho => by rw [ho] at hd; simp at hd⟩
  | stmt s b _ ih =>
    intro w w' h
    simp only [compileBody] at h
    split at h
    · exact absurd h (by simp)
    · simp only [Option.bind_eq_some_iff] at h
      obtain ⟨m, -, h2⟩ := h
      have := ih _ _ h2
      exact this
  | _ => trivial

/-- Without a matching label nothing is recorded for it. -/
theorem body_none (dt n : Nat) : ∀ (b : Body σ ρ) (w w' : SwS σ ρ), compileBody dt b w = some w' →
    (∀ h x, execFrom n b h x = none → w.cases.find? (fun x => x.1 == h) = none →
      w'.cases.find? (fun x => x.1 == h) = none) ∧
    (∀ x, execDflt n b x = none → w'.d = w.d) := by
  intro b
  induction b using Body.rec (motive_1 := fun _ => True) with
  | nil =>
    intro w w' h
    simp only [compileBody, Option.some.injEq] at h; subst h
    exact ⟨fun _ _ _ h => h, fun _ _ => rfl⟩
  | case hh b ih =>
    intro w w' h
    simp only [compileBody] at h
    split at h
    · exact absurd h (by simp)
    · obtain ⟨i1, i2⟩ := ih _ _ h
      refine ⟨fun h x hx hn => ?_, fun x hx => i2 x (by simpa [execDflt] using hx)⟩
      simp only [execFrom] at hx
      split at hx
      · exact absurd hx (by simp)
      · rename_i hne
        refine i1 h x hx ?_
        simp [List.find?_append, hn, hne]
  | dflt b ih =>
    intro w w' h
    simp only [compileBody] at h
    split at h
    · exact absurd h (by simp)
    · obtain ⟨i1, i2⟩ := ih _ _ h
      refine ⟨fun h x hx hn => i1 h x (by simpa [execFrom] using hx) hn, fun x hx => ?_⟩
      simp [execDflt] at hx
  | stmt s b _ ih =>
    intro w w' h
    simp only [compileBody] at h
    split at h
    · exact absurd h (by simp)
    · simp only [Option.bind_eq_some_iff] at h
      obtain ⟨m, -, h2⟩ := h
      obtain ⟨i1, i2⟩ := ih _ _ h2
      exact ⟨fun h x hx hn => i1 h x (by simpa [execFrom] using hx) hn, fun x hx => i2 x (by simpa [execDflt] using hx)⟩
  | _ => trivial

/-- What the compilation of a switch body guarantees. -/
structure BSim (F : List (Instr σ ρ)) (T : List Nat) (n : Nat) (b : Body σ ρ) (w w' : SwS σ ρ) : Prop where
  run : ∀ x stk, Sim F T n ⟨w.k.code.length, x, stk⟩ w'.k.code.length w.k.bs w.k.cs (execBody n b x)
  from_ : ∀ h x r, execFrom n b h x = some r → w.cases.find? (fun x => x.1 == h) = none →
    ∃ c, w'.cases.find? (fun x => x.1 == h) = some c ∧
      ∀ stk, Sim F T n ⟨c.2, x, stk⟩ w'.k.code.length w.k.bs w.k.cs r
  dflt : ∀ x r, execDflt n b x = some r →
    ∃ o, w'.d = some o ∧ ∀ stk, Sim F T n ⟨o, x, stk⟩ w'.k.code.length w.k.bs w.k.cs r

theorem Agree.of_ext {lo : Nat} {k k' : CS σ ρ} {F : List (Instr σ ρ)} {T : List Nat} (h : Agree lo k' F T)
    (e : Ext k k') : Agree lo k F T :=
  ⟨e.code.trans h.code, fun i hi hk => (h.tg i hi (Nat.lt_of_lt_of_le hk e.tgl)).trans (e.tg i hk)⟩

theorem Agree.lo {lo lo' : Nat} {k : CS σ ρ} {F : List (Instr σ ρ)} {T : List Nat} (h : Agree lo k F T)
    (hl : lo ≤ lo') : Agree lo' k F T := ⟨h.code, fun i hi hk => h.tg i (Nat.le_trans hl hi) hk⟩

/-- Placing a target of this statement itself does not concern the targets of its parts. -/
theorem Agree.unplace {lo id : Nat} {k : CS σ ρ} {F : List (Instr σ ρ)} {T : List Nat}
    (h : Agree lo (k.place id) F T) (hi : id < lo) : Agree lo k F T :=
  ⟨h.code, fun i hl hk => by
    rw [h.tg i hl (by simpa using hk)]
    simp only [CS.place]; rw [List.getElem?_set_ne (by omega)]⟩

theorem Agree.unemit {lo : Nat} {i : Instr σ ρ} {k : CS σ ρ} {F : List (Instr σ ρ)} {T : List Nat}
    (h : Agree lo (k.emit i) F T) : Agree lo k F T :=
  ⟨(List.prefix_append _ _).trans h.code, h.tg⟩

theorem Agree.unemits {lo : Nat} {l : List (Instr σ ρ)} {k : CS σ ρ} {F : List (Instr σ ρ)} {T : List Nat}
    (h : Agree lo (k.emits l) F T) : Agree lo k F T :=
  ⟨(List.prefix_append _ _).trans h.code, h.tg⟩

theorem Agree.unstk {lo : Nat} {c b : List Nat} {k : CS σ ρ} {F : List (Instr σ ρ)} {T : List Nat}
    (h : Agree lo { k with cs := c, bs := b } F T) : Agree lo k F T := ⟨h.code, h.tg⟩

/-- The position of a target just placed. -/
theorem Agree.placed {lo id : Nat} {k : CS σ ρ} {F : List (Instr σ ρ)} {T : List Nat}
    (h : Agree lo (k.place id) F T) (hl : lo ≤ id) (hk : id < k.tg.length) : T.getD id 0 = k.code.length := by
  refine getD_of ?_
  rw [h.tg id hl (by simpa using hk)]
  simp [CS.place, hk]

theorem run_bz {F l : List (Instr σ ρ)} {T : List Nat} {c : σ → Bool × σ} {id : Nat} (h : l ++ [.bz c id] <+: F) (x : σ)
    (stk : List Word32) :
    R F T 1 ⟨l.length, x, stk⟩ ⟨if (c x).1 then l.length + 1 else T.getD id 0, (c x).2, stk⟩ :=
  R.one (by simp [step, fetch h])

theorem run_jmp {F l : List (Instr σ ρ)} {T : List Nat} {id : Nat} (h : l ++ [.jmp id] <+: F) (x : σ) (stk : List Word32) :
    R F T 1 ⟨l.length, x, stk⟩ ⟨T.getD id 0, x, stk⟩ :=
  R.one (by simp [step, fetch h])

theorem forStart_tg (init : List (σ → σ)) (c : Option (σ → Bool × σ)) (k : CS σ ρ) :
    (forStart init c k).tg[k.tg.length + 2]? = some (k.code.length + init.length) := by
  cases c <;> simp [forStart, CS.place, CS.new, CS.emits, CS.emit]

theorem switch_out {F : List (Instr σ ρ)} {T : List Nat} {n : Nat} {c : Cfg σ} {e br : Nat} {bs cs : List Nat}
    {r : Option (Out ρ × σ)} (h : Sim F T n c e (br :: bs) cs r) (hb : T.getD br 0 = e) :
    Sim F T n c e bs cs (match (generalizing := false) r with | some (.brk, y) => some (.nrm, y) | r => r) := by
  match r, h with
  | none, h => exact h
  | some (.nrm, y), h => exact h
  | some (.brk, y), ⟨b, hh, h⟩ => cases hh; rw [hb] at h; exact h
  | some (.cont, y), h => exact h
  | some (.ret r, y), h => exact h

mutual
theorem sim (F : List (Instr σ ρ)) (T : List Nat) (n : Nat) : ∀ (s : Stmt σ ρ) (k k' : CS σ ρ), compile s k = some k' → Ok s →
    Agree k.tg.length k' F T → ∀ x stk, Sim F T n ⟨k.code.length, x, stk⟩ k'.code.length k.bs k.cs (exec n s x)
  | .skip, k, k', h, _, _, x, stk => by
    simp only [compile, Option.some.injEq] at h; subst h
    simp only [exec]
    exact R.refl _ _ _
  | .act f, k, k', h, _, ag, x, stk => by
    simp only [compile, Option.some.injEq] at h; subst h
    simp only [exec]
    refine R.mono (R.one ?_) (Nat.zero_le _)
    simp [step, fetch ag.code]
  | .ret f, k, k', h, _, ag, x, stk => by
    simp only [compile, Option.some.injEq] at h; subst h
    simp only [exec]
    exact ⟨_, R.refl _ _ _, by simp [step, fetch ag.code]⟩
  | .brk, k, k', h, _, ag, x, stk => by
    simp only [compile, Option.map_eq_some_iff] at h
    obtain ⟨b, hb, rfl⟩ := h
    simp only [exec]
    exact ⟨b, hb, (run_jmp ag.code x stk).mono (Nat.zero_le _)⟩
  | .cont, k, k', h, _, ag, x, stk => by
    simp only [compile, Option.map_eq_some_iff] at h
    obtain ⟨b, hb, rfl⟩ := h
    simp only [exec]
    exact ⟨b, hb, (run_jmp ag.code x stk).mono (Nat.zero_le _)⟩
  | .seq s t, k, k', h, ok, ag, x, stk => by
    simp only [compile, Option.bind_eq_some_iff] at h
    simp only [Ok] at ok
    obtain ⟨m, h1, h2⟩ := h
    have e1 := compile_ext s _ _ h1
    have e2 := compile_ext t _ _ h2
    have s1 := sim F T n s k m h1 ok.1 (ag.of_ext e2) x stk
    have s2 := sim F T n t m k' h2 ok.2 (ag.lo e1.tgl)
    simp only [exec]
    cases hr : exec n s x with
    | none => rw [hr] at s1; exact s1
    | some r =>
      obtain ⟨o, y⟩ := r
      rw [hr] at s1
      cases o with
      | nrm =>
        have := s2 y stk
        rw [e1.cs, e1.bs] at this
        exact Sim.pre s1 rfl (by omega) this
      | brk => exact s1
      | cont => exact s1
      | ret v => exact s1
  | .ifThen c s, k, k', h, ok, ag, x, stk => by
    simp only [compile, Option.map_eq_some_iff] at h
    simp only [Ok] at ok
    obtain ⟨m, h1, rfl⟩ := h
    have e := compile_ext s _ _ h1
    have hl := e.tgl
    simp at hl
    have hT := ag.placed (Nat.le_refl _) (by omega)
    have agm := (ag.lo (lo' := k.tg.length + 1) (by omega)).unplace (by omega)
    have s1 := sim F T n s _ m h1 ok (agm.lo (by simp)) (c x).2 stk
    have hb := run_bz (T := T) (e.code.trans agm.code) x stk
    simp only [new_code] at hb
    simp only [exec]
    cases hc : (c x).1 with
    | false =>
      simp only [hc, Bool.false_eq_true, if_false, hT] at hb ⊢
      exact hb.mono (Nat.zero_le _)
    | true =>
      simp only [hc, if_true] at hb ⊢
      refine Sim.pre (n := n) hb rfl (by omega) ?_
      simpa using s1
  | .ifElse c s t, k, k', h, ok, ag, x, stk => by
    simp only [compile, Option.map_eq_some_iff, Option.bind_eq_some_iff] at h
    simp only [Ok] at ok
    obtain ⟨m, h1, m2, h2, rfl⟩ := h
    have e := compile_ext s _ _ h1
    have e2 := compile_ext t _ _ h2
    have hl := e.tgl
    have hl2 := e2.tgl
    simp at hl hl2
    have hE := ag.placed (show k.tg.length ≤ m.tg.length by omega) (by omega)
    have ag2 : Agree (m.tg.length + 1) m2 F T :=
      (ag.lo (lo' := m.tg.length + 1) (by omega)).unplace (by omega)
    have hF : T.getD k.tg.length 0 = m.code.length + 1 := by
      refine getD_of ?_
      have a := ag.tg k.tg.length (Nat.le_refl _) (by simp; omega)
      rw [a]
      simp only [CS.place]
      rw [List.getElem?_set_ne (by omega), e2.tg _ (by simp; omega)]
      simp only [CS.place]
      rw [List.getElem?_set_self (by simp; omega)]
      simp
    have agm : Agree (k.tg.length + 1) m F T := by
      refine ⟨(List.prefix_append _ _).trans (e2.code.trans ag2.code), fun i hi hk => ?_⟩
      rw [ag.tg i (by omega) (by simp; omega)]
      simp only [CS.place]
      rw [List.getElem?_set_ne (by omega), e2.tg _ (by simp; omega)]
      simp only [CS.place, CS.new, CS.emit]
      rw [List.getElem?_set_ne (by omega), List.getElem?_append_left hk]
    have s1 := sim F T n s _ m h1 ok.1 (agm.lo (by simp)) (c x).2 stk
    have s2 := sim F T n t _ m2 h2 ok.2 (ag2.lo (by simp)) (c x).2 stk
    have hb := run_bz (T := T) (e.code.trans agm.code) x stk
    have hj := fun y => run_jmp (T := T) (e2.code.trans ag2.code) y stk
    simp only [new_code] at hb hj
    simp only [exec]
    cases hc : (c x).1 with
    | false =>
      simp only [hc, Bool.false_eq_true, if_false] at hb ⊢
      refine Sim.pre (n := n) hb rfl (by omega) ?_
      rw [hF]
      have hcs : ((m.new.emit (Instr.jmp m.tg.length)).place k.tg.length).cs = k.cs := e.cs
      have hbs : ((m.new.emit (Instr.jmp m.tg.length)).place k.tg.length).bs = k.bs := e.bs
      rw [hcs, hbs] at s2
      simpa using s2
    | true =>
      simp only [hc, if_true] at hb ⊢
      refine Sim.pre (n := n) hb rfl (by omega) (Sim.post (e := m.code.length) (by simpa using s1) fun y _ => ?_)
      have := (hj y).mono (Nat.zero_le _)
      rw [hE] at this
      exact this
  | .loop c s, k, k', h, ok, ag, x, stk => by
    simp only [compile, Option.map_eq_some_iff] at h
    simp only [Ok] at ok
    obtain ⟨m, h1, rfl⟩ := h
    have e := compile_ext s _ _ h1
    have hl := e.tgl
    simp at hl
    have ag := ag.unstk
    have hbr := ag.placed (by omega) (by simp; omega)
    have agm : Agree (k.tg.length + 2) m F T := ((ag.lo (by omega)).unplace (by omega)).unemit
    have hct : T.getD k.tg.length 0 = k.code.length := by
      refine getD_of ?_
      have a := ag.tg k.tg.length (Nat.le_refl _) (by simp; omega)
      rw [a]
      simp only [CS.place, CS.emit]
      rw [List.getElem?_set_ne (by omega), e.tg _ (by simp; omega)]
      simp [CS.place, CS.emit, CS.new]
    have s1 := fun x stk => sim F T n s _ m h1 ok (agm.lo (by simp)) x stk
    have hb := fun x stk => run_bz (T := T) (e.code.trans agm.code) x stk
    have hj := fun y stk => run_jmp (T := T) ag.code y stk
    simp only [new_code, place_code, emit_code, List.length_append, List.length_cons, List.length_nil] at hb hj s1 hbr
    simp only [exec]
    simp only [place_code, emit_code, List.length_append, List.length_cons, List.length_nil]
    refine while_sim (a := 1) (b := 0) (B := k.code.length + 1) (P := m.code.length) (br := k.tg.length + 1) (ct := k.tg.length)
      c (exec n s) id (by omega) ?_ s1 hbr ?_ ?_ n (Nat.le_refl _) x stk
    · intro x stk
      have := hb x stk
      rw [hbr] at this
      simpa using this
    · intro y stk
      have := hj y stk
      rw [hct] at this
      exact this.mono (Nat.zero_le _)
    · intro x y _ stk
      rw [hct]
      exact R.refl _ _ _
  | .doLoop s c, k, k', h, ok, ag, x, stk => by
    simp only [compile, Option.map_eq_some_iff] at h
    simp only [Ok] at ok
    obtain ⟨m, h1, rfl⟩ := h
    have e := compile_ext s _ _ h1
    have hl := e.tgl
    simp at hl
    have ag := ag.unstk
    have hbr := ag.placed (by omega) (by simp; omega)
    have hctl : T[k.tg.length]? = some m.code.length := by
      rw [ag.tg k.tg.length (Nat.le_refl _) (by simp; omega)]
      simp only [CS.place, CS.emit]
      rw [List.getElem?_set_ne (by omega), List.getElem?_set_self (by omega)]
    have htop : T[k.tg.length + 2]? = some k.code.length := by
      rw [ag.tg (k.tg.length + 2) (by omega) (by simp; omega)]
      simp only [CS.place, CS.emit]
      rw [List.getElem?_set_ne (by omega), List.getElem?_set_ne (by omega), e.tg _ (by simp)]
      simp [CS.place, CS.new]
    have agm : Agree (k.tg.length + 3) m F T :=
      ((((ag.lo (by omega)).unplace (by omega)).unemit).unemit).unplace (by omega)
    have s1 := fun x stk => sim F T n s _ m h1 ok (agm.lo (by simp)) x stk
    have hb := fun x stk => run_bz (T := T) ((List.prefix_append _ _).trans ag.code) x stk
    have hj := fun y stk => run_jmp (T := T) ag.code y stk
    simp only [new_code, place_code, emit_code, List.length_append, List.length_cons, List.length_nil] at hb hj s1 hbr
    simp only [exec]
    simp only [place_code, emit_code, List.length_append, List.length_cons, List.length_nil]
    refine until_sim (br := k.tg.length + 1) (ct := k.tg.length) c (exec n s) s1 hbr (getD_of hctl) ?_ n (Nat.le_refl _) x stk
    intro x stk
    have hb := hb x stk
    have hj := hj (c x).2 stk
    rw [getD_of htop] at hj
    rw [hbr] at hb
    cases hc : (c x).1 with
    | false => simpa [hc] using hb
    | true =>
      simp only [hc, if_true] at hb ⊢
      exact (hb.trans hj).mono (by omega)
  | .forLoop init c post s, k, k', h, ok, ag, x, stk => by
    simp only [compile, Option.map_eq_some_iff] at h
    simp only [Ok] at ok
    obtain ⟨m, h1, rfl⟩ := h
    replace h1 : compile s { forStart init c k with cs := k.tg.length :: k.cs, bs := (k.tg.length + 1) :: k.bs } = some m := h1
    have e := compile_ext s _ _ h1
    obtain ⟨fg, fl⟩ := forStart_grow init c k
    have ft := forStart_tg init c k
    have hl := e.tgl
    simp only [fl] at hl
    have ag := ag.unstk
    have hbr := ag.placed (by omega) (by simp; omega)
    have hctl : T[k.tg.length]? = some m.code.length := by
      rw [ag.tg k.tg.length (Nat.le_refl _) (by simp; omega)]
      simp only [CS.place, CS.emit, CS.emits]
      rw [List.getElem?_set_ne (by omega), List.getElem?_set_self (by omega)]
    have htop : T[k.tg.length + 2]? = some (k.code.length + init.length) := by
      rw [ag.tg (k.tg.length + 2) (by omega) (by simp; omega)]
      simp only [CS.place, CS.emit, CS.emits]
      rw [List.getElem?_set_ne (by omega), List.getElem?_set_ne (by omega), e.tg _ (by simp [fl])]
      exact ft
    have agm : Agree (k.tg.length + 3) m F T :=
      ((((ag.lo (by omega)).unplace (by omega)).unemit).unemits).unplace (by omega)
    have s1 := fun x stk => sim F T n s _ m h1 ok (agm.lo (by simp [fl])) x stk
    have hj := fun y stk => run_jmp (T := T) ag.code y stk
    have hpost := fun y stk => acts_run (T := T) post m.code y stk ((List.prefix_append _ _).trans ag.code)
    have hinit : R F T 0 ⟨k.code.length, x, stk⟩ ⟨k.code.length + init.length, effects init x, stk⟩ := by
      refine acts_run init k.code x stk ((List.IsPrefix.trans ?_ e.code).trans agm.code)
      cases c with
      | none => simp [forStart]
      | some c => simp [forStart]
    simp only [place_code, emit_code, emits_code, List.length_append, List.length_cons, List.length_nil, List.length_map] at hj hbr
    have he : exec n (.forLoop init c post s) x =
        whileLoop (match c with | some c => c | none => fun x => (true, x)) (exec n s) (effects post) n (effects init x) := by
      cases c <;> simp only [exec]
    rw [he]
    refine Sim.pre (n := n) hinit rfl (by omega) ?_
    have hP : ∀ y stk, R F T 1 ⟨m.code.length, y, stk⟩ ⟨k.code.length + init.length, effects post y, stk⟩ := by
      intro y stk
      have := (hpost y stk).trans (hj (effects post y) stk)
      rw [getD_of htop] at this
      exact this.mono (by omega)
    simp only [place_code, emit_code, emits_code, List.length_append, List.length_cons, List.length_nil, List.length_map]
    refine while_sim (a := 0) (b := 1) (B := (forStart init c k).code.length) (P := m.code.length) (br := k.tg.length + 1) (ct := k.tg.length)
      _ (exec n s) (effects post) (by omega) ?_ s1 hbr hP ?_ n (Nat.le_refl _) _ stk
    · intro x stk
      cases c with
      | none =>
        simp only [forStart, if_true, place_code, new_code, emits_code, List.length_append, List.length_map]
        exact R.refl _ _ _
      | some c =>
        have hb := run_bz (T := T) (e.code.trans agm.code) x stk
        rw [hbr] at hb
        simp only [place_code, new_code, emits_code, List.length_append, List.length_map] at hb
        simp only [forStart, place_code, new_code, emit_code, emits_code, List.length_append, List.length_map, List.length_cons, List.length_nil]
        exact hb.mono (Nat.zero_le _)
    · intro x y _ stk
      rw [getD_of hctl]
      exact hP y stk
  | .each st nx s, k, k', h, ok, ag, x, stk => by
    simp only [compile, Option.map_eq_some_iff] at h
    simp only [Ok] at ok
    obtain ⟨m, h1, rfl⟩ := h
    have e := compile_ext s _ _ h1
    have hl := e.tgl
    simp at hl
    have ag := ag.unstk
    have hbr := ag.placed (by omega) (by simp; omega)
    have htop : T[k.tg.length + 2]? = some (k.code.length + 1) := by
      rw [ag.tg (k.tg.length + 2) (by omega) (by simp; omega)]
      simp only [CS.place, CS.emit]
      rw [List.getElem?_set_ne (by omega), e.tg _ (by simp)]
      simp [CS.place, CS.new, CS.emit]
    have agm : Agree (k.tg.length + 3) m F T := ((ag.lo (by omega)).unplace (by omega)).unemit
    have s1 := fun x stk => sim F T n s _ m h1 ok.1 (agm.lo (by simp)) x stk
    have hb := fun x stk => run_bz (T := T) (e.code.trans agm.code) x stk
    have hst : R F T 1 ⟨k.code.length, x, stk⟩ ⟨k.code.length + 1, st x, stk⟩ := by
      refine R.one ?_
      have := fetch (((List.prefix_append _ [Instr.bz nx (k.tg.length + 1)]).trans e.code).trans agm.code)
      simp only [new_code] at this
      simp [step, this]
    have hj := fun y stk => run_jmp (T := T) ag.code y stk
    simp only [new_code, place_code, emit_code, List.length_append, List.length_cons, List.length_nil] at hb hj s1 hbr
    simp only [exec]
    refine Sim.pre (n := n) hst rfl (by omega) ?_
    simp only [place_code, emit_code, List.length_append, List.length_cons, List.length_nil]
    refine while_sim (a := 1) (b := 0) (B := k.code.length + 1 + 1) (P := m.code.length) (br := k.tg.length + 1) (ct := k.tg.length)
      nx (exec n s) id (by omega) ?_ s1 hbr ?_ ?_ n (Nat.le_refl _) _ stk
    · intro x stk
      have := hb x stk
      rw [hbr] at this
      simpa using this
    · intro y stk
      have := hj y stk
      rw [getD_of htop] at this
      exact this.mono (Nat.zero_le _)
    · intro x y hy
      exact absurd hy (no_cont n s ok.2 x y)
  | .switch sel b, k, k', h, ok, ag, x, stk => by
    simp only [compile, Option.map_eq_some_iff] at h
    simp only [Ok] at ok
    obtain ⟨w, h1, rfl⟩ := h
    have e := body_ext (k.tg.length) b _ _ h1
    have hl := e.tgl
    simp at hl
    simp only [exec]
    split at ag
    · rename_i hlen
      have hc := prefix_eq_of_length e.code hlen
      have hte : tailBody b = .empty := by
        by_contra hne
        have := tailBody_nonempty b hne _ _ _ h1
        simp only at this
        omega
      obtain ⟨-, -, ef, eg⟩ := tailBody_empty b hte
      have hsel : pickSel (execFrom n b (sel x).1 (sel x).2) (execDflt n b (sel x).2) (sel x).2 = some (.nrm, (sel x).2) := by
        simp only [pickSel]
        rcases ef n (sel x).1 (sel x).2 with h | h
        · rw [h]
          rcases eg n (sel x).2 with h' | h' <;> rw [h']
        · rw [h]
      rw [hsel, if_pos hlen]
      have hcode : k.code ++ [.push sel] ++ [.pop] <+: F := by
        have := ag.code
        rw [← hc] at this
        simpa using this
      have f1 := fetch ((List.prefix_append _ _).trans hcode)
      have f2 := fetch hcode
      have r1 : R F T 1 ⟨k.code.length, x, stk⟩ ⟨k.code.length + 1, (sel x).2, (sel x).1 :: stk⟩ := R.one (by simp [step, f1])
      have r2 : R F T 1 ⟨k.code.length + 1, (sel x).2, (sel x).1 :: stk⟩ ⟨k.code.length + 2, (sel x).2, stk⟩ :=
        R.one (by simp only [List.length_append, List.length_cons, List.length_nil] at f2; simp [step, f2])
      have := (r1.trans r2).mono (Nat.zero_le _)
      show R _ _ _ _ _
      simp only [← hc]
      simpa using this
    · rename_i hlen
      rw [if_neg hlen]
      have hne : tailBody b ≠ .empty := fun he => hlen (by
        have := ((tailBody_empty b he).1 _ _ _ h1).1
        rw [this])
      generalize hk2 : (if w.k.endsJmp = true then w.k else w.k.emit (.jmp (k.tg.length + 1))) = k2 at ag ⊢
      have hk2c : w.k.code <+: k2.code := by
        rw [← hk2]; split
        · exact List.prefix_refl _
        · exact List.prefix_append _ _
      have hk2t : k2.tg = w.k.tg := by
        rw [← hk2]; split <;> rfl
      have ag := ag.unstk
      have hbr := ag.placed (by omega) (by simp [hk2t]; omega)
      have agw : Agree (k.tg.length + 3) w.k F T := by
        have a := (((ag.lo (lo' := k.tg.length + 3) (by omega)).unplace (by omega)).unemit).unplace (by omega)
        exact ⟨hk2c.trans a.code, by have := a.tg; rw [hk2t] at this; exact this⟩
      have hsp : T[k.tg.length + 2]? = some k2.code.length := by
        rw [ag.tg (k.tg.length + 2) (by omega) (by simp [hk2t]; omega)]
        simp only [CS.place, CS.emit]
        rw [List.getElem?_set_ne (by omega), List.getElem?_set_self (by rw [hk2t]; omega)]
      have hcode : k.code ++ [.push sel] ++ [.jmp (k.tg.length + 2)] <+: F := by
        have := e.code.trans agw.code
        simpa using this
      have f1 := fetch ((List.prefix_append _ _).trans hcode)
      have r1 : R F T 1 ⟨k.code.length, x, stk⟩ ⟨k.code.length + 1, (sel x).2, (sel x).1 :: stk⟩ := R.one (by simp [step, f1])
      have r2 := run_jmp (T := T) hcode (sel x).2 ((sel x).1 :: stk)
      rw [getD_of hsp] at r2
      simp only [List.length_append, List.length_cons, List.length_nil] at r2
      have f3 : F[k2.code.length]? = some (.sw w.cases w.d) := fetch (show k2.code ++ [_] <+: F from ag.code)
      have bs := bsim F T n b k.tg.length _ _ h1 ok.1 (by simp; omega) (agw.lo (by simp))
      have hfin : ∀ y : σ, tailBody b ≠ .exit → R F T 0 ⟨w.k.code.length, y, stk⟩ ⟨k2.code.length + 1, y, stk⟩ := by
        intro y hx
        have hpl : tailBody b = .plain := by
          have h1 := ok.2
          cases ht : tailBody b <;> simp_all
        have hj := tailBody_plain b hpl _ _ _ h1
        rw [hj] at hk2
        simp only [Bool.false_eq_true, if_false] at hk2
        have hc : w.k.code ++ [.jmp (k.tg.length + 1)] <+: F := by
          have : k2.code <+: F := (List.prefix_append _ _).trans ag.code
          rw [← hk2] at this
          exact this
        have r := run_jmp (T := T) hc y stk
        rw [hbr] at r
        simp at r
        exact r.mono (Nat.zero_le _)
      have key : ∃ o, R F T 1 ⟨k2.code.length, (sel x).2, (sel x).1 :: stk⟩ ⟨o, (sel x).2, stk⟩ ∧
          Sim F T n ⟨o, (sel x).2, stk⟩ (k2.code.length + 1) ((k.tg.length + 1) :: k.bs) k.cs
            (pickSel (execFrom n b (sel x).1 (sel x).2) (execDflt n b (sel x).2) (sel x).2) := by
        cases hf : execFrom n b (sel x).1 (sel x).2 with
        | some r =>
          obtain ⟨c, hc, hs⟩ := bs.from_ _ _ _ hf rfl
          refine ⟨c.2, R.one (by simp only [step, f3, hc]), ?_⟩
          simp only [pickSel, hf]
          refine Sim.post (hs stk) fun y hy => hfin y fun hx => ?_
          rw [hy] at hf
          exact (tailBody_exit b hx n (sel x).2 y).2.1 _ hf
        | none =>
          have hcn := (body_none k.tg.length n b _ _ h1).1 _ _ hf rfl
          cases hd : execDflt n b (sel x).2 with
          | some r =>
            obtain ⟨o, hc, hs⟩ := bs.dflt _ _ hd
            refine ⟨o, R.one (by simp only [step, f3, hcn, hc]), ?_⟩
            simp only [pickSel, hf, hd]
            refine Sim.post (hs stk) fun y hy => hfin y fun hx => ?_
            rw [hy] at hd
            exact (tailBody_exit b hx n (sel x).2 y).2.2 hd
          | none =>
            have hdn := (body_none k.tg.length n b _ _ h1).2 _ hd
            refine ⟨k2.code.length + 1, R.one (by simp only [step, f3, hcn, hdn]), ?_⟩
            simp only [pickSel, hf, hd]
            exact R.refl _ _ _
      obtain ⟨o, r3, hs⟩ := key
      have hE : (((k2.place (k.tg.length + 2)).emit (.sw w.cases w.d)).place (k.tg.length + 1)).code.length = k2.code.length + 1 := by
        simp
      show Sim F T n _ _ _ _ _
      simp only [hE]
      refine Sim.pre (n := n) ((r1.trans r2).trans r3) rfl (by omega) (switch_out hs ?_)
      rw [hbr]; simp
theorem bsim (F : List (Instr σ ρ)) (T : List Nat) (n : Nat) : ∀ (b : Body σ ρ) (dt : Nat) (w w' : SwS σ ρ), compileBody dt b w = some w' → OkBody b →
    dt < w.k.tg.length → Agree w.k.tg.length w'.k F T → BSim F T n b w w'
  | .nil, dt, w, w', h, _, _, ag => by
    simp only [compileBody, Option.some.injEq] at h; subst h
    exact ⟨fun x stk => by simp only [execBody]; exact R.refl _ _ _,
      fun h x r hr _ => by simp [execFrom] at hr, fun x r hr => by simp [execDflt] at hr⟩
  | .case hh b, dt, w, w', h, ok, hdt, ag => by
    simp only [OkBody] at ok
    simp only [compileBody] at h
    split at h
    · exact absurd h (by simp)
    have i := bsim F T n b dt _ _ h ok hdt ag
    refine ⟨fun x stk => by simpa [execBody] using i.run x stk, fun h' x r hr hn => ?_,
      fun x r hr => i.dflt x r (by simpa [execDflt] using hr)⟩
    simp only [execFrom] at hr
    split at hr
    · rename_i heq
      cases hr
      subst heq
      have hf := (body_keeps dt b _ _ h).1 hh (hh, w.k.code.length) (by simp [List.find?_append, hn])
      exact ⟨_, hf, fun stk => i.run x stk⟩
    · rename_i hne
      exact i.from_ h' x r hr (by simp [List.find?_append, hn, hne])
  | .dflt b, dt, w, w', h, ok, hdt, ag => by
    simp only [OkBody] at ok
    simp only [compileBody] at h
    split at h
    · exact absurd h (by simp)
    have i := bsim F T n b dt _ _ h ok (by simpa using hdt) (by simpa using ag)
    refine ⟨fun x stk => by simpa [execBody] using i.run x stk, fun h' x r hr hn => i.from_ h' x r (by simpa [execFrom] using hr) hn,
      fun x r hr => ?_⟩
    simp only [execDflt, Option.some.injEq] at hr
    subst hr
    exact ⟨_, (body_keeps dt b _ _ h).2 _ rfl, fun stk => i.run x stk⟩
  | .stmt s b, dt, w, w', h, ok, hdt, ag => by
    simp only [OkBody] at ok
    simp only [compileBody] at h
    split at h
    · exact absurd h (by simp)
    simp only [Option.bind_eq_some_iff] at h
    obtain ⟨m, h1, h2⟩ := h
    have e1 := compile_ext s _ _ h1
    have e2 := body_ext dt b _ _ h2
    have hdt' : dt < m.tg.length := Nat.lt_of_lt_of_le hdt e1.tgl
    have i := bsim F T n b dt _ _ h2 ok.2 hdt' (ag.lo e1.tgl)
    have agm : Agree w.k.tg.length m F T :=
      ⟨e2.code.trans ag.code, fun i hi hk => (ag.tg i hi (Nat.lt_of_lt_of_le hk e2.tgl)).trans (e2.tg i hk (by omega))⟩
    have s1 := fun x stk => sim F T n s w.k m h1 ok.1 agm x stk
    have hcs := e1.cs
    have hbs := e1.bs
    refine ⟨fun x stk => ?_, fun h' x r hr hn => ?_, fun x r hr => ?_⟩
    · have s1 := s1 x stk
      simp only [execBody]
      cases hr : exec n s x with
      | none => rw [hr] at s1; exact s1
      | some r =>
        obtain ⟨o, y⟩ := r
        rw [hr] at s1
        cases o with
        | nrm =>
          have := i.run y stk
          simp only [hcs, hbs] at this
          exact Sim.pre s1 rfl (by omega) this
        | brk => exact s1
        | cont => exact s1
        | ret v => exact s1
    · have := i.from_ h' x r (by simpa [execFrom] using hr) hn
      simpa only [hcs, hbs] using this
    · have := i.dflt x r (by simpa [execDflt] using hr)
      simpa only [hcs, hbs] using this
end

end Wrench.Flow
