import Verif.Peep.Rules

/-
Every rewriting rule preserves the effect of the code.
-/
namespace Wrench.Peep
open Wrench.Vm Wrench.Ops

/-! ### Operators -/

/-- Free stack slots and C++ locals. -/
def deadLoc (n : Nat) (a : Addr) : Prop := deadAt n a ∨ ∃ k, a = .loc k

theorem dead_deadLoc (n : Nat) : Dead (deadLoc n) :=
  ⟨by rintro o i (⟨k, -, h⟩ | ⟨k, h⟩) <;> simp at h, by rintro (⟨k, -, h⟩ | ⟨k, h⟩) <;> simp at h,
    by rintro (⟨k, -, h⟩ | ⟨k, h⟩) <;> simp at h⟩

theorem live_not_deadLoc {n : Nat} {a : Addr} (h : liveAt n a) : ¬deadLoc n a := by
  rintro (h' | ⟨k, rfl⟩)
  · exact live_not_dead h h'
  · simp [liveAt] at h

theorem rel_of_loc {m : M} (hm : OkM m) {σ τ : St}
    (h1 : ∀ a, ¬deadLoc m.top a → σ.cell a = m.σ.cell a)
    (h2 : ∀ a, ¬deadLoc m.top a → τ.cell a = m.σ.cell a) (ho : τ.obj = σ.obj) (hn : τ.next = σ.next)
    (hr : τ.rawMem = σ.rawMem) : Rel (deadLoc m.top) σ.cell τ.cell σ τ :=
  ⟨fun a ha => (h2 a ha).trans (h1 a ha).symm,
    fun a ha p hp => live_not_deadLoc (hm.closed a (not_dead fun h => ha (.inl h)) p
      (by rw [← h1 a ha]; exact hp)),
    fun _ _ => rfl, fun _ _ => rfl, ho, hn, hr⟩

theorem Rel.setDead {D : Addr → Prop} {u v : Addr → Val} {σ τ : St} (h : Rel D u v σ τ) {a : Addr}
    (ha : D a) (w : Val) : Rel D (fun b => if b = a then w else u b) v (σ.set a w) τ := by
  refine ⟨?_, ?_, ?_, h.inR, h.obj, h.next, h.raw⟩
  · intro b hb
    rw [St.set_ne _ _ (by rintro rfl; exact hb ha)]; exact h.off b hb
  · intro b hb p hp
    rw [St.set_ne _ _ (by rintro rfl; exact hb ha)] at hp; exact h.closed b hb p hp
  · intro b hb
    by_cases hba : b = a
    · subst hba; simp
    · rw [St.set_ne _ _ hba, if_neg hba]; exact h.inL b hb

/-- `single` leaves a number. -/
theorem single_num {E : Env} {f : Nat} {σ σ' : St} {a : Addr} (h : single E f σ a = .ok σ') :
    (σ'.cell .t1).isNum = true := by
  unfold single at h
  obtain ⟨⟨σ1, l⟩, h1, h⟩ := bind_ok h
  dsimp only at h
  generalize σ1.cell l = w at h
  cases w <;> simp only [res_pure, Res.ok.injEq] at h <;> subst h <;> simp [Val.isNum]

/-- Storing a plain value into a plain place is a copy. -/
theorem assign_plain {E : Env} {f : Nat} {σ σ' : St} {a b : Addr} (ha : (σ.cell a).plain = true)
    (hb : (σ.cell b).plain = true) (h : Ops.assign E f σ a b = .ok σ') :
    σ' = σ.set a (σ.cell b) := by
  cases f with
  | zero => simp [Ops.assign] at h
  | succ f =>
    have hd : ∀ p, deref f σ b = .ok p → p = (σ, b) := by
      intro p hp
      cases f with
      | zero => simp [deref] at hp
      | succ f =>
        unfold deref at hp
        generalize σ.cell b = w at hp hb
        cases w <;> simp_all [Val.plain]
    have hm : isMember (σ.cell a) = false := by
      generalize σ.cell a = w at ha
      cases w <;> simp_all [Val.plain, isMember]
    have hEX : (do
        let (σ, l) ← Ops.deref f σ b
        if isMember (σ.cell a) then valueToEx E f σ a l
        else return σ.set a (σ.cell l)) = Res.ok σ' → σ' = σ.set a (σ.cell b) := by
      intro h
      obtain ⟨p, h1, h⟩ := bind_ok h
      rw [hd p h1] at h
      simp only [hm, Bool.false_eq_true, if_false, res_pure, Res.ok.injEq] at h
      exact h.symm
    have hIE : (do
        let (σ, l) ← Ops.deref f σ b
        return σ.set a (σ.cell l)) = Res.ok σ' → σ' = σ.set a (σ.cell b) := by
      intro h
      obtain ⟨p, h1, h⟩ := bind_ok h
      rw [hd p h1] at h
      simp only [res_pure, Res.ok.injEq] at h
      exact h.symm
    unfold Ops.assign at h
    generalize σ.cell a = w at h ha
    generalize hz : σ.cell b = z at h hb
    rw [hz] at hEX hIE
    cases w <;> cases z <;> simp only [Val.plain, Bool.false_eq_true] at ha hb <;>
      simp only [Val.ty] at h <;> first
        | exact hEX h
        | exact hIE h
        | (simp only [Res.ok.injEq] at h; exact h.symm)

/-- A reference to the source may stand for the source. -/
theorem assign_from_ref {E : Env} : ∀ (f : Nat) {σ σ' : St} {a b c : Addr}, σ.cell c = .ref b →
    Ops.assign E f σ a b = .ok σ' → ∃ g, Ops.assign E g σ a c = .ok σ' := by
  intro f
  induction f with
  | zero => intro σ σ' a b c _ h; simp [Ops.assign] at h
  | succ f ih =>
    intro σ σ' a b c hc h
    by_cases har : (σ.cell a).ty = .R
    · obtain ⟨a', ha⟩ : ∃ a', σ.cell a = .ref a' := by
        generalize σ.cell a = w at har
        cases w <;> simp_all [Val.ty]
      have key : ∀ g, Ops.assign E (g + 1) σ a c = Ops.assign E g σ a' b := by
        intro g
        rw [Ops.assign]
        simp [ha, hc, Val.ty]
      unfold Ops.assign at h
      rw [ha] at h
      generalize hz : σ.cell b = z at h
      cases z <;> simp only [Val.ty] at h <;> first
        | exact ⟨f + 1, by rw [key]; exact h⟩
        | (obtain ⟨g, hg⟩ := ih hz h
           exact ⟨g + 1, by rw [key]; exact hg⟩)
    · refine ⟨f + 2, ?_⟩
      rw [Ops.assign]
      have hct : (σ.cell c).ty = .R := by simp [hc, Val.ty]
      generalize σ.cell a = w at har
      rw [hct, hc]
      cases w <;> first | exact absurd rfl har | exact h

/-- The result of a dispatched operator, and that it leaves real memory alone. -/
theorem disp_frame {E : Env} {R : Type} {Q : R → Prop}
    {T : Ty → Ty → Entry R} {cat : St → Addr → Addr → Option (St × R)} {none_ : R}
    (hT : ∀ r c g, T r c = .leaf g → ∀ σ a b σ' r, g σ a b = .ok (σ', r) →
      (∀ x, x.real = true → σ'.cell x = σ.cell x) ∧ Q r)
    (hs : ∀ r c q, T r c = .skip q → Q q)
    (hc : ∀ σ a b σ' r, cat σ a b = some (σ', r) → (∀ x, x.real = true → σ'.cell x = σ.cell x) ∧ Q r)
    (hn : Q none_) :
    ∀ (f : Nat) {σ σ' : St} {a b : Addr} {r : R}, Ops.disp E T cat none_ f σ a b = .ok (σ', r) →
      (∀ x, x.real = true → σ'.cell x = σ.cell x) ∧ Q r := by
  have hder : ∀ (f : Nat) {σ σ' : St} {a l : Addr}, Ops.deref f σ a = .ok (σ', l) →
      ∀ x, x.real = true → σ'.cell x = σ.cell x := by
    intro f
    induction f with
    | zero => intro σ σ' a l h; simp [deref] at h
    | succ f ih =>
      intro σ σ' a l h x hx
      have h2 : x ≠ .t2 := by rintro rfl; simp [Addr.real] at hx
      unfold deref at h
      generalize σ.cell a = w at h
      cases w with
      | ref r => exact ih h x hx
      | hmem e => rw [ih h x hx, St.set_ne _ _ h2]
      | mem c s =>
        dsimp only at h
        generalize (σ.set .t2 (σ.cell .t2).retypeInt).cell c = z at h
        cases z with
        | raw p n =>
          simp only [Res.ok.injEq, Prod.mk.injEq] at h
          obtain ⟨rfl, rfl⟩ := h
          rw [St.set_ne _ _ h2, St.set_ne _ _ h2]
        | arr o =>
          dsimp only at h
          generalize (σ.set .t2 (σ.cell .t2).retypeInt).obj o = ob at h
          cases ob with
          | vals n =>
            dsimp only at h
            split at h <;> simp only [Res.ok.injEq, Prod.mk.injEq] at h <;>
              obtain ⟨rfl, rfl⟩ := h <;> rw [St.set_ne _ _ h2]
          | chars bs nc =>
            dsimp only at h
            split at h <;> simp only [Res.ok.injEq, Prod.mk.injEq] at h <;>
              obtain ⟨rfl, rfl⟩ := h
            · rw [St.set_ne _ _ h2, St.set_ne _ _ h2]
            · rw [St.set_ne _ _ h2]
          | other => simp at h
        | _ => simp at h
      | _ =>
        simp only [Res.ok.injEq, Prod.mk.injEq] at h
        obtain ⟨rfl, rfl⟩ := h
        rfl
  have hsin : ∀ (f : Nat) {σ σ' : St} {a : Addr}, Ops.single E f σ a = .ok σ' →
      ∀ x, x.real = true → σ'.cell x = σ.cell x := by
    intro f σ σ' a h x hx
    have h1 : x ≠ .t1 := by rintro rfl; simp [Addr.real] at hx
    unfold single at h
    obtain ⟨⟨σ1, l⟩, e1, h⟩ := bind_ok h
    have := hder f e1 x hx
    dsimp only at h
    generalize σ1.cell l = w at h
    cases w <;> simp only [res_pure, Res.ok.injEq] at h <;> subst h <;>
      rw [St.set_ne _ _ h1, this]
  intro f
  induction f with
  | zero => intro σ σ' a b r h; simp [Ops.disp] at h
  | succ f ih =>
    intro σ σ' a b r h
    have hloc : ∀ (τ : St) (w : Val) (x : Addr), x.real = true →
        (τ.set (.loc f) w).cell x = τ.cell x := by
      intro τ w x hx
      exact St.set_ne _ _ (by rintro rfl; simp [Addr.real] at hx)
    have exL : ∀ {σ1 : St} {a' b' c' : Addr}, single E f σ c' = .ok σ1 →
        disp E T cat none_ f σ1 a' b' = .ok (σ', r) →
        (∀ x, x.real = true → σ'.cell x = σ.cell x) ∧ Q r := by
      intro σ1 a' b' c' h1 h2
      have := ih h2
      exact ⟨fun x hx => (this.1 x hx).trans (hsin f h1 x hx), this.2⟩
    unfold Ops.disp at h
    dsimp only at h
    have hT' := hT (σ.cell a).ty (σ.cell b).ty
    have hs' := hs (σ.cell a).ty (σ.cell b).ty
    generalize T (σ.cell a).ty (σ.cell b).ty = e at h hT' hs'
    cases e with
    | leaf g => exact hT' g rfl _ _ _ _ _ h
    | refL =>
      generalize σ.cell a = w at h
      cases w <;> simp only [reduceCtorEq] at h
      exact ih h
    | refR =>
      generalize σ.cell b = w at h
      cases w <;> simp only [reduceCtorEq] at h
      exact ih h
    | refLR =>
      generalize σ.cell a = w at h
      generalize σ.cell b = z at h
      cases w <;> cases z <;> simp only [reduceCtorEq] at h
      exact ih h
    | exL =>
      obtain ⟨σ1, h1, h⟩ := bind_ok h
      exact exL h1 h
    | exR =>
      obtain ⟨σ1, h1, h⟩ := bind_ok h
      exact exL h1 h
    | exLR =>
      obtain ⟨σ1, h1, h⟩ := bind_ok h
      obtain ⟨σ2, h2, h⟩ := bind_ok h
      have := ih h
      refine ⟨fun x hx => ?_, this.2⟩
      rw [this.1 x hx, hsin f h2 x hx, hloc _ _ x hx, hsin f h1 x hx]
    | catL =>
      dsimp only at h
      split at h
      · next p hp =>
        simp only [Res.ok.injEq] at h
        subst h
        exact hc _ _ _ _ _ hp
      · obtain ⟨σ1, h1, h⟩ := bind_ok h
        exact exL h1 h
    | catR =>
      dsimp only at h
      split at h
      · next p hp =>
        simp only [Res.ok.injEq] at h
        subst h
        exact hc _ _ _ _ _ hp
      · obtain ⟨σ1, h1, h⟩ := bind_ok h
        exact exL h1 h
    | catLR =>
      dsimp only at h
      split at h
      · obtain ⟨⟨σ1, l⟩, h1, h⟩ := bind_ok h
        obtain ⟨⟨σ2, k⟩, h2, h⟩ := bind_ok h
        have := ih h
        refine ⟨fun x hx => ?_, this.2⟩
        rw [this.1 x hx, hder f h2 x hx, hloc _ _ x hx, hder f h1 x hx]
      · split at h
        · next p hp =>
          simp only [Res.ok.injEq] at h
          subst h
          exact hc _ _ _ _ _ hp
        · simp only [Res.ok.injEq, Prod.mk.injEq] at h
          obtain ⟨rfl, rfl⟩ := h
          exact ⟨fun _ _ => rfl, hn⟩
    | badER =>
      generalize σ.cell b = z at h
      cases z <;> simp only [reduceCtorEq] at h
      generalize T .I .E = e at h
      cases e <;> simp only [reduceCtorEq] at h
      obtain ⟨σ1, h1, h⟩ := bind_ok h
      have hIt := hT .I (σ1.cell .t1).ty
      generalize T .I (σ1.cell .t1).ty = e at h hIt
      cases e with
      | leaf g =>
        have := hIt g rfl _ _ _ _ _ h
        exact ⟨fun x hx => (this.1 x hx).trans (hsin f h1 x hx), this.2⟩
      | _ =>
        simp only [Res.ok.injEq, Prod.mk.injEq] at h
        obtain ⟨rfl, rfl⟩ := h
        exact ⟨hsin f h1, hn⟩
    | skip r1 =>
      simp only [Res.ok.injEq, Prod.mk.injEq] at h
      obtain ⟨rfl, rfl⟩ := h
      exact ⟨fun _ _ => rfl, hs' _ rfl⟩

/-- The value of an operator is a number or a string, and no variable changes. -/
theorem binVal_frame {E : Env} {op : BinOp} {f : Nat} {σ σ' : St} {a b : Addr} {r : Option Val}
    (h : binVal E op f σ a b = .ok (σ', r)) :
    (∀ x, x.real = true → σ'.cell x = σ.cell x) ∧ ∀ w, r = some w → w.plain = true := by
  have hl : ∀ k (g : Word32 → Word32 → Res Word32), (∀ w, (k w).plain = true) →
      ∀ σ a b σ' r, leafV k g σ a b = .ok (σ', r) →
      (∀ x, x.real = true → σ'.cell x = σ.cell x) ∧ ∀ w, r = some w → w.plain = true := by
    intro k g hk σ a b σ' r h
    unfold leafV at h
    obtain ⟨x, h1, h⟩ := bind_ok h
    obtain ⟨y, h2, h⟩ := bind_ok h
    obtain ⟨z, h3, h⟩ := bind_ok h
    simp only [res_pure, Res.ok.injEq, Prod.mk.injEq] at h
    obtain ⟨rfl, rfl⟩ := h
    refine ⟨fun _ _ => rfl, ?_⟩
    rintro w hw
    simp only [Option.some.injEq] at hw
    subst hw
    exact hk _
  have hI : ∀ w, (Val.int w).plain = true := fun _ => rfl
  have hF : ∀ w, (Val.float w).plain = true := fun _ => rfl
  refine disp_frame (Q := fun r => ∀ w, r = some w → w.plain = true) ?_ ?_ ?_ (by simp) f h
  · intro r c g hg
    cases op <;> first
      | exact std_leaf (P := fun g => ∀ σ a b σ' r, g σ a b = .ok (σ', r) →
          (∀ x, x.real = true → σ'.cell x = σ.cell x) ∧ ∀ w, r = some w → w.plain = true)
          (hl _ _ hI) (hl _ _ hF) (hl _ _ hF) (hl _ _ hF) r c g hg
      | exact add_leaf (P := fun g => ∀ σ a b σ' r, g σ a b = .ok (σ', r) →
          (∀ x, x.real = true → σ'.cell x = σ.cell x) ∧ ∀ w, r = some w → w.plain = true)
          (hl _ _ hI) (hl _ _ hF) (hl _ _ hF) (hl _ _ hF) r c g hg
      | exact int_leaf (P := fun g => ∀ σ a b σ' r, g σ a b = .ok (σ', r) →
          (∀ x, x.real = true → σ'.cell x = σ.cell x) ∧ ∀ w, r = some w → w.plain = true)
          (hl _ _ hI) r c g hg
  · intro r c q hq
    cases op <;> cases r <;> cases c <;> simp only [binTableV, addTable, stdTable, intTable,
      reduceCtorEq, Entry.skip.injEq] at hq <;> subst hq <;> simp
  · intro σ a b σ' r hc
    unfold catV at hc
    dsimp only at hc
    split at hc
    · split at hc <;> simp only [Option.some.injEq, Prod.mk.injEq] at hc <;>
        obtain ⟨rfl, rfl⟩ := hc <;> refine ⟨fun _ _ => rfl, ?_⟩ <;> rintro w hw <;>
        simp only [Option.some.injEq] at hw <;> subst hw <;> rfl
    · split at hc
      · simp only [Option.some.injEq, Prod.mk.injEq] at hc
        obtain ⟨rfl, rfl⟩ := hc
        refine ⟨fun _ _ => rfl, ?_⟩
        rintro w hw
        simp only [Option.some.injEq] at hw
        subst hw
        rfl
      · simp at hc

/-- Exchanging the operands of a commutative operator on numbers. -/
theorem binVal_swap {E : Env} (hE : EnvOk E) {D : Addr → Prop} {u v : Addr → Val} {op : BinOp}
    (hop : op = .add ∨ op = .mul) : ∀ (f : Nat) {σ τ σ' : St} {a b : Addr} {r : Option Val},
    Rel D u v σ τ → ¬D a → ¬D b → IsNumber σ a → IsNumber σ b →
    binVal E op f σ a b = .ok (σ', r) →
    ∃ τ', binVal E op f τ b a = .ok (τ', r) ∧ Rel D u v σ' τ' ∧ ∃ w, r = some w := by
  have hnr : ∀ {σ : St} {a c : Addr}, σ.cell a = .ref c → IsNumber σ a → IsNumber σ c := by
    rintro σ a c hc ⟨b, hb, hn⟩
    cases hb with
    | here h => simp [hc, Val.ty] at h
    | ref h1 h2 =>
      rw [hc] at h1
      cases h1
      exact ⟨_, h2, hn⟩
  have hne : ∀ {σ : St} {a : Addr}, (σ.cell a).ty = .E → ¬IsNumber σ a := by
    rintro σ a he ⟨b, hb, hn⟩
    cases hb with
    | here h => generalize σ.cell a = w at *; cases w <;> simp_all [Val.ty, Val.isNum]
    | ref h1 h2 => simp [h1, Val.ty] at he
  intro f
  induction f with
  | zero => intro σ τ σ' a b r _ _ _ _ _ h; simp [binVal, disp] at h
  | succ f ih =>
    intro σ τ σ' a b r hr ha hb na nb h
    unfold binVal at h ih ⊢
    unfold disp at h ⊢
    dsimp only at h ⊢
    rw [hr.off a ha, hr.off b hb]
    have hca := hr.closed a ha
    have hcb := hr.closed b hb
    have nra := fun c hc => hnr (a := a) (c := c) hc na
    have nrb := fun c hc => hnr (a := b) (c := c) hc nb
    have nea := fun hc => hne (a := a) hc na
    have neb := fun hc => hne (a := b) hc nb
    have lf : ∀ {k k' : Word32 → Val} {g g' : Word32 → Word32 → Res Word32},
        (∀ x y, g' y x = g x y) → k' = k → leafV k g σ a b = .ok (σ', r) →
        ∃ τ', leafV k' g' τ b a = .ok (τ', r) ∧ Rel D u v σ' τ' ∧ ∃ w, r = some w := by
      intro k k' g g' hg hk h
      subst hk
      unfold leafV at h ⊢
      rw [hr.off a ha, hr.off b hb]
      obtain ⟨x, h1, h⟩ := bind_ok h
      obtain ⟨y, h2, h⟩ := bind_ok h
      obtain ⟨z, h3, h⟩ := bind_ok h
      rw [h1, h2]
      simp only [res_bind_ok]
      rw [hg, h3]
      simp only [res_pure, Res.ok.injEq, Prod.mk.injEq] at h
      obtain ⟨rfl, rfl⟩ := h
      exact ⟨_, rfl, hr, _, rfl⟩
    generalize σ.cell a = w at h hca nra nea
    generalize σ.cell b = z at h hcb nrb neb
    rcases hop with rfl | rfl
    · cases w <;> cases z <;> simp only [Val.ty, binTableV, addTable, stdTable] at h ⊢ <;>
        first
        | exact (nea rfl).elim
        | exact (neb rfl).elim
        | exact ih hr (hca _ rfl) (hcb _ rfl) (nra _ rfl) (nrb _ rfl) h
        | exact ih hr (hca _ rfl) hb (nra _ rfl) nb h
        | exact ih hr ha (hcb _ rfl) na (nrb _ rfl) h
        | exact lf (fun x y => congrArg Res.ok (BitVec.add_comm _ _)) rfl h
        | exact lf (fun x y => congrArg Res.ok (hE.fadd _ _)) rfl h
    · cases w <;> cases z <;> simp only [Val.ty, binTableV, stdTable] at h ⊢ <;>
        first
        | exact (nea rfl).elim
        | exact (neb rfl).elim
        | exact ih hr (hca _ rfl) (hcb _ rfl) (nra _ rfl) (nrb _ rfl) h
        | exact ih hr (hca _ rfl) hb (nra _ rfl) nb h
        | exact ih hr ha (hcb _ rfl) na (nrb _ rfl) h
        | exact lf (fun x y => congrArg Res.ok (BitVec.mul_comm _ _)) rfl h
        | exact lf (fun x y => congrArg Res.ok (hE.fmul _ _)) rfl h

/-- Agreement on everything real and not dead. -/
structure AgreeOff (D : Addr → Prop) (σ τ : St) : Prop where
  cell : ∀ a, a.real = true → ¬D a → τ.cell a = σ.cell a
  obj : τ.obj = σ.obj
  next : τ.next = σ.next
  raw : τ.rawMem = σ.rawMem

theorem Rel.agreeOff {D : Addr → Prop} {u v : Addr → Val} {σ τ : St} (h : Rel D u v σ τ) :
    AgreeOff D σ τ := ⟨fun a _ ha => h.off a ha, h.obj, h.next, h.raw⟩

theorem AgreeOff.agree {D : Addr → Prop} {n : Nat} {σ τ : St} (h : AgreeOff D σ τ)
    (hD : ∀ a, liveAt n a → ¬D a) : Agree n σ τ :=
  ⟨fun a ha => h.cell a (by cases a <;> simp_all [liveAt, Addr.real]) (hD a ha), h.obj, h.next,
    h.raw⟩

/-- A comparison with a literal on the left is the flipped comparison with it on the right. -/
theorem compare_flip {E : Env} (hE : EnvOk E) {D : Addr → Prop} (hD : Dead D)
    (hloc : ∀ k, ¬D (.loc k)) {u v : Addr → Val} {op : CmpOp} (hop : op = .gt ∨ op = .lt ∨ op = .eq)
    {c c' : Addr} (hc : D c) {L : Val} (hL : L.isNum = true) :
    ∀ (f : Nat) {σ τ σ' : St} {x : Addr} {r : Bool}, Rel D u v σ τ → D c' → ¬D x →
    σ.cell c = L → τ.cell c' = L → ((x = .t1 ∧ (σ.cell .t1).isNum = true) ∨
      (L.ty = .F → op ≠ .eq → ∀ b, Ends σ x b → (σ.cell b).ty ≠ .I)) →
    Ops.compare E op f σ c x = .ok (σ', r) →
    ∃ τ', Ops.compare E (CmpOp.flip op) f τ x c' = .ok (τ', r) ∧ AgreeOff D σ' τ' := by
  intro f
  induction f with
  | zero => intro σ τ σ' x r _ _ _ _ _ _ h; simp [Ops.compare, disp] at h
  | succ f ih =>
    intro σ τ σ' x r hr hc' hx hσ hτ hxr h
    have hcx := hr.closed x hx
    have leaf : ∀ {g g' : Word32 → Word32 → Bool} {l l' : St → Addr → Addr → Res (St × Bool)},
        (l = leafC g ∨ l = leafCIF g) → (l' = leafC g' ∨ (l' = leafCIF g' ∧ x = .t1)) →
        (∀ a b, (σ.cell c).bits = .ok a → (σ.cell x).bits = .ok b → g' b a = g a b) →
        l σ c x = .ok (σ', r) → ∃ τ', l' τ x c' = .ok (τ', r) ∧ AgreeOff D σ' τ' := by
      intro g g' l l' hl hl' hg h
      have hag : ∀ (w w' : Val), AgreeOff D (σ.set c w) τ ∧ (x = .t1 → AgreeOff D (σ.set c w) (τ.set x w'))
          ∧ (x = .t1 → AgreeOff D σ (τ.set x w')) := by
        intro w w'
        have h0 : ∀ a, ¬D a → (σ.set c w).cell a = σ.cell a := fun a ha =>
          St.set_ne _ _ (by rintro rfl; exact ha hc)
        refine ⟨⟨fun a _ ha => ?_, hr.obj, hr.next, hr.raw⟩, fun hx1 => ⟨fun a har ha => ?_, hr.obj,
          hr.next, hr.raw⟩, fun hx1 => ⟨fun a har ha => ?_, hr.obj, hr.next, hr.raw⟩⟩
        · rw [h0 a ha, hr.off a ha]
        · subst hx1
          rw [h0 a ha, St.set_ne _ _ (by rintro rfl; simp [Addr.real] at har), hr.off a ha]
        · subst hx1
          rw [St.set_ne _ _ (by rintro rfl; simp [Addr.real] at har), hr.off a ha]
      rcases hl with rfl | rfl <;> rcases hl' with rfl | ⟨rfl, hx1⟩ <;>
        simp only [leafC, leafCIF] at h ⊢ <;> rw [hr.off x hx, hτ, ← hσ] <;>
        obtain ⟨a, h1, h⟩ := bind_ok h <;> obtain ⟨b, h2, h⟩ := bind_ok h <;>
        rw [h1, h2] <;> simp only [res_pure, res_bind_ok, Res.ok.injEq, Prod.mk.injEq] at h ⊢ <;>
        obtain ⟨rfl, rfl⟩ := h <;> rw [hg a b h1 h2]
      · exact ⟨_, ⟨rfl, rfl⟩, hr.agreeOff⟩
      · exact ⟨_, ⟨rfl, rfl⟩, (hag .other _).2.2 hx1⟩
      · exact ⟨_, ⟨rfl, rfl⟩, (hag _ .other).1⟩
      · exact ⟨_, ⟨rfl, rfl⟩, (hag _ _).2.1 hx1⟩
    have hIx : L.ty = .F → op ≠ .eq → ∀ w, σ.cell x = .int w → x = .t1 := by
      intro h1 h2 w hw
      rcases hxr with hxr | hsafe
      · exact hxr.1
      · exact absurd (by simp [hw, Val.ty]) (hsafe h1 h2 x (.here (by simp [hw, Val.ty])))
    have hrec : ∀ y, σ.cell x = .ref y → Ops.compare E op f σ c y = .ok (σ', r) →
        ∃ τ', Ops.compare E (CmpOp.flip op) f τ y c' = .ok (τ', r) ∧ AgreeOff D σ' τ' := by
      intro y hy h
      refine ih hr hc' (hcx y (by rw [hy]; rfl)) hσ hτ (.inr ?_) h
      intro h1 h2 b hb
      rcases hxr with hxr | hsafe
      · rw [hxr.1] at hy; rw [hy] at hxr; simp [Val.isNum] at hxr
      · exact hsafe h1 h2 b (.ref hy hb)
    have ext : (single E f σ x >>= fun σ1 => Ops.compare E op f σ1 c .t1) = .ok (σ', r) →
        ∃ τ', (single E f τ x >>= fun τ1 => Ops.compare E (CmpOp.flip op) f τ1 .t1 c') = .ok (τ', r) ∧
          AgreeOff D σ' τ' := by
      intro h
      obtain ⟨σ1, h1, h⟩ := bind_ok h
      obtain ⟨τ1, g1, hr1⟩ := hr.single hD hE.loc f hx h1
      rw [g1]
      refine ih hr1 hc' hD.t1 ?_ ?_ (.inl ⟨rfl, single_num h1⟩) h
      · rw [hr1.inL c hc, ← hr.inL c hc, hσ]
      · rw [hr1.inR c' hc', ← hr.inR c' hc', hτ]
    unfold Ops.compare at h hrec ext ⊢
    unfold disp at h ⊢
    dsimp only at h ⊢
    rw [hr.off x hx, hτ]
    rw [hσ] at h leaf
    generalize hz : σ.cell x = z at h hIx hrec leaf
    rcases hop with rfl | rfl | rfl <;> cases L <;> simp only [Val.isNum, Bool.false_eq_true] at hL <;>
      cases z <;> simp only [Val.ty, cmpTable, stdTable, CmpOp.flip] at h hIx hrec ext ⊢ <;> first
        | exact hrec _ rfl h
        | exact ext h
        | exact leaf (.inl rfl) (.inl rfl) (by intro a b _ _; rfl) h
        | exact leaf (.inr rfl) (.inl rfl) (by intro a b _ _; rfl) h
        | exact leaf (.inl rfl) (.inr ⟨rfl, hIx trivial (by simp) _ rfl⟩) (by intro a b _ _; rfl) h
        | exact leaf (.inl rfl) (.inl rfl) (by intro a b _ _; exact hE.feq _ _) h
        | exact leaf (.inl rfl) (.inl rfl) (fun a b _ _ => BEq.comm) h

theorem agree_set {D : Addr → Prop} {n : Nat} {σ τ : St} {t : Addr} {w : Val}
    (h : AgreeOff D σ τ) (hD : ∀ a, liveAt n a → a ≠ t → ¬D a) :
    Agree n (σ.set t w) (τ.set t w) := by
  refine ⟨fun a ha => ?_, h.obj, h.next, h.raw⟩
  by_cases hat : a = t
  · subst hat; simp
  · rw [St.set_ne _ _ hat, St.set_ne _ _ hat,
      h.cell a (by cases a <;> simp_all [liveAt, Addr.real]) (hD a ha hat)]

theorem live_succ {n : Nat} {a : Addr} (h : liveAt (n + 1) a) (hn : a ≠ .cell n) : ¬deadAt n a := by
  rintro ⟨k, hk, rfl⟩
  simp only [liveAt] at h
  exact hn (by congr 1; omega)

theorem Rel.symm {D : Addr → Prop} {u v : Addr → Val} {σ τ : St} (h : Rel D u v σ τ) :
    Rel D v u τ σ :=
  ⟨fun a ha => (h.off a ha).symm, fun a ha p hp => h.closed a ha p (by rw [← h.off a ha]; exact hp),
    h.inR, h.inL, h.obj.symm, h.next.symm, h.raw.symm⟩

theorem Ends.rel {D : Addr → Prop} {u v : Addr → Val} {σ τ : St} (h : Rel D u v σ τ) {a b : Addr}
    (hb : Ends σ a b) (ha : ¬D a) : ¬D b ∧ Ends τ a b := by
  induction hb with
  | here h1 => exact ⟨ha, .here (by rw [h.off _ ha]; exact h1)⟩
  | ref h1 h2 ih =>
    have := ih (h.closed _ ha _ (by rw [h1]; rfl))
    exact ⟨this.1, .ref (by rw [h.off _ ha]; exact h1) this.2⟩

/-! ### Stepping -/

theorem pop_push {m : M} (hm : m.fb + m.nl ≤ m.top) (w : Val) : (m.push w).pop =
    .ok ({ m with σ := m.σ.set (.cell m.top) w }, .cell m.top) := by
  unfold M.pop M.push
  dsimp only
  rw [if_pos (by omega)]
  rfl

theorem peek_push {m : M} (hm : m.fb + m.nl ≤ m.top) (w : Val) :
    (m.push w).peek = .ok (.cell m.top) := by
  unfold M.peek M.push
  dsimp only
  rw [if_pos (by omega)]
  rfl

theorem pop_ok {m : M} {p : M × Addr} (h : m.pop = .ok p) :
    m.fb + m.nl < m.top ∧ p = ({ m with top := m.top - 1 }, .cell (m.top - 1)) := by
  unfold M.pop at h
  split at h
  · simp only [Res.ok.injEq] at h; exact ⟨by assumption, h.symm⟩
  · simp at h

theorem peek_ok {m : M} {a : Addr} (h : m.peek = .ok a) :
    m.fb + m.nl < m.top ∧ a = .cell (m.top - 1) := by
  unfold M.peek at h
  split at h
  · simp only [Res.ok.injEq] at h; exact ⟨by assumption, h.symm⟩
  · simp at h

theorem map_ok {α β : Type} {φ : α → β} {r : Res α} {b : β} (h : Res.map' φ r = .ok b) :
    ∃ a, r = .ok a ∧ b = φ a := by
  cases r <;> simp_all [Res.map']

theorem set_off {σ : St} {n k : Nat} {w : Val} (hk : n ≤ k) {a : Addr} (ha : ¬deadAt n a) :
    (σ.set (.cell k) w).cell a = σ.cell a :=
  St.set_ne _ _ (by rintro rfl; exact ha ⟨k, hk, rfl⟩)

/-- The stack after two pushes. -/
def two (σ : St) (n : Nat) (w z : Val) : St := (σ.set (.cell n) w).set (.cell (n + 1)) z

theorem two_off {σ : St} {n : Nat} {w z : Val} {a : Addr} (ha : ¬deadAt n a) :
    (two σ n w z).cell a = σ.cell a := by
  unfold two
  rw [set_off (by omega) ha, set_off (Nat.le_refl _) ha]

@[simp] theorem two_lo {σ : St} {n : Nat} {w z : Val} : (two σ n w z).cell (.cell n) = w := by
  unfold two
  rw [St.set_ne _ _ (by simp)]
  simp

@[simp] theorem two_hi {σ : St} {n : Nat} {w z : Val} : (two σ n w z).cell (.cell (n + 1)) = z := by
  simp [two]

theorem OkM.relTwo {m : M} (hm : OkM m) (w z : Val) :
    Rel (deadAt m.top) (two m.σ m.top w z).cell m.σ.cell (two m.σ m.top w z) m.σ :=
  rel_of hm (fun _ ha => two_off ha) (fun _ _ => rfl) rfl rfl rfl

theorem OkM.relOne {m : M} (hm : OkM m) (w : Val) :
    Rel (deadAt m.top) (m.σ.set (.cell m.top) w).cell m.σ.cell (m.σ.set (.cell m.top) w) m.σ :=
  rel_of hm (fun _ ha => set_off (Nat.le_refl _) ha) (fun _ _ => rfl) rfl rfl rfl

theorem OkM.var {m : M} (hm : OkM m) {v : Sp} {i : Byte} {x : Addr} (h : m.var v i = .ok x) :
    ¬deadAt m.top x := by
  obtain ⟨k, rfl, hk⟩ := var_live hm h
  have := hm.locals
  rintro ⟨j, hj, h⟩
  simp only [Addr.cell.injEq] at h
  omega

theorem pop_push2 {m : M} (hm : m.fb + m.nl ≤ m.top) (w z : Val) : ((m.push w).push z).pop =
    .ok ({ m.push w with σ := two m.σ m.top w z }, .cell (m.top + 1)) := by
  rw [pop_push]
  · rfl
  · simp only [M.push]; omega

theorem pop_top1 {m : M} (hm : m.fb + m.nl ≤ m.top) (w : Val) (σ : St) :
    M.pop { m.push w with σ := σ } = .ok ({ m with σ := σ }, .cell m.top) := by
  unfold M.pop M.push
  dsimp only
  rw [if_pos (by omega)]
  rfl

theorem peek_top1 {m : M} (hm : m.fb + m.nl ≤ m.top) (w : Val) (σ : St) :
    M.peek { m.push w with σ := σ } = .ok (.cell m.top) := by
  unfold M.peek M.push
  dsimp only
  rw [if_pos (by omega)]
  rfl

/-! ### References on the stack -/

theorem binVal_rr {E : Env} {op : BinOp} {f : Nat} {σ : St} {a b x y : Addr} (ha : σ.cell a = .ref x)
    (hb : σ.cell b = .ref y) : binVal E op (f + 1) σ a b = binVal E op f σ x y := by
  unfold binVal
  rw [disp]
  cases op <;> simp only [ha, hb, Val.ty, binTableV, addTable, stdTable, intTable]

theorem compare_rr {E : Env} {op : CmpOp} {f : Nat} {σ : St} {a b x y : Addr} (ha : σ.cell a = .ref x)
    (hb : σ.cell b = .ref y) : Ops.compare E op (f + 1) σ a b = Ops.compare E op f σ x y := by
  unfold Ops.compare
  rw [disp]
  cases op <;> simp only [ha, hb, Val.ty, cmpTable, stdTable]

theorem isNum_cases {w : Val} (h : w.isNum = true) : (∃ i, w = .int i) ∨ ∃ x, w = .float x := by
  cases w <;> simp_all [Val.isNum]

theorem compare_rn {E : Env} {op : CmpOp} {f : Nat} {σ : St} {a b x : Addr} (ha : σ.cell a = .ref x)
    (hb : (σ.cell b).isNum = true) : Ops.compare E op (f + 1) σ a b = Ops.compare E op f σ x b := by
  unfold Ops.compare
  rw [disp]
  rcases isNum_cases hb with ⟨i, hb⟩ | ⟨i, hb⟩ <;> cases op <;>
    simp only [ha, hb, Val.ty, cmpTable, stdTable]

theorem compare_nr {E : Env} {op : CmpOp} {f : Nat} {σ : St} {a b y : Addr}
    (ha : (σ.cell a).isNum = true) (hb : σ.cell b = .ref y) :
    Ops.compare E op (f + 1) σ a b = Ops.compare E op f σ a y := by
  unfold Ops.compare
  rw [disp]
  rcases isNum_cases ha with ⟨i, ha⟩ | ⟨i, ha⟩ <;> cases op <;>
    simp only [ha, hb, Val.ty, cmpTable, stdTable]

theorem assign_r {E : Env} {f : Nat} {σ : St} {a b x : Addr} (ha : σ.cell a = .ref x)
    (hb : (σ.cell b).ty ≠ .R) : Ops.assign E (f + 1) σ a b = Ops.assign E f σ x b := by
  rw [Ops.assign]
  rw [ha]
  generalize σ.cell b = z at hb
  cases z <;> first | rfl | exact absurd rfl hb

theorem assign_rr {E : Env} {f : Nat} {σ : St} {a b x y : Addr} (ha : σ.cell a = .ref x)
    (hb : σ.cell b = .ref y) : Ops.assign E (f + 1) σ a b = Ops.assign E f σ x y := by
  rw [Ops.assign]
  rw [ha, hb]
  rfl

theorem index_rr {f : Nat} {σ : St} {a b x y t : Addr} (ha : σ.cell a = .ref x)
    (hb : σ.cell b = .ref y) : index (f + 1) σ a b t = index f σ x y t := by
  rw [index]
  rw [ha, hb]
  rfl

theorem index_ir {f : Nat} {σ : St} {a b y t : Addr} {w : Word32} (ha : σ.cell a = .int w)
    (hb : σ.cell b = .ref y) : index (f + 1) σ a b t = index f σ a y t := by
  rw [index]
  rw [ha, hb]
  rfl

/-! ### The rules are sound -/

/-- `after` does whatever `before` does from states satisfying `P`. -/
def Sound (E : Env) (before after : List Ins) (P : M → Prop) : Prop :=
  ∀ m o, OkM m → P m → RunsI E before m o → ∃ o', RunsI E after m o' ∧ SameO o o'

variable {E : Env}

theorem sound_retZero : Sound E [(.lit .zero, []), (.ret false, [])] [(.ret true, [])]
    fun _ => True := by
  intro m o hm _ h
  obtain ⟨w, hw, h⟩ := runs_lit.mp h
  obtain ⟨f, h⟩ := runs_one.mp h
  simp only [litVal, Option.some.injEq] at hw
  subst hw
  have e : exec E f (.ret false) [] (m.push (.int 0)) = .ok (.ret (m.push (.int 0))) := rfl
  rw [e] at h
  simp only [Res.ok.injEq] at h
  subst h
  exact ⟨_, runs_one.mpr ⟨0, rfl⟩, SameO.refl _⟩

end Wrench.Peep
