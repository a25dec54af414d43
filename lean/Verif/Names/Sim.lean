import Verif.Names.Lemmas

/-
The compiler follows the meanings: sub-expressions, expressions, statements, units, programs.
-/
namespace Wrench.Names

open Spec

variable {N : List Name} {c : Cfg}

theorem Res.bind_ok {α β : Type} {r : Res α} {f : α → Res β} {b : β} (h : r.bind f = .ok b) :
    ∃ a, r = .ok a ∧ f a = .ok b := by
  cases r with
  | ok a => exact ⟨a, rfl, h⟩
  | err => cases h
  | hidden => cases h

theorem Res.bind_err {α β : Type} {r : Res α} {f : α → Res β} (h : r.bind f = .err) :
    r = .err ∨ ∃ a, r = .ok a ∧ f a = .err := by
  cases r with
  | ok a => exact .inr ⟨a, rfl, h⟩
  | err => exact .inl rfl
  | hidden => cases h

/-- A context parsed against its meaning. -/
inductive CRel (e : Env) (S : List Word32) : Spec.Item → Ctx → Prop
  | label (l) : CRel e S (.label l) (.label l)
  | code (subs rs) : (∀ r ∈ rs, Valid e r) → CRel e S (.code subs rs) (.code ⟨S, rs.map (enc e)⟩)
  | other : CRel e S .other .other

/-- Contexts parsed against their meanings. -/
def CsRel (e : Env) (S : List Word32) (cs : List Spec.Item) (ks : List Ctx) : Prop :=
  ∀ i : Nat, (cs[i]? = none ∧ ks[i]? = none) ∨ ∃ x y, cs[i]? = some x ∧ ks[i]? = some y ∧ CRel e S x y

theorem CsRel.cons {e : Env} {S : List Word32} {cs : List Spec.Item} {ks : List Ctx} {x : Spec.Item} {y : Ctx}
    (h : CRel e S x y) (H : CsRel e S cs ks) : CsRel e S (x :: cs) (y :: ks) := by
  intro i
  cases i with
  | zero => exact .inr ⟨x, y, rfl, rfl, h⟩
  | succ i => simpa using H i

/-- The labels among contexts. -/
def LabsIn (N : List Name) (cs : List Spec.Item) : Prop := ∀ l, .label l ∈ cs → l.name ∈ N

theorem known_sim (hN : HashOk N) {nv allow : Bool} {e : Env} {G : List Word32} {b : BC}
    (R : Rel N c e G b.space) {l : Lab} (hl : l.name ∈ N) {ks : List Ctx} {i : Nat}
    (hi : ks[i]? = some (.label l)) :
    (∀ r, known c nv allow e l = .ok r → load c nv allow ks (G, b) i = some (G, ⟨b.space, b.loads ++ [enc e r]⟩) ∧
      Valid e r) ∧
    (known c nv allow e l = .err → load c nv allow ks (G, b) i = none) := by
  have := label_sim hN (nv := nv) (allow := allow) R hl hi
  unfold known
  revert this
  generalize hres : resolve c nv allow e l = res
  cases res with
  | ok p =>
    obtain ⟨e', r⟩ := p
    rintro ⟨G', b', h1, h2, h3, h4, h5, h6, h7⟩
    refine ⟨fun r' h => ?_, fun h => ?_⟩
    · simp only [Res.bind] at h
      by_cases he : e' = e
      · subst he
        rw [if_pos rfl] at h
        cases h
        have hG : G' = G := by rw [h3.glob, R.glob]
        have hS : b'.space = b.space := by
          cases ht : c.top
          · rw [h3.loc ht, R.loc ht]
          · exact h7 ht
        subst hG
        refine ⟨?_, h5⟩
        rw [h1, ← h2, ← hS]
      · rw [if_neg he] at h; cases h
    · simp only [Res.bind] at h
      split at h <;> cases h
  | err =>
    intro h1
    exact ⟨fun r h => (by cases h), fun _ => h1⟩
  | hidden =>
    intro _
    exact ⟨fun r h => by (cases h), fun h => by (cases h)⟩

theorem known_fold (hN : HashOk N) {nv allow : Bool} {e : Env} {G S : List Word32}
    {cs : List Spec.Item} {ks : List Ctx} (H : CsRel e S cs ks) (hL : LabsIn N cs) (order : List Nat)
    (rs0 : List Ref) (R : Rel N c e G S) (hv : ∀ r ∈ rs0, Valid e r) :
    (∀ rs, fold (knownItem c nv allow e cs) rs0 order = .ok rs →
      order.foldlM (load c nv allow ks) (G, ⟨S, rs0.map (enc e)⟩) = some (G, ⟨S, rs.map (enc e)⟩) ∧
      ∀ r ∈ rs, Valid e r) ∧
    (fold (knownItem c nv allow e cs) rs0 order = .err →
      order.foldlM (load c nv allow ks) (G, ⟨S, rs0.map (enc e)⟩) = none) := by
  induction order generalizing rs0 with
  | nil =>
    refine ⟨fun rs h => ?_, fun h => by cases h⟩
    cases h
    exact ⟨rfl, hv⟩
  | cons i is ih =>
    simp only [fold, List.foldlM_cons]
    rcases H i with ⟨h1, h2⟩ | ⟨x, y, h1, h2, h3⟩
    · have hk : knownItem c nv allow e cs rs0 i = .ok rs0 := by simp [knownItem, h1]
      have hl : load c nv allow ks (G, ⟨S, rs0.map (enc e)⟩) i = some (G, ⟨S, rs0.map (enc e)⟩) := by
        simp [load, h2]
      rw [hk, hl]
      exact ih rs0 hv
    · cases h3 with
      | label l =>
        have hl : l.name ∈ N := hL l (List.mem_of_getElem? h1)
        have K := known_sim hN (nv := nv) (allow := allow) (b := ⟨S, rs0.map (enc e)⟩) R hl h2
        have hk : knownItem c nv allow e cs rs0 i =
            (known c nv allow e l).bind fun r => .ok (rs0 ++ [r]) := by simp [knownItem, h1]
        rw [hk]
        generalize hkn : known c nv allow e l = kn at K ⊢
        cases kn with
        | ok r =>
          obtain ⟨K1, K2⟩ := K.1 r rfl
          rw [K1]
          have := ih (rs0 ++ [r]) (by
            intro r' hr'
            rcases List.mem_append.mp hr' with h | h
            · exact hv r' h
            · rw [List.mem_singleton.mp h]; exact K2)
          simpa [Res.bind] using this
        | err => rw [K.2 rfl]; simp [Res.bind]
        | hidden => simp [Res.bind]
      | code subs rs hrs =>
        have hk : knownItem c nv allow e cs rs0 i = .ok (rs0 ++ rs) := by simp [knownItem, h1]
        have hl : load c nv allow ks (G, ⟨S, rs0.map (enc e)⟩) i = some (G, ⟨S, (rs0 ++ rs).map (enc e)⟩) := by
          simp only [load, h2]
          rw [append_same]
          simp
        rw [hk, hl]
        exact ih (rs0 ++ rs) (by
          intro r hr
          rcases List.mem_append.mp hr with h | h
          · exact hv r h
          · exact hrs r h)
      | other =>
        have hk : knownItem c nv allow e cs rs0 i = .ok rs0 := by simp [knownItem, h1]
        have hl : load c nv allow ks (G, ⟨S, rs0.map (enc e)⟩) i = some (G, ⟨S, rs0.map (enc e)⟩) := by
          simp [load, h2]
        rw [hk, hl]
        exact ih rs0 hv

mutual
theorem knownE_sim (hN : HashOk N) {nv : Bool} {e : Env} {G S : List Word32} (R : Rel N c e G S) (x : Expr)
    (hx : ∀ y ∈ namesE x, y ∈ N) :
    (∀ rs, knownE c nv e x = .ok rs → compile c nv G S x = some (G, ⟨S, rs.map (enc e)⟩) ∧
      ∀ r ∈ rs, Valid e r) ∧
    (knownE c nv e x = .err → compile c nv G S x = none) := by
  cases x with
  | mk relax allow items order =>
    have I := knownI_sim hN (nv := nv && !relax) R items (by simpa [namesE] using hx)
    simp only [knownE, compile]
    generalize hki : knownI c (nv && !relax) e items = ki at I ⊢
    cases ki with
    | ok cs =>
      obtain ⟨ks, h1, h2, h3⟩ := I.1 cs rfl
      rw [h1]
      simpa [Res.bind] using known_fold hN (nv := nv && !relax) (allow := allow) h2 h3 order [] R
        (fun r hr => by simp at hr)
    | err => rw [I.2 rfl]; simp [Res.bind]
    | hidden => simp [Res.bind]

theorem knownI_sim (hN : HashOk N) {nv : Bool} {e : Env} {G S : List Word32} (R : Rel N c e G S) (x : Items)
    (hx : ∀ y ∈ namesI x, y ∈ N) :
    (∀ cs, knownI c nv e x = .ok cs → ∃ ks, compileItems c nv G S x = some (G, ks) ∧
      CsRel e S cs ks ∧ LabsIn N cs) ∧
    (knownI c nv e x = .err → compileItems c nv G S x = none) := by
  cases x with
  | nil =>
    refine ⟨fun cs h => ?_, fun h => by simp [knownI] at h⟩
    simp only [knownI, Res.ok.injEq] at h
    subst h
    exact ⟨[], by simp [compileItems], fun i => .inl ⟨rfl, rfl⟩, fun l hl => by simp at hl⟩
  | label l rest =>
    have I := knownI_sim hN (nv := nv) R rest (fun y hy => hx y (by simp [namesI, hy]))
    simp only [knownI, compileItems]
    generalize hki : knownI c nv e rest = ki at I ⊢
    cases ki with
    | ok cs =>
      obtain ⟨ks, h1, h2, h3⟩ := I.1 cs rfl
      rw [h1]
      refine ⟨fun cs' h => ?_, fun h => by simp [Res.bind] at h⟩
      simp only [Res.bind, Res.ok.injEq] at h
      subst h
      refine ⟨.label l :: ks, rfl, h2.cons (.label l), fun l' hl' => ?_⟩
      rcases List.mem_cons.mp hl' with h | h
      · cases h; exact hx _ (by simp [namesI])
      · exact h3 l' h
    | err => rw [I.2 rfl]; simp [Res.bind]
    | hidden => simp [Res.bind]
  | other rest =>
    have I := knownI_sim hN (nv := nv) R rest (fun y hy => hx y (by simp [namesI, hy]))
    simp only [knownI, compileItems]
    generalize hki : knownI c nv e rest = ki at I ⊢
    cases ki with
    | ok cs =>
      obtain ⟨ks, h1, h2, h3⟩ := I.1 cs rfl
      rw [h1]
      refine ⟨fun cs' h => ?_, fun h => by simp [Res.bind] at h⟩
      simp only [Res.bind, Res.ok.injEq] at h
      subst h
      refine ⟨.other :: ks, rfl, h2.cons .other, fun l' hl' => ?_⟩
      rcases List.mem_cons.mp hl' with h | h
      · cases h
      · exact h3 l' h
    | err => rw [I.2 rfl]; simp [Res.bind]
    | hidden => simp [Res.bind]
  | code subs rest =>
    have J := knownS_sim hN (nv := nv) R subs (fun y hy => hx y (by simp [namesI, hy])) [] (by simp)
    have I := knownI_sim hN (nv := nv) R rest (fun y hy => hx y (by simp [namesI, hy]))
    simp only [knownI, compileItems]
    generalize hks : knownS c nv e subs = kk at J ⊢
    cases kk with
    | ok rs =>
      obtain ⟨j1, j2⟩ := J.1 rs rfl
      simp only [List.map_nil, List.nil_append] at j1
      rw [j1]
      generalize hki : knownI c nv e rest = ki at I ⊢
      cases ki with
      | ok cs =>
        obtain ⟨ks, h1, h2, h3⟩ := I.1 cs rfl
        refine ⟨fun cs' h => ?_, fun h => by simp [Res.bind] at h⟩
        simp only [Res.bind, Res.ok.injEq] at h
        subst h
        refine ⟨.code ⟨S, rs.map (enc e)⟩ :: ks, by simp [h1], h2.cons (.code subs rs j2), fun l' hl' => ?_⟩
        rcases List.mem_cons.mp hl' with h | h
        · cases h
        · exact h3 l' h
      | err =>
        refine ⟨fun cs' h => by simp [Res.bind] at h, fun h => by simp [I.2 rfl]⟩
      | hidden => simp [Res.bind]
    | err =>
      have := J.2 rfl
      simp only [List.map_nil] at this
      rw [this]; simp [Res.bind]
    | hidden => simp [Res.bind]

theorem knownS_sim (hN : HashOk N) {nv : Bool} {e : Env} {G S : List Word32} (R : Rel N c e G S) (x : Subs)
    (hx : ∀ y ∈ namesS x, y ∈ N) (rs0 : List Ref) (hv : ∀ r ∈ rs0, Valid e r) :
    (∀ rs, knownS c nv e x = .ok rs →
      compileSubs c nv G S ⟨S, rs0.map (enc e)⟩ x = some (G, ⟨S, (rs0 ++ rs).map (enc e)⟩) ∧
      ∀ r ∈ rs, Valid e r) ∧
    (knownS c nv e x = .err → compileSubs c nv G S ⟨S, rs0.map (enc e)⟩ x = none) := by
  cases x with
  | nil =>
    refine ⟨fun cs h => ?_, fun h => by simp [knownS] at h⟩
    simp only [knownS, Res.ok.injEq] at h
    subst h
    simp [compileSubs]
  | cons x rest =>
    have E := knownE_sim hN (nv := nv) R x (fun y hy => hx y (by simp [namesS, hy]))
    simp only [knownS, compileSubs]
    generalize hke : knownE c nv e x = ke at E ⊢
    cases ke with
    | ok rs =>
      obtain ⟨e1, e2⟩ := E.1 rs rfl
      rw [e1]
      have J := knownS_sim hN (nv := nv) R rest (fun y hy => hx y (by simp [namesS, hy])) (rs0 ++ rs) (by
        intro r hr
        rcases List.mem_append.mp hr with h | h
        · exact hv r h
        · exact e2 r h)
      have ha : append ⟨S, rs0.map (enc e)⟩ ⟨S, rs.map (enc e)⟩ = ⟨S, (rs0 ++ rs).map (enc e)⟩ := by
        rw [append_same]; simp
      simp only [Option.bind_eq_bind, Option.bind_some, ha]
      generalize hks : knownS c nv e rest = kk at J ⊢
      cases kk with
      | ok rs' =>
        obtain ⟨j1, j2⟩ := J.1 rs' rfl
        refine ⟨fun rs'' h => ?_, fun h => by simp [Res.bind] at h⟩
        simp only [Res.bind, Res.ok.injEq] at h
        subst h
        refine ⟨by rw [j1]; simp, fun r hr => ?_⟩
        rcases List.mem_append.mp hr with h | h
        · exact e2 r h
        · exact j2 r h
      | err => refine ⟨fun cs' h => by simp [Res.bind] at h, fun h => J.2 rfl⟩
      | hidden => simp [Res.bind]
    | err => rw [E.2 rfl]; simp [Res.bind]
    | hidden => simp [Res.bind]
end

/-! ### The expression of a statement -/

theorem again_ok {nv : Bool} {e : Env} {subs : Subs} {refs rs : List Ref}
    (h : again c nv e subs refs = .ok rs) : rs = refs := by
  unfold again at h
  split at h
  · split at h
    · cases h; rfl
    · cases h
  · cases h

theorem again_err {nv : Bool} {e : Env} {subs : Subs} {refs : List Ref} :
    again c nv e subs refs ≠ .err := by
  unfold again
  split
  · split <;> simp
  · simp

theorem item_fold (hN : HashOk N) {nv allow : Bool} {e0 : Env} {S0 : List Word32}
    {cs : List Spec.Item} {ks : List Ctx} (H : CsRel e0 S0 cs ks) (hL : LabsIn N cs) (order : List Nat)
    (e : Env) (G : List Word32) (b : BC) (rs0 : List Ref)
    (R : Rel N c e G b.space) (hE : Ext e0 e) (hb : b.loads = rs0.map (enc e)) (hv : ∀ r ∈ rs0, Valid e r)
    (hS : ∀ h ∈ S0, h ∈ b.space) :
    (∀ e' rs, fold (item c nv allow cs) (e, rs0) order = .ok (e', rs) →
      ∃ G' b', order.foldlM (load c nv allow ks) (G, b) = some (G', b') ∧ b'.loads = rs.map (enc e') ∧
        Rel N c e' G' b'.space ∧ Ext e e' ∧ (∀ r ∈ rs, Valid e' r) ∧ (c.top = true → b'.space = b.space)) ∧
    (fold (item c nv allow cs) (e, rs0) order = .err → order.foldlM (load c nv allow ks) (G, b) = none) := by
  induction order generalizing e G b rs0 with
  | nil =>
    refine ⟨fun e' rs h => ?_, fun h => by cases h⟩
    simp only [fold, Res.ok.injEq, Prod.mk.injEq] at h
    obtain ⟨rfl, rfl⟩ := h
    exact ⟨G, b, rfl, hb, R, Ext.refl _, hv, fun _ => rfl⟩
  | cons i is ih =>
    simp only [fold, List.foldlM_cons]
    rcases H i with ⟨h1, h2⟩ | ⟨x, y, h1, h2, h3⟩
    · have hk : item c nv allow cs (e, rs0) i = .ok (e, rs0) := by simp [item, h1]
      have hl : load c nv allow ks (G, b) i = some (G, b) := by simp [load, h2]
      rw [hk, hl]
      exact ih e G b rs0 R hE hb hv hS
    · cases h3 with
      | label l =>
        have hl : l.name ∈ N := hL l (List.mem_of_getElem? h1)
        have K := label_sim hN (nv := nv) (allow := allow) R hl h2
        have hk : item c nv allow cs (e, rs0) i =
            (resolve c nv allow e l).bind fun (e, r) => .ok (e, rs0 ++ [r]) := by simp [item, h1]
        rw [hk]
        generalize hkn : resolve c nv allow e l = kn at K ⊢
        cases kn with
        | ok p =>
          obtain ⟨e', r⟩ := p
          obtain ⟨G', b', k1, k2, k3, k4, k5, k6, k7⟩ := K
          rw [k1]
          have := ih e' G' b' (rs0 ++ [r]) k3 (hE.trans k4)
            (by rw [k2, hb, List.map_append, map_enc_ext k4 hv]; rfl)
            (by
              intro r' hr'
              rcases List.mem_append.mp hr' with h | h
              · exact (hv r' h).ext k4
              · rw [List.mem_singleton.mp h]; exact k5)
            (fun h hh => k6 h (hS h hh))
          refine ⟨fun e'' rs h => ?_, fun h => this.2 (by simpa [Res.bind] using h)⟩
          obtain ⟨G2, b2, a1, a2, a3, a4, a5, a6⟩ := this.1 e'' rs (by simpa [Res.bind] using h)
          exact ⟨G2, b2, a1, a2, a3, k4.trans a4, a5, fun ht => (a6 ht).trans (k7 ht)⟩
        | err => simp only at K; rw [K]; simp [Res.bind]
        | hidden => simp [Res.bind]
      | code subs rs hrs =>
        have hk : item c nv allow cs (e, rs0) i =
            (again c nv e subs rs).bind fun rs => .ok (e, rs0 ++ rs) := by simp [item, h1]
        rw [hk]
        generalize hag : again c nv e subs rs = ag
        cases ag with
        | ok rs' =>
          have := again_ok hag
          subst this
          have hl : load c nv allow ks (G, b) i = some (G, ⟨b.space, b.loads ++ rs'.map (enc e0)⟩) := by
            simp only [load, h2]
            rw [append_eq _ _ hS]
          rw [hl]
          have hm : b.loads ++ rs'.map (enc e0) = (rs0 ++ rs').map (enc e) := by
            rw [List.map_append, hb, map_enc_ext hE hrs]
          exact ih e G ⟨b.space, _⟩ (rs0 ++ rs') R hE hm (by
            intro r hr
            rcases List.mem_append.mp hr with h | h
            · exact hv r h
            · exact (hrs r h).ext hE) hS
        | err => exact absurd hag again_err
        | hidden => simp [Res.bind]
      | other =>
        have hk : item c nv allow cs (e, rs0) i = .ok (e, rs0) := by simp [item, h1]
        have hl : load c nv allow ks (G, b) i = some (G, b) := by simp [load, h2]
        rw [hk, hl]
        exact ih e G b rs0 R hE hb hv hS

theorem expr_sim (hN : HashOk N) {nv : Bool} {e : Env} {G S : List Word32} (R : Rel N c e G S) (x : Expr)
    (hx : ∀ y ∈ namesE x, y ∈ N) :
    (∀ e' rs, Spec.expr c nv e x = .ok (e', rs) →
      ∃ G' b, compile c nv G S x = some (G', b) ∧ b.loads = rs.map (enc e') ∧
        Rel N c e' G' b.space ∧ Ext e e' ∧ (∀ r ∈ rs, Valid e' r) ∧ (c.top = true → b.space = S)) ∧
    (Spec.expr c nv e x = .err → compile c nv G S x = none) := by
  cases x with
  | mk relax allow items order =>
    have I := knownI_sim hN (nv := nv && !relax) R items (by simpa [namesE] using hx)
    simp only [Spec.expr, compile]
    generalize hki : knownI c (nv && !relax) e items = ki at I ⊢
    cases ki with
    | ok cs =>
      obtain ⟨ks, h1, h2, h3⟩ := I.1 cs rfl
      rw [h1]
      simpa [Res.bind] using item_fold hN (nv := nv && !relax) (allow := allow) h2 h3 order e G ⟨S, []⟩ [] R
        (Ext.refl e) rfl (by simp) (fun h hh => hh)
    | err => rw [I.2 rfl]; simp [Res.bind]
    | hidden => simp [Res.bind]

/-! ### Statements -/

/-- The state of the compiler holds the declared names and the code of the meanings so far. -/
structure SRel (N : List Name) (c : Cfg) (e : Env) (rs : List Ref) (s : St) : Prop where
  rel : Rel N c e s.G s.U.space
  loads : s.U.loads = rs.map (enc e)
  valid : ∀ r ∈ rs, Valid e r

theorem SRel.space {e : Env} {rs : List Ref} {s : St} (h : SRel N c e rs s) : Rel N c e s.G (s.space c) := by
  refine ⟨h.rel.glob, fun ht => ?_, h.rel.inl, h.rel.ing, h.rel.nd, h.rel.main⟩
  simp [St.space, ht, h.rel.loc ht]

theorem Rel.ext_mem {e e' : Env} {G G' S S' : List Word32} (h : Rel N c e G S) (h' : Rel N c e' G' S')
    (hE : Ext e e') (ht : c.top = false) : ∀ x ∈ S, x ∈ S' := by
  rw [h.loc ht, h'.loc ht]
  exact (hE.1.map hashStr).subset

/-- Appending code made from a local space whose names are all in the unit. -/
theorem append_sim {e : Env} {rs rs' : List Ref} {s : St} (h : SRel N c e rs s) {b : BC}
    (hb : b.loads = rs'.map (enc e)) (hv : ∀ r ∈ rs', Valid e r)
    (hin : ∀ x ∈ b.space, x ∈ s.space c) : SRel N c e (rs ++ rs') (s.append c b) := by
  have ha : append ⟨s.space c, s.U.loads⟩ b = ⟨s.space c, s.U.loads ++ b.loads⟩ := append_eq _ _ hin
  have hl : s.U.loads ++ b.loads = (rs ++ rs').map (enc e) := by rw [h.loads, hb, List.map_append]
  have hvv : ∀ r ∈ rs ++ rs', Valid e r := by
    intro r hr
    rcases List.mem_append.mp hr with h' | h'
    · exact h.valid r h'
    · exact hv r h'
  unfold St.append
  simp only [ha]
  cases ht : c.top
  · refine ⟨⟨h.rel.glob, fun _ => ?_, h.rel.inl, h.rel.ing, h.rel.nd, h.rel.main⟩, ?_, hvv⟩
    · simp [St.space, ht, h.rel.loc ht]
    · simpa using hl
  · refine ⟨⟨?_, fun h' => (by simp [ht] at h'), h.rel.inl, h.rel.ing, h.rel.nd, h.rel.main⟩, ?_, hvv⟩
    · simp [St.space, ht, h.rel.glob]
    · simpa using hl

/-- Appending the code of an expression that may have declared locals. -/
theorem append_expr (hN : HashOk N) {e e' : Env} {rs rs' : List Ref} {s : St} (h : SRel N c e rs s) {G' : List Word32} {b : BC}
    (hb : b.loads = rs'.map (enc e')) (hv : ∀ r ∈ rs', Valid e' r) (hR : Rel N c e' G' b.space)
    (hE : Ext e e') (ht : c.top = true → b.space = s.space c) :
    SRel N c e' (rs ++ rs') (({ s with G := G' } : St).append c b) := by
  cases htop : c.top
  · -- the merged space is the space of the expression
    have hsp : ({ s with G := G' } : St).space c = s.U.space := by simp [St.space, htop]
    have hS := h.rel.loc htop
    have hS' := hR.loc htop
    have hn : (s.U.loads ++ b.loads) = (rs ++ rs').map (enc e') := by
      rw [h.loads, hb, List.map_append, map_enc_ext hE h.valid]
    have hmerge : b.space.foldl (fun s h => if h ∈ s then s else s ++ [h]) s.U.space = b.space := by
      obtain ⟨t, ht'⟩ := hE.1
      have hnd : b.space.Nodup := by
        rw [hS']
        exact List.Nodup.map_on (fun x hx y hy hh => hN.loc x (hR.inl x hx) y (hR.inl y hy) hh) hR.nd
      rw [hS', ← ht', List.map_append] at hnd ⊢
      rw [List.foldl_append, ← hS, merge_sub _ _ (fun x hx => hx), merge_new _ _ (by rw [hS]; exact hnd)]
    unfold St.append
    simp only [hsp, htop, append, hmerge]
    refine ⟨⟨hR.glob, fun _ => hS', hR.inl, hR.ing, hR.nd, hR.main⟩, hn, ?_⟩
    intro r hr
    rcases List.mem_append.mp hr with h' | h'
    · exact (h.valid r h').ext hE
    · exact hv r h'
  · refine append_sim (e := e') (rs := rs) ⟨⟨hR.glob, fun h' => (by simp [htop] at h'), hR.inl, hR.ing, hR.nd, hR.main⟩, ?_, ?_⟩
      hb hv ?_
    · rw [h.loads, map_enc_ext hE h.valid]
    · exact fun r hr => (h.valid r hr).ext hE
    · rw [ht htop]
      simp only [St.space, htop, if_true]
      rw [hR.glob, h.rel.glob]
      exact (hE.2.map gh).subset

theorem stmts_sim (hN : HashOk N) {nv : Bool} (x : Stmts) (hx : ∀ y ∈ namesB x, y ∈ N) :
    ∀ (e : Env) (rs : List Ref) (s : St), SRel N c e rs s →
    (∀ e' rs', Spec.stmts c nv e rs x = .ok (e', rs') →
      ∃ s', stmts c nv s x = some s' ∧ SRel N c e' rs' s' ∧ Ext e e') ∧
    (Spec.stmts c nv e rs x = .err → stmts c nv s x = none) := by
  induction x with
  | nil =>
    intro e rs s h
    refine ⟨fun e' rs' hk => ?_, fun hk => by cases hk⟩
    simp only [Spec.stmts, Res.ok.injEq, Prod.mk.injEq] at hk
    obtain ⟨rfl, rfl⟩ := hk
    exact ⟨s, rfl, h, Ext.refl _⟩
  | expr x rest ih =>
    intro e rs s h
    have ih := ih (fun y hy => hx y (by simp [namesB, hy]))
    have E := expr_sim hN (nv := nv) h.space x (fun y hy => hx y (by simp [namesB, hy]))
    simp only [Spec.stmts, stmts]
    generalize hke : Spec.expr c nv e x = ke at E ⊢
    cases ke with
    | ok p =>
      obtain ⟨e1, rs1⟩ := p
      obtain ⟨G', b, h1, h2, h3, h4, h5, h6⟩ := E.1 e1 rs1 rfl
      rw [h1]
      have := ih e1 (rs ++ rs1) _ (append_expr hN h h2 h5 h3 h4 h6)
      simp only [Res.bind, Option.bind_eq_bind, Option.bind_some]
      refine ⟨fun e' rs' hk => ?_, this.2⟩
      obtain ⟨s', a1, a2, a3⟩ := this.1 e' rs' hk
      exact ⟨s', a1, a2, h4.trans a3⟩
    | err => rw [E.2 rfl]; simp [Res.bind]
    | hidden => simp [Res.bind]
  | temp x rest ih =>
    intro e rs s h
    have ih := ih (fun y hy => hx y (by simp [namesB, hy]))
    have hxN : x ∈ N := hx x (by simp [namesB])
    have hnc := (hN.shape x hxN).1
    have hh : wrHash (if x.take 2 = colons then x else colons ++ x) = gh x := by
      have := t2_glob hN (l := ⟨x, false, false⟩) hxN
      simpa [Lab.tok] using this
    have hf := ascii_find_glob hN h.rel hxN
    have hadd : addGlobal c nv s.G ⟨[], []⟩ x true true false =
        some (put s.G (e.globals.idxOf x) (gh x), ⟨[], []⟩, e.globals.idxOf x) := by
      unfold addGlobal
      simp only [hh, hf]
      simp
    simp only [Spec.stmts, stmts, hadd, Option.bind_eq_bind, Option.bind_some]
    by_cases hm : x ∈ e.globals
    · rw [if_pos hm]
      have hp : put s.G (e.globals.idxOf x) (gh x) = s.G := by rw [h.rel.glob]; exact put_mem hm
      rw [hp]
      refine ih e _ _ ⟨h.rel, ?_, ?_⟩
      · simp [BC.push, h.loads, enc, Ref.load]
      · intro r hr
        rcases List.mem_append.mp hr with h' | h'
        · exact h.valid r h'
        · rw [List.mem_singleton.mp h']; exact hm
    · rw [if_neg hm]
      have hp : put s.G (e.globals.idxOf x) (gh x) = (e.globals ++ [x]).map gh := by
        rw [h.rel.glob]; exact put_new hm
      rw [hp]
      have hE : Ext e { e with globals := e.globals ++ [x] } := ⟨List.prefix_rfl, List.prefix_append ..⟩
      have := ih { e with globals := e.globals ++ [x] } (rs ++ [.glob x])
        ⟨(e.globals ++ [x]).map gh, s.U.push (.glob (byte (e.globals.idxOf x)))⟩ ⟨⟨rfl, h.rel.loc, h.rel.inl, ?_, h.rel.nd, h.rel.main⟩, ?_, ?_⟩
      · refine ⟨fun e' rs' hk => ?_, this.2⟩
        obtain ⟨s', a1, a2, a3⟩ := this.1 e' rs' hk
        exact ⟨s', a1, a2, hE.trans a3⟩
      · intro y hy
        rcases List.mem_append.mp hy with hy | hy
        · exact h.rel.ing y hy
        · rw [List.mem_singleton.mp hy]; exact hxN
      · show (s.U.push (.glob (byte (e.globals.idxOf x)))).loads = _
        rw [List.map_append, map_enc_ext hE h.valid]
        simp only [BC.push, h.loads, List.map_cons, List.map_nil, enc, Ref.load, List.idxOf_append_of_notMem hm,
          List.idxOf_eq_length_iff.mpr hm]
        simp
      · intro r hr
        rcases List.mem_append.mp hr with h' | h'
        · exact (h.valid r h').ext hE
        · rw [List.mem_singleton.mp h']; simp [Valid]
  | loop post body rest ih1 ih2 =>
    intro e rs s h
    have ih1 := ih1 (fun y hy => hx y (by simp [namesB, hy]))
    have ih2 := ih2 (fun y hy => hx y (by simp [namesB, hy]))
    have P := knownS_sim hN (nv := nv) h.space post (fun y hy => hx y (by simp [namesB, hy])) [] (by simp)
    simp only [List.map_nil, List.nil_append] at P
    simp only [Spec.stmts, stmts]
    generalize hkp : knownS c nv e post = kp at P ⊢
    cases kp with
    | ok refs =>
      obtain ⟨p1, p2⟩ := P.1 refs rfl
      rw [p1]
      simp only [Res.bind, Option.bind_eq_bind, Option.bind_some]
      have B := ih1 e rs s h
      generalize hkb : Spec.stmts c nv e rs body = kb at B ⊢
      cases kb with
      | ok q =>
        obtain ⟨e1, rs1⟩ := q
        obtain ⟨s1, b1, b2, b3⟩ := B.1 e1 rs1 rfl
        rw [b1]
        simp only [Option.bind_some]
        generalize hag : again c nv e1 post refs = ag
        cases ag with
        | ok refs' =>
          have := again_ok hag
          subst this
          have hin : ∀ x ∈ s.space c, x ∈ s1.space c := by
            cases ht : c.top
            · have := Rel.ext_mem h.space b2.space b3 ht
              exact this
            · simp only [St.space, ht, if_true]
              rw [h.rel.glob, b2.rel.glob]
              exact (b3.2.map gh).subset
          have hs : SRel N c e1 (rs1 ++ refs') (s1.append c ⟨s.space c, refs'.map (enc e)⟩) :=
            append_sim b2 (map_enc_ext b3 p2).symm (fun r hr => (p2 r hr).ext b3) hin
          have := ih2 e1 (rs1 ++ refs') _ hs
          refine ⟨fun e' rs' hk => ?_, this.2⟩
          obtain ⟨s', a1, a2, a3⟩ := this.1 e' rs' hk
          exact ⟨s', a1, a2, b3.trans a3⟩
        | err => exact absurd hag again_err
        | hidden => simp
      | err => rw [B.2 rfl]; simp
      | hidden => simp
    | err => rw [P.2 rfl]; simp [Res.bind]
    | hidden => simp [Res.bind]

/-! ### Units and programs -/

theorem args_sim (hN : HashOk N) {nv : Bool} (ht : c.top = false) (xs : List Name) (hx : ∀ y ∈ xs, y ∈ N) :
    ∀ (e : Env) (s : St), SRel N c e [] s → ∃ s', addArgs c nv s xs = some s' ∧
      SRel N c ⟨distinct e.locals xs, e.globals⟩ [] s' := by
  induction xs with
  | nil => intro e s h; exact ⟨s, rfl, h⟩
  | cons x xs ih =>
    intro e s h
    have hxN := hx x (by simp)
    have hS := h.rel.loc ht
    have hf : find (hashStr x) s.U.space = e.locals.idxOf x := by
      rw [hS]; exact find_map fun y hy hh => hN.loc y (h.rel.inl y hy) _ hxN hh
    have hadd : addLocal c nv s.G s.U x true true false =
        some (s.G, ⟨put s.U.space (e.locals.idxOf x) (hashStr x), s.U.loads⟩, e.locals.idxOf x) := by
      unfold addLocal
      simp only [ht, hf]
      simp
    simp only [addArgs, hadd, Option.bind_eq_bind, Option.bind_some, distinct]
    have hloads : s.U.loads = [] := by simpa using h.loads
    refine ih (fun y hy => hx y (by simp [hy])) ⟨if x ∈ e.locals then e.locals else e.locals ++ [x], e.globals⟩ _
      ⟨⟨h.rel.glob, fun _ => ?_, ?_, h.rel.ing, ?_, fun h => (by simp [ht] at h)⟩, by simpa using hloads, by simp⟩
    · by_cases hm : x ∈ e.locals
      · simp only [if_pos hm]; rw [hS]; exact put_mem hm
      · simp only [if_neg hm]; rw [hS]; exact put_new hm
    · intro y hy
      by_cases hm : x ∈ e.locals
      · simp only [if_pos hm] at hy; exact h.rel.inl y hy
      · simp only [if_neg hm] at hy
        rcases List.mem_append.mp hy with hy | hy
        · exact h.rel.inl y hy
        · rw [List.mem_singleton.mp hy]; exact hxN
    · by_cases hm : x ∈ e.locals
      · simp only [if_pos hm]; exact h.rel.nd
      · simp only [if_neg hm]
        rw [List.nodup_append]
        exact ⟨h.rel.nd, by simp, fun a ha b hb => by
          rw [List.mem_singleton.mp hb]; rintro rfl; exact hm ha⟩

/-- A compiled unit against its meaning; `gs` are the global variables of the program. -/
structure ORel (gs : List Name) (o : OutS) (k : Out) : Prop where
  space : k.code.space = o.locals.map hashStr
  loads : k.code.loads = o.refs.map (Ref.load o.locals gs)
  valid : ∀ r ∈ o.refs, Valid ⟨o.locals, gs⟩ r
  nd : o.locals.Nodup

theorem ORel.ext {gs gs' : List Name} {o : OutS} {k : Out} (h : ORel gs o k) (hp : gs <+: gs') :
    ORel gs' o k :=
  have hE : Ext ⟨o.locals, gs⟩ ⟨o.locals, gs'⟩ := ⟨List.prefix_rfl, hp⟩
  ⟨h.space, h.loads.trans (map_enc_ext hE h.valid).symm, fun r hr => (h.valid r hr).ext hE, h.nd⟩

theorem unit_sim (hN : HashOk N) {enum : Name → Bool} {nv : Bool} (u : UnitDef) (ha : ∀ y ∈ u.args, y ∈ N)
    (hb : ∀ y ∈ namesB u.body, y ∈ N) (gs : List Name) (hg : ∀ y ∈ gs, y ∈ N) :
    (∀ gs' o, Spec.unit enum nv gs u = .ok (gs', o) →
      ∃ k, unit enum nv (gs.map gh) u = some (gs'.map gh, k) ∧ ORel gs' o k ∧ gs <+: gs' ∧
        (∀ y ∈ gs', y ∈ N) ∧ k.arguments = u.args.length ∧ distinct [] u.args <+: o.locals) ∧
    (Spec.unit enum nv gs u = .err → unit enum nv (gs.map gh) u = none) := by
  obtain ⟨s, h1, h2⟩ := args_sim (c := ⟨false, u.isStruct, enum⟩) hN (nv := nv) rfl u.args ha ⟨[], gs⟩
    ⟨gs.map gh, ⟨[], []⟩⟩ ⟨⟨rfl, fun _ => rfl, by simp, hg, by simp, fun _ => rfl⟩, rfl, by simp⟩
  have B := stmts_sim hN (nv := nv) u.body hb _ _ _ h2
  simp only [Spec.unit, unit, h1, Option.bind_eq_bind, Option.bind_some]
  generalize hk : Spec.stmts ⟨false, u.isStruct, enum⟩ nv ⟨distinct [] u.args, gs⟩ [] u.body = r at B ⊢
  cases r with
  | ok p =>
    obtain ⟨e', rs'⟩ := p
    obtain ⟨s', b1, b2, b3⟩ := B.1 e' rs' rfl
    rw [b1]
    refine ⟨fun gs' o h => ?_, fun h => by simp [Res.bind] at h⟩
    simp only [Res.bind, Res.ok.injEq, Prod.mk.injEq] at h
    obtain ⟨rfl, rfl⟩ := h
    refine ⟨⟨u.args.length, s'.U⟩, ?_, ⟨b2.rel.loc rfl, b2.loads, b2.valid, b2.rel.nd⟩, b3.2, b2.rel.ing, rfl, b3.1⟩
    simp [b2.rel.glob]
  | err => rw [B.2 rfl]; simp [Res.bind]
  | hidden => simp [Res.bind]

/-- A compiled program against its meaning. -/
structure PRel (N : List Name) (m : Meaning) (p : Compiled) : Prop where
  globals : p.globals = m.globals.map gh
  main : p.main = m.main.map (Ref.load [] m.globals)
  valid : ∀ r ∈ m.main, Valid ⟨[], m.globals⟩ r
  inN : ∀ y ∈ m.globals, y ∈ N
  units : List.Forall₂ (ORel m.globals) m.units p.units

theorem tops_sim (hN : HashOk N) {enum : Name → Bool} {nv : Bool} (src : List Top)
    (hx : ∀ y ∈ namesT src, y ∈ N) : ∀ (m : Meaning) (p : Compiled), PRel N m p →
    (∀ m', Spec.tops enum nv m src = .ok m' → ∃ p', tops enum nv p src = some p' ∧ PRel N m' p' ∧
      m.globals <+: m'.globals) ∧
    (Spec.tops enum nv m src = .err → tops enum nv p src = none) := by
  induction src with
  | nil =>
    intro m p h
    refine ⟨fun m' hk => ?_, fun hk => by cases hk⟩
    simp only [Spec.tops, Res.ok.injEq] at hk
    subst hk
    exact ⟨p, rfl, h, List.prefix_rfl⟩
  | cons t src ih =>
    intro m p h
    cases t with
    | code x =>
      have ih := ih (fun y hy => hx y (by simp [namesT, hy]))
      have B := stmts_sim (c := ⟨true, false, enum⟩) hN (nv := nv) x (fun y hy => hx y (by simp [namesT, hy]))
        ⟨[], m.globals⟩ m.main ⟨p.globals, ⟨[], p.main⟩⟩
        ⟨⟨h.globals, fun h' => (by cases h'), by simp, h.inN, by simp, fun _ => rfl⟩, h.main, h.valid⟩
      simp only [Spec.tops, tops]
      generalize hk : Spec.stmts ⟨true, false, enum⟩ nv ⟨[], m.globals⟩ m.main x = r at B ⊢
      cases r with
      | ok q =>
        obtain ⟨e', rs'⟩ := q
        obtain ⟨s', b1, b2, b3⟩ := B.1 e' rs' rfl
        rw [b1]
        simp only [Res.bind, Option.bind_eq_bind, Option.bind_some]
        have hl : e'.locals = [] := b2.rel.main rfl
        have he : e' = ⟨[], e'.globals⟩ := by cases e'; simp only at hl; subst hl; rfl
        have := ih { m with globals := e'.globals, main := rs' } { p with globals := s'.G, main := s'.U.loads }
          ⟨b2.rel.glob, by rw [b2.loads, he]; rfl, by rw [← he]; exact b2.valid, b2.rel.ing,
            h.units.imp fun _ _ ho => ho.ext b3.2⟩
        refine ⟨fun m' hk => ?_, this.2⟩
        obtain ⟨p', a1, a2, a3⟩ := this.1 m' hk
        exact ⟨p', a1, a2, b3.2.trans a3⟩
      | err => rw [B.2 rfl]; simp [Res.bind]
      | hidden => simp [Res.bind]
    | unit u =>
      have ih := ih (fun y hy => hx y (by simp [namesT, hy]))
      have B := unit_sim hN (enum := enum) (nv := nv) u (fun y hy => hx y (by simp [namesT, hy]))
        (fun y hy => hx y (by simp [namesT, hy])) m.globals h.inN
      simp only [Spec.tops, tops, h.globals]
      generalize hk : Spec.unit enum nv m.globals u = r at B ⊢
      cases r with
      | ok q =>
        obtain ⟨gs', o⟩ := q
        obtain ⟨k, b1, b2, b3, b4, b5, b6⟩ := B.1 gs' o rfl
        rw [b1]
        simp only [Res.bind, Option.bind_eq_bind, Option.bind_some]
        have hE : Ext ⟨[], m.globals⟩ ⟨[], gs'⟩ := ⟨List.prefix_rfl, b3⟩
        have := ih { m with globals := gs', units := m.units ++ [o] }
          { p with globals := gs'.map gh, units := p.units ++ [k] }
          ⟨rfl, h.main.trans (map_enc_ext hE h.valid).symm, fun r hr => (h.valid r hr).ext hE, b4, ?_⟩
        · refine ⟨fun m' hk => ?_, this.2⟩
          obtain ⟨p', a1, a2, a3⟩ := this.1 m' hk
          exact ⟨p', a1, a2, b3.trans a3⟩
        · exact List.rel_append (h.units.imp fun _ _ ho => ho.ext b3) (.cons b2 .nil)
      | err => rw [B.2 rfl]; simp [Res.bind]
      | hidden => simp [Res.bind]

end Wrench.Names
