import Verif.HashTable.Lemmas
import Verif.HashTable.Spec

namespace Wrench.HashTable

variable {V K : Type}

/-- Empty slots hold the default value. -/
def Clean (dv : V) (t : HT V K) : Prop := ∀ j, j < t.mod → t.slots j = nullHash → t.vals j = dv

/-- Effect of making sure `h` is present: `t'` is `t` with `h` at slot `i`. -/
structure Ext (dv : V) (t t' : HT V K) (h : Word32) (i : Nat) : Prop where
  inv : Inv t'.mod t'.slots
  lt : i < t'.mod
  at_ : t'.slots i = h
  back : ∀ j, j < t'.mod → t'.slots j ≠ nullHash → t'.slots j ≠ h →
    ∃ j0, j0 < t.mod ∧ t.slots j0 = t'.slots j ∧ t.vals j0 = t'.vals j ∧ t.keys j0 = t'.keys j
  fwd : ∀ j0, j0 < t.mod → t.slots j0 ≠ nullHash →
    ∃ j, j < t'.mod ∧ t'.slots j = t.slots j0 ∧ t'.vals j = t.vals j0 ∧ t'.keys j = t.keys j0
  clean : Clean dv t → Clean dv t'
  fresh : ¬ Present t.mod t.slots h → Clean dv t → t'.vals i = dv
  kind : t' = t ∨
    (¬ Present t.mod t.slots h ∧ t'.mod = t.mod ∧ t'.slots = upd t.slots i h ∧ t.slots i = nullHash ∧
      t'.size = t.size + 1 ∧ t'.fwds = t.fwds ∧ live t'.mod t'.slots = live t.mod t.slots + 1) ∨
    (¬ Present t.mod t.slots h ∧ t'.size = t.size ∧ live t'.mod t'.slots = live t.mod t.slots + 1 ∧
      t.mod < t'.mod ∧
      ∃ f, t'.fwds = f :: t.fwds ∧ ∀ j0, j0 < t.mod → t.slots j0 ≠ nullHash →
        ∃ j, f j0 = some j ∧ j < t'.mod ∧ t'.slots j = t.slots j0)

theorem ext_refl {dv : V} {t : HT V K} {h : Word32} {i : Nat} (inv : Inv t.mod t.slots)
    (hi : i < t.mod) (hs : t.slots i = h) : Ext dv t t h i :=
  ⟨inv, hi, hs, fun j hj _ _ => ⟨j, hj, rfl, rfl, rfl⟩, fun j hj _ => ⟨j, hj, rfl, rfl, rfl⟩, id,
    fun hp => absurd ⟨i, hi, hs⟩ hp, Or.inl rfl⟩

theorem ext_insert {dv : V} {t : HT V K} {h : Word32} (inv : Inv t.mod t.slots) (hn : h ≠ nullHash)
    (habs : ¬ Present t.mod t.slots h) {k : Nat} (hk : k ≤ 3)
    (hs : t.slots (pos t.mod h k) = nullHash) :
    Ext dv t { t with size := t.size + 1, slots := upd t.slots (pos t.mod h k) h } h
      (pos t.mod h k) := by
  have hlt := pos_lt inv.modPos h k
  refine ⟨⟨inv.modPos, ?_, ?_⟩, hlt, upd_same _ _ _, ?_, ?_, ?_, ?_, ?_⟩
  · intro i hi hp
    by_cases hie : i = pos t.mod h k
    · refine ⟨k, by omega, ?_⟩
      conv => rhs; rw [hie]
      simp only [upd_same]; exact hie
    · simp only [upd_ne _ _ hie] at hp ⊢
      exact inv.window i hi hp
  · intro i j hi hj hp hij
    by_cases hie : i = pos t.mod h k
    · by_cases hje : j = pos t.mod h k
      · omega
      · simp only [hie, upd_same, upd_ne _ _ hje] at hij
        exact absurd ⟨j, hj, hij.symm⟩ habs
    · by_cases hje : j = pos t.mod h k
      · simp only [hje, upd_same, upd_ne _ _ hie] at hij
        exact absurd ⟨i, hi, hij⟩ habs
      · simp only [upd_ne _ _ hie, upd_ne _ _ hje] at hp hij
        exact inv.inj i j hi hj hp hij
  · intro j hj hp hne
    have hje : j ≠ pos t.mod h k := by
      intro e; apply hne; simp only [e, upd_same]
    exact ⟨j, hj, by simp only [upd_ne _ _ hje], rfl, rfl⟩
  · intro j hj hp
    have hje : j ≠ pos t.mod h k := by
      intro e; apply hp; rw [e, hs]
    exact ⟨j, hj, by simp only [upd_ne _ _ hje], rfl, rfl⟩
  · intro hc j hj hsj
    by_cases hje : j = pos t.mod h k
    · simp only [hje, upd_same] at hsj; exact absurd hsj hn
    · simp only [upd_ne _ _ hje] at hsj; exact hc j hj hsj
  · intro _ hc; exact hc _ hlt hs
  · right; left
    exact ⟨habs, rfl, rfl, hs, rfl, rfl, live_upd_some hlt hs hn⟩

theorem ext_grow {dv : V} {dk : K} {t t' : HT V K} {h : Word32} {i : Nat}
    (inv : Inv t.mod t.slots) (hn : h ≠ nullHash) (habs : ¬ Present t.mod t.slots h) {hint : Nat}
    (hg : growHash dv dk t h hint = some (t', i)) : Ext dv t t' h i := by
  unfold growHash at hg
  simp only at hg
  cases hf : findMod t.mod t.slots h
      (primeTable.dropWhile (· ≤ if hint > t.mod then hint else t.mod)) with
  | none => rw [hf] at hg; simp at hg
  | some r =>
    obtain ⟨newMod, prop⟩ := r
    rw [hf] at hg
    simp only at hg
    obtain ⟨h2, hp⟩ := findMod_pos hf
    have hm : 0 < newMod := by omega
    have hgt : t.mod < newMod := by
      have hmem := (findMod_mem hf).1
      have hsorted : ∀ (l : List Nat) (b : Nat), l.Pairwise (· < ·) → ∀ x ∈ l.dropWhile (· ≤ b), b < x := by
        intro l b
        induction l with
        | nil => intro _ x hx; simp at hx
        | cons a l ih =>
          intro hpw x hx
          rw [List.dropWhile_cons] at hx
          by_cases hab : a ≤ b
          · simp only [hab, decide_true, if_true] at hx
            exact ih (List.Pairwise.of_cons hpw) x hx
          · simp only [hab, decide_false, if_false, Bool.false_eq_true] at hx
            rcases List.mem_cons.mp hx with e | hx
            · omega
            · have := List.rel_of_pairwise_cons hpw hx; omega
      have := hsorted primeTable _ (by decide) newMod hmem
      split at this <;> omega
    have P := propose_placed hm inv.inj (fun _ => habs) hp
    have C0 : Copied dv dk t newMod prop 0
        (({ mod := newMod, slots := prop, vals := fun _ => dv, keys := fun _ => dk,
            size := t.size, fwds := t.fwds } : HT V K), fun _ => none) :=
      ⟨rfl, rfl, rfl, rfl, by intro v i hv; omega, fun _ _ _ => ⟨rfl, rfl⟩, fun _ _ => rfl⟩
    obtain ⟨st, hst, C⟩ := foldlM_range_some (copyStep t) (Copied dv dk t newMod prop) t.mod _ C0
      (fun m s hlt hI => copy_step hm P inv.inj hlt hI)
    rw [hst] at hg
    obtain ⟨t1, fw⟩ := st
    simp only at hg
    have hmod := C.mod
    have hslots := C.slots
    have hsize := C.size
    have hfwds := C.fwds
    simp only at hmod hslots hsize hfwds
    have hhome : prop (h.toNat % newMod) = h := P.home hn
    have hlt : h.toNat % newMod < newMod := Nat.mod_lt _ hm
    have hit : probe newMod prop h true = .hit (h.toNat % newMod) := by
      have := P.probe_hit hm hlt (by rw [hhome]; exact hn)
      rw [hhome] at this; exact this
    unfold probeInsert at hg
    simp only [hmod, hslots, hit] at hg
    simp only [Option.some.injEq, Prod.mk.injEq] at hg
    obtain ⟨hg1, hg2⟩ := hg
    subst hg1 hg2
    have notOld : ∀ v, v < t.mod → t.slots v ≠ nullHash → prop (h.toNat % newMod) ≠ t.slots v := by
      intro v hv _ e; rw [hhome] at e; exact habs ⟨v, hv, e.symm⟩
    refine ⟨?_, ?_, ?_, ?_, ?_, ?_, ?_, ?_⟩
    · exact P.toInv hm
    · exact hlt
    · exact hhome
    · intro j hj hp' hne
      simp only at hj hp' hne ⊢
      rcases P.src j hj hp' with e | ⟨v, hv, e⟩
      · exact absurd e hne
      · obtain ⟨a, b, _⟩ := C.moved v j hv hj (by rw [e]; exact hp') e.symm
        exact ⟨v, hv, e, a.symm, b.symm⟩
    · intro v hv hs
      obtain ⟨j, hj, e⟩ := P.done v hv hs
      obtain ⟨a, b, _⟩ := C.moved v j hv hj hs e
      exact ⟨j, hj, e, a, b⟩
    · intro _ j hj hs
      simp only at hj hs
      refine (C.other j hj ?_).1
      intro v _ hnv e
      exact hnv (by rw [← e, hs])
    · intro _ _
      exact (C.other _ hlt notOld).1
    · right; right
      refine ⟨habs, hsize, ?_, ?_, fw, ?_, ?_⟩
      · show live newMod prop = _
        rw [P.cnt, if_neg hn]; rfl
      · exact hgt
      · simp [hfwds]
      · intro v hv hs
        obtain ⟨j, hj, e⟩ := P.done v hv hs
        obtain ⟨_, _, c⟩ := C.moved v j hv hj hs e
        exact ⟨j, c, hj, e⟩

theorem hitInsert_ext {dv : V} {dk : K} {t t' : HT V K} {h : Word32} {i : Nat}
    (inv : Inv t.mod t.slots) (hn : h ≠ nullHash) (habs : ¬ Present t.mod t.slots h)
    (hg : hitInsert dv dk t h = some (t', i)) : Ext dv t t' h i := by
  unfold hitInsert at hg
  rcases probe_true_absent inv.modPos habs with ⟨k, hk, hp, hs⟩ | hp
  · rw [hp] at hg
    simp only [Option.some.injEq, Prod.mk.injEq] at hg
    obtain ⟨e1, e2⟩ := hg
    subst e1 e2
    exact ext_insert inv hn habs hk hs
  · rw [hp] at hg
    exact ext_grow inv hn habs hg

theorem getIndexOfHit_ext {dv : V} {dk : K} {t t' : HT V K} {h : Word32} {i : Nat}
    (inv : Inv t.mod t.slots) (hn : h ≠ nullHash)
    (hg : getIndexOfHit dv dk t h = some (t', i)) : Ext dv t t' h i := by
  unfold getIndexOfHit at hg
  rcases probe_false_cases inv hn with ⟨j, hj, hs, hp⟩ | ⟨habs, hp⟩
  · rw [hp] at hg
    simp only [Option.some.injEq, Prod.mk.injEq] at hg
    obtain ⟨e1, e2⟩ := hg
    subst e1 e2
    exact ext_refl inv hj hs
  · rw [hp] at hg
    exact hitInsert_ext inv hn habs hg

/-- The registry access path behaves as the script one. -/
theorem getAsRaw_eq {dv : V} {dk : K} {t : HT V K} {h : Word32} (inv : Inv t.mod t.slots)
    (hn : h ≠ nullHash) : getAsRaw dv dk t h = getIndexOfHit dv dk t h := by
  have e1 : (h.toNat % t.mod + 1) % t.mod = pos t.mod h 1 := rfl
  have e2 : (pos t.mod h 1 + 1) % t.mod = pos t.mod h 2 := by simp [pos, Nat.add_assoc]
  have e3 : (pos t.mod h 2 + 1) % t.mod = pos t.mod h 3 := by simp [pos, Nat.add_assoc]
  have e0 : h.toNat % t.mod = pos t.mod h 0 := by simp [pos]
  unfold getAsRaw getIndexOfHit
  simp only [e1, e2, e3, beq_iff_eq]
  rcases probe_false_cases inv hn with ⟨j, hj, hs, hp⟩ | ⟨habs, hp⟩
  · rw [hp]
    simp only
    obtain ⟨k, hk, hjk⟩ := inv.window j hj (by rw [hs]; exact hn)
    rw [hs] at hjk
    have uniq : ∀ k', t.slots (pos t.mod h k') = h → pos t.mod h k' = j := by
      intro k' h'
      exact inv.inj _ _ (pos_lt inv.modPos _ _) hj (by rw [h']; exact hn) (by rw [h', hs])
    rw [e0]
    by_cases h0 : t.slots (pos t.mod h 0) = h
    · rw [if_pos h0, uniq 0 h0]
    rw [if_neg h0]
    by_cases h1 : t.slots (pos t.mod h 1) = h
    · rw [if_pos h1, uniq 1 h1]
    rw [if_neg h1]
    by_cases h2 : t.slots (pos t.mod h 2) = h
    · rw [if_pos h2, uniq 2 h2]
    rw [if_neg h2]
    by_cases h3 : t.slots (pos t.mod h 3) = h
    · rw [if_pos h3, uniq 3 h3]
    exfalso
    have hk4 : k = 0 ∨ k = 1 ∨ k = 2 ∨ k = 3 := by omega
    rw [hjk] at hs
    rcases hk4 with e | e | e | e <;> subst e <;> contradiction
  · rw [hp]
    have no : ∀ k, t.slots (pos t.mod h k) ≠ h := by
      intro k e; exact habs ⟨_, pos_lt inv.modPos _ _, e⟩
    rw [e0, if_neg (no 0), if_neg (no 1), if_neg (no 2), if_neg (no 3)]

/-! ### Refinement -/

theorem represents_none {t : HT V K} {m : Map V K} (R : Represents t m) {h : Word32}
    (hn : h ≠ nullHash) : m h = none ↔ ¬ Present t.mod t.slots h := by
  constructor
  · rintro hm ⟨i, hi, hs⟩
    have := (R h hn (t.vals i) (t.keys i)).mpr ⟨i, hi, hs, rfl, rfl⟩
    rw [hm] at this; cases this
  · intro hp
    cases hc : m h with
    | none => rfl
    | some p =>
      obtain ⟨v, k⟩ := p
      obtain ⟨i, hi, hs, _⟩ := (R h hn v k).mp hc
      exact absurd ⟨i, hi, hs⟩ hp

/-- Storing a pair in the slot made available by `Ext`. -/
theorem ext_store {dv : V} {t t' : HT V K} {h : Word32} {i : Nat} {m : Map V K}
    (E : Ext dv t t' h i) (hn : h ≠ nullHash) (R : Represents t m) (v : V) (k : K)
    {t2 : HT V K} (hmod : t2.mod = t'.mod) (hslots : t2.slots = t'.slots)
    (hvi : t2.vals i = v) (hki : t2.keys i = k)
    (hv : ∀ j, j ≠ i → t2.vals j = t'.vals j) (hk : ∀ j, j ≠ i → t2.keys j = t'.keys j) :
    Represents t2 (m.set h (some (v, k))) := by
  intro h' hn' v' k'
  unfold Map.set
  rw [hmod, hslots]
  by_cases he : h' = h
  · subst he
    simp only [if_true, Option.some.injEq, Prod.mk.injEq]
    constructor
    · rintro ⟨rfl, rfl⟩
      exact ⟨i, E.lt, E.at_, hvi, hki⟩
    · rintro ⟨j, hj, hs, a, b⟩
      have : j = i := E.inv.inj j i hj E.lt (by rw [hs]; exact hn) (by rw [hs, E.at_])
      subst this
      exact ⟨by rw [← a, hvi], by rw [← b, hki]⟩
  · rw [if_neg he, R h' hn']
    constructor
    · rintro ⟨j0, hj0, hs, a, b⟩
      obtain ⟨j, hj, c, d, e⟩ := E.fwd j0 hj0 (by rw [hs]; exact hn')
      have hji : j ≠ i := by
        intro e'; subst e'
        exact he (by rw [← hs, ← c, E.at_])
      exact ⟨j, hj, by rw [c, hs], by rw [hv j hji, d, a], by rw [hk j hji, e, b]⟩
    · rintro ⟨j, hj, hs, a, b⟩
      have hji : j ≠ i := by
        intro e'; subst e'
        exact he (by rw [← hs, E.at_])
      obtain ⟨j0, hj0, c, d, e⟩ := E.back j hj (by rw [hs]; exact hn') (by rw [hs]; exact he)
      exact ⟨j0, hj0, by rw [c, hs], by rw [d, ← a, hv j hji], by rw [e, ← b, hk j hji]⟩

theorem inv_remove {mod : Nat} {slots : Nat → Word32} (inv : Inv mod slots) (i : Nat) :
    Inv mod (upd slots i nullHash) := by
  refine ⟨inv.modPos, ?_, ?_⟩
  · intro j hj hp
    by_cases hji : j = i
    · subst hji; rw [upd_same] at hp; exact absurd rfl hp
    · rw [upd_ne _ _ hji] at hp ⊢; exact inv.window j hj hp
  · intro a b ha hb hp hab
    by_cases hai : a = i
    · subst hai; rw [upd_same] at hp; exact absurd rfl hp
    · rw [upd_ne _ _ hai] at hp hab
      by_cases hbi : b = i
      · subst hbi; rw [upd_same] at hab; exact absurd hab hp
      · rw [upd_ne _ _ hbi] at hab
        exact inv.inj a b ha hb hp hab

theorem step_refines {dv : V} {dk : K} {t t' : HT V K} {m : Map V K} {op : Op V K} {o : Out V}
    (inv : Inv t.mod t.slots) (R : Represents t m) (hn : op.hash ≠ nullHash)
    (hs : step dv dk t op = some (t', o)) :
    Inv t'.mod t'.slots ∧ ∃ m', SpecStep m op o m' ∧ Represents t' m' := by
  cases op with
  | write h k v =>
    simp only [Op.hash] at hn
    simp only [step] at hs
    cases hg : getIndexOfHit dv dk t h with
    | none => rw [hg] at hs; cases hs
    | some r =>
      obtain ⟨t1, i⟩ := r
      rw [hg] at hs
      simp only [Option.some.injEq, Prod.mk.injEq] at hs
      obtain ⟨e1, e2⟩ := hs
      subst e1 e2
      have E := getIndexOfHit_ext inv hn hg
      exact ⟨E.inv, _, .write m h k v,
        ext_store E hn R v k rfl rfl (upd_same _ _ _) (upd_same _ _ _)
          (fun j hj => upd_ne _ _ hj) (fun j hj => upd_ne _ _ hj)⟩
  | read h k =>
    simp only [Op.hash] at hn
    simp only [step] at hs
    cases hg : getIndexOfHit dv dk t h with
    | none => rw [hg] at hs; cases hs
    | some r =>
      obtain ⟨t1, i⟩ := r
      rw [hg] at hs
      simp only [Option.some.injEq, Prod.mk.injEq] at hs
      obtain ⟨e1, e2⟩ := hs
      subst e1 e2
      have E := getIndexOfHit_ext inv hn hg
      have Rp : Represents { t1 with keys := upd t1.keys i k } (m.set h (some (t1.vals i, k))) :=
        ext_store E hn R (t1.vals i) k rfl rfl rfl (upd_same _ _ _)
          (fun j _ => rfl) (fun j hj => upd_ne _ _ hj)
      refine ⟨E.inv, _, ?_, Rp⟩
      cases hm : m h with
      | none => exact .readMiss m h k _ hm
      | some p =>
        obtain ⟨v0, k0⟩ := p
        obtain ⟨j0, hj0, a, b, c⟩ := (R h hn v0 k0).mp hm
        obtain ⟨j, hj, d, e, f⟩ := E.fwd j0 hj0 (by rw [a]; exact hn)
        have hji : j = i := E.inv.inj j i hj E.lt (by rw [d, a]; exact hn) (by rw [d, a, E.at_])
        subst hji
        have : t1.vals j = v0 := by rw [e, b]
        rw [this]
        exact .readHit m h k v0 k0 hm
  | remove h =>
    simp only [Op.hash] at hn
    simp only [step, Option.some.injEq, Prod.mk.injEq] at hs
    obtain ⟨e1, e2⟩ := hs
    subst e2
    unfold exists_ at e1
    rcases probe_false_cases inv hn with ⟨i, hi, hsi, hp⟩ | ⟨habs, hp⟩
    · rw [hp] at e1
      simp only [if_true] at e1
      subst e1
      refine ⟨inv_remove inv i, _, .remove m h, ?_⟩
      intro h' hn' v' k'
      unfold Map.set
      by_cases he : h' = h
      · subst he
        simp only [if_true]
        constructor
        · intro hc; cases hc
        · rintro ⟨j, hj, a, _⟩
          exfalso
          by_cases hji : j = i
          · subst hji; rw [upd_same] at a; exact hn' a.symm
          · rw [upd_ne _ _ hji] at a
            exact hji (inv.inj j i hj hi (by rw [a]; exact hn') (by rw [a, hsi]))
      · rw [if_neg he, R h' hn']
        constructor
        · rintro ⟨j, hj, a, b, c⟩
          have hji : j ≠ i := by
            intro e; subst e; exact he (by rw [← a, hsi])
          exact ⟨j, hj, by rw [← a]; exact upd_ne _ _ hji, b, c⟩
        · rintro ⟨j, hj, a, b, c⟩
          have hji : j ≠ i := by
            intro e; subst e
            simp only [upd_same] at a; exact hn' a.symm
          exact ⟨j, hj, by rw [← a]; exact (upd_ne _ _ hji).symm, b, c⟩
    · rw [hp] at e1
      simp only at e1
      subst e1
      refine ⟨inv, _, .remove m h, ?_⟩
      have hmn := (represents_none R hn).mpr habs
      have : m.set h none = m := by
        funext h'
        unfold Map.set
        by_cases he : h' = h
        · subst he; rw [if_pos rfl, hmn]
        · rw [if_neg he]
      rw [this]; exact R
  | check h =>
    simp only [Op.hash] at hn
    simp only [step, Option.some.injEq, Prod.mk.injEq] at hs
    obtain ⟨e1, e2⟩ := hs
    unfold exists_ at e1 e2
    rcases probe_false_cases inv hn with ⟨i, hi, hsi, hp⟩ | ⟨habs, hp⟩
    · rw [hp] at e1 e2
      simp only [if_false, Bool.false_eq_true] at e1 e2
      subst e1 e2
      refine ⟨inv, m, ?_, R⟩
      have hsome : m h = some (t.vals i, t.keys i) := (R h hn _ _).mpr ⟨i, hi, hsi, rfl, rfl⟩
      have := SpecStep.check m h
      rw [hsome] at this; exact this
    · rw [hp] at e1 e2
      simp only at e1 e2
      subst e1 e2
      refine ⟨inv, m, ?_, R⟩
      have := SpecStep.check m h
      rw [(represents_none R hn).mpr habs] at this; exact this

theorem run_refines {dv : V} {dk : K} {ops : List (Op V K)} {t t' : HT V K} {m : Map V K}
    {os : List (Out V)} (inv : Inv t.mod t.slots) (R : Represents t m)
    (hn : ∀ op ∈ ops, op.hash ≠ nullHash) (hs : run dv dk t ops = some (t', os)) :
    Inv t'.mod t'.slots ∧ ∃ m', SpecRun m ops os m' ∧ Represents t' m' := by
  induction ops generalizing t m os with
  | nil =>
    simp only [run, Option.some.injEq, Prod.mk.injEq] at hs
    obtain ⟨e1, e2⟩ := hs
    subst e1 e2
    exact ⟨inv, m, .nil m, R⟩
  | cons op ops ih =>
    simp only [run] at hs
    cases h1 : step dv dk t op with
    | none => rw [h1] at hs; cases hs
    | some r =>
      obtain ⟨t1, o⟩ := r
      rw [h1] at hs
      simp only at hs
      cases h2 : run dv dk t1 ops with
      | none => rw [h2] at hs; cases hs
      | some r2 =>
        obtain ⟨t2, os2⟩ := r2
        rw [h2] at hs
        simp only [Option.some.injEq, Prod.mk.injEq] at hs
        obtain ⟨e1, e2⟩ := hs
        subst e1 e2
        obtain ⟨inv1, m1, s1, R1⟩ := step_refines inv R (hn op (by simp)) h1
        obtain ⟨inv2, m2, s2, R2⟩ := ih inv1 R1 (fun o ho => hn o (by simp [ho])) h2
        exact ⟨inv2, m2, .cons s1 s2, R2⟩

/-! ### A freshly initialised table -/

theorem init_spec {dv : V} {dk : K} {n : Nat} {t : HT V K} (h : init dv dk n = some t) :
    Inv t.mod t.slots ∧ (∀ i, i < t.mod → t.slots i = nullHash) ∧ Clean dv t ∧
    t.size = BitVec.ofNat 32 n ∧ t.fwds.length = 1 := by
  unfold init at h
  simp only [Option.map_eq_some_iff] at h
  obtain ⟨⟨t1, i⟩, hg, he⟩ := h
  simp only at he
  subst he
  unfold growHash at hg
  simp only at hg
  split at hg
  · cases hg
  · rename_i newMod prop hf
    obtain ⟨h2, hp⟩ := findMod_pos hf
    simp only [propose, List.range_zero, List.foldlM_nil] at hp
    have hp' : upd (fun _ => nullHash) (nullHash.toNat % newMod) nullHash = prop := by
      simpa using hp
    have hall : ∀ i, prop i = nullHash := by
      intro i; rw [← hp']
      by_cases hi : i = nullHash.toNat % newMod
      · rw [hi, upd_same]
      · rw [upd_ne _ _ hi]
    simp only [List.range_zero, List.foldlM_nil] at hg
    have hg' : probeInsert (HT.mk newMod prop (fun _ => dv) (fun _ => dk) (BitVec.ofNat 32 n) [fun _ => none]) nullHash = some (t1, i) := by
      simpa using hg
    unfold probeInsert probe at hg'
    simp only [hall, BEq.rfl, if_true, Option.some.injEq, Prod.mk.injEq] at hg'
    obtain ⟨e1, e2⟩ := hg'
    subst e1
    refine ⟨⟨by show 0 < newMod; omega, ?_, ?_⟩, fun i _ => hall i, fun _ _ _ => rfl, rfl, rfl⟩
    · intro j _ hj; exact absurd (hall j) hj
    · intro j _ _ _ hj; exact absurd (hall j) hj

theorem init_represents {dv : V} {dk : K} {n : Nat} {t : HT V K} (h : init dv dk n = some t) :
    Represents t (fun _ => none) := by
  obtain ⟨_, hall, _⟩ := init_spec h
  intro h' hn v k
  constructor
  · intro hc; cases hc
  · rintro ⟨i, hi, hs, _⟩
    rw [hall i hi] at hs; exact absurd hs.symm hn

theorem live_zero {mod : Nat} {slots : Nat → Word32} (h : ∀ i, i < mod → slots i = nullHash) :
    live mod slots = 0 := by
  unfold live
  rw [List.countP_eq_zero]
  intro i hi
  simp [h i (List.mem_range.mp hi)]

end Wrench.HashTable
