import Verif.HostCont.Lemmas
import Verif.HashTable.Props

/-! Every call keeps the relation. -/
namespace Wrench.HostCont

open Wrench.HashTable

theorem Rel.congr {s : St} {a b : Spec} (R : Rel s a) (h : ∀ x, x ∈ b.ents ↔ x ∈ a.ents)
    (nd : (b.ents.map Ent.name).Nodup) (hv : b.vars = a.vars) : Rel s b :=
  ⟨R.inv, R.clean, nd, fun e he => R.real e ((h e).mp he),
    fun e he f hf => R.inj e ((h e).mp he) f ((h f).mp hf),
    fun e he => R.ents e ((h e).mp he),
    fun i hi h0 => by
      obtain ⟨e, he, h1⟩ := R.slots i hi h0
      exact ⟨e, (h e).mpr he, h1⟩,
    fun e he => R.good e ((h e).mp he), by rw [hv]; exact R.vars, R.plain⟩

theorem mem_put_put {a : Spec} {e f x : Ent} (h : f.name = e.name) :
    x ∈ (a.put f).ents ↔ x ∈ ((a.put e).put f).ents := by
  rw [mem_put, mem_put, mem_put]
  constructor
  · rintro (h1 | ⟨h1, h2⟩)
    · exact Or.inl h1
    · exact Or.inr ⟨Or.inr ⟨h1, by rw [← h]; exact h2⟩, h2⟩
  · rintro (h1 | ⟨h1 | ⟨h1, _⟩, h2⟩)
    · exact Or.inl h1
    · exact absurd (by rw [h1, h]) h2
    · exact Or.inr ⟨h1, h2⟩

theorem Rel.collapse {s : St} {a : Spec} {e f : Ent} (h : f.name = e.name)
    (nd : (a.ents.map Ent.name).Nodup) (R : Rel s ((a.put e).put f)) : Rel s (a.put f) :=
  R.congr (fun _ => mem_put_put h) (nodup_put nd) (by simp)

theorem Rel.self {s : St} {a : Spec} {e : Ent} (he : e ∈ a.ents) (R : Rel s a) : Rel s (a.put e) := by
  refine R.congr (fun x => ?_) (nodup_put R.nd) (by simp)
  rw [mem_put]
  constructor
  · rintro (rfl | ⟨h, _⟩)
    · exact he
    · exact h
  · intro h
    by_cases c : x.name = e.name
    · exact Or.inl (List.inj_on_of_nodup_map R.nd h he c)
    · exact Or.inr ⟨h, c⟩

theorem setVal_setKey_vals (s : St) (i : Nat) (c k : Cell) :
    (setVal (setKey s i k) i c).t.vals = upd s.t.vals i (c, k) := by
  funext j
  by_cases h : j = i <;> simp [setVal, setKey, upd, h]

/-- Adding a named value. -/
theorem Rel.add {s s' : St} {a : Spec} {n : List Byte} {i : Nat} {c : Cell} (R : Rel s a)
    (F : Fits a n) (h0 : 0#8 ∉ n) (hc : Val c) (hg : addEx s n = some (s', i)) :
    Rel (setVal s' i c) (a.put ⟨n, c, some n⟩) := by
  unfold addEx at hg
  simp only [cstr_eq h0, newStr_eq] at hg
  generalize hs1 : ({ s with
      next := s.next + 2, live := (s.next + 1) :: s.next :: s.live,
      strs := upd s.strs s.next (some n), chain := Obj.str s.next (s.next + 1) :: s.chain } : St) = s1 at hg
  have R1 : Rel s1 a := by
    subst hs1
    refine R.frame rfl rfl (by simp only; omega) fun id h => ?_
    exact upd_ne _ _ (by omega)
  cases hgi : getIdx s1 (wrHash n) with
  | none => rw [hgi] at hg; cases hg
  | some p =>
    obtain ⟨s2, j⟩ := p
    rw [hgi] at hg
    simp only [Option.some.injEq, Prod.mk.injEq] at hg
    obtain ⟨rfl, rfl⟩ := hg
    obtain ⟨hvars, hstrs, hnext, _⟩ := getIdx_mem hgi
    have G := R1.get F hgi
    simp only at G
    generalize he : (a.find n).getD ⟨n, zero, none⟩ = e at G
    obtain ⟨R2, hname, hlt, hat, hv, hk⟩ := G
    have hid : s.next < s2.next := by subst hs1; simp only at hnext; omega
    have hst : s2.strs s.next = some n := by rw [hstrs]; subst hs1; simp
    refine Rel.collapse (e := e) (by simp [hname]) R.nd ?_
    refine R2.write (e := e) (i := j) (mem_put.mpr (Or.inl rfl)) hlt (by rw [hat, hname]) rfl rfl ?_ (by simp [hname]) ?_
      ?_ hc rfl (Nat.le_refl _) (fun _ _ => rfl)
    · intro k hk; rw [setVal_setKey_vals, upd_ne _ _ hk]
    · rw [setVal_setKey_vals, upd_same]
    · rw [setVal_setKey_vals, upd_same]
      exact ⟨s.next, rfl, hid, hst⟩

theorem add_mem {s s' : St} {n : List Byte} {i : Nat} (hg : addEx s n = some (s', i)) (m : Mem s) :
    Mem s' ∧ s'.ctx = s.ctx := by
  unfold addEx at hg
  simp only [newStr_eq] at hg
  generalize hs1 : ({ s with
      next := s.next + 2, live := (s.next + 1) :: s.next :: s.live,
      strs := upd s.strs s.next (some (cstr n)), chain := Obj.str s.next (s.next + 1) :: s.chain } : St) = s1 at hg
  have m1 : Mem s1 := by
    subst hs1
    exact m.str rfl rfl rfl (Or.inl ⟨rfl, rfl⟩)
  have c1 : s1.ctx = s.ctx := by subst hs1; rfl
  cases hgi : getIdx s1 (wrHash (cstr n)) with
  | none => rw [hgi] at hg; cases hg
  | some p =>
    obtain ⟨s2, j⟩ := p
    rw [hgi] at hg
    simp only [Option.some.injEq, Prod.mk.injEq] at hg
    obtain ⟨rfl, rfl⟩ := hg
    obtain ⟨_, _, _, hctx, _, hm⟩ := getIdx_mem hgi
    exact ⟨(hm m1).frame rfl rfl rfl rfl (Nat.le_refl _), by show s2.ctx = _; rw [hctx, c1]⟩

theorem isRef_ref (n : Nat) : (Cell.mk (.var n) asRef).isRef = true := by
  simp only [Cell.isRef]; decide

theorem value_plain (a : Spec) {c : Cell} (h : c.plain) : a.value c = c := by
  obtain ⟨pl, p2⟩ := c
  cases pl with
  | var n =>
    simp only [Spec.value]
    rw [if_neg]
    intro e
    subst e
    exact absurd h.1 (by simp [isRef_ref])
  | _ => rfl

theorem value_ref (a : Spec) (n : Nat) : a.value ⟨.var n, asRef⟩ = a.vars n := by simp [Spec.value]

/-- The pointer `WrenchValue` hands out for an entry, what is seen through it and what writing
through it does. -/
theorem Rel.deref {s : St} {a : Spec} {e : Ent} {i : Nat} (R : Rel s a) (he : e ∈ a.ents)
    (hi : i < s.t.mod) (hs : s.t.slots i = wrHash e.name) (hv : (s.t.vals i).1 = e.val)
    (hk : KeyIs s (s.t.vals i).2 e.key) (st : Option Cell) (hst : ∀ c, st = some c → c.plain) :
    ∃ p, derefEntry s i = some p ∧ s.at p = a.value e.val ∧ Rel (thru s p st) (a.assign? e st) := by
  rcases R.good e he with ⟨n, hn⟩ | hp
  · have hpl := R.plain n
    refine ⟨.var n, ?_, ?_, ?_⟩
    · unfold derefEntry
      rw [hv, hn, isRef_ref, if_pos rfl]
      simp only [hpl.1, hpl.2, Bool.or_self, Bool.false_eq_true, if_false]
    · rw [hn, value_ref, ← R.vars]; rfl
    · cases st with
      | none => exact R
      | some c =>
        show Rel { s with vars := upd s.vars n c } (a.assign e c)
        have : a.assign e c = { a with vars := fun m => if m = n then c else a.vars m } := by
          simp [Spec.assign, hn]
        rw [this]
        refine ⟨R.inv, R.clean, R.nd, R.real, R.inj, fun x hx => ?_, R.slots, R.good, ?_, ?_⟩
        · obtain ⟨j, h1, h2, h3, h4⟩ := R.ents x hx
          exact ⟨j, h1, h2, h3, h4.mono (Nat.le_refl _) (fun _ _ => rfl)⟩
        · show upd s.vars n c = _
          funext m
          simp only [upd, R.vars]
        · intro m
          show (upd s.vars n c m).plain
          by_cases h : m = n
          · rw [h, upd_same]; exact hst c rfl
          · rw [upd_ne _ _ h]; exact R.plain m
  · refine ⟨.slot i, ?_, ?_, ?_⟩
    · unfold derefEntry
      rw [hv, hp.1, hp.2]
      simp
    · rw [value_plain a hp]; exact hv
    · cases st with
      | none => exact R
      | some c =>
        show Rel (setVal s i c) (a.assign e c)
        have : a.assign e c = a.put { e with val := c } := by
          obtain ⟨nm, ⟨pl, p2⟩, ky⟩ := e
          cases pl with
          | var n =>
            simp only [Spec.assign]
            rw [if_neg]
            intro h; subst h
            exact absurd hp.1 (by simp [isRef_ref])
          | _ => rfl
        rw [this]
        refine R.write (e := e) (i := i) he hi hs rfl rfl ?_ rfl ?_ ?_ (Or.inr (hst c rfl)) rfl (Nat.le_refl _)
          (fun _ _ => rfl)
        · intro j hj; exact upd_ne _ _ hj
        · show (upd s.t.vals i _ i).1 = c
          rw [upd_same]
        · show KeyIs _ (upd s.t.vals i _ i).2 _
          rw [upd_same]
          exact hk.mono (Nat.le_refl _) (fun _ _ => rfl)

/-- `exists` on the table finds exactly the entries. -/
theorem Rel.exists {s : St} {a : Spec} {n : List Byte} (R : Rel s a) (F : Fits a n) :
    (a.find n = none ∧ (exists_ s.t (wrHash n) false).2 = none) ∨
    ∃ e i, a.find n = some e ∧ e ∈ a.ents ∧ e.name = n ∧ (exists_ s.t (wrHash n) false).2 = some i ∧
      i < s.t.mod ∧ s.t.slots i = wrHash e.name ∧ (s.t.vals i).1 = e.val ∧ KeyIs s (s.t.vals i).2 e.key := by
  rcases probe_false_cases R.inv F.real with ⟨j, hj, hs, hp⟩ | ⟨habs, hp⟩
  · right
    obtain ⟨e, he, hh⟩ := R.slots j hj (by rw [hs]; exact F.real)
    have hn : e.name = n := F.inj e he (by rw [hh, hs])
    obtain ⟨i, h1, h2, h3, h4⟩ := R.ents e he
    have : i = j := R.inv.inj i j h1 hj (by rw [h2]; exact R.real e he) (by rw [h2, hh])
    subst this
    exact ⟨e, i, hn ▸ find_of_mem R.nd he, he, hn, by simp [exists_, hp], h1, h2, h3, h4⟩
  · left
    refine ⟨?_, by simp [exists_, hp]⟩
    cases hf : a.find n with
    | none => rfl
    | some e =>
      obtain ⟨he, hn⟩ := find_some hf
      obtain ⟨i, h1, h2, _⟩ := R.ents e he
      exact absurd ⟨i, h1, by rw [h2, hn]⟩ habs

theorem thru_mem {s : St} {p : VPtr} {st : Option Cell} (m : Mem s) :
    Mem (thru s p st) ∧ (thru s p st).ctx = s.ctx := by
  cases st with
  | none => exact ⟨m, rfl⟩
  | some c => cases p <;> exact ⟨m.frame rfl rfl rfl rfl (Nat.le_refl _), rfl⟩

theorem setVal_mem {s : St} {i : Nat} {c : Cell} (m : Mem s) : Mem (setVal s i c) :=
  m.frame rfl rfl rfl rfl (Nat.le_refl _)

theorem raw_plain (p : Nat) {size : Word32} (h : size.toNat < 2 ^ 21) :
    (Cell.mk (.raw p) (asRawArray ||| (size <<< 8))).plain := by
  have hsz : size &&& 0xFFE00000#32 = 0#32 := by
    apply BitVec.eq_of_toNat_eq
    rw [BitVec.toNat_and]
    have h2 : (0xFFE00000#32).toNat = (2 ^ 11 - 1) <<< 21 := by decide
    rw [h2]
    apply Nat.eq_of_testBit_eq
    intro k
    rw [Nat.testBit_and, Nat.testBit_shiftLeft]
    by_cases hk : k < 21
    · have : ¬ 21 ≤ k := by omega
      simp [this]
    · rw [Nat.testBit_lt_two_pow (Nat.lt_of_lt_of_le h (Nat.pow_le_pow_right (by omega) (by omega)))]
      simp
  have e0 : ∀ k, 21 ≤ k → size.getLsbD k = false := by
    intro k hk
    rw [BitVec.getLsbD]
    exact Nat.testBit_lt_two_pow (Nat.lt_of_lt_of_le h (Nat.pow_le_pow_right (by omega) hk))
  constructor
  · show ((asRawArray ||| (size <<< 8)) &&& 0xFF#32 == 2#32) = false
    rw [beq_eq_false_iff_ne]
    intro e
    have := congrArg (fun w : Word32 => w.getLsbD 0) e
    simp [asRawArray] at this
  · show (((asRawArray ||| (size <<< 8)) >>> 24) &&& 0xE0#32 == 0x80#32) = false
    rw [beq_eq_false_iff_ne]
    intro e
    have := congrArg (fun w : Word32 => w.getLsbD 5) e
    simp [asRawArray] at this

/-- **One call.** -/
theorem step_rel {s s' : St} {a : Spec} {c : Call} {o : Seen} (R : Rel s a) (F : Fits a c.name)
    (hok : c.ok) (h : step s c = some (s', o)) : Rel s' (a.step c).1 ∧ o = (a.step c).2 := by
  cases c with
  | addInt n i =>
    simp only [step, Option.map_eq_some_iff] at h
    obtain ⟨⟨s1, j⟩, hg, e⟩ := h
    cases e
    exact ⟨R.add F hok (Or.inr ⟨by simp only [Cell.isRef]; decide, by simp only [Cell.isMember]; decide⟩) hg, rfl⟩
  | addFloat n i =>
    simp only [step, Option.map_eq_some_iff] at h
    obtain ⟨⟨s1, j⟩, hg, e⟩ := h
    cases e
    exact ⟨R.add F hok (Or.inr ⟨by simp only [Cell.isRef]; decide, by simp only [Cell.isMember]; decide⟩) hg, rfl⟩
  | addValue n i =>
    simp only [step, Option.map_eq_some_iff] at h
    obtain ⟨⟨s1, j⟩, hg, e⟩ := h
    cases e
    exact ⟨R.add F hok (Or.inl ⟨i, rfl⟩) hg, rfl⟩
  | addArray n p size =>
    simp only [step, Option.map_eq_some_iff] at h
    obtain ⟨⟨s1, j⟩, hg, e⟩ := h
    cases e
    exact ⟨R.add F hok.1 (Or.inr (raw_plain p hok.2)) hg, rfl⟩
  | get n st =>
    simp only [step, Option.map_eq_some_iff, cstr_eq hok.1] at h
    obtain ⟨⟨s1, j⟩, hg, e⟩ := h
    cases e
    have G := R.get F hg
    simp only [Call.name] at G
    simp only [Spec.step]
    generalize (a.find n).getD ⟨n, zero, none⟩ = e at G
    obtain ⟨R2, hname, hlt, hat, hv, hk⟩ := G
    refine ⟨?_, by rw [← hv]; rfl⟩
    cases st with
    | none => exact R2
    | some c =>
      refine Rel.collapse (e := e) rfl R.nd ?_
      show Rel (setVal s1 j c) _
      refine R2.write (e := e) (i := j) (mem_put.mpr (Or.inl rfl)) hlt (by rw [hat, hname]) rfl rfl ?_ rfl ?_
        ?_ (Or.inr (hok.2 c rfl)) rfl (Nat.le_refl _) (fun _ _ => rfl)
      · intro k hk; exact upd_ne _ _ hk
      · show (upd s1.t.vals j _ j).1 = c
        rw [upd_same]
      · show KeyIs _ (upd s1.t.vals j _ j).2 _
        rw [upd_same]
        exact hk.mono (Nat.le_refl _) (fun _ _ => rfl)
  | hvAdd n st =>
    have hz : 0#8 ∉ n := fun hm => (hok.1 _ hm).1 rfl
    simp only [step, Option.map_eq_some_iff] at h
    obtain ⟨⟨s1, p⟩, hg, e⟩ := h
    cases e
    unfold hvAdd at hg
    simp only [hashStr_eq hok.1] at hg
    rcases R.exists F with ⟨hf, hx⟩ | ⟨e, i, hf, he, hn, hx, h1, h2, h3, h4⟩
    · simp only [Call.name] at hf hx
      rw [hx] at hg
      simp only at hg
      cases hgi : getIdx s (wrHash n) with
      | none => rw [hgi] at hg; cases hg
      | some q =>
        obtain ⟨s2, j⟩ := q
        rw [hgi] at hg
        simp only [newStr_eq, cstr_eq hz] at hg
        have G := R.get F hgi
        simp only [Call.name, hf, Option.getD_none] at G
        obtain ⟨R2, -, hlt, hat, hv, hk⟩ := G
        simp only [Spec.step, hf, Option.getD_none]
        generalize hs3 : setKey ({ s2 with
            next := s2.next + 2, live := (s2.next + 1) :: s2.next :: s2.live,
            strs := upd s2.strs s2.next (some n), ctx := Obj.str s2.next (s2.next + 1) :: s2.ctx } : St) j
            ⟨.obj s2.next, asArray⟩ = s3 at hg
        have hk3 : KeyIs s3 (s3.t.vals j).2 (some n) := by
          subst hs3
          show KeyIs _ (upd s2.t.vals j _ j).2 _
          rw [upd_same]
          exact ⟨s2.next, rfl, by simp only [setKey]; omega, by simp [setKey]⟩
        have hv3 : (s3.t.vals j).1 = zero := by
          subst hs3
          show (upd s2.t.vals j _ j).1 = _
          rw [upd_same]; exact hv
        have R3 : Rel s3 (a.put ⟨n, zero, some n⟩) := by
          refine Rel.collapse (e := ⟨n, zero, none⟩) rfl R.nd ?_
          refine R2.write (e := ⟨n, zero, none⟩) (i := j) (mem_put.mpr (Or.inl rfl)) hlt hat ?_ ?_ ?_ rfl hv3 hk3
            val_zero ?_ ?_ ?_
          · subst hs3; rfl
          · subst hs3; rfl
          · intro k hk; subst hs3; exact upd_ne _ _ hk
          · subst hs3; rfl
          · subst hs3; simp only [setKey]; omega
          · intro id hid; subst hs3; exact upd_ne _ _ (by omega)
        obtain ⟨p', hp, hat', R4⟩ := R3.deref (e := ⟨n, zero, some n⟩) (mem_put.mpr (Or.inl rfl)) (i := j)
          (by subst hs3; exact hlt) (by subst hs3; exact hat) hv3 hk3 st hok.2
        rw [hp] at hg
        cases hg
        refine ⟨R4, ?_⟩
        rw [hat']
        rfl
    · simp only [Call.name] at hf hx hn
      rw [hx] at hg
      simp only at hg
      have R2 : Rel s (a.put e) := R.self he
      obtain ⟨p', hp, hat', R4⟩ := R2.deref (mem_put.mpr (Or.inl rfl)) h1 h2 h3 h4 st hok.2
      rw [hp] at hg
      cases hg
      simp only [Spec.step, hf, Option.getD_some]
      refine ⟨R4, ?_⟩
      rw [hat']
      simp [Spec.value]
  | hvGet n st =>
    simp only [step, Option.map_eq_some_iff] at h
    obtain ⟨r, hg, e⟩ := h
    unfold hvGet at hg
    simp only [hashStr_eq hok.1] at hg
    rcases R.exists F with ⟨hf, hx⟩ | ⟨e', i, hf, he, hn, hx, h1, h2, h3, h4⟩
    · simp only [Call.name] at hf hx
      rw [hx] at hg
      cases hg
      cases e
      simp only [Spec.step, hf]
      exact ⟨R, trivial⟩
    · simp only [Call.name] at hf hx hn
      rw [hx] at hg
      simp only at hg
      obtain ⟨p', hp, hat', R4⟩ := R.deref he h1 h2 h3 h4 st hok.2
      rw [hp] at hg
      cases hg
      cases e
      simp only [Spec.step, hf]
      exact ⟨R4, by rw [hat']⟩

theorem assign_names {a : Spec} {e : Ent} {st : Option Cell} {x : Ent} (h : x ∈ (a.assign? e st).ents) :
    x ∈ a.ents ∨ x.name = e.name := by
  cases st with
  | none => exact Or.inl h
  | some c =>
    have put : x ∈ (a.put { e with val := c }).ents → x ∈ a.ents ∨ x.name = e.name := by
      intro h
      rcases mem_put.mp h with rfl | ⟨h, _⟩
      · exact Or.inr rfl
      · exact Or.inl h
    simp only [Spec.assign?, Spec.assign] at h
    split at h
    · split at h
      · exact Or.inl h
      · exact put h
    · exact put h

theorem getD_name {a : Spec} {n : List Byte} {d : Ent} (hd : d.name = n) :
    ((a.find n).getD d).name = n := by
  cases hf : a.find n with
  | none => exact hd
  | some e => exact (find_some hf).2

/-- A call introduces no other name than its own. -/
theorem step_names {a : Spec} {c : Call} {x : Ent} (h : x ∈ (a.step c).1.ents) :
    x ∈ a.ents ∨ x.name = c.name := by
  have put : ∀ {b : Spec} {e : Ent}, x ∈ (b.put e).ents → x ∈ b.ents ∨ x.name = e.name := by
    intro b e h
    rcases mem_put.mp h with rfl | ⟨h, _⟩
    · exact Or.inr rfl
    · exact Or.inl h
  cases c with
  | addInt n i => exact put h
  | addFloat n i => exact put h
  | addValue n i => exact put h
  | addArray n p i => exact put h
  | get n st =>
    have hn : ((a.find n).getD ⟨n, zero, none⟩).name = n := getD_name rfl
    cases st with
    | none => rcases put h with h | h <;> simp_all [Call.name]
    | some c => rcases put h with h | h <;> simp_all [Call.name]
  | hvAdd n st =>
    have hn : ((a.find n).getD ⟨n, zero, some n⟩).name = n := getD_name rfl
    simp only [Spec.step] at h
    rcases assign_names h with h | h
    · rcases put h with h | h
      · exact Or.inl h
      · exact Or.inr (h.trans hn)
    · exact Or.inr (h.trans hn)
  | hvGet n st =>
    simp only [Spec.step] at h
    cases hf : a.find n with
    | none => rw [hf] at h; exact Or.inl h
    | some e =>
      rw [hf] at h
      rcases assign_names h with h | h
      · exact Or.inl h
      · exact Or.inr (h.trans (find_some hf).2)

/-- The call puts a key on the context's chain rather than the container's. -/
def Call.usesContext : Call → Bool
  | .hvAdd _ _ => true
  | _ => false

/-- One call keeps the books of the memory. -/
theorem step_mem {s s' : St} {c : Call} {o : Seen} (m : Mem s) (h : step s c = some (s', o)) :
    Mem s' ∧ (c.usesContext = false → s'.ctx = s.ctx) := by
  cases c with
  | addInt n i =>
    simp only [step, Option.map_eq_some_iff] at h
    obtain ⟨⟨s1, j⟩, hg, e⟩ := h
    cases e
    exact ⟨setVal_mem (add_mem hg m).1, fun _ => (add_mem hg m).2⟩
  | addFloat n i =>
    simp only [step, Option.map_eq_some_iff] at h
    obtain ⟨⟨s1, j⟩, hg, e⟩ := h
    cases e
    exact ⟨setVal_mem (add_mem hg m).1, fun _ => (add_mem hg m).2⟩
  | addValue n i =>
    simp only [step, Option.map_eq_some_iff] at h
    obtain ⟨⟨s1, j⟩, hg, e⟩ := h
    cases e
    exact ⟨setVal_mem (add_mem hg m).1, fun _ => (add_mem hg m).2⟩
  | addArray n p i =>
    simp only [step, Option.map_eq_some_iff] at h
    obtain ⟨⟨s1, j⟩, hg, e⟩ := h
    cases e
    exact ⟨setVal_mem (add_mem hg m).1, fun _ => (add_mem hg m).2⟩
  | get n st =>
    simp only [step, Option.map_eq_some_iff] at h
    obtain ⟨⟨s1, j⟩, hg, e⟩ := h
    cases e
    obtain ⟨_, _, _, hctx, _, hm⟩ := getIdx_mem hg
    exact ⟨(thru_mem (hm m)).1, fun _ => by rw [(thru_mem (hm m)).2, hctx]⟩
  | hvAdd n st =>
    simp only [step, Option.map_eq_some_iff] at h
    obtain ⟨⟨s1, p⟩, hg, e⟩ := h
    cases e
    refine ⟨(thru_mem ?_).1, fun h => by cases h⟩
    unfold hvAdd at hg
    cases hx : (exists_ s.t (hashStr n) false).2 with
    | some i =>
      rw [hx] at hg
      simp only [Option.map_eq_some_iff] at hg
      obtain ⟨_, _, e⟩ := hg
      cases e
      exact m
    | none =>
      rw [hx] at hg
      simp only at hg
      cases hgi : getIdx s (hashStr n) with
      | none => rw [hgi] at hg; cases hg
      | some q =>
        obtain ⟨s2, j⟩ := q
        rw [hgi] at hg
        simp only [newStr_eq, Option.map_eq_some_iff] at hg
        obtain ⟨_, _, e⟩ := hg
        cases e
        obtain ⟨_, _, _, hctx, _, hm⟩ := getIdx_mem hgi
        exact (hm m).str rfl rfl rfl (Or.inr ⟨rfl, rfl⟩)
  | hvGet n st =>
    simp only [step, Option.map_eq_some_iff] at h
    obtain ⟨r, hg, e⟩ := h
    cases r with
    | none => cases e; exact ⟨m, fun _ => rfl⟩
    | some p => cases e; exact ⟨(thru_mem m).1, fun _ => (thru_mem m).2⟩

/-! ### A fresh container -/

theorem make_t {hint : Word16} {mem : Nat → Cell} {s : St} (h : makeContainer hint mem = some s) :
    HashTable.init (zero, zero) () hint.toNat = some s.t ∧ s.vars = mem ∧ Mem s ∧ s.ctx = [] := by
  unfold makeContainer at h
  simp only [Option.map_eq_some_iff] at h
  obtain ⟨⟨s1, i⟩, hg, e⟩ := h
  cases e
  obtain ⟨t', r, hgr, rfl⟩ := grow_eq hg
  refine ⟨?_, rfl, ?_, rfl⟩
  · unfold HashTable.init
    have h1 : hint.toNat % 2 ^ 16 = hint.toNat := Nat.mod_eq_of_lt hint.isLt
    have h2 : BitVec.ofNat 32 hint.toNat = hint.setWidth 32 := by
      apply BitVec.eq_of_toNat_eq; simp
    rw [h1, h2]
    simp only at hgr
    rw [hgr]
    rfl
  · refine ⟨List.Perm.swap _ _ _, ?_, ?_⟩
    · simp
    · intro id h
      simp only [List.mem_cons, List.not_mem_nil, or_false] at h
      simp only
      omega

theorem make_rel {hint : Word16} {mem : Nat → Cell} {s : St} (h : makeContainer hint mem = some s)
    (hp : ∀ n, (mem n).plain) : Rel s ⟨[], mem⟩ := by
  obtain ⟨hi, hv, _⟩ := make_t h
  obtain ⟨inv, hall, hc, _⟩ := init_spec hi
  refine ⟨inv, hc, List.nodup_nil, ?_, ?_, ?_, ?_, ?_, hv, by rw [hv]; exact hp⟩
  · intro e he; cases he
  · intro e he; cases he
  · intro e he; cases he
  · intro i hi h0; exact absurd (hall i hi) h0
  · intro e he; cases he

/-- **A sequence of calls.** -/
theorem run_rel {cs : List Call} {U : List (List Byte)} (hU : ∀ c ∈ cs, c.name ∈ U)
    (hreal : ∀ n ∈ U, wrHash n ≠ nullHash) (hinj : ∀ n ∈ U, ∀ m ∈ U, wrHash n = wrHash m → n = m)
    (hok : ∀ c ∈ cs, c.ok) :
    ∀ {s s' : St} {a : Spec} {os : List Seen}, Rel s a → (∀ e ∈ a.ents, e.name ∈ U) →
      run s cs = some (s', os) → Rel s' (a.run cs).1 ∧ os = (a.run cs).2 ∧
        ∀ e ∈ (a.run cs).1.ents, e.name ∈ U := by
  induction cs with
  | nil =>
    intro s s' a os R hin h
    cases h
    exact ⟨R, rfl, hin⟩
  | cons c cs ih =>
    intro s s' a os R hin h
    simp only [run] at h
    cases h1 : step s c with
    | none => rw [h1] at h; cases h
    | some p =>
      obtain ⟨s1, o⟩ := p
      rw [h1] at h
      simp only at h
      cases h2 : run s1 cs with
      | none => rw [h2] at h; cases h
      | some q =>
        obtain ⟨s2, os2⟩ := q
        rw [h2] at h
        cases h
        have hc : c.name ∈ U := hU c List.mem_cons_self
        have F : Fits a c.name := ⟨hreal _ hc, fun e he => hinj _ (hin e he) _ hc⟩
        obtain ⟨R1, ho⟩ := step_rel R F (hok c List.mem_cons_self) h1
        have hin1 : ∀ e ∈ (a.step c).1.ents, e.name ∈ U := by
          intro e he
          rcases step_names he with he | he
          · exact hin e he
          · rw [he]; exact hc
        obtain ⟨R2, ho2, hin2⟩ := ih (fun c h => hU c (List.mem_cons_of_mem _ h))
          (fun c h => hok c (List.mem_cons_of_mem _ h)) R1 hin1 h2
        exact ⟨R2, by rw [ho, ho2]; rfl, hin2⟩

theorem run_mem {cs : List Call} : ∀ {s s' : St} {os : List Seen}, Mem s → run s cs = some (s', os) →
    Mem s' ∧ ((∀ c ∈ cs, c.usesContext = false) → s'.ctx = s.ctx) := by
  induction cs with
  | nil => intro s s' os m h; cases h; exact ⟨m, fun _ => rfl⟩
  | cons c cs ih =>
    intro s s' os m h
    simp only [run] at h
    cases h1 : step s c with
    | none => rw [h1] at h; cases h
    | some p =>
      obtain ⟨s1, o⟩ := p
      rw [h1] at h
      simp only at h
      cases h2 : run s1 cs with
      | none => rw [h2] at h; cases h
      | some q =>
        obtain ⟨s2, os2⟩ := q
        rw [h2] at h
        cases h
        obtain ⟨m1, c1⟩ := step_mem m h1
        obtain ⟨m2, c2⟩ := ih m1 h2
        exact ⟨m2, fun hx => by
          rw [c2 fun c h => hx c (List.mem_cons_of_mem _ h), c1 (hx c List.mem_cons_self)]⟩

end Wrench.HostCont
