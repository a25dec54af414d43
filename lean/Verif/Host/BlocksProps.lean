import Verif.Host.Blocks

namespace Wrench.Blocks

open Wrench.Host

/-- The block is allocated. -/
def Owner.held : Owner → Bool
  | .host => true
  | .context _ => true
  | .lost => true
  | _ => false

structure Inv (s : BSt) (L : Ledger) : Prop where
  rep : Rep s.st L.live
  uses : s.uses = L.uses
  ulen : L.uses.length = L.live.count
  mlen : s.mem.length = L.blocks
  mem : ∀ b, s.mem[b]? = some true ↔ (L.owner b).held = true
  own : ∀ b i, L.owner b = .context i → i ∈ L.live.all ∧ L.uses[i]? = some (b, true)
  use : ∀ i ∈ L.live.all, ∃ b o, L.uses[i]? = some (b, o) ∧ L.owner b = (if o then .context i else .host)

theorem inv_start : Inv bstart noBlocks where
  rep := rep_start
  uses := rfl
  ulen := rfl
  mlen := rfl
  mem := by intro b; simp [bstart, noBlocks, Owner.held]
  own := by intro b i h; simp [noBlocks] at h
  use := by intro i h; simp [noBlocks, noneLive, Live.all, Live.roots] at h

/-! ### Freeing the blocks of the contexts that are gone -/

theorem release_spec {old new : Heap} {uses : List (Nat × Bool)} {owner : Nat → Owner}
    (ho : ∀ i b, node old i ≠ none → uses[i]? = some (b, true) → owner b = .context i) :
    ∀ (is : List Nat) (m : List Bool), is.Nodup →
      (∀ i ∈ is, node old i ≠ none → node new i = none → ∀ b, uses[i]? = some (b, true) → m[b]? = some true) →
      ∃ m', release old new uses is m = .ok m' ∧ m'.length = m.length ∧
        ∀ b, m'[b]? = some true ↔ m[b]? = some true ∧
          ¬ ∃ i ∈ is, node old i ≠ none ∧ node new i = none ∧ uses[i]? = some (b, true)
  | [], m, _, _ => ⟨m, rfl, rfl, by intro b; simp⟩
  | i :: is, m, hn, hm => by
    have hn' := (List.nodup_cons.mp hn).2
    have hni := (List.nodup_cons.mp hn).1
    have skip : (∀ b, ¬ (node old i ≠ none ∧ node new i = none ∧ uses[i]? = some (b, true))) →
        release old new uses (i :: is) m = release old new uses is m →
        ∃ m', release old new uses (i :: is) m = .ok m' ∧ m'.length = m.length ∧
          ∀ b, m'[b]? = some true ↔ m[b]? = some true ∧
            ¬ ∃ j ∈ i :: is, node old j ≠ none ∧ node new j = none ∧ uses[j]? = some (b, true) := by
      intro hno he
      obtain ⟨m', e, hl, hs⟩ := release_spec ho is m hn' fun j hj => hm j (List.mem_cons_of_mem _ hj)
      refine ⟨m', he.trans e, hl, ?_⟩
      intro b
      rw [hs b]
      constructor
      · rintro ⟨h1, h2⟩
        refine ⟨h1, ?_⟩
        rintro ⟨j, hj, h⟩
        rcases List.mem_cons.mp hj with rfl | hj
        · exact hno b h
        · exact h2 ⟨j, hj, h⟩
      · rintro ⟨h1, h2⟩
        exact ⟨h1, fun ⟨j, hj, h⟩ => h2 ⟨j, List.mem_cons_of_mem _ hj, h⟩⟩
    by_cases hd : node old i ≠ none ∧ node new i = none
    · cases hu : uses[i]? with
      | none =>
        refine skip (by rintro b ⟨-, -, h⟩; rw [hu] at h; cases h) ?_
        rw [release, if_pos hd, hu]
      | some p =>
        obtain ⟨b, o⟩ := p
        cases o with
        | false =>
          refine skip (by rintro b ⟨-, -, h⟩; rw [hu] at h; cases h) ?_
          rw [release, if_pos hd, hu]
        | true =>
          have hb := hm i (by simp) hd.1 hd.2 b hu
          have hlt : b < m.length := by
            rcases Nat.lt_or_ge b m.length with h | h
            · exact h
            · rw [List.getElem?_eq_none h] at hb; cases hb
          obtain ⟨m', e, hl, hs⟩ := release_spec ho is (m.set b false) hn' (by
            intro j hj h1 h2 b' h3
            have hne : b ≠ b' := by
              rintro rfl
              have e1 := ho i b hd.1 hu
              have e2 := ho j b h1 h3
              rw [e1] at e2
              cases e2
              exact hni hj
            rw [List.getElem?_set_ne hne]
            exact hm j (List.mem_cons_of_mem _ hj) h1 h2 b' h3)
          refine ⟨m', ?_, hl.trans (List.length_set ..), ?_⟩
          · rw [release, if_pos hd, hu]
            show (free m b).bind _ = _
            rw [free, if_pos hb]
            exact e
          · intro x
            rw [hs x]
            by_cases hx : b = x
            · subst hx
              rw [List.getElem?_set_self hlt]
              constructor
              · rintro ⟨h, -⟩; cases h
              · rintro ⟨-, h⟩; exact absurd ⟨i, by simp, hd.1, hd.2, hu⟩ h
            · rw [List.getElem?_set_ne hx]
              constructor
              · rintro ⟨h1, h2⟩
                refine ⟨h1, ?_⟩
                rintro ⟨j, hj, h⟩
                rcases List.mem_cons.mp hj with rfl | hj
                · rw [hu] at h
                  exact hx (by simpa using h.2.2)
                · exact h2 ⟨j, hj, h⟩
              · rintro ⟨h1, h2⟩
                exact ⟨h1, fun ⟨j, hj, h⟩ => h2 ⟨j, List.mem_cons_of_mem _ hj, h⟩⟩
    · refine skip (fun b h => hd ⟨h.1, h.2.1⟩) ?_
      rw [release, if_neg hd]

/-- An operation on the contexts frees exactly the blocks that belonged to contexts that are gone after it. -/
theorem onContexts_spec {s : BSt} {L : Ledger} (r : Inv s L) {e : Ev} (ha : Allowed L.live e) :
    ∃ s', onContexts s e = .ok s' ∧ Rep s'.st (L.live.step e) ∧ s'.uses = s.uses ∧ s'.mem.length = s.mem.length ∧
      ∀ b, s'.mem[b]? = some true ↔ (settle (L.live.step e) L.owner b).held = true := by
  obtain ⟨st, e1, r1⟩ := rep_step r.rep ha
  obtain ⟨m, e2, hl, hm⟩ := release_spec (old := s.st.heap) (new := st.heap) (uses := s.uses) (owner := L.owner)
    (by
      intro i b h1 h2
      obtain ⟨b', o, h3, h4⟩ := r.use i ((r.rep.live i).mp h1)
      rw [r.uses, h3] at h2
      cases h2
      simpa using h4)
    (List.range s.st.heap.length) s.mem List.nodup_range (by
      intro i _ h1 _ b h2
      obtain ⟨b', o, h3, h4⟩ := r.use i ((r.rep.live i).mp h1)
      rw [r.uses, h3] at h2
      cases h2
      rw [r.mem b, h4]; rfl)
  refine ⟨{ s with st := st, mem := m }, ?_, r1, rfl, hl, ?_⟩
  · rw [onContexts, e1]
    show (release _ _ _ _ _).bind _ = _
    rw [e2]; rfl
  · intro b
    show m[b]? = some true ↔ _
    rw [hm b, r.mem b]
    cases hb : L.owner b with
    | context i =>
      have hi := r.own b i hb
      constructor
      · rintro ⟨-, h⟩
        by_cases hin : i ∈ (L.live.step e).all
        · simp [settle, hb, hin, Owner.held]
        · refine absurd ⟨i, ?_, (r.rep.live i).mpr hi.1, ?_, r.uses ▸ hi.2⟩ h
          · exact List.mem_range.mpr (node_lt ((r.rep.live i).mpr hi.1))
          · cases hn : node st.heap i with
            | none => rfl
            | some n => exact absurd ((r1.live i).mp (by rw [hn]; simp)) hin
      · intro h
        have hin : i ∈ (L.live.step e).all := by
          by_cases hin : i ∈ (L.live.step e).all
          · exact hin
          · simp [settle, hb, hin, Owner.held] at h
        refine ⟨rfl, ?_⟩
        rintro ⟨j, -, h1, h2, h3⟩
        obtain ⟨b', o, h4, h5⟩ := r.use j ((r.rep.live j).mp h1)
        rw [r.uses, h4] at h3
        cases h3
        rw [hb] at h5
        simp only [if_true, Owner.context.injEq] at h5
        subst h5
        exact (r1.live i).mpr hin h2
    | _ =>
      simp only [settle, hb, Owner.held]
      try simp only [true_and, false_and, Bool.false_eq_true, iff_self, iff_true]
      try (
        rintro ⟨j, -, h1, h2, h3⟩
        obtain ⟨b', o, h4, h5⟩ := r.use j ((r.rep.live j).mp h1)
        rw [r.uses, h4] at h3
        cases h3
        rw [hb] at h5
        cases h5)

theorem touch_ok {s : BSt} {L : Ledger} (r : Inv s L) {c : Nat} (hc : c ∈ L.live.all) : touch s c = .ok () := by
  obtain ⟨b, o, h1, h2⟩ := r.use c hc
  cases hn : node s.st.heap c with
  | none => exact absurd hn ((r.rep.live c).mpr hc)
  | some n =>
    have hb : s.mem[b]? = some true := by
      rw [r.mem b, h2]; cases o <;> rfl
    simp only [touch, hn, r.uses, h1, read, if_pos hb]

/-! ### The steps -/

theorem all_new (l : Live) (i : Nat) : i ∈ (l.step .new).all ↔ i = l.count ∨ i ∈ l.all := by
  simp only [Live.step, Live.all, Live.roots, List.cons_append, List.flatMap_cons, List.mem_append, List.mem_cons,
    List.not_mem_nil, false_or]

theorem all_import (l : Live) (c i : Nat) : i ∈ (l.step (.importBegin c)).all ↔ i = l.count ∨ i ∈ l.all := by
  simp only [Live.step, Live.all, Live.roots, List.map_cons, List.flatMap_append, List.flatMap_cons, List.mem_append,
    List.mem_cons, List.not_mem_nil, or_false]
  constructor
  · rintro (h | h | h)
    · exact Or.inr (Or.inl h)
    · exact Or.inl h
    · exact Or.inr (Or.inr h)
  · rintro (h | h | h)
    · exact Or.inr (Or.inl h)
    · exact Or.inl h
    · exact Or.inr (Or.inr h)

theorem settle_grow {L : Ledger} {s : BSt} (r : Inv s L) {l : Live} (h : ∀ i ∈ L.live.all, i ∈ l.all) :
    settle l L.owner = L.owner := by
  funext b
  cases hb : L.owner b with
  | context i => simp [settle, hb, h i (r.own b i hb).1]
  | _ => simp [settle, hb]

theorem inv_create {s : BSt} {L : Ledger} (r : Inv s L) {e : Ev} {b : Nat} {good own : Bool}
    (ha : Allowed L.live e) (hall : ∀ i, i ∈ (L.live.step e).all ↔ i = L.live.count ∨ i ∈ L.live.all)
    (hcount : (L.live.step e).count = L.live.count + 1)
    (hb : L.owner b = .host) (hu : good = true → own = true → Unused L b) :
    ∃ s', create s e b good own = .ok s' ∧ Inv s' (L.created e b good own) := by
  have hread : read s.mem b = .ok () := by
    rw [read, if_pos ((r.mem b).mpr (by rw [hb]; rfl))]
  cases good with
  | false => exact ⟨s, by rw [create, hread]; rfl, r⟩
  | true =>
    obtain ⟨s', e1, r1, u1, l1, m1⟩ := onContexts_spec r ha
    rw [settle_grow r fun i hi => (hall i).mpr (Or.inr hi)] at m1
    have hfresh : L.live.count ∉ L.live.all := fresh_all r.rep
    have hlt : ∀ i ∈ L.live.all, i < L.uses.length := by
      intro i hi
      rw [r.ulen, ← r.rep.count]
      exact node_lt ((r.rep.live i).mpr hi)
    refine ⟨{ s' with uses := s'.uses ++ [(b, own)] }, ?_, ?_⟩
    · rw [create, hread]
      show (onContexts s e).bind _ = _
      rw [e1]; rfl
    · have hnew : (L.uses ++ [(b, own)])[L.live.count]? = some (b, own) := by
        rw [← r.ulen]; simp
      refine ⟨r1, ?_, ?_, ?_, ?_, ?_, ?_⟩
      · show s'.uses ++ _ = L.uses ++ _
        rw [u1, r.uses]
      · show (L.uses ++ [(b, own)]).length = (L.live.step e).count
        rw [List.length_append, r.ulen, hcount]; rfl
      · exact l1.trans r.mlen
      · intro x
        show s'.mem[x]? = some true ↔ (Owner.held ((if own then setOwner L.owner b (.context L.live.count) else L.owner) x)) = true
        rw [m1 x]
        cases own with
        | false => simp
        | true =>
          simp only [if_true, setOwner]
          split
          · next h => subst h; rw [hb]; simp [Owner.held]
          · exact Iff.rfl
      · intro x i hx
        change (if own then setOwner L.owner b (.context L.live.count) else L.owner) x = .context i at hx
        show i ∈ (L.live.step e).all ∧ (L.uses ++ [(b, own)])[i]? = some (x, true)
        have old : L.owner x = .context i →
            i ∈ (L.live.step e).all ∧ (L.uses ++ [(b, own)])[i]? = some (x, true) := by
          intro h
          obtain ⟨h1, h2⟩ := r.own x i h
          refine ⟨(hall i).mpr (Or.inr h1), ?_⟩
          rw [List.getElem?_append_left (hlt i h1)]
          exact h2
        cases own with
        | false => exact old (by simpa using hx)
        | true =>
          simp only [if_true, setOwner] at hx
          split at hx
          · next h =>
            cases hx
            subst h
            exact ⟨(hall _).mpr (Or.inl rfl), hnew⟩
          · exact old hx
      · intro i hi
        show ∃ x o, (L.uses ++ [(b, own)])[i]? = some (x, o) ∧
          (if own then setOwner L.owner b (.context L.live.count) else L.owner) x = if o then .context i else .host
        rcases (hall i).mp hi with rfl | hj
        · refine ⟨b, own, hnew, ?_⟩
          cases own with
          | false => simpa using hb
          | true => simp [setOwner]
        · obtain ⟨x, o, h1, h2⟩ := r.use i hj
          refine ⟨x, o, by rw [List.getElem?_append_left (hlt i hj)]; exact h1, ?_⟩
          cases own with
          | false => simpa using h2
          | true =>
            have hne : x ≠ b := by
              rintro rfl
              exact hu rfl rfl i hj o h1
            simp only [if_true, setOwner, if_neg hne]
            exact h2

theorem inv_gone {s : BSt} {L : Ledger} (r : Inv s L) {e : Ev} (ha : Allowed L.live e)
    (hsub : ∀ i ∈ (L.live.step e).all, i ∈ L.live.all) (hcount : (L.live.step e).count = L.live.count) :
    ∃ s', onContexts s e = .ok s' ∧
      Inv s' { L with live := L.live.step e, owner := settle (L.live.step e) L.owner } := by
  obtain ⟨s', e1, r1, u1, l1, m1⟩ := onContexts_spec r ha
  refine ⟨s', e1, r1, u1.trans r.uses, r.ulen.trans hcount.symm, l1.trans r.mlen, m1, ?_, ?_⟩
  · intro b i h
    change settle (L.live.step e) L.owner b = .context i at h
    cases hb : L.owner b with
    | context j =>
      by_cases hj : j ∈ (L.live.step e).all
      · simp only [settle, hb, if_pos hj, Owner.context.injEq] at h
        subst h
        exact ⟨hj, (r.own b j hb).2⟩
      · simp [settle, hb, if_neg hj] at h
    | _ => simp [settle, hb] at h
  · intro i hi
    obtain ⟨b, o, h1, h2⟩ := r.use i (hsub i hi)
    refine ⟨b, o, h1, ?_⟩
    show settle (L.live.step e) L.owner b = _
    cases o with
    | true =>
      simp only [if_true] at h2
      have hi' : i ∈ (L.live.step e).all := hi
      simp [settle, h2, hi']
    | false =>
      simp only [Bool.false_eq_true, if_false] at h2
      simp [settle, h2]

theorem mem_insertAfter (c i : Nat) : ∀ (a : Nat) (xs : List Nat) (x : Nat),
    x ∈ insertAfter c i a xs → x = i ∨ x ∈ xs
  | a, [], x, h => by
    unfold insertAfter at h
    split at h
    · simpa using h
    · simp at h
  | a, y :: ys, x, h => by
    unfold insertAfter at h
    split at h
    · simpa using h
    · rcases List.mem_cons.mp h with rfl | h
      · simp
      · rcases mem_insertAfter c i y ys x h with h | h
        · exact Or.inl h
        · exact Or.inr (List.mem_cons_of_mem _ h)

theorem all_end (l : Live) (g : Bool) : ∀ x ∈ (l.step (.importEnd g)).all, x ∈ l.all := by
  intro x hx
  cases hf : l.floating with
  | nil => simpa only [Live.step, hf] using hx
  | cons p fs =>
    obtain ⟨c, i, own⟩ := p
    have hi : i ∈ l.all := by
      simp only [Live.all, Live.roots, hf, List.map_cons, List.mem_flatMap, List.mem_append, List.mem_cons]
      exact ⟨(i, own), Or.inr (Or.inl rfl), Or.inl rfl⟩
    have hroot : ∀ p ∈ l.list, ∀ y ∈ p.1 :: p.2, y ∈ l.all := fun p hp y hy =>
      List.mem_flatMap.mpr ⟨p, List.mem_append.mpr (Or.inl hp), hy⟩
    have hflo : ∀ p ∈ fs, ∀ y ∈ p.2.1 :: p.2.2, y ∈ l.all := fun p hp y hy =>
      List.mem_flatMap.mpr ⟨(p.2.1, p.2.2), List.mem_append.mpr (Or.inr (by
        rw [hf]; exact List.mem_map.mpr ⟨p, List.mem_cons_of_mem _ hp, rfl⟩)), hy⟩
    obtain ⟨q, hq, hxq⟩ := List.mem_flatMap.mp hx
    simp only [Live.step, hf] at hq
    cases g with
    | false =>
      simp only [Bool.false_eq_true, if_false, Live.roots, List.mem_append, List.mem_map] at hq
      rcases hq with hq | ⟨p, hp, rfl⟩
      · exact hroot q hq x hxq
      · exact hflo p hp x hxq
    | true =>
      simp only [if_true, Live.roots, List.mem_append, List.mem_map] at hq
      rcases hq with ⟨p, hp, rfl⟩ | ⟨p', ⟨p, hp, rfl⟩, rfl⟩
      · rcases List.mem_cons.mp hxq with h | h
        · exact hroot p hp x (by rw [h]; simp)
        · rcases mem_insertAfter _ _ _ _ _ h with rfl | h
          · exact hi
          · exact hroot p hp x (List.mem_cons_of_mem _ h)
      · rcases List.mem_cons.mp hxq with h | h
        · exact hflo p hp x (by rw [h]; simp)
        · rcases mem_insertAfter _ _ _ _ _ h with rfl | h
          · exact hi
          · exact hflo p hp x (List.mem_cons_of_mem _ h)

theorem all_destroy (l : Live) (c : Nat) : ∀ x ∈ (l.step (.destroy c)).all, x ∈ l.all := by
  intro x hx
  obtain ⟨q, hq, hxq⟩ := List.mem_flatMap.mp hx
  simp only [Live.step, Live.roots, List.mem_append] at hq
  refine List.mem_flatMap.mpr ⟨q, List.mem_append.mpr ?_, hxq⟩
  rcases hq with hq | hq
  · exact Or.inl (List.mem_filter.mp hq).1
  · exact Or.inr hq

theorem count_end (l : Live) (g : Bool) : (l.step (.importEnd g)).count = l.count := by
  simp only [Live.step]
  cases l.floating with
  | nil => rfl
  | cons p fs => obtain ⟨c, i, own⟩ := p; cases g <;> rfl

/-- The host's own or a copied block is added. -/
theorem inv_alloc {s : BSt} {L : Ledger} (r : Inv s L) {o : Owner} (h1 : o.held = true) (h2 : ∀ i, o ≠ .context i) :
    Inv { s with mem := s.mem ++ [true] } { L with blocks := L.blocks + 1, owner := setOwner L.owner L.blocks o } := by
  have hno : ∀ b, (L.owner b).held = true → b ≠ L.blocks := by
    rintro b h rfl
    have := (r.mem L.blocks).mpr h
    rw [← r.mlen, List.getElem?_eq_none (Nat.le_refl _)] at this
    cases this
  refine ⟨r.rep, r.uses, r.ulen, by simp [r.mlen], ?_, ?_, ?_⟩
  · intro b
    show (s.mem ++ [true])[b]? = some true ↔ (setOwner L.owner L.blocks o b).held = true
    by_cases hb : b = L.blocks
    · subst hb
      rw [← r.mlen]
      simp [setOwner, h1]
    · rw [setOwner, if_neg hb, ← r.mem b]
      rcases Nat.lt_or_ge b s.mem.length with h | h
      · rw [List.getElem?_append_left h]
      · have : s.mem.length + 1 ≤ b := by have := r.mlen; omega
        rw [List.getElem?_eq_none h, List.getElem?_eq_none (by simpa using this)]
  · intro b i h
    change (if b = L.blocks then o else L.owner b) = .context i at h
    split at h
    · exact absurd h (h2 i)
    · exact r.own b i h
  · intro i hi
    obtain ⟨b, w, h3, h4⟩ := r.use i hi
    refine ⟨b, w, h3, ?_⟩
    show (if b = L.blocks then o else L.owner b) = _
    rw [if_neg (hno b (by rw [h4]; cases w <;> rfl))]
    exact h4

theorem inv_step {s : BSt} {L : Ledger} (r : Inv s L) {e : BEv} (ha : May L e) :
    ∃ s', bstep s e = .ok s' ∧ Inv s' (L.step e) := by
  cases e with
  | alloc => exact ⟨_, rfl, inv_alloc r rfl (by intro i h; cases h)⟩
  | hostFree b =>
    obtain ⟨hb, hu⟩ := ha
    have hm : s.mem[b]? = some true := (r.mem b).mpr (by rw [hb]; rfl)
    refine ⟨{ s with mem := s.mem.set b false }, by rw [bstep, free, if_pos hm]; rfl, r.rep, r.uses, r.ulen,
      by simp [Ledger.step, r.mlen], ?_, ?_, ?_⟩
    · intro x
      show (s.mem.set b false)[x]? = some true ↔ (if x = b then Owner.freed else L.owner x).held = true
      by_cases hx : x = b
      · subst hx
        rw [if_pos rfl, List.getElem?_set_self']
        constructor
        · intro h
          rw [hm] at h
          simp at h
        · intro h; cases h
      · rw [if_neg hx, List.getElem?_set_ne (Ne.symm hx)]
        exact r.mem x
    · intro x i h
      change (if x = b then Owner.freed else L.owner x) = .context i at h
      split at h
      · cases h
      · exact r.own x i h
    · intro i hi
      obtain ⟨x, o, h1, h2⟩ := r.use i hi
      refine ⟨x, o, h1, ?_⟩
      show (if x = b then Owner.freed else L.owner x) = _
      rw [if_neg (by rintro rfl; exact hu i hi o h1)]
      exact h2
  | new b good own =>
    exact inv_create r (e := .new) trivial (all_new _) rfl ha.1 ha.2
  | importBegin c b good own =>
    exact inv_create r (e := .importBegin c) ha.2.2 (all_import _ c) rfl ha.1 ha.2.1
  | importEnd g =>
    obtain ⟨s', e1, r1⟩ := inv_gone r (e := .importEnd g) ha (all_end _ g) (count_end _ g)
    refine ⟨s', ?_, r1⟩
    rw [← e1]
    have hp := r.rep.pending
    cases hf : L.live.floating with
    | nil =>
      rw [hf] at hp
      simp only [bstep, hp, List.map_nil]
    | cons p fs =>
      rw [hf] at hp
      have hi : p.2.1 ∈ L.live.all := by
        simp only [Live.all, Live.roots, hf, List.map_cons, List.mem_flatMap, List.mem_append, List.mem_cons]
        exact ⟨(p.2.1, p.2.2), Or.inr (Or.inl rfl), Or.inl rfl⟩
      simp only [bstep, hp, List.map_cons, touch_ok r hi, Res.bind]
  | destroy c => exact inv_gone r (e := .destroy c) ha (all_destroy _ c) rfl
  | call c => exact ⟨s, by rw [bstep, touch_ok r ha]; rfl, r⟩
  | scriptImport c good =>
    have ht := touch_ok r ha
    cases good with
    | false =>
      refine ⟨{ s with mem := s.mem ++ [true] }, ?_, inv_alloc r rfl (by intro i h; cases h)⟩
      rw [bstep, ht]
      show create _ _ _ _ _ = _
      rw [create, read, if_pos (by simp)]
      rfl
    | true =>
      have r' := inv_alloc (o := .host) r rfl (by intro i h; cases h)
      obtain ⟨s', e1, r1⟩ := inv_create r' (e := .importBegin c) (b := L.blocks) (good := true) (own := true) ha
        (all_import _ c) rfl (by simp [setOwner]) (by
          intro _ _ i hi o h
          obtain ⟨x, w, h3, h4⟩ := r.use i hi
          have hx : s.mem[x]? = some true := (r.mem x).mpr (by rw [h4]; cases w <;> rfl)
          change L.uses[i]? = some (L.blocks, o) at h
          rw [h3] at h
          cases h
          rw [← r.mlen, List.getElem?_eq_none (Nat.le_refl _)] at hx
          cases hx)
      refine ⟨s', ?_, ?_⟩
      · rw [bstep, ht]
        show create _ _ _ _ _ = _
        rw [r.mlen]; exact e1
      · have he : L.step (.scriptImport c true) = Ledger.created
            { L with blocks := L.blocks + 1, owner := setOwner L.owner L.blocks .host } (.importBegin c) L.blocks true true := by
          simp only [Ledger.step, Ledger.created, if_true]
          congr 1
          funext x
          simp only [setOwner]
          split <;> rfl
        rw [he]; exact r1

theorem inv_run : ∀ (es : List BEv) {s : BSt} {L : Ledger}, Inv s L → MayRun L es →
    ∃ s', brun s es = .ok s' ∧ Inv s' (L.run es)
  | [], s, _, r, _ => ⟨s, rfl, r⟩
  | e :: es, s, L, r, ha => by
    obtain ⟨s1, e1, r1⟩ := inv_step r ha.1
    obtain ⟨s2, e2, r2⟩ := inv_run es r1 ha.2
    exact ⟨s2, by rw [brun, e1]; exact e2, r2⟩

end Wrench.Blocks
