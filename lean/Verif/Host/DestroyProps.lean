import Verif.Host.ContextProps
import Mathlib.Data.List.Perm.Subperm

namespace Wrench.Host

theorem freeImports_ok {c : Nat} : ∀ (xs : List Nat) (h : Heap) (fuel : Nat), xs.length < fuel →
    Ring h c xs → (c :: xs).Nodup → (∀ x ∈ c :: xs, node h x ≠ none) →
    ∃ h', freeImports c fuel h = .ok h' ∧ h'.length = h.length ∧ node h' c ≠ none ∧
      (∀ b, b ≠ c → node h' b = if b ∈ xs then none else node h b)
  | [], h, fuel + 1, _, hr, _, hl => by
    have hc := hl c (by simp)
    have hi : imp h c = none := by
      rcases hr with ⟨_, h2⟩ | ⟨h1, _⟩
      · exact h2
      · exact absurd rfl h1
    refine ⟨h, ?_, rfl, hc, fun b _ => by simp⟩
    unfold freeImports
    cases e : node h c with
    | none => exact absurd e hc
    | some n =>
      have : n.imported = none := by unfold imp at hi; rw [e] at hi; exact hi
      simp [this]
  | i :: xs, h, fuel + 1, hf, hr, hn, hl => by
    have hlk : Links h c (i :: xs) c := by
      rcases hr with ⟨h1, _⟩ | ⟨_, h2⟩
      · cases h1
      · exact h2
    have hc := hl c (by simp)
    have hli := hl i (by simp)
    obtain ⟨hn1, hn2⟩ := List.nodup_cons.mp hn
    have hic : i ≠ c := fun e => hn1 (by simp [e])
    obtain ⟨hixs, hnxs⟩ := List.nodup_cons.mp hn2
    cases ec : node h c with
    | none => exact absurd ec hc
    | some nc =>
    cases ei : node h i with
    | none => exact absurd ei hli
    | some ni =>
    have h1 : nc.imported = some i := by
      have := hlk.1; unfold imp at this; rw [ec] at this; exact this
    have hii : imp h i = ni.imported := by unfold imp; rw [ei]; rfl
    obtain ⟨h', ed, hlen, hnode⟩ := destroyEx_ok hli
    have hc' : node h' c ≠ none := by rw [hnode, if_neg hic.symm]; exact hc
    generalize hh : setNode h' c { nc with imported := if ni.imported = some c then none else ni.imported } = h2
    have hnode2 : ∀ b, node h2 b = if b = c then some { nc with imported := if ni.imported = some c then none else ni.imported }
        else if b = i then none else node h b := by
      intro b; rw [← hh, node_setNode hc', hnode]
    have himp : ∀ b, b ≠ c → b ≠ i → imp h2 b = imp h b := by
      intro b hb1 hb2; unfold imp; rw [hnode2, if_neg hb1, if_neg hb2]
    have himpc : imp h2 c = if ni.imported = some c then none else ni.imported := by
      unfold imp; rw [hnode2, if_pos rfl]; rfl
    have hring : Ring h2 c xs := by
      cases xs with
      | nil =>
        refine Or.inl ⟨rfl, ?_⟩
        have : imp h i = some c := hlk.2
        rw [himpc, ← hii, this, if_pos rfl]
      | cons x xs =>
        have hx : imp h i = some x := hlk.2.1
        refine Or.inr ⟨by simp, ?_, ?_⟩
        · rw [himpc, ← hii, hx, if_neg]
          intro e
          apply hn1
          simp [Option.some.inj e]
        · refine hlk.2.2.congr (fun y hy => himp y ?_ ?_)
          · rintro rfl; exact hn1 (List.mem_cons_of_mem _ hy)
          · rintro rfl; exact hixs hy
    obtain ⟨h3, e3, hl3, hc3, hn3⟩ := freeImports_ok xs h2 fuel (by simpa using hf) hring
      (List.nodup_cons.mpr ⟨fun hm => hn1 (List.mem_cons_of_mem _ hm), hnxs⟩)
      (fun x hx => by
        rw [hnode2]
        by_cases hxc : x = c
        · rw [if_pos hxc]; simp
        · have hx' := (List.mem_cons.mp hx).resolve_left hxc
          rw [if_neg hxc, if_neg (fun (e : x = i) => hixs (e ▸ hx'))]
          exact hl x (by simp [hx']))
    refine ⟨h3, ?_, ?_, hc3, ?_⟩
    · unfold freeImports
      rw [ec]
      dsimp only
      rw [h1]
      dsimp only
      rw [ei]
      dsimp only
      rw [ed]
      show freeImports c fuel (setNode h' c _) = _
      rw [hh, e3]
    · rw [hl3, ← hh]; simp [setNode, hlen]
    · intro b hb
      rw [hn3 b hb, hnode2, if_neg hb]
      by_cases hbx : b ∈ xs
      · simp [hbx]
      · by_cases hbi : b = i
        · simp [hbi]
        · simp [hbi, hbx]

/-- What is left of the search once the context is found. -/
private def finish (c : Nat) (prev : Option Nat) (na : Node) (s : St) : Res St :=
  (unlink s prev na).bind fun s =>
  (freeImports c (s.heap.length + 1) s.heap).bind fun h =>
  (destroyEx h c).bind fun h => .ok { s with heap := h }

private theorem loop_absent {c : Nat} (s : St) : ∀ (as : List Nat) (fuel : Nat) (prev o : Option Nat),
    as.length < fuel → Chain s.heap o as → (∀ a ∈ as, node s.heap a ≠ none) → c ∉ as →
    destroyLoop c fuel prev o s = .ok s
  | [], fuel + 1, prev, o, _, hc, _, _ => by
    have : o = none := hc
    subst this
    rfl
  | a :: as, fuel + 1, prev, o, hf, hc, hl, hn => by
    obtain ⟨rfl, hc⟩ := hc
    cases e : node s.heap a with
    | none => exact absurd e (hl a (by simp))
    | some na =>
      unfold destroyLoop
      rw [e]
      dsimp only
      rw [if_neg (fun e => hn (by simp [e]))]
      refine loop_absent s as fuel _ _ (by simpa using hf) ?_ (fun x hx => hl x (by simp [hx])) (fun h => hn (by simp [h]))
      unfold nxt at hc
      rw [e] at hc
      exact hc

private theorem loop_found {c : Nat} (s : St) {nc : Node} (hnc : node s.heap c = some nc) :
    ∀ (as bs : List Nat) (fuel : Nat) (prev o : Option Nat),
    as.length < fuel → Chain s.heap o (as ++ c :: bs) → (∀ a ∈ as, node s.heap a ≠ none) → c ∉ as →
    destroyLoop c fuel prev o s = finish c (as.getLast?.or prev) nc s
  | [], bs, fuel + 1, prev, o, _, hc, _, _ => by
    obtain ⟨rfl, hc⟩ := hc
    unfold destroyLoop
    rw [hnc]
    dsimp only
    rw [if_pos rfl]
    rfl
  | a :: as, bs, fuel + 1, prev, o, hf, hc, hl, hn => by
    obtain ⟨rfl, hc⟩ := hc
    cases e : node s.heap a with
    | none => exact absurd e (hl a (by simp))
    | some na =>
      unfold destroyLoop
      rw [e]
      dsimp only
      rw [if_neg (fun e => hn (by simp [e]))]
      rw [loop_found s hnc as bs fuel (some a) na.next (by simpa using hf) ?_ (fun x hx => hl x (by simp [hx])) (fun h => hn (by simp [h]))]
      · congr 1
        rw [List.getLast?_cons]
        cases as.getLast? <;> rfl
      · unfold nxt at hc
        rw [e] at hc
        exact hc

private theorem chain_cut {h h' : Heap} {c p : Nat} (hp : nxt h' p = nxt h c) (ho : ∀ x, x ≠ p → nxt h' x = nxt h x) :
    ∀ (as bs : List Nat) (o : Option Nat), as.getLast? = some p → Chain h o (as ++ c :: bs) →
    (as ++ c :: bs).Nodup → Chain h' o (as ++ bs)
  | [], _, _, hl, _, _ => by simp at hl
  | [a], bs, o, hl, hc, hn => by
    have : a = p := by simpa using hl
    subst this
    obtain ⟨rfl, _, hc⟩ := hc
    refine ⟨rfl, ?_⟩
    rw [hp]
    refine Chain.congr hc (fun x hx => ho x ?_)
    rintro rfl
    simp at hn
    exact hn.1.2 hx
  | a :: a' :: as, bs, o, hl, hc, hn => by
    obtain ⟨rfl, hc⟩ := hc
    have hl' : (a' :: as).getLast? = some p := by simpa using hl
    have hn' := List.nodup_cons.mp (show (a :: (a' :: as ++ c :: bs)).Nodup from hn)
    refine ⟨rfl, ?_⟩
    rw [ho a ?_]
    · exact chain_cut hp ho (a' :: as) bs _ hl' hc hn'.2
    · rintro rfl
      exact hn'.1 (by
        have : a ∈ a' :: as := List.mem_of_getLast? hl'
        rcases List.mem_cons.mp this with h | h <;> simp [h])

theorem rep_destroy {s : St} {l : Live} (r : Rep s l) {c : Nat} (hc : c ∈ l.all) :
    ∃ s', destroy s c = .ok s' ∧ Rep s' (l.step (.destroy c)) := by
  obtain ⟨cnt, L, F⟩ := l
  have hlc := (r.live c).mpr hc
  cases ec : node s.heap c with
  | none => exact absurd ec hlc
  | some nc =>
  have hd : destroy s c = destroyLoop c (s.heap.length + 1) none s.head s := by
    unfold destroy; rw [ec]
  have hchain : Chain s.heap s.head (L.map Prod.fst) := r.chain
  have hlive : ∀ a ∈ L.map Prod.fst, node s.heap a ≠ none :=
    fun a ha => (r.live a).mpr (mem_all_list (l := ⟨cnt, L, F⟩) ha)
  have hsub : (L.map Prod.fst).Sublist (Live.all ⟨cnt, L, F⟩) := by
    have h1 : (L.map Prod.fst).Sublist (L.flatMap fun p => p.1 :: p.2) := by
      clear hlive hchain hd r hc
      induction L with
      | nil => simp
      | cons p L ih =>
        rw [List.map_cons, List.flatMap_cons, List.cons_append]
        exact (ih.trans (List.sublist_append_right _ _)).cons_cons _
    unfold Live.all Live.roots
    rw [List.flatMap_append]
    exact h1.trans (List.sublist_append_left _ _)
  have hnd := r.nodup.sublist hsub
  have hlen : ∀ as : List Nat, as.Nodup → (∀ a ∈ as, node s.heap a ≠ none) → as.length ≤ s.heap.length := by
    intro as hn ha
    have : as ⊆ List.range s.heap.length := fun x hx => List.mem_range.mpr (node_lt (ha x hx))
    simpa using (List.subperm_of_subset hn this).length_le
  by_cases hcl : c ∈ L.map Prod.fst
  · obtain ⟨p, hp, hpc⟩ := List.mem_map.mp hcl
    obtain ⟨L1, L2, rfl⟩ := List.append_of_mem hp
    obtain ⟨c', ims⟩ := p
    have : c' = c := hpc
    subst this
    clear hp hpc
    simp only [List.map_append, List.map_cons] at hchain hnd hlive
    have hn1 : c' ∉ L1.map Prod.fst := by
      intro hm
      rw [List.nodup_append] at hnd
      exact hnd.2.2 c' hm c' (by simp) rfl
    have hn2 : c' ∉ L2.map Prod.fst := by
      rw [List.nodup_append] at hnd
      exact (List.nodup_cons.mp hnd.2.1).1
    rw [loop_found s ec (L1.map Prod.fst) (L2.map Prod.fst) _ none s.head ?_ hchain
      (fun a ha => hlive a (by simp at ha ⊢; exact Or.inl ha)) hn1] at hd
    rotate_left
    · have := hlen _ (hnd.sublist (List.sublist_append_left _ _)) (fun a ha => hlive a (List.mem_append.mpr (Or.inl ha)))
      omega
    have hor : (L1.map Prod.fst).getLast?.or none = (L1.map Prod.fst).getLast? := by
      cases (L1.map Prod.fst).getLast? <;> rfl
    rw [hor] at hd
    -- the unlinking
    obtain ⟨s1, hs1, hlen1, hch1, himp1, hnode1, hpend1⟩ : ∃ s1, unlink s (L1.map Prod.fst).getLast? nc = .ok s1 ∧
        s1.heap.length = s.heap.length ∧
        Chain s1.heap s1.head (L1.map Prod.fst ++ L2.map Prod.fst) ∧ (∀ x, imp s1.heap x = imp s.heap x) ∧
        (∀ x, node s1.heap x ≠ none ↔ node s.heap x ≠ none) ∧ s1.pending = s.pending := by
      cases hg : (L1.map Prod.fst).getLast? with
      | none =>
        have hnil : L1.map Prod.fst = [] := List.getLast?_eq_none_iff.mp hg
        refine ⟨{ s with head := nc.next }, rfl, rfl, ?_, fun _ => rfl, fun _ => Iff.rfl, rfl⟩
        rw [hnil] at hchain ⊢
        have := hchain.2
        unfold nxt at this
        rw [ec] at this
        exact this
      | some q =>
        have hq : q ∈ L1.map Prod.fst := List.mem_of_getLast? hg
        have hlq := hlive q (List.mem_append.mpr (Or.inl hq))
        cases eq : node s.heap q with
        | none => exact absurd eq hlq
        | some nq =>
          have hns : ∀ b, node (setNode s.heap q { nq with next := nc.next }) b =
              if b = q then some { nq with next := nc.next } else node s.heap b := node_setNode hlq
          refine ⟨{ s with heap := setNode s.heap q { nq with next := nc.next } }, ?_, by simp [setNode], ?_, ?_, ?_, rfl⟩
          · unfold unlink; dsimp only; rw [eq]
          · refine chain_cut (h := s.heap) (c := c') (p := q) ?_ ?_ _ _ _ hg hchain hnd
            · unfold nxt; dsimp only; rw [hns, if_pos rfl, ec]; rfl
            · intro x hx; unfold nxt; dsimp only; rw [hns, if_neg hx]
          · intro x
            unfold imp; dsimp only
            rw [hns]
            by_cases hx : x = q
            · rw [if_pos hx, hx, eq]; rfl
            · rw [if_neg hx]
          · intro x
            dsimp only
            rw [hns]
            by_cases hx : x = q
            · rw [if_pos hx, hx, eq]; simp
            · rw [if_neg hx]
    -- the imports
    have hroot : (c', ims) ∈ Live.roots ⟨cnt, L1 ++ (c', ims) :: L2, F⟩ := by unfold Live.roots; simp
    have hring : Ring s1.heap c' ims := (r.rings _ hroot).congr (fun x _ => himp1 x)
    have hperm : (Live.all ⟨cnt, L1 ++ (c', ims) :: L2, F⟩).Perm ((c' :: ims) ++ Live.all ⟨cnt, L1 ++ L2, F⟩) := by
      have : (Live.roots ⟨cnt, L1 ++ (c', ims) :: L2, F⟩).Perm ((c', ims) :: Live.roots ⟨cnt, L1 ++ L2, F⟩) := by
        unfold Live.roots
        simp only [List.append_assoc, List.cons_append]
        exact List.perm_middle
      exact this.flatMap_right (fun p : Nat × List Nat => p.1 :: p.2)
    have hnda := List.nodup_append.mp (hperm.nodup_iff.mp r.nodup)
    have hlims : ∀ x ∈ c' :: ims, node s1.heap x ≠ none := fun x hx =>
      (hnode1 x).mpr ((r.live x).mpr (hperm.mem_iff.mpr (List.mem_append.mpr (Or.inl hx))))
    have hlenims : ims.length < s1.heap.length + 1 := by
      have := hlen (c' :: ims) hnda.1 (fun a ha => (hnode1 a).mp (hlims a ha))
      simp at this
      omega
    obtain ⟨h2, e2, hl2, hc2, hn2'⟩ := freeImports_ok ims s1.heap _ hlenims hring hnda.1 hlims
    obtain ⟨h3, e3, hl3, hn3⟩ := destroyEx_ok hc2
    have hfin : ∀ b, node h3 b = if b ∈ c' :: ims then none else node s1.heap b := by
      intro b
      rw [hn3]
      by_cases hb : b = c'
      · simp [hb]
      · rw [if_neg hb, hn2' b hb]; simp [hb]
    have hrest : ∀ x ∈ Live.all ⟨cnt, L1 ++ L2, F⟩, node h3 x = node s1.heap x := by
      intro x hx
      rw [hfin, if_neg (fun hm => hnda.2.2 x hm x hx rfl)]
    have hstep : Live.step ⟨cnt, L1 ++ (c', ims) :: L2, F⟩ (.destroy c') = ⟨cnt, L1 ++ L2, F⟩ := by
      show Live.mk cnt ((L1 ++ (c', ims) :: L2).filter fun p => p.1 ≠ c') F = _
      have hf : ∀ L : List (Nat × List Nat), c' ∉ L.map Prod.fst → (L.filter fun p => p.1 ≠ c') = L := by
        intro L hL
        rw [List.filter_eq_self]
        intro p hp
        simp only [ne_eq, decide_not, Bool.not_eq_eq_eq_not, Bool.not_true, decide_eq_false_iff_not]
        intro e
        exact hL (List.mem_map.mpr ⟨p, hp, e⟩)
      rw [List.filter_append, List.filter_cons, hf _ hn1, hf _ hn2]
      simp
    refine ⟨{ s1 with heap := h3 }, ?_, ?_⟩
    · rw [hd]
      unfold finish
      rw [hs1]
      show (freeImports c' (s1.heap.length + 1) s1.heap).bind _ = _
      rw [e2]
      show (destroyEx h2 c').bind _ = _
      rw [e3]
      rfl
    · rw [hstep]
      refine ⟨?_, ?_, hnda.2.1, ?_, ?_, hpend1.trans r.pending⟩
      · show h3.length = cnt
        rw [hl3, hl2, hlen1]; exact r.count
      · intro a
        dsimp only
        rw [hfin]
        by_cases ha : a ∈ c' :: ims
        · rw [if_pos ha]
          exact ⟨fun h => absurd rfl h, fun h => absurd rfl (hnda.2.2 a ha a h)⟩
        · rw [if_neg ha, hnode1, r.live, hperm.mem_iff, List.mem_append]
          exact ⟨fun h => h.resolve_left ha, Or.inr⟩
      · dsimp only
        rw [List.map_append]
        refine hch1.congr (fun x hx => ?_)
        unfold nxt
        rw [hrest x (mem_all_list (l := ⟨cnt, L1 ++ L2, F⟩) (by simpa using hx))]
      · intro p hp
        have hp' : p ∈ Live.roots ⟨cnt, L1 ++ (c', ims) :: L2, F⟩ := by
          unfold Live.roots at hp ⊢
          simp only [List.mem_append, List.mem_cons] at hp ⊢
          rcases hp with (h | h) | h
          · exact Or.inl (Or.inl h)
          · exact Or.inl (Or.inr (Or.inr h))
          · exact Or.inr h
        refine (r.rings p hp').congr (fun x hx => ?_)
        unfold imp; dsimp only
        rw [hrest x (mem_all_root hp hx)]
        exact himp1 x
  · rw [loop_absent s (L.map Prod.fst) _ none s.head ?_ hchain hlive hcl] at hd
    · refine ⟨s, hd, ?_⟩
      have : Live.step ⟨cnt, L, F⟩ (.destroy c) = ⟨cnt, L, F⟩ := by
        show Live.mk cnt (L.filter fun p => p.1 ≠ c) F = _
        congr 1
        rw [List.filter_eq_self]
        intro p hp
        simp only [ne_eq, decide_not, Bool.not_eq_eq_eq_not, Bool.not_true, decide_eq_false_iff_not]
        intro e
        exact hcl (List.mem_map.mpr ⟨p, hp, e⟩)
      rw [this]
      exact r
    · have := hlen _ hnd hlive
      omega

/-! ### Runs -/

theorem rep_step {s : St} {l : Live} (r : Rep s l) {e : Ev} (ha : Allowed l e) :
    ∃ s', step s e = .ok s' ∧ Rep s' (l.step e) := by
  cases e with
  | new => exact rep_new r
  | importBegin c => exact rep_importBegin r ha
  | importEnd g => exact rep_importEnd r ha
  | destroy c => exact rep_destroy r ha

def noneLive : Live := ⟨0, [], []⟩

theorem rep_start : Rep start noneLive := by
  refine ⟨rfl, ?_, List.nodup_nil, rfl, ?_, rfl⟩
  · intro a; simp [start, node, noneLive, Live.all, Live.roots]
  · intro p hp; simp [noneLive, Live.roots] at hp

theorem rep_run : ∀ (es : List Ev) {s : St} {l : Live}, Rep s l → AllowedRun l es →
    ∃ s', run s es = .ok s' ∧ Rep s' (l.run es)
  | [], s, l, r, _ => ⟨s, rfl, r⟩
  | e :: es, s, l, r, ha => by
    obtain ⟨s1, e1, r1⟩ := rep_step r ha.1
    obtain ⟨s2, e2, r2⟩ := rep_run es r1 ha.2
    refine ⟨s2, ?_, r2⟩
    unfold run
    rw [e1]
    exact e2

end Wrench.Host
