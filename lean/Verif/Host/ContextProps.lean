import Verif.Host.Contexts
import Mathlib.Tactic.ByContra

namespace Wrench.Host

/-! ### Nodes -/

theorem node_lt {h : Heap} {a : Nat} (hn : node h a ≠ none) : a < h.length := by
  by_contra hc
  apply hn
  unfold node
  rw [List.getElem?_eq_none (by omega)]
  rfl

theorem node_setNode {h : Heap} {a : Nat} {n : Node} (ha : node h a ≠ none) (b : Nat) :
    node (setNode h a n) b = if b = a then some n else node h b := by
  have := node_lt ha
  unfold node setNode
  rw [List.getElem?_set]
  by_cases hb : b = a
  · subst hb; simp [this]
  · rw [if_neg (fun e => hb e.symm), if_neg hb]

theorem node_create (h : Heap) (b : Nat) :
    node (create h) b = if b = h.length then some ⟨none, none⟩ else node h b := by
  unfold node create
  by_cases hb : b = h.length
  · subst hb; simp
  · rw [if_neg hb]
    by_cases hl : b < h.length
    · rw [List.getElem?_append_left hl]
    · rw [List.getElem?_eq_none (by simp; omega), List.getElem?_eq_none (by omega)]

theorem destroyEx_ok {h : Heap} {a : Nat} (ha : node h a ≠ none) :
    ∃ h', destroyEx h a = .ok h' ∧ h'.length = h.length ∧ ∀ b, node h' b = if b = a then none else node h b := by
  have hl := node_lt ha
  refine ⟨h.set a none, ?_, by simp, ?_⟩
  · unfold destroyEx
    cases e : node h a with
    | none => exact absurd e ha
    | some n => rfl
  · intro b
    unfold node
    rw [List.getElem?_set]
    by_cases hb : b = a
    · subst hb; simp [hl]
    · rw [if_neg (fun e => hb e.symm), if_neg hb]

def imp (h : Heap) (a : Nat) : Option Nat := (node h a).bind (·.imported)
def nxt (h : Heap) (a : Nat) : Option Nat := (node h a).bind (·.next)

/-! ### Rings and chains -/

def Links (h : Heap) : Nat → List Nat → Nat → Prop
  | a, [], e => imp h a = some e
  | a, x :: xs, e => imp h a = some x ∧ Links h x xs e

def Ring (h : Heap) (r : Nat) (xs : List Nat) : Prop :=
  (xs = [] ∧ imp h r = none) ∨ (xs ≠ [] ∧ Links h r xs r)

def Chain (h : Heap) : Option Nat → List Nat → Prop
  | o, [] => o = none
  | o, a :: as => o = some a ∧ Chain h (nxt h a) as

theorem Links.congr {h h' : Heap} : ∀ {xs : List Nat} {a e : Nat}, Links h a xs e →
    (∀ x ∈ a :: xs, imp h' x = imp h x) → Links h' a xs e
  | [], a, e, hl, hc => (hc a (by simp)).trans hl
  | x :: xs, a, e, hl, hc =>
    ⟨(hc a (by simp)).trans hl.1, Links.congr hl.2 (fun y hy => hc y (List.mem_cons_of_mem _ hy))⟩

theorem Ring.congr {h h' : Heap} {r : Nat} {xs : List Nat} (hr : Ring h r xs)
    (hc : ∀ x ∈ r :: xs, imp h' x = imp h x) : Ring h' r xs := by
  rcases hr with ⟨h1, h2⟩ | ⟨h1, h2⟩
  · exact Or.inl ⟨h1, (hc r (by simp)).trans h2⟩
  · exact Or.inr ⟨h1, h2.congr hc⟩

theorem Chain.congr {h h' : Heap} : ∀ {as : List Nat} {o : Option Nat}, Chain h o as →
    (∀ x ∈ as, nxt h' x = nxt h x) → Chain h' o as
  | [], _, hl, _ => hl
  | a :: as, o, hl, hc => by
    refine ⟨hl.1, ?_⟩
    rw [hc a (by simp)]
    exact Chain.congr hl.2 (fun y hy => hc y (List.mem_cons_of_mem _ hy))

theorem links_some {h : Heap} : ∀ (xs : List Nat) (a e : Nat), Links h a xs e → ∀ c ∈ a :: xs,
    ∃ y, imp h c = some y
  | [], a, e, hl, c, hc => by
    have : c = a := by simpa using hc
    exact ⟨e, this ▸ hl⟩
  | x :: xs, a, e, hl, c, hc => by
    rcases List.mem_cons.mp hc with rfl | hc
    · exact ⟨x, hl.1⟩
    · exact links_some xs x e hl.2 c hc

/-- The model state is the lists `l`. -/
structure Rep (s : St) (l : Live) : Prop where
  count : s.heap.length = l.count
  live : ∀ a, node s.heap a ≠ none ↔ a ∈ l.all
  nodup : l.all.Nodup
  chain : Chain s.heap s.head (l.list.map Prod.fst)
  rings : ∀ p ∈ l.roots, Ring s.heap p.1 p.2
  pending : s.pending = l.floating.map fun p => (p.1, p.2.1)

theorem mem_all_root {l : Live} {p : Nat × List Nat} (h : p ∈ l.roots) {x : Nat} (hx : x ∈ p.1 :: p.2) :
    x ∈ l.all := List.mem_flatMap.mpr ⟨p, h, hx⟩

theorem mem_all_list {l : Live} {x : Nat} (h : x ∈ l.list.map Prod.fst) : x ∈ l.all := by
  obtain ⟨p, hp, rfl⟩ := List.mem_map.mp h
  exact mem_all_root (List.mem_append.mpr (Or.inl hp)) (by simp)

theorem fresh_all {s : St} {l : Live} (r : Rep s l) : l.count ∉ l.all := by
  intro h
  have := node_lt ((r.live _).mpr h)
  rw [r.count] at this
  omega

/-! ### Creating -/

theorem rep_new {s : St} {l : Live} (r : Rep s l) :
    ∃ s', newContext s = .ok s' ∧ Rep s' (l.step .new) := by
  have hn : node (create s.heap) s.heap.length ≠ none := by rw [node_create, if_pos rfl]; simp
  have hnode : ∀ b, node (setNode (create s.heap) s.heap.length ⟨s.head, none⟩) b =
      if b = l.count then some ⟨s.head, none⟩ else node s.heap b := by
    intro b
    rw [node_setNode hn, node_create, r.count]
    split <;> simp_all
  have hfr := fresh_all r
  have hall : (l.step .new).all = l.count :: l.all := rfl
  refine ⟨_, rfl, ?_, ?_, ?_, ?_, ?_, r.pending⟩
  · show (setNode (create s.heap) _ _).length = _
    simp only [setNode, create, List.length_set, List.length_append, List.length_cons, List.length_nil, r.count]
    rfl
  · intro a
    rw [hall]
    dsimp only
    rw [hnode, List.mem_cons, ← r.live]
    by_cases ha : a = l.count <;> simp [ha]
  · rw [hall]; exact List.nodup_cons.mpr ⟨hfr, r.nodup⟩
  · refine ⟨congrArg some r.count, ?_⟩
    show Chain _ (nxt _ l.count) (l.list.map Prod.fst)
    have : nxt (setNode (create s.heap) s.heap.length ⟨s.head, none⟩) l.count = s.head := by
      unfold nxt; rw [hnode, if_pos rfl]; rfl
    dsimp only
    rw [this]
    refine r.chain.congr (fun x hx => ?_)
    unfold nxt
    rw [hnode, if_neg (fun (e : x = l.count) => hfr (e ▸ mem_all_list hx))]
  · intro p hp
    rcases List.mem_cons.mp (show p ∈ (l.count, []) :: l.roots from hp) with rfl | hp
    · refine Or.inl ⟨rfl, ?_⟩
      unfold imp; dsimp only; rw [hnode, if_pos rfl]; rfl
    · refine (r.rings p hp).congr (fun x hx => ?_)
      unfold imp; dsimp only
      rw [hnode, if_neg (fun (e : x = l.count) => hfr (e ▸ mem_all_root hp hx))]

theorem rep_importBegin {s : St} {l : Live} (r : Rep s l) {c : Nat} (hc : c ∈ l.all) :
    ∃ s', importBegin s c = .ok s' ∧ Rep s' (l.step (.importBegin c)) := by
  have hnc := (r.live c).mpr hc
  have hnode : ∀ b, node (create s.heap) b = if b = l.count then some ⟨none, none⟩ else node s.heap b := by
    intro b; rw [node_create, r.count]
  have hfr := fresh_all r
  have hperm : (l.step (.importBegin c)).roots.Perm ((l.count, []) :: l.roots) :=
    List.perm_middle
  have hall : (l.step (.importBegin c)).all.Perm (l.count :: l.all) := by
    have := hperm.flatMap_right (fun p : Nat × List Nat => p.1 :: p.2)
    exact this
  refine ⟨{ s with heap := create s.heap, pending := (c, s.heap.length) :: s.pending }, ?_, ?_, ?_, ?_, ?_, ?_, ?_⟩
  · unfold importBegin
    cases e : node s.heap c with
    | none => exact absurd e hnc
    | some n => rfl
  · show (create s.heap).length = _
    simp only [create, List.length_append, List.length_cons, List.length_nil, r.count]
    rfl
  · intro a
    rw [hall.mem_iff]
    dsimp only
    rw [hnode, List.mem_cons, ← r.live]
    by_cases ha : a = l.count <;> simp [ha]
  · exact hall.nodup_iff.mpr (List.nodup_cons.mpr ⟨hfr, r.nodup⟩)
  · refine r.chain.congr (fun x hx => ?_)
    unfold nxt; dsimp only
    rw [hnode, if_neg (fun (e : x = l.count) => hfr (e ▸ mem_all_list hx))]
  · intro p hp
    rcases List.mem_cons.mp (hperm.mem_iff.mp hp) with rfl | hp
    · refine Or.inl ⟨rfl, ?_⟩
      unfold imp; dsimp only; rw [hnode, if_pos rfl]; rfl
    · refine (r.rings p hp).congr (fun x hx => ?_)
      unfold imp; dsimp only
      rw [hnode, if_neg (fun (e : x = l.count) => hfr (e ▸ mem_all_root hp hx))]
  · show (c, s.heap.length) :: s.pending = (c, l.count) :: l.floating.map _
    rw [r.pending, r.count]

/-! ### Linking an import in -/

theorem insertAfter_of_notMem {c i : Nat} : ∀ (xs : List Nat) (a : Nat), c ∉ a :: xs →
    insertAfter c i a xs = xs
  | [], a, h => by
    unfold insertAfter
    rw [if_neg (fun e => h (by simp [e]))]
  | x :: xs, a, h => by
    unfold insertAfter
    rw [if_neg (fun e => h (by simp [e]))]
    dsimp only
    rw [insertAfter_of_notMem xs x (fun hm => h (List.mem_cons_of_mem _ hm))]

theorem insertAfter_perm {c i : Nat} : ∀ (xs : List Nat) (a : Nat), c ∈ a :: xs →
    (a :: insertAfter c i a xs).Perm (i :: a :: xs)
  | xs, a, h => by
    unfold insertAfter
    by_cases hac : a = c
    · rw [if_pos hac]
      exact List.Perm.swap _ _ _
    · rw [if_neg hac]
      cases xs with
      | nil => simp at h; exact absurd h.symm hac
      | cons x xs =>
        dsimp only
        have hm : c ∈ x :: xs := by
          rcases List.mem_cons.mp h with e | h
          · exact absurd e.symm hac
          · exact h
        exact ((insertAfter_perm xs x hm).cons a).trans (List.Perm.swap _ _ _)

theorem links_insert {h h' : Heap} {c i : Nat} (hi : imp h' i = imp h c) (hc : imp h' c = some i) :
    ∀ (xs : List Nat) (a e : Nat), Links h a xs e → c ∈ a :: xs → (a :: xs).Nodup →
    (∀ x ∈ a :: xs, x ≠ c → imp h' x = imp h x) → Links h' a (insertAfter c i a xs) e
  | xs, a, e, hl, hm, hn, ho => by
    unfold insertAfter
    rw [List.nodup_cons] at hn
    by_cases hac : a = c
    · subst hac
      rw [if_pos rfl]
      refine ⟨hc, ?_⟩
      cases xs with
      | nil => exact hi.trans hl
      | cons x xs =>
        refine ⟨hi.trans hl.1, hl.2.congr (fun y hy => ho y (List.mem_cons_of_mem _ hy) ?_)⟩
        rintro rfl
        exact hn.1 hy
    · rw [if_neg hac]
      cases xs with
      | nil => simp at hm; exact absurd hm.symm hac
      | cons x xs =>
        dsimp only
        have hm' : c ∈ x :: xs := by
          rcases List.mem_cons.mp hm with e | h
          · exact absurd e.symm hac
          · exact h
        refine ⟨(ho a (by simp) hac).trans hl.1, ?_⟩
        exact links_insert hi hc xs x e hl.2 hm' hn.2 (fun y hy => ho y (List.mem_cons_of_mem _ hy))

private def insRoot (c i : Nat) (p : Nat × List Nat) : Nat × List Nat := (p.1, insertAfter c i p.1 p.2)

private theorem flat_insert {c i : Nat} : ∀ (ps : List (Nat × List Nat)),
    (ps.flatMap fun p => p.1 :: p.2).Nodup →
    (c ∉ (ps.flatMap fun p => p.1 :: p.2) → ps.map (insRoot c i) = ps) ∧
    (c ∈ (ps.flatMap fun p => p.1 :: p.2) →
      ((ps.map (insRoot c i)).flatMap fun p => p.1 :: p.2).Perm (i :: ps.flatMap fun p => p.1 :: p.2))
  | [], _ => ⟨fun _ => rfl, fun h => by simp at h⟩
  | p :: ps, hn => by
    rw [List.flatMap_cons, List.nodup_append] at hn
    obtain ⟨h1, h2⟩ := flat_insert (c := c) (i := i) ps hn.2.1
    constructor
    · intro hc
      rw [List.flatMap_cons, List.mem_append, not_or] at hc
      rw [List.map_cons, h1 hc.2]
      unfold insRoot
      rw [insertAfter_of_notMem _ _ hc.1]
    · intro hc
      rw [List.flatMap_cons, List.mem_append] at hc
      rw [List.map_cons, List.flatMap_cons, List.flatMap_cons]
      by_cases hp : c ∈ p.1 :: p.2
      · have hnot : c ∉ (ps.flatMap fun p => p.1 :: p.2) := fun h => hn.2.2 c hp c h rfl
        rw [h1 hnot]
        exact (insertAfter_perm p.2 p.1 hp).append_right _
      · have hc' := hc.resolve_left hp
        have e : (insRoot c i p).1 :: (insRoot c i p).2 = p.1 :: p.2 := by
          unfold insRoot; rw [insertAfter_of_notMem _ _ hp]
        rw [e]
        exact ((h2 hc').append_left _).trans List.perm_middle

theorem rep_importEnd {s : St} {l : Live} (r : Rep s l) {g : Bool} (ha : Allowed l (.importEnd g)) :
    ∃ s', importEnd s g = .ok s' ∧ Rep s' (l.step (.importEnd g)) := by
  obtain ⟨cnt, L, F⟩ := l
  cases F with
  | nil =>
    have hp : s.pending = [] := r.pending
    refine ⟨s, ?_, r⟩
    unfold importEnd
    rw [hp]
  | cons f fs =>
    obtain ⟨c, i, own⟩ := f
    have hp : s.pending = (c, i) :: fs.map fun p => (p.1, p.2.1) := r.pending
    obtain ⟨rfl, hcm⟩ : own = [] ∧ c ∈ ({ count := cnt, list := L, floating := fs } : Live).all := ha
    have hroots : (Live.roots ⟨cnt, L, (c, i, []) :: fs⟩).Perm ((i, []) :: Live.roots ⟨cnt, L, fs⟩) :=
      List.perm_middle
    have hall : (Live.all ⟨cnt, L, (c, i, []) :: fs⟩).Perm (i :: Live.all ⟨cnt, L, fs⟩) :=
      hroots.flatMap_right (fun p : Nat × List Nat => p.1 :: p.2)
    have hnd := List.nodup_cons.mp (hall.nodup_iff.mp r.nodup)
    have hli : node s.heap i ≠ none := (r.live i).mpr (hall.mem_iff.mpr (by simp))
    have hlc : node s.heap c ≠ none := (r.live c).mpr (hall.mem_iff.mpr (by simp [hcm]))
    have hic : i ≠ c := fun e => hnd.1 (e ▸ hcm)
    cases g with
    | false =>
      obtain ⟨h', e, hlen, hnode⟩ := destroyEx_ok hli
      refine ⟨{ s with heap := h', pending := fs.map fun p => (p.1, p.2.1) }, ?_, hlen.trans r.count, ?_, hnd.2, ?_, ?_, rfl⟩
      · unfold importEnd
        rw [hp]
        simp only [Bool.false_eq_true, if_false, e, Res.bind]
      · intro a
        dsimp only
        rw [hnode]
        by_cases ha : a = i
        · rw [if_pos ha, ha]
          exact ⟨fun h => absurd rfl h, fun h => absurd h hnd.1⟩
        · rw [if_neg ha, r.live, hall.mem_iff, List.mem_cons]
          exact ⟨fun h => h.resolve_left ha, Or.inr⟩
      · refine r.chain.congr (fun x hx => ?_)
        have : x ∈ Live.all ⟨cnt, L, fs⟩ := mem_all_list (l := ⟨cnt, L, fs⟩) hx
        unfold nxt; dsimp only
        rw [hnode, if_neg (fun (e : x = i) => hnd.1 (e ▸ this))]
      · intro p hp
        have hp' : p ∈ Live.roots ⟨cnt, L, fs⟩ := hp
        refine (r.rings p (hroots.mem_iff.mpr (by simp [hp']))).congr (fun x hx => ?_)
        unfold imp; dsimp only
        rw [hnode, if_neg (fun (e : x = i) => hnd.1 (e ▸ mem_all_root hp' hx))]
    | true =>
      cases ei : node s.heap i with
      | none => exact absurd ei hli
      | some ni =>
      cases ec : node s.heap c with
      | none => exact absurd ec hlc
      | some nc =>
      have hrun : importEnd s true = .ok { s with
          heap := (if nc.imported = none then setNode (setNode (setNode s.heap i { ni with imported := nc.imported })
            c { nc with imported := some i }) i { ni with imported := some c }
            else setNode (setNode s.heap i { ni with imported := nc.imported }) c { nc with imported := some i })
          pending := fs.map fun p => (p.1, p.2.1) } := by
        unfold importEnd
        rw [hp]
        simp only [if_true, ei, ec]
      generalize hh : (if nc.imported = none then setNode (setNode (setNode s.heap i { ni with imported := nc.imported })
            c { nc with imported := some i }) i { ni with imported := some c }
            else setNode (setNode s.heap i { ni with imported := nc.imported }) c { nc with imported := some i }) = h' at hrun
      have hn1 : ∀ b, node (setNode (setNode s.heap i { ni with imported := nc.imported })
          c { nc with imported := some i }) b =
          if b = c then some { nc with imported := some i }
          else if b = i then some { ni with imported := nc.imported } else node s.heap b := by
        intro b
        rw [node_setNode (by rw [node_setNode hli, if_neg hic.symm]; exact hlc), node_setNode hli]
      have hnode : ∀ b, node h' b = if b = c then some { nc with imported := some i }
          else if b = i then some { ni with imported := some (nc.imported.getD c) } else node s.heap b := by
        intro b
        rw [← hh]
        cases hi' : nc.imported with
        | none =>
          rw [if_pos rfl, node_setNode (by rw [← hi', hn1, if_neg hic, if_pos rfl]; simp), ← hi', hn1]
          by_cases hbi : b = i
          · rw [if_pos hbi, if_neg (fun e => hic (hbi.symm.trans e)), if_pos hbi, hi']; rfl
          · rw [if_neg hbi, if_neg hbi, if_neg hbi]
        | some x =>
          rw [if_neg (by simp), ← hi', hn1, hi']; rfl
      have hlen : h'.length = s.heap.length := by
        rw [← hh]; split <;> simp [setNode]
      have hstep : Live.step ⟨cnt, L, (c, i, []) :: fs⟩ (.importEnd true) =
          ⟨cnt, L.map (insRoot c i), fs.map fun p => (p.1, p.2.1, insertAfter c i p.2.1 p.2.2)⟩ := by
        rfl
      have hroots' : (Live.roots ⟨cnt, L.map (insRoot c i),
          fs.map fun p => (p.1, p.2.1, insertAfter c i p.2.1 p.2.2)⟩) =
          (Live.roots ⟨cnt, L, fs⟩).map (insRoot c i) := by
        unfold Live.roots
        rw [List.map_append, List.map_map, List.map_map]
        rfl
      have hall' : (Live.all ⟨cnt, L.map (insRoot c i),
          fs.map fun p => (p.1, p.2.1, insertAfter c i p.2.1 p.2.2)⟩).Perm (i :: Live.all ⟨cnt, L, fs⟩) := by
        unfold Live.all
        rw [hroots']
        exact (flat_insert _ hnd.2).2 hcm
      refine ⟨_, hrun, ?_⟩
      rw [hstep]
      refine ⟨hlen.trans r.count, ?_, ?_, ?_, ?_, ?_⟩
      · intro a
        dsimp only
        rw [hall'.mem_iff, ← hall.mem_iff, ← r.live, hnode]
        by_cases h1 : a = c
        · rw [if_pos h1, h1, ec]; simp
        · by_cases h2 : a = i
          · rw [if_neg h1, if_pos h2, h2, ei]; simp
          · rw [if_neg h1, if_neg h2]
      · exact hall'.nodup_iff.mpr (List.nodup_cons.mpr hnd)
      · dsimp only
        rw [List.map_map]
        refine Chain.congr (show Chain s.heap s.head (L.map Prod.fst) from r.chain) (fun x _ => ?_)
        unfold nxt
        rw [hnode]
        by_cases h1 : x = c
        · rw [if_pos h1, h1, ec]; rfl
        · by_cases h2 : x = i
          · rw [if_neg h1, if_pos h2, h2, ei]; rfl
          · rw [if_neg h1, if_neg h2]
      · intro p hp
        rw [hroots'] at hp
        obtain ⟨q, hq, rfl⟩ := List.mem_map.mp hp
        have hrq := r.rings q (hroots.mem_iff.mpr (by simp [hq]))
        have hqi : i ∉ q.1 :: q.2 := fun hm => hnd.1 (mem_all_root hq hm)
        have hother : ∀ x, x ≠ i → x ≠ c → imp h' x = imp s.heap x := by
          intro x h2 h1
          unfold imp
          rw [hnode, if_neg h1, if_neg h2]
        have hic' : imp h' c = some i := by unfold imp; rw [hnode, if_pos rfl]; rfl
        have hii : imp h' i = some (nc.imported.getD c) := by
          unfold imp; rw [hnode, if_neg hic, if_pos rfl]; rfl
        have hsc : imp s.heap c = nc.imported := by unfold imp; rw [ec]; rfl
        by_cases hcq : c ∈ q.1 :: q.2
        · show Ring h' q.1 (insertAfter c i q.1 q.2)
          rcases hrq with ⟨h1, h2⟩ | ⟨h1, h2⟩
          · rw [h1] at hcq ⊢
            have hc1 : c = q.1 := by simpa using hcq
            subst hc1
            have : insertAfter q.1 i q.1 [] = [i] := by unfold insertAfter; rw [if_pos rfl]
            rw [this]
            refine Or.inr ⟨by simp, hic', ?_⟩
            show imp h' i = some q.1
            rw [hii, ← hsc, h2]; rfl
          · have hqn : (q.1 :: q.2).Nodup := by
              have hsub : (q.1 :: q.2).Sublist (Live.all ⟨cnt, L, fs⟩) := by
                obtain ⟨a, b, hab⟩ := List.append_of_mem hq
                unfold Live.all
                rw [hab, List.flatMap_append, List.flatMap_cons]
                exact (List.sublist_append_left _ _).trans (List.sublist_append_right _ _)
              exact hnd.2.sublist hsub
            have hsome : ∃ y, imp s.heap c = some y := links_some _ _ _ h2 c hcq
            obtain ⟨y, hy⟩ := hsome
            refine Or.inr ⟨?_, links_insert ?_ hic' _ _ _ h2 hcq hqn ?_⟩
            · intro e
              have := (insertAfter_perm (i := i) q.2 q.1 hcq).length_eq
              rw [e] at this
              simp at this
            · rw [hii, hy, ← hsc, hy]; rfl
            · intro x hx hxc
              exact hother x (fun e => hqi (e ▸ hx)) hxc
        · show Ring h' q.1 (insertAfter c i q.1 q.2)
          rw [insertAfter_of_notMem _ _ hcq]
          exact hrq.congr (fun x hx => hother x (fun e => hqi (e ▸ hx)) (fun e => hcq (e ▸ hx)))
      · dsimp only
        rw [List.map_map]
        rfl

end Wrench.Host
