import Verif.Host.DestroyProps

namespace Wrench.Host

/-! ### C31 -/

/-- C31: whatever allowed history of creating, importing and destroying contexts, no freed context
is touched or freed again, no loop goes on for ever, and at the end the state's list is exactly the
contexts that were created and not destroyed, newest first; the contexts still in memory are those,
their imports and the imports under way, each once.  What is missing: histories in which a script
being imported itself imports, or destroys the context it is being imported into, for which it is
false (`nestedImport_leaks`, `destroyWhileImporting_ub`). -/
theorem contexts_history_partial (es : List Ev) (ha : AllowedRun noneLive es) :
    ∃ s, run start es = .ok s ∧ Chain s.heap s.head ((noneLive.run es).list.map Prod.fst) ∧
      (∀ p ∈ (noneLive.run es).list, Ring s.heap p.1 p.2) ∧
      (∀ a, node s.heap a ≠ none ↔ a ∈ (noneLive.run es).all) ∧ (noneLive.run es).all.Nodup := by
  obtain ⟨s, e, r⟩ := rep_run es rep_start ha
  exact ⟨s, e, r.chain, fun p hp => r.rings p (List.mem_append.mpr (Or.inl hp)), r.live, r.nodup⟩

/-- C31: destroying a context of the list frees it and its imports and nothing else. -/
theorem destroy_exact {s : St} {l : Live} (r : Rep s l) {c : Nat} {ims : List Nat} (hm : (c, ims) ∈ l.list) :
    ∃ s', destroy s c = .ok s' ∧ (∀ b, node s'.heap b ≠ none ↔ node s.heap b ≠ none ∧ b ∉ c :: ims) ∧
      Chain s'.heap s'.head ((l.list.map Prod.fst).filter (· ≠ c)) := by
  have hroot : (c, ims) ∈ l.roots := List.mem_append.mpr (Or.inl hm)
  obtain ⟨s', e, r'⟩ := rep_destroy r (mem_all_root hroot (x := c) (by simp))
  refine ⟨s', e, ?_, ?_⟩
  · intro b
    rw [r'.live, r.live]
    obtain ⟨L1, L2, hL⟩ := List.append_of_mem hm
    have hfst : ∀ q ∈ L1 ++ L2, q.1 ≠ c := by
      intro q hq e
      have hnd := r.nodup
      unfold Live.all Live.roots at hnd
      rw [hL] at hnd
      simp only [List.append_assoc, List.cons_append] at hnd
      have hp : (L1 ++ (c, ims) :: (L2 ++ l.floating.map fun p => (p.2.1, p.2.2))).Perm
          ((c, ims) :: (L1 ++ (L2 ++ l.floating.map fun p => (p.2.1, p.2.2)))) := List.perm_middle
      have hnd' := (hp.flatMap_right (fun p : Nat × List Nat => p.1 :: p.2)).nodup_iff.mp hnd
      rw [List.flatMap_cons, List.nodup_append] at hnd'
      refine hnd'.2.2 c (by simp) c (List.mem_flatMap.mpr ⟨q, ?_, by simp [e]⟩) rfl
      rw [← List.append_assoc]
      exact List.mem_append.mpr (Or.inl hq)
    have hperm : l.all.Perm ((c :: ims) ++ (l.step (.destroy c)).all) := by
      have hfil : (l.list.filter fun p => p.1 ≠ c) = L1 ++ L2 := by
        rw [hL, List.filter_append, List.filter_cons]
        have h1 : (L1.filter fun p => p.1 ≠ c) = L1 := by
          rw [List.filter_eq_self]; intro q hq; simpa using hfst q (by simp [hq])
        have h2 : (L2.filter fun p => p.1 ≠ c) = L2 := by
          rw [List.filter_eq_self]; intro q hq; simpa using hfst q (by simp [hq])
        rw [h1, h2]; simp
      unfold Live.all Live.roots
      show List.Perm _ ((c :: ims) ++ (((l.list.filter fun p => p.1 ≠ c) ++ _).flatMap _))
      rw [hfil, hL]
      simp only [List.append_assoc, List.cons_append]
      exact (List.perm_middle (a := (c, ims)) (l₁ := L1)
        (l₂ := L2 ++ l.floating.map fun p => (p.2.1, p.2.2))).flatMap_right (fun p : Nat × List Nat => p.1 :: p.2)
    have hnd := List.nodup_append.mp (hperm.nodup_iff.mp r.nodup)
    rw [hperm.mem_iff, List.mem_append]
    exact ⟨fun h => ⟨Or.inr h, fun hb => hnd.2.2 b hb b h rfl⟩, fun h => h.1.resolve_left h.2⟩
  · have := r'.chain
    have e2 : ((l.step (.destroy c)).list.map Prod.fst) = (l.list.map Prod.fst).filter (· ≠ c) := by
      show (l.list.filter fun p => p.1 ≠ c).map Prod.fst = _
      rw [List.filter_map]
      rfl
    rw [← e2]
    exact this

/-- C31: `wr_destroyState` frees every context when no import is under way. -/
theorem destroyState_frees_all : ∀ (n : Nat) {s : St} {l : Live}, Rep s l → l.floating = [] →
    l.list.length ≤ n →
    ∃ s', destroyState (n + 1) s = .ok s' ∧ ∀ a, node s'.heap a = none
  | n, s, ⟨cnt, [], F⟩, r, hf, _ => by
    have : F = [] := hf
    subst this
    refine ⟨s, ?_, ?_⟩
    · have : s.head = none := r.chain
      unfold destroyState
      rw [this]
    · intro a
      by_contra hc
      have := (r.live a).mp hc
      simp [Live.all, Live.roots] at this
  | n, s, ⟨cnt, (c, ims) :: L, F⟩, r, hf, hn => by
    have : F = [] := hf
    subst this
    have hroot : (c, ims) ∈ Live.roots ⟨cnt, (c, ims) :: L, []⟩ := by simp [Live.roots]
    obtain ⟨s1, e1, r1⟩ := rep_destroy r (mem_all_root hroot (x := c) (by simp))
    have hhead : s.head = some c := r.chain.1
    cases n with
    | zero => simp at hn
    | succ n =>
      have hlen : (Live.step ⟨cnt, (c, ims) :: L, []⟩ (.destroy c)).list.length ≤ n := by
        show (((c, ims) :: L).filter fun p => p.1 ≠ c).length ≤ n
        rw [List.filter_cons]
        simp only [ne_eq, not_true_eq_false, decide_false, Bool.false_eq_true, if_false]
        have := List.length_filter_le (fun p : Nat × List Nat => decide (¬p.1 = c)) L
        simp at hn
        omega
      obtain ⟨s', e', h'⟩ := destroyState_frees_all n r1 rfl hlen
      refine ⟨s', ?_, h'⟩
      unfold destroyState
      rw [hhead]
      dsimp only
      rw [e1]
      exact e'

/-- C31: an import cannot be destroyed on its own: the call has no effect. -/
theorem destroy_import_noop {s : St} {l : Live} (r : Rep s l) {c : Nat} (hc : c ∈ l.all)
    (hn : c ∉ l.list.map Prod.fst) : ∃ s', destroy s c = .ok s' ∧ Rep s' l := by
  obtain ⟨s', e, r'⟩ := rep_destroy r hc
  refine ⟨s', e, ?_⟩
  have : l.step (.destroy c) = l := by
    obtain ⟨cnt, L, F⟩ := l
    show Live.mk cnt (L.filter fun p => p.1 ≠ c) F = _
    congr 1
    rw [List.filter_eq_self]
    intro p hp
    simp only [ne_eq, decide_not, Bool.not_eq_eq_eq_not, Bool.not_true, decide_eq_false_iff_not]
    exact fun e => hn (List.mem_map.mpr ⟨p, hp, e⟩)
  rw [← this]
  exact r'

def nestedImport : List Ev :=
  [.new, .importBegin 0, .importBegin 1, .importEnd true, .importEnd true]

/-- A script that imports while it is itself being imported: its import is lost, and survives even
`wr_destroyState`. -/
theorem nestedImport_leaks :
    (run start nestedImport).bind (fun s => destroyState 5 s) =
      .ok ⟨[none, none, some ⟨none, some 1⟩], none, []⟩ := by decide

/-- Destroying the importing context while its import runs: the import is linked into freed memory. -/
theorem destroyWhileImporting_ub : run start [.new, .importBegin 0, .destroy 0, .importEnd true] = .ub := by
  decide

/-- Two contexts, the first of which imports twice, and an import that fails, then the first is
destroyed. -/
def demoHistory : List Ev :=
  [.new, .new, .importBegin 0, .importEnd true, .importBegin 0, .importEnd true, .importBegin 1, .importEnd false,
   .new, .destroy 0]

example : AllowedRun noneLive demoHistory := by
  simp [AllowedRun, demoHistory, Allowed, noneLive, Live.step, Live.all, Live.roots, insertAfter]

example : (noneLive.run (demoHistory.dropLast)).list = [(5, []), (1, []), (0, [3, 2])] := by decide
example : (noneLive.run demoHistory).list = [(5, []), (1, [])] := by decide
example : run start demoHistory =
    .ok ⟨[none, some ⟨none, none⟩, none, none, none, some ⟨some 1, none⟩], some 5, []⟩ := by decide

/-! ### C54: which import a call reaches -/

theorem links_append {h : Heap} : ∀ {xs ys : List Nat} {a b e : Nat}, Links h a xs b → Links h b ys e →
    Links h a (xs ++ b :: ys) e
  | [], _, _, _, _, h1, h2 => ⟨h1, h2⟩
  | _ :: _, _, _, _, _, h1, h2 => ⟨h1.1, links_append h1.2 h2⟩

theorem links_split {h : Heap} : ∀ {xs ys : List Nat} {a b e : Nat}, Links h a (xs ++ b :: ys) e →
    Links h a xs b ∧ Links h b ys e
  | [], _, _, _, _, h1 => ⟨h1.1, h1.2⟩
  | _ :: _, _, _, _, _, h1 => ⟨⟨h1.1, (links_split h1.2).1⟩, (links_split h1.2).2⟩

theorem findImport_links {h : Heap} {d : Nat → Bool} {c : Nat} : ∀ (xs : List Nat) (a fuel : Nat),
    xs.length + 1 < fuel → Links h a xs c → c ∉ a :: xs →
    findImport h d c fuel a = .ok ((a :: xs).find? d)
  | xs, a, fuel + 1, hf, hl, hn => by
    unfold findImport
    rw [if_neg (fun e => hn (by simp [e])), List.find?_cons]
    cases hd : d a with
    | true => rfl
    | false =>
      obtain ⟨y, hy⟩ := links_some xs a c hl a (by simp)
      cases e : node h a with
      | none => unfold imp at hy; rw [e] at hy; cases hy
      | some n =>
        have hi : n.imported = some y := by unfold imp at hy; rw [e] at hy; exact hy
        simp only [Bool.false_eq_true, if_false, hi]
        cases xs with
        | nil =>
          have : imp h a = some c := hl
          rw [hy] at this
          cases this
          cases fuel with
          | zero => simp at hf
          | succ f => unfold findImport; rw [if_pos rfl]; rfl
        | cons x xs =>
          have : imp h a = some x := hl.1
          rw [hy] at this
          cases this
          exact findImport_links xs y fuel (by simpa using hf) hl.2 (fun hm => hn (List.mem_cons_of_mem _ hm))

/-- C54: in every state reached by an allowed history, the search always ends, touches no freed
context, and finds the first context of the ring that has the function: for the importing context,
its imports, most recently imported first; for an import, the older imports, then the importing
context, then the newer imports. -/
theorem resolveImport_exact {s : St} {l : Live} (r : Rep s l) {p : Nat × List Nat} (hp : p ∈ l.roots)
    {pre post : List Nat} {x : Nat} (hx : p.1 :: p.2 = pre ++ x :: post) (defines : Nat → Bool) :
    resolveImport s.heap defines x = .ok ((post ++ pre).find? defines) := by
  obtain ⟨c, ims⟩ := p
  have hsub : (c :: ims).Sublist l.all := by
    obtain ⟨a, b, hab⟩ := List.append_of_mem hp
    unfold Live.all
    rw [hab, List.flatMap_append, List.flatMap_cons]
    exact (List.sublist_append_left _ _).trans (List.sublist_append_right _ _)
  have hnd : (pre ++ x :: post).Nodup := hx ▸ r.nodup.sublist hsub
  have hxm : x ∈ c :: ims := by
    have : x ∈ pre ++ x :: post := by simp
    rw [← hx] at this
    exact this
  have hlx : node s.heap x ≠ none := (r.live x).mpr (mem_all_root hp hxm)
  cases e : node s.heap x with
  | none => exact absurd e hlx
  | some n =>
  have hix : imp s.heap x = n.imported := by unfold imp; rw [e]; rfl
  unfold resolveImport
  rw [e]
  dsimp only
  rcases r.rings _ hp with ⟨h1, h2⟩ | ⟨h1, h2⟩
  · have h1' : ims = [] := h1
    subst h1'
    have hpre : pre = [] ∧ x = c ∧ post = [] := by
      cases pre with
      | nil => simp at hx; exact ⟨rfl, hx.1.symm, hx.2⟩
      | cons y ys => simp at hx
    obtain ⟨rfl, rfl, rfl⟩ := hpre
    have : n.imported = none := hix ▸ h2
    rw [this]
    rfl
  · have hcyc : Links s.heap x (post ++ pre) x := by
      cases pre with
      | nil =>
        simp at hx
        obtain ⟨rfl, rfl⟩ := hx
        simpa using h2
      | cons y ys =>
        simp at hx
        obtain ⟨rfl, rfl⟩ := hx
        have := links_split (show Links s.heap c (ys ++ x :: post) c from h2)
        exact links_append this.2 this.1
    have hne : post ++ pre ≠ [] := by
      intro h
      have hlen := congrArg List.length hx
      have h0 := congrArg List.length h
      have : ims.length ≠ 0 := fun h => h1 (List.eq_nil_of_length_eq_zero h)
      simp at hlen h0
      simp [h0] at hlen
      exact h1 hlen
    have hnd2 : (x :: (post ++ pre)).Nodup := by
      refine (List.Perm.nodup_iff ?_).mp hnd
      exact (List.perm_middle).trans ((List.perm_append_comm).cons x)
    have hlen : (post ++ pre).length ≤ s.heap.length := by
      have hs : (post ++ pre) ⊆ List.range s.heap.length := by
        intro y hy
        have : y ∈ c :: ims := by
          show y ∈ (c, ims).1 :: (c, ims).2
          rw [hx]
          simp only [List.mem_append, List.mem_cons] at hy ⊢
          tauto
        exact List.mem_range.mpr (node_lt ((r.live y).mpr (mem_all_root hp this)))
      simpa using (List.subperm_of_subset (List.nodup_cons.mp hnd2).2 hs).length_le
    cases hys : post ++ pre with
    | nil => exact absurd hys hne
    | cons y ys =>
      rw [hys] at hcyc hnd2 hlen
      have hy : n.imported = some y := hix ▸ hcyc.1
      rw [hy]
      dsimp only
      exact findImport_links ys y _ (by simp at hlen; omega) hcyc.2 (List.nodup_cons.mp hnd2).1

/-- From a context of the state's list. -/
theorem resolveImport_root {s : St} {l : Live} (r : Rep s l) {c : Nat} {ims : List Nat} (hp : (c, ims) ∈ l.list)
    (defines : Nat → Bool) : resolveImport s.heap defines c = .ok (ims.find? defines) := by
  have := resolveImport_exact r (p := (c, ims)) (List.mem_append.mpr (Or.inl hp)) (pre := []) (post := ims) rfl defines
  simpa using this

/-- A newer import comes before the older ones. -/
theorem import_goes_first (l : Live) (c i : Nat) (fs : List (Nat × Nat × List Nat)) (own : List Nat)
    (hf : l.floating = (c, i, own) :: fs) {ims : List Nat} (hm : (c, ims) ∈ l.list) :
    (c, i :: ims) ∈ (l.step (.importEnd true)).list := by
  obtain ⟨cnt, L, F⟩ := l
  have : F = (c, i, own) :: fs := hf
  subst this
  show (c, i :: ims) ∈ L.map fun p => (p.1, insertAfter c i p.1 p.2)
  refine List.mem_map.mpr ⟨(c, ims), hm, ?_⟩
  show (c, insertAfter c i c ims) = _
  unfold insertAfter
  rw [if_pos rfl]

/-- After a nested import the search of the import's ring does not come back to where it began. -/
theorem nestedImport_search_ub :
    (run start nestedImport).bind (fun s => resolveImport s.heap (fun _ => false) 2) = .ub := by decide

def demoImports : List Ev := [.new, .importBegin 0, .importEnd true, .importBegin 0, .importEnd true]

example : (noneLive.run demoImports).list = [(0, [2, 1])] := by decide
example : (run start demoImports).bind (fun s => resolveImport s.heap (fun i => i == 1 || i == 2) 0) =
    .ok (some 2) := by decide
example : (run start demoImports).bind (fun s => resolveImport s.heap (fun i => i == 0) 2) = .ok (some 0) := by decide

end Wrench.Host
