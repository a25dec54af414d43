import Verif.Host.SchedProps
import Mathlib.Data.List.Perm.Subperm

namespace Wrench.Host

structure SRep (s : Sched) (l : Abs) : Prop where
  count : s.tasks.length = l.count
  shape : Shape s.tasks s.head l.tasks
  ok : EnvOk l.env l.tasks
  env : s.env = l.env

theorem shape_length {ns : List (Option TNode)} {h : Option Nat} {ts : List Task} (sh : Shape ns h ts) :
    ts.length ≤ ns.length := by
  have hs : ts.map Task.addr ⊆ List.range ns.length := fun a ha =>
    List.mem_range.mpr (tnode_lt ((sh.live a).mpr ha))
  simpa using (List.subperm_of_subset sh.nodup hs).length_le

theorem ctx_append (e : Env) (b : Bool) (x : Nat) :
    ((e.ctxs ++ [some b])[x]?).join = if x = e.ctxs.length then some b else ctx e x := by
  unfold ctx
  by_cases hb : x = e.ctxs.length
  · subst hb; simp
  · rw [if_neg hb]
    by_cases hl : x < e.ctxs.length
    · rw [List.getElem?_append_left hl]
    · rw [List.getElem?_eq_none (by simp; omega), List.getElem?_eq_none (by omega)]

theorem shape_push {ns : List (Option TNode)} {h : Option Nat} {ts : List Task} (sh : Shape ns h ts) (c id : Nat) :
    Shape (ns ++ [some ⟨c, h, id⟩]) (some ns.length) (⟨ns.length, id, c⟩ :: ts) := by
  have hfr : ns.length ∉ ts.map Task.addr := fun hm => by
    have := tnode_lt ((sh.live _).mpr hm)
    omega
  refine ⟨?_, ⟨rfl, ?_⟩, List.nodup_cons.mpr ⟨hfr, sh.nodup⟩, ?_⟩
  · intro t ht
    rw [tnode_append]
    rcases List.mem_cons.mp ht with rfl | ht
    · exact ⟨h, by rw [if_pos rfl]⟩
    · obtain ⟨nx, hn⟩ := sh.data t ht
      exact ⟨nx, by rw [if_neg (fun (e : t.addr = ns.length) => hfr (e ▸ List.mem_map.mpr ⟨t, ht, rfl⟩)), hn]⟩
  · have : tnx (ns ++ [some ⟨c, h, id⟩]) ns.length = h := by
      unfold tnx; rw [tnode_append, if_pos rfl]; rfl
    show TChain _ (tnx _ ns.length) _
    rw [this]
    refine sh.chain.congr (fun x hx => ?_)
    unfold tnx
    rw [tnode_append, if_neg (fun (e : x = ns.length) => hfr (e ▸ hx))]
  · intro a
    rw [tnode_append, List.map_cons, List.mem_cons, ← sh.live]
    by_cases ha : a = ns.length <;> simp [ha]

/-- Ids are handed out only while the counter, an `int`, can count. -/
def SAllowed (l : Abs) : SEv → Prop
  | .add .yielded => l.env.gen + 1 < 2147483648
  | _ => True

theorem find_split {ts : List Task} {id : Nat} {t : Task} (h : ts.find? (fun t => t.id == id) = some t) :
    ∃ mid after, ts = mid ++ t :: after ∧ t.id = id ∧ ∀ u ∈ mid, u.id ≠ id := by
  obtain ⟨h1, mid, after, h2, h3⟩ := List.find?_eq_some_iff_append.mp h
  exact ⟨mid, after, h2, by simpa using h1, fun u hu => by simpa using h3 u hu⟩

theorem filter_split {mid after : List Task} {id : Nat} {t : Task} (ht : t.id = id)
    (hn : ((mid ++ t :: after).map Task.id).Nodup) :
    ((mid ++ t :: after).filter fun t => t.id ≠ id) = mid ++ after := by
  rw [List.map_append, List.map_cons, List.nodup_append] at hn
  have h1 : (mid.filter fun t => t.id ≠ id) = mid := by
    rw [List.filter_eq_self]
    intro u hu
    have : u.id ≠ id := fun e => hn.2.2 _ (List.mem_map.mpr ⟨u, hu, rfl⟩) _ (by simp [e, ht]) rfl
    simpa using this
  have h2 : (after.filter fun t => t.id ≠ id) = after := by
    rw [List.filter_eq_self]
    intro u hu
    have : u.id ≠ id := fun e => (List.nodup_cons.mp hn.2.1).1 (List.mem_map.mpr ⟨u, hu, by rw [e, ht]⟩)
    simpa using this
  rw [List.filter_append, List.filter_cons, h1, h2]
  simp [ht]

theorem removeTask_rep {s : Sched} {l : Abs} (r : SRep s l) (id : Nat) {beh : Nat → Outcome} :
    ∃ s', removeTask s id = .ok ((l.tasks.find? fun t => t.id == id).isSome, s') ∧
      SRep s' (l.step beh (.remove id)) := by
  obtain ⟨ns, h, e⟩ := s
  obtain ⟨cnt, ts, e'⟩ := l
  obtain ⟨hcnt, sh, ok, rfl⟩ := r
  have hhead : h = (ts.map Task.addr).head? := (tchain_at [] (ts.map Task.addr) h sh.chain).1 rfl
  have hlen := shape_length sh
  cases hf : ts.find? (fun t => t.id == id) with
  | none =>
    refine ⟨⟨ns, h, e⟩, ?_, ?_⟩
    · have := removeLoop_absent (id := id) ts [] ns h e (ns.length + 1) none (by dsimp only at hlen; omega) sh
        (fun t ht => by simpa using List.find?_eq_none.mp hf t ht)
      unfold removeTask
      dsimp only
      rw [← hhead] at this
      exact this
    · have : Abs.step beh ⟨cnt, ts, e⟩ (.remove id) = ⟨cnt, ts, e⟩ := by
        unfold Abs.step; dsimp only; rw [hf]
      rw [this]
      exact ⟨hcnt, sh, ok, rfl⟩
  | some t =>
    obtain ⟨mid, after, rfl, ht, hmid⟩ := find_split hf
    obtain ⟨ns', h', e1, hl, sh'⟩ := removeLoop_found ht (after := after) mid [] ns h e (ns.length + 1)
      (by simp at hlen; omega) sh ok hmid
    refine ⟨⟨ns', h', retire e t.context⟩, ?_, ?_⟩
    · unfold removeTask
      dsimp only
      rw [← hhead] at e1
      exact e1
    · have : Abs.step beh ⟨cnt, mid ++ t :: after, e⟩ (.remove id) = ⟨cnt, mid ++ after, retire e t.context⟩ := by
        unfold Abs.step; dsimp only; rw [hf]; dsimp only
        rw [filter_split ht ok.idnodup]
      rw [this]
      exact ⟨hl.trans hcnt, sh', envOk_drop ok, rfl⟩

theorem srep_step {beh : Nat → Outcome} (hb : ∀ k, (beh k).calls = []) {s : Sched} {l : Abs} (r : SRep s l)
    {ev : SEv} (ha : SAllowed l ev) : ∃ s', sstep beh s ev = .ok s' ∧ SRep s' (l.step beh ev) := by
  cases ev with
  | remove id =>
    obtain ⟨s', e, r'⟩ := removeTask_rep r id (beh := beh)
    refine ⟨s', ?_, r'⟩
    unfold sstep
    dsimp only
    rw [e]
    rfl
  | tick =>
    obtain ⟨ns, h, e⟩ := s
    obtain ⟨cnt, ts, e'⟩ := l
    obtain ⟨hcnt, sh, ok, rfl⟩ := r
    have hlen := shape_length sh
    obtain ⟨ns', h', e1, hl, sh', ok'⟩ := tickLoop_ok hb ts [] ns h e (ns.length + 1) (by dsimp only at hlen; omega) sh ok
    exact ⟨_, e1, hl.trans hcnt, sh', ok', rfl⟩
  | finishes c =>
    obtain ⟨ns, h, e⟩ := s
    obtain ⟨cnt, ts, e'⟩ := l
    obtain ⟨hcnt, sh, ok, rfl⟩ := r
    refine ⟨_, rfl, hcnt, sh, ?_, rfl⟩
    show EnvOk (finishCtx e c) ts
    unfold finishCtx
    cases hc : ctx e c with
    | none => exact ok
    | some b =>
      cases b with
      | false => exact ok
      | true =>
        refine ⟨fun t ht => ?_, ok.cnodup, ok.idnodup, ok.bound⟩
        have hlt := ctx_lt (e := e) (c := c) (by rw [hc]; simp)
        show ((e.ctxs.set c (some false))[t.context]?).join ≠ none
        rw [List.getElem?_set]
        by_cases htc : c = t.context
        · rw [if_pos htc]; simp [hlt]
        · rw [if_neg htc]; exact ok.ctxs t ht
  | add rr =>
    obtain ⟨ns, h, e⟩ := s
    obtain ⟨cnt, ts, e'⟩ := l
    obtain ⟨hcnt, sh, ok, rfl⟩ := r
    cases rr with
    | failed err =>
      exact ⟨_, rfl, hcnt, sh, ⟨ok.ctxs, ok.cnodup, ok.idnodup, ok.bound⟩, rfl⟩
    | finished =>
      refine ⟨_, rfl, hcnt, sh, ⟨fun t ht => ?_, ok.cnodup, ok.idnodup, ok.bound⟩, rfl⟩
      show ((e.ctxs ++ [some false])[t.context]?).join ≠ none
      rw [ctx_append]
      split
      · simp
      · exact ok.ctxs t ht
    | yielded =>
      have ha' : e.gen + 1 < 2147483648 := ha
      have hcnt' : ns.length = cnt := hcnt
      refine ⟨⟨ns ++ [some ⟨e.ctxs.length, h, e.gen + 1⟩], some ns.length,
        { e with ctxs := e.ctxs ++ [some true], err := 0, gen := e.gen + 1 }⟩, ?_, ?_, ?_, ?_, rfl⟩
      · unfold sstep addThread
        dsimp only
        rw [if_pos ha']
        rfl
      · show (ns ++ _).length = cnt + 1
        simp [hcnt']
      · show Shape _ _ (⟨cnt, e.gen + 1, e.ctxs.length⟩ :: ts)
        rw [← hcnt']
        exact shape_push sh _ _
      · have hfr : ∀ t ∈ ts, t.context ≠ e.ctxs.length := fun t ht hh => by
          have := ctx_lt (ok.ctxs t ht)
          dsimp only at this
          omega
        refine ⟨?_, ?_, ?_, ?_⟩
        · intro t ht
          show ((e.ctxs ++ [some true])[t.context]?).join ≠ none
          rw [ctx_append]
          split
          · simp
          · rename_i hne
            rcases List.mem_cons.mp ht with rfl | ht
            · exact absurd rfl hne
            · exact ok.ctxs t ht
        · refine List.nodup_cons.mpr ⟨?_, ok.cnodup⟩
          intro hm
          obtain ⟨t, ht, hh⟩ := List.mem_map.mp hm
          exact hfr t ht hh
        · refine List.nodup_cons.mpr ⟨?_, ok.idnodup⟩
          intro hm
          obtain ⟨t, ht, hh⟩ := List.mem_map.mp hm
          have := (ok.bound t ht).2
          dsimp only at this hh
          omega
        · intro t ht
          rcases List.mem_cons.mp ht with rfl | ht
          · exact ⟨Nat.succ_pos _, Nat.le_refl _⟩
          · exact ⟨(ok.bound t ht).1, Nat.le_succ_of_le (ok.bound t ht).2⟩

def SAllowedRun (beh : Nat → Outcome) (l : Abs) : List SEv → Prop
  | [] => True
  | e :: es => SAllowed l e ∧ SAllowedRun beh (l.step beh e) es

theorem srep_run {beh : Nat → Outcome} (hb : ∀ k, (beh k).calls = []) : ∀ (es : List SEv) {s : Sched} {l : Abs},
    SRep s l → SAllowedRun beh l es → ∃ s', srun beh s es = .ok s' ∧ SRep s' (l.run beh es)
  | [], s, l, r, _ => ⟨s, rfl, r⟩
  | e :: es, s, l, r, ha => by
    obtain ⟨s1, e1, r1⟩ := srep_step hb r ha.1
    obtain ⟨s2, e2, r2⟩ := srep_run hb es r1 ha.2
    refine ⟨s2, ?_, r2⟩
    unfold srun
    rw [e1]
    exact e2

def emptyAbs (gen : Nat) : Abs := ⟨0, [], ⟨[], gen, 0, 0, 0, []⟩⟩

theorem srep_start (gen : Nat) : SRep (sstart gen) (emptyAbs gen) := by
  refine ⟨rfl, ⟨?_, rfl, List.nodup_nil, ?_⟩, ⟨?_, List.nodup_nil, List.nodup_nil, ?_⟩, rfl⟩
  · intro t ht; exact absurd ht List.not_mem_nil
  · intro a; simp [sstart, tnode, emptyAbs]
  · intro t ht; exact absurd ht List.not_mem_nil
  · intro t ht; exact absurd ht List.not_mem_nil

/-! ### What a tick resumes -/

theorem yieldedB_congr {e e' : Env} {ts : List Task} (h : ∀ t ∈ ts, ctx e' t.context = ctx e t.context) :
    ts.filter (fun t => yieldedB e' t.context) = ts.filter (fun t => yieldedB e t.context) := by
  refine List.filter_congr (fun t ht => ?_)
  unfold yieldedB
  rw [h t ht]

theorem noteError_trace (e : Env) (id : Nat) : (noteError e id).trace = e.trace := by
  unfold noteError; split <;> rfl

theorem tickTasks_trace {beh : Nat → Outcome} : ∀ (ts : List Task) (e : Env),
    (∀ t ∈ ts, ctx e t.context ≠ none) → (ts.map Task.context).Nodup →
    (tickTasks beh ts e).2.trace = e.trace ++ (ts.filter fun t => yieldedB e t.context).map Task.id
  | [], e, _, _ => by simp [tickTasks]
  | t :: ts, e, hl, hn => by
    rw [List.map_cons, List.nodup_cons] at hn
    have hne : ∀ u ∈ ts, u.context ≠ t.context := fun u hu h => hn.1 (List.mem_map.mpr ⟨u, hu, h⟩)
    have hct := hl t (by simp)
    unfold tickTasks
    rw [List.filter_cons]
    cases hy : yieldedB e t.context with
    | false =>
      simp only [Bool.false_eq_true, if_false]
      have hc : ∀ u ∈ ts, ctx (retire e t.context) u.context = ctx e u.context := fun u hu => by
        rw [ctx_retire hct, if_neg (hne u hu)]
      rw [tickTasks_trace ts _ (fun u hu => by rw [hc u hu]; exact hl u (by simp [hu])) hn.2, yieldedB_congr hc]
      rfl
    | true =>
      simp only [if_true]
      have hc1 : ∀ u ∈ ts, ctx (resume beh e t.context t.id) u.context = ctx e u.context := fun u hu => by
        rw [ctx_resume hct, if_neg (hne u hu)]
      have ht1 : (resume beh e t.context t.id).trace = e.trace ++ [t.id] := rfl
      cases hyl : (beh e.trace.length).yields with
      | true =>
        simp only [if_true]
        rw [tickTasks_trace ts _ (fun u hu => by rw [hc1 u hu]; exact hl u (by simp [hu])) hn.2, yieldedB_congr hc1, ht1]
        simp
      | false =>
        simp only [Bool.false_eq_true, if_false]
        have hc2 : ∀ u ∈ ts, ctx (retire (noteError (resume beh e t.context t.id) t.id) t.context) u.context =
            ctx e u.context := fun u hu => by
          rw [ctx_retire (by rw [ctx_noteError, ctx_resume hct, if_pos rfl]; simp), if_neg (hne u hu), ctx_noteError,
            hc1 u hu]
        rw [tickTasks_trace ts _ (fun u hu => by rw [hc2 u hu]; exact hl u (by simp [hu])) hn.2, yieldedB_congr hc2]
        show (noteError (resume beh e t.context t.id) t.id).trace ++ _ = _
        rw [noteError_trace, ht1]
        simp

theorem tickTasks_sub {beh : Nat → Outcome} : ∀ (ts : List Task) (e : Env), (tickTasks beh ts e).1.Sublist ts
  | [], e => by simp [tickTasks]
  | t :: ts, e => by
    unfold tickTasks
    split
    · split
      · exact (tickTasks_sub ts _).cons_cons _
      · exact (tickTasks_sub ts _).cons _
    · exact (tickTasks_sub ts _).cons _

theorem tickTasks_gen {beh : Nat → Outcome} : ∀ (ts : List Task) (e : Env), (tickTasks beh ts e).2.gen = e.gen
  | [], e => rfl
  | t :: ts, e => by
    unfold tickTasks
    split
    · split
      · exact tickTasks_gen ts _
      · rw [tickTasks_gen ts _]
        show (noteError _ _).gen = _
        rw [noteError_gen]; rfl
    · rw [tickTasks_gen ts _]; rfl

/-- C30: a tick resumes every yielded task exactly once, in list order (the most recently added
first), and nothing else. -/
theorem tick_resumes_each_once_partial {beh : Nat → Outcome} (hb : ∀ k, (beh k).calls = []) {s : Sched} {l : Abs}
    (r : SRep s l) :
    ∃ s', tick beh s = .ok s' ∧
      s'.env.trace = s.env.trace ++ (l.tasks.filter fun t => yieldedB s.env t.context).map Task.id ∧
      ((l.tasks.filter fun t => yieldedB s.env t.context).map Task.id).Nodup := by
  obtain ⟨s', e, r'⟩ := srep_step hb r (ev := .tick) trivial
  refine ⟨s', e, ?_, ?_⟩
  · rw [r'.env, r.env]
    exact tickTasks_trace l.tasks l.env r.ok.ctxs r.ok.cnodup
  · exact r.ok.idnodup.sublist (List.filter_sublist.map _)

/-- Tasks that are kept are those that yield again; a task already finished, one that finishes and
one that faults are dropped and their contexts freed. -/
theorem tickTasks_kept {beh : Nat → Outcome} : ∀ (ts : List Task) (e : Env),
    (∀ t ∈ ts, ctx e t.context ≠ none) → (ts.map Task.context).Nodup →
    ∀ t ∈ ts, (t ∈ (tickTasks beh ts e).1 → ctx (tickTasks beh ts e).2 t.context = some true) ∧
      (t ∉ (tickTasks beh ts e).1 → ctx (tickTasks beh ts e).2 t.context = none) ∧
      (t ∈ (tickTasks beh ts e).1 → yieldedB e t.context = true)
  | [], e, _, _ => fun t ht => by cases ht
  | t :: ts, e, hl, hn => by
    rw [List.map_cons, List.nodup_cons] at hn
    have hne : ∀ u ∈ ts, u.context ≠ t.context := fun u hu h => hn.1 (List.mem_map.mpr ⟨u, hu, h⟩)
    have hct := hl t (by simp)
    have hother : ∀ (us : List Task) (e' : Env) (c : Nat), (∀ u ∈ us, u.context ≠ c) → ctx e' c = ctx (tickTasks beh us e').2 c := by
      intro us
      induction us with
      | nil => intro e' c _; rfl
      | cons u us ih =>
        intro e' c hc
        have h1 := hc u (by simp)
        have h2 : ∀ v ∈ us, v.context ≠ c := fun v hv => hc v (by simp [hv])
        have hset : ∀ (x : Env) (v : Option Bool), ctx { x with ctxs := x.ctxs.set u.context v } c = ctx x c := by
          intro x v
          unfold ctx
          dsimp only
          rw [List.getElem?_set_ne h1]
        have hres : ctx (resume beh e' u.context u.id) c = ctx e' c := by
          have := hset e' (some (beh e'.trace.length).yields)
          exact this
        unfold tickTasks
        split
        · split
          · dsimp only; rw [← ih _ c h2, hres]
          · rw [← ih _ c h2]
            show _ = ctx { noteError _ _ with ctxs := _ } c
            rw [hset, ctx_noteError, hres]
        · rw [← ih _ c h2]
          exact (hset e' none).symm
    have hnot : ∀ us : List Task, (∀ u ∈ us, u.context ≠ t.context) → t ∉ us := fun us h hm => h t hm rfl
    have hsub : ∀ (e' : Env), t ∉ (tickTasks beh ts e').1 := fun e' hm => hnot ts hne ((tickTasks_sub ts e').subset hm)
    intro u hu
    unfold tickTasks
    cases hy : yieldedB e t.context with
    | false =>
      simp only [Bool.false_eq_true, if_false]
      have hc : ∀ u ∈ ts, ctx (retire e t.context) u.context = ctx e u.context := fun u hu => by
        rw [ctx_retire hct, if_neg (hne u hu)]
      rcases List.mem_cons.mp hu with rfl | hu
      · refine ⟨fun h => absurd h (hsub _), fun _ => ?_, fun h => absurd h (hsub _)⟩
        rw [← hother ts _ _ hne, ctx_retire hct, if_pos rfl]
      · have := tickTasks_kept (beh := beh) ts _ (fun u hu => by rw [hc u hu]; exact hl u (by simp [hu])) hn.2 u hu
        refine ⟨this.1, this.2.1, fun h => ?_⟩
        have h3 := this.2.2 h
        unfold yieldedB at h3 ⊢
        rwa [hc u hu] at h3
    | true =>
      simp only [if_true]
      have hc1 : ∀ u ∈ ts, ctx (resume beh e t.context t.id) u.context = ctx e u.context := fun u hu => by
        rw [ctx_resume hct, if_neg (hne u hu)]
      cases hyl : (beh e.trace.length).yields with
      | true =>
        simp only [if_true]
        rcases List.mem_cons.mp hu with rfl | hu
        · refine ⟨fun _ => ?_, fun h => absurd (List.mem_cons_self ..) h, fun _ => hy⟩
          rw [← hother ts _ _ hne, ctx_resume hct, if_pos rfl, hyl]
        · have := tickTasks_kept (beh := beh) ts _ (fun u hu => by rw [hc1 u hu]; exact hl u (by simp [hu])) hn.2 u hu
          have hut : u ≠ t := fun e => hnot ts hne (e ▸ hu)
          refine ⟨fun h => this.1 ((List.mem_cons.mp h).resolve_left hut), fun h => this.2.1 (fun hm => h (List.mem_cons_of_mem _ hm)), fun h => ?_⟩
          have h3 := this.2.2 ((List.mem_cons.mp h).resolve_left hut)
          unfold yieldedB at h3 ⊢
          rwa [hc1 u hu] at h3
      | false =>
        simp only [Bool.false_eq_true, if_false]
        have hcl : ctx (noteError (resume beh e t.context t.id) t.id) t.context ≠ none := by
          rw [ctx_noteError, ctx_resume hct, if_pos rfl]; simp
        have hc2 : ∀ u ∈ ts, ctx (retire (noteError (resume beh e t.context t.id) t.id) t.context) u.context =
            ctx e u.context := fun u hu => by
          rw [ctx_retire hcl, if_neg (hne u hu), ctx_noteError, hc1 u hu]
        rcases List.mem_cons.mp hu with rfl | hu
        · refine ⟨fun h => absurd h (hsub _), fun _ => ?_, fun h => absurd h (hsub _)⟩
          rw [← hother ts _ _ hne, ctx_retire hcl, if_pos rfl]
        · have := tickTasks_kept (beh := beh) ts _ (fun u hu => by rw [hc2 u hu]; exact hl u (by simp [hu])) hn.2 u hu
          refine ⟨this.1, this.2.1, fun h => ?_⟩
          have h3 := this.2.2 h
          unfold yieldedB at h3 ⊢
          rwa [hc2 u hu] at h3

/-- C30: after a tick the list is a part of the list before, in the same order; the tasks kept are
yielded, and the tasks dropped (already finished, finishing or faulting) have their contexts freed. -/
theorem tick_keeps_partial {beh : Nat → Outcome} (hb : ∀ k, (beh k).calls = []) {s : Sched} {l : Abs} (r : SRep s l) :
    ∃ s' kept, tick beh s = .ok s' ∧ Shape s'.tasks s'.head kept ∧ kept.Sublist l.tasks ∧
      (∀ t ∈ l.tasks, t ∈ kept → ctx s'.env t.context = some true ∧ yieldedB s.env t.context = true) ∧
      (∀ t ∈ l.tasks, t ∉ kept → ctx s'.env t.context = none) := by
  obtain ⟨s', e, r'⟩ := srep_step hb r (ev := .tick) trivial
  have hk := tickTasks_kept (beh := beh) l.tasks l.env r.ok.ctxs r.ok.cnodup
  refine ⟨s', _, e, r'.shape, tickTasks_sub l.tasks l.env, fun t ht hm => ?_, fun t ht hm => ?_⟩
  · rw [r'.env, r.env]
    exact ⟨(hk t ht).1 hm, (hk t ht).2.2 hm⟩
  · rw [r'.env]
    exact (hk t ht).2.1 hm

/-- The faults among resumptions number `k`, `k + 1`, … of the tasks `ids`. -/
def faults (beh : Nat → Outcome) : Nat → List Nat → List (Nat × Nat)
  | _, [] => []
  | k, id :: ids =>
    (if (beh k).yields = false ∧ (beh k).err ≠ 0 then [(id, (beh k).err)] else []) ++ faults beh (k + 1) ids

def lastFault (e : Env) (fs : List (Nat × Nat)) : Nat × Nat := fs.getLast?.getD (e.lastErrId, e.lastErr)

theorem tickTasks_fault {beh : Nat → Outcome} : ∀ (ts : List Task) (e : Env),
    (∀ t ∈ ts, ctx e t.context ≠ none) → (ts.map Task.context).Nodup →
    ((tickTasks beh ts e).2.lastErrId, (tickTasks beh ts e).2.lastErr) =
      lastFault e (faults beh e.trace.length ((ts.filter fun t => yieldedB e t.context).map Task.id))
  | [], e, _, _ => rfl
  | t :: ts, e, hl, hn => by
    rw [List.map_cons, List.nodup_cons] at hn
    have hne : ∀ u ∈ ts, u.context ≠ t.context := fun u hu h => hn.1 (List.mem_map.mpr ⟨u, hu, h⟩)
    have hct := hl t (by simp)
    unfold tickTasks
    rw [List.filter_cons]
    cases hy : yieldedB e t.context with
    | false =>
      simp only [Bool.false_eq_true, if_false]
      have hc : ∀ u ∈ ts, ctx (retire e t.context) u.context = ctx e u.context := fun u hu => by
        rw [ctx_retire hct, if_neg (hne u hu)]
      rw [tickTasks_fault ts _ (fun u hu => by rw [hc u hu]; exact hl u (by simp [hu])) hn.2, yieldedB_congr hc]
      rfl
    | true =>
      simp only [if_true, List.map_cons, faults]
      have hc1 : ∀ u ∈ ts, ctx (resume beh e t.context t.id) u.context = ctx e u.context := fun u hu => by
        rw [ctx_resume hct, if_neg (hne u hu)]
      have ht1 : (resume beh e t.context t.id).trace.length = e.trace.length + 1 := by simp [resume]
      cases hyl : (beh e.trace.length).yields with
      | true =>
        simp only [if_true]
        rw [tickTasks_fault ts _ (fun u hu => by rw [hc1 u hu]; exact hl u (by simp [hu])) hn.2, yieldedB_congr hc1, ht1]
        simp [lastFault, resume]
      | false =>
        simp only [Bool.false_eq_true, if_false]
        have hc2 : ∀ u ∈ ts, ctx (retire (noteError (resume beh e t.context t.id) t.id) t.context) u.context =
            ctx e u.context := fun u hu => by
          rw [ctx_retire (by rw [ctx_noteError, ctx_resume hct, if_pos rfl]; simp), if_neg (hne u hu), ctx_noteError,
            hc1 u hu]
        have ht2 : (retire (noteError (resume beh e t.context t.id) t.id) t.context).trace.length = e.trace.length + 1 := by
          show (noteError _ _).trace.length = _
          rw [noteError_trace, ht1]
        rw [tickTasks_fault ts _ (fun u hu => by rw [hc2 u hu]; exact hl u (by simp [hu])) hn.2, yieldedB_congr hc2, ht2]
        have herr : (resume beh e t.context t.id).err = (beh e.trace.length).err := rfl
        generalize faults beh (e.trace.length + 1) _ = fs
        unfold lastFault
        rw [List.getLast?_append]
        cases fs.getLast? with
        | some x => rfl
        | none =>
          by_cases h0 : (beh e.trace.length).err = 0
          · simp [h0, retire, noteError, herr, resume]
          · simp [h0, retire, noteError, herr]

/-- C30: after a tick `lastErr` and `lastErrTaskId` are those of the last task that faulted in it, or
as they were if none did. -/
theorem tick_lastErr_partial {beh : Nat → Outcome} (hb : ∀ k, (beh k).calls = []) {s : Sched} {l : Abs} (r : SRep s l) :
    ∃ s', tick beh s = .ok s' ∧ (s'.env.lastErrId, s'.env.lastErr) =
      lastFault s.env (faults beh s.env.trace.length ((l.tasks.filter fun t => yieldedB s.env t.context).map Task.id)) := by
  obtain ⟨s', e, r'⟩ := srep_step hb r (ev := .tick) trivial
  refine ⟨s', e, ?_⟩
  rw [r'.env, r.env]
  exact tickTasks_fault l.tasks l.env r.ok.ctxs r.ok.cnodup

/-- C30: the destructor frees every task once. -/
theorem freeTasks_all : ∀ (ts : List Task) (ns : List (Option TNode)) (h : Option Nat) (e : Env) (fuel : Nat),
    ts.length < fuel → Shape ns h ts →
    ∃ s', freeTasks fuel ⟨ns, h, e⟩ = .ok s' ∧ (∀ a, tnode s'.tasks a = none) ∧ s'.env = e
  | [], ns, h, e, fuel + 1, _, sh => by
    have hh : h = none := sh.chain
    subst hh
    refine ⟨_, rfl, fun a => ?_, rfl⟩
    by_contra hc
    exact absurd ((sh.live a).mp hc) List.not_mem_nil
  | t :: ts, ns, h, e, fuel + 1, hf, sh => by
    obtain ⟨nx, hn⟩ := sh.data t (by simp)
    have hh : h = some t.addr := sh.chain.1
    subst hh
    obtain ⟨ns1, h1, e1, e2, hlen, sh'⟩ := shape_drop (before := []) (after := ts) sh hn
    have h11 : ns1 = ns ∧ h1 = nx := by
      have := e1 e
      simp only [setLink, lastAddr, List.map_nil, List.getLast?_nil, Res.ok.injEq, Sched.mk.injEq] at this
      exact ⟨this.1.symm, this.2.1.symm⟩
    obtain ⟨rfl, rfl⟩ := h11
    obtain ⟨s', e3, h3, h4⟩ := freeTasks_all ts _ _ e fuel (by simpa using hf) sh'
    refine ⟨s', ?_, h3, h4⟩
    unfold freeTasks
    dsimp only
    rw [hn]
    dsimp only
    have e5 : freeTask ⟨ns1, some t.addr, e⟩ t.addr = .ok ⟨ns1.set t.addr none, some t.addr, e⟩ := by
      unfold freeTask; dsimp only; rw [hn]
    rw [e5]
    exact e3

/-! ### Never again -/

theorem run_trace {beh : Nat → Outcome} (hb : ∀ k, (beh k).calls = []) : ∀ (es : List SEv) {s : Sched} {l : Abs},
    SRep s l → SAllowedRun beh l es →
    ∃ more, (l.run beh es).env.trace = l.env.trace ++ more ∧
      ∀ id ∈ more, id ∈ l.tasks.map Task.id ∨ l.env.gen < id
  | [], s, l, r, _ => ⟨[], by simp [Abs.run], fun id h => by cases h⟩
  | e :: es, s, l, r, ha => by
    obtain ⟨s1, e1, r1⟩ := srep_step hb r ha.1
    obtain ⟨more, h1, h2⟩ := run_trace hb es r1 ha.2
    -- what one event does
    have hone : ∃ m, (l.step beh e).env.trace = l.env.trace ++ m ∧ (∀ id ∈ m, id ∈ l.tasks.map Task.id) ∧
        (∀ id ∈ (l.step beh e).tasks.map Task.id, id ∈ l.tasks.map Task.id ∨ l.env.gen < id) ∧
        l.env.gen ≤ (l.step beh e).env.gen := by
      cases e with
      | add rr =>
        cases rr with
        | failed err => exact ⟨[], (List.append_nil _).symm, fun id h => (by cases h), fun id h => Or.inl h, Nat.le_refl _⟩
        | finished => exact ⟨[], (List.append_nil _).symm, fun id h => (by cases h), fun id h => Or.inl h, Nat.le_refl _⟩
        | yielded =>
          refine ⟨[], (List.append_nil _).symm, fun id h => (by cases h), ?_, Nat.le_succ _⟩
          intro id h
          rcases List.mem_cons.mp h with h | h
          · exact Or.inr (by rw [h]; exact Nat.lt_succ_self _)
          · exact Or.inl h
      | remove i =>
        show ∃ m, (match l.tasks.find? (fun t => t.id == i) with
          | none => l
          | some t => { l with tasks := l.tasks.filter (fun t => t.id ≠ i), env := retire l.env t.context } : Abs).env.trace = _ ∧ _
        unfold Abs.step
        dsimp only
        cases l.tasks.find? (fun t => t.id == i) with
        | none => exact ⟨[], (List.append_nil _).symm, fun id h => (by cases h), fun id h => Or.inl h, Nat.le_refl _⟩
        | some t =>
          refine ⟨[], (List.append_nil _).symm, fun id h => (by cases h), fun id h => Or.inl ?_, Nat.le_refl _⟩
          exact (List.filter_sublist.map Task.id).subset h
      | tick =>
        refine ⟨_, tickTasks_trace l.tasks l.env r.ok.ctxs r.ok.cnodup, fun id h => ?_, fun id h => Or.inl ?_, ?_⟩
        · exact (List.filter_sublist.map Task.id).subset h
        · exact ((tickTasks_sub l.tasks l.env).map Task.id).subset h
        · exact (tickTasks_gen (beh := beh) l.tasks l.env).symm ▸ Nat.le_refl _
      | finishes c =>
        have ht : (finishCtx l.env c).trace = l.env.trace ∧ (finishCtx l.env c).gen = l.env.gen := by
          unfold finishCtx; split <;> exact ⟨rfl, rfl⟩
        refine ⟨[], ht.1.trans (List.append_nil _).symm, fun id h => (by cases h), fun id h => Or.inl h, ht.2.symm ▸ Nat.le_refl _⟩
    obtain ⟨m, g1, g2, g3, g4⟩ := hone
    refine ⟨m ++ more, ?_, ?_⟩
    · show ((l.step beh e).run beh es).env.trace = _
      rw [h1, g1, List.append_assoc]
    · intro id h
      rcases List.mem_append.mp h with h | h
      · exact Or.inl (g2 id h)
      · rcases h2 id h with h | h
        · exact g3 id h
        · exact Or.inr (by omega)

/-- C30: whatever happened before, and whatever happens next, an id that is not in the list any more
(removed, finished or faulted) is never resumed again. -/
theorem gone_never_resumed_partial {beh : Nat → Outcome} (hb : ∀ k, (beh k).calls = []) {s : Sched} {l : Abs}
    (r : SRep s l) {id : Nat} (hgen : id ≤ l.env.gen) (hn : id ∉ l.tasks.map Task.id) (es : List SEv)
    (ha : SAllowedRun beh l es) :
    ∃ s' more, srun beh s es = .ok s' ∧ s'.env.trace = s.env.trace ++ more ∧ id ∉ more := by
  obtain ⟨s', e, r'⟩ := srep_run hb es r ha
  obtain ⟨more, h1, h2⟩ := run_trace hb es r ha
  refine ⟨s', more, e, by rw [r'.env, r.env, h1], fun hm => ?_⟩
  rcases h2 id hm with h | h
  · exact hn h
  · omega

/-- C30: removing reports whether the task was there, frees its context, takes it and only it off
the list, and it is never resumed again. -/
theorem removeTask_exact_partial {beh : Nat → Outcome} (hb : ∀ k, (beh k).calls = []) {s : Sched} {l : Abs}
    (r : SRep s l) {t : Task} (ht : t ∈ l.tasks) :
    ∃ s', removeTask s t.id = .ok (true, s') ∧
      Shape s'.tasks s'.head (l.tasks.filter fun u => u.id ≠ t.id) ∧ ctx s'.env t.context = none ∧
      ∀ es, SAllowedRun beh (l.step beh (.remove t.id)) es →
        ∃ s'' more, srun beh s' es = .ok s'' ∧ s''.env.trace = s'.env.trace ++ more ∧ t.id ∉ more := by
  obtain ⟨s', e, r'⟩ := removeTask_rep r t.id (beh := beh)
  have hsome : ∃ u, l.tasks.find? (fun u => u.id == t.id) = some u ∧ u = t := by
    cases hf : l.tasks.find? (fun u => u.id == t.id) with
    | none => have := List.find?_eq_none.mp hf t ht; simp at this
    | some u =>
      refine ⟨u, rfl, ?_⟩
      have hid : u.id = t.id := by simpa using List.find?_some hf
      have hu : u ∈ l.tasks := List.mem_of_find?_eq_some hf
      exact List.inj_on_of_nodup_map r.ok.idnodup hu ht hid
  obtain ⟨u, hf, rfl⟩ := hsome
  have hstep : l.step beh (.remove u.id) =
      { l with tasks := l.tasks.filter (fun t => t.id ≠ u.id), env := retire l.env u.context } := by
    show (match l.tasks.find? (fun t => t.id == u.id) with
      | none => l
      | some t => { l with tasks := l.tasks.filter (fun t => t.id ≠ u.id), env := retire l.env t.context } : Abs) = _
    rw [hf]
  refine ⟨s', by rw [e, hf]; rfl, ?_, ?_, ?_⟩
  · have := r'.shape
    rw [hstep] at this
    exact this
  · rw [r'.env, hstep]
    show ctx (retire l.env u.context) u.context = none
    rw [ctx_retire (r.ok.ctxs u ht), if_pos rfl]
  · intro es ha
    refine gone_never_resumed_partial hb r' ?_ ?_ es ha
    · rw [hstep]; exact (r.ok.bound u ht).2
    · rw [hstep]
      intro hm
      obtain ⟨v, hv, hvid⟩ := List.mem_map.mp hm
      have := (List.mem_filter.mp hv).2
      simp [hvid] at this

/-- C30: over every history, no freed task or context is touched, the tasks in memory are exactly
those of the list, and their ids are positive and distinct. -/
theorem scheduler_history_partial {beh : Nat → Outcome} (hb : ∀ k, (beh k).calls = []) (gen : Nat) (es : List SEv)
    (ha : SAllowedRun beh (emptyAbs gen) es) :
    ∃ s, srun beh (sstart gen) es = .ok s ∧ Shape s.tasks s.head ((emptyAbs gen).run beh es).tasks ∧
      (((emptyAbs gen).run beh es).tasks.map Task.id).Nodup ∧
      (∀ t ∈ ((emptyAbs gen).run beh es).tasks, 0 < t.id ∧ ctx s.env t.context ≠ none) := by
  obtain ⟨s, e, r⟩ := srep_run hb es (srep_start gen) ha
  refine ⟨s, e, r.shape, r.ok.idnodup, fun t ht => ⟨(r.ok.bound t ht).1, ?_⟩⟩
  rw [r.env]
  exact r.ok.ctxs t ht

/-- C30: a new thread gets an id no thread had before, and goes first in the list. -/
theorem addThread_fresh {s : Sched} {l : Abs} (r : SRep s l) (hg : l.env.gen + 1 < 2147483648) :
    ∃ s', addThread s .yielded = .ok ((l.env.gen + 1 : Nat), s') ∧ (∀ t ∈ l.tasks, t.id ≠ l.env.gen + 1) ∧
      s'.head = some s.tasks.length ∧ tnode s'.tasks s.tasks.length = some ⟨s.env.ctxs.length, s.head, l.env.gen + 1⟩ := by
  refine ⟨{ s with
        tasks := s.tasks ++ [some ⟨s.env.ctxs.length, s.head, s.env.gen + 1⟩]
        head := some s.tasks.length
        env := { s.env with ctxs := s.env.ctxs ++ [some true], err := 0, gen := s.env.gen + 1 } }, ?_, fun t ht h => ?_, rfl, ?_⟩
  · unfold addThread
    dsimp only
    rw [r.env, if_pos hg]
    rfl
  · have := (r.ok.bound t ht).2
    omega
  · dsimp only
    rw [tnode_append, if_pos rfl, r.env]

/-! ### Where it fails -/

/-- A thread that runs to its end at once leaves its context behind, until the state is destroyed. -/
theorem addThread_finished_keeps_context :
    addThread (sstart 0) .finished = .ok (0, ⟨[], none, ⟨[some false], 0, 0, 0, 0, []⟩⟩) := rfl

/-- The only task starts another and finishes: the new one is lost. -/
def demoNested (k : Nat) : Outcome :=
  if k = 0 then ⟨false, 0, [.add .yielded]⟩ else ⟨true, 0, []⟩

theorem nested_add_lost :
    srun demoNested (sstart 0) [.add .yielded, .tick] =
      .ok ⟨[none, some ⟨1, some 0, 2⟩], none, ⟨[none, some true], 2, 0, 0, 0, [1]⟩⟩ := by decide

/-- A task that removes itself while it runs is used after it is freed. -/
def demoSelf (_ : Nat) : Outcome := ⟨true, 0, [.remove 1]⟩

theorem nested_remove_ub : srun demoSelf (sstart 0) [.add .yielded, .tick] = .ub := by decide

/-! ### Example -/

/-- The second resumption faults with error 7, the fourth ends. -/
def demoBeh (k : Nat) : Outcome := ⟨k ≠ 1 && k ≠ 3, if k = 1 then 7 else 0, []⟩

def demoEvents : List SEv := [.add .yielded, .add .yielded, .add .yielded, .tick, .remove 3, .tick, .add .yielded, .tick]

example : SAllowedRun demoBeh (emptyAbs 0) demoEvents := by
  simp [SAllowedRun, demoEvents, SAllowed, emptyAbs, Abs.step, tickTasks, yieldedB, ctx, demoBeh, resume,
    retire, noteError]

example : ((emptyAbs 0).run demoBeh demoEvents).env.trace = [3, 2, 1, 1, 4] := by decide
example : ((emptyAbs 0).run demoBeh demoEvents).env.lastErrId = 2 := by decide
example : srun demoBeh (sstart 0) demoEvents =
    .ok ⟨[none, none, none, some ⟨3, none, 4⟩], some 3, ⟨[none, none, none, some true], 4, 0, 7, 2, [3, 2, 1, 1, 4]⟩⟩ := by
  decide

end Wrench.Host
