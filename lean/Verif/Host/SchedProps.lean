import Verif.Host.Scheduler
import Mathlib.Tactic.ByContra

namespace Wrench.Host

def tnx (ns : List (Option TNode)) (a : Nat) : Option Nat := (tnode ns a).bind (·.next)

def TChain (ns : List (Option TNode)) : Option Nat → List Nat → Prop
  | o, [] => o = none
  | o, a :: as => o = some a ∧ TChain ns (tnx ns a) as

/-- The nodes reached from `head` are the tasks `ts`, in order, and there are no others. -/
structure Shape (ns : List (Option TNode)) (head : Option Nat) (ts : List Task) : Prop where
  data : ∀ t ∈ ts, ∃ nx, tnode ns t.addr = some ⟨t.context, nx, t.id⟩
  chain : TChain ns head (ts.map Task.addr)
  nodup : (ts.map Task.addr).Nodup
  live : ∀ a, tnode ns a ≠ none ↔ a ∈ ts.map Task.addr

structure EnvOk (e : Env) (ts : List Task) : Prop where
  ctxs : ∀ t ∈ ts, ctx e t.context ≠ none
  cnodup : (ts.map Task.context).Nodup
  idnodup : (ts.map Task.id).Nodup
  bound : ∀ t ∈ ts, 0 < t.id ∧ t.id ≤ e.gen

theorem tnode_lt {ns : List (Option TNode)} {a : Nat} (h : tnode ns a ≠ none) : a < ns.length := by
  by_contra hc
  apply h
  unfold tnode
  rw [List.getElem?_eq_none (by omega)]
  rfl

theorem tnode_set {ns : List (Option TNode)} {a : Nat} (h : tnode ns a ≠ none) (v : Option TNode) (b : Nat) :
    tnode (ns.set a v) b = if b = a then v else tnode ns b := by
  have := tnode_lt h
  unfold tnode
  rw [List.getElem?_set]
  by_cases hb : b = a
  · subst hb; simp [this]
  · rw [if_neg (fun e => hb e.symm), if_neg hb]

theorem tnode_append (ns : List (Option TNode)) (n : TNode) (b : Nat) :
    tnode (ns ++ [some n]) b = if b = ns.length then some n else tnode ns b := by
  unfold tnode
  by_cases hb : b = ns.length
  · subst hb; simp
  · rw [if_neg hb]
    by_cases hl : b < ns.length
    · rw [List.getElem?_append_left hl]
    · rw [List.getElem?_eq_none (by simp; omega), List.getElem?_eq_none (by omega)]

theorem TChain.congr {ns ns' : List (Option TNode)} : ∀ {as : List Nat} {o : Option Nat}, TChain ns o as →
    (∀ x ∈ as, tnx ns' x = tnx ns x) → TChain ns' o as
  | [], _, hl, _ => hl
  | a :: as, o, hl, hc => by
    refine ⟨hl.1, ?_⟩
    rw [hc a (by simp)]
    exact TChain.congr hl.2 (fun y hy => hc y (List.mem_cons_of_mem _ hy))

theorem tchain_at {ns : List (Option TNode)} : ∀ (as bs : List Nat) (o : Option Nat), TChain ns o (as ++ bs) →
    (as.getLast? = none → o = bs.head?) ∧ ∀ p, as.getLast? = some p → tnx ns p = bs.head?
  | [], bs, o, h => by
    refine ⟨fun _ => ?_, fun p hp => by simp at hp⟩
    cases bs with
    | nil => exact h
    | cons b bs => exact h.1
  | [a], bs, o, h => by
    refine ⟨fun hn => by simp at hn, fun p hp => ?_⟩
    have : a = p := by simpa using hp
    subst this
    have h2 : TChain ns (tnx ns a) bs := h.2
    cases bs with
    | nil => exact h2
    | cons b bs => exact h2.1
  | a :: a' :: as, bs, o, h => by
    refine ⟨fun hn => by simp at hn, fun p hp => ?_⟩
    exact (tchain_at (a' :: as) bs _ h.2).2 p (by simpa using hp)

private theorem tchain_cut {h h' : List (Option TNode)} {c p : Nat} (hp : tnx h' p = tnx h c)
    (ho : ∀ x, x ≠ p → x ≠ c → tnx h' x = tnx h x) :
    ∀ (as bs : List Nat) (o : Option Nat), as.getLast? = some p → TChain h o (as ++ c :: bs) →
    (as ++ c :: bs).Nodup → TChain h' o (as ++ bs)
  | [], _, _, hl, _, _ => by simp at hl
  | [a], bs, o, hl, hc, hn => by
    have : a = p := by simpa using hl
    subst this
    obtain ⟨rfl, _, hc⟩ := hc
    refine ⟨rfl, ?_⟩
    rw [hp]
    simp at hn
    refine TChain.congr hc (fun x hx => ho x ?_ ?_)
    · rintro rfl; exact hn.1.2 hx
    · rintro rfl; exact hn.2.1 hx
  | a :: a' :: as, bs, o, hl, hc, hn => by
    obtain ⟨rfl, hc⟩ := hc
    have hl' : (a' :: as).getLast? = some p := by simpa using hl
    have hn' := List.nodup_cons.mp (show (a :: (a' :: as ++ c :: bs)).Nodup from hn)
    refine ⟨rfl, ?_⟩
    rw [ho a ?_ ?_]
    · exact tchain_cut hp ho (a' :: as) bs _ hl' hc hn'.2
    · rintro rfl
      exact hn'.1 (by
        have : a ∈ a' :: as := List.mem_of_getLast? hl'
        rcases List.mem_cons.mp this with h | h <;> simp [h])
    · rintro rfl
      exact hn'.1 (by simp)

def lastAddr (ts : List Task) : Option Nat := (ts.map Task.addr).getLast?

theorem shape_getLink {ns : List (Option TNode)} {h : Option Nat} {before todo : List Task}
    (sh : Shape ns h (before ++ todo)) (e : Env) :
    getLink ⟨ns, h, e⟩ (lastAddr before) = .ok (todo.map Task.addr).head? := by
  have hc := sh.chain
  rw [List.map_append] at hc
  have := tchain_at _ _ _ hc
  unfold getLink
  cases hl : lastAddr before with
  | none => dsimp only; rw [this.1 hl]
  | some p =>
    dsimp only
    have hm : p ∈ before.map Task.addr := List.mem_of_getLast? hl
    have hlv := (sh.live p).mpr (by rw [List.map_append]; exact List.mem_append.mpr (Or.inl hm))
    have hx := this.2 p hl
    unfold tnx at hx
    cases e : tnode ns p with
    | none => exact absurd e hlv
    | some n => rw [e] at hx; dsimp only; rw [← hx]; rfl

/-- Unlinking and freeing a task. -/
theorem shape_drop {ns : List (Option TNode)} {h : Option Nat} {before after : List Task} {t : Task}
    (sh : Shape ns h (before ++ t :: after)) {n : TNode} (hn : tnode ns t.addr = some n) :
    ∃ ns1 h1, (∀ e, setLink ⟨ns, h, e⟩ (lastAddr before) n.next = .ok ⟨ns1, h1, e⟩) ∧
      (∀ e, freeTask ⟨ns1, h1, e⟩ t.addr = .ok ⟨ns1.set t.addr none, h1, e⟩) ∧ ns1.length = ns.length ∧
      Shape (ns1.set t.addr none) h1 (before ++ after) := by
  have hc := sh.chain
  have hnd := sh.nodup
  rw [List.map_append, List.map_cons] at hc hnd
  have hnd' := hnd
  rw [List.nodup_append] at hnd
  have hnb : t.addr ∉ before.map Task.addr := fun hm => hnd.2.2 _ hm _ (by simp) rfl
  have hna : t.addr ∉ after.map Task.addr := (List.nodup_cons.mp hnd.2.1).1
  have hnx : tnx ns t.addr = n.next := by unfold tnx; rw [hn]; rfl
  have hnodup : ((before ++ after).map Task.addr).Nodup := by
    rw [List.map_append]
    exact hnd'.sublist (List.Sublist.append_left (List.sublist_cons_self _ _) _)
  have hmem : ∀ a, a ∈ (before ++ t :: after).map Task.addr ↔ a = t.addr ∨ a ∈ (before ++ after).map Task.addr := by
    intro a
    simp only [List.map_append, List.map_cons, List.mem_append, List.mem_cons]
    tauto
  have hnt : t.addr ∉ (before ++ after).map Task.addr := by
    rw [List.map_append, List.mem_append]
    exact fun h => h.elim hnb hna
  -- any change of `next` fields
  have key : ∀ (ns1 : List (Option TNode)) (h1 : Option Nat),
      (∀ a, tnode ns1 a ≠ none ↔ tnode ns a ≠ none) →
      (∀ a m, tnode ns a = some m → ∃ nx, tnode ns1 a = some { m with next := nx }) →
      TChain (ns1.set t.addr none) h1 ((before ++ after).map Task.addr) →
      (∀ e, freeTask ⟨ns1, h1, e⟩ t.addr = .ok ⟨ns1.set t.addr none, h1, e⟩) ∧
      Shape (ns1.set t.addr none) h1 (before ++ after) := by
    intro ns1 h1 hl hd hch
    have hlt : tnode ns1 t.addr ≠ none := (hl _).mpr (by rw [hn]; simp)
    refine ⟨?_, ?_, hch, hnodup, ?_⟩
    · intro e
      unfold freeTask
      cases e1 : tnode ns1 t.addr with
      | none => exact absurd e1 hlt
      | some m => rfl
    · intro u hu
      have hu' : u ∈ before ++ t :: after := by
        rcases List.mem_append.mp hu with h | h
        · exact List.mem_append.mpr (Or.inl h)
        · exact List.mem_append.mpr (Or.inr (List.mem_cons_of_mem _ h))
      obtain ⟨nx, hux⟩ := sh.data u hu'
      obtain ⟨nx', hux'⟩ := hd _ _ hux
      refine ⟨nx', ?_⟩
      rw [tnode_set hlt, if_neg, hux']
      intro e
      exact hnt (e ▸ List.mem_map.mpr ⟨u, hu, rfl⟩)
    · intro a
      rw [tnode_set hlt]
      by_cases ha : a = t.addr
      · rw [if_pos ha, ha]
        exact ⟨fun h => absurd rfl h, fun h => absurd h hnt⟩
      · rw [if_neg ha, hl, sh.live, hmem]
        exact ⟨fun h => h.resolve_left ha, Or.inr⟩
  cases hl : lastAddr before with
  | none =>
    have hnil : before.map Task.addr = [] := List.getLast?_eq_none_iff.mp hl
    have hch : TChain (ns.set t.addr none) n.next ((before ++ after).map Task.addr) := by
      rw [List.map_append, hnil]
      rw [hnil] at hc
      have h2 := hc.2
      rw [hnx] at h2
      refine TChain.congr h2 (fun x hx => ?_)
      unfold tnx
      rw [tnode_set (by rw [hn]; simp), if_neg (fun (e : x = t.addr) => hna (e ▸ hx))]
    obtain ⟨h1, h2⟩ := key ns n.next (fun _ => Iff.rfl) (fun a m hm => ⟨m.next, hm⟩) hch
    exact ⟨ns, n.next, fun e => rfl, h1, rfl, h2⟩
  | some p =>
    have hm : p ∈ before.map Task.addr := List.mem_of_getLast? hl
    have hlp := (sh.live p).mpr (by rw [List.map_append]; exact List.mem_append.mpr (Or.inl hm))
    cases ep : tnode ns p with
    | none => exact absurd ep hlp
    | some np =>
    have hpt : p ≠ t.addr := fun e => hnb (e ▸ hm)
    have hns : ∀ b, tnode (ns.set p (some { np with next := n.next })) b =
        if b = p then some { np with next := n.next } else tnode ns b := tnode_set hlp _
    have hlt1 : tnode (ns.set p (some { np with next := n.next })) t.addr ≠ none := by
      rw [hns, if_neg hpt.symm, hn]; simp
    have hch : TChain ((ns.set p (some { np with next := n.next })).set t.addr none) h
        ((before ++ after).map Task.addr) := by
      rw [List.map_append]
      refine tchain_cut (h := ns) (c := t.addr) (p := p) ?_ ?_ _ _ _ hl hc hnd'
      · unfold tnx
        rw [tnode_set hlt1, if_neg hpt, hns, if_pos rfl, hn]; rfl
      · intro x hx hxt
        unfold tnx
        rw [tnode_set hlt1, if_neg hxt, hns, if_neg hx]
    obtain ⟨h1, h2⟩ := key (ns.set p (some { np with next := n.next })) h
      (fun a => by
        rw [hns]
        by_cases ha : a = p
        · rw [if_pos ha, ha, ep]; simp
        · rw [if_neg ha])
      (fun a m hm => by
        rw [hns]
        by_cases ha : a = p
        · rw [ha, ep] at hm
          cases hm
          exact ⟨n.next, by rw [if_pos ha]⟩
        · exact ⟨m.next, by rw [if_neg ha, hm]⟩) hch
    refine ⟨_, h, ?_, h1, by simp, h2⟩
    intro e
    unfold setLink
    dsimp only
    rw [ep]

/-! ### The environment -/

theorem ctx_lt {e : Env} {c : Nat} (h : ctx e c ≠ none) : c < e.ctxs.length := by
  by_contra hc
  apply h
  unfold ctx
  rw [List.getElem?_eq_none (by omega)]
  rfl

theorem ctx_resume {beh : Nat → Outcome} {e : Env} {c id : Nat} (h : ctx e c ≠ none) (x : Nat) :
    ctx (resume beh e c id) x = if x = c then some (beh e.trace.length).yields else ctx e x := by
  have := ctx_lt h
  unfold ctx resume
  dsimp only
  rw [List.getElem?_set]
  by_cases hb : x = c
  · subst hb; simp [this]
  · rw [if_neg (fun e => hb e.symm), if_neg hb]

theorem ctx_retire {e : Env} {c : Nat} (h : ctx e c ≠ none) (x : Nat) :
    ctx (retire e c) x = if x = c then none else ctx e x := by
  have := ctx_lt h
  unfold ctx retire
  dsimp only
  rw [List.getElem?_set]
  by_cases hb : x = c
  · subst hb; simp [this]
  · rw [if_neg (fun e => hb e.symm), if_neg hb]

theorem ctx_noteError (e : Env) (id x : Nat) : ctx (noteError e id) x = ctx e x := by
  unfold noteError; split <;> rfl

theorem destroyCtx_ok {e : Env} {c : Nat} (h : ctx e c ≠ none) : destroyCtx e c = .ok (retire e c) := by
  unfold destroyCtx
  cases e1 : ctx e c with
  | none => exact absurd e1 h
  | some b => rfl

theorem noteError_gen (e : Env) (id : Nat) : (noteError e id).gen = e.gen := by
  unfold noteError; split <;> rfl

theorem envOk_resume {beh : Nat → Outcome} {e : Env} {ts : List Task} (ok : EnvOk e ts) {c id : Nat}
    (h : ctx e c ≠ none) : EnvOk (resume beh e c id) ts := by
  refine ⟨fun t ht => ?_, ok.cnodup, ok.idnodup, ok.bound⟩
  rw [ctx_resume h]
  by_cases hc : t.context = c
  · rw [if_pos hc]; simp
  · rw [if_neg hc]; exact ok.ctxs t ht

theorem envOk_noteError {e : Env} {ts : List Task} (ok : EnvOk e ts) (id : Nat) : EnvOk (noteError e id) ts :=
  ⟨fun t ht => by rw [ctx_noteError]; exact ok.ctxs t ht, ok.cnodup, ok.idnodup,
   fun t ht => by rw [noteError_gen]; exact ok.bound t ht⟩

theorem envOk_drop {e : Env} {before after : List Task} {t : Task} (ok : EnvOk e (before ++ t :: after)) :
    EnvOk (retire e t.context) (before ++ after) := by
  have hsub : (before ++ after).Sublist (before ++ t :: after) :=
    List.Sublist.append_left (List.sublist_cons_self _ _) _
  refine ⟨?_, ok.cnodup.sublist (hsub.map _), ok.idnodup.sublist (hsub.map _), fun u hu => ok.bound u (hsub.subset hu)⟩
  intro u hu
  rw [ctx_retire (ok.ctxs t (by simp)), if_neg]
  · exact ok.ctxs u (hsub.subset hu)
  · intro e
    have hn := ok.cnodup
    rw [List.map_append, List.map_cons, List.nodup_append] at hn
    rcases List.mem_append.mp hu with h | h
    · exact hn.2.2 _ (List.mem_map.mpr ⟨u, h, rfl⟩) _ (by simp [e]) rfl
    · exact (List.nodup_cons.mp hn.2.1).1 (List.mem_map.mpr ⟨u, h, e⟩)

/-! ### The tick -/

theorem dropTask_ok {ns : List (Option TNode)} {h : Option Nat} {e : Env} {before after : List Task} {t : Task}
    (sh : Shape ns h (before ++ t :: after)) (hc : ctx e t.context ≠ none) :
    ∃ ns' h', dropTask ⟨ns, h, e⟩ (lastAddr before) t.addr = .ok ⟨ns', h', retire e t.context⟩ ∧
      ns'.length = ns.length ∧ Shape ns' h' (before ++ after) := by
  obtain ⟨nx, hn⟩ := sh.data t (by simp)
  obtain ⟨ns1, h1, e1, e2, hlen, sh'⟩ := shape_drop sh hn
  refine ⟨_, h1, ?_, by simpa using hlen, sh'⟩
  unfold dropTask
  dsimp only
  rw [hn]
  dsimp only at e1 ⊢
  rw [e1]
  show (destroyCtx e t.context).bind _ = _
  rw [destroyCtx_ok hc]
  exact e2 _

theorem tickLoop_ok {beh : Nat → Outcome} (hb : ∀ k, (beh k).calls = []) :
    ∀ (todo before : List Task) (ns : List (Option TNode)) (h : Option Nat) (e : Env) (fuel : Nat),
    todo.length < fuel → Shape ns h (before ++ todo) → EnvOk e (before ++ todo) →
    ∃ ns' h', tickLoop beh fuel (lastAddr before) ⟨ns, h, e⟩ = .ok ⟨ns', h', (tickTasks beh todo e).2⟩ ∧
      ns'.length = ns.length ∧ Shape ns' h' (before ++ (tickTasks beh todo e).1) ∧
      EnvOk (tickTasks beh todo e).2 (before ++ (tickTasks beh todo e).1)
  | [], before, ns, h, e, fuel + 1, _, sh, ok => by
    refine ⟨ns, h, ?_, rfl, sh, ok⟩
    unfold tickLoop
    rw [shape_getLink sh]
    rfl
  | t :: todo, before, ns, h, e, fuel + 1, hf, sh, ok => by
    have hf' : todo.length < fuel := by simpa using hf
    obtain ⟨nx, hn⟩ := sh.data t (by simp)
    have hct := ok.ctxs t (by simp)
    unfold tickLoop
    rw [shape_getLink sh]
    simp only [Res.bind, List.map_cons, List.head?_cons, hn]
    have hdrop : ∀ e', ctx e' t.context ≠ none → EnvOk e' (before ++ t :: todo) →
        ∃ ns' h', (dropTask ⟨ns, h, e'⟩ (lastAddr before) t.addr).bind (tickLoop beh fuel (lastAddr before)) =
            .ok ⟨ns', h', (tickTasks beh todo (retire e' t.context)).2⟩ ∧
          ns'.length = ns.length ∧ Shape ns' h' (before ++ (tickTasks beh todo (retire e' t.context)).1) ∧
          EnvOk (tickTasks beh todo (retire e' t.context)).2 (before ++ (tickTasks beh todo (retire e' t.context)).1) := by
      intro e' hc' ok'
      obtain ⟨ns1, h1, e1, hl1, sh1⟩ := dropTask_ok sh hc'
      obtain ⟨ns2, h2, e2, hl2, sh2, ok2⟩ := tickLoop_ok hb todo before ns1 h1 _ fuel hf' sh1 (envOk_drop ok')
      refine ⟨ns2, h2, ?_, hl2.trans hl1, sh2, ok2⟩
      rw [e1]
      exact e2
    cases hcv : ctx e t.context with
    | none => exact absurd hcv hct
    | some b =>
      cases b with
      | false =>
        have hy : yieldedB e t.context = false := by unfold yieldedB; rw [hcv]; rfl
        unfold tickTasks
        rw [hy]
        simp only [Bool.false_eq_true, if_false]
        have := hdrop e hct ok
        simpa only [Res.bind] using this
      | true =>
        have hy : yieldedB e t.context = true := by unfold yieldedB; rw [hcv]; rfl
        unfold tickTasks
        rw [hy]
        simp only [if_true, hb, doCalls, hn, ctx_resume hct]
        cases hyl : (beh e.trace.length).yields with
        | false =>
          simp only [Bool.false_eq_true, if_false]
          exact hdrop (noteError (resume beh e t.context t.id) t.id)
            (by rw [ctx_noteError, ctx_resume hct, if_pos rfl]; simp)
            (envOk_noteError (envOk_resume ok hct) _)
        | true =>
          simp only [if_true]
          have hlast : some t.addr = lastAddr (before ++ [t]) := by
            unfold lastAddr; simp
          obtain ⟨ns2, h2, e2, hl2, sh2, ok2⟩ := tickLoop_ok hb todo (before ++ [t]) ns h (resume beh e t.context t.id) fuel hf'
            (by simpa using sh) (by simpa using envOk_resume (beh := beh) (c := t.context) (id := t.id) ok hct)
          rw [hlast]
          exact ⟨ns2, h2, e2, hl2, by simpa using sh2, by simpa using ok2⟩

/-! ### Removing -/

theorem removeLoop_absent {id : Nat} : ∀ (todo before : List Task) (ns : List (Option TNode)) (h : Option Nat) (e : Env)
    (fuel : Nat) (last : Option Nat), todo.length < fuel → Shape ns h (before ++ todo) →
    (∀ t ∈ todo, t.id ≠ id) →
    removeLoop id fuel last (todo.map Task.addr).head? ⟨ns, h, e⟩ = .ok (false, ⟨ns, h, e⟩)
  | [], _, _, _, _, fuel + 1, _, _, _, _ => rfl
  | t :: todo, before, ns, h, e, fuel + 1, last, hf, sh, hid => by
    obtain ⟨nx, hn⟩ := sh.data t (by simp)
    unfold removeLoop
    simp only [List.map_cons, List.head?_cons, hn]
    rw [if_neg (hid t (by simp))]
    have hc := sh.chain
    rw [List.map_append, List.map_cons] at hc
    have hx : nx = (todo.map Task.addr).head? := by
      have := (tchain_at ((before ++ [t]).map Task.addr) (todo.map Task.addr) h (by simpa using hc)).2 t.addr (by simp)
      unfold tnx at this
      rw [hn] at this
      exact this
    rw [hx]
    exact removeLoop_absent todo (before ++ [t]) ns h e fuel _ (by simpa using hf) (by simpa using sh)
      (fun u hu => hid u (by simp [hu]))

theorem removeLoop_found {id : Nat} {t : Task} (hid : t.id = id) {after : List Task} :
    ∀ (mid before : List Task) (ns : List (Option TNode)) (h : Option Nat) (e : Env)
    (fuel : Nat), mid.length < fuel → Shape ns h (before ++ (mid ++ t :: after)) →
    EnvOk e (before ++ (mid ++ t :: after)) →
    (∀ t ∈ mid, t.id ≠ id) →
    ∃ ns' h', removeLoop id fuel (lastAddr before) ((mid ++ t :: after).map Task.addr).head? ⟨ns, h, e⟩ =
        .ok (true, ⟨ns', h', retire e t.context⟩) ∧ ns'.length = ns.length ∧
      Shape ns' h' (before ++ (mid ++ after))
  | [], before, ns, h, e, fuel + 1, _, sh, ok, _ => by
    obtain ⟨nx, hn⟩ := sh.data t (by simp)
    obtain ⟨ns1, h1, e1, e2, hlen, sh'⟩ := shape_drop (before := before) (after := after) sh hn
    refine ⟨_, h1, ?_, by simpa using hlen, sh'⟩
    unfold removeLoop
    simp only [List.nil_append, List.map_cons, List.head?_cons, hn]
    rw [if_pos hid, destroyCtx_ok (ok.ctxs t (by simp))]
    simp only [Res.bind]
    dsimp only at e1
    rw [e1]
    simp only [e2]
  | u :: mid, before, ns, h, e, fuel + 1, hf, sh, ok, hm => by
    obtain ⟨nx, hn⟩ := sh.data u (by simp)
    unfold removeLoop
    simp only [List.cons_append, List.map_cons, List.head?_cons, hn]
    rw [if_neg (hm u (by simp))]
    have hc := sh.chain
    rw [List.map_append, List.cons_append, List.map_cons] at hc
    have hx : nx = ((mid ++ t :: after).map Task.addr).head? := by
      have := (tchain_at ((before ++ [u]).map Task.addr) ((mid ++ t :: after).map Task.addr) h (by simpa using hc)).2 u.addr (by simp)
      unfold tnx at this
      rw [hn] at this
      exact this
    have hlast : some u.addr = lastAddr (before ++ [u]) := by unfold lastAddr; simp
    rw [hx, hlast]
    obtain ⟨ns', h', e1, hl, sh'⟩ := removeLoop_found hid mid (before ++ [u]) ns h e fuel (by simpa using hf) (by simpa using sh)
      (by simpa using ok) (fun v hv => hm v (by simp [hv]))
    exact ⟨ns', h', e1, hl, by simpa using sh'⟩

end Wrench.Host
