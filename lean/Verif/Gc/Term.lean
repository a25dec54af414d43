import Verif.Gc.Props

/-
C17: when marking terminates; and repetition of collections (second half of C16).
-/
namespace Wrench.Gc

/-- One object contains a value that holds the other. -/
def Edge (h : Heap) (o o' : Nat) : Prop := ∃ c, Contains h o c ∧ Holds h c o'

/-- An object that contains itself, directly or through others. -/
def Cyclic (h : Heap) (o : Nat) : Prop := Relation.TransGen (Edge h) o o

/-! ### Cycles make marking run forever -/

theorem closed_trans {h : Heap} {m : Marks} (hc : Closed h m) {o o' : Nat}
    (t : Relation.TransGen (Edge h) o o') (ho : m o = true) : m o' = true := by
  induction t with
  | single e => obtain ⟨c, hc1, hc2⟩ := e; exact (hc _ ho).1 c (mem_cellsOf.mpr hc1) _ hc2
  | tail _ e ih => obtain ⟨c, hc1, hc2⟩ := e; exact (hc _ ih).1 c (mem_cellsOf.mpr hc1) _ hc2

/-- First step of a path. -/
theorem trans_head {α : Type} {r : α → α → Prop} {a c : α} (t : Relation.TransGen r a c) :
    ∃ b, r a b ∧ (b = c ∨ Relation.TransGen r b c) := by
  induction t with
  | single e => exact ⟨_, e, Or.inl rfl⟩
  | tail _ e ih =>
    obtain ⟨b, h1, h2⟩ := ih
    rcases h2 with rfl | h2
    · exact ⟨_, h1, Or.inr (.single e)⟩
    · exact ⟨_, h1, Or.inr (h2.tail e)⟩

def NoCyc (h : Heap) (m : Marks) : Prop := ∀ o, m o = true → ¬ Cyclic h o

theorem visitAll_acyclic {h : Heap} {g : Cell → Marks → Res}
    (hg : ∀ c m m', g c m = .ok m' → Closed h m → Post h c m m')
    (hn : ∀ c m m', g c m = .ok m' → Closed h m → NoCyc h m → NoCyc h m') :
    ∀ (cs : List Cell) (m m' : Marks), visitAll g cs m = .ok m' → Closed h m → NoCyc h m → NoCyc h m'
  | [], m, m', e, _, hm => by simp only [visitAll, Res.ok.injEq] at e; subst e; exact hm
  | c :: cs, m, m', e, hc, hm => by
    rw [visitAll] at e
    cases h1 : g c m with
    | ub => rw [h1] at e; cases e
    | deep => rw [h1] at e; cases e
    | ok m1 =>
      rw [h1] at e
      exact visitAll_acyclic hg hn cs m1 m' e (hg c m m1 h1 hc).closed (hn c m m1 h1 hc hm)

theorem noCyc_setMark {h : Heap} {m : Marks} {o : Nat} (hc : Closed h m) (hm : NoCyc h m)
    (hch : ∀ c ∈ cellsOf h o, ∀ o', Holds h c o' → m o' = true) : NoCyc h (setMark m o) := by
  intro x hx
  rcases (setMark_iff _ _ _).mp hx with rfl | hx
  · intro cyc
    obtain ⟨b, ⟨c, h1, h2⟩, h3⟩ := trans_head cyc
    have hb := hch c (mem_cellsOf.mpr h1) b h2
    rcases h3 with h3 | h3
    · subst h3; exact hm _ hb cyc
    · exact hm _ (closed_trans hc h3 hb) cyc
  · exact hm x hx

theorem noCyc_leaf {h : Heap} {m : Marks} {o : Nat} (hm : NoCyc h m) (hch : cellsOf h o = []) :
    NoCyc h (setMark m o) := by
  intro x hx
  rcases (setMark_iff _ _ _).mp hx with rfl | hx
  · intro cyc
    obtain ⟨b, ⟨c, h1, h2⟩, h3⟩ := trans_head cyc
    rw [← mem_cellsOf, hch] at h1; cases h1
  · exact hm x hx

theorem markBase_acyclic {h : Heap} {g : Cell → Marks → Res}
    (hg : ∀ c m m', g c m = .ok m' → Closed h m → Post h c m m')
    (hn : ∀ c m m', g c m = .ok m' → Closed h m → NoCyc h m → NoCyc h m') (o : Nat) (m m' : Marks)
    (e : markBase h g o m = .ok m') (hc : Closed h m) (hm : NoCyc h m) : NoCyc h m' := by
  unfold markBase at e
  cases hx : h.get o with
  | none => rw [hx] at e; cases e
  | some x =>
    rw [hx] at e
    simp only at e
    cases hk : x.kind with
    | values cs =>
      rw [hk] at e
      simp only at e
      cases hv : visitAll g cs m with
      | ub => rw [hv] at e; cases e
      | deep => rw [hv] at e; cases e
      | ok m1 =>
        rw [hv] at e
        simp only [Res.bind, Res.ok.injEq] at e
        subst e
        obtain ⟨a, _, d⟩ := visitAll_post hg cs m m1 hv hc
        refine noCyc_setMark a (visitAll_acyclic hg hn cs m m1 hv hc hm) ?_
        intro c hcm
        exact d c (by simpa [cellsOf, hx, hk] using hcm)
    | chars =>
      rw [hk] at e; simp only [Res.ok.injEq] at e; subst e
      exact noCyc_leaf hm (by simp [cellsOf, hx, hk])
    | block cs =>
      rw [hk] at e; simp only [Res.ok.injEq] at e; subst e
      exact noCyc_leaf hm (by simp [cellsOf, hx, hk])
    | table b used =>
      rw [hk] at e
      simp only at e
      cases hb : (h.get b).map Obj.kind with
      | none => rw [hb] at e; cases e
      | some kb =>
        cases kb with
        | values cs => rw [hb] at e; cases e
        | chars => rw [hb] at e; cases e
        | table b' u' => rw [hb] at e; cases e
        | block cs =>
          rw [hb] at e
          simp only at e
          by_cases hlen : used.length = cs.length
          · rw [if_pos hlen] at e
            have hcb : Closed h (setMark m b) := by
              intro o' ho'
              have hle := le_setMark m b
              rcases (setMark_iff _ _ _).mp ho' with rfl | ho'
              · constructor
                · intro c hcm
                  simp [cellsOf, hb] at hcm
                · intro b' ⟨used, hb'⟩
                  rw [hb] at hb'; cases hb'
              · obtain ⟨p, q⟩ := hc o' ho'
                exact ⟨fun c hcm o'' hh => hle _ (p c hcm o'' hh), fun b' hb => hle _ (q b' hb)⟩
            cases hv : visitAll g (usedCells used cs) (setMark m b) with
            | ub => rw [hv] at e; cases e
            | deep => rw [hv] at e; cases e
            | ok m1 =>
              rw [hv] at e
              simp only [Res.bind, Res.ok.injEq] at e
              subst e
              obtain ⟨a, _, d⟩ := visitAll_post hg _ _ m1 hv hcb
              refine noCyc_setMark a (visitAll_acyclic hg hn _ _ m1 hv hcb (noCyc_leaf hm (by simp [cellsOf, hb]))) ?_
              intro c hcm
              exact d c (by simpa [cellsOf, hx, hk, hb] using hcm)
          · rw [if_neg hlen] at e; cases e

theorem mark_acyclic (h : Heap) : ∀ (f : Nat) (c : Cell) (m m' : Marks), mark h f c m = .ok m' → Closed h m →
    NoCyc h m → NoCyc h m'
  | 0, c, m, m', e, _, _ => by cases e
  | f + 1, c, m, m', e, hc, hm => by
    have hobj : ∀ o, (if m o then Res.ok m else markBase h (mark h f) o m) = .ok m' → NoCyc h m' := by
      intro o e
      split at e
      · simp only [Res.ok.injEq] at e; subst e; exact hm
      · exact markBase_acyclic (fun c m m' => mark_post h f c m m') (fun c m m' => mark_acyclic h f c m m') o m m' e hc hm
    cases c with
    | plain => simp only [mark, Res.ok.injEq] at e; subst e; exact hm
    | ref a => simp only [mark, Res.ok.injEq] at e; subst e; exact hm
    | member a i =>
      simp only [mark] at e
      cases ha : h.cellAt a with
      | none => rw [ha] at e; cases e
      | some c =>
        rw [ha] at e
        simp only at e
        split at e
        · exact mark_acyclic h f c m m' e hc hm
        · cases e
    | obj o => exact hobj o e
    | hmember o i => exact hobj o e

theorem markPerms_acyclic (h : Heap) (f : Nat) : ∀ (os : List Nat) (m m' : Marks), markPerms h f os m = .ok m' →
    Closed h m → NoCyc h m → NoCyc h m'
  | [], m, m', e, _, hm => by simp only [markPerms, Res.ok.injEq] at e; subst e; exact hm
  | o :: os, m, m', e, hc, hm => by
    rw [markPerms] at e
    cases hx : h.get o with
    | none => rw [hx] at e; cases e
    | some x =>
      rw [hx] at e
      simp only at e
      by_cases hpm : (x.perm && !m o) = true
      · rw [if_pos hpm] at e
        cases hb : markBase h (mark h f) o m with
        | ub => rw [hb] at e; cases e
        | deep => rw [hb] at e; cases e
        | ok m1 =>
          rw [hb] at e
          obtain ⟨a, _, _⟩ := markBase_post (fun c m m' => mark_post h f c m m') o m m1 hb hc
          exact markPerms_acyclic h f os m1 m' e a
            (markBase_acyclic (fun c m m' => mark_post h f c m m') (fun c m m' => mark_acyclic h f c m m') o m m1 hb hc hm)
      · rw [if_neg hpm] at e
        exact markPerms_acyclic h f os m m' e hc hm

/-- **C17** is false: with a container that contains itself (directly or through others)
reachable from the roots, no recursion depth suffices for marking: a collection never
completes. -/
theorem C17_cycle_never_completes (h : Heap) (o : Nat) (hr : Reach h o) (hcyc : Cyclic h o) (f : Nat) :
    ∀ h' flags freed, gc h f ≠ .done h' flags freed := by
  intro h' flags freed e
  unfold gc at e
  cases hm : markAll h f with
  | ub => rw [hm] at e; cases e
  | deep => rw [hm] at e; cases e
  | ok m =>
    have hmo := (markAll_exact h f m hm o).mpr hr
    unfold markAll at hm
    cases h1 : markPerms h f h.order (fun _ => false) with
    | ub => rw [h1] at hm; cases hm
    | deep => rw [h1] at hm; cases hm
    | ok m1 =>
      rw [h1] at hm
      simp only [Res.bind] at hm
      cases h2 : visitAll (mark h f) h.stack m1 with
      | ub => rw [h2] at hm; cases hm
      | deep => rw [h2] at hm; cases hm
      | ok m2 =>
        rw [h2] at hm
        simp only at hm
        obtain ⟨a1, _, _⟩ := markPerms_post h f _ _ m1 h1 (closed_empty h)
        obtain ⟨a2, _, _⟩ := visitAll_post (fun c m m' => mark_post h f c m m') _ _ m2 h2 a1
        have n1 := markPerms_acyclic h f _ _ m1 h1 (closed_empty h) (by intro o ho; cases ho)
        have n2 := visitAll_acyclic (fun c m m' => mark_post h f c m m') (fun c m m' => mark_acyclic h f c m m') _ _ m2 h2 a1 n1
        have n3 := visitAll_acyclic (fun c m m' => mark_post h f c m m') (fun c m m' => mark_acyclic h f c m m') _ _ m hm a2 n2
        exact n3 o hmo hcyc

/-- `a[0] = a`. -/
def selfHeap : Heap :=
  { order := [7], get := fun o => if o = 7 then some ⟨.values [.obj 7], false⟩ else none,
    stack := [], globals := [.obj 7] }

theorem selfHeap_cyclic : Reach selfHeap 7 ∧ Cyclic selfHeap 7 :=
  ⟨.global (by simp [selfHeap]) (.obj 7), .single ⟨.obj 7, mem_cellsOf.mp (by simp [cellsOf, selfHeap]), .obj 7⟩⟩

/-- The collector overflows on `a[0] = a` (no memory error is involved, the recursion just
does not end). -/
theorem C17_self_reference_diverges : ∀ f, markAll selfHeap f = .deep := by
  have h : ∀ f m, m 7 = false → mark selfHeap f (.obj 7) m = .deep := by
    intro f
    induction f with
    | zero => intro m _; rfl
    | succ f ih =>
      intro m hm
      have h7 : selfHeap.get 7 = some ⟨.values [.obj 7], false⟩ := rfl
      rw [mark]
      simp only [hm, Bool.false_eq_true, if_false, markBase, h7, visitAll, ih m hm, Res.bind]
  intro f
  have hp : markPerms selfHeap f selfHeap.order (fun _ => false) = .ok fun _ => false := rfl
  unfold markAll
  rw [hp]
  simp only [Res.bind]
  rw [show selfHeap.stack = [] from rfl, show selfHeap.globals = [.obj 7] from rfl]
  simp only [visitAll, h f (fun _ => false) rfl, Res.bind]

/-! ### Acyclic heaps -/

/-- An object that exists, or an element reference to a variable holding one. -/
def CellOk (h : Heap) : Cell → Prop
  | .plain => True
  | .ref _ => True
  | .obj o => (h.get o).isSome
  | .hmember b _ => (h.get b).isSome
  | .member a _ => ∃ o, h.cellAt a = some (.obj o) ∧ (h.get o).isSome

/-- A heap without dangling references and without element references to variables that
no longer hold a container. -/
structure Sound (h : Heap) : Prop where
  alloc : ∀ o, (h.get o).isSome → o ∈ h.order
  listed : ∀ o ∈ h.order, (h.get o).isSome
  tables : ∀ o x b used, h.get o = some x → x.kind = .table b used →
    ∃ y cs, h.get b = some y ∧ y.kind = .block cs ∧ used.length = cs.length
  stack : ∀ c ∈ h.stack, CellOk h c
  globals : ∀ c ∈ h.globals, CellOk h c
  elems : ∀ o, ∀ c ∈ cellsOf h o, CellOk h c

theorem nodup_length_le {α : Type} [DecidableEq α] : ∀ (l l' : List α), l.Nodup → (∀ x ∈ l, x ∈ l') →
    l.length ≤ l'.length
  | [], _, _, _ => Nat.zero_le _
  | a :: l, l', hn, hs => by
    rw [List.nodup_cons] at hn
    have ha := hs a (by simp)
    have := nodup_length_le l (l'.erase a) hn.2 (by
      intro x hx
      rw [List.mem_erase_of_ne]
      · exact hs x (by simp [hx])
      · rintro rfl; exact hn.1 hx)
    rw [List.length_erase_of_mem ha] at this
    have hpos : 0 < l'.length := List.length_pos_of_mem ha
    simp only [List.length_cons]
    omega

theorem visitAll_total {g : Cell → Marks → Res} : ∀ (cs : List Cell), (∀ c ∈ cs, ∀ m, ∃ m', g c m = .ok m') →
    ∀ m, ∃ m', visitAll g cs m = .ok m'
  | [], _, m => ⟨m, rfl⟩
  | c :: cs, hg, m => by
    obtain ⟨m1, h1⟩ := hg c (by simp) m
    obtain ⟨m2, h2⟩ := visitAll_total cs (fun c hc => hg c (by simp [hc])) m1
    exact ⟨m2, by rw [visitAll, h1]; exact h2⟩

theorem markBase_total {h : Heap} (S : Sound h) {g : Cell → Marks → Res} (o : Nat) (ho : (h.get o).isSome)
    (hg : ∀ c ∈ cellsOf h o, ∀ m, ∃ m', g c m = .ok m') (m : Marks) : ∃ m', markBase h g o m = .ok m' := by
  obtain ⟨x, hx⟩ := Option.isSome_iff_exists.mp ho
  unfold markBase
  rw [hx]
  simp only
  cases hk : x.kind with
  | values cs =>
    obtain ⟨m1, h1⟩ := visitAll_total cs (fun c hc => hg c (by simpa [cellsOf, hx, hk] using hc)) m
    exact ⟨setMark m1 o, by simp only [h1, Res.bind]⟩
  | chars => exact ⟨_, rfl⟩
  | block cs => exact ⟨_, rfl⟩
  | table b used =>
    obtain ⟨y, cs, hy, hyk, hl⟩ := S.tables o x b used hx hk
    obtain ⟨m1, h1⟩ := visitAll_total (usedCells used cs)
      (fun c hc => hg c (by simpa [cellsOf, hx, hk, hy, hyk] using hc)) (setMark m b)
    exact ⟨setMark m1 o, by simp only [hy, Option.map_some, hyk, hl, if_true, h1, Res.bind]⟩

theorem mark_total {h : Heap} (S : Sound h) (ac : ∀ o, ¬ Cyclic h o) : ∀ (k : Nat) (anc : List Nat), anc.Nodup →
    (∀ a ∈ anc, a ∈ h.order) → h.order.length ≤ anc.length + k → ∀ c, CellOk h c →
    (∀ o, Holds h c o → ∀ a ∈ anc, Relation.TransGen (Edge h) a o) → ∀ f, 2 * k + 2 ≤ f → ∀ m,
    ∃ m', mark h f c m = .ok m' := by
  intro k
  induction k with
  | zero =>
    intro anc hnd hsub hlen c hok hanc f hf m
    -- every object is an ancestor already: nothing can be held
    have hno : ∀ o, Holds h c o → (h.get o).isSome → False := by
      intro o ho hs
      have hni : o ∉ anc := fun hin => ac o (hanc o ho o hin)
      have := nodup_length_le (o :: anc) h.order (List.nodup_cons.mpr ⟨hni, hnd⟩) (by
        intro x hx
        rcases List.mem_cons.mp hx with rfl | hx
        · exact S.alloc _ hs
        · exact hsub x hx)
      simp only [List.length_cons] at this
      omega
    obtain ⟨f, rfl⟩ : ∃ n, f = n + 1 := ⟨f - 1, by omega⟩
    cases c with
    | plain => exact ⟨m, rfl⟩
    | ref a => exact ⟨m, rfl⟩
    | obj o => exact (hno o (.obj o) hok).elim
    | hmember b i => exact (hno b (.hmember b i) hok).elim
    | member a i =>
      obtain ⟨o, h1, h2⟩ := hok
      exact (hno o (.member h1 (.obj o)) h2).elim
  | succ k ih =>
    intro anc hnd hsub hlen c hok hanc f hf m
    have hobj : ∀ o, (h.get o).isSome → Holds h c o → ∀ f, 2 * k + 2 ≤ f →
        ∃ m', (if m o then Res.ok m else markBase h (mark h f) o m) = .ok m' := by
      intro o hs ho f hf
      by_cases hmo : m o = true
      · exact ⟨m, by rw [if_pos hmo]⟩
      · rw [if_neg hmo]
        have hni : o ∉ anc := fun hin => ac o (hanc o ho o hin)
        refine markBase_total S o hs ?_ m
        intro c' hc' m1
        refine ih (o :: anc) (List.nodup_cons.mpr ⟨hni, hnd⟩) ?_ (by simp only [List.length_cons]; omega) c'
          (S.elems o c' hc') ?_ f hf m1
        · intro x hx
          rcases List.mem_cons.mp hx with rfl | hx
          · exact S.alloc _ hs
          · exact hsub x hx
        · intro o' ho' a ha
          rcases List.mem_cons.mp ha with rfl | ha
          · exact .single ⟨c', mem_cellsOf.mp hc', ho'⟩
          · exact (hanc o ho a ha).tail ⟨c', mem_cellsOf.mp hc', ho'⟩
    obtain ⟨f, rfl⟩ : ∃ n, f = n + 1 := ⟨f - 1, by omega⟩
    cases c with
    | plain => exact ⟨m, rfl⟩
    | ref a => exact ⟨m, rfl⟩
    | obj o => exact hobj o hok (.obj o) f (by omega)
    | hmember b i => exact hobj b hok (.hmember b i) f (by omega)
    | member a i =>
      obtain ⟨o, h1, h2⟩ := hok
      obtain ⟨f, rfl⟩ : ∃ n, f = n + 1 := ⟨f - 1, by omega⟩
      rw [mark, h1]
      simp only [Cell.exarray, if_true]
      exact hobj o h2 (.member h1 (.obj o)) f (by omega)

theorem markPerms_total {h : Heap} (S : Sound h) (f : Nat)
    (hg : ∀ c, CellOk h c → ∀ m, ∃ m', mark h f c m = .ok m') :
    ∀ (os : List Nat), (∀ o ∈ os, (h.get o).isSome) → ∀ m, ∃ m', markPerms h f os m = .ok m'
  | [], _, m => ⟨m, rfl⟩
  | o :: os, hos, m => by
    obtain ⟨x, hx⟩ := Option.isSome_iff_exists.mp (hos o (by simp))
    rw [markPerms, hx]
    simp only
    by_cases hp : (x.perm && !m o) = true
    · rw [if_pos hp]
      obtain ⟨m1, h1⟩ := markBase_total S (g := mark h f) o (hos o (by simp))
        (fun c hc => hg c (S.elems o c hc)) m
      obtain ⟨m2, h2⟩ := markPerms_total S f hg os (fun o ho => hos o (by simp [ho])) m1
      exact ⟨m2, by rw [h1]; exact h2⟩
    · rw [if_neg hp]
      exact markPerms_total S f hg os (fun o ho => hos o (by simp [ho])) m

/-- **C17** for heaps without cycles: marking terminates, with recursion depth at most
twice the number of objects (plus two). -/
theorem C17_acyclic_terminates_partial (h : Heap) (S : Sound h) (ac : ∀ o, ¬ Cyclic h o) (f : Nat)
    (hf : 2 * h.order.length + 2 ≤ f) : ∃ h' flags freed, gc h f = .done h' flags freed := by
  have hg : ∀ c, CellOk h c → ∀ m, ∃ m', mark h f c m = .ok m' := by
    intro c hc m
    exact mark_total S ac h.order.length [] List.nodup_nil (by simp) (by simp) c hc (by simp) f hf m
  obtain ⟨m1, h1⟩ := markPerms_total S f hg h.order S.listed fun _ => false
  obtain ⟨m2, h2⟩ := visitAll_total (g := mark h f) h.stack (fun c hc => hg c (S.stack c hc)) m1
  obtain ⟨m3, h3⟩ := visitAll_total (g := mark h f) h.globals (fun c hc => hg c (S.globals c hc)) m2
  have hm : markAll h f = .ok m3 := by
    unfold markAll
    rw [h1]
    simp only [Res.bind]
    rw [h2]
    exact h3
  unfold gc
  rw [hm]
  exact ⟨_, _, _, rfl⟩

/-! ### Repeated collections -/

/-- The address is that of a variable. -/
def Addr.isVar : Addr → Bool
  | .stack _ => true
  | .global _ => true
  | _ => false

/-- Element references name variables. -/
def VarMember : Cell → Prop
  | .member a _ => a.isVar = true
  | _ => True

theorem cellAt_var {h h' : Heap} (hs : h'.stack = h.stack) (hgl : h'.globals = h.globals) {a : Addr}
    (ha : a.isVar = true) : h'.cellAt a = h.cellAt a := by
  cases a with
  | stack i => simp [Heap.cellAt, hs]
  | global i => simp [Heap.cellAt, hgl]
  | elem o i => cases ha
  | slot o i => cases ha

/-- Everything a collection keeps is kept unchanged, and nothing else remains. -/
theorem gc_result {h h' : Heap} {f : Nat} {flags : Marks} {freed : List Nat} (S : Sound h)
    (e : gc h f = .done h' flags freed) :
    (∀ o, Reach h o → h'.get o = h.get o) ∧ (∀ o, ¬ Reach h o → h'.get o = none) ∧
    (∀ o, o ∈ h'.order ↔ o ∈ h.order ∧ Reach h o) ∧ h'.stack = h.stack ∧ h'.globals = h.globals := by
  unfold gc at e
  cases hm : markAll h f with
  | ub => rw [hm] at e; cases e
  | deep => rw [hm] at e; cases e
  | ok m =>
    rw [hm] at e
    simp only [sweep_eq, Out.done.injEq] at e
    obtain ⟨rfl, _, _⟩ := e
    have hx := markAll_exact h f m hm
    refine ⟨?_, ?_, ?_, rfl, rfl⟩
    · intro o ho
      have hmo := (hx o).mpr ho
      simp [Heap.free, hmo]
    · intro o ho
      have hmo : m o = false := by
        cases hb : m o with
        | false => rfl
        | true => exact (ho ((hx o).mp hb)).elim
      simp only [Heap.free]
      by_cases hmem : o ∈ h.order
      · rw [if_pos (by rw [List.mem_filter]; exact ⟨hmem, by simp [hmo]⟩)]
      · have : h.get o = none := by
          cases hg : h.get o with
          | none => rfl
          | some x => exact (hmem (S.alloc o (by simp [hg]))).elim
        simp [this]
    · intro o
      simp only [Heap.free, List.mem_filter, ← hx o]

/-- In a sound heap whatever is reachable exists. -/
theorem gc_reach_some {h : Heap} (S : Sound h) (o : Nat) (ho : Reach h o) : (h.get o).isSome := by
  have hc : ∀ c, CellOk h c → ∀ o, Holds h c o → (h.get o).isSome := by
    intro c hok o hh
    cases hh with
    | obj => exact hok
    | hmember => exact hok
    | member ha hh =>
      obtain ⟨o', h1, h2⟩ := hok
      rw [ha] at h1; cases h1
      cases hh; exact h2
  cases ho with
  | stack h1 h2 => exact hc _ (S.stack _ h1) _ h2
  | global h1 h2 => exact hc _ (S.globals _ h1) _ h2
  | perm h1 _ _ => exact S.listed _ h1
  | elem _ h1 h2 => exact hc _ (S.elems _ _ (mem_cellsOf.mpr h1)) _ h2
  | block h1 h2 =>
    rename_i p
    obtain ⟨used, hb⟩ := h2
    cases hp : h.get p with
    | none => rw [hp] at hb; cases hb
    | some x =>
      rw [hp] at hb
      simp only [Option.map_some, Option.some.injEq] at hb
      obtain ⟨y, cs, h3, _, _⟩ := S.tables p x o used hp hb
      simp [h3]

/-- Element references of the roots and of all objects name variables. -/
structure VarMembers (h : Heap) : Prop where
  stack : ∀ c ∈ h.stack, VarMember c
  globals : ∀ c ∈ h.globals, VarMember c
  elems : ∀ o, ∀ c ∈ cellsOf h o, VarMember c

theorem holds_iff {h h' : Heap} (hs : h'.stack = h.stack) (hgl : h'.globals = h.globals)
    (V : VarMembers h) {c : Cell} (hv : VarMember c) (o : Nat) : Holds h' c o ↔ Holds h c o := by
  have gen : ∀ (h h' : Heap), h'.stack = h.stack → h'.globals = h.globals →
      (∀ c ∈ h.stack, VarMember c) → (∀ c ∈ h.globals, VarMember c) →
      ∀ c o, Holds h c o → VarMember c → Holds h' c o := by
    intro h h' hs hgl v1 v2 c o hh
    induction hh with
    | obj o => intro _; exact .obj o
    | hmember b i => intro _; exact .hmember b i
    | member ha _ ih =>
      intro hv
      refine .member (by rw [cellAt_var hs hgl hv]; exact ha) (ih ?_)
      rename_i a i c o _
      cases a with
      | stack j => exact v1 c (List.mem_of_getElem? ha)
      | global j => exact v2 c (List.mem_of_getElem? ha)
      | elem p j => cases hv
      | slot p j => cases hv
  exact ⟨fun hh => gen h' h hs.symm hgl.symm (by rw [hs]; exact V.stack) (by rw [hgl]; exact V.globals) c o hh hv,
    fun hh => gen h h' hs hgl V.stack V.globals c o hh hv⟩

theorem cellsOf_kept {h h' : Heap} (k1 : ∀ o, Reach h o → h'.get o = h.get o)
    {o : Nat} (ho : Reach h o) : cellsOf h' o = cellsOf h o := by
  unfold cellsOf
  rw [k1 o ho]
  cases hk : (h.get o).map Obj.kind with
  | none => rfl
  | some kd =>
    cases kd with
    | values cs => rfl
    | chars => rfl
    | block cs => rfl
    | table b used =>
      simp only
      rw [k1 b (.block ho ⟨used, hk⟩)]

theorem cellsOf_gone {h h' : Heap} (k2 : ∀ o, ¬ Reach h o → h'.get o = none) {o : Nat} (ho : ¬ Reach h o) :
    cellsOf h' o = [] := by
  simp [cellsOf, k2 o ho]

/-- A collection leaves a heap as sound as it found it, in which everything is reachable. -/
theorem gc_invariant {h h' : Heap} {f : Nat} {flags : Marks} {freed : List Nat} (S : Sound h) (V : VarMembers h)
    (ac : ∀ o, ¬ Cyclic h o) (e : gc h f = .done h' flags freed) :
    Sound h' ∧ VarMembers h' ∧ (∀ o, ¬ Cyclic h' o) ∧ ∀ o ∈ h'.order, Reach h' o := by
  obtain ⟨k1, k2, k3, hs, hgl⟩ := gc_result S e
  have hsome : ∀ o, Reach h o → (h.get o).isSome → (h'.get o).isSome := fun o ho h1 => by rw [k1 o ho]; exact h1
  have hcell : ∀ c, CellOk h c → VarMember c → (∀ o, Holds h c o → Reach h o) → CellOk h' c := by
    intro c hok hv hr
    cases c with
    | plain => trivial
    | ref a => trivial
    | obj o => exact hsome o (hr o (.obj o)) hok
    | hmember b i => exact hsome b (hr b (.hmember b i)) hok
    | member a i =>
      obtain ⟨o, h1, h2⟩ := hok
      exact ⟨o, by rw [cellAt_var hs hgl hv]; exact h1, hsome o (hr o (.member h1 (.obj o))) h2⟩
  have hinh : ∀ o, (h'.get o).isSome → Reach h o := by
    intro o ho
    refine Classical.byContradiction fun hn => ?_
    rw [k2 o hn] at ho; cases ho
  have helem : ∀ o, ∀ c ∈ cellsOf h' o, Reach h o ∧ c ∈ cellsOf h o := by
    intro o c hc
    by_cases ho : Reach h o
    · rw [cellsOf_kept k1 ho] at hc; exact ⟨ho, hc⟩
    · rw [cellsOf_gone k2 ho] at hc; cases hc
  have V' : VarMembers h' := by
    refine ⟨by rw [hs]; exact V.stack, by rw [hgl]; exact V.globals, ?_⟩
    intro o c hc
    exact V.elems o c (helem o c hc).2
  refine ⟨⟨?_, ?_, ?_, ?_, ?_, ?_⟩, V', ?_, ?_⟩
  · intro o ho
    have hr := hinh o ho
    rw [k3]
    exact ⟨S.alloc o (by rw [k1 o hr] at ho; exact ho), hr⟩
  · intro o ho
    obtain ⟨h1, h2⟩ := (k3 o).mp ho
    exact hsome o h2 (S.listed o h1)
  · intro o x b used hx hk
    have hr := hinh o (by simp [hx])
    rw [k1 o hr] at hx
    obtain ⟨y, cs, h1, h2, h3⟩ := S.tables o x b used hx hk
    exact ⟨y, cs, by rw [k1 b (.block hr ⟨used, by simp [hx, hk]⟩)]; exact h1, h2, h3⟩
  · rw [hs]; intro c hc
    exact hcell c (S.stack c hc) (V.stack c hc) (fun o ho => .stack hc ho)
  · rw [hgl]; intro c hc
    exact hcell c (S.globals c hc) (V.globals c hc) (fun o ho => .global hc ho)
  · intro o c hc
    obtain ⟨hr, hc'⟩ := helem o c hc
    exact hcell c (S.elems o c hc') (V.elems o c hc') (fun o' ho' => .elem hr (mem_cellsOf.mp hc') ho')
  · intro o cyc
    have hedge : ∀ a b, Edge h' a b → Edge h a b := by
      intro a b ⟨c, hc, hh⟩
      obtain ⟨_, hc'⟩ := helem a c (mem_cellsOf.mpr hc)
      exact ⟨c, mem_cellsOf.mp hc', (holds_iff hs hgl V (V.elems a c hc') b).mp hh⟩
    have : ∀ a b, Relation.TransGen (Edge h') a b → Relation.TransGen (Edge h) a b := by
      intro a b t
      induction t with
      | single e => exact .single (hedge _ _ e)
      | tail _ e ih => exact ih.tail (hedge _ _ e)
    exact ac o (this o o cyc)
  · intro o ho
    obtain ⟨hmem, hr⟩ := (k3 o).mp ho
    clear ho hmem
    induction hr with
    | stack hc hh => exact .stack (by rw [hs]; exact hc) ((holds_iff hs hgl V (V.stack _ hc) _).mpr hh)
    | global hc hh => exact .global (by rw [hgl]; exact hc) ((holds_iff hs hgl V (V.globals _ hc) _).mpr hh)
    | perm hm hx hp =>
      have hr := Reach.perm hm hx hp
      exact .perm ((k3 _).mpr ⟨hm, hr⟩) (by rw [k1 _ hr]; exact hx) hp
    | elem hr hc hh ih =>
      have hc := mem_cellsOf.mpr hc
      exact .elem ih (by rw [← mem_cellsOf, cellsOf_kept k1 hr]; exact hc) ((holds_iff hs hgl V (V.elems _ _ hc) _).mpr hh)
    | block hr hb ih =>
      obtain ⟨used, hb⟩ := hb
      exact .block ih ⟨used, by rw [k1 _ hr]; exact hb⟩

/-- **C16**, repetition: on a sound acyclic heap a collection completes, and a second one
right after it completes as well, frees nothing, changes nothing and leaves no flag — and
so on for ever, since the heap is the same again. -/
theorem C16_collections_repeat (h : Heap) (S : Sound h) (V : VarMembers h) (hnd : h.order.Nodup)
    (ac : ∀ o, ¬ Cyclic h o) (f : Nat) (hf : 2 * h.order.length + 2 ≤ f) :
    ∃ h' flags freed, gc h f = .done h' flags freed ∧
      ∃ flags', gc h' f = .done h' flags' [] ∧ ∀ o, flags' o = false := by
  obtain ⟨h', flags, freed, e⟩ := C17_acyclic_terminates_partial h S ac f hf
  obtain ⟨S', V', ac', hall⟩ := gc_invariant S V ac e
  have hsub : h'.order.Sublist h.order := by
    refine (C16_exactly_unreachable_freed h h' f flags freed S.alloc hnd ?_ e).2.2.2.1
    intro o ho
    exact (gc_reach_some S o ho)
  have hnd' : h'.order.Nodup := hsub.nodup hnd
  have hle := hsub.length_le
  obtain ⟨h2, flags2, freed2, e2⟩ := C17_acyclic_terminates_partial h' S' ac' f (by omega)
  have hc16 := C16_exactly_unreachable_freed h' h2 f flags2 freed2 S'.alloc hnd'
    (fun o ho => gc_reach_some S' o ho) e2
  have hfreed : freed2 = [] := by
    apply List.eq_nil_iff_forall_not_mem.mpr
    intro o ho
    obtain ⟨h1, h3⟩ := (hc16.1 o).mp ho
    exact h3 (hall o h1)
  refine ⟨h', flags, freed, e, flags2, ?_, hc16.2.2.2.2.2⟩
  rw [e2]
  subst hfreed
  congr 1
  unfold gc at e2
  cases hm : markAll h' f with
  | ub => rw [hm] at e2; cases e2
  | deep => rw [hm] at e2; cases e2
  | ok m =>
    rw [hm] at e2
    simp only [sweep_eq, Out.done.injEq] at e2
    obtain ⟨e3, _, e5⟩ := e2
    rw [← e3, e5]
    have : h'.order.filter m = h'.order := by
      rw [List.filter_eq_self]
      intro o ho
      exact (markAll_exact h' f m hm o).mpr (hall o ho)
    rw [this]
    simp [Heap.free]

/-! ### A concrete heap meeting the hypotheses -/

/-- A global table with one entry holding an array, a reference to an element of that
global on the stack, and a string nobody refers to. -/
def demo : Heap :=
  { order := [4, 1, 2, 3]
    get := fun o =>
      if o = 1 then some ⟨.table 2 [true, false], false⟩
      else if o = 2 then some ⟨.block [(.obj 3, .plain), (.plain, .plain)], false⟩
      else if o = 3 then some ⟨.values [.plain, .plain], false⟩
      else if o = 4 then some ⟨.chars, false⟩ else none
    stack := [.member (.global 0) 0, .hmember 2 0]
    globals := [.obj 1] }

theorem demo_cells (o : Nat) : cellsOf demo o = [] ∨ (o = 1 ∧ cellsOf demo o = [.obj 3, .plain]) ∨
    (o = 3 ∧ cellsOf demo o = [.plain, .plain]) := by
  by_cases h1 : o = 1
  · subst h1; right; left; exact ⟨rfl, rfl⟩
  · by_cases h2 : o = 2
    · subst h2; left; rfl
    · by_cases h3 : o = 3
      · subst h3; right; right; exact ⟨rfl, rfl⟩
      · by_cases h4 : o = 4
        · subst h4; left; rfl
        · left; simp [cellsOf, demo, h1, h2, h3, h4]

theorem demo_sound : Sound demo := by
  refine ⟨?_, ?_, ?_, ?_, ?_, ?_⟩
  · intro o ho
    simp only [demo] at ho ⊢
    by_cases h1 : o = 1
    · simp [h1]
    · by_cases h2 : o = 2
      · simp [h2]
      · by_cases h3 : o = 3
        · simp [h3]
        · by_cases h4 : o = 4
          · simp [h4]
          · simp [h1, h2, h3, h4] at ho
  · intro o ho
    simp only [demo, List.mem_cons, List.not_mem_nil, or_false] at ho
    rcases ho with rfl | rfl | rfl | rfl <;> rfl
  · intro o x b used hx hk
    simp only [demo] at hx
    by_cases h1 : o = 1
    · subst h1
      simp only [if_true, Option.some.injEq] at hx
      subst hx
      simp only [Kind.table.injEq] at hk
      obtain ⟨rfl, rfl⟩ := hk
      exact ⟨_, _, rfl, rfl, rfl⟩
    · by_cases h2 : o = 2
      · subst h2; simp at hx; subst hx; cases hk
      · by_cases h3 : o = 3
        · subst h3; simp at hx; subst hx; cases hk
        · by_cases h4 : o = 4
          · subst h4; simp at hx; subst hx; cases hk
          · simp [h1, h2, h3, h4] at hx
  · intro c hc
    simp only [demo, List.mem_cons, List.not_mem_nil, or_false] at hc
    rcases hc with rfl | rfl
    · exact ⟨1, rfl, rfl⟩
    · exact (rfl : (demo.get 2).isSome = true)
  · intro c hc
    simp only [demo, List.mem_cons, List.not_mem_nil, or_false] at hc
    subst hc
    exact (rfl : (demo.get 1).isSome = true)
  · intro o c hc
    rcases demo_cells o with h | ⟨_, h⟩ | ⟨_, h⟩ <;> rw [h] at hc
    · cases hc
    · simp only [List.mem_cons, List.not_mem_nil, or_false] at hc
      rcases hc with rfl | rfl
      · exact (rfl : (demo.get 3).isSome = true)
      · trivial
    · simp only [List.mem_cons, List.not_mem_nil, or_false] at hc
      rcases hc with rfl | rfl <;> trivial

theorem demo_acyclic (o : Nat) : ¬ Cyclic demo o := by
  have edge : ∀ a b, Edge demo a b → a = 1 ∧ b = 3 := by
    intro a b ⟨c, hc, hh⟩
    rw [← mem_cellsOf] at hc
    rcases demo_cells a with h | ⟨h0, h⟩ | ⟨h0, h⟩ <;> rw [h] at hc
    · cases hc
    · simp only [List.mem_cons, List.not_mem_nil, or_false] at hc
      rcases hc with rfl | rfl
      · cases hh; exact ⟨h0, rfl⟩
      · cases hh
    · simp only [List.mem_cons, List.not_mem_nil, or_false] at hc
      rcases hc with rfl | rfl <;> cases hh
  intro cyc
  have : ∀ a b, Relation.TransGen (Edge demo) a b → a = 1 ∧ b = 3 := by
    intro a b t
    induction t with
    | single e => exact edge _ _ e
    | tail _ e ih => exact ⟨ih.1, (edge _ _ e).2⟩
  obtain ⟨h1, h2⟩ := this o o cyc
  omega

example : ∃ h' flags, gc demo 10 = .done h' flags [4] ∧ h'.order = [1, 2, 3] := ⟨_, _, rfl, rfl⟩

example : ∃ h' flags freed, gc demo 10 = .done h' flags freed :=
  C17_acyclic_terminates_partial demo demo_sound demo_acyclic 10 (by decide)

/-! ### Reachable objects that are freed -/

/-- `f()["k"]` as a call argument, `f` returning a fresh table whose entry is an array,
while a later argument triggers a collection: the stack holds a reference to the element,
the block survives, the array in it does not. -/
def hashElementHeap : Heap :=
  { order := [1, 2, 3]
    get := fun o =>
      if o = 1 then some ⟨.table 2 [true], false⟩
      else if o = 2 then some ⟨.block [(.obj 3, .plain)], false⟩
      else if o = 3 then some ⟨.values [.plain], false⟩ else none
    stack := [.hmember 2 0]
    globals := [] }

theorem C15_hash_element_freed :
    ∃ h' flags freed, gc hashElementHeap 10 = .done h' flags freed ∧
      -- the element referred to from the stack is array 3 …
      h'.stack = [.hmember 2 0] ∧ h'.cellAt (.slot 2 0) = some (.obj 3) ∧
      -- … which has been freed
      (hashElementHeap.get 3).isSome ∧ h'.get 3 = none := ⟨_, _, _, rfl, rfl, rfl, rfl, rfl⟩

/-- `f().x` as a call argument, `f` returning a fresh struct: the stack holds a plain
reference into the struct, and the collector frees the struct. -/
def structMemberHeap : Heap :=
  { order := [1], get := fun o => if o = 1 then some ⟨.values [.plain], false⟩ else none,
    stack := [.ref (.elem 1 0)], globals := [] }

theorem C15_struct_member_freed :
    ∃ h' flags freed, gc structMemberHeap 10 = .done h' flags freed ∧
      (structMemberHeap.cellAt (.elem 1 0)).isSome ∧
      h'.stack = [.ref (.elem 1 0)] ∧ h'.cellAt (.elem 1 0) = none := ⟨_, _, _, rfl, rfl, rfl, rfl⟩

/-- A reference to an element of a raw array (host memory) on the stack makes the
collector treat the variable itself as a heap object. -/
theorem C15_raw_array_element_undefined (f : Nat) :
    gc { order := [], get := fun _ => none, stack := [.member (.global 0) 1], globals := [.plain] } (f + 1) = .ub := rfl

end Wrench.Gc
