import Verif.Gc.Model

/-
C15 (reachable objects survive), C16 (exactly the unreachable ones are freed, once, and the
heap is ready for the next collection), C17 (termination).
-/
namespace Wrench.Gc

/-! ### Specification: reachability -/

/-- `Holds h c o`: the value `c` is object `o`, or designates an element of it: a reference
to an element of a container held by a variable, or to an element of a hash block. -/
inductive Holds (h : Heap) : Cell → Nat → Prop
  | obj (o : Nat) : Holds h (.obj o) o
  | hmember (b i : Nat) : Holds h (.hmember b i) b
  | member {a : Addr} {i : Nat} {c : Cell} {o : Nat} : h.cellAt a = some c → Holds h c o → Holds h (.member a i) o

/-- The values an object contains: the elements of an array or struct; the values and the
keys of the occupied entries of a table. -/
inductive Contains (h : Heap) : Nat → Cell → Prop
  | elem {o i : Nat} {x : Obj} {cs : List Cell} {c : Cell} : h.get o = some x → x.kind = .values cs →
      cs[i]? = some c → Contains h o c
  | value {o b i : Nat} {x y : Obj} {used : List Bool} {cs : List (Cell × Cell)} {v k : Cell} :
      h.get o = some x → x.kind = .table b used → h.get b = some y → y.kind = .block cs →
      used[i]? = some true → cs[i]? = some (v, k) → Contains h o v
  | key {o b i : Nat} {x y : Obj} {used : List Bool} {cs : List (Cell × Cell)} {v k : Cell} :
      h.get o = some x → x.kind = .table b used → h.get b = some y → y.kind = .block cs →
      used[i]? = some true → cs[i]? = some (v, k) → Contains h o k

/-- The same as a list. -/
def cellsOf (h : Heap) (o : Nat) : List Cell :=
  match (h.get o).map Obj.kind with
  | some (.values cs) => cs
  | some (.table b used) =>
    match (h.get b).map Obj.kind with
    | some (.block cs) => usedCells used cs
    | _ => []
  | _ => []

/-- The storage block of a table. -/
def IsBlockOf (h : Heap) (o b : Nat) : Prop := ∃ used, (h.get o).map Obj.kind = some (.table b used)

/-- Reachable from the stack, the globals or a permanent object. -/
inductive Reach (h : Heap) : Nat → Prop
  | stack {c : Cell} {o : Nat} : c ∈ h.stack → Holds h c o → Reach h o
  | global {c : Cell} {o : Nat} : c ∈ h.globals → Holds h c o → Reach h o
  | perm {o : Nat} {x : Obj} : o ∈ h.order → h.get o = some x → x.perm = true → Reach h o
  | elem {o o' : Nat} {c : Cell} : Reach h o → Contains h o c → Holds h c o' → Reach h o'
  | block {o b : Nat} : Reach h o → IsBlockOf h o b → Reach h b

/-! ### What marking does -/

theorem mem_usedCells (c : Cell) : ∀ (used : List Bool) (cs : List (Cell × Cell)),
    c ∈ usedCells used cs ↔ ∃ (i : Nat) (v k : Cell), used[i]? = some true ∧ cs[i]? = some (v, k) ∧ (c = v ∨ c = k)
  | [], cs => by simp [usedCells]
  | _ :: _, [] => by simp [usedCells]
  | b :: used, (v, k) :: cs => by
    have ih := mem_usedCells c used cs
    have split : (∃ (i : Nat) (v' k' : Cell), (b :: used)[i]? = some true ∧ ((v, k) :: cs)[i]? = some (v', k') ∧ (c = v' ∨ c = k')) ↔
        (b = true ∧ (c = v ∨ c = k)) ∨ ∃ (i : Nat) (v k : Cell), used[i]? = some true ∧ cs[i]? = some (v, k) ∧ (c = v ∨ c = k) := by
      constructor
      · rintro ⟨i, v', k', h1, h2, h3⟩
        cases i with
        | zero =>
          simp only [List.getElem?_cons_zero, Option.some.injEq, Prod.mk.injEq] at h1 h2
          left; rw [h2.1, h2.2]; exact ⟨h1, h3⟩
        | succ i =>
          simp only [List.getElem?_cons_succ] at h1 h2
          right; exact ⟨i, v', k', h1, h2, h3⟩
      · rintro (⟨h1, h2⟩ | ⟨i, v', k', h1, h2, h3⟩)
        · exact ⟨0, v, k, by simp [h1], rfl, h2⟩
        · exact ⟨i + 1, v', k', h1, h2, h3⟩
    rw [split, ← ih]
    cases b <;> simp [usedCells, or_assoc]

theorem mem_cellsOf {h : Heap} {o : Nat} {c : Cell} : c ∈ cellsOf h o ↔ Contains h o c := by
  constructor
  · intro hc
    unfold cellsOf at hc
    cases hx : h.get o with
    | none => rw [hx] at hc; cases hc
    | some x =>
      rw [hx] at hc
      cases hk : x.kind with
      | values cs =>
        simp only [Option.map_some, hk] at hc
        obtain ⟨i, hi⟩ := List.mem_iff_getElem?.mp hc
        exact .elem hx hk hi
      | chars => simp [hk] at hc
      | block cs => simp [hk] at hc
      | table b used =>
        simp only [Option.map_some, hk] at hc
        cases hy : h.get b with
        | none => rw [hy] at hc; cases hc
        | some y =>
          rw [hy] at hc
          cases hky : y.kind with
          | values cs => simp [hky] at hc
          | chars => simp [hky] at hc
          | table _ _ => simp [hky] at hc
          | block cs =>
            simp only [Option.map_some, hky] at hc
            obtain ⟨i, v, k, h1, h2, h3 | h3⟩ := (mem_usedCells c used cs).mp hc
            · subst h3; exact .value hx hk hy hky h1 h2
            · subst h3; exact .key hx hk hy hky h1 h2
  · intro hc
    cases hc with
    | elem hx hk hi =>
      simp only [cellsOf, hx, hk, Option.map_some]
      exact List.mem_of_getElem? hi
    | value hx hk hy hky h1 h2 =>
      simp only [cellsOf, hx, hk, hy, hky, Option.map_some]
      exact (mem_usedCells _ _ _).mpr ⟨_, _, _, h1, h2, Or.inl rfl⟩
    | key hx hk hy hky h1 h2 =>
      simp only [cellsOf, hx, hk, hy, hky, Option.map_some]
      exact (mem_usedCells _ _ _).mpr ⟨_, _, _, h1, h2, Or.inr rfl⟩

def Closed (h : Heap) (m : Marks) : Prop :=
  ∀ o, m o = true → (∀ c ∈ cellsOf h o, ∀ o', Holds h c o' → m o' = true) ∧ ∀ b, IsBlockOf h o b → m b = true

def Le (m m' : Marks) : Prop := ∀ o, m o = true → m' o = true

theorem Le.trans {a b c : Marks} (h1 : Le a b) (h2 : Le b c) : Le a c := fun o h => h2 o (h1 o h)

theorem le_setMark (m : Marks) (o : Nat) : Le m (setMark m o) := by
  intro x hx; unfold setMark; split
  · rfl
  · exact hx

theorem setMark_self (m : Marks) (o : Nat) : setMark m o o = true := by simp [setMark]

theorem setMark_iff (m : Marks) (o x : Nat) : setMark m o x = true ↔ x = o ∨ m x = true := by
  unfold setMark; split <;> simp_all

/-- Postcondition of marking a value. -/
structure Post (h : Heap) (c : Cell) (m m' : Marks) : Prop where
  closed : Closed h m'
  le : Le m m'
  held : ∀ o, Holds h c o → m' o = true

theorem visitAll_post {h : Heap} {g : Cell → Marks → Res}
    (hg : ∀ c m m', g c m = .ok m' → Closed h m → Post h c m m') :
    ∀ (cs : List Cell) (m m' : Marks), visitAll g cs m = .ok m' → Closed h m →
      Closed h m' ∧ Le m m' ∧ ∀ c ∈ cs, ∀ o, Holds h c o → m' o = true
  | [], m, m', e, hc => by
    simp only [visitAll, Res.ok.injEq] at e
    subst e
    exact ⟨hc, fun _ h => h, by simp⟩
  | c :: cs, m, m', e, hc => by
    rw [visitAll] at e
    cases h1 : g c m with
    | ub => rw [h1] at e; cases e
    | deep => rw [h1] at e; cases e
    | ok m1 =>
      rw [h1] at e
      have p := hg c m m1 h1 hc
      obtain ⟨a, b, d⟩ := visitAll_post hg cs m1 m' e p.closed
      refine ⟨a, p.le.trans b, ?_⟩
      intro c' hc' o ho
      rcases List.mem_cons.mp hc' with rfl | hc'
      · exact b o (p.held o ho)
      · exact d c' hc' o ho

theorem markBase_post {h : Heap} {g : Cell → Marks → Res}
    (hg : ∀ c m m', g c m = .ok m' → Closed h m → Post h c m m') (o : Nat) (m m' : Marks)
    (e : markBase h g o m = .ok m') (hc : Closed h m) : Closed h m' ∧ Le m m' ∧ m' o = true := by
  unfold markBase at e
  cases hx : h.get o with
  | none => rw [hx] at e; cases e
  | some x =>
    rw [hx] at e
    simp only at e
    cases hk : x.kind with
    | values cs =>
      rw [hk] at e
      simp only at e
      cases hv : visitAll g cs m with
      | ub => rw [hv] at e; cases e
      | deep => rw [hv] at e; cases e
      | ok m1 =>
        rw [hv] at e
        simp only [Res.bind, Res.ok.injEq] at e
        subst e
        obtain ⟨a, b, d⟩ := visitAll_post hg cs m m1 hv hc
        refine ⟨?_, b.trans (le_setMark _ _), setMark_self _ _⟩
        intro o' ho'
        have hle := le_setMark m1 o
        rcases (setMark_iff _ _ _).mp ho' with rfl | ho'
        · constructor
          · intro c hcm o'' hh
            simp only [cellsOf, hx, hk, Option.map_some] at hcm
            exact hle _ (d c hcm o'' hh)
          · intro b' ⟨used, hb⟩
            simp [hx, hk] at hb
        · obtain ⟨p, q⟩ := a o' ho'
          exact ⟨fun c hcm o'' hh => hle _ (p c hcm o'' hh), fun b' hb => hle _ (q b' hb)⟩
    | chars =>
      rw [hk] at e
      simp only [Res.ok.injEq] at e
      subst e
      refine ⟨?_, le_setMark _ _, setMark_self _ _⟩
      intro o' ho'
      have hle := le_setMark m o
      rcases (setMark_iff _ _ _).mp ho' with rfl | ho'
      · constructor
        · intro c hcm
          simp [cellsOf, hx, hk] at hcm
        · intro b' ⟨used, hb⟩
          simp [hx, hk] at hb
      · obtain ⟨p, q⟩ := hc o' ho'
        exact ⟨fun c hcm o'' hh => hle _ (p c hcm o'' hh), fun b' hb => hle _ (q b' hb)⟩
    | block cs =>
      rw [hk] at e
      simp only [Res.ok.injEq] at e
      subst e
      refine ⟨?_, le_setMark _ _, setMark_self _ _⟩
      intro o' ho'
      have hle := le_setMark m o
      rcases (setMark_iff _ _ _).mp ho' with rfl | ho'
      · constructor
        · intro c hcm
          simp [cellsOf, hx, hk] at hcm
        · intro b' ⟨used, hb⟩
          simp [hx, hk] at hb
      · obtain ⟨p, q⟩ := hc o' ho'
        exact ⟨fun c hcm o'' hh => hle _ (p c hcm o'' hh), fun b' hb => hle _ (q b' hb)⟩
    | table b used =>
      rw [hk] at e
      simp only at e
      cases hb : (h.get b).map Obj.kind with
      | none => rw [hb] at e; cases e
      | some kb =>
        cases kb with
        | values cs => rw [hb] at e; cases e
        | chars => rw [hb] at e; cases e
        | table b' u' => rw [hb] at e; cases e
        | block cs =>
          rw [hb] at e
          simp only at e
          by_cases hlen : used.length = cs.length
          · rw [if_pos hlen] at e
            have hcb : Closed h (setMark m b) := by
              intro o' ho'
              have hle := le_setMark m b
              rcases (setMark_iff _ _ _).mp ho' with rfl | ho'
              · constructor
                · intro c hcm
                  simp [cellsOf, hb] at hcm
                · intro b' ⟨used, hb'⟩
                  rw [hb] at hb'; cases hb'
              · obtain ⟨p, q⟩ := hc o' ho'
                exact ⟨fun c hcm o'' hh => hle _ (p c hcm o'' hh), fun b' hb => hle _ (q b' hb)⟩
            cases hv : visitAll g (usedCells used cs) (setMark m b) with
            | ub => rw [hv] at e; cases e
            | deep => rw [hv] at e; cases e
            | ok m1 =>
              rw [hv] at e
              simp only [Res.bind, Res.ok.injEq] at e
              subst e
              obtain ⟨a, b1, d⟩ := visitAll_post hg _ _ m1 hv hcb
              refine ⟨?_, ((le_setMark m b).trans b1).trans (le_setMark _ _), setMark_self _ _⟩
              intro o' ho'
              have hle := le_setMark m1 o
              rcases (setMark_iff _ _ _).mp ho' with rfl | ho'
              · constructor
                · intro c hcm o'' hh
                  simp only [cellsOf, hx, hk, Option.map_some] at hcm
                  rw [hb] at hcm
                  exact hle _ (d c hcm o'' hh)
                · intro b' ⟨used', hb'⟩
                  simp only [hx, hk, Option.map_some, Option.some.injEq, Kind.table.injEq] at hb'
                  rw [← hb'.1]
                  exact hle _ (b1 b (setMark_self _ _))
              · obtain ⟨p, q⟩ := a o' ho'
                exact ⟨fun c hcm o'' hh => hle _ (p c hcm o'' hh), fun b' hb => hle _ (q b' hb)⟩
          · rw [if_neg hlen] at e; cases e

theorem mark_post (h : Heap) : ∀ (f : Nat) (c : Cell) (m m' : Marks), mark h f c m = .ok m' → Closed h m →
    Post h c m m'
  | 0, c, m, m', e, _ => by cases e
  | f + 1, c, m, m', e, hc => by
    have hobj : ∀ o, (if m o then Res.ok m else markBase h (mark h f) o m) = .ok m' →
        Closed h m' ∧ Le m m' ∧ m' o = true := by
      intro o e
      split at e
      · rename_i ho
        simp only [Res.ok.injEq] at e
        subst e
        exact ⟨hc, fun _ h => h, ho⟩
      · exact markBase_post (fun c m m' e hc => mark_post h f c m m' e hc) o m m' e hc
    cases c with
    | plain =>
      simp only [mark, Res.ok.injEq] at e; subst e
      exact ⟨hc, fun _ h => h, fun o ho => by cases ho⟩
    | ref a =>
      simp only [mark, Res.ok.injEq] at e; subst e
      exact ⟨hc, fun _ h => h, fun o ho => by cases ho⟩
    | member a i =>
      simp only [mark] at e
      cases ha : h.cellAt a with
      | none => rw [ha] at e; cases e
      | some c =>
        rw [ha] at e
        simp only at e
        split at e
        · have p := mark_post h f c m m' e hc
          refine ⟨p.closed, p.le, ?_⟩
          intro o ho
          cases ho with
          | member h1 h2 => rw [ha] at h1; cases h1; exact p.held o h2
        · cases e
    | obj o =>
      obtain ⟨a, b, d⟩ := hobj o e
      exact ⟨a, b, fun o' ho => by cases ho; exact d⟩
    | hmember o i =>
      obtain ⟨a, b, d⟩ := hobj o e
      exact ⟨a, b, fun o' ho => by cases ho; exact d⟩

theorem markPerms_post (h : Heap) (f : Nat) : ∀ (os : List Nat) (m m' : Marks), markPerms h f os m = .ok m' →
    Closed h m → Closed h m' ∧ Le m m' ∧ ∀ o ∈ os, ∀ x, h.get o = some x → x.perm = true → m' o = true
  | [], m, m', e, hc => by
    simp only [markPerms, Res.ok.injEq] at e; subst e
    exact ⟨hc, fun _ h => h, by simp⟩
  | o :: os, m, m', e, hc => by
    rw [markPerms] at e
    cases hx : h.get o with
    | none => rw [hx] at e; cases e
    | some x =>
      rw [hx] at e
      simp only at e
      by_cases hp : (x.perm && !m o) = true
      · rw [if_pos hp] at e
        cases hb : markBase h (mark h f) o m with
        | ub => rw [hb] at e; cases e
        | deep => rw [hb] at e; cases e
        | ok m1 =>
          rw [hb] at e
          obtain ⟨a, b, d⟩ := markBase_post (fun c m m' e hc => mark_post h f c m m' e hc) o m m1 hb hc
          obtain ⟨a', b', d'⟩ := markPerms_post h f os m1 m' e a
          refine ⟨a', b.trans b', ?_⟩
          intro o' ho' y hy hyp
          rcases List.mem_cons.mp ho' with rfl | ho'
          · exact b' _ d
          · exact d' o' ho' y hy hyp
      · rw [if_neg hp] at e
        obtain ⟨a', b', d'⟩ := markPerms_post h f os m m' e hc
        refine ⟨a', b', ?_⟩
        intro o' ho' y hy hyp
        rcases List.mem_cons.mp ho' with rfl | ho'
        · rw [hx] at hy; cases hy
          rw [hyp] at hp
          simp only [Bool.true_and, Bool.not_eq_true', Bool.not_eq_false] at hp
          exact b' _ hp
        · exact d' o' ho' y hy hyp

theorem closed_empty (h : Heap) : Closed h fun _ => false := by intro o ho; cases ho

/-- A completed marking flags a closed set containing everything held by a root. -/
theorem markAll_post (h : Heap) (f : Nat) (m : Marks) (e : markAll h f = .ok m) :
    Closed h m ∧ (∀ o, Reach h o → m o = true) := by
  unfold markAll at e
  cases h1 : markPerms h f h.order (fun _ => false) with
  | ub => rw [h1] at e; cases e
  | deep => rw [h1] at e; cases e
  | ok m1 =>
    rw [h1] at e
    simp only [Res.bind] at e
    cases h2 : visitAll (mark h f) h.stack m1 with
    | ub => rw [h2] at e; cases e
    | deep => rw [h2] at e; cases e
    | ok m2 =>
      rw [h2] at e
      simp only at e
      obtain ⟨a1, _, d1⟩ := markPerms_post h f _ _ m1 h1 (closed_empty h)
      obtain ⟨a2, b2, d2⟩ := visitAll_post (fun c m m' e hc => mark_post h f c m m' e hc) _ _ m2 h2 a1
      obtain ⟨a3, b3, d3⟩ := visitAll_post (fun c m m' e hc => mark_post h f c m m' e hc) _ _ m e a2
      refine ⟨a3, ?_⟩
      intro o ho
      induction ho with
      | stack hc ho => exact b3 _ (d2 _ hc _ ho)
      | global hc ho => exact d3 _ hc _ ho
      | perm hm hx hp => exact b3 _ (b2 _ (d1 _ hm _ hx hp))
      | elem _ hc ho ih => exact (a3 _ ih).1 _ (mem_cellsOf.mpr hc) _ ho
      | block _ hb ih => exact (a3 _ ih).2 _ hb

/-! ### Nothing else is marked -/

/-- A set of objects that marking cannot leave. -/
structure Stable (h : Heap) (P : Nat → Prop) : Prop where
  elem : ∀ o, P o → ∀ c ∈ cellsOf h o, ∀ o', Holds h c o' → P o'
  block : ∀ o, P o → ∀ b, IsBlockOf h o b → P b

theorem visitAll_only {h : Heap} {P : Nat → Prop} {g : Cell → Marks → Res}
    (hg : ∀ c m m', g c m = .ok m' → (∀ o, Holds h c o → P o) → (∀ o, m o = true → P o) →
      ∀ o, m' o = true → P o) :
    ∀ (cs : List Cell) (m m' : Marks), visitAll g cs m = .ok m' → (∀ c ∈ cs, ∀ o, Holds h c o → P o) →
      (∀ o, m o = true → P o) → ∀ o, m' o = true → P o
  | [], m, m', e, _, hm => by
    simp only [visitAll, Res.ok.injEq] at e; subst e; exact hm
  | c :: cs, m, m', e, hcs, hm => by
    rw [visitAll] at e
    cases h1 : g c m with
    | ub => rw [h1] at e; cases e
    | deep => rw [h1] at e; cases e
    | ok m1 =>
      rw [h1] at e
      exact visitAll_only hg cs m1 m' e (fun c hc => hcs c (by simp [hc]))
        (hg c m m1 h1 (hcs c (by simp)) hm)

theorem markBase_only {h : Heap} {P : Nat → Prop} (S : Stable h P) {g : Cell → Marks → Res}
    (hg : ∀ c m m', g c m = .ok m' → (∀ o, Holds h c o → P o) → (∀ o, m o = true → P o) →
      ∀ o, m' o = true → P o) (o : Nat) (ho : P o) (m m' : Marks) (e : markBase h g o m = .ok m')
    (hm : ∀ o, m o = true → P o) : ∀ o, m' o = true → P o := by
  have hset : ∀ (m : Marks) o, P o → (∀ o, m o = true → P o) → ∀ x, setMark m o x = true → P x := by
    intro m o ho hm x hx
    rcases (setMark_iff _ _ _).mp hx with rfl | hx
    · exact ho
    · exact hm x hx
  unfold markBase at e
  cases hx : h.get o with
  | none => rw [hx] at e; cases e
  | some x =>
    rw [hx] at e
    simp only at e
    cases hk : x.kind with
    | values cs =>
      rw [hk] at e
      simp only at e
      cases hv : visitAll g cs m with
      | ub => rw [hv] at e; cases e
      | deep => rw [hv] at e; cases e
      | ok m1 =>
        rw [hv] at e
        simp only [Res.bind, Res.ok.injEq] at e
        subst e
        refine hset m1 o ho (visitAll_only hg cs m m1 hv ?_ hm)
        intro c hc o' ho'
        exact S.elem o ho c (by simpa [cellsOf, hx, hk] using hc) o' ho'
    | chars => rw [hk] at e; simp only [Res.ok.injEq] at e; subst e; exact hset m o ho hm
    | block cs => rw [hk] at e; simp only [Res.ok.injEq] at e; subst e; exact hset m o ho hm
    | table b used =>
      rw [hk] at e
      simp only at e
      cases hb : (h.get b).map Obj.kind with
      | none => rw [hb] at e; cases e
      | some kb =>
        cases kb with
        | values cs => rw [hb] at e; cases e
        | chars => rw [hb] at e; cases e
        | table b' u' => rw [hb] at e; cases e
        | block cs =>
          rw [hb] at e
          simp only at e
          by_cases hlen : used.length = cs.length
          · rw [if_pos hlen] at e
            cases hv : visitAll g (usedCells used cs) (setMark m b) with
            | ub => rw [hv] at e; cases e
            | deep => rw [hv] at e; cases e
            | ok m1 =>
              rw [hv] at e
              simp only [Res.bind, Res.ok.injEq] at e
              subst e
              refine hset m1 o ho (visitAll_only hg _ _ m1 hv ?_ (hset m b ?_ hm))
              · intro c hc o' ho'
                exact S.elem o ho c (by simpa [cellsOf, hx, hk, hb] using hc) o' ho'
              · exact S.block o ho b ⟨used, by simp [hx, hk]⟩
          · rw [if_neg hlen] at e; cases e

theorem mark_only {h : Heap} {P : Nat → Prop} (S : Stable h P) : ∀ (f : Nat) (c : Cell) (m m' : Marks),
    mark h f c m = .ok m' → (∀ o, Holds h c o → P o) → (∀ o, m o = true → P o) → ∀ o, m' o = true → P o
  | 0, c, m, m', e, _, _ => by cases e
  | f + 1, c, m, m', e, hc, hm => by
    have hobj : ∀ o, P o → (if m o then Res.ok m else markBase h (mark h f) o m) = .ok m' →
        ∀ o, m' o = true → P o := by
      intro o ho e
      split at e
      · simp only [Res.ok.injEq] at e; subst e; exact hm
      · exact markBase_only S (fun c m m' => mark_only S f c m m') o ho m m' e hm
    cases c with
    | plain => simp only [mark, Res.ok.injEq] at e; subst e; exact hm
    | ref a => simp only [mark, Res.ok.injEq] at e; subst e; exact hm
    | member a i =>
      simp only [mark] at e
      cases ha : h.cellAt a with
      | none => rw [ha] at e; cases e
      | some c =>
        rw [ha] at e
        simp only at e
        split at e
        · exact mark_only S f c m m' e (fun o ho => hc o (.member ha ho)) hm
        · cases e
    | obj o => exact hobj o (hc o (.obj o)) e
    | hmember o i => exact hobj o (hc o (.hmember o i)) e

theorem markPerms_only {h : Heap} {P : Nat → Prop} (S : Stable h P) (f : Nat) :
    ∀ (os : List Nat) (m m' : Marks), markPerms h f os m = .ok m' →
      (∀ o ∈ os, ∀ x, h.get o = some x → x.perm = true → P o) →
      (∀ o, m o = true → P o) → ∀ o, m' o = true → P o
  | [], m, m', e, _, hm => by simp only [markPerms, Res.ok.injEq] at e; subst e; exact hm
  | o :: os, m, m', e, hp, hm => by
    rw [markPerms] at e
    cases hx : h.get o with
    | none => rw [hx] at e; cases e
    | some x =>
      rw [hx] at e
      simp only at e
      by_cases hpm : (x.perm && !m o) = true
      · rw [if_pos hpm] at e
        cases hb : markBase h (mark h f) o m with
        | ub => rw [hb] at e; cases e
        | deep => rw [hb] at e; cases e
        | ok m1 =>
          rw [hb] at e
          have hpo : P o := hp o (by simp) x hx (by simp at hpm; exact hpm.1)
          exact markPerms_only S f os m1 m' e (fun o ho => hp o (by simp [ho]))
            (markBase_only S (fun c m m' => mark_only S f c m m') o hpo m m1 hb hm)
      · rw [if_neg hpm] at e
        exact markPerms_only S f os m m' e (fun o ho => hp o (by simp [ho])) hm

theorem reach_stable (h : Heap) : Stable h (Reach h) :=
  ⟨fun _ ho _ hc _ hh => .elem ho (mem_cellsOf.mp hc) hh, fun _ ho _ hb => .block ho hb⟩

/-- A completed marking flags exactly the reachable objects. -/
theorem markAll_exact (h : Heap) (f : Nat) (m : Marks) (e : markAll h f = .ok m) (o : Nat) :
    m o = true ↔ Reach h o := by
  constructor
  · unfold markAll at e
    cases h1 : markPerms h f h.order (fun _ => false) with
    | ub => rw [h1] at e; cases e
    | deep => rw [h1] at e; cases e
    | ok m1 =>
      rw [h1] at e
      simp only [Res.bind] at e
      cases h2 : visitAll (mark h f) h.stack m1 with
      | ub => rw [h2] at e; cases e
      | deep => rw [h2] at e; cases e
      | ok m2 =>
        rw [h2] at e
        simp only at e
        have S := reach_stable h
        have p1 := markPerms_only S f _ _ m1 h1 (fun o ho x hx hp => .perm ho hx hp) (by intro o ho; cases ho)
        have p2 := visitAll_only (fun c m m' => mark_only S f c m m') _ _ m2 h2 (fun c hc o ho => .stack hc ho) p1
        exact visitAll_only (fun c m m' => mark_only S f c m m') _ _ m e (fun c hc o ho => .global hc ho) p2 o
  · exact (markAll_post h f m e).2 o

/-! ### Sweep -/

theorem sweep_eq (m : Marks) : ∀ l, sweep m l = (l.filter m, l.filter fun o => !m o)
  | [] => rfl
  | o :: os => by
    rw [sweep, sweep_eq m os]
    by_cases h : m o = true
    · simp [h]
    · simp [h]

/-! ### C15, C16 -/

/-- **C15**: after a collection that completes, every object reachable from the stack, the
globals or a permanent object is still there with the same contents, and the roots are
unchanged.  Reachability here goes through values and through element references that name
the container's variable; it does not go through `WR_REF` values nor from a hash element
reference to what the element contains — see `C15_hash_element_freed` and
`C15_struct_member_freed`. -/
theorem C15_reachable_survive_partial (h h' : Heap) (f : Nat) (flags : Marks) (freed : List Nat)
    (e : gc h f = .done h' flags freed) :
    (∀ o, Reach h o → h'.get o = h.get o ∧ (o ∈ h.order → o ∈ h'.order)) ∧
      h'.stack = h.stack ∧ h'.globals = h.globals := by
  unfold gc at e
  cases hm : markAll h f with
  | ub => rw [hm] at e; cases e
  | deep => rw [hm] at e; cases e
  | ok m =>
    rw [hm] at e
    simp only [sweep_eq, Out.done.injEq] at e
    obtain ⟨rfl, _, _⟩ := e
    refine ⟨?_, rfl, rfl⟩
    intro o ho
    have hmo := (markAll_exact h f m hm o).mpr ho
    constructor
    · simp [Heap.free, hmo]
    · intro hmem
      simp [Heap.free, hmem, hmo]

/-- **C16**: a collection that completes frees exactly the unreachable objects, each once,
keeps the others in order, and leaves no object flagged. -/
theorem C16_exactly_unreachable_freed (h h' : Heap) (f : Nat) (flags : Marks) (freed : List Nat)
    (halloc : ∀ o, (h.get o).isSome → o ∈ h.order) (hnd : h.order.Nodup)
    (hheld : ∀ o, Reach h o → (h.get o).isSome)
    (e : gc h f = .done h' flags freed) :
    (∀ o, o ∈ freed ↔ o ∈ h.order ∧ ¬ Reach h o) ∧ freed.Nodup ∧
    (∀ o, o ∈ h'.order ↔ o ∈ h.order ∧ Reach h o) ∧ h'.order.Sublist h.order ∧
    (∀ o ∈ freed, h'.get o = none) ∧ ∀ o, flags o = false := by
  unfold gc at e
  cases hm : markAll h f with
  | ub => rw [hm] at e; cases e
  | deep => rw [hm] at e; cases e
  | ok m =>
    rw [hm] at e
    simp only [sweep_eq, Out.done.injEq] at e
    obtain ⟨rfl, rfl, rfl⟩ := e
    have hx := markAll_exact h f m hm
    refine ⟨?_, hnd.filter _, ?_, List.filter_sublist, ?_, ?_⟩
    · intro o
      rw [List.mem_filter, ← hx o]
      simp
    · intro o
      simp only [Heap.free, List.mem_filter, ← hx o]
    · intro o ho
      show (if o ∈ List.filter (fun o => !m o) h.order then none else h.get o) = none
      rw [if_pos ho]
    · intro o
      simp only [Bool.and_eq_false_iff, Bool.not_eq_false']
      by_cases hmo : m o = true
      · right
        rw [List.contains_iff_mem, List.mem_filter]
        exact ⟨halloc o (hheld o ((hx o).mp hmo)), hmo⟩
      · left; simpa using hmo

end Wrench.Gc
