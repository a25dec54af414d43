import Verif.Expr.Full

/-!
Stack positions of contexts: after every step they are 0, 1, …, k-1, each once.
-/
namespace Wrench.Full

/-- The positions in use. -/
def poss (cs : List Ctx) : List Nat := cs.filterMap Ctx.pos

theorem mem_poss {cs : List Ctx} {p : Nat} : p ∈ poss cs ↔ ∃ c ∈ cs, c.pos = some p := by
  simp [poss, List.mem_filterMap]

theorem poss_map (f : Nat → Nat) (cs : List Ctx) :
    poss (cs.map fun c => { c with pos := c.pos.map f }) = (poss cs).map f := by
  induction cs with
  | nil => rfl
  | cons c cs ih =>
    cases h : c.pos with
    | none => simpa [poss, h] using ih
    | some p => simpa [poss, h] using ih

theorem any_pos (cs : List Ctx) (h : Nat) : (cs.any fun c => c.pos == some h) = true ↔ h ∈ poss cs := by
  simp [List.any_eq_true, mem_poss]

theorem nodup_map {f : Nat → Nat} : {l : List Nat} → l.Nodup →
    (∀ a ∈ l, ∀ b ∈ l, f a = f b → a = b) → (l.map f).Nodup
  | [], _, _ => List.nodup_nil
  | a :: l, h, inj => by
    rw [List.nodup_cons] at h
    rw [List.map_cons, List.nodup_cons]
    refine ⟨fun hm => ?_, nodup_map h.2 fun x hx y hy => inj x (List.mem_cons_of_mem _ hx) y (List.mem_cons_of_mem _ hy)⟩
    obtain ⟨b, hb, e⟩ := List.mem_map.mp hm
    have := inj b (List.mem_cons_of_mem _ hb) a List.mem_cons_self e
    exact h.1 (this ▸ hb)

theorem perm_range_of {l : List Nat} {n : Nat} (nd : l.Nodup) (h : ∀ x, x ∈ l ↔ x < n) :
    l.Perm (List.range n) :=
  (List.perm_ext_iff_of_nodup nd List.nodup_range).mpr fun x => by rw [h, List.mem_range]

/-- Kinds and which contexts are on the stack are as before. -/
def Same (cs ds : List Ctx) : Prop :=
  ds.map (fun c => (c.kind)) = cs.map (fun c => c.kind) ∧
  ds.map (fun c => c.pos.isSome) = cs.map (fun c => c.pos.isSome)

theorem Same.refl (cs : List Ctx) : Same cs cs := ⟨rfl, rfl⟩

theorem Same.trans {a b c : List Ctx} (h : Same a b) (g : Same b c) : Same a c :=
  ⟨g.1.trans h.1, g.2.trans h.2⟩

theorem same_map (f : Nat → Nat) (cs : List Ctx) :
    Same cs (cs.map fun c => { c with pos := c.pos.map f }) := by
  constructor
  · simp [List.map_map]
  · simp [List.map_map]

theorem compact_spec : ∀ (f h highest : Nat) (cs : List Ctx), highest - h < f → h ≤ highest →
    (poss cs).Nodup → (∀ x ∈ poss cs, x ≤ highest) → highest ∈ poss cs → (∀ x, x < h → x ∈ poss cs) →
    Same cs (compact f h highest cs) ∧
    ∃ n, (poss (compact f h highest cs)).Perm (List.range n) := by
  intro f
  induction f with
  | zero => intro h highest cs hf; omega
  | succ f ih =>
    intro h highest cs hf hle nd ub mem low
    unfold compact
    by_cases g : h < highest
    · rw [if_pos g]
      by_cases a : (cs.any fun c => c.pos == some h) = true
      · rw [if_pos a]
        refine ih (h + 1) highest cs (by omega) (by omega) nd ub mem fun x hx => ?_
        by_cases e : x = h
        · rw [e]; exact (any_pos cs h).mp a
        · exact low x (by omega)
      · rw [if_neg a]
        have hn : h ∉ poss cs := fun m => a ((any_pos cs h).mpr m)
        have ne : ∀ x ∈ poss cs, x ≠ h := fun x hx e => hn (e ▸ hx)
        obtain ⟨s, n, r⟩ := ih h (highest - 1)
          (cs.map fun c => { c with pos := c.pos.map fun p => if p > h then p - 1 else p }) (by omega) (by omega)
          (by
            rw [poss_map]
            refine nodup_map nd fun a ha b hb e => ?_
            have := ne a ha
            have := ne b hb
            split at e <;> split at e <;> omega)
          (by
            rw [poss_map]
            intro x hx
            obtain ⟨y, hy, e⟩ := List.mem_map.mp hx
            have := ub y hy
            split at e <;> omega)
          (by
            rw [poss_map]
            exact List.mem_map.mpr ⟨highest, mem, by rw [if_pos g]⟩)
          (by
            rw [poss_map]
            intro x hx
            exact List.mem_map.mpr ⟨x, low x hx, by rw [if_neg (by omega)]⟩)
        exact ⟨(same_map _ cs).trans s, n, r⟩
    · rw [if_neg g]
      refine ⟨Same.refl cs, highest + 1, perm_range_of nd fun x => ?_⟩
      constructor
      · intro hx; have := ub x hx; omega
      · intro hx
        by_cases e : x = highest
        · rw [e]; exact mem
        · exact low x (by omega)

theorem foldl_max (cs : List Ctx) (m : Nat) :
    m ≤ cs.foldl (fun m c => max m (c.pos.getD 0)) m ∧
    (∀ x ∈ poss cs, x ≤ cs.foldl (fun m c => max m (c.pos.getD 0)) m) ∧
    (cs.foldl (fun m c => max m (c.pos.getD 0)) m = m ∨
      cs.foldl (fun m c => max m (c.pos.getD 0)) m ∈ poss cs) := by
  induction cs generalizing m with
  | nil => simp [poss]
  | cons c cs ih =>
    obtain ⟨a, b, d⟩ := ih (max m (c.pos.getD 0))
    rw [List.foldl_cons]
    refine ⟨by omega, ?_, ?_⟩
    · intro x hx
      obtain ⟨y, hy, e⟩ := mem_poss.mp hx
      rcases List.mem_cons.mp hy with h | h
      · subst h
        rw [e] at a
        simp only [Option.getD_some] at a ⊢
        rw [e]; simp only [Option.getD_some]; omega
      · exact b x (mem_poss.mpr ⟨y, h, e⟩)
    · rcases d with h | h
      · rw [h]
        cases hp : c.pos with
        | none => left; simp
        | some p =>
          simp only [Option.getD_some]
          by_cases g : m < p
          · right
            have : max m p = p := by omega
            rw [this]
            exact mem_poss.mpr ⟨c, List.mem_cons_self, hp⟩
          · left; omega
      · right
        obtain ⟨y, hy, e⟩ := mem_poss.mp h
        exact mem_poss.mpr ⟨y, List.mem_cons_of_mem _ hy, e⟩

/-- The first step of `pushToStack`. -/
def bump (index : Nat) (cs : List Ctx) : List Ctx :=
  cs.mapIdx fun i c => if i = index then { c with pos := some 0 } else { c with pos := c.pos.map (· + 1) }

theorem bump_cons_zero (c : Ctx) (cs : List Ctx) :
    bump 0 (c :: cs) = { c with pos := some 0 } :: cs.map fun c => { c with pos := c.pos.map (· + 1) } := by
  simp only [bump, List.mapIdx_cons]
  rw [if_pos trivial]
  congr 1
  rw [List.mapIdx_eq_iff]
  intro i
  simp

theorem bump_cons_succ (i : Nat) (c : Ctx) (cs : List Ctx) :
    bump (i + 1) (c :: cs) = { c with pos := c.pos.map (· + 1) } :: bump i cs := by
  simp [bump, List.mapIdx_cons]

theorem bump_kind (i : Nat) (cs : List Ctx) : (bump i cs).map (fun c => c.kind) = cs.map (fun c => c.kind) := by
  induction cs generalizing i with
  | nil => rfl
  | cons c cs ih =>
    cases i with
    | zero => rw [bump_cons_zero]; simp [List.map_map]
    | succ i => rw [bump_cons_succ]; simp [ih]

theorem bump_some (i : Nat) (cs : List Ctx) :
    (bump i cs).map (fun c => c.pos.isSome) = (cs.map fun c => c.pos.isSome).set i true := by
  induction cs generalizing i with
  | nil => rfl
  | cons c cs ih =>
    cases i with
    | zero => rw [bump_cons_zero]; simp [List.map_map]
    | succ i => rw [bump_cons_succ]; simp [ih]

theorem bump_mem (i : Nat) (cs : List Ctx) : ∀ x ∈ poss (bump i cs), x = 0 ∨ x - 1 ∈ poss cs := by
  induction cs generalizing i with
  | nil => intro x hx; simp [bump, poss] at hx
  | cons c cs ih =>
    intro x hx
    cases i with
    | zero =>
      rw [bump_cons_zero] at hx
      rw [show poss ({ c with pos := some 0 } :: cs.map fun c => { c with pos := c.pos.map (· + 1) }) =
        0 :: poss (cs.map fun c => { c with pos := c.pos.map (· + 1) }) from rfl, poss_map] at hx
      rcases List.mem_cons.mp hx with h | h
      · exact .inl h
      · obtain ⟨y, hy, e⟩ := List.mem_map.mp h
        right
        obtain ⟨d, hd, e'⟩ := mem_poss.mp hy
        exact mem_poss.mpr ⟨d, List.mem_cons_of_mem _ hd, by rw [e']; congr 1; omega⟩
    | succ i =>
      rw [bump_cons_succ] at hx
      obtain ⟨d, hd, e⟩ := mem_poss.mp hx
      rcases List.mem_cons.mp hd with h | h
      · subst h
        cases hp : c.pos with
        | none => simp [hp] at e
        | some p =>
          simp [hp] at e
          exact .inr (mem_poss.mpr ⟨c, List.mem_cons_self, by rw [hp]; congr 1; omega⟩)
      · rcases ih i x (mem_poss.mpr ⟨d, h, e⟩) with h | h
        · exact .inl h
        · obtain ⟨y, hy, e⟩ := mem_poss.mp h
          exact .inr (mem_poss.mpr ⟨y, List.mem_cons_of_mem _ hy, e⟩)

theorem bump_zero (i : Nat) (cs : List Ctx) (h : i < cs.length) : 0 ∈ poss (bump i cs) := by
  induction cs generalizing i with
  | nil => simp at h
  | cons c cs ih =>
    cases i with
    | zero => rw [bump_cons_zero]; exact mem_poss.mpr ⟨_, List.mem_cons_self, rfl⟩
    | succ i =>
      rw [bump_cons_succ]
      obtain ⟨d, hd, e⟩ := mem_poss.mp (ih i (by simpa using h))
      exact mem_poss.mpr ⟨d, List.mem_cons_of_mem _ hd, e⟩

theorem poss_cons_none {c : Ctx} {cs : List Ctx} (h : c.pos = none) : poss (c :: cs) = poss cs := by
  simp [poss, h]

theorem poss_cons_some {c : Ctx} {cs : List Ctx} {p : Nat} (h : c.pos = some p) : poss (c :: cs) = p :: poss cs := by
  simp [poss, h]

theorem bump_nodup (i : Nat) (cs : List Ctx) (nd : (poss cs).Nodup) : (poss (bump i cs)).Nodup := by
  induction cs generalizing i with
  | nil => simpa [bump] using nd
  | cons c cs ih =>
    have ndt : (poss cs).Nodup := by
      cases hp : c.pos with
      | none => rwa [poss_cons_none hp] at nd
      | some p => rw [poss_cons_some hp, List.nodup_cons] at nd; exact nd.2
    cases i with
    | zero =>
      rw [bump_cons_zero, poss_cons_some (p := 0) rfl, poss_map, List.nodup_cons]
      refine ⟨fun hm => ?_, nodup_map ndt fun a _ b _ e => by omega⟩
      obtain ⟨y, _, e⟩ := List.mem_map.mp hm
      omega
    | succ i =>
      rw [bump_cons_succ]
      cases hp : c.pos with
      | none => rw [poss_cons_none (by simp)]; exact ih i ndt
      | some p =>
        rw [poss_cons_some (p := p + 1) (by simp), List.nodup_cons]
        refine ⟨fun hm => ?_, ih i ndt⟩
        rw [poss_cons_some hp, List.nodup_cons] at nd
        rcases bump_mem i cs _ hm with h | h
        · omega
        · exact nd.1 (by simpa using h)

theorem pushToStack_spec (i : Nat) (cs : List Ctx) (hi : i < cs.length) (nd : (poss cs).Nodup) :
    (pushToStack i cs).map (fun c => c.kind) = cs.map (fun c => c.kind) ∧
    (pushToStack i cs).map (fun c => c.pos.isSome) = (cs.map fun c => c.pos.isSome).set i true ∧
    ∃ n, (poss (pushToStack i cs)).Perm (List.range n) := by
  obtain ⟨a, b, d⟩ := foldl_max (bump i cs) 0
  have hz := bump_zero i cs hi
  obtain ⟨s, n, r⟩ := compact_spec
    ((bump i cs).foldl (fun m c => max m (c.pos.getD 0)) 0 + 1) 0
    ((bump i cs).foldl (fun m c => max m (c.pos.getD 0)) 0) (bump i cs) (by omega) (by omega)
    (bump_nodup i cs nd) b (by
      rcases d with h | h
      · rw [h]; exact hz
      · exact h) (by intro x hx; omega)
  refine ⟨?_, ?_, n, r⟩
  · exact s.1.trans (bump_kind i cs)
  · exact s.2.trans (bump_some i cs)

theorem relabel_same (p : Nat) (cs : List Ctx) : Same cs (relabel p cs) := by
  constructor
  · rw [relabel, List.map_map]
    refine List.map_congr_left fun c _ => ?_
    simp only [Function.comp_apply]
    split
    · rfl
    · split <;> rfl
  · rw [relabel, List.map_map]
    refine List.map_congr_left fun c _ => ?_
    simp only [Function.comp_apply]
    split
    · rename_i h; simp [h]
    · split
      · rename_i h; simp [h]
      · rfl

theorem relabel_eq (p : Nat) (cs : List Ctx) :
    relabel p cs = cs.map fun c => { c with pos := c.pos.map fun q => if q = p then 0 else if q = 0 then p else q } := by
  unfold relabel
  refine List.map_congr_left fun c _ => ?_
  obtain ⟨k, pos⟩ := c
  cases pos with
  | none => rfl
  | some q =>
    by_cases h : q = p
    · simp [h]
    · by_cases g : q = 0
      · subst g; simp [h]
      · simp [h, g]

theorem relabel_perm (p n : Nat) (cs : List Ctx) (hp : p < n) (h : (poss cs).Perm (List.range n)) :
    (poss (relabel p cs)).Perm (List.range n) := by
  rw [relabel_eq, poss_map]
  have nd : (poss cs).Nodup := h.nodup_iff.mpr List.nodup_range
  have mem : ∀ x, x ∈ poss cs ↔ x < n := fun x => by rw [h.mem_iff, List.mem_range]
  refine perm_range_of (nodup_map nd fun a _ b _ e => ?_) fun x => ?_
  · split at e <;> split at e <;> (try split at e) <;> (try split at e) <;> omega
  · rw [List.mem_map]
    constructor
    · rintro ⟨y, hy, rfl⟩
      have := (mem y).mp hy
      split
      · omega
      · split <;> omega
    · intro hx
      by_cases e1 : x = p
      · exact ⟨0, (mem 0).mpr (by omega), by subst e1; by_cases z : 0 = x <;> simp [z]⟩
      · by_cases e2 : x = 0
        · exact ⟨p, (mem p).mpr hp, by simp [e2]⟩
        · exact ⟨x, (mem x).mpr hx, by simp [e1, e2]⟩

end Wrench.Full
