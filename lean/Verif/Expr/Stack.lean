import Verif.Expr.Spec

/-
The stack bookkeeping: `pushToStack` and `swapWithTop` track the machine stack.
-/
namespace Wrench.Expr

variable {V : Type}

/-- Position of context `i` in a context list. -/
def posAt (cs : List (Ctx V)) (i : Nat) : Option Nat := (cs[i]?).bind Ctx.pos

/-- Shift all positions except those ≤ 1 … used by the compaction lemmas. -/
def shiftDown (g : Nat) (c : Ctx V) : Ctx V :=
  { c with pos := c.pos.map fun q => if q = 0 then 0 else q - g }

theorem any_pos {cs : List (Ctx V)} {h : Nat} :
    (cs.any fun c => c.pos == some h) = true ↔ ∃ c ∈ cs, c.pos = some h := by
  simp [List.any_eq_true]

theorem compact_full : ∀ (f h highest : Nat) (cs : List (Ctx V)),
    (∀ q, h ≤ q → q < highest → ∃ c ∈ cs, c.pos = some q) → compact f h highest cs = cs
  | 0, _, _, _, _ => rfl
  | f + 1, h, highest, cs, H => by
    rw [compact]
    split
    · next hh =>
      rw [if_pos (any_pos.2 (H h (Nat.le_refl _) hh))]
      exact compact_full f (h + 1) highest cs fun q h1 h2 => H q (by omega) h2
    · rfl

/-- Positions are 0 or in `g+1 .. m`, all of the latter present: compaction from 1 moves them down by `g`. -/
theorem compact_gap : ∀ (g f m : Nat) (cs : List (Ctx V)), g < m →
    (∀ c ∈ cs, ∀ q, c.pos = some q → q = 0 ∨ (g + 1 ≤ q ∧ q ≤ m)) →
    (∀ q, g + 1 ≤ q → q ≤ m → ∃ c ∈ cs, c.pos = some q) →
    compact (f + g) 1 m cs = cs.map (shiftDown g)
  | 0, f, m, cs, _, _, H2 => by
    rw [compact_full]
    · symm
      rw [List.map_congr_left (g := id) (fun c hc => ?_), List.map_id]
      rcases c with ⟨k, _ | q⟩
      · rfl
      · by_cases h : q = 0 <;> simp [shiftDown, h]
    · intro q h1 h2
      exact H2 q (by omega) (by omega)
  | g + 1, f, m, cs, hgm, H1, H2 => by
    rw [show f + (g + 1) = (f + g) + 1 by omega, compact, if_pos (by omega)]
    rw [if_neg (by
      intro h
      obtain ⟨c, hc, hp⟩ := any_pos.1 h
      rcases H1 c hc 1 hp with h | h <;> omega)]
    have hmap : (cs.map fun c => { c with pos := c.pos.map fun p => if p > 1 then p - 1 else p }) =
        cs.map (shiftDown 1) := by
      apply List.map_congr_left
      intro c hc
      rcases c with ⟨k, _ | q⟩
      · rfl
      · rcases H1 _ hc q rfl with h | h
        · subst h; rfl
        · have : q > 1 := by omega
          have h0 : q ≠ 0 := by omega
          simp [shiftDown, this, h0]
    rw [hmap, compact_gap g f (m - 1) _ (by omega)]
    · rw [List.map_map]
      apply List.map_congr_left
      intro c hc
      rcases c with ⟨k, _ | q⟩
      · rfl
      · rcases H1 _ hc q rfl with h | h
        · subst h; rfl
        · have h0 : q ≠ 0 := by omega
          have h1 : q - 1 ≠ 0 := by omega
          simp only [shiftDown, Function.comp, Option.map_some, h0, h1, if_false]
          congr 2
          omega
    · intro c hc q hq
      obtain ⟨c', hc', rfl⟩ := List.mem_map.1 hc
      rcases c' with ⟨k, _ | q'⟩
      · simp [shiftDown] at hq
      · rcases H1 _ hc' q' rfl with h | h
        · subst h; simp [shiftDown] at hq; omega
        · have h0 : q' ≠ 0 := by omega
          simp [shiftDown, h0] at hq
          omega
    · intro q h1 h2
      obtain ⟨c, hc, hp⟩ := H2 (q + 1) (by omega) (by omega)
      refine ⟨shiftDown 1 c, List.mem_map.2 ⟨c, hc, rfl⟩, ?_⟩
      simp [shiftDown, hp]

theorem foldl_max_pos (cs : List (Ctx V)) : ∀ (a m : Nat),
    (∀ c ∈ cs, ∀ q, c.pos = some q → q ≤ m) → a ≤ m →
    (a = m ∨ ∃ c ∈ cs, c.pos = some m) →
    cs.foldl (fun m c => max m (c.pos.getD 0)) a = m := by
  induction cs with
  | nil => intro a m _ _ h; rcases h with h | ⟨c, hc, _⟩; · simpa using h
           · simp at hc
  | cons c cs ih =>
    intro a m H ha hm
    rw [List.foldl_cons]
    have hc : c.pos.getD 0 ≤ m := by
      cases hp : c.pos with
      | none => simp
      | some q => simpa using H c (by simp) q hp
    apply ih
    · intro c' h' ; exact H c' (by simp [h'])
    · omega
    · rcases hm with h | ⟨c', hc', hp⟩
      · left; omega
      · rcases List.mem_cons.1 hc' with rfl | h'
        · left; simp [hp]; omega
        · exact Or.inr ⟨c', h', hp⟩

/-- The function `pushToStack` computes when the other loaded contexts occupy exactly the
positions `g .. m-1`. -/
theorem pushToStack_eq (cs : List (Ctx V)) (index g m : Nat) (hi : index < cs.length)
    (hb : ∀ i q, i ≠ index → posAt cs i = some q → g ≤ q ∧ q < m)
    (hs : ∀ q, g ≤ q → q < m → ∃ i, i ≠ index ∧ posAt cs i = some q) :
    pushToStack index cs = cs.mapIdx fun i c =>
      if i = index then { c with pos := some 0 }
      else { c with pos := c.pos.map fun q => q - g + 1 } := by
  obtain ⟨cs1, hcs1⟩ : ∃ cs1, cs1 = cs.mapIdx (fun i c =>
    if i = index then { c with pos := some 0 }
    else { c with pos := c.pos.map (· + 1) }) := ⟨_, rfl⟩
  have hget : ∀ i c, cs[i]? = some c → cs1[i]? = some (if i = index then { c with pos := some 0 }
      else { c with pos := c.pos.map (· + 1) }) := by
    intro i c h
    rw [hcs1, List.getElem?_mapIdx, h]
    rfl
  have hmem1 : ∀ c ∈ cs1, ∀ q, c.pos = some q → q = 0 ∨ (g + 1 ≤ q ∧ q ≤ m) := by
    intro c hc q hq
    obtain ⟨i, hi⟩ := List.mem_iff_getElem?.1 hc
    cases h : cs[i]? with
    | none =>
      rw [hcs1, List.getElem?_mapIdx, h] at hi; simp at hi
    | some c0 =>
      rw [hget i c0 h] at hi
      simp only [Option.some.injEq] at hi
      subst hi
      split at hq
      · simp at hq; omega
      · next hne =>
        cases hp : c0.pos with
        | none => simp [hp] at hq
        | some q0 =>
          simp [hp] at hq
          have := hb i q0 hne (by simp [posAt, h, hp])
          omega
  have hmem2 : ∀ q, g + 1 ≤ q → q ≤ m → ∃ c ∈ cs1, c.pos = some q := by
    intro q h1 h2
    obtain ⟨i, hne, hp⟩ := hs (q - 1) (by omega) (by omega)
    unfold posAt at hp
    cases h : cs[i]? with
    | none => simp [h] at hp
    | some c0 =>
      rw [h] at hp
      refine ⟨_, List.mem_iff_getElem?.2 ⟨i, hget i c0 h⟩, ?_⟩
      simp at hp
      simp [hne, hp]
      omega
  have hzero : ∃ c ∈ cs1, c.pos = some 0 := by
    refine ⟨_, List.mem_iff_getElem?.2 ⟨index, hget index cs[index] (List.getElem?_eq_getElem hi)⟩, ?_⟩
    simp
  have hfinal : pushToStack index cs = cs1.map (shiftDown g) := by
    unfold pushToStack
    simp only [← hcs1]
    by_cases hgm : g < m
    · have hh : cs1.foldl (fun m c => max m (c.pos.getD 0)) 0 = m := by
        apply foldl_max_pos
        · intro c hc q hq
          rcases hmem1 c hc q hq with h | h <;> omega
        · omega
        · exact Or.inr (hmem2 m (by omega) (by omega))
      rw [hh, compact, if_pos (by omega), if_pos (any_pos.2 hzero)]
      rw [show m = (m - g) + g by omega]
      simp only [Nat.zero_add]
      rw [compact_gap g (m - g) _ cs1 (by omega)]
      · intro c hc q hq
        rcases hmem1 c hc q hq with h | h
        · exact Or.inl h
        · right; omega
      · intro q h1 h2
        exact hmem2 q h1 (by omega)
    · have hh : cs1.foldl (fun m c => max m (c.pos.getD 0)) 0 = 0 := by
        apply foldl_max_pos
        · intro c hc q hq
          rcases hmem1 c hc q hq with h | h <;> omega
        · omega
        · exact Or.inl rfl
      rw [hh, compact, if_neg (by omega)]
      symm
      rw [List.map_congr_left (g := id) (fun c hc => ?_), List.map_id]
      rcases c with ⟨k, _ | q⟩
      · rfl
      · rcases hmem1 _ hc q rfl with h | h
        · subst h; rfl
        · omega
  rw [hfinal]
  apply List.ext_getElem?
  intro i
  rw [List.getElem?_map, List.getElem?_mapIdx]
  cases h : cs[i]? with
  | none =>
    have : cs1[i]? = none := by rw [hcs1, List.getElem?_mapIdx, h]; rfl
    simp [this]
  | some c =>
    rw [hget i c h]
    simp only [Option.map_some, Option.some.injEq]
    split
    · simp [shiftDown]
    · next hne =>
      rcases c with ⟨k, _ | q⟩
      · rfl
      · have := hb i q hne (by simp [posAt, h])
        simp only [shiftDown, Option.map_some]
        congr 2
        simp
        omega

end Wrench.Expr
