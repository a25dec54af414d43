import Verif.Stmts.Lemmas

/-
What the trees built by the parser do: the state of the program, and the level of the stack.
-/
namespace Wrench.Stmts

open Wrench Flow

variable {σ ρ : Type}

/-- The outcome without the level of the stack. -/
def drop (r : Option (Out ρ × Lv σ)) : Option (Out ρ × σ) := r.map fun p => (p.1, p.2.2)

/-! ### The state of the program -/

theorem while_drop {c' : Lv σ → Bool × Lv σ} {c : σ → Bool × σ} {b' : Lv σ → Option (Out ρ × Lv σ)}
    {b : σ → Option (Out ρ × σ)} {p' : Lv σ → Lv σ} {p : σ → σ}
    (hc : ∀ z, (c' z).1 = (c z.2).1 ∧ (c' z).2.2 = (c z.2).2) (hb : ∀ z, drop (b' z) = b z.2)
    (hp : ∀ z, (p' z).2 = p z.2) : ∀ (n : Nat) (z : Lv σ), drop (whileLoop c' b' p' n z) = whileLoop c b p n z.2
  | 0, z => rfl
  | n + 1, z => by
    have h1 := hc z
    have h2 := hb (c' z).2
    rw [h1.2] at h2
    simp only [whileLoop, h1.1]
    by_cases hz : (c z.2).1 = true
    · rw [if_pos hz, if_pos hz, ← h2]
      cases hr : b' (c' z).2 with
      | none => rfl
      | some r =>
        obtain ⟨o, y⟩ := r
        have ih := while_drop hc hb hp n (p' y)
        rw [hp] at ih
        cases o <;> first | exact ih | rfl
    · rw [if_neg hz, if_neg hz]
      simp [drop, h1.2]

theorem until_drop {c' : Lv σ → Bool × Lv σ} {c : σ → Bool × σ} {b' : Lv σ → Option (Out ρ × Lv σ)}
    {b : σ → Option (Out ρ × σ)}
    (hc : ∀ z, (c' z).1 = (c z.2).1 ∧ (c' z).2.2 = (c z.2).2) (hb : ∀ z, drop (b' z) = b z.2) :
    ∀ (n : Nat) (z : Lv σ), drop (untilLoop c' b' n z) = untilLoop c b n z.2
  | 0, z => rfl
  | n + 1, z => by
    have h2 := hb z
    simp only [untilLoop, ← h2]
    cases hr : b' z with
    | none => rfl
    | some r =>
      obtain ⟨o, y⟩ := r
      have h1 := hc y
      have ih := until_drop hc hb n (c' y).2
      rw [h1.2] at ih
      have key : drop (if (c' y).1 = true then untilLoop c' b' n (c' y).2 else some (.nrm, (c' y).2)) =
          if (c y.2).1 = true then untilLoop c b n (c y.2).2 else some (.nrm, (c y.2).2) := by
        rw [h1.1]
        by_cases hz : (c y.2).1 = true
        · rw [if_pos hz, if_pos hz, ih]
        · rw [if_neg hz, if_neg hz]; simp [drop, h1.2]
      cases o <;> first | exact key | rfl

theorem effects_drop (v : Env σ ρ) : ∀ (l : List E) (z : Lv σ),
    (effects ((l.map some).map v.stmt) z).2 = effects (l.map v.act) z.2
  | [], z => rfl
  | x :: l, z => effects_drop v l (v.stmt (some x) z)

theorem cond_drop (v : Env σ ρ) (x : E) (z : Lv σ) :
    (v.cond (some x) z).1 = (v.test x z.2).1 ∧ (v.cond (some x) z).2.2 = (v.test x z.2).2 := ⟨rfl, rfl⟩

theorem seq_drop {n : Nat} {s' t' : Stmt (Lv σ) ρ} {s t : Stmt σ ρ} (hs : ∀ z, drop (exec n s' z) = exec n s z.2)
    (ht : ∀ z, drop (exec n t' z) = exec n t z.2) (z : Lv σ) :
    drop (exec n (.seq s' t') z) = exec n (.seq s t) z.2 := by
  have h1 := hs z
  simp only [exec, ← h1]
  cases hr : exec n s' z with
  | none => rfl
  | some r =>
    obtain ⟨o, y⟩ := r
    cases o <;> first | exact ht y | rfl

mutual
theorem exec_drop (v : Env σ ρ) (n : Nat) (s : S) : ∀ z : Lv σ,
    drop (exec n ((tree s).flow v) z) = exec n (mean v s) z.2 := by
  intro z
  cases s with
  | empty => rfl
  | ex x => rfl
  | brk => rfl
  | cont => rfl
  | ret x => rfl
  | block l => exact list_drop v n l z
  | ifThen c s =>
    have hc := cond_drop v c z
    have ih := exec_drop v n s (v.cond (some c) z).2
    rw [hc.2] at ih
    simp only [tree, P.flow, mean, exec, hc.1]
    by_cases hz : (v.test c z.2).1 = true
    · rw [if_pos hz, if_pos hz, ih]
    · rw [if_neg hz, if_neg hz]; rfl
  | ifElse c s t =>
    have hc := cond_drop v c z
    have ih := exec_drop v n s (v.cond (some c) z).2
    have ih2 := exec_drop v n t (v.cond (some c) z).2
    rw [hc.2] at ih ih2
    simp only [tree, P.flow, mean, exec, hc.1]
    by_cases hz : (v.test c z.2).1 = true
    · rw [if_pos hz, if_pos hz, ih]
    · rw [if_neg hz, if_neg hz, ih2]
  | loop c s =>
    simp only [tree, P.flow, mean, exec]
    exact while_drop (cond_drop v c) (exec_drop v n s) (fun _ => rfl) n z
  | doLoop s c =>
    simp only [tree, P.flow, mean, exec]
    exact until_drop (cond_drop v c) (exec_drop v n s) n z
  | forLoop i c p s =>
    have h : ∀ z : Lv σ, (effects ((p.map some).map v.stmt) z).2 = effects (p.map v.act) z.2 := effects_drop v p
    simp only [tree, P.flow, mean, exec]
    rw [← effects_drop v i z]
    cases c with
    | none => exact while_drop (fun _ => ⟨rfl, rfl⟩) (exec_drop v n s) h n _
    | some c => exact while_drop (cond_drop v c) (exec_drop v n s) h n _
  | each k w a s =>
    simp only [tree, P.flow, mean, exec]
    exact while_drop (fun _ => ⟨rfl, rfl⟩) (exec_drop v n s) (fun _ => rfl) n _
  | switch c b =>
    have h1 := from_drop v n b (v.hash c z.2).1 (v.sel (some c) z).2
    have h2 := dflt_drop v n b (v.sel (some c) z).2
    have e : (v.sel (some c) z).2.2 = (v.hash c z.2).2 := rfl
    rw [e] at h1 h2
    have key : drop (pickSel (execFrom n ((treeB b).flow v) (v.hash c z.2).1 (v.sel (some c) z).2)
        (execDflt n ((treeB b).flow v) (v.sel (some c) z).2) (v.sel (some c) z).2) =
        pickSel (execFrom n (meanB v b) (v.hash c z.2).1 (v.hash c z.2).2)
          (execDflt n (meanB v b) (v.hash c z.2).2) (v.hash c z.2).2 := by
      rw [← h1, ← h2]
      cases execFrom n ((treeB b).flow v) (v.hash c z.2).1 (v.sel (some c) z).2 with
      | some r => rfl
      | none =>
        cases execDflt n ((treeB b).flow v) (v.sel (some c) z).2 with
        | some r => rfl
        | none => rfl
    simp only [tree, P.flow, mean, exec, ← key]
    have e1 : (v.sel (some c) z).1 = (v.hash c z.2).1 := rfl
    rw [e1]
    generalize pickSel (execFrom n ((treeB b).flow v) (v.hash c z.2).1 (v.sel (some c) z).2)
      (execDflt n ((treeB b).flow v) (v.sel (some c) z).2) (v.sel (some c) z).2 = q
    cases q with
    | none => rfl
    | some r => obtain ⟨o, y⟩ := r; cases o <;> rfl
theorem list_drop (v : Env σ ρ) (n : Nat) (l : SL) : ∀ z : Lv σ,
    drop (exec n ((treeL l).flow v) z) = exec n (meanL v l) z.2 := by
  intro z
  cases l with
  | nil => rfl
  | cons s l =>
    have ih := list_drop v n l
    by_cases he : isEmpty s = true
    · cases s <;> simp [isEmpty] at he
      exact seq_drop (s := Stmt.skip) (fun _ => rfl) ih z
    · have ht : treeL (.cons s l) = .seq (tree s) (if leaks s = true then .seq .pop (treeL l) else treeL l) := by
        cases s <;> first | rfl | simp [isEmpty] at he
      rw [ht]
      refine seq_drop (exec_drop v n s) ?_ z
      intro z
      by_cases hk : leaks s = true
      · rw [if_pos hk]
        exact ih (v.stmt none z)
      · rw [if_neg hk]; exact ih z
theorem body_drop (v : Env σ ρ) (n : Nat) (b : SB) : ∀ z : Lv σ,
    drop (execBody n ((treeB b).flow v) z) = execBody n (meanB v b) z.2 := by
  intro z
  cases b with
  | nil => rfl
  | case h b => exact body_drop v n b z
  | dflt b => exact body_drop v n b z
  | stmt s b =>
    have ih := body_drop v n b
    have h1 := exec_drop v n s z
    simp only [treeB, PB.flow, meanB, execBody, ← h1]
    cases exec n ((tree s).flow v) z with
    | none => rfl
    | some r =>
      obtain ⟨o, y⟩ := r
      have key : drop (execBody n (PB.flow v (if leaks s = true then .stmt .skip (treeB b) else treeB b)) y) =
          execBody n (meanB v b) y.2 := by
        by_cases hk : leaks s = true
        · rw [if_pos hk]; exact ih y
        · rw [if_neg hk]; exact ih y
      cases o <;> first | exact key | rfl
theorem from_drop (v : Env σ ρ) (n : Nat) (b : SB) : ∀ (h : Word32) (z : Lv σ),
    (execFrom n ((treeB b).flow v) h z).map drop = execFrom n (meanB v b) h z.2 := by
  intro h z
  cases b with
  | nil => rfl
  | case h' b =>
    simp only [treeB, PB.flow, meanB, execFrom]
    by_cases hh : h' = h
    · rw [if_pos hh, if_pos hh]; simp [body_drop v n b z]
    · rw [if_neg hh, if_neg hh]; exact from_drop v n b h z
  | dflt b => exact from_drop v n b h z
  | stmt s b =>
    have ih := from_drop v n b h z
    simp only [treeB, PB.flow, meanB, execFrom]
    by_cases hk : leaks s = true
    · rw [if_pos hk]; exact ih
    · rw [if_neg hk]; exact ih
theorem dflt_drop (v : Env σ ρ) (n : Nat) (b : SB) : ∀ (z : Lv σ),
    (execDflt n ((treeB b).flow v) z).map drop = execDflt n (meanB v b) z.2 := by
  intro z
  cases b with
  | nil => rfl
  | case h' b => exact dflt_drop v n b z
  | dflt b => simp only [treeB, PB.flow, meanB, execDflt]; simp [body_drop v n b z]
  | stmt s b =>
    have ih := dflt_drop v n b z
    simp only [treeB, PB.flow, meanB, execDflt]
    by_cases hk : leaks s = true
    · rw [if_pos hk]; exact ih
    · rw [if_neg hk]; exact ih
end

theorem top_drop (v : Env σ ρ) (n : Nat) : ∀ (l : SL) (z : Lv σ),
    drop (exec n ((treeT l).flow v) z) = exec n (meanL v l) z.2
  | .nil, z => rfl
  | .cons s l, z => by
    have ih := top_drop v n l
    refine seq_drop (exec_drop v n s) ?_ z
    intro z
    by_cases hk : leaks s = true
    · rw [if_pos hk]; exact ih z
    · rw [if_neg hk]; exact ih z

/-! ### The level of the stack -/

/-- The level is the same afterwards. -/
def Keeps (d : Int) (r : Option (Out ρ × Lv σ)) : Prop := ∀ p, r = some p → p.2.1 = d

theorem keeps_some {d : Int} {o : Out ρ} {z : Lv σ} (h : z.1 = d) : Keeps d (some (o, z)) := by
  intro p hp; cases hp; exact h

theorem keeps_none {d : Int} : Keeps d (none : Option (Out ρ × Lv σ)) := by
  intro p hp; cases hp

theorem while_keeps {c : Lv σ → Bool × Lv σ} {b : Lv σ → Option (Out ρ × Lv σ)} {p : Lv σ → Lv σ}
    (hc : ∀ z, (c z).2.1 = z.1) (hb : ∀ z, Keeps z.1 (b z)) (hp : ∀ z, (p z).1 = z.1) :
    ∀ (n : Nat) (z : Lv σ), Keeps z.1 (whileLoop c b p n z)
  | 0, z => keeps_none
  | n + 1, z => by
    simp only [whileLoop]
    by_cases hz : (c z).1 = true
    · rw [if_pos hz]
      have h2 := hb (c z).2
      cases hr : b (c z).2 with
      | none => exact keeps_none
      | some r =>
        obtain ⟨o, y⟩ := r
        have hy : y.1 = z.1 := by rw [← hc z]; exact h2 _ hr
        have ih := while_keeps hc hb hp n (p y)
        rw [hp, hy] at ih
        cases o <;> first | exact ih | exact keeps_some hy
    · rw [if_neg hz]; exact keeps_some (hc z)

theorem until_keeps {c : Lv σ → Bool × Lv σ} {b : Lv σ → Option (Out ρ × Lv σ)}
    (hc : ∀ z, (c z).2.1 = z.1) (hb : ∀ z, Keeps z.1 (b z)) :
    ∀ (n : Nat) (z : Lv σ), Keeps z.1 (untilLoop c b n z)
  | 0, z => keeps_none
  | n + 1, z => by
    simp only [untilLoop]
    have h2 := hb z
    cases hr : b z with
    | none => exact keeps_none
    | some r =>
      obtain ⟨o, y⟩ := r
      have hy : y.1 = z.1 := h2 _ hr
      have ih := until_keeps hc hb n (c y).2
      rw [hc, hy] at ih
      have key : Keeps z.1 (if (c y).1 = true then untilLoop c b n (c y).2 else some (.nrm, (c y).2)) := by
        by_cases hz : (c y).1 = true
        · rw [if_pos hz]; exact ih
        · rw [if_neg hz]; exact keeps_some (by rw [hc, hy])
      cases o <;> first | exact key | exact keeps_some hy

theorem effects_keeps (v : Env σ ρ) : ∀ (l : List E) (z : Lv σ), (effects ((l.map some).map v.stmt) z).1 = z.1
  | [], z => rfl
  | x :: l, z => effects_keeps v l (v.stmt (some x) z)

theorem seq_keeps {n : Nat} {s t : Stmt (Lv σ) ρ} (hs : ∀ z, Keeps z.1 (exec n s z))
    (ht : ∀ z, Keeps z.1 (exec n t z)) (z : Lv σ) : Keeps z.1 (exec n (.seq s t) z) := by
  simp only [exec]
  have h1 := hs z
  cases hr : exec n s z with
  | none => exact keeps_none
  | some r =>
    obtain ⟨o, y⟩ := r
    have hy : y.1 = z.1 := h1 _ hr
    have h2 := ht y
    rw [hy] at h2
    cases o <;> first | exact h2 | exact keeps_some hy

mutual
theorem exec_keeps (v : Env σ ρ) (n : Nat) (s : S) (hl : Level s) : ∀ z : Lv σ,
    Keeps z.1 (exec n ((tree s).flow v) z) := by
  intro z
  cases s with
  | empty => exact keeps_some rfl
  | ex x => exact keeps_some rfl
  | brk => exact keeps_some rfl
  | cont => exact keeps_some rfl
  | ret x => exact keeps_some rfl
  | block l => exact list_keeps v n l hl z
  | ifThen c s =>
    have ih := exec_keeps v n s hl (v.cond (some c) z).2
    simp only [tree, P.flow, exec]
    by_cases hz : (v.cond (some c) z).1 = true
    · rw [if_pos hz]; exact ih
    · rw [if_neg hz]; exact keeps_some rfl
  | ifElse c s t =>
    have ih := exec_keeps v n s hl.1 (v.cond (some c) z).2
    have ih2 := exec_keeps v n t hl.2 (v.cond (some c) z).2
    simp only [tree, P.flow, exec]
    by_cases hz : (v.cond (some c) z).1 = true
    · rw [if_pos hz]; exact ih
    · rw [if_neg hz]; exact ih2
  | loop c s =>
    simp only [tree, P.flow, exec]
    exact while_keeps (fun _ => rfl) (exec_keeps v n s hl) (fun _ => rfl) n z
  | doLoop s c =>
    simp only [tree, P.flow, exec]
    exact until_keeps (fun _ => rfl) (exec_keeps v n s hl) n z
  | forLoop i c p s =>
    simp only [tree, P.flow, exec]
    rw [← effects_keeps v i z]
    cases c with
    | none => exact while_keeps (fun _ => rfl) (exec_keeps v n s hl) (effects_keeps v p) n _
    | some c => exact while_keeps (fun _ => rfl) (exec_keeps v n s hl) (effects_keeps v p) n _
  | each k w a s =>
    simp only [tree, P.flow, exec]
    exact while_keeps (fun _ => rfl) (exec_keeps v n s hl) (fun _ => rfl) n (z.1, v.start a z.2)
  | switch c b =>
    have h1 := from_keeps v n b hl (v.sel (some c) z).1 (v.sel (some c) z).2
    have h2 := dflt_keeps v n b hl (v.sel (some c) z).2
    have key : Keeps z.1 (pickSel (execFrom n ((treeB b).flow v) (v.sel (some c) z).1 (v.sel (some c) z).2)
        (execDflt n ((treeB b).flow v) (v.sel (some c) z).2) (v.sel (some c) z).2) := by
      cases hf : execFrom n ((treeB b).flow v) (v.sel (some c) z).1 (v.sel (some c) z).2 with
      | some r => exact h1 r hf
      | none =>
        cases hd : execDflt n ((treeB b).flow v) (v.sel (some c) z).2 with
        | some r => exact h2 r hd
        | none => exact keeps_some rfl
    simp only [tree, P.flow, exec]
    revert key
    generalize pickSel (execFrom n ((treeB b).flow v) (v.sel (some c) z).1 (v.sel (some c) z).2)
      (execDflt n ((treeB b).flow v) (v.sel (some c) z).2) (v.sel (some c) z).2 = q
    intro key
    cases q with
    | none => exact keeps_none
    | some r =>
      obtain ⟨o, y⟩ := r
      have hy : y.1 = z.1 := key _ rfl
      cases o <;> exact keeps_some hy
theorem list_keeps (v : Env σ ρ) (n : Nat) (l : SL) (hl : LevelL l) : ∀ z : Lv σ,
    Keeps z.1 (exec n ((treeL l).flow v) z) := by
  intro z
  cases l with
  | nil => exact keeps_some rfl
  | cons s l =>
    obtain ⟨he, hj, hs, hl⟩ := hl
    have ih := list_keeps v n l hl
    by_cases hk : leaks s = true
    · have hj : isJump s = true := by rcases hj with h | h; exact h; rw [h] at hk; cases hk
      cases s <;> simp [isJump] at hj
      · exact keeps_some rfl
      · exact keeps_some rfl
    · have ht : treeL (.cons s l) = .seq (tree s) (treeL l) := by
        cases s <;> first | (simp only [treeL]; rw [if_neg hk]; done) | (exact absurd he (by simp [isEmpty]))
      rw [ht]
      exact seq_keeps (exec_keeps v n s hs) ih z
theorem body_keeps (v : Env σ ρ) (n : Nat) (b : SB) (hl : LevelB b) : ∀ z : Lv σ,
    Keeps z.1 (execBody n ((treeB b).flow v) z) := by
  intro z
  cases b with
  | nil => exact keeps_some rfl
  | case h b => exact body_keeps v n b hl z
  | dflt b => exact body_keeps v n b hl z
  | stmt s b =>
    have ih := body_keeps v n b hl.2
    have h1 := exec_keeps v n s hl.1 z
    simp only [treeB, PB.flow, execBody]
    cases hr : exec n ((tree s).flow v) z with
    | none => exact keeps_none
    | some r =>
      obtain ⟨o, y⟩ := r
      have hy : y.1 = z.1 := h1 _ hr
      have key : Keeps z.1 (execBody n (PB.flow v (if leaks s = true then .stmt .skip (treeB b) else treeB b)) y) := by
        rw [← hy]
        by_cases hk : leaks s = true
        · rw [if_pos hk]; exact ih y
        · rw [if_neg hk]; exact ih y
      cases o <;> first | exact key | exact keeps_some hy
theorem from_keeps (v : Env σ ρ) (n : Nat) (b : SB) (hl : LevelB b) : ∀ (h : Word32) (z : Lv σ) (r : Option (Out ρ × Lv σ)),
    execFrom n ((treeB b).flow v) h z = some r → Keeps z.1 r := by
  intro h z r hr
  cases b with
  | nil => cases hr
  | case h' b =>
    simp only [treeB, PB.flow, execFrom] at hr
    by_cases hh : h' = h
    · rw [if_pos hh] at hr; cases hr; exact body_keeps v n b hl z
    · rw [if_neg hh] at hr; exact from_keeps v n b hl h z r hr
  | dflt b => exact from_keeps v n b hl h z r hr
  | stmt s b =>
    simp only [treeB, PB.flow, execFrom] at hr
    by_cases hk : leaks s = true
    · rw [if_pos hk] at hr; exact from_keeps v n b hl.2 h z r hr
    · rw [if_neg hk] at hr; exact from_keeps v n b hl.2 h z r hr
theorem dflt_keeps (v : Env σ ρ) (n : Nat) (b : SB) (hl : LevelB b) : ∀ (z : Lv σ) (r : Option (Out ρ × Lv σ)),
    execDflt n ((treeB b).flow v) z = some r → Keeps z.1 r := by
  intro z r hr
  cases b with
  | nil => cases hr
  | case h' b => exact dflt_keeps v n b hl z r hr
  | dflt b =>
    simp only [treeB, PB.flow, execDflt] at hr
    cases hr; exact body_keeps v n b hl z
  | stmt s b =>
    simp only [treeB, PB.flow, execDflt] at hr
    by_cases hk : leaks s = true
    · rw [if_pos hk] at hr; exact dflt_keeps v n b hl.2 z r hr
    · rw [if_neg hk] at hr; exact dflt_keeps v n b hl.2 z r hr
end

end Wrench.Stmts
