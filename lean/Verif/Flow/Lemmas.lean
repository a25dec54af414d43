import Verif.Flow.Spec

namespace Wrench.Flow

open Wrench

variable {σ ρ : Type}

/-! ### Compilation only adds code and targets -/

/-- `k'` extends `k`. -/
structure Ext (k k' : CS σ ρ) : Prop where
  code : k.code <+: k'.code
  tgl : k.tg.length ≤ k'.tg.length
  tg : ∀ i < k.tg.length, k'.tg[i]? = k.tg[i]?
  cs : k'.cs = k.cs
  bs : k'.bs = k.bs

theorem Ext.refl (k : CS σ ρ) : Ext k k := ⟨List.prefix_refl _, Nat.le_refl _, fun _ _ => rfl, rfl, rfl⟩

theorem Ext.trans {a b c : CS σ ρ} (h : Ext a b) (h' : Ext b c) : Ext a c :=
  ⟨h.code.trans h'.code, Nat.le_trans h.tgl h'.tgl,
   fun i hi => (h'.tg i (Nat.lt_of_lt_of_le hi h.tgl)).trans (h.tg i hi),
   h'.cs.trans h.cs, h'.bs.trans h.bs⟩

/-- As `Ext`, without the target stacks, and leaving alone the targets below `n`. -/
structure Grow (n : Nat) (k k' : CS σ ρ) : Prop where
  code : k.code <+: k'.code
  tgl : k.tg.length ≤ k'.tg.length
  tg : ∀ i < n, k'.tg[i]? = k.tg[i]?

theorem Grow.refl (n : Nat) (k : CS σ ρ) : Grow n k k := ⟨List.prefix_refl _, Nat.le_refl _, fun _ _ => rfl⟩

theorem Grow.trans {n : Nat} {a b c : CS σ ρ} (h : Grow n a b) (h' : Grow n b c) : Grow n a c :=
  ⟨h.code.trans h'.code, Nat.le_trans h.tgl h'.tgl, fun i hi => (h'.tg i hi).trans (h.tg i hi)⟩

theorem Ext.grow {n : Nat} {a b : CS σ ρ} (h : Ext a b) (hn : n ≤ a.tg.length) : Grow n a b :=
  ⟨h.code, h.tgl, fun i hi => h.tg i (by omega)⟩

theorem grow_new {n : Nat} (k : CS σ ρ) (hn : n ≤ k.tg.length) : Grow n k k.new :=
  ⟨List.prefix_refl _, by simp [CS.new], fun i hi => by simp only [CS.new]; rw [List.getElem?_append_left (by omega)]⟩

theorem grow_emit {n : Nat} (k : CS σ ρ) (i : Instr σ ρ) : Grow n k (k.emit i) :=
  ⟨List.prefix_append _ _, Nat.le_refl _, fun _ _ => rfl⟩

theorem grow_emits {n : Nat} (k : CS σ ρ) (l : List (Instr σ ρ)) : Grow n k (k.emits l) :=
  ⟨List.prefix_append _ _, Nat.le_refl _, fun _ _ => rfl⟩

theorem grow_place {n : Nat} (k : CS σ ρ) (i : Nat) (h : n ≤ i) : Grow n k (k.place i) :=
  ⟨List.prefix_refl _, by simp [CS.place], fun j hj => by
    simp only [CS.place]; rw [List.getElem?_set_ne (by omega)]⟩

@[simp] theorem new_tgl (k : CS σ ρ) : k.new.tg.length = k.tg.length + 1 := by simp [CS.new]
@[simp] theorem place_tgl (k : CS σ ρ) (i : Nat) : (k.place i).tg.length = k.tg.length := by simp [CS.place]
@[simp] theorem emit_tg (k : CS σ ρ) (i : Instr σ ρ) : (k.emit i).tg = k.tg := rfl
@[simp] theorem emits_tg (k : CS σ ρ) (l : List (Instr σ ρ)) : (k.emits l).tg = k.tg := rfl
@[simp] theorem new_code (k : CS σ ρ) : k.new.code = k.code := rfl
@[simp] theorem place_code (k : CS σ ρ) (i : Nat) : (k.place i).code = k.code := rfl
@[simp] theorem emit_code (k : CS σ ρ) (i : Instr σ ρ) : (k.emit i).code = k.code ++ [i] := rfl
@[simp] theorem emits_code (k : CS σ ρ) (l : List (Instr σ ρ)) : (k.emits l).code = k.code ++ l := rfl

@[simp] theorem new_bs (k : CS σ ρ) : k.new.bs = k.bs := rfl
@[simp] theorem new_cs (k : CS σ ρ) : k.new.cs = k.cs := rfl
@[simp] theorem place_bs (k : CS σ ρ) (i : Nat) : (k.place i).bs = k.bs := rfl
@[simp] theorem place_cs (k : CS σ ρ) (i : Nat) : (k.place i).cs = k.cs := rfl
@[simp] theorem emit_bs (k : CS σ ρ) (i : Instr σ ρ) : (k.emit i).bs = k.bs := rfl
@[simp] theorem emit_cs (k : CS σ ρ) (i : Instr σ ρ) : (k.emit i).cs = k.cs := rfl

theorem grow_stk {n : Nat} (k : CS σ ρ) (c b : List Nat) : Grow n k { k with cs := c, bs := b } :=
  ⟨List.prefix_refl _, Nat.le_refl _, fun _ _ => rfl⟩

theorem Grow.ext {k k' : CS σ ρ} (h : Grow k.tg.length k k') (hc : k'.cs = k.cs) (hb : k'.bs = k.bs) :
    Ext k k' := ⟨h.code, h.tgl, h.tg, hc, hb⟩

/-- What parsing the body of a switch leaves alone. -/
structure BExt (dt : Nat) (w w' : SwS σ ρ) : Prop where
  code : w.k.code <+: w'.k.code
  tgl : w.k.tg.length ≤ w'.k.tg.length
  tg : ∀ i < w.k.tg.length, i ≠ dt → w'.k.tg[i]? = w.k.tg[i]?
  cs : w'.k.cs = w.k.cs
  bs : w'.k.bs = w.k.bs

/-- Context at the start of the body of a `switch`. -/
def swStart (sel : σ → Word32 × σ) (k : CS σ ρ) : CS σ ρ :=
  ((k.emit (.push sel)).new.new.new).emit (.jmp (k.tg.length + 2))

/-- Context at the start of the body of a `for`. -/
def forStart (init : List (σ → σ)) (c : Option (σ → Bool × σ)) (k : CS σ ρ) : CS σ ρ :=
  let k1 := ((k.new.new.emits (init.map .act)).new).place (k.tg.length + 2)
  match c with
  | none => k1
  | some c => k1.emit (.bz c (k.tg.length + 1))

theorem forStart_grow (init : List (σ → σ)) (c : Option (σ → Bool × σ)) (k : CS σ ρ) :
    Grow k.tg.length k (forStart init c k) ∧ (forStart init c k).tg.length = k.tg.length + 3 := by
  have h : Grow k.tg.length k (((k.new.new.emits (init.map .act)).new).place (k.tg.length + 2)) :=
    (grow_new _ (Nat.le_refl _)).trans ((grow_new _ (by simp)).trans ((grow_emits _ _).trans
      ((grow_new _ (by simp <;> omega)).trans (grow_place _ _ (by omega)))))
  unfold forStart
  cases c with
  | none => exact ⟨h, by simp⟩
  | some c => exact ⟨h.trans (grow_emit _ _), by simp⟩

theorem prefix_eq_of_length {α : Type} {a b : List α} (h : a <+: b) (hl : a.length = b.length) : a = b := by
  obtain ⟨t, rfl⟩ := h
  have : t.length = 0 := by simp at hl; exact List.length_eq_zero_iff.mpr hl
  rw [List.length_eq_zero_iff.mp this, List.append_nil]

mutual
theorem compile_ext : ∀ (s : Stmt σ ρ) (k k' : CS σ ρ), compile s k = some k' → Ext k k'
  | .skip, k, k', h => by simp only [compile, Option.some.injEq] at h; subst h; exact Ext.refl _
  | .act f, k, k', h => by
    simp only [compile, Option.some.injEq] at h; subst h
    exact (grow_emit _ _).ext rfl rfl
  | .ret f, k, k', h => by
    simp only [compile, Option.some.injEq] at h; subst h
    exact (grow_emit _ _).ext rfl rfl
  | .brk, k, k', h => by
    simp only [compile, Option.map_eq_some_iff] at h
    obtain ⟨b, _, rfl⟩ := h
    exact (grow_emit _ _).ext rfl rfl
  | .cont, k, k', h => by
    simp only [compile, Option.map_eq_some_iff] at h
    obtain ⟨b, _, rfl⟩ := h
    exact (grow_emit _ _).ext rfl rfl
  | .seq s t, k, k', h => by
    simp only [compile, Option.bind_eq_some_iff] at h
    obtain ⟨m, h1, h2⟩ := h
    exact (compile_ext s _ _ h1).trans (compile_ext t _ _ h2)
  | .ifThen c s, k, k', h => by
    simp only [compile, Option.map_eq_some_iff] at h
    obtain ⟨m, h1, rfl⟩ := h
    have e := compile_ext s _ _ h1
    refine Grow.ext ?_ e.cs e.bs
    exact (grow_new _ (Nat.le_refl _)).trans ((grow_emit _ _).trans ((e.grow (by simp)).trans (grow_place _ _ (Nat.le_refl _))))
  | .ifElse c s t, k, k', h => by
    simp only [compile, Option.map_eq_some_iff, Option.bind_eq_some_iff] at h
    obtain ⟨m, h1, m2, h2, rfl⟩ := h
    have e := compile_ext s _ _ h1
    have e2 := compile_ext t _ _ h2
    have hl := e.tgl
    have hl2 := e2.tgl
    simp at hl hl2
    refine Grow.ext ?_ (e2.cs.trans e.cs) (e2.bs.trans e.bs)
    exact (grow_new _ (Nat.le_refl _)).trans ((grow_emit _ _).trans ((e.grow (by simp)).trans
      ((grow_new _ (by omega)).trans ((grow_emit _ _).trans ((grow_place _ _ (Nat.le_refl _)).trans
      ((e2.grow (by simp <;> omega)).trans (grow_place _ _ (by omega))))))))
  | .loop c s, k, k', h => by
    simp only [compile, Option.map_eq_some_iff] at h
    obtain ⟨m, h1, rfl⟩ := h
    have e := compile_ext s _ _ h1
    refine Grow.ext ?_ rfl rfl
    exact (grow_new _ (Nat.le_refl _)).trans ((grow_place _ _ (Nat.le_refl _)).trans ((grow_new _ (by simp)).trans
      ((grow_emit _ _).trans ((grow_stk _ _ _).trans ((e.grow (by simp <;> omega)).trans ((grow_emit _ _).trans
      ((grow_place _ _ (by omega)).trans (grow_stk _ _ _))))))))
  | .doLoop s c, k, k', h => by
    simp only [compile, Option.map_eq_some_iff] at h
    obtain ⟨m, h1, rfl⟩ := h
    have e := compile_ext s _ _ h1
    refine Grow.ext ?_ rfl rfl
    exact (grow_new _ (Nat.le_refl _)).trans ((grow_new _ (by simp)).trans ((grow_new _ (by simp <;> omega)).trans
      ((grow_place _ _ (by omega)).trans ((grow_stk _ _ _).trans ((e.grow (by simp <;> omega)).trans
      ((grow_place _ _ (by omega)).trans ((grow_emit _ _).trans ((grow_emit _ _).trans
      ((grow_place _ _ (by omega)).trans (grow_stk _ _ _))))))))))
  | .forLoop init c post s, k, k', h => by
    simp only [compile, Option.map_eq_some_iff] at h
    obtain ⟨m, h1, rfl⟩ := h
    replace h1 : compile s { forStart init c k with cs := k.tg.length :: k.cs, bs := (k.tg.length + 1) :: k.bs } = some m := h1
    have e := compile_ext s _ _ h1
    obtain ⟨g, gl⟩ := forStart_grow init c k
    refine Grow.ext ?_ rfl rfl
    exact g.trans ((grow_stk _ _ _).trans ((e.grow (by simp [gl] <;> omega)).trans
      ((grow_place _ _ (by omega)).trans ((grow_emits _ _).trans ((grow_emit _ _).trans
      ((grow_place _ _ (by omega)).trans (grow_stk _ _ _)))))))
  | .each st nx s, k, k', h => by
    simp only [compile, Option.map_eq_some_iff] at h
    obtain ⟨m, h1, rfl⟩ := h
    have e := compile_ext s _ _ h1
    refine Grow.ext ?_ rfl rfl
    exact (grow_new _ (Nat.le_refl _)).trans ((grow_new _ (by simp)).trans ((grow_emit _ _).trans
      ((grow_new _ (by simp <;> omega)).trans
      ((grow_place _ _ (by omega)).trans ((grow_emit _ _).trans ((grow_stk _ _ _).trans ((e.grow (by simp <;> omega)).trans
      ((grow_emit _ _).trans ((grow_place _ _ (by omega)).trans (grow_stk _ _ _))))))))))
  | .switch sel b, k, k', h => by
    simp only [compile, Option.map_eq_some_iff] at h
    obtain ⟨w, h1, rfl⟩ := h
    have e := body_ext (k.tg.length) b _ _ h1
    have g0 : Grow k.tg.length k (swStart sel k) :=
      (grow_emit _ _).trans ((grow_new _ (by simp)).trans ((grow_new _ (by simp <;> omega)).trans
        ((grow_new _ (by simp <;> omega)).trans (grow_emit _ _))))
    have g1 : Grow k.tg.length (swStart sel k) w.k :=
      ⟨e.code, e.tgl, fun i hi => e.tg i (by simp <;> omega) (by omega)⟩
    have hl := e.tgl
    simp at hl
    split
    · rename_i hlen
      have hc := prefix_eq_of_length e.code hlen
      refine ⟨?_, by simp <;> omega, ?_, rfl, rfl⟩
      · rw [← hc]; simp
      · intro i hi
        have := (g0.trans g1).tg i hi
        rw [← this]
        simp only [List.dropLast_eq_take, List.getElem?_take]
        rw [if_pos (by omega)]
    · refine Grow.ext ?_ rfl rfl
      refine (g0.trans g1).trans ?_
      have hp : ∀ q : CS σ ρ, Grow k.tg.length q { (((q.place (k.tg.length+2)).emit (.sw w.cases w.d)).place (k.tg.length+1)) with cs := k.cs, bs := k.bs } :=
        fun q => (grow_place _ _ (by omega)).trans ((grow_emit _ _).trans ((grow_place _ _ (by omega)).trans (grow_stk _ _ _)))
      by_cases hj : w.k.endsJmp = true
      · rw [if_pos hj]; exact hp _
      · rw [if_neg hj]; exact (grow_emit _ _).trans (hp _)
theorem body_ext : ∀ (dt : Nat) (b : Body σ ρ) (w w' : SwS σ ρ), compileBody dt b w = some w' → BExt dt w w'
  | dt, .nil, w, w', h => by
    simp only [compileBody, Option.some.injEq] at h; subst h
    exact ⟨List.prefix_refl _, Nat.le_refl _, fun _ _ _ => rfl, rfl, rfl⟩
  | dt, .case hh b, w, w', h => by
    simp only [compileBody] at h
    split at h
    · exact absurd h (by simp)
    · have e := body_ext dt b _ _ h
      exact ⟨e.code, e.tgl, e.tg, e.cs, e.bs⟩
  | dt, .dflt b, w, w', h => by
    simp only [compileBody] at h
    split at h
    · exact absurd h (by simp)
    · have e := body_ext dt b _ _ h
      have hl := e.tgl
      simp at hl
      refine ⟨e.code, hl, fun i hi hd => ?_, e.cs, e.bs⟩
      rw [e.tg i (by simpa using hi) hd]
      simp only [CS.place]; rw [List.getElem?_set_ne (by omega)]
  | dt, .stmt s b, w, w', h => by
    simp only [compileBody] at h
    split at h
    · exact absurd h (by simp)
    · simp only [Option.bind_eq_some_iff] at h
      obtain ⟨m, h1, h2⟩ := h
      have e1 := compile_ext s _ _ h1
      have e := body_ext dt b _ _ h2
      exact ⟨e1.code.trans e.code, Nat.le_trans e1.tgl e.tgl,
        fun i hi hd => (e.tg i (Nat.lt_of_lt_of_le hi e1.tgl) hd).trans (e1.tg i hi),
        e.cs.trans e1.cs, e.bs.trans e1.bs⟩
end

end Wrench.Flow
