import Verif.Goto.Spec

namespace Wrench.Goto

open Wrench

variable {σ ρ : Type}

/-! ### Compilation only adds code, targets and labels -/

/-- As `k`, and more, leaving alone the targets below `n`. -/
structure Grow (n : Nat) (k k' : CS σ ρ) : Prop where
  code : k.code <+: k'.code
  tgl : k.tg.length ≤ k'.tg.length
  tg : ∀ i < n, k'.tg[i]? = k.tg[i]?

theorem Grow.trans {n : Nat} {a b c : CS σ ρ} (h : Grow n a b) (h' : Grow n b c) : Grow n a c :=
  ⟨h.code.trans h'.code, Nat.le_trans h.tgl h'.tgl, fun i hi => (h'.tg i hi).trans (h.tg i hi)⟩

theorem Grow.mono {n m : Nat} {a b : CS σ ρ} (h : Grow n a b) (hn : m ≤ n) : Grow m a b :=
  ⟨h.code, h.tgl, fun i hi => h.tg i (by omega)⟩

theorem grow_new {n : Nat} (k : CS σ ρ) (hn : n ≤ k.tg.length) : Grow n k k.new :=
  ⟨List.prefix_refl _, by simp [CS.new], fun i hi => by simp only [CS.new]; rw [List.getElem?_append_left (by omega)]⟩

theorem grow_emit {n : Nat} (k : CS σ ρ) (i : Instr σ ρ) : Grow n k (k.emit i) :=
  ⟨List.prefix_append _ _, Nat.le_refl _, fun _ _ => rfl⟩

theorem grow_emits {n : Nat} (k : CS σ ρ) (l : List (Instr σ ρ)) : Grow n k (k.emits l) :=
  ⟨List.prefix_append _ _, Nat.le_refl _, fun _ _ => rfl⟩

theorem grow_place {n : Nat} (k : CS σ ρ) (i : Nat) (h : n ≤ i) : Grow n k (k.place i) :=
  ⟨List.prefix_refl _, by simp [CS.place], fun j hj => by
    simp only [CS.place]; rw [List.getElem?_set_ne (by omega)]⟩

theorem grow_stk {n : Nat} (k : CS σ ρ) (c b : List Nat) : Grow n k { k with cs := c, bs := b } :=
  ⟨List.prefix_refl _, Nat.le_refl _, fun _ _ => rfl⟩

@[simp] theorem new_tgl (k : CS σ ρ) : k.new.tg.length = k.tg.length + 1 := by simp [CS.new]
@[simp] theorem place_tgl (k : CS σ ρ) (i : Nat) : (k.place i).tg.length = k.tg.length := by simp [CS.place]
@[simp] theorem emit_tg (k : CS σ ρ) (i : Instr σ ρ) : (k.emit i).tg = k.tg := rfl
@[simp] theorem emits_tg (k : CS σ ρ) (l : List (Instr σ ρ)) : (k.emits l).tg = k.tg := rfl
@[simp] theorem new_code (k : CS σ ρ) : k.new.code = k.code := rfl
@[simp] theorem place_code (k : CS σ ρ) (i : Nat) : (k.place i).code = k.code := rfl
@[simp] theorem emit_code (k : CS σ ρ) (i : Instr σ ρ) : (k.emit i).code = k.code ++ [i] := rfl
@[simp] theorem emits_code (k : CS σ ρ) (l : List (Instr σ ρ)) : (k.emits l).code = k.code ++ l := rfl
@[simp] theorem new_lab (k : CS σ ρ) : k.new.lab = k.lab := rfl
@[simp] theorem place_lab (k : CS σ ρ) (i : Nat) : (k.place i).lab = k.lab := rfl
@[simp] theorem emit_lab (k : CS σ ρ) (i : Instr σ ρ) : (k.emit i).lab = k.lab := rfl
@[simp] theorem emits_lab (k : CS σ ρ) (l : List (Instr σ ρ)) : (k.emits l).lab = k.lab := rfl
@[simp] theorem new_bs (k : CS σ ρ) : k.new.bs = k.bs := rfl
@[simp] theorem new_cs (k : CS σ ρ) : k.new.cs = k.cs := rfl
@[simp] theorem place_bs (k : CS σ ρ) (i : Nat) : (k.place i).bs = k.bs := rfl
@[simp] theorem place_cs (k : CS σ ρ) (i : Nat) : (k.place i).cs = k.cs := rfl
@[simp] theorem emit_bs (k : CS σ ρ) (i : Instr σ ρ) : (k.emit i).bs = k.bs := rfl
@[simp] theorem emit_cs (k : CS σ ρ) (i : Instr σ ρ) : (k.emit i).cs = k.cs := rfl

theorem forStart_grow (init : List (σ → σ)) (c : Option (σ → Bool × σ)) (k : CS σ ρ) :
    Grow k.tg.length k (forStart init c k) ∧ (forStart init c k).tg.length = k.tg.length + 3 ∧
    (forStart init c k).lab = k.lab ∧ (forStart init c k).cs = k.cs ∧ (forStart init c k).bs = k.bs := by
  have h : Grow k.tg.length k (((k.new.new.emits (init.map .act)).new).place (k.tg.length + 2)) :=
    (grow_new _ (Nat.le_refl _)).trans ((grow_new _ (by simp)).trans ((grow_emits _ _).trans
      ((grow_new _ (by simp <;> omega)).trans (grow_place _ _ (by omega)))))
  unfold forStart
  cases c with
  | none => exact ⟨h, by simp, rfl, rfl, rfl⟩
  | some c => exact ⟨h.trans (grow_emit _ _), by simp, rfl, rfl, rfl⟩

theorem compile_grow : ∀ (s : Stmt σ ρ) (k k' : CS σ ρ), compile s k = some k' →
    Grow k.tg.length k k' ∧ k'.cs = k.cs ∧ k'.bs = k.bs
  | .skip, k, k', h => by
    simp only [compile, Option.some.injEq] at h; subst h
    exact ⟨⟨List.prefix_refl _, Nat.le_refl _, fun _ _ => rfl⟩, rfl, rfl⟩
  | .act f, k, k', h => by
    simp only [compile, Option.some.injEq] at h; subst h
    exact ⟨grow_emit _ _, rfl, rfl⟩
  | .ret f, k, k', h => by
    simp only [compile, Option.some.injEq] at h; subst h
    exact ⟨grow_emit _ _, rfl, rfl⟩
  | .goto f, k, k', h => by
    simp only [compile, Option.some.injEq] at h; subst h
    exact ⟨grow_emit _ _, rfl, rfl⟩
  | .label f, k, k', h => by
    simp only [compile, Option.some.injEq] at h; subst h
    exact ⟨⟨List.prefix_refl _, Nat.le_refl _, fun _ _ => rfl⟩, rfl, rfl⟩
  | .brk, k, k', h => by
    simp only [compile, Option.map_eq_some_iff] at h
    obtain ⟨b, _, rfl⟩ := h
    exact ⟨grow_emit _ _, rfl, rfl⟩
  | .cont, k, k', h => by
    simp only [compile, Option.map_eq_some_iff] at h
    obtain ⟨b, _, rfl⟩ := h
    exact ⟨grow_emit _ _, rfl, rfl⟩
  | .seq s t, k, k', h => by
    simp only [compile, Option.bind_eq_some_iff] at h
    obtain ⟨m, h1, h2⟩ := h
    obtain ⟨a, b, c⟩ := compile_grow s _ _ h1
    obtain ⟨a', b', c'⟩ := compile_grow t _ _ h2
    exact ⟨a.trans (a'.mono a.tgl), b'.trans b, c'.trans c⟩
  | .ifThen c s, k, k', h => by
    simp only [compile, Option.map_eq_some_iff] at h
    obtain ⟨m, h1, rfl⟩ := h
    obtain ⟨e, ec, eb⟩ := compile_grow s _ _ h1
    refine ⟨?_, ec, eb⟩
    exact (grow_new _ (Nat.le_refl _)).trans ((grow_emit _ _).trans ((e.mono (by simp)).trans (grow_place _ _ (Nat.le_refl _))))
  | .ifElse c s t, k, k', h => by
    simp only [compile, Option.map_eq_some_iff, Option.bind_eq_some_iff] at h
    obtain ⟨m, h1, m2, h2, rfl⟩ := h
    obtain ⟨e, ec, eb⟩ := compile_grow s _ _ h1
    obtain ⟨e2, ec2, eb2⟩ := compile_grow t _ _ h2
    have hl := e.tgl
    have hl2 := e2.tgl
    simp at hl hl2
    refine ⟨?_, ec2.trans ec, eb2.trans eb⟩
    exact (grow_new _ (Nat.le_refl _)).trans ((grow_emit _ _).trans ((e.mono (by simp)).trans
      ((grow_new _ (by omega)).trans ((grow_emit _ _).trans ((grow_place _ _ (Nat.le_refl _)).trans
      ((e2.mono (by simp <;> omega)).trans (grow_place _ _ (by omega))))))))
  | .loop c s, k, k', h => by
    simp only [compile, Option.map_eq_some_iff] at h
    obtain ⟨m, h1, rfl⟩ := h
    obtain ⟨e, -, -⟩ := compile_grow s _ _ h1
    refine ⟨?_, rfl, rfl⟩
    exact (grow_new _ (Nat.le_refl _)).trans ((grow_place _ _ (Nat.le_refl _)).trans ((grow_new _ (by simp)).trans
      ((grow_emit _ _).trans ((grow_stk _ _ _).trans ((e.mono (by simp <;> omega)).trans ((grow_emit _ _).trans
      ((grow_place _ _ (by omega)).trans (grow_stk _ _ _))))))))
  | .doLoop s c, k, k', h => by
    simp only [compile, Option.map_eq_some_iff] at h
    obtain ⟨m, h1, rfl⟩ := h
    obtain ⟨e, -, -⟩ := compile_grow s _ _ h1
    refine ⟨?_, rfl, rfl⟩
    exact (grow_new _ (Nat.le_refl _)).trans ((grow_new _ (by simp)).trans ((grow_new _ (by simp <;> omega)).trans
      ((grow_place _ _ (by omega)).trans ((grow_stk _ _ _).trans ((e.mono (by simp <;> omega)).trans
      ((grow_place _ _ (by omega)).trans ((grow_emit _ _).trans ((grow_emit _ _).trans
      ((grow_place _ _ (by omega)).trans (grow_stk _ _ _))))))))))
  | .forLoop init c post s, k, k', h => by
    simp only [compile, Option.map_eq_some_iff] at h
    obtain ⟨m, h1, rfl⟩ := h
    obtain ⟨e, -, -⟩ := compile_grow s _ _ h1
    obtain ⟨g, gl, -, -, -⟩ := forStart_grow init c k
    refine ⟨?_, rfl, rfl⟩
    exact g.trans ((grow_stk _ _ _).trans ((e.mono (by simp [gl] <;> omega)).trans
      ((grow_place _ _ (by omega)).trans ((grow_emits _ _).trans ((grow_emit _ _).trans
      ((grow_place _ _ (by omega)).trans (grow_stk _ _ _)))))))

/-! ### The code of a statement -/

/-- The code `l` stands at `p`. -/
def Block (C : List (Instr σ ρ)) (p : Nat) (l : List (Instr σ ρ)) : Prop :=
  ∀ i < l.length, C[p + i]? = l[i]?

/-- The code between `p` and `e` is that of the statement; `b` and `c` are the break and continue
targets in force; `ls` the positions of its labels. -/
def At (C : List (Instr σ ρ)) (T : List Nat) : Stmt σ ρ → (p e : Nat) → (b c : Option Nat) →
    (ls : List (Word32 × Nat)) → Prop
  | .skip, p, e, _, _, ls => e = p ∧ ls = []
  | .act f, p, e, _, _, ls => C[p]? = some (.act f) ∧ e = p + 1 ∧ ls = []
  | .seq s t, p, e, b, c, ls => ∃ m l1 l2, At C T s p m b c l1 ∧ At C T t m e b c l2 ∧ ls = l1 ++ l2
  | .ifThen g s, p, e, b, c, ls => ∃ id, C[p]? = some (.bz g id) ∧ T.getD id 0 = e ∧ At C T s (p + 1) e b c ls
  | .ifElse g s t, p, e, b, c, ls => ∃ id id2 m l1 l2, C[p]? = some (.bz g id) ∧ T.getD id 0 = m + 1 ∧
      At C T s (p + 1) m b c l1 ∧ C[m]? = some (.jmp id2) ∧ T.getD id2 0 = e ∧ At C T t (m + 1) e b c l2 ∧
      ls = l1 ++ l2
  | .loop g s, p, e, _, _, ls => ∃ ct br m, C[p]? = some (.bz g br) ∧ T.getD br 0 = e ∧ T.getD ct 0 = p ∧
      At C T s (p + 1) m (some br) (some ct) ls ∧ C[m]? = some (.jmp ct)
  | .doLoop s g, p, e, _, _, ls => ∃ ct br top m, At C T s p m (some br) (some ct) ls ∧ T.getD ct 0 = m ∧
      C[m]? = some (.bz g br) ∧ C[m + 1]? = some (.jmp top) ∧ T.getD top 0 = p ∧ T.getD br 0 = e
  | .forLoop init g post s, p, e, _, _, ls => ∃ ct br top q m, Block C p (init.map .act) ∧
      T.getD top 0 = p + init.length ∧
      (match g with
        | none => q = p + init.length
        | some g => C[p + init.length]? = some (.bz g br) ∧ q = p + init.length + 1) ∧
      At C T s q m (some br) (some ct) ls ∧ T.getD ct 0 = m ∧ Block C m (post.map .act) ∧
      C[m + post.length]? = some (.jmp top) ∧ T.getD br 0 = e
  | .brk, p, e, b, _, ls => ∃ id, b = some id ∧ C[p]? = some (.jmp id) ∧ e = p + 1 ∧ ls = []
  | .cont, p, e, _, c, ls => ∃ id, c = some id ∧ C[p]? = some (.jmp id) ∧ e = p + 1 ∧ ls = []
  | .ret r, p, e, _, _, ls => C[p]? = some (.ret r) ∧ e = p + 1 ∧ ls = []
  | .goto h, p, e, _, _, ls => C[p]? = some (.goto h) ∧ e = p + 1 ∧ ls = []
  | .label h, p, e, _, _, ls => e = p ∧ ls = [(h, p)]

/-- The final code contains the code of `k'` and places the targets from `lo` on as `k'` does. -/
structure Agree (lo : Nat) (k' : CS σ ρ) (C : List (Instr σ ρ)) (T : List Nat) : Prop where
  code : k'.code <+: C
  tg : ∀ i, lo ≤ i → i < k'.tg.length → T[i]? = k'.tg[i]?

theorem Agree.of_grow {lo : Nat} {k k' : CS σ ρ} {C : List (Instr σ ρ)} {T : List Nat} (h : Agree lo k' C T)
    (e : Grow k.tg.length k k') : Agree lo k C T :=
  ⟨e.code.trans h.code, fun i hi hk => (h.tg i hi (Nat.lt_of_lt_of_le hk e.tgl)).trans (e.tg i hk)⟩

theorem Agree.lo {lo lo' : Nat} {k : CS σ ρ} {C : List (Instr σ ρ)} {T : List Nat} (h : Agree lo k C T)
    (hl : lo ≤ lo') : Agree lo' k C T := ⟨h.code, fun i hi hk => h.tg i (Nat.le_trans hl hi) hk⟩

theorem Agree.unplace {lo id : Nat} {k : CS σ ρ} {C : List (Instr σ ρ)} {T : List Nat}
    (h : Agree lo (k.place id) C T) (hi : id < lo) : Agree lo k C T :=
  ⟨h.code, fun i hl hk => by
    rw [h.tg i hl (by simpa using hk)]
    simp only [CS.place]; rw [List.getElem?_set_ne (by omega)]⟩

theorem Agree.unemit {lo : Nat} {i : Instr σ ρ} {k : CS σ ρ} {C : List (Instr σ ρ)} {T : List Nat}
    (h : Agree lo (k.emit i) C T) : Agree lo k C T :=
  ⟨(List.prefix_append _ _).trans h.code, h.tg⟩

theorem Agree.unemits {lo : Nat} {l : List (Instr σ ρ)} {k : CS σ ρ} {C : List (Instr σ ρ)} {T : List Nat}
    (h : Agree lo (k.emits l) C T) : Agree lo k C T :=
  ⟨(List.prefix_append _ _).trans h.code, h.tg⟩

theorem Agree.unstk {lo : Nat} {c b : List Nat} {k : CS σ ρ} {C : List (Instr σ ρ)} {T : List Nat}
    (h : Agree lo { k with cs := c, bs := b } C T) : Agree lo k C T := ⟨h.code, h.tg⟩

theorem getD_of {T : List Nat} {i v : Nat} (h : T[i]? = some v) : T.getD i 0 = v := by
  simp [List.getD_eq_getElem?_getD, h]

theorem Agree.placed {lo id : Nat} {k : CS σ ρ} {C : List (Instr σ ρ)} {T : List Nat}
    (h : Agree lo (k.place id) C T) (hl : lo ≤ id) (hk : id < k.tg.length) : T.getD id 0 = k.code.length := by
  refine getD_of ?_
  rw [h.tg id hl (by simpa using hk)]
  simp [CS.place, hk]

theorem fetch {i : Instr σ ρ} {l C : List (Instr σ ρ)} (h : l ++ [i] <+: C) : C[l.length]? = some i := by
  obtain ⟨t, ht⟩ := h
  rw [← ht]
  simp

theorem block {l' l C : List (Instr σ ρ)} (h : l ++ l' <+: C) : Block C l.length l' := by
  obtain ⟨t, ht⟩ := h
  intro i hi
  rw [← ht]
  simp only [List.append_assoc]
  rw [List.getElem?_append_right (by omega), List.getElem?_append_left (by omega)]
  congr 1
  omega

/-- What the compiler emits for a statement is its code. -/
theorem compile_at : ∀ (s : Stmt σ ρ) (k k' : CS σ ρ), compile s k = some k' →
    ∃ ls, k'.lab = k.lab ++ ls ∧ ∀ C T, Agree k.tg.length k' C T →
      At C T s k.code.length k'.code.length k.bs.head? k.cs.head? ls
  | .skip, k, k', h => by
    simp only [compile, Option.some.injEq] at h; subst h
    exact ⟨[], by simp, fun C T _ => ⟨rfl, rfl⟩⟩
  | .act f, k, k', h => by
    simp only [compile, Option.some.injEq] at h; subst h
    exact ⟨[], by simp, fun C T a => ⟨fetch a.code, by simp, rfl⟩⟩
  | .ret f, k, k', h => by
    simp only [compile, Option.some.injEq] at h; subst h
    exact ⟨[], by simp, fun C T a => ⟨fetch a.code, by simp, rfl⟩⟩
  | .goto f, k, k', h => by
    simp only [compile, Option.some.injEq] at h; subst h
    exact ⟨[], by simp, fun C T a => ⟨fetch a.code, by simp, rfl⟩⟩
  | .label f, k, k', h => by
    simp only [compile, Option.some.injEq] at h; subst h
    exact ⟨_, rfl, fun C T a => ⟨rfl, rfl⟩⟩
  | .brk, k, k', h => by
    simp only [compile, Option.map_eq_some_iff] at h
    obtain ⟨b, hb, rfl⟩ := h
    exact ⟨[], by simp, fun C T a => ⟨b, hb, fetch a.code, by simp, rfl⟩⟩
  | .cont, k, k', h => by
    simp only [compile, Option.map_eq_some_iff] at h
    obtain ⟨b, hb, rfl⟩ := h
    exact ⟨[], by simp, fun C T a => ⟨b, hb, fetch a.code, by simp, rfl⟩⟩
  | .seq s t, k, k', h => by
    simp only [compile, Option.bind_eq_some_iff] at h
    obtain ⟨m, h1, h2⟩ := h
    obtain ⟨g1, gc, gb⟩ := compile_grow s _ _ h1
    obtain ⟨g2, -, -⟩ := compile_grow t _ _ h2
    obtain ⟨l1, e1, a1⟩ := compile_at s _ _ h1
    obtain ⟨l2, e2, a2⟩ := compile_at t _ _ h2
    refine ⟨l1 ++ l2, by rw [e2, e1, List.append_assoc], fun C T a => ⟨_, l1, l2, a1 C T (a.of_grow g2), ?_, rfl⟩⟩
    have := a2 C T (a.lo g1.tgl)
    rw [gc, gb] at this
    exact this
  | .ifThen c s, k, k', h => by
    simp only [compile, Option.map_eq_some_iff] at h
    obtain ⟨m, h1, rfl⟩ := h
    obtain ⟨g, -, -⟩ := compile_grow s _ _ h1
    obtain ⟨ls, e1, a1⟩ := compile_at s _ _ h1
    have gl := g.tgl
    simp at gl
    refine ⟨ls, e1, fun C T a => ⟨k.tg.length, ?_, ?_, ?_⟩⟩
    · exact fetch (l := k.code) (g.code.trans a.code)
    · exact a.placed (Nat.le_refl _) (by omega)
    · have := a1 C T ((a.lo (by simp)).unplace (by simp))
      simpa using this
  | .ifElse c s t, k, k', h => by
    simp only [compile, Option.map_eq_some_iff, Option.bind_eq_some_iff] at h
    obtain ⟨m, h1, m2, h2, rfl⟩ := h
    obtain ⟨g, gc, gb⟩ := compile_grow s _ _ h1
    obtain ⟨g2, -, -⟩ := compile_grow t _ _ h2
    obtain ⟨l1, e1, a1⟩ := compile_at s _ _ h1
    obtain ⟨l2, e2, a2⟩ := compile_at t _ _ h2
    have gl := g.tgl
    have gl2 := g2.tgl
    simp at gl gl2
    refine ⟨l1 ++ l2, by simp only [place_lab, emit_lab, new_lab] at e1 e2 ⊢; rw [e2, e1, List.append_assoc], fun C T a => ?_⟩
    have b1 : Agree (k.tg.length + 1) m C T := by
      constructor
      · exact ((grow_new (n := 0) m (Nat.zero_le _)).trans (grow_emit _ _)).code.trans (g2.code.trans a.code)
      · intro i hi hk
        rw [a.tg i (by omega) (by simp; omega)]
        simp only [CS.place]
        rw [List.getElem?_set_ne (by omega), g2.tg i (by simp; omega)]
        simp only [CS.place, CS.emit, CS.new]
        rw [List.getElem?_set_ne (by omega), List.getElem?_append_left hk]
    refine ⟨k.tg.length, m.tg.length, m.code.length, l1, l2, ?_, ?_, ?_, ?_, ?_, ?_, rfl⟩
    · exact fetch (l := k.code) (g.code.trans b1.code)
    · refine getD_of ?_
      rw [a.tg _ (Nat.le_refl _) (by simp; omega)]
      simp only [CS.place]
      rw [List.getElem?_set_ne (by omega), g2.tg _ (by simp; omega)]
      simp only [CS.place]
      rw [List.getElem?_set_self (by simp; omega)]
      simp
    · simpa using a1 C T (b1.lo (by simp))
    · exact fetch (l := m.code) (g2.code.trans a.code)
    · refine getD_of ?_
      rw [a.tg _ (by omega) (by simp; omega)]
      simp only [CS.place]
      rw [List.getElem?_set_self (by omega)]
    · have := a2 C T ((a.lo (by simp; omega)).unplace (by simp))
      simpa [gc, gb] using this
  | .loop c s, k, k', h => by
    simp only [compile, Option.map_eq_some_iff] at h
    obtain ⟨m, h1, rfl⟩ := h
    obtain ⟨g, -, -⟩ := compile_grow s _ _ h1
    obtain ⟨ls, e1, a1⟩ := compile_at s _ _ h1
    have gl := g.tgl
    simp at gl
    refine ⟨ls, by simpa using e1, fun C T a => ?_⟩
    have b1 : Agree (k.tg.length + 2) m C T :=
      ((a.unstk.lo (lo' := k.tg.length + 2) (by omega)).unplace (by omega)).unemit
    refine ⟨k.tg.length, k.tg.length + 1, m.code.length, ?_, ?_, ?_, ?_, ?_⟩
    · exact fetch (l := k.code) (g.code.trans b1.code)
    · have := a.unstk.placed (by omega) (by simp; omega)
      simpa using this
    · refine getD_of ?_
      rw [a.tg _ (Nat.le_refl _) (by simp; omega)]
      simp only [CS.place, CS.emit]
      rw [List.getElem?_set_ne (by omega), g.tg _ (by simp; omega)]
      simp only [CS.place, CS.emit, CS.new]
      rw [List.getElem?_append_left (by simp), List.getElem?_set_self (by simp)]
    · simpa using a1 C T (b1.lo (by simp))
    · exact fetch (l := m.code) a.code
  | .doLoop s c, k, k', h => by
    simp only [compile, Option.map_eq_some_iff] at h
    obtain ⟨m, h1, rfl⟩ := h
    obtain ⟨g, -, -⟩ := compile_grow s _ _ h1
    obtain ⟨ls, e1, a1⟩ := compile_at s _ _ h1
    have gl := g.tgl
    simp at gl
    refine ⟨ls, by simpa using e1, fun C T a => ?_⟩
    have ac : (m.code ++ [Instr.bz c (k.tg.length + 1)]) ++ [Instr.jmp (k.tg.length + 2)] <+: C := a.code
    have b0 : Agree (k.tg.length + 3) (m.place k.tg.length) C T :=
      ((a.unstk.lo (lo' := k.tg.length + 3) (by omega)).unplace (by omega)).unemit.unemit
    have b1 : Agree (k.tg.length + 3) m C T := b0.unplace (by omega)
    refine ⟨k.tg.length, k.tg.length + 1, k.tg.length + 2, m.code.length, ?_, ?_, ?_, ?_, ?_, ?_⟩
    · simpa using a1 C T (b1.lo (by simp))
    · refine getD_of ?_
      rw [a.tg _ (Nat.le_refl _) (by simp; omega)]
      simp only [CS.place, CS.emit]
      rw [List.getElem?_set_ne (by omega), List.getElem?_set_self (by omega)]
    · exact fetch ((List.prefix_append _ _).trans ac)
    · have := fetch ac
      simpa using this
    · refine getD_of ?_
      rw [a.tg _ (by omega) (by simp; omega)]
      simp only [CS.place, CS.emit]
      rw [List.getElem?_set_ne (by omega), List.getElem?_set_ne (by omega), g.tg _ (by simp)]
      simp only [CS.place]
      rw [List.getElem?_set_self (by simp)]
      rfl
    · have := a.unstk.placed (by omega) (by simp; omega)
      simpa using this
  | .forLoop init c post s, k, k', h => by
    simp only [compile, Option.map_eq_some_iff] at h
    obtain ⟨m, h1, rfl⟩ := h
    obtain ⟨g, -, -⟩ := compile_grow s _ _ h1
    obtain ⟨ls, e1, a1⟩ := compile_at s _ _ h1
    obtain ⟨fg, fgl, fl, -, -⟩ := forStart_grow init c k
    have gl := g.tgl
    simp only [fgl] at gl
    refine ⟨ls, by simpa [fl] using e1, fun C T a => ?_⟩
    have b1 : Agree (k.tg.length + 3) m C T :=
      ((a.unstk.lo (lo' := k.tg.length + 3) (by omega)).unplace (by omega)).unemit.unemits.unplace (by omega)
    have hcode : (forStart init c k).code <+: C := g.code.trans b1.code
    have ac : (m.code ++ post.map Instr.act) ++ [Instr.jmp (k.tg.length + 2)] <+: C := a.code
    have hin : k.code ++ init.map .act <+: C := by
      refine List.IsPrefix.trans ?_ hcode
      unfold forStart
      cases c with
      | none => exact List.prefix_refl _
      | some c => exact List.prefix_append _ _
    have hq : ∃ q, (match c with
        | none => q = k.code.length + init.length
        | some g => C[k.code.length + init.length]? = some (.bz g (k.tg.length + 1)) ∧
            q = k.code.length + init.length + 1) ∧ q = (forStart init c k).code.length := by
      cases c with
      | none => exact ⟨_, rfl, by simp [forStart]⟩
      | some c =>
        refine ⟨_, ⟨?_, rfl⟩, by simp [forStart, Nat.add_assoc]⟩
        have hc2 : (k.code ++ init.map Instr.act) ++ [Instr.bz c (k.tg.length + 1)] <+: C := hcode
        have := fetch hc2
        simpa using this
    obtain ⟨q, hq, hqe⟩ := hq
    refine ⟨k.tg.length, k.tg.length + 1, k.tg.length + 2, q, m.code.length, block hin, ?_, hq, ?_, ?_, ?_, ?_, ?_⟩
    · refine getD_of ?_
      rw [a.tg _ (by omega) (by simp; omega)]
      simp only [CS.place, CS.emit, CS.emits]
      rw [List.getElem?_set_ne (by omega), List.getElem?_set_ne (by omega), g.tg _ (by simp [fgl])]
      have : ∀ (k1 : CS σ ρ) (i : Nat), i < k1.tg.length → (k1.place i).tg[i]? = some k1.code.length := by
        intro k1 i hi
        simp only [CS.place]
        rw [List.getElem?_set_self hi]
      have h5 := this ((k.new.new.emits (init.map .act)).new) (k.tg.length + 2) (by simp)
      unfold forStart
      cases c with
      | none => rw [h5]; simp
      | some c => simp only [emit_tg]; rw [h5]; simp
    · rw [hqe]
      simpa using a1 C T (b1.lo (by simp [fgl]))
    · refine getD_of ?_
      rw [a.tg _ (Nat.le_refl _) (by simp; omega)]
      simp only [CS.place, CS.emit, CS.emits]
      rw [List.getElem?_set_ne (by omega), List.getElem?_set_self (by omega)]
    · exact block ((List.prefix_append _ _).trans ac)
    · have := fetch ac
      simpa using this
    · have := a.unstk.placed (by omega) (by simp; omega)
      simpa using this

end Wrench.Goto
