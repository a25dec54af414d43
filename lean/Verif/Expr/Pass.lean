import Verif.Expr.Resolve

/-
The passes of `resolveExpression` over the contexts, and the trees they build.
-/
namespace Wrench.Expr

variable {V : Type} {I : Interp V}

/-- A context seen as an already recognised subtree or an operator. -/
inductive Item (V : Type) where
  | t (T : Tree V)
  | o (o : Oper)

def Item.slot (I : Interp V) : Item V → Slot V
  | .o x => .opr x
  | .t (.leaf v) => .unl v
  | .t T => .ld (T.eval I)

/-- 1 for a subtree whose value has been computed. -/
def Item.nld : Item V → Nat
  | .t T => if T.isLeaf then 0 else 1
  | .o _ => 0

def nlds (xs : List (Item V)) : Nat := (xs.map Item.nld).sum

theorem nlds_append (xs ys : List (Item V)) : nlds (xs ++ ys) = nlds xs + nlds ys := by
  simp [nlds]

theorem nlds_cons (x : Item V) (ys : List (Item V)) : nlds (x :: ys) = x.nld + nlds ys := by
  simp [nlds]

/-- The contexts of `T` when every subtree of level at most `p` has been collapsed. -/
def front (p : Nat) : Tree V → List (Item V)
  | .leaf v => [.t (.leaf v)]
  | .pre u t => if 3 ≤ p then [.t (.pre u t)] else .o (.pre u) :: front p t
  | .post q t => if 2 ≤ p then [.t (.post q t)] else front p t ++ [.o (.post q)]
  | .bin b l r => if b.prec ≤ p then [.t (.bin b l r)] else front p l ++ .o (.bin b) :: front p r

theorem front_collapsed {p : Nat} {T : Tree V} (h : T.level ≤ p) : front p T = [.t T] := by
  cases T <;> simp_all [front, Tree.level]

theorem Bin.prec_ge (b : Bin) : 5 ≤ b.prec := by cases b <;> decide
theorem Bin.prec_le (b : Bin) : b.prec ≤ 15 := by cases b <;> decide

/-- Operators left in the front bind more loosely than its level. -/
theorem front_ops (p : Nat) (T : Tree V) : ∀ o, Item.o o ∈ front p T → p < o.prec := by
  induction T with
  | leaf v => intro o h; simp [front] at h
  | pre u t ih =>
    intro o h
    simp only [front] at h
    split at h
    · simp at h
    · simp only [List.mem_cons, Item.o.injEq] at h
      rcases h with rfl | h
      · simp only [Oper.prec]; omega
      · exact ih o h
  | post q t ih =>
    intro o h
    simp only [front] at h
    split at h
    · simp at h
    · simp only [List.mem_append, List.mem_singleton, Item.o.injEq] at h
      rcases h with h | rfl
      · exact ih o h
      · simp only [Oper.prec]; omega
  | bin b l r ihl ihr =>
    intro o h
    simp only [front] at h
    split at h
    · simp at h
    · simp only [List.mem_append, List.mem_cons, Item.o.injEq] at h
      rcases h with h | rfl | h
      · exact ihl o h
      · simp only [Oper.prec]; omega
      · exact ihr o h

theorem births_pos {T : Tree V} (h : T.isLeaf = false) : 1 ≤ T.births := by
  induction T with
  | leaf v => simp [Tree.isLeaf] at h
  | pre u t ih => simp only [Tree.births]; split <;> simp_all
  | post u t ih => simp only [Tree.births]; split <;> simp_all
  | bin b l r ihl ihr =>
    simp only [Tree.births]
    cases hl : l.isLeaf <;> cases hr : r.isLeaf <;> simp_all <;> omega

theorem births_bin (b : Bin) (l r : Tree V) : l.births + r.births ≤ (Tree.bin b l r).births := by
  simp only [Tree.births]
  cases l <;> cases r <;> simp [Tree.isLeaf, Tree.births]

theorem births_pre (u : Pre) (t : Tree V) : t.births ≤ (Tree.pre u t).births := by
  simp only [Tree.births]
  cases t <;> simp [Tree.isLeaf, Tree.births]

theorem births_post (u : Post) (t : Tree V) : t.births ≤ (Tree.post u t).births := by
  simp only [Tree.births]
  cases t <;> simp [Tree.isLeaf, Tree.births]

theorem nlds_front (p : Nat) (T : Tree V) : nlds (front p T) ≤ T.births := by
  have single : ∀ T : Tree V, nlds [Item.t T] ≤ T.births := by
    intro T
    simp only [nlds, List.map_cons, List.map_nil, List.sum_cons, List.sum_nil, Item.nld]
    split
    · omega
    · next h => have := births_pos (T := T) (by simpa using h); omega
  induction T with
  | leaf v => exact single _
  | pre u t ih =>
    simp only [front]
    split
    · exact single _
    · rw [nlds_cons]; have := births_pre u t; simp only [Item.nld]; omega
  | post q t ih =>
    simp only [front]
    split
    · exact single _
    · rw [nlds_append, nlds_cons]; have := births_post q t; simp only [Item.nld, nlds, List.map_nil, List.sum_nil]
      simp only [nlds] at ih; omega
  | bin b l r ihl ihr =>
    simp only [front]
    split
    · exact single _
    · rw [nlds_append, nlds_cons]; have := births_bin b l r; simp only [Item.nld]; omega

/-- State of the compiler: the contexts stand for `items`, the code leaves the values of
the computed ones on the stack, and `n` counts the resolutions. -/
structure St (I : Interp V) (L : Nat) (items : List (Item V)) (s : Ex V × Nat) : Prop where
  rep : ∃ top, Rep I s.1 (items.map (Item.slot I)) top ∧ top.length = nlds items
  count : s.2 + items.length = L + 1

theorem St.ctx_length {L : Nat} {items : List (Item V)} {s : Ex V × Nat} (h : St I L items s) :
    s.1.ctx.length = items.length := by
  obtain ⟨top, R, _⟩ := h.rep
  rw [R.len]; simp

/-- Would the pass take this item? -/
def Item.takes (p : Nat) (l2r : Bool) : Item V → Bool
  | .o x => x.prec ≤ p && x.l2r == l2r
  | .t _ => false

theorem St.takes_get {L : Nat} {items : List (Item V)} {s : Ex V × Nat} (h : St I L items s)
    (p : Nat) (b : Bool) (i : Nat) :
    (s.1.ctx[i]?).map (Expr.takes p b) = (items[i]?).map (Item.takes p b) := by
  obtain ⟨top, R, _⟩ := h.rep
  by_cases hi : i < items.length
  · obtain ⟨c, hc, hok⟩ := R.slot i ((items[i]).slot I) (by
      rw [List.getElem?_map, List.getElem?_eq_getElem hi]; rfl)
    rw [hc, List.getElem?_eq_getElem hi]
    simp only [Option.map_some]
    congr 1
    cases hx : items[i] with
    | o o => rw [hx] at hok; simp only [Item.slot, SlotOK] at hok; subst hok; rfl
    | t T =>
      rw [hx] at hok
      cases T with
      | leaf v => simp only [Item.slot, SlotOK] at hok; subst hok; rfl
      | pre u t => obtain ⟨q, rfl, _⟩ := hok; rfl
      | post u t => obtain ⟨q, rfl, _⟩ := hok; rfl
      | bin b l r => obtain ⟨q, rfl, _⟩ := hok; rfl
  · rw [List.getElem?_eq_none (by rw [h.ctx_length]; omega), List.getElem?_eq_none (by omega)]; rfl

theorem St.takes_map {L : Nat} {items : List (Item V)} {s : Ex V × Nat} (h : St I L items s)
    (p : Nat) (b : Bool) :
    s.1.ctx.map (Expr.takes p b) = items.map (Item.takes p b) := by
  apply List.ext_getElem?
  intro i
  rw [List.getElem?_map, List.getElem?_map]
  exact h.takes_get p b i

theorem findIdx?_via_map {α : Type} (t : α → Bool) (l : List α) :
    l.findIdx? t = (l.map t).findIdx? id := by
  induction l with
  | nil => rfl
  | cons x xs ih => simp only [List.map_cons, List.findIdx?_cons, id]; rw [ih]

/-- The candidate the loops pick. -/
def cand (p : Nat) (l2r : Bool) (e : Ex V) : Option Nat :=
  if l2r then e.ctx.findIdx? (takes p true) else findLast? (takes p false) e.ctx

theorem St.cand_l2r {L p : Nat} {xs ys : List (Item V)} {x : Item V} {s : Ex V × Nat}
    (h : St I L (xs ++ x :: ys) s) (hx : x.takes p true = true)
    (hxs : ∀ y ∈ xs, y.takes p true = false) : cand p true s.1 = some xs.length := by
  simp only [cand, if_true]
  rw [findIdx?_via_map, h.takes_map, ← findIdx?_via_map, List.findIdx?_append]
  have : xs.findIdx? (Item.takes p true) = none := by
    rw [List.findIdx?_eq_none_iff]; simpa using hxs
  rw [this, List.findIdx?_cons, hx]
  simp

theorem St.cand_r2l {L p : Nat} {xs ys : List (Item V)} {x : Item V} {s : Ex V × Nat}
    (h : St I L (xs ++ x :: ys) s) (hx : x.takes p false = true)
    (hys : ∀ y ∈ ys, y.takes p false = false) : cand p false s.1 = some xs.length := by
  simp only [cand, Bool.false_eq_true, if_false, findLast?]
  rw [findIdx?_via_map, List.map_reverse, h.takes_map, ← List.map_reverse, ← findIdx?_via_map,
    List.reverse_append, List.reverse_cons, List.append_assoc, List.findIdx?_append]
  have : ys.reverse.findIdx? (Item.takes p false) = none := by
    rw [List.findIdx?_eq_none_iff]; simpa using hys
  rw [this]
  simp only [List.singleton_append, List.findIdx?_cons, hx, if_true]
  simp only [Option.map_some, Option.none_or, List.length_reverse, h.ctx_length, List.length_append,
    List.length_cons]
  congr 1
  omega

theorem St.cand_none {L p : Nat} {b : Bool} {items : List (Item V)} {s : Ex V × Nat}
    (h : St I L items s) (hx : ∀ y ∈ items, y.takes p b = false) : cand p b s.1 = none := by
  have key : ∀ l : List Bool, (∀ x ∈ l, x = false) → l.findIdx? id = none := by
    intro l hl; rw [List.findIdx?_eq_none_iff]; simpa using hl
  cases b with
  | true =>
    simp only [cand, if_true]
    rw [findIdx?_via_map, h.takes_map, key]
    intro x hx'
    obtain ⟨y, hy, rfl⟩ := List.mem_map.1 hx'
    exact hx y hy
  | false =>
    simp only [cand, Bool.false_eq_true, if_false, findLast?]
    rw [findIdx?_via_map, List.map_reverse, h.takes_map, key]
    intro x hx'
    obtain ⟨y, hy, rfl⟩ := List.mem_map.1 (List.mem_reverse.1 hx')
    exact hx y hy

theorem pass_succ (p : Nat) (b : Bool) (f : Nat) (e : Ex V) (n : Nat) :
    pass p b (f + 1) (e, n) = match cand p b e with
      | none => some (e, n)
      | some o => match resolveEx e o with
        | none => none
        | some (e', k) => pass p b f (e', n + k) := rfl

theorem pass_none {p : Nat} {b : Bool} {s : Ex V × Nat} (f : Nat) (h : cand p b s.1 = none) :
    pass p b f s = some s := by
  cases f with
  | zero => rfl
  | succ f => rw [pass_succ, h]

/-- Decidable form of `Bad` restricted to binary operators. -/
def badB (e : Ex V) (o : Nat) : Bool :=
  match (e.ctx[o]?).map Ctx.kind, posOf e (o - 1), posOf e (o + 1) with
  | some (.oper (.bin _)), some f, some s => decide (2 ≤ f) && decide (s ≠ 1)
  | _, _, _ => false

theorem not_bad_of_badB {e : Ex V} {o : Nat} {b : Bin}
    (hk : (e.ctx[o]?).map Ctx.kind = some (.oper (.bin b))) (h : badB e o = false) : ¬ Bad e o := by
  rintro ⟨f, s, hf, hs, h1, h2⟩
  rw [badB, hk, posOf_eq, posOf_eq, hf, hs] at h
  simp [h1, h2] at h

/-- No step of the pass meets a defective placement. -/
def cleanPass (p : Nat) (l2r : Bool) : Nat → Ex V × Nat → Bool
  | 0, _ => true
  | f + 1, (e, n) =>
    match cand p l2r e with
    | none => true
    | some o => !badB e o && match resolveEx e o with
      | none => true
      | some (e', k) => cleanPass p l2r f (e', n + k)

/-- The result of a segment of a pass. -/
structure Seg (I : Interp V) (p : Nat) (b : Bool) (L : Nat) (items : List (Item V)) (f : Nat)
    (s : Ex V × Nat) (f' : Nat) (s' : Ex V × Nat) : Prop where
  st : St I L items s'
  fuel : s'.1.ctx.length ≤ f'
  pass : pass p b f s = Expr.pass p b f' s'
  clean : cleanPass p b f s = true → cleanPass p b f' s' = true

theorem Seg.refl {p : Nat} {b : Bool} {L : Nat} {items : List (Item V)} {f : Nat} {s : Ex V × Nat}
    (h : St I L items s) (hf : s.1.ctx.length ≤ f) : Seg I p b L items f s f s :=
  ⟨h, hf, rfl, id⟩

theorem Seg.trans {p : Nat} {b : Bool} {L : Nat} {i1 i2 : List (Item V)} {f f1 f2 : Nat}
    {s s1 s2 : Ex V × Nat} (h1 : Seg I p b L i1 f s f1 s1) (h2 : Seg I p b L i2 f1 s1 f2 s2) :
    Seg I p b L i2 f s f2 s2 :=
  ⟨h2.st, h2.fuel, h1.pass.trans h2.pass, fun h => h2.clean (h1.clean h)⟩

theorem seg_of_step {p : Nat} {b : Bool} {L : Nat} {items items' : List (Item V)} {f o k : Nat}
    {s : Ex V × Nat} {e' : Ex V} (hst : St I L items s) (hf : s.1.ctx.length ≤ f)
    (hc : cand p b s.1 = some o) (hr : resolveEx s.1 o = some (e', k))
    (hst' : St I L items' (e', s.2 + k)) (hlt : items'.length < items.length) :
    ∃ f', Seg I p b L items' f s f' (e', s.2 + k) := by
  obtain ⟨e, n⟩ := s
  have h1 := hst.ctx_length
  have h2 := hst'.ctx_length
  simp only at h1 h2 hf hc hr
  obtain ⟨f, rfl⟩ : ∃ g, f = g + 1 := ⟨f - 1, by omega⟩
  refine ⟨f, hst', by simp only [h2]; omega, by rw [pass_succ, hc]; simp only [hr], ?_⟩
  intro h
  simp only [cleanPass, hc, hr, Bool.and_eq_true] at h
  exact h.2

/-! ### One operator -/

theorem slot_holds (T : Tree V) : ((Item.t T).slot I).Holds (T.eval I) := by
  cases T <;> simp [Item.slot, Slot.Holds, Tree.eval]

theorem slot_cost (T : Tree V) : ((Item.t T).slot I).cost + (Item.t T).nld = 1 := by
  cases T <;> simp [Item.slot, Slot.cost, Item.nld, Tree.isLeaf]

theorem seg_post {p L f : Nat} {xs ys : List (Item V)} {q : Post} {t : Tree V} {s : Ex V × Nat}
    (hst : St I L (xs ++ .t t :: .o (.post q) :: ys) s) (hf : s.1.ctx.length ≤ f) (hp : 2 ≤ p)
    (hxs : ∀ y ∈ xs, y.takes p true = false)
    (hb : nlds xs + (Tree.post q t).births + nlds ys ≤ 253) :
    ∃ f' s', Seg I p true L (xs ++ .t (.post q t) :: ys) f s f' s' := by
  have hcand : cand p true s.1 = some (xs.length + 1) := by
    have := St.cand_l2r (p := p) (xs := xs ++ [.t t]) (x := .o (.post q)) (ys := ys)
      (by simpa using hst) (by simp [Item.takes, Oper.prec, Oper.l2r, hp]) (by
        intro y hy; simp at hy; rcases hy with hy | rfl
        · exact hxs y hy
        · rfl)
    simpa using this
  obtain ⟨top, R, hl⟩ := hst.rep
  have hcount := hst.count
  simp only [List.map_append, List.map_cons] at R
  rw [nlds_append, nlds_cons, nlds_cons] at hl
  have hc := slot_cost (I := I) t
  have hbp := births_pos (T := Tree.post q t) rfl
  simp only [show ((Item.o (.post q) : Item V).nld) = 0 from rfl] at hl
  have R' : Rep I s.1 (xs.map (Item.slot I) ++ (Item.t t).slot I :: .opr (.post q) :: ys.map (Item.slot I)) top := R
  obtain ⟨e', top', hr, R2, l2⟩ := step_post (slot_holds t) R' (by omega)
  simp only [List.length_map] at hr
  obtain ⟨f', hs⟩ := seg_of_step (items' := xs ++ .t (.post q t) :: ys) hst hf hcand hr
    ⟨⟨top', by simpa [Item.slot, Tree.eval] using R2, by
      rw [nlds_append, nlds_cons, show (Item.t (Tree.post q t)).nld = 1 from rfl]; omega⟩,
      by simp at hcount ⊢; omega⟩ (by simp)
  exact ⟨f', _, hs⟩

theorem seg_pre {p L f : Nat} {xs ys : List (Item V)} {u : Pre} {t : Tree V} {s : Ex V × Nat}
    (hst : St I L (xs ++ .o (.pre u) :: .t t :: ys) s) (hf : s.1.ctx.length ≤ f) (hp : 3 ≤ p)
    (hys : ∀ y ∈ ys, y.takes p false = false)
    (hb : nlds xs + (Tree.pre u t).births + nlds ys ≤ 253) :
    ∃ f' s', Seg I p false L (xs ++ .t (.pre u t) :: ys) f s f' s' := by
  have hcand : cand p false s.1 = some xs.length :=
    St.cand_r2l hst (by simp [Item.takes, Oper.prec, Oper.l2r, hp]) (by
        intro y hy; simp at hy; rcases hy with rfl | hy
        · rfl
        · exact hys y hy)
  obtain ⟨top, R, hl⟩ := hst.rep
  have hcount := hst.count
  simp only [List.map_append, List.map_cons] at R
  rw [nlds_append, nlds_cons, nlds_cons] at hl
  have hc := slot_cost (I := I) t
  have hbp := births_pos (T := Tree.pre u t) rfl
  simp only [show ((Item.o (.pre u) : Item V).nld) = 0 from rfl] at hl
  have R' : Rep I s.1 (xs.map (Item.slot I) ++ .opr (.pre u) :: (Item.t t).slot I :: ys.map (Item.slot I)) top := R
  obtain ⟨e', top', hr, R2, l2⟩ := step_pre (slot_holds t) R' (by omega)
  simp only [List.length_map] at hr
  obtain ⟨f', hs⟩ := seg_of_step (items' := xs ++ .t (.pre u t) :: ys) hst hf hcand hr
    ⟨⟨top', by simpa [Item.slot, Tree.eval] using R2, by
      rw [nlds_append, nlds_cons, show (Item.t (Tree.pre u t)).nld = 1 from rfl]; omega⟩,
      by simp at hcount ⊢; omega⟩ (by simp)
  exact ⟨f', _, hs⟩

theorem seg_bin (hI : I.Lawful) {p L f : Nat} {xs ys : List (Item V)} {b : Bin} {l r : Tree V}
    {s : Ex V × Nat} (hst : St I L (xs ++ .t l :: .o (.bin b) :: .t r :: ys) s)
    (hf : s.1.ctx.length ≤ f) (hp : b.prec ≤ p) (hxs : ∀ y ∈ xs, y.takes p true = false)
    (hb : nlds xs + (Tree.bin b l r).births + nlds ys ≤ 253)
    (hgood : cleanPass p true f s = true ∨ nlds xs + (Tree.bin b l r).births + nlds ys ≤ 2) :
    ∃ f' s', Seg I p true L (xs ++ .t (.bin b l r) :: ys) f s f' s' := by
  have hcand : cand p true s.1 = some (xs.length + 1) := by
    have := St.cand_l2r (p := p) (xs := xs ++ [.t l]) (x := .o (.bin b)) (ys := .t r :: ys)
      (by simpa using hst) (by simp [Item.takes, Oper.prec, Oper.l2r, hp]) (by
        intro y hy; simp at hy; rcases hy with hy | rfl
        · exact hxs y hy
        · rfl)
    simpa using this
  obtain ⟨top, R, hl⟩ := hst.rep
  have hcount := hst.count
  have hlen := hst.ctx_length
  simp only [List.map_append, List.map_cons] at R
  rw [nlds_append, nlds_cons, nlds_cons, nlds_cons] at hl
  have hcl := slot_cost (I := I) l
  have hcr := slot_cost (I := I) r
  have hbb := births_bin b l r
  have hnl := nlds_front (Tree.level l) l
  have hnr := nlds_front (Tree.level r) r
  rw [front_collapsed (Nat.le_refl _), nlds_cons] at hnl hnr
  simp only [show ((Item.o (.bin b) : Item V).nld) = 0 from rfl] at hl
  have R' : Rep I s.1 (xs.map (Item.slot I) ++ (Item.t l).slot I :: .opr (.bin b) :: (Item.t r).slot I ::
    ys.map (Item.slot I)) top := R
  have hnb : ¬ Bad s.1 ((xs.map (Item.slot I)).length + 1) := by
    rcases hgood with hg | hg
    · have hk := kind_opr R' (i := (xs.map (Item.slot I)).length + 1) (o := .bin b) (by
        rw [List.getElem?_append_right (by omega)]; simp)
      apply not_bad_of_badB hk
      rw [List.length_map]
      obtain ⟨e, n⟩ := s
      simp only at hf hlen hcand
      obtain ⟨f, rfl⟩ : ∃ g, f = g + 1 := ⟨f - 1, by simp at hlen; omega⟩
      simp only [cleanPass, hcand, Bool.and_eq_true, Bool.not_eq_true'] at hg
      exact hg.1
    · rintro ⟨pf, ps, h1, h2, h3, h4⟩
      have := R.bound _ _ h1
      have hne : pf ≠ ps := by
        intro h; have := R.inj _ _ _ h1 (by rw [h2, h]); omega
      omega
  obtain ⟨e', top', hr, R2, l2⟩ := step_bin hI (slot_holds l) (slot_holds r) R' (by omega) hnb
  simp only [List.length_map] at hr
  obtain ⟨f', hs⟩ := seg_of_step (items' := xs ++ .t (.bin b l r) :: ys) hst hf hcand hr
    ⟨⟨top', by simpa [Item.slot, Tree.eval] using R2, by
      rw [nlds_append, nlds_cons, show (Item.t (Tree.bin b l r)).nld = 1 from rfl]; omega⟩,
      by simp at hcount ⊢; omega⟩ (by simp)
  exact ⟨f', _, hs⟩

end Wrench.Expr
