import Verif.Expr.Pass

/-
The whole of `resolveExpression`, and the parsing of the tokens into contexts.
-/
namespace Wrench.Expr

variable {V : Type} {I : Interp V}

theorem good_mono {A : Prop} {x y : Nat} (h : A ∨ x ≤ 2) (hxy : y ≤ x) : A ∨ y ≤ 2 := by
  rcases h with h | h
  · exact Or.inl h
  · exact Or.inr (by omega)

theorem nlds_opr (x : Oper) (xs : List (Item V)) : nlds (.o x :: xs) = nlds xs := by
  rw [nlds_cons]; simp [Item.nld]

theorem nlds_snoc_opr (xs : List (Item V)) (x : Oper) : nlds (xs ++ [.o x]) = nlds xs := by
  rw [nlds_append]; simp [nlds, Item.nld]

theorem front_not_taken (p : Nat) (b : Bool) (T : Tree V) : ∀ y ∈ front p T, y.takes p b = false := by
  intro y hy
  cases y with
  | t T => rfl
  | o x =>
    have := front_ops p T x hy
    have h : ¬ x.prec ≤ p := by omega
    simp [Item.takes, h]

theorem gt_not_taken {p : Nat} {b : Bool} {x : Oper} (h : p < x.prec) :
    (Item.o x : Item V).takes p b = false := by
  have h : ¬ x.prec ≤ p := by omega
  simp [Item.takes, h]

/-- The left-to-right pass of level `p ≠ 3` collapses the subtrees of level `p`. -/
theorem l2r_tree (hI : I.Lawful) {p : Nat} (hp3 : p ≠ 3) (T : Tree V) : T.ok →
    ∀ (xs ys : List (Item V)) (L f : Nat) (s : Ex V × Nat),
    (∀ y ∈ xs, y.takes p true = false) →
    St I L (xs ++ front (p - 1) T ++ ys) s → s.1.ctx.length ≤ f →
    nlds xs + T.births + nlds ys ≤ 253 →
    (cleanPass p true f s = true ∨ nlds xs + T.births + nlds ys ≤ 2) →
    ∃ f' s', Seg I p true L (xs ++ front p T ++ ys) f s f' s' := by
  induction T with
  | leaf v => intro _ xs ys L f s _ hst hf _ _; exact ⟨f, s, Seg.refl hst hf⟩
  | pre u t ih =>
    intro hok xs ys L f s hxs hst hf hb hg
    by_cases h : 3 ≤ p - 1
    · simp only [front, if_pos h] at hst
      simp only [front, if_pos (show 3 ≤ p by omega)]
      exact ⟨f, s, Seg.refl hst hf⟩
    · have h3 : ¬ 3 ≤ p := by omega
      have hbp := births_pre u t
      simp only [front, if_neg h] at hst
      simp only [front, if_neg h3]
      have := ih hok.1 (xs ++ [.o (.pre u)]) ys L f s (by
        intro y hy; simp at hy; rcases hy with hy | rfl
        · exact hxs y hy
        · simp [Item.takes, Oper.l2r]) (by simpa using hst) hf
        (by rw [nlds_snoc_opr]; omega) (by rw [nlds_snoc_opr]; exact good_mono hg (by omega))
      simpa using this
  | post q t ih =>
    intro hok xs ys L f s hxs hst hf hb hg
    by_cases h : 2 ≤ p - 1
    · simp only [front, if_pos h] at hst
      simp only [front, if_pos (show 2 ≤ p by omega)]
      exact ⟨f, s, Seg.refl hst hf⟩
    · have hbp := births_post q t
      simp only [front, if_neg h] at hst
      have := ih hok.1 xs (.o (.post q) :: ys) L f s hxs (by simpa using hst) hf
        (by rw [nlds_opr]; omega) (by rw [nlds_opr]; exact good_mono hg (by omega))
      obtain ⟨f1, s1, h1⟩ := this
      by_cases h2 : 2 ≤ p
      · simp only [front, if_pos h2]
        rw [front_collapsed (show t.level ≤ p from Nat.le_trans hok.2 h2)] at h1
        have hst1 := h1.st
        obtain ⟨f2, s2, h2⟩ := seg_post (xs := xs) (ys := ys) (by simpa using hst1) h1.fuel h2 hxs hb
        exact ⟨f2, s2, by simpa using h1.trans h2⟩
      · simp only [front, if_neg h2]
        exact ⟨f1, s1, by simpa using h1⟩
  | bin b l r ihl ihr =>
    intro hok xs ys L f s hxs hst hf hb hg
    obtain ⟨hokl, hokr, hll, hlr⟩ := hok
    have hbb := births_bin b l r
    have hnl := nlds_front p l
    have hnr := nlds_front (p - 1) r
    by_cases h : b.prec ≤ p - 1
    · simp only [front, if_pos h] at hst
      simp only [front, if_pos (show b.prec ≤ p by omega)]
      exact ⟨f, s, Seg.refl hst hf⟩
    · simp only [front, if_neg h] at hst
      have hys' : nlds (.o (.bin b) :: front (p - 1) r ++ ys) = nlds (front (p - 1) r) + nlds ys := by
        rw [List.cons_append, nlds_opr, nlds_append]
      obtain ⟨f1, s1, h1⟩ := ihl hokl xs (.o (.bin b) :: front (p - 1) r ++ ys) L f s hxs (by simpa using hst) hf
        (by rw [hys']; omega) (by rw [hys']; exact good_mono hg (by omega))
      by_cases h2 : b.prec ≤ p
      · simp only [front, if_pos h2]
        rw [front_collapsed (show l.level ≤ p by omega), front_collapsed (show r.level ≤ p - 1 by omega)] at h1
        have hst1 := h1.st
        obtain ⟨f2, s2, h2⟩ := seg_bin hI (xs := xs) (ys := ys) (by simpa using hst1) h1.fuel h2 hxs hb
          (by rcases hg with hg | hg
              · left; exact h1.clean hg
              · right; exact hg)
        exact ⟨f2, s2, by simpa using h1.trans h2⟩
      · simp only [front, if_neg h2]
        have hst1 := h1.st
        have hxs' : nlds (xs ++ front p l ++ [.o (.bin b)]) = nlds xs + nlds (front p l) := by
          rw [nlds_snoc_opr, nlds_append]
        obtain ⟨f2, s2, h3⟩ := ihr hokr (xs ++ front p l ++ [.o (.bin b)]) ys L f1 s1 (by
          intro y hy
          simp only [List.mem_append, List.mem_singleton] at hy
          rcases hy with (hy | hy) | rfl
          · exact hxs y hy
          · exact front_not_taken p true l y hy
          · exact gt_not_taken (by simp only [Oper.prec]; omega)) (by simpa using hst1) h1.fuel
          (by rw [hxs']; omega) (by
            rw [hxs']
            rcases hg with hg | hg
            · left; exact h1.clean hg
            · right; omega)
        exact ⟨f2, s2, by simpa using h1.trans h3⟩

/-- The right-to-left pass of level 3 collapses the prefix operators. -/
theorem r2l_tree (T : Tree V) : T.ok →
    ∀ (xs ys : List (Item V)) (L f : Nat) (s : Ex V × Nat),
    (∀ y ∈ ys, y.takes 3 false = false) →
    St I L (xs ++ front 2 T ++ ys) s → s.1.ctx.length ≤ f →
    nlds xs + T.births + nlds ys ≤ 253 →
    ∃ f' s', Seg I 3 false L (xs ++ front 3 T ++ ys) f s f' s' := by
  induction T with
  | leaf v => intro _ xs ys L f s _ hst hf _; exact ⟨f, s, Seg.refl hst hf⟩
  | pre u t ih =>
    intro hok xs ys L f s hys hst hf hb
    simp only [front, if_neg (show ¬ 3 ≤ 2 by omega)] at hst
    rw [front_collapsed hok.2] at hst
    simp only [front, if_pos (Nat.le_refl 3)]
    obtain ⟨f2, s2, h2⟩ := seg_pre (p := 3) (xs := xs) (ys := ys) (by simpa using hst) hf (Nat.le_refl _) hys hb
    exact ⟨f2, s2, by simpa using h2⟩
  | post q t ih =>
    intro hok xs ys L f s hys hst hf hb
    simp only [front, if_pos (Nat.le_refl 2)] at hst
    simp only [front, if_pos (show 2 ≤ 3 by omega)]
    exact ⟨f, s, Seg.refl hst hf⟩
  | bin b l r ihl ihr =>
    intro hok xs ys L f s hys hst hf hb
    obtain ⟨hokl, hokr, hll, hlr⟩ := hok
    have h5 := b.prec_ge
    have hbb := births_bin b l r
    have hnl := nlds_front 2 l
    have hnr := nlds_front 3 r
    simp only [front, if_neg (show ¬ b.prec ≤ 2 by omega)] at hst
    simp only [front, if_neg (show ¬ b.prec ≤ 3 by omega)]
    obtain ⟨f1, s1, h1⟩ := ihr hokr (xs ++ front 2 l ++ [.o (.bin b)]) ys L f s hys (by simpa using hst) hf
      (by rw [nlds_snoc_opr, nlds_append]; omega)
    have hst1 := h1.st
    obtain ⟨f2, s2, h2⟩ := ihl hokl xs (.o (.bin b) :: front 3 r ++ ys) L f1 s1 (by
      intro y hy
      simp only [List.cons_append, List.mem_cons, List.mem_append] at hy
      rcases hy with rfl | hy | hy
      · exact gt_not_taken (by simp only [Oper.prec]; omega)
      · exact front_not_taken 3 false r y hy
      · exact hys y hy) (by simpa using hst1) h1.fuel
      (by rw [List.cons_append, nlds_opr, nlds_append]; omega)
    exact ⟨f2, s2, by simpa using h1.trans h2⟩

/-- The two passes of one level. -/
def level (p : Nat) (s : Ex V × Nat) : Option (Ex V × Nat) :=
  (pass p true s.1.ctx.length s).bind fun s => pass p false s.1.ctx.length s

/-- No defective placement in the passes over the given levels. -/
def cleanLevels : List Nat → Ex V × Nat → Bool
  | [], _ => true
  | p :: ps, s =>
    if s.1.ctx.length > 1 then
      cleanPass p true s.1.ctx.length s &&
        match level p s with
        | none => true
        | some s => cleanLevels ps s
    else true

theorem level_tree (hI : I.Lawful) (p : Nat) {T : Tree V} (hok : T.ok) {L : Nat} {s : Ex V × Nat}
    (hst : St I L (front (p - 1) T) s) (hb : T.births ≤ 253)
    (hg : cleanPass p true s.1.ctx.length s = true ∨ T.births ≤ 2) :
    ∃ s', level p s = some s' ∧ St I L (front p T) s' := by
  have nl0 : nlds ([] : List (Item V)) = 0 := rfl
  by_cases h3 : p = 3
  · subst h3
    have hc : cand 3 true s.1 = none := hst.cand_none (by
      intro y hy
      cases y with
      | t T => rfl
      | o x =>
        have := front_ops 2 T x hy
        cases x with
        | pre u => rfl
        | post q => simp [Oper.prec] at this
        | bin b =>
          have h5 := b.prec_ge
          have : ¬ b.prec ≤ 3 := by omega
          simp [Item.takes, Oper.prec, this])
    obtain ⟨f', s', h⟩ := r2l_tree T hok [] [] L s.1.ctx.length s (by simp) (by simpa using hst)
      (Nat.le_refl _) (by rw [nl0]; omega)
    have hs' : St I L (front 3 T) s' := by simpa using h.st
    refine ⟨s', ?_, hs'⟩
    rw [level, pass_none _ hc, Option.bind_some, h.pass]
    exact pass_none _ (hs'.cand_none (front_not_taken 3 false T))
  · obtain ⟨f', s', h⟩ := l2r_tree hI h3 T hok [] [] L s.1.ctx.length s (by simp) (by simpa using hst)
      (Nat.le_refl _) (by rw [nl0]; omega) (by
        rw [nl0]; rcases hg with hg | hg
        · left; exact hg
        · right; omega)
    have hs' : St I L (front p T) s' := by simpa using h.st
    refine ⟨s', ?_, hs'⟩
    rw [level, h.pass, pass_none _ (hs'.cand_none (front_not_taken p true T)), Option.bind_some]
    exact pass_none _ (hs'.cand_none (front_not_taken p false T))

theorem levels_cons (p : Nat) (ps : List Nat) (s : Ex V × Nat) :
    levels (p :: ps) s = if s.1.ctx.length > 1 then (level p s).bind (levels ps) else some s := by
  obtain ⟨e, n⟩ := s
  simp only [levels, level]
  split
  · cases pass p true e.ctx.length (e, n) with
    | none => rfl
    | some s1 =>
      simp only [Option.bind_some]
      cases pass p false s1.1.ctx.length s1 <;> rfl
  · rfl

/-- The front is a single item only when everything is collapsed. -/
theorem front_length_pos (p : Nat) (T : Tree V) : 1 ≤ (front p T).length := by
  cases T <;> simp only [front] <;> (try split) <;> simp <;> omega

theorem front_single {p : Nat} {T : Tree V} (h : (front p T).length ≤ 1) : front p T = [.t T] := by
  cases T with
  | leaf v => rfl
  | pre u t =>
    simp only [front] at h ⊢
    split
    · rfl
    · next h2 => rw [if_neg h2] at h; have := front_length_pos p t; simp only [List.length_cons, List.length_append, List.length_nil] at h; omega
  | post u t =>
    simp only [front] at h ⊢
    split
    · rfl
    · next h2 => rw [if_neg h2] at h; have := front_length_pos p t; simp only [List.length_cons, List.length_append, List.length_nil] at h; omega
  | bin b l r =>
    simp only [front] at h ⊢
    split
    · rfl
    · next h2 => rw [if_neg h2] at h; have := front_length_pos p l; have := front_length_pos p r; simp only [List.length_cons, List.length_append, List.length_nil] at h; omega

theorem levels_tree (hI : I.Lawful) {T : Tree V} (hok : T.ok) (hb : T.births ≤ 253) (L : Nat) :
    ∀ (k p : Nat) (s : Ex V × Nat), p + k = 17 → St I L (front (p - 1) T) s →
    (cleanLevels (List.range' p k) s = true ∨ T.births ≤ 2) →
    ∃ s', levels (List.range' p k) s = some s' ∧ St I L [.t T] s'
  | 0, p, s, hp, hst, _ => by
    refine ⟨s, rfl, ?_⟩
    have hlev : T.level ≤ p - 1 := by
      cases T with
      | bin b l r => have := b.prec_le; simp only [Tree.level]; omega
      | _ => simp only [Tree.level]; omega
    rw [front_collapsed hlev] at hst
    exact hst
  | k + 1, p, s, hp, hst, hg => by
    rw [List.range'_succ, levels_cons]
    by_cases hl : s.1.ctx.length > 1
    · rw [if_pos hl]
      obtain ⟨s', h1, h2⟩ := level_tree hI p hok hst hb (by
        rcases hg with hg | hg
        · left
          rw [List.range'_succ, cleanLevels, if_pos hl, Bool.and_eq_true] at hg
          exact hg.1
        · right; exact hg)
      rw [h1, Option.bind_some]
      refine levels_tree hI hok hb L k (p + 1) s' (by omega) h2 ?_
      rcases hg with hg | hg
      · left
        rw [List.range'_succ, cleanLevels, if_pos hl, Bool.and_eq_true, h1] at hg
        exact hg.2
      · right; exact hg
    · rw [if_neg hl]
      refine ⟨s, rfl, ?_⟩
      rw [hst.ctx_length] at hl
      rw [front_single (by omega)] at hst
      exact hst

/-! ### Tokens -/

/-- Context of an item that has not been touched. -/
def Item.ctx : Item V → Ctx V
  | .t (.leaf v) => ⟨.operand v, none⟩
  | .t _ => ⟨.resolved, none⟩
  | .o x => ⟨.oper x, none⟩

/-- The last context of a tree. -/
def lastCtx : Tree V → Ctx V
  | .leaf v => ⟨.operand v, none⟩
  | .pre _ t => lastCtx t
  | .post q _ => ⟨.oper (.post q), none⟩
  | .bin _ _ r => lastCtx r

theorem lastCtx_cases (T : Tree V) : (∃ v, lastCtx T = ⟨.operand v, none⟩) ∨
    ∃ q, lastCtx T = ⟨.oper (.post q), none⟩ := by
  induction T with
  | leaf v => exact Or.inl ⟨v, rfl⟩
  | pre u t ih => exact ih
  | post q t => exact Or.inr ⟨q, rfl⟩
  | bin b l r _ ihr => exact ihr

theorem lastCtx_not_pre (T : Tree V) : preAllowed (some (lastCtx T)) = false := by
  rcases lastCtx_cases T with ⟨v, h⟩ | ⟨q, h⟩ <;> rw [h] <;> rfl

theorem found_bin (prev : Option (Ctx V)) (h : preAllowed prev = false) (b : Bin) :
    operatorFound prev b.sym = some (.bin b) := by
  unfold operatorFound
  rw [h]
  cases b <;> rfl

theorem found_post (prev : Option (Ctx V)) (q : Post) :
    operatorFound prev q.sym = some (.post q) := by
  unfold operatorFound
  generalize preAllowed prev = x
  cases x <;> cases q <;> rfl

theorem found_pre (prev : Option (Ctx V)) (h : preAllowed prev = true) (u : Pre) :
    operatorFound prev u.sym = some (.pre u) := by
  unfold operatorFound
  rw [h]
  cases u <;> rfl

/-- May an operand follow here? -/
def NotOperand (prev : Option (Ctx V)) : Prop := ∀ v p, prev ≠ some ⟨.operand v, p⟩

theorem toContexts_tree (T : Tree V) : T.ok → ∀ (prev : Option (Ctx V)) (rest : List (Tok V)),
    NotOperand prev → (preAllowed prev = true ∨ T.level ≤ 2) →
    toContexts prev (T.tokens ++ rest)
      = (toContexts (some (lastCtx T)) rest).map ((front 0 T).map Item.ctx ++ ·) := by
  induction T with
  | leaf v =>
    intro _ prev rest hno _
    simp only [Tree.tokens, List.singleton_append, toContexts, lastCtx, front, List.map_cons, List.map_nil, Item.ctx]
    split
    · exact absurd rfl (hno _ _)
    · rfl
  | pre u t ih =>
    intro hok prev rest hno hp
    have hp' : preAllowed prev = true := by
      rcases hp with h | h
      · exact h
      · simp [Tree.level] at h
    simp only [Tree.tokens, List.cons_append, toContexts, found_pre prev hp' u]
    rw [ih hok.1 (some ⟨.oper (.pre u), none⟩) rest (by intro v p h; cases h) (Or.inr hok.2)]
    simp only [Option.map_map, front, lastCtx]
    rfl
  | post q t ih =>
    intro hok prev rest hno hp
    simp only [Tree.tokens, List.append_assoc, List.singleton_append]
    rw [ih hok.1 prev (.sym q.sym :: rest) hno (Or.inr hok.2)]
    simp only [toContexts, found_post, Option.map_map, front, lastCtx]
    congr 1
    funext l
    simp [Item.ctx]
  | bin b l r ihl ihr =>
    intro hok prev rest hno hp
    obtain ⟨hokl, hokr, hll, hlr⟩ := hok
    have h5 := b.prec_ge
    have hlp : preAllowed prev = true ∨ l.level ≤ 2 := by
      rcases hp with h | h
      · exact Or.inl h
      · simp only [Tree.level] at h; omega
    simp only [Tree.tokens, List.append_assoc, List.cons_append]
    rw [ihl hokl prev (.sym b.sym :: (r.tokens ++ rest)) hno hlp]
    simp only [toContexts, found_bin _ (lastCtx_not_pre l)]
    rw [ihr hokr (some ⟨.oper (.bin b), none⟩) rest (by intro v p h; cases h) (Or.inl rfl)]
    simp only [Option.map_map, front, lastCtx]
    rw [if_neg (by omega)]
    congr 1
    funext l
    simp [Item.ctx]

/-- Contexts the compiler starts from. -/
def initial (T : Tree V) : List (Ctx V) := (front 0 T).map Item.ctx

theorem toContexts_ok {T : Tree V} (h : T.ok) : toContexts none T.tokens = some (initial T) := by
  have := toContexts_tree T h none [] (by intro v p h; cases h) (Or.inl rfl)
  rw [List.append_nil] at this
  rw [this]
  simp [toContexts, initial]

theorem front_zero_leaves (T : Tree V) : ∀ T', Item.t T' ∈ front 0 T → ∃ v, T' = .leaf v := by
  induction T with
  | leaf v => intro T' h; simp [front] at h; exact ⟨v, h⟩
  | pre u t ih => intro T' h; simp [front] at h; exact ih T' h
  | post u t ih => intro T' h; simp [front] at h; exact ih T' h
  | bin b l r ihl ihr =>
    intro T' h
    have h5 := b.prec_ge
    simp only [front, if_neg (show ¬ b.prec ≤ 0 by omega), List.mem_append, List.mem_cons] at h
    rcases h with h | h | h
    · exact ihl T' h
    · cases h
    · exact ihr T' h

theorem initial_st (T : Tree V) : St I (front 0 T).length (front 0 T) (⟨initial T, []⟩, 1) := by
  have hnone : ∀ x ∈ front 0 T, x.ctx.pos = none := by
    intro x _
    cases x with
    | o x => rfl
    | t T' => cases T' <;> rfl
  have hpos : ∀ i, posAt (initial T) i = none := by
    intro i
    unfold posAt initial
    rw [List.getElem?_map]
    cases h : (front 0 T)[i]? with
    | none => rfl
    | some x => simpa using hnone x (List.mem_of_getElem? h)
  have hn : nlds (front 0 T) = 0 := by
    have : ∀ l : List (Item V), (∀ T', Item.t T' ∈ l → ∃ v, T' = .leaf v) → nlds l = 0 := by
      intro l
      induction l with
      | nil => intro _; rfl
      | cons x xs ih =>
        intro h
        rw [nlds_cons, ih fun T' hT' => h T' (List.mem_cons_of_mem _ hT')]
        cases x with
        | o x => rfl
        | t T' =>
          obtain ⟨v, rfl⟩ := h T' List.mem_cons_self
          rfl
    exact this _ (front_zero_leaves T)
  refine ⟨⟨[], ⟨fun base => rfl, by simp [initial], ?_, ?_, ?_, ?_⟩, by rw [hn]; rfl⟩, by simp; omega⟩
  · intro i sl hs
    simp only [initial, List.getElem?_map] at hs ⊢
    cases h : (front 0 T)[i]? with
    | none => rw [h] at hs; cases hs
    | some x =>
      rw [h] at hs
      simp only [Option.map_some, Option.some.injEq] at hs ⊢
      subst hs
      refine ⟨_, rfl, ?_⟩
      cases x with
      | o x => rfl
      | t T' =>
        obtain ⟨v, rfl⟩ := front_zero_leaves T T' (List.mem_of_getElem? h)
        rfl
  · intro i p h; rw [hpos] at h; cases h
  · intro i j p h; rw [hpos] at h; cases h
  · intro p h; simp at h

/-- No step of the compilation of these contexts meets a defective placement. -/
def cleanRun (cs : List (Ctx V)) : Bool := cleanLevels (List.range 17) (⟨cs, []⟩, 1)

theorem compile_tree (hI : I.Lawful) {T : Tree V} (hok : T.ok) (hb : T.births ≤ 253)
    (hg : cleanRun (initial T) = true ∨ T.births ≤ 2) (base : List V) :
    ∃ code, compile T.tokens = some code ∧ run I code base = some (T.eval I :: base) := by
  rw [compile, toContexts_ok hok, Option.bind_some]
  by_cases hleaf : ∃ v, T = .leaf v
  · obtain ⟨v, rfl⟩ := hleaf
    exact ⟨_, rfl, rfl⟩
  · have hlen : (initial T).length ≠ 1 := by
      intro h
      have h1 : (front 0 T).length ≤ 1 := by
        simp only [initial, List.length_map] at h; omega
      have := front_single h1
      exact hleaf (front_zero_leaves T T (by rw [this]; simp))
    have hpos : 1 ≤ (initial T).length := by
      have := front_length_pos 0 T
      simpa [initial] using this
    obtain ⟨s', h1, h2⟩ := levels_tree hI hok hb (front 0 T).length 17 0 _ rfl (initial_st (I := I) T) (by
      rcases hg with hg | hg
      · left; rw [← List.range_eq_range']; exact hg
      · right; exact hg)
    rw [← List.range_eq_range'] at h1
    obtain ⟨⟨top, R, hl⟩, hcount⟩ := h2
    have hn : s'.2 = (initial T).length := by
      simp only [List.length_singleton, initial, List.length_map] at hcount ⊢; omega
    refine ⟨s'.1.code, ?_, ?_⟩
    · unfold resolveExpression
      match hc : initial T, hlen, hpos with
      | [], _, hp => simp at hp
      | [x], hl, _ => simp at hl
      | x :: y :: zs, _, _ =>
        simp only
        rw [← hc, h1]
        simp only
        rw [if_neg (by omega)]
    · have hT : T.isLeaf = false := by
        cases T with
        | leaf v => exact absurd ⟨v, rfl⟩ hleaf
        | _ => rfl
      have hl1 : top.length = 1 := by rw [hl]; simp [nlds, Item.nld, hT]
      have hslot : (Item.t T).slot I = .ld (T.eval I) := by
        cases T with
        | leaf v => exact absurd ⟨v, rfl⟩ hleaf
        | _ => rfl
      obtain ⟨p, hp, hv⟩ := R.posAt_ld (i := 0) (v := T.eval I) (by simp [hslot])
      have hb := R.bound _ _ hp
      rw [R.code base]
      match top, hl1, hv with
      | [x], _, hv =>
        have : p = 0 := by simp at hb; omega
        subst this
        simp at hv
        rw [hv]
        rfl

end Wrench.Expr
