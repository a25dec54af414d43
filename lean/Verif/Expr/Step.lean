import Verif.Expr.Rep

/-
One resolution step of the expression compiler preserves the representation invariant,
unless it runs into one of the defective operand placements (`Bad`).
-/
namespace Wrench.Expr

variable {V : Type} {I : Interp V} {e : Ex V} {S : List (Slot V)} {top : List V}

theorem set_same {α : Type} {l : List α} {i : Nat} {x : α} (h : l[i]? = some x) : l.set i x = l := by
  apply List.ext_getElem?
  intro j
  by_cases hij : i = j
  · subst hij
    rw [List.getElem?_set_self (List.getElem?_eq_some_iff.1 h).1, h]
  · rw [List.getElem?_set_ne hij]

theorem relabel_get (p : Nat) (cs : List (Ctx V)) (i : Nat) :
    (relabel p cs)[i]? = (cs[i]?).map fun c : Ctx V => { c with pos := c.pos.map (tr p) } := by
  unfold relabel
  rw [List.getElem?_map]
  cases cs[i]? with
  | none => rfl
  | some c =>
    rcases c with ⟨k, _ | q⟩
    · simp
    · simp only [Option.map_some, tr]
      by_cases h1 : q = p
      · simp [h1]
      · by_cases h2 : q = 0
        · subst h2
          have : ¬ (0 = p) := by omega
          simp [this]
        · simp [h1, h2]

theorem swapWithTop_get (p : Nat) (b : Bool) (e : Ex V) (i : Nat) :
    (swapWithTop p b e).ctx[i]? = (e.ctx[i]?).map fun c : Ctx V => { c with pos := c.pos.map (tr p) } := by
  by_cases h : p = 0
  · subst h
    have : tr 0 = id := by funext q; unfold tr; split <;> simp_all
    simp [swapWithTop, this]
  · simp only [swapWithTop, h, if_false]
    exact relabel_get p e.ctx i

theorem swapWithTop_pos (p : Nat) (b : Bool) (e : Ex V) (i : Nat) :
    posAt (swapWithTop p b e).ctx i = (posAt e.ctx i).map (tr p) := by
  unfold posAt
  rw [swapWithTop_get]
  cases e.ctx[i]? <;> simp

theorem tr_self (p : Nat) : tr p p = 0 := by simp [tr]
theorem tr_zero (p : Nat) : tr p 0 = p := by
  unfold tr; split
  · next h => exact h
  · rfl
theorem tr_ne {p q : Nat} (h1 : q ≠ p) (h2 : q ≠ 0) : tr p q = q := by simp [tr, h1, h2]

theorem posOf_eq (e : Ex V) (i : Nat) : posOf e i = posAt e.ctx i := rfl

/-- Context `d` stands for the value `v`, loaded or not. -/
def IsVal (S : List (Slot V)) (d : Nat) (v : V) : Prop :=
  S[d]? = some (.unl v) ∨ S[d]? = some (.ld v)

/-- 1 if context `d` is not loaded yet. -/
def unlAt (S : List (Slot V)) (d : Nat) : Nat :=
  match S[d]? with
  | some (.unl _) => 1
  | _ => 0

theorem Rep.isVal_none (R : Rep I e S top) {d : Nat} {v : V} (h : IsVal S d v)
    (hp : posAt e.ctx d = none) : S[d]? = some (.unl v) := by
  rcases h with h | h
  · exact h
  · obtain ⟨p, h1, _⟩ := R.posAt_ld h
    rw [hp] at h1; cases h1

theorem Rep.isVal_some (R : Rep I e S top) {d p : Nat} {v : V} (h : IsVal S d v)
    (hp : posAt e.ctx d = some p) : S[d]? = some (.ld v) ∧ top[p]? = some v := by
  rcases h with h | h
  · rw [R.posAt_unl h] at hp; cases hp
  · obtain ⟨q, h1, h2⟩ := R.posAt_ld h
    rw [hp] at h1; cases h1
    exact ⟨h, h2⟩

/-- The instruction `SwapTwoToTop` with the bookkeeping of `swapBoth`, first operand in
position 0 or 1. -/
theorem Rep.swapBoth (R : Rep I e S top) {a b f s : Nat} (hf : posAt e.ctx a = some f)
    (hs : posAt e.ctx b = some s) (hf1 : f ≤ 1) (hs2 : 2 ≤ s) (h255 : top.length ≤ 255) :
    ∃ top', Rep I (swapBoth a b e) S top' ∧ top'.length = top.length ∧
      posAt (Expr.swapBoth a b e).ctx a = some 0 ∧ posAt (Expr.swapBoth a b e).ctx b = some 1 := by
  have hsb := R.bound b s hs
  obtain ⟨t1, hl1, hr1, a1, b1, c1⟩ := exists_swap (i := 0) (j := f) (st := top) (by omega) (by omega)
  obtain ⟨t2, hl2, hr2, a2, b2, c2⟩ := exists_swap (i := 1) (j := s) (st := t1) (by omega) (by omega)
  -- bookkeeping: transpositions s, 1, then the position of the first operand
  obtain ⟨r, hr⟩ : ∃ r, r = tr 1 (tr s f) := ⟨_, rfl⟩
  let e0 := emit (.swapTwoToTop (posByte e a) (posByte e b)) e
  have hp2 : ∀ i, posAt (swapWithTop 1 false (swapWithTop s false e0)).ctx i
      = (posAt e.ctx i).map (fun q => tr 1 (tr s q)) := by
    intro i
    rw [swapWithTop_pos, swapWithTop_pos]
    show Option.map _ (Option.map _ (posAt e.ctx i)) = _
    cases posAt e.ctx i <;> rfl
  have heq : Expr.swapBoth a b e = swapWithTop r false (swapWithTop 1 false (swapWithTop s false e0)) := by
    have h1 : posOf e0 b = some s := hs
    have h2 : posOf (swapWithTop 1 false (swapWithTop s false e0)) a = some r := by
      rw [posOf_eq, hp2, hf, hr]; rfl
    show swapCtx a false (swapWithTop 1 false (swapCtx b false e0)) = _
    unfold swapCtx
    rw [h1]
    simp only
    rw [h2]
  have hpos : ∀ i, posAt (Expr.swapBoth a b e).ctx i = (posAt e.ctx i).map (fun q => tr r (tr 1 (tr s q))) := by
    intro i
    rw [heq, swapWithTop_pos, hp2]
    cases posAt e.ctx i <;> rfl
  have hget : ∀ i : Nat, (Expr.swapBoth a b e).ctx[i]? = (e.ctx[i]?).map fun c : Ctx V =>
      { c with pos := c.pos.map (fun q => tr r (tr 1 (tr s q))) } := by
    intro i
    rw [heq, swapWithTop_get, swapWithTop_get, swapWithTop_get]
    show Option.map _ (Option.map _ (Option.map _ (e.ctx[i]?))) = _
    cases e.ctx[i]? with
    | none => rfl
    | some c => rcases c with ⟨k, _ | q⟩ <;> rfl
  have hcode : (Expr.swapBoth a b e).code = e.code ++ [.swapTwoToTop (f + 1) (s + 1)] := by
    have hc : ∀ p (x : Ex V), (swapWithTop p false x).code = x.code := by
      intro p x; unfold swapWithTop; split <;> rfl
    rw [heq, hc, hc, hc]
    show e.code ++ [.swapTwoToTop (posByte e a) (posByte e b)] = _
    simp only [posByte, posOf_eq, hf, hs, Option.getD_some]
    rw [Nat.mod_eq_of_lt (by omega), Nat.mod_eq_of_lt (by omega)]
  have hlt : ∀ p q, p < top.length → q < top.length → tr p q < top.length := by
    intro p q h1 h2; unfold tr; repeat' split
    all_goals omega
  have hrl : r < top.length := by
    rw [hr]; exact hlt _ _ (by omega) (hlt _ _ hsb (by omega))
  refine ⟨t2, R.rename (fun q => tr r (tr 1 (tr s q))) (fun q => tr s (tr 1 (tr r q))) _ t2 ?_ hget
    (by omega) ?_ ?_ ?_ ?_ ?_, by omega, ?_, ?_⟩
  · intro base
    rw [hcode, run_snoc I _ (R.code base)]
    simp only [exec, Nat.add_sub_cancel]
    rw [if_neg (by omega), hr1]
    simp only [Option.bind_some, hr2]
  · intro q hq; exact hlt _ _ hrl (hlt _ _ (by omega) (hlt _ _ hsb hq))
  · intro q hq; exact hlt _ _ hsb (hlt _ _ (by omega) (hlt _ _ hrl hq))
  · intro q _; simp only [tr_tr]
  · intro q _; simp only [tr_tr]
  · intro q hq
    rcases (by omega : f = 0 ∨ f = 1) with rfl | rfl
    · have hr' : r = s := by rw [hr, tr_zero, tr_ne (by omega) (by omega)]
      subst hr'
      by_cases h0 : q = 0
      · subst h0
        rw [tr_zero, tr_ne (p := 1) (by omega) (by omega), tr_self, c2 0 (by omega) (by omega), a1]
      · by_cases h1 : q = 1
        · subst h1
          rw [tr_ne (p := r) (q := 1) (by omega) (by omega), tr_self, tr_zero, b2, c1 1 (by omega) (by omega)]
        · by_cases h2 : q = r
          · subst h2
            rw [tr_self, tr_zero, tr_ne (by omega) (by omega), a2, c1 q (by omega) (by omega)]
          · rw [tr_ne (p := r) h2 h0, tr_ne (p := 1) h1 h0, tr_ne h2 h0, c2 q h1 h2, c1 q h0 h0]
    · have hr' : r = 0 := by rw [hr, tr_ne (p := s) (by omega) (by omega), tr_self]
      subst hr'
      by_cases h0 : q = 0
      · subst h0
        rw [tr_zero s, tr_ne (p := 1) (by omega) (by omega), tr_ne (p := 0) (by omega) (by omega), b2, b1]
      · by_cases h1 : q = 1
        · subst h1
          rw [tr_ne (p := s) (by omega) (by omega), tr_self, tr_self, c2 0 (by omega) (by omega), a1]
        · by_cases h2 : q = s
          · subst h2
            rw [tr_self, tr_zero, tr_ne (by omega) (by omega), a2, c1 q (by omega) (by omega)]
          · rw [tr_ne (p := s) h2 h0, tr_ne (p := 1) h1 h0, tr_ne h0 h0, c2 q h1 h2, c1 q h0 h1]
  · rw [hpos, hf]; simp only [Option.map_some]; rw [← hr, tr_self]
  · rw [hpos, hs]; simp only [Option.map_some]
    rw [tr_self, tr_zero]
    rcases (by omega : f = 0 ∨ f = 1) with rfl | rfl
    · have hr' : r = s := by rw [hr, tr_zero, tr_ne (by omega) (by omega)]
      rw [tr_ne (by omega) (by omega)]
    · have hr' : r = 0 := by rw [hr, tr_ne (p := s) (by omega) (by omega), tr_self]
      rw [tr_ne (by omega) (by omega)]

/-- The defective placements: both operands loaded, the first below the top two positions,
the second not in position 1. -/
def Bad (e : Ex V) (o : Nat) : Prop :=
  ∃ f s, posAt e.ctx (o - 1) = some f ∧ posAt e.ctx (o + 1) = some s ∧ 2 ≤ f ∧ s ≠ 1

/-- The operands are in positions 0 and 1, in the given order. -/
def Placed (I : Interp V) (e : Ex V) (S : List (Slot V)) (n a b : Nat) : Prop :=
  ∃ top, Rep I e S top ∧ top.length = n ∧ posAt e.ctx a = some 0 ∧ posAt e.ctx b = some 1

theorem unlAt_unl {S : List (Slot V)} {d : Nat} {v : V} (h : S[d]? = some (.unl v)) : unlAt S d = 1 := by
  unfold unlAt; rw [h]

theorem unlAt_ld {S : List (Slot V)} {d : Nat} {v : V} (h : S[d]? = some (.ld v)) : unlAt S d = 0 := by
  unfold unlAt; rw [h]

theorem place_commute (R : Rep I e S top) {f s : Nat} {a c : V} (hne : f ≠ s)
    (ha : IsVal S f a) (hc : IsVal S s c) (h255 : top.length + 2 ≤ 255)
    (hb : ¬ ∃ pf ps, posAt e.ctx f = some pf ∧ posAt e.ctx s = some ps ∧ 2 ≤ pf ∧ ps ≠ 1) :
    let S' := (S.set f (.ld a)).set s (.ld c)
    let n := top.length + unlAt S f + unlAt S s
    Placed I (placeCommute f s e) S' n f s ∨ Placed I (placeCommute f s e) S' n s f := by
  intro S' n
  cases hs : posAt e.ctx s with
  | none =>
    have hsu := R.isVal_none hc hs
    cases hf : posAt e.ctx f with
    | none =>
      have hfu := R.isVal_none ha hf
      obtain ⟨R1, p1, _⟩ := R.load hfu
      have hsu1 : (S.set f (.ld a))[s]? = some (.unl c) := by rw [List.getElem?_set_ne hne]; exact hsu
      obtain ⟨R2, p2, q2⟩ := R1.load hsu1
      right
      refine ⟨c :: a :: top, ?_, ?_, ?_, ?_⟩
      · simpa [placeCommute, posOf_eq, hs, hf] using R2
      · simp only [List.length_cons, n, unlAt_unl hfu, unlAt_unl hsu]
      · simpa [placeCommute, posOf_eq, hs, hf] using p2
      · simpa [placeCommute, posOf_eq, hs, hf] using q2 f 0 hne p1
    | some p =>
      obtain ⟨hfl, _⟩ := R.isVal_some ha hf
      obtain ⟨top', R1, l1, p1⟩ := R.swap (R.bound f p hf) (by omega)
      obtain ⟨R2, p2, q2⟩ := R1.load hsu
      right
      refine ⟨c :: top', ?_, ?_, ?_, ?_⟩
      · have : S' = S.set s (.ld c) := by simp only [S', set_same hfl]
        rw [this]
        simpa [placeCommute, posOf_eq, hs, hf] using R2
      · simp only [List.length_cons, n, unlAt_ld hfl, unlAt_unl hsu, l1, Nat.add_zero]
      · simpa [placeCommute, posOf_eq, hs, hf] using p2
      · simpa [placeCommute, posOf_eq, hs, hf] using q2 f 0 hne (by rw [p1, hf]; simp [tr])
  | some q =>
    obtain ⟨hsl, _⟩ := R.isVal_some hc hs
    cases hf : posAt e.ctx f with
    | none =>
      have hfu := R.isVal_none ha hf
      obtain ⟨top', R1, l1, p1⟩ := R.swap (R.bound s q hs) (by omega)
      obtain ⟨R2, p2, q2⟩ := R1.load hfu
      left
      refine ⟨a :: top', ?_, ?_, ?_, ?_⟩
      · have : S' = S.set f (.ld a) := by
          simp only [S']; rw [set_same]; rw [List.getElem?_set_ne hne]; exact hsl
        rw [this]
        simpa [placeCommute, posOf_eq, hs, hf] using R2
      · simp only [List.length_cons, n, unlAt_unl hfu, unlAt_ld hsl, l1]
      · simpa [placeCommute, posOf_eq, hs, hf] using p2
      · simpa [placeCommute, posOf_eq, hs, hf] using
          q2 s 0 (fun h => hne h.symm) (by rw [p1, hs]; simp [tr])
    | some p =>
      obtain ⟨hfl, _⟩ := R.isVal_some ha hf
      have hS : S' = S := by simp only [S', set_same hfl, set_same hsl]
      have hn : n = top.length := by simp only [n, unlAt_ld hfl, unlAt_ld hsl]; omega
      have hpq : p ≠ q := by
        intro h; exact hne (R.inj f s p hf (by rw [hs, h]))
      rw [hS, hn]
      by_cases hq1 : q = 1
      · obtain ⟨top', R1, l1, p1⟩ := R.swap (R.bound f p hf) (by omega)
        left
        have he : placeCommute f s e = swapWithTop p true e := by
          simp [placeCommute, posOf_eq, hs, hf, hq1]
        rw [he]
        refine ⟨top', R1, l1, by rw [p1, hf]; simp [tr], ?_⟩
        rw [p1, hs]; simp only [Option.map_some, tr]; congr 1
        repeat' split
        all_goals omega
      · by_cases hp1 : p = 1
        · obtain ⟨top', R1, l1, p1⟩ := R.swap (R.bound s q hs) (by omega)
          right
          have he : placeCommute f s e = swapWithTop q true e := by
            simp [placeCommute, posOf_eq, hs, hf, hq1, hp1]
          rw [he]
          refine ⟨top', R1, l1, by rw [p1, hs]; simp [tr], ?_⟩
          rw [p1, hf]; simp only [Option.map_some, tr]; congr 1
          repeat' split
          all_goals omega
        · have hp2 : ¬ 2 ≤ p := fun h => hb ⟨p, q, hf, hs, h, hq1⟩
          obtain ⟨top', R1, l1, p1, p2⟩ := R.swapBoth hf hs (by omega) (by omega) (by omega)
          left
          have he : placeCommute f s e = Expr.swapBoth f s e := by
            simp [placeCommute, posOf_eq, hs, hf, hq1, hp1]
          rw [he]
          exact ⟨top', R1, l1, p1, p2⟩

theorem place_binary (R : Rep I e S top) (b : Bin) {f s : Nat} {a c : V} (hne : f ≠ s)
    (ha : IsVal S f a) (hc : IsVal S s c) (h255 : top.length + 2 ≤ 255)
    (hb : ¬ ∃ pf ps, posAt e.ctx f = some pf ∧ posAt e.ctx s = some ps ∧ 2 ≤ pf ∧ ps ≠ 1) :
    let S' := (S.set f (.ld a)).set s (.ld c)
    let n := top.length + unlAt S f + unlAt S s
    ((placeBinary b f s e).2 = false ∧ Placed I (placeBinary b f s e).1 S' n f s) ∨
    ((placeBinary b f s e).2 = true ∧ b.alt.isSome ∧ Placed I (placeBinary b f s e).1 S' n s f) := by
  intro S' n
  cases hs : posAt e.ctx s with
  | none =>
    have hsu := R.isVal_none hc hs
    cases hf : posAt e.ctx f with
    | none =>
      have hfu := R.isVal_none ha hf
      obtain ⟨R1, p1, _⟩ := R.load hsu
      have hfu1 : (S.set s (.ld c))[f]? = some (.unl a) := by
        rw [List.getElem?_set_ne (fun h => hne h.symm)]; exact hfu
      obtain ⟨R2, p2, q2⟩ := R1.load hfu1
      left
      have he : placeBinary b f s e = (load f (load s e), false) := by
        simp [placeBinary, posOf_eq, hs, hf]
      rw [he]
      refine ⟨rfl, a :: c :: top, ?_, ?_, p2, q2 s 0 (fun h => hne h.symm) p1⟩
      · have : S' = (S.set s (.ld c)).set f (.ld a) := List.set_comm _ _ hne
        rw [this]; exact R2
      · simp only [List.length_cons, n, unlAt_unl hfu, unlAt_unl hsu]
    | some p =>
      obtain ⟨hfl, _⟩ := R.isVal_some ha hf
      obtain ⟨top', R1, l1, p1⟩ := R.swap (R.bound f p hf) (by omega)
      obtain ⟨R2, p2, q2⟩ := R1.load hsu
      have hS : S' = S.set s (.ld c) := by simp only [S', set_same hfl]
      have hn : n = (c :: top').length := by
        simp only [List.length_cons, n, unlAt_ld hfl, unlAt_unl hsu, l1, Nat.add_zero]
      have q2' := q2 f 0 hne (by rw [p1, hf]; simp [tr])
      rw [hS, hn]
      cases halt : b.alt with
      | none =>
        left
        have he : placeBinary b f s e = (swapWithTop 1 true (load s (swapWithTop p true e)), false) := by
          simp [placeBinary, posOf_eq, hs, hf, halt]
        rw [he]
        obtain ⟨top3, R3, l3, p3⟩ := R2.swap (p := 1) (by
          have := R2.bound f _ q2'; omega) (by simp; omega)
        refine ⟨rfl, top3, R3, l3, by rw [p3, q2']; simp [tr], by rw [p3, p2]; simp [tr]⟩
      | some b' =>
        right
        have he : placeBinary b f s e = (load s (swapWithTop p true e), true) := by
          simp [placeBinary, posOf_eq, hs, hf, halt]
        rw [he]
        exact ⟨rfl, rfl, c :: top', R2, rfl, p2, q2'⟩
  | some q =>
    obtain ⟨hsl, _⟩ := R.isVal_some hc hs
    left
    cases hf : posAt e.ctx f with
    | none =>
      have hfu := R.isVal_none ha hf
      obtain ⟨top', R1, l1, p1⟩ := R.swap (R.bound s q hs) (by omega)
      obtain ⟨R2, p2, q2⟩ := R1.load hfu
      have he : placeBinary b f s e = (load f (swapWithTop q true e), false) := by
        simp [placeBinary, posOf_eq, hs, hf]
      rw [he]
      refine ⟨rfl, a :: top', ?_, ?_, p2, q2 s 0 (fun h => hne h.symm) (by rw [p1, hs]; simp [tr])⟩
      · have : S' = S.set f (.ld a) := by
          simp only [S']; rw [set_same]; rw [List.getElem?_set_ne hne]; exact hsl
        rw [this]; exact R2
      · simp only [List.length_cons, n, unlAt_unl hfu, unlAt_ld hsl, l1]
    | some p =>
      obtain ⟨hfl, _⟩ := R.isVal_some ha hf
      have hS : S' = S := by simp only [S', set_same hfl, set_same hsl]
      have hn : n = top.length := by simp only [n, unlAt_ld hfl, unlAt_ld hsl]; omega
      have hpq : p ≠ q := by
        intro h; exact hne (R.inj f s p hf (by rw [hs, h]))
      rw [hS, hn]
      by_cases hq1 : q = 1
      · by_cases hp0 : p = 0
        · have he : placeBinary b f s e = (e, false) := by
            simp [placeBinary, posOf_eq, hs, hf, hq1, hp0]
          rw [he]
          exact ⟨rfl, top, R, rfl, by rw [hf, hp0], by rw [hs, hq1]⟩
        · obtain ⟨top', R1, l1, p1⟩ := R.swap (R.bound f p hf) (by omega)
          have he : placeBinary b f s e = (swapWithTop p true e, false) := by
            simp [placeBinary, posOf_eq, hs, hf, hq1, hp0]
          rw [he]
          refine ⟨rfl, top', R1, l1, by rw [p1, hf]; simp [tr], ?_⟩
          rw [p1, hs]; simp only [Option.map_some, tr]; congr 1
          repeat' split
          all_goals omega
      · have hp2 : ¬ 2 ≤ p := fun h => hb ⟨p, q, hf, hs, h, hq1⟩
        by_cases hq0 : q = 0
        · have hp1 : p = 1 := by omega
          have he : placeBinary b f s e = (swapWithTop 1 true e, false) := by
            simp [placeBinary, posOf_eq, hs, hf, hq0, hp1]
          rw [he]
          obtain ⟨top', R1, l1, p1⟩ := R.swap (p := 1) (by rw [← hp1]; exact R.bound f p hf) (by omega)
          exact ⟨rfl, top', R1, l1, by rw [p1, hf, hp1]; simp [tr], by rw [p1, hs, hq0]; simp [tr]⟩
        · obtain ⟨top', R1, l1, p1, p2⟩ := R.swapBoth hf hs (by omega) (by omega) (by omega)
          have he : placeBinary b f s e = (Expr.swapBoth f s e, false) := by
            simp [placeBinary, posOf_eq, hs, hf, hq1, hq0]
          rw [he]
          exact ⟨rfl, top', R1, l1, p1, p2⟩

/-! ### Replacing the operator and its operands by the result -/

theorem Rep.collapse (R : Rep I e S top) (e' : Ex V) (cs : List (Ctx V)) (S' : List (Slot V))
    (n g : Nat) (r : V) (φ : Nat → Nat) (hn : n < cs.length) (he' : e'.ctx = pushToStack n cs)
    (hlen : cs.length = S'.length)
    (hk : (cs[n]?).map Ctx.kind = some .resolved) (hS : S'[n]? = some (.ld r))
    (hctx : ∀ i, i ≠ n → cs[i]? = e.ctx[φ i]?) (hslot : ∀ i, i ≠ n → S'[i]? = S[φ i]?)
    (hinj : ∀ i j, i ≠ n → j ≠ n → φ i = φ j → i = j) (hg : g ≤ top.length)
    (hge : ∀ i p, i ≠ n → posAt e.ctx (φ i) = some p → g ≤ p)
    (hcov : ∀ j p, posAt e.ctx j = some p → g ≤ p → ∃ i, i ≠ n ∧ φ i = j)
    (hcode : ∀ base, run I e'.code base = some (r :: top.drop g ++ base)) :
    Rep I e' S' (r :: top.drop g) := by
  have hposφ : ∀ i, i ≠ n → posAt cs i = posAt e.ctx (φ i) := by
    intro i hi; unfold posAt; rw [hctx i hi]
  have hpush := pushToStack_eq cs n g top.length hn
    (fun i q hi hq => by
      rw [hposφ i hi] at hq
      exact ⟨hge i q hi hq, R.bound _ q hq⟩)
    (fun q h1 h2 => by
      obtain ⟨j, hj⟩ := R.surj q h2
      obtain ⟨i, hi, rfl⟩ := hcov j q hj h1
      exact ⟨i, hi, by rw [hposφ i hi]; exact hj⟩)
  have hget : ∀ i : Nat, e'.ctx[i]? = (cs[i]?).map fun c : Ctx V =>
      if i = n then { c with pos := some 0 } else { c with pos := c.pos.map fun q => q - g + 1 } := by
    intro i; rw [he', hpush, List.getElem?_mapIdx]
  have hpn : posAt e'.ctx n = some 0 := by
    unfold posAt; rw [hget, List.getElem?_eq_getElem hn]; simp
  have hpi : ∀ i, i ≠ n → posAt e'.ctx i = (posAt e.ctx (φ i)).map fun q => q - g + 1 := by
    intro i hi
    rw [← hposφ i hi]
    unfold posAt; rw [hget]
    cases cs[i]? <;> simp [hi]
  refine ⟨fun base => hcode base, by rw [he', hpush, List.length_mapIdx, hlen], ?_, ?_, ?_, ?_⟩
  · intro i s hs
    rw [hget]
    by_cases hi : i = n
    · subst hi
      rw [hS] at hs; cases hs
      rw [List.getElem?_eq_getElem hn] at hk ⊢
      simp only [Option.map_some, if_true, Option.some.injEq] at hk ⊢
      refine ⟨_, rfl, 0, ?_, rfl⟩
      rw [hk]
    · rw [hslot i hi] at hs
      obtain ⟨c, hc, hok⟩ := R.slot _ s hs
      rw [hctx i hi, hc]
      refine ⟨_, rfl, ?_⟩
      simp only [hi, if_false]
      cases s with
      | opr o => simp only [SlotOK] at hok ⊢; subst hok; rfl
      | unl w => simp only [SlotOK] at hok ⊢; subst hok; rfl
      | ld w =>
        obtain ⟨p, rfl, hp⟩ := hok
        have hgp := hge i p hi (by unfold posAt; rw [hc]; rfl)
        refine ⟨p - g + 1, rfl, ?_⟩
        rw [List.getElem?_cons_succ, List.getElem?_drop, show g + (p - g) = p by omega]
        exact hp
  · intro i p hp
    by_cases hi : i = n
    · subst hi; rw [hpn] at hp; cases hp; simp
    · rw [hpi i hi] at hp
      cases hq : posAt e.ctx (φ i) with
      | none => simp [hq] at hp
      | some q =>
        have h1 := hge i q hi hq
        have h2 := R.bound _ q hq
        simp [hq] at hp
        simp; omega
  · intro i j p hi hj
    by_cases hin : i = n <;> by_cases hjn : j = n
    · rw [hin, hjn]
    · subst hin; rw [hpn] at hi; cases hi
      rw [hpi j hjn] at hj
      cases hq : posAt e.ctx (φ j) <;> simp [hq] at hj
    · subst hjn; rw [hpn] at hj; cases hj
      rw [hpi i hin] at hi
      cases hq : posAt e.ctx (φ i) <;> simp [hq] at hi
    · rw [hpi i hin] at hi
      rw [hpi j hjn] at hj
      cases hq : posAt e.ctx (φ i) with
      | none => simp [hq] at hi
      | some q =>
        cases hr : posAt e.ctx (φ j) with
        | none => simp [hr] at hj
        | some t =>
          have h1 := hge i q hin hq
          have h2 := hge j t hjn hr
          simp [hq] at hi; simp [hr] at hj
          exact hinj i j hin hjn (R.inj _ _ q hq (by rw [hr]; congr 1; omega))
  · intro p hp
    cases p with
    | zero => exact ⟨n, hpn⟩
    | succ p =>
      simp at hp
      obtain ⟨j, hj⟩ := R.surj (g + p) (by omega)
      obtain ⟨i, hi, rfl⟩ := hcov j _ hj (by omega)
      refine ⟨i, ?_⟩
      rw [hpi i hi, hj]
      simp

end Wrench.Expr
