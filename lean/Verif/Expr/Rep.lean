import Verif.Expr.Stack

/-
Representation invariant: the contexts describe the machine stack, and the effect of each
elementary compilation step on it.
-/
namespace Wrench.Expr

variable {V : Type}

/-- What a context stands for: an operator, an operand not yet loaded, a value that the
code emitted so far leaves on the stack. -/
inductive Slot (V : Type) where
  | opr (o : Oper)
  | unl (v : V)
  | ld (v : V)

def SlotOK (top : List V) (c : Ctx V) : Slot V → Prop
  | .opr o => c = ⟨.oper o, none⟩
  | .unl v => c = ⟨.operand v, none⟩
  | .ld v => ∃ p, c = ⟨.resolved, some p⟩ ∧ top[p]? = some v

/-- The code of `e` pushes exactly `top` on any stack `base`; context `i` stands for slot `S[i]`, and the
loaded contexts occupy each position of `top` exactly once. -/
structure Rep (I : Interp V) (e : Ex V) (S : List (Slot V)) (top : List V) : Prop where
  code : ∀ base, run I e.code base = some (top ++ base)
  len : e.ctx.length = S.length
  slot : ∀ (i : Nat) (s : Slot V), S[i]? = some s → ∃ c, e.ctx[i]? = some c ∧ SlotOK top c s
  bound : ∀ (i p : Nat), posAt e.ctx i = some p → p < top.length
  inj : ∀ (i j p : Nat), posAt e.ctx i = some p → posAt e.ctx j = some p → i = j
  surj : ∀ p : Nat, p < top.length → ∃ i, posAt e.ctx i = some p

theorem run_append (I : Interp V) (c1 c2 : List (Instr V)) (st : List V) :
    run I (c1 ++ c2) st = (run I c1 st).bind (run I c2) := by
  induction c1 generalizing st with
  | nil => rfl
  | cons i c1 ih =>
    simp only [List.cons_append, run]
    cases exec I i st with
    | none => rfl
    | some st' => exact ih st'

theorem run_snoc (I : Interp V) {c : List (Instr V)} {st st' : List V} (i : Instr V)
    (h : run I c st = some st') : run I (c ++ [i]) st = exec I i st' := by
  rw [run_append, h]
  simp only [Option.bind_some, run]
  cases exec I i st' <;> rfl

variable {I : Interp V} {e : Ex V} {S : List (Slot V)} {top : List V}

theorem Rep.posAt_ld (R : Rep I e S top) {i : Nat} {v : V} (h : S[i]? = some (.ld v)) :
    ∃ p, posAt e.ctx i = some p ∧ top[p]? = some v := by
  obtain ⟨c, hc, p, rfl, hp⟩ := R.slot i _ h
  exact ⟨p, by simp [posAt, hc], hp⟩

theorem Rep.posAt_unl (R : Rep I e S top) {i : Nat} {v : V} (h : S[i]? = some (.unl v)) :
    posAt e.ctx i = none := by
  obtain ⟨c, hc, rfl⟩ := R.slot i _ h
  simp [posAt, hc]

theorem Rep.posAt_opr (R : Rep I e S top) {i : Nat} {o : Oper} (h : S[i]? = some (.opr o)) :
    posAt e.ctx i = none := by
  obtain ⟨c, hc, rfl⟩ := R.slot i _ h
  simp [posAt, hc]

theorem Rep.posAt_some (R : Rep I e S top) {i p : Nat} (h : posAt e.ctx i = some p) :
    ∃ v, S[i]? = some (.ld v) ∧ top[p]? = some v := by
  have hi : i < S.length := by
    rw [← R.len]
    unfold posAt at h
    by_cases hc : i < e.ctx.length
    · exact hc
    · rw [List.getElem?_eq_none (by omega)] at h; simp at h
  obtain ⟨c, hc, hs⟩ := R.slot i _ (List.getElem?_eq_getElem hi)
  rw [List.getElem?_eq_getElem hi]
  cases hS : S[i] with
  | opr o => rw [hS] at hs; simp only [SlotOK] at hs; subst hs; simp [posAt, hc] at h
  | unl v => rw [hS] at hs; simp only [SlotOK] at hs; subst hs; simp [posAt, hc] at h
  | ld v =>
    rw [hS] at hs
    obtain ⟨q, rfl, hq⟩ := hs
    simp [posAt, hc] at h
    subst h
    exact ⟨v, rfl, hq⟩

/-! ### Loading an operand -/

theorem Rep.load (R : Rep I e S top) {d : Nat} {v : V} (h : S[d]? = some (.unl v)) :
    Rep I (load d e) (S.set d (.ld v)) (v :: top) ∧ posAt (load d e).ctx d = some 0 ∧
      ∀ i p, i ≠ d → posAt e.ctx i = some p → posAt (Expr.load d e).ctx i = some (p + 1) := by
  obtain ⟨c, hc, hcv⟩ := R.slot d _ h
  simp only [SlotOK] at hcv
  have hd : d < e.ctx.length := by
    rw [R.len]; exact (List.getElem?_eq_some_iff.1 h).1
  have hpush := pushToStack_eq e.ctx d 0 top.length hd
    (fun i q _ hq => ⟨Nat.zero_le _, R.bound i q hq⟩)
    (fun q _ hq => by
      obtain ⟨i, hi⟩ := R.surj q hq
      refine ⟨i, ?_, hi⟩
      rintro rfl
      rw [R.posAt_unl h] at hi; cases hi)
  have hctx : ∀ i, (Expr.load d e).ctx[i]? = (e.ctx[i]?).map fun c =>
      if i = d then ⟨.resolved, some 0⟩ else { c with pos := c.pos.map (· + 1) } := by
    intro i
    simp only [Expr.load, hpush, List.getElem?_modify, List.getElem?_mapIdx]
    cases e.ctx[i]? with
    | none => simp
    | some c' =>
      by_cases hid : i = d
      · subst hid; simp
      · have : d ≠ i := fun h => hid h.symm
        simp [hid, this]
  have hpos : ∀ i, posAt (Expr.load d e).ctx i = if i = d then some 0 else (posAt e.ctx i).map (· + 1) := by
    intro i
    unfold posAt
    rw [hctx]
    by_cases hid : i = d
    · subst hid; simp [hc]
    · cases e.ctx[i]? <;> simp [hid]
  refine ⟨⟨?_, ?_, ?_, ?_, ?_, ?_⟩, by simp [hpos], fun i p hid hp => by simp [hpos, hid, hp]⟩
  · intro base
    have : (Expr.load d e).code = e.code ++ [.load v] := by
      simp [Expr.load, hc, hcv]
    rw [this, run_snoc I _ (R.code base)]
    rfl
  · simp only [Expr.load, hpush, List.length_modify, List.length_mapIdx, List.length_set]
    exact R.len
  · intro i s hs
    rw [hctx]
    by_cases hid : i = d
    · subst hid
      rw [List.getElem?_set_self (by rw [← R.len]; exact hd)] at hs
      injection hs with hs
      subst hs
      rw [hc]
      exact ⟨_, rfl, 0, by simp, by simp⟩
    · rw [List.getElem?_set_ne (fun h => hid h.symm)] at hs
      obtain ⟨c', hc', hok⟩ := R.slot i s hs
      rw [hc']
      refine ⟨_, rfl, ?_⟩
      simp only [hid, if_false]
      cases s with
      | opr o => simp only [SlotOK] at hok ⊢; subst hok; rfl
      | unl w => simp only [SlotOK] at hok ⊢; subst hok; rfl
      | ld w =>
        obtain ⟨p, rfl, hp⟩ := hok
        exact ⟨p + 1, rfl, by simpa using hp⟩
  · intro i p hp
    rw [hpos] at hp
    split at hp
    · simp at hp; simp; omega
    · cases hq : posAt e.ctx i with
      | none => simp [hq] at hp
      | some q =>
        have := R.bound i q hq
        simp [hq] at hp
        simp; omega
  · intro i j p hi hj
    rw [hpos] at hi hj
    split at hi <;> split at hj
    · omega
    · cases hq : posAt e.ctx j with
      | none => simp [hq] at hj
      | some q => simp [hq] at hj hi; omega
    · cases hq : posAt e.ctx i with
      | none => simp [hq] at hi
      | some q => simp [hq] at hj hi; omega
    · cases hq : posAt e.ctx i with
      | none => simp [hq] at hi
      | some q =>
        cases hr : posAt e.ctx j with
        | none => simp [hr] at hj
        | some r =>
          simp [hq] at hi; simp [hr] at hj
          exact R.inj i j q hq (by rw [hr]; congr 1; omega)
  · intro p hp
    cases p with
    | zero => exact ⟨d, by simp [hpos]⟩
    | succ p =>
      obtain ⟨i, hi⟩ := R.surj p (by simpa using hp)
      refine ⟨i, ?_⟩
      rw [hpos, if_neg ?_, hi]
      · rfl
      · rintro rfl
        rw [R.posAt_unl h] at hi; cases hi

/-! ### Swapping -/

/-- The transposition of positions 0 and `p`. -/
def tr (p q : Nat) : Nat := if q = p then 0 else if q = 0 then p else q

theorem tr_tr (p q : Nat) : tr p (tr p q) = q := by
  unfold tr
  repeat' split
  all_goals omega

theorem posAt_relabel (p : Nat) (cs : List (Ctx V)) (i : Nat) :
    posAt (relabel p cs) i = (posAt cs i).map (tr p) := by
  unfold posAt relabel
  rw [List.getElem?_map]
  cases cs[i]? with
  | none => rfl
  | some c =>
    rcases c with ⟨k, _ | q⟩
    · simp
    · simp only [Option.map_some, Option.bind_some, tr]
      by_cases h1 : q = p
      · simp [h1]
      · by_cases h2 : q = 0
        · simp only [h2]
          have : ¬ (0 = p) := by omega
          simp [this]
        · simp [h1, h2]

/-- Renaming of positions: contexts relabelled by a bijection of the positions, stack permuted accordingly. -/
theorem Rep.rename (R : Rep I e S top) (τ σ : Nat → Nat) (e' : Ex V) (top' : List V)
    (hcode : ∀ base, run I e'.code base = some (top' ++ base))
    (hctx : ∀ i : Nat, e'.ctx[i]? = (e.ctx[i]?).map fun c : Ctx V => { c with pos := c.pos.map τ })
    (hlen : top'.length = top.length)
    (hτ : ∀ q, q < top.length → τ q < top.length) (hσ : ∀ q, q < top.length → σ q < top.length)
    (h1 : ∀ q, q < top.length → σ (τ q) = q) (h2 : ∀ q, q < top.length → τ (σ q) = q)
    (htop : ∀ q, q < top.length → top'[τ q]? = top[q]?) : Rep I e' S top' := by
  have hpos : ∀ i, posAt e'.ctx i = (posAt e.ctx i).map τ := by
    intro i; unfold posAt; rw [hctx]; cases e.ctx[i]? <;> simp
  have hlen' : e'.ctx.length = e.ctx.length := by
    apply Nat.le_antisymm
    · by_cases hc : e.ctx.length < e'.ctx.length
      · have := hctx e.ctx.length
        rw [List.getElem?_eq_none (Nat.le_refl _), List.getElem?_eq_getElem hc] at this
        simp at this
      · omega
    · by_cases hc : e'.ctx.length < e.ctx.length
      · have := hctx e'.ctx.length
        rw [List.getElem?_eq_none (Nat.le_refl _), List.getElem?_eq_getElem hc] at this
        simp at this
      · omega
  refine ⟨hcode, by rw [hlen', R.len], ?_, ?_, ?_, ?_⟩
  · intro i s hs
    obtain ⟨c, hc, hok⟩ := R.slot i s hs
    rw [hctx, hc]
    refine ⟨_, rfl, ?_⟩
    cases s with
    | opr o => simp only [SlotOK] at hok ⊢; subst hok; rfl
    | unl w => simp only [SlotOK] at hok ⊢; subst hok; rfl
    | ld w =>
      obtain ⟨p, rfl, hp⟩ := hok
      exact ⟨τ p, rfl, by rw [htop p (List.getElem?_eq_some_iff.1 hp).1]; exact hp⟩
  · intro i p hp
    rw [hpos] at hp
    cases hq : posAt e.ctx i with
    | none => simp [hq] at hp
    | some q => simp [hq] at hp; subst hp; rw [hlen]; exact hτ q (R.bound i q hq)
  · intro i j p hi hj
    rw [hpos] at hi hj
    cases hq : posAt e.ctx i with
    | none => simp [hq] at hi
    | some q =>
      cases hr : posAt e.ctx j with
      | none => simp [hr] at hj
      | some r =>
        simp [hq] at hi; simp [hr] at hj
        have : q = r := by
          rw [← h1 q (R.bound i q hq), ← h1 r (R.bound j r hr), hi, hj]
        exact R.inj i j q hq (by rw [hr, this])
  · intro p hp
    rw [hlen] at hp
    obtain ⟨i, hi⟩ := R.surj (σ p) (hσ p hp)
    exact ⟨i, by rw [hpos, hi]; simp [h2 p hp]⟩

/-- Exchange of positions 0 and `p` of a list. -/
theorem swapAt_app {st : List V} {i j : Nat} (hi : i < st.length) (hj : j < st.length) (base : List V) :
    ∃ st', st'.length = st.length ∧ swapAt i j (st ++ base) = some (st' ++ base) ∧
      st'[i]? = st[j]? ∧ st'[j]? = st[i]? ∧ ∀ k, k ≠ i → k ≠ j → st'[k]? = st[k]? := by
  have ei : (st ++ base)[i]? = some st[i] := by
    rw [List.getElem?_append_left hi, List.getElem?_eq_getElem hi]
  have ej : (st ++ base)[j]? = some st[j] := by
    rw [List.getElem?_append_left hj, List.getElem?_eq_getElem hj]
  refine ⟨(st.set i st[j]).set j st[i], by simp, ?_, ?_, ?_, ?_⟩
  · unfold swapAt
    rw [ei, ej]
    simp only
    rw [List.set_append_left i _ hi, List.set_append_left j _ (by simpa using hj)]
  · by_cases hij : i = j
    · subst hij
      rw [List.getElem?_set_self (by simpa using hi), List.getElem?_eq_getElem hi]
    · rw [List.getElem?_set_ne (fun h => hij h.symm), List.getElem?_set_self hi,
        List.getElem?_eq_getElem hj]
  · rw [List.getElem?_set_self (by simpa using hj), List.getElem?_eq_getElem hi]
  · intro k hki hkj
    rw [List.getElem?_set_ne (fun h => hkj h.symm), List.getElem?_set_ne (fun h => hki h.symm)]

theorem swapAt_base {st st' : List V} {i j : Nat} (hi : i < st.length) (hj : j < st.length)
    (base base' : List V) (h : swapAt i j (st ++ base) = some (st' ++ base))
    (hl : st'.length = st.length) :
    swapAt i j (st ++ base') = some (st' ++ base') := by
  obtain ⟨st1, hl1, h1, _⟩ := swapAt_app hi hj base
  have e1 : st' = st1 := by
    rw [h1] at h
    injection h with h
    exact (List.append_inj_left h (by rw [hl, hl1])).symm
  obtain ⟨st2, hl2, h2, a, b, c⟩ := swapAt_app hi hj base'
  obtain ⟨st1', hl1', h1', a', b', c'⟩ := swapAt_app hi hj base
  have e2 : st1 = st1' := by
    rw [h1'] at h1
    injection h1 with h1
    exact (List.append_inj_left h1 (by rw [hl1, hl1'])).symm
  have e3 : st2 = st1' := by
    apply List.ext_getElem?
    intro k
    by_cases hk : k = i
    · subst hk; rw [a, a']
    · by_cases hk2 : k = j
      · subst hk2; rw [b, b']
      · rw [c k hk hk2, c' k hk hk2]
  rw [h2, e3, e1, e2]

/-- The swapped list, independent of what is below. -/
theorem exists_swap {st : List V} {i j : Nat} (hi : i < st.length) (hj : j < st.length) :
    ∃ st', st'.length = st.length ∧ (∀ base, swapAt i j (st ++ base) = some (st' ++ base)) ∧
      st'[i]? = st[j]? ∧ st'[j]? = st[i]? ∧ ∀ k, k ≠ i → k ≠ j → st'[k]? = st[k]? := by
  obtain ⟨st', hl, h, a, b, c⟩ := swapAt_app hi hj []
  exact ⟨st', hl, fun base => swapAt_base hi hj [] base h hl, a, b, c⟩

/-- `swapWithTop` with its opcode. -/
theorem Rep.swap (R : Rep I e S top) {p : Nat} (hp : p < top.length) (h255 : top.length ≤ 255) :
    ∃ top', Rep I (swapWithTop p true e) S top' ∧ top'.length = top.length ∧
      ∀ i, posAt (swapWithTop p true e).ctx i = (posAt e.ctx i).map (tr p) := by
  by_cases h0 : p = 0
  · subst h0
    refine ⟨top, by simpa [swapWithTop] using R, rfl, ?_⟩
    intro i
    simp only [swapWithTop, if_true]
    have : tr 0 = id := by funext q; unfold tr; split <;> simp_all
    rw [this]; simp
  · obtain ⟨top', hl, hrun, ha, hb, hc⟩ := exists_swap (i := 0) (j := p) (st := top) (by omega) hp
    have hctx : (swapWithTop p true e).ctx = relabel p e.ctx := by simp [swapWithTop, h0]
    refine ⟨top', ?_, hl, fun i => by rw [hctx]; exact posAt_relabel p e.ctx i⟩
    have hrel : ∀ i : Nat, (relabel p e.ctx)[i]? = (e.ctx[i]?).map fun c : Ctx V => { c with pos := c.pos.map (tr p) } := by
      intro i
      unfold relabel
      rw [List.getElem?_map]
      cases e.ctx[i]? with
      | none => rfl
      | some c =>
        rcases c with ⟨k, _ | q⟩
        · simp
        · simp only [Option.map_some, tr]
          by_cases h1 : q = p
          · simp [h1]
          · by_cases h2 : q = 0
            · subst h2
              have : ¬ (0 = p) := by omega
              simp [this]
            · simp [h1, h2]
    refine R.rename (tr p) (tr p) _ top' ?_ (by rw [hctx]; exact hrel) hl ?_ ?_
      (fun q _ => tr_tr p q) (fun q _ => tr_tr p q) ?_
    · intro base
      have hcode : (swapWithTop p true e).code = e.code ++ [.stackSwap (p + 1)] := by
        simp only [swapWithTop, h0, if_false, if_true]
        rw [Nat.mod_eq_of_lt (by omega)]
      rw [hcode, run_snoc I _ (R.code base)]
      simp only [exec, Nat.add_sub_cancel, hrun]
      simp
    · intro q hq; unfold tr; repeat' split
      all_goals omega
    · intro q hq; unfold tr; repeat' split
      all_goals omega
    · intro q hq
      unfold tr
      split
      · next h => subst h; exact ha
      · split
        · next h => subst h; exact hb
        · next h1 h2 => exact hc q h2 h1

end Wrench.Expr
