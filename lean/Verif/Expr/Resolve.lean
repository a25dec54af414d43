import Verif.Expr.Step

/-
`resolveEx` replaces an operator and its operands by the value of the operation.
-/
namespace Wrench.Expr

variable {V : Type} {I : Interp V} {e : Ex V} {top : List V}

/-- A slot holding the value `v`. -/
def Slot.Holds (v : V) : Slot V → Prop
  | .opr _ => False
  | .unl w => w = v
  | .ld w => w = v

/-- 1 for an operand that still has to be loaded. -/
def Slot.cost : Slot V → Nat
  | .unl _ => 1
  | _ => 0

theorem Slot.Holds.isVal {A : Slot V} {v : V} (h : A.Holds v) {S : List (Slot V)} {d : Nat}
    (hd : S[d]? = some A) : IsVal S d v := by
  cases A with
  | opr o => exact h.elim
  | unl w => left; rw [hd, show w = v from h]
  | ld w => right; rw [hd, show w = v from h]

theorem Slot.Holds.unlAt {A : Slot V} {S : List (Slot V)} {d : Nat}
    (hd : S[d]? = some A) : unlAt S d = A.cost := by
  unfold Expr.unlAt
  rw [hd]
  cases A <;> rfl

/-- Bring one operand to the top: load it or swap it up. -/
theorem bring {S : List (Slot V)} (R : Rep I e S top) {d : Nat} {v : V} (h : IsVal S d v)
    (h255 : top.length + 1 ≤ 255) :
    ∃ top', Rep I (match posOf e d with
        | none => load d e
        | some p => swapWithTop p true e) (S.set d (.ld v)) top' ∧
      top'.length = top.length + unlAt S d ∧
      posAt (match posOf e d with
        | none => load d e
        | some p => swapWithTop p true e).ctx d = some 0 := by
  cases hp : posAt e.ctx d with
  | none =>
    have hu := R.isVal_none h hp
    obtain ⟨R1, p1, _⟩ := R.load hu
    simp only [posOf_eq, hp]
    exact ⟨_, R1, by simp [unlAt_unl hu], p1⟩
  | some p =>
    obtain ⟨hl, _⟩ := R.isVal_some h hp
    obtain ⟨top', R1, l1, p1⟩ := R.swap (R.bound d p hp) (by omega)
    simp only [posOf_eq, hp]
    refine ⟨top', ?_, by rw [unlAt_ld hl, l1, Nat.add_zero], by rw [p1, hp]; simp [tr]⟩
    rw [set_same hl]; exact R1

theorem finish_bin {xs ys : List (Slot V)} {o : Oper} {a c : V} {p q : Nat} (b' : Bin) (r : V)
    (R : Rep I e (xs ++ .ld a :: .opr o :: .ld c :: ys) top)
    (hf : posAt e.ctx xs.length = some p) (hs : posAt e.ctx (xs.length + 2) = some q)
    (hpq : (p = 0 ∧ q = 1 ∧ r = I.bin b' a c) ∨ (p = 1 ∧ q = 0 ∧ r = I.bin b' c a)) :
    Rep I { ctx := pushToStack xs.length ((e.ctx.eraseIdx xs.length).eraseIdx xs.length),
            code := e.code ++ [.app (.bin b')] } (xs ++ .ld r :: ys) (r :: top.drop 2) := by
  have hlen : e.ctx.length = xs.length + (ys.length + 3) := by
    rw [R.len]; simp
  have hcs : ∀ i : Nat, ((e.ctx.eraseIdx xs.length).eraseIdx xs.length)[i]?
      = e.ctx[if i < xs.length then i else i + 2]? := by
    intro i
    rw [List.getElem?_eraseIdx, List.getElem?_eraseIdx, List.getElem?_eraseIdx]
    by_cases h : i < xs.length
    · simp [h]
    · have : ¬ (i + 1 < xs.length) := by omega
      simp [h, this]
  have hla : top[p]? = some a := by
    obtain ⟨p', h1, h2⟩ := R.posAt_ld (i := xs.length) (v := a) (by simp)
    rw [hf] at h1; cases h1; exact h2
  have hlc : top[q]? = some c := by
    obtain ⟨p', h1, h2⟩ := R.posAt_ld (i := xs.length + 2) (v := c) (by
      rw [List.getElem?_append_right (by omega)]; simp)
    rw [hs] at h1; cases h1; exact h2
  have htop : ∃ x y rest, top = x :: y :: rest := by
    have h1 := R.bound _ _ hf
    have h2 := R.bound _ _ hs
    match top, h1, h2 with
    | [], h1, _ => simp at h1
    | [x], h1, h2 => simp at h1 h2; omega
    | x :: y :: rest, _, _ => exact ⟨x, y, rest, rfl⟩
  obtain ⟨x, y, rest, rfl⟩ := htop
  have hr : I.bin b' x y = r := by
    rcases hpq with ⟨rfl, rfl, rfl⟩ | ⟨rfl, rfl, rfl⟩
    · simp at hla hlc; rw [hla, hlc]
    · simp at hla hlc; rw [hla, hlc]
  refine R.collapse _ ((e.ctx.eraseIdx xs.length).eraseIdx xs.length) _ xs.length 2 r
    (fun i => if i < xs.length then i else i + 2) ?_ rfl ?_ ?_ (by simp) (fun i _ => hcs i) ?_ ?_
    (by simp) ?_ ?_ ?_
  · rw [List.length_eraseIdx_of_lt, List.length_eraseIdx_of_lt] <;>
      (try rw [List.length_eraseIdx_of_lt]) <;> omega
  · rw [List.length_eraseIdx_of_lt, List.length_eraseIdx_of_lt] <;>
      (try rw [List.length_eraseIdx_of_lt]) <;> (try simp) <;> omega
  · rw [hcs]
    obtain ⟨c', hc', p', rfl, _⟩ := R.slot (xs.length + 2) (.ld c) (by
      rw [List.getElem?_append_right (by omega)]; simp)
    simp [hc']
  · intro i hi
    by_cases h : i < xs.length
    · simp only [h, if_true]
      rw [List.getElem?_append_left h, List.getElem?_append_left h]
    · simp only [h, if_false]
      rw [List.getElem?_append_right (by omega), List.getElem?_append_right (by omega)]
      obtain ⟨k, rfl⟩ : ∃ k, i = xs.length + (k + 1) := ⟨i - xs.length - 1, by omega⟩
      rw [show xs.length + (k + 1) - xs.length = k + 1 by omega,
        show xs.length + (k + 1) + 2 - xs.length = k + 3 by omega]
      rfl
  · intro i j hi hj h
    try simp only at h
    split at h <;> split at h <;> omega
  · intro i p' hi hp'
    try simp only at hp'
    rcases Nat.lt_or_ge p' 2 with h2 | h2
    · exfalso
      rcases hpq with ⟨rfl, rfl, _⟩ | ⟨rfl, rfl, _⟩ <;>
      · rcases (by omega : p' = 0 ∨ p' = 1) with rfl | rfl
        · first
          | have := R.inj _ _ _ hp' hf; split at this <;> omega
          | have := R.inj _ _ _ hp' hs; split at this <;> omega
        · first
          | have := R.inj _ _ _ hp' hs; split at this <;> omega
          | have := R.inj _ _ _ hp' hf; split at this <;> omega
    · exact h2
  · intro j p' hj hp'
    have hjf : j ≠ xs.length := by
      rintro rfl; rw [hf] at hj; cases hj; omega
    have hjs : j ≠ xs.length + 2 := by
      rintro rfl; rw [hs] at hj; cases hj; omega
    have hjo : j ≠ xs.length + 1 := by
      rintro rfl
      rw [R.posAt_opr (o := o) (by rw [List.getElem?_append_right (by omega)]; simp)] at hj
      cases hj
    by_cases h : j < xs.length
    · exact ⟨j, by omega, by simp [h]⟩
    · refine ⟨j - 2, by omega, ?_⟩
      have : ¬ (j - 2 < xs.length) := by omega
      simp only [this, if_false]; omega
  · intro base
    rw [run_snoc I _ (R.code base)]
    simp [exec, hr]

theorem finish_pre {xs ys : List (Slot V)} {o : Oper} {a : V} (u : Pre)
    (R : Rep I e (xs ++ .opr o :: .ld a :: ys) top)
    (hf : posAt e.ctx (xs.length + 1) = some 0) :
    Rep I { ctx := pushToStack xs.length (e.ctx.eraseIdx xs.length),
            code := e.code ++ [.app (.pre u)] } (xs ++ .ld (I.pre u a) :: ys) (I.pre u a :: top.drop 1) := by
  have hlen : e.ctx.length = xs.length + (ys.length + 2) := by
    rw [R.len]; simp
  have hla : top[0]? = some a := by
    obtain ⟨p', h1, h2⟩ := R.posAt_ld (i := xs.length + 1) (v := a) (by
      rw [List.getElem?_append_right (by omega)]; simp)
    rw [hf] at h1; cases h1; exact h2
  have htop : ∃ rest, top = a :: rest := by
    cases top with
    | nil => simp at hla
    | cons x rest => simp at hla; exact ⟨rest, by rw [hla]⟩
  obtain ⟨rest, rfl⟩ := htop
  refine R.collapse _ (e.ctx.eraseIdx xs.length) _ xs.length 1 (I.pre u a)
    (fun i => if i < xs.length then i else i + 1) ?_ rfl ?_ ?_ (by simp)
    (fun i _ => by rw [List.getElem?_eraseIdx]; split <;> rfl) ?_ ?_ (by simp) ?_ ?_ ?_
  · rw [List.length_eraseIdx_of_lt] <;> omega
  · rw [List.length_eraseIdx_of_lt] <;> (try simp) <;> omega
  · rw [List.getElem?_eraseIdx]
    obtain ⟨c', hc', p', rfl, _⟩ := R.slot (xs.length + 1) (.ld a) (by
      rw [List.getElem?_append_right (by omega)]; simp)
    simp [hc']
  · intro i hi
    by_cases h : i < xs.length
    · simp only [h, if_true]
      rw [List.getElem?_append_left h, List.getElem?_append_left h]
    · simp only [h, if_false]
      rw [List.getElem?_append_right (by omega), List.getElem?_append_right (by omega)]
      obtain ⟨k, rfl⟩ : ∃ k, i = xs.length + (k + 1) := ⟨i - xs.length - 1, by omega⟩
      rw [show xs.length + (k + 1) - xs.length = k + 1 by omega,
        show xs.length + (k + 1) + 1 - xs.length = k + 2 by omega]
      rfl
  · intro i j hi hj h
    try simp only at h
    split at h <;> split at h <;> omega
  · intro i p' hi hp'
    try simp only at hp'
    rcases Nat.eq_zero_or_pos p' with rfl | h2
    · have := R.inj _ _ _ hp' hf
      split at this <;> omega
    · exact h2
  · intro j p' hj hp'
    have hjf : j ≠ xs.length + 1 := by
      rintro rfl; rw [hf] at hj; cases hj; omega
    have hjo : j ≠ xs.length := by
      rintro rfl
      rw [R.posAt_opr (o := o) (by simp)] at hj
      cases hj
    by_cases h : j < xs.length
    · exact ⟨j, by omega, by simp [h]⟩
    · refine ⟨j - 1, by omega, ?_⟩
      have : ¬ (j - 1 < xs.length) := by omega
      simp only [this, if_false]; omega
  · intro base
    rw [run_snoc I _ (R.code base)]
    simp [exec]

theorem finish_post {xs ys : List (Slot V)} {o : Oper} {a : V} (u : Post)
    (R : Rep I e (xs ++ .ld a :: .opr o :: ys) top)
    (hf : posAt e.ctx xs.length = some 0) :
    Rep I { ctx := pushToStack xs.length (e.ctx.eraseIdx (xs.length + 1)),
            code := e.code ++ [.app (.post u)] } (xs ++ .ld (I.post u a) :: ys)
            (I.post u a :: top.drop 1) := by
  have hlen : e.ctx.length = xs.length + (ys.length + 2) := by
    rw [R.len]; simp
  have hla : top[0]? = some a := by
    obtain ⟨p', h1, h2⟩ := R.posAt_ld (i := xs.length) (v := a) (by simp)
    rw [hf] at h1; cases h1; exact h2
  have htop : ∃ rest, top = a :: rest := by
    cases top with
    | nil => simp at hla
    | cons x rest => simp at hla; exact ⟨rest, by rw [hla]⟩
  obtain ⟨rest, rfl⟩ := htop
  refine R.collapse _ (e.ctx.eraseIdx (xs.length + 1)) _ xs.length 1 (I.post u a)
    (fun i => if i < xs.length then i else i + 1) ?_ rfl ?_ ?_ (by simp)
    (fun i hi => by
      rw [List.getElem?_eraseIdx]
      by_cases h : i < xs.length
      · rw [if_pos h, if_pos (by omega)]
      · rw [if_neg h, if_neg (by omega)]) ?_ ?_ (by simp) ?_ ?_ ?_
  · rw [List.length_eraseIdx_of_lt] <;> omega
  · rw [List.length_eraseIdx_of_lt] <;> (try simp) <;> omega
  · rw [List.getElem?_eraseIdx, if_pos (by omega)]
    obtain ⟨c', hc', p', rfl, _⟩ := R.slot xs.length (.ld a) (by simp)
    simp [hc']
  · intro i hi
    by_cases h : i < xs.length
    · simp only [h, if_true]
      rw [List.getElem?_append_left h, List.getElem?_append_left h]
    · simp only [h, if_false]
      rw [List.getElem?_append_right (by omega), List.getElem?_append_right (by omega)]
      obtain ⟨k, rfl⟩ : ∃ k, i = xs.length + (k + 1) := ⟨i - xs.length - 1, by omega⟩
      rw [show xs.length + (k + 1) - xs.length = k + 1 by omega,
        show xs.length + (k + 1) + 1 - xs.length = k + 2 by omega]
      rfl
  · intro i j hi hj h
    try simp only at h
    split at h <;> split at h <;> omega
  · intro i p' hi hp'
    try simp only at hp'
    rcases Nat.eq_zero_or_pos p' with rfl | h2
    · have := R.inj _ _ _ hp' hf
      split at this <;> omega
    · exact h2
  · intro j p' hj hp'
    have hjf : j ≠ xs.length := by
      rintro rfl; rw [hf] at hj; cases hj; omega
    have hjo : j ≠ xs.length + 1 := by
      rintro rfl
      rw [R.posAt_opr (o := o) (by rw [List.getElem?_append_right (by omega)]; simp)] at hj
      cases hj
    by_cases h : j < xs.length
    · exact ⟨j, by omega, by simp [h]⟩
    · refine ⟨j - 1, by omega, ?_⟩
      have : ¬ (j - 1 < xs.length) := by omega
      simp only [this, if_false]; omega
  · intro base
    rw [run_snoc I _ (R.code base)]
    simp [exec]

/-! ### The steps -/

theorem kind_opr {S : List (Slot V)} (R : Rep I e S top) {i : Nat} {o : Oper} (h : S[i]? = some (.opr o)) :
    (e.ctx[i]?).map Ctx.kind = some (.oper o) := by
  obtain ⟨c, hc, rfl⟩ := R.slot i _ h
  rw [hc]; rfl

theorem step_pre {xs ys : List (Slot V)} {u : Pre} {A : Slot V} {a : V} (hA : A.Holds a)
    (R : Rep I e (xs ++ .opr (.pre u) :: A :: ys) top) (h255 : top.length + 1 ≤ 255) :
    ∃ e' top', resolveEx e xs.length = some (e', 1) ∧
      Rep I e' (xs ++ .ld (I.pre u a) :: ys) top' ∧ top'.length = top.length + A.cost := by
  have hget : (xs ++ .opr (.pre u) :: A :: ys)[xs.length + 1]? = some A := by
    rw [List.getElem?_append_right (by omega)]; simp
  have hset : (xs ++ .opr (.pre u) :: A :: ys).set (xs.length + 1) (.ld a)
      = xs ++ .opr (.pre u) :: .ld a :: ys := by
    rw [List.set_append_right _ _ (by omega)]; simp
  obtain ⟨top1, R1, l1, p1⟩ := bring R (hA.isVal hget) h255
  rw [hset] at R1
  rw [Slot.Holds.unlAt hget] at l1
  have R2 := finish_pre u R1 p1
  have hlt : xs.length + 1 < e.ctx.length := by rw [R.len]; simp
  refine ⟨_, _, ?_, R2, ?_⟩
  · unfold resolveEx
    rw [kind_opr R (i := xs.length) (o := .pre u) (by simp)]
    simp only [hlt, if_true]
    rfl
  · have := R1.bound _ _ p1
    simp; omega

theorem step_post {xs ys : List (Slot V)} {u : Post} {A : Slot V} {a : V} (hA : A.Holds a)
    (R : Rep I e (xs ++ A :: .opr (.post u) :: ys) top) (h255 : top.length + 1 ≤ 255) :
    ∃ e' top', resolveEx e (xs.length + 1) = some (e', 1) ∧
      Rep I e' (xs ++ .ld (I.post u a) :: ys) top' ∧ top'.length = top.length + A.cost := by
  have hget : (xs ++ A :: .opr (.post u) :: ys)[xs.length]? = some A := by simp
  have hset : (xs ++ A :: .opr (.post u) :: ys).set xs.length (.ld a)
      = xs ++ .ld a :: .opr (.post u) :: ys := by
    rw [List.set_append_right _ _ (by omega)]; simp
  obtain ⟨top1, R1, l1, p1⟩ := bring R (hA.isVal hget) h255
  rw [hset] at R1
  rw [Slot.Holds.unlAt hget] at l1
  have R2 := finish_post u R1 p1
  refine ⟨_, _, ?_, R2, ?_⟩
  · unfold resolveEx
    rw [kind_opr R (i := xs.length + 1) (o := .post u) (by
      rw [List.getElem?_append_right (by omega)]; simp)]
    simp only [Nat.add_sub_cancel]
    rw [if_neg (by omega)]
    rfl
  · have := R1.bound _ _ p1
    simp; omega

theorem step_bin (hI : I.Lawful) {xs ys : List (Slot V)} {b : Bin} {A C : Slot V} {a c : V}
    (hA : A.Holds a) (hC : C.Holds c)
    (R : Rep I e (xs ++ A :: .opr (.bin b) :: C :: ys) top) (h255 : top.length + 2 ≤ 255)
    (hb : ¬ Bad e (xs.length + 1)) :
    ∃ e' top', resolveEx e (xs.length + 1) = some (e', 2) ∧
      Rep I e' (xs ++ .ld (I.bin b a c) :: ys) top' ∧
      top'.length + 1 = top.length + A.cost + C.cost := by
  have hgA : (xs ++ A :: .opr (.bin b) :: C :: ys)[xs.length]? = some A := by simp
  have hgC : (xs ++ A :: .opr (.bin b) :: C :: ys)[xs.length + 2]? = some C := by
    rw [List.getElem?_append_right (by omega)]; simp
  have hset : ((xs ++ A :: .opr (.bin b) :: C :: ys).set xs.length (.ld a)).set (xs.length + 2) (.ld c)
      = xs ++ .ld a :: .opr (.bin b) :: .ld c :: ys := by
    rw [List.set_append_right _ _ (by omega), List.set_append_right _ _ (by omega)]; simp
  have hlt : xs.length + 1 + 1 < e.ctx.length := by rw [R.len]; simp; omega
  have hkind := kind_opr R (i := xs.length + 1) (o := .bin b) (by
      rw [List.getElem?_append_right (by omega)]; simp)
  cases hcomm : b.commute with
  | true =>
    have hP := place_commute R (by omega) (hA.isVal hgA) (hC.isVal hgC) h255 hb
    simp only [Slot.Holds.unlAt hgA, Slot.Holds.unlAt hgC, hset] at hP
    have heq : resolveEx e (xs.length + 1) = some (⟨pushToStack xs.length
          (((placeCommute xs.length (xs.length + 2) e).ctx.eraseIdx xs.length).eraseIdx xs.length),
          (placeCommute xs.length (xs.length + 2) e).code ++ [.app (.bin b)]⟩, 2) := by
      unfold resolveEx
      rw [hkind]
      simp only [hcomm, Nat.add_sub_cancel, hlt, if_true]
      rw [if_neg (by omega)]
      rfl
    rcases hP with ⟨top1, R1, l1, p1, p2⟩ | ⟨top1, R1, l1, p1, p2⟩
    · refine ⟨_, _, heq, finish_bin b _ R1 p1 p2 (Or.inl ⟨rfl, rfl, rfl⟩), ?_⟩
      have := R1.bound _ _ p2
      simp; omega
    · refine ⟨_, _, heq, finish_bin b _ R1 p2 p1 (Or.inr ⟨rfl, rfl, hI.comm b hcomm a c⟩), ?_⟩
      have := R1.bound _ _ p2
      simp; omega
  | false =>
    have hP := place_binary R b (by omega) (hA.isVal hgA) (hC.isVal hgC) h255 hb
    simp only [Slot.Holds.unlAt hgA, Slot.Holds.unlAt hgC, hset] at hP
    have heq : ∀ fl, (placeBinary b xs.length (xs.length + 2) e).2 = fl →
        resolveEx e (xs.length + 1) = some (⟨pushToStack xs.length
          (((placeBinary b xs.length (xs.length + 2) e).1.ctx.eraseIdx xs.length).eraseIdx xs.length),
          (placeBinary b xs.length (xs.length + 2) e).1.code
            ++ [.app (.bin (if fl then b.alt.getD b else b))]⟩, 2) := by
      intro fl hfl
      subst hfl
      unfold resolveEx
      rw [hkind]
      simp only [hcomm, Nat.add_sub_cancel, hlt, if_true, Bool.false_eq_true, if_false]
      rw [if_neg (by omega)]
      rfl
    rcases hP with ⟨hfl, top1, R1, l1, p1, p2⟩ | ⟨hfl, halt, top1, R1, l1, p1, p2⟩
    · refine ⟨_, _, heq _ hfl, finish_bin b _ R1 p1 p2 (Or.inl ⟨rfl, rfl, rfl⟩), ?_⟩
      have := R1.bound _ _ p2
      simp; omega
    · obtain ⟨b', hb'⟩ := Option.isSome_iff_exists.1 halt
      have := heq _ hfl
      simp only [if_true, hb', Option.getD_some] at this
      refine ⟨_, _, this, finish_bin b' _ R1 p2 p1 (Or.inr ⟨rfl, rfl, (hI.alt b b' hb' c a).symm⟩), ?_⟩
      have := R1.bound _ _ p2
      simp; omega

end Wrench.Expr
