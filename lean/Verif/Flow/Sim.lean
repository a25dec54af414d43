import Verif.Flow.Tail

namespace Wrench.Flow

open Wrench

variable {σ ρ : Type}

/-- At least `n` instructions lead from `c` to `c'`. -/
def R (F : List (Instr σ ρ)) (T : List Nat) (n : Nat) (c c' : Cfg σ) : Prop :=
  ∃ m, n ≤ m ∧ steps F T m c = some c'

theorem steps_add (F : List (Instr σ ρ)) (T : List Nat) (b : Nat) : ∀ (a : Nat) (c : Cfg σ),
    steps F T (a + b) c = (steps F T a c).bind (steps F T b)
  | 0, c => by simp [steps]
  | a + 1, c => by
    rw [show a + 1 + b = (a + b) + 1 by omega]
    simp only [steps]
    split
    · exact steps_add F T b a _
    · rfl

theorem R.refl (F : List (Instr σ ρ)) (T : List Nat) (c : Cfg σ) : R F T 0 c c := ⟨0, Nat.le_refl _, rfl⟩

theorem R.trans {F : List (Instr σ ρ)} {T : List Nat} {a b : Nat} {c d e : Cfg σ}
    (h : R F T a c d) (h' : R F T b d e) : R F T (a + b) c e := by
  obtain ⟨m, hm, h⟩ := h
  obtain ⟨m', hm', h'⟩ := h'
  exact ⟨m + m', by omega, by rw [steps_add, h]; exact h'⟩

theorem R.mono {F : List (Instr σ ρ)} {T : List Nat} {a b : Nat} {c d : Cfg σ}
    (h : R F T a c d) (hb : b ≤ a) : R F T b c d := by
  obtain ⟨m, hm, h⟩ := h
  exact ⟨m, by omega, h⟩

theorem R.one {F : List (Instr σ ρ)} {T : List Nat} {c d : Cfg σ} (h : step F T c = .go d) : R F T 1 c d :=
  ⟨1, Nat.le_refl _, by simp [steps, h]⟩

/-- The machine, started at `c`, does what `r` says: it arrives at `e`, or at the break or continue
target, or returns, always with the stack it had; or it runs for at least `n` instructions. -/
def Sim (F : List (Instr σ ρ)) (T : List Nat) (n : Nat) (c : Cfg σ) (e : Nat) (bs cs : List Nat) :
    Option (Out ρ × σ) → Prop
  | none => ∃ c', R F T n c c'
  | some (.nrm, y) => R F T 0 c ⟨e, y, c.stk⟩
  | some (.brk, y) => ∃ b, bs.head? = some b ∧ R F T 0 c ⟨T.getD b 0, y, c.stk⟩
  | some (.cont, y) => ∃ b, cs.head? = some b ∧ R F T 0 c ⟨T.getD b 0, y, c.stk⟩
  | some (.ret r, y) => ∃ c', R F T 0 c c' ∧ step F T c' = .ret r y c.stk

theorem Sim.pre {F : List (Instr σ ρ)} {T : List Nat} {m n l : Nat} {c c1 : Cfg σ} {e : Nat} {bs cs : List Nat}
    {r : Option (Out ρ × σ)} (h : R F T m c c1) (hs : c1.stk = c.stk) (hl : l ≤ m + n)
    (h' : Sim F T n c1 e bs cs r) : Sim F T l c e bs cs r := by
  match r, h' with
  | none, ⟨c', h'⟩ => exact ⟨c', (h.trans h').mono hl⟩
  | some (.nrm, y), h' =>
    have := (h.trans h').mono (Nat.zero_le _)
    rw [hs] at this
    exact this
  | some (.brk, y), ⟨b, hb, h'⟩ =>
    have := (h.trans h').mono (Nat.zero_le _)
    rw [hs] at this
    exact ⟨b, hb, this⟩
  | some (.cont, y), ⟨b, hb, h'⟩ =>
    have := (h.trans h').mono (Nat.zero_le _)
    rw [hs] at this
    exact ⟨b, hb, this⟩
  | some (.ret r, y), ⟨c', h', hr⟩ =>
    rw [hs] at hr
    exact ⟨c', (h.trans h').mono (Nat.zero_le _), hr⟩

/-- Normal completion at `e` continues to `e'`. -/
theorem Sim.post {F : List (Instr σ ρ)} {T : List Nat} {n : Nat} {c : Cfg σ} {e e' : Nat} {bs cs : List Nat}
    {r : Option (Out ρ × σ)} (h : Sim F T n c e bs cs r) (he : ∀ y, r = some (.nrm, y) → R F T 0 ⟨e, y, c.stk⟩ ⟨e', y, c.stk⟩) :
    Sim F T n c e' bs cs r := by
  match r, h with
  | none, h => exact h
  | some (.nrm, y), h => exact (R.trans h (he y rfl)).mono (Nat.zero_le _)
  | some (.brk, y), h => exact h
  | some (.cont, y), h => exact h
  | some (.ret r, y), h => exact h

/-- The final code contains the code of `k'` and places the targets from `lo` on as `k'` does. -/
structure Agree (lo : Nat) (k' : CS σ ρ) (F : List (Instr σ ρ)) (T : List Nat) : Prop where
  code : k'.code <+: F
  tg : ∀ i, lo ≤ i → i < k'.tg.length → T[i]? = k'.tg[i]?

theorem fetch {F l : List (Instr σ ρ)} {i : Instr σ ρ} (h : l ++ [i] <+: F) : F[l.length]? = some i := by
  obtain ⟨t, rfl⟩ := h
  simp

theorem getD_of {T : List Nat} {i v : Nat} (h : T[i]? = some v) : T.getD i 0 = v := by
  simp [List.getD_eq_getElem?_getD, h]

/-! ### Loops -/

theorem while_sim {F : List (Instr σ ρ)} {T : List Nat} {top B P E a b n br ct : Nat} {bs cs bs' cs' : List Nat}
    (c : σ → Bool × σ) (body : σ → Option (Out ρ × σ)) (post : σ → σ) (hab : 1 ≤ a + b)
    (hc : ∀ x stk, R F T a ⟨top, x, stk⟩ ⟨if (c x).1 then B else E, (c x).2, stk⟩)
    (hbody : ∀ x stk, Sim F T n ⟨B, x, stk⟩ P (br :: bs) (ct :: cs) (body x))
    (hbr : T.getD br 0 = E)
    (hp : ∀ y stk, R F T b ⟨P, y, stk⟩ ⟨top, post y, stk⟩)
    (hct : ∀ x y, body x = some (.cont, y) → ∀ stk, R F T b ⟨T.getD ct 0, y, stk⟩ ⟨top, post y, stk⟩) :
    ∀ k, k ≤ n → ∀ x stk, Sim F T k ⟨top, x, stk⟩ E bs' cs' (whileLoop c body post k x)
  | 0, _, x, stk => ⟨_, R.refl _ _ _⟩
  | k + 1, hk, x, stk => by
    have ih := while_sim (bs' := bs') (cs' := cs') c body post hab hc hbody hbr hp hct k (by omega)
    have h1 := hc x stk
    simp only [whileLoop]
    cases hcx : (c x).1 with
    | false =>
      simp only [hcx, Bool.false_eq_true, if_false] at h1 ⊢
      exact h1.mono (Nat.zero_le _)
    | true =>
      simp only [hcx, if_true] at h1 ⊢
      have h2 := hbody (c x).2 stk
      cases hb : body (c x).2 with
      | none =>
        rw [hb] at h2
        exact Sim.pre h1 rfl (by omega) h2
      | some r =>
        obtain ⟨o, y⟩ := r
        rw [hb] at h2
        cases o with
        | nrm => exact Sim.pre ((h1.trans h2).trans (hp y stk)) rfl (by omega) (ih _ _)
        | cont =>
          obtain ⟨d, hd, h2⟩ := h2
          cases hd
          exact Sim.pre ((h1.trans h2).trans (hct _ _ hb stk)) rfl (by omega) (ih _ _)
        | brk =>
          obtain ⟨d, hd, h2⟩ := h2
          cases hd
          rw [hbr] at h2
          exact (h1.trans h2).mono (Nat.zero_le _)
        | ret v =>
          obtain ⟨c', h2, hr⟩ := h2
          exact ⟨c', (h1.trans h2).mono (Nat.zero_le _), hr⟩

theorem until_sim {F : List (Instr σ ρ)} {T : List Nat} {top P E n br ct : Nat} {bs cs bs' cs' : List Nat}
    (c : σ → Bool × σ) (body : σ → Option (Out ρ × σ))
    (hbody : ∀ x stk, Sim F T n ⟨top, x, stk⟩ P (br :: bs) (ct :: cs) (body x))
    (hbr : T.getD br 0 = E) (hct : T.getD ct 0 = P)
    (hc : ∀ x stk, R F T 1 ⟨P, x, stk⟩ ⟨if (c x).1 then top else E, (c x).2, stk⟩) :
    ∀ k, k ≤ n → ∀ x stk, Sim F T k ⟨top, x, stk⟩ E bs' cs' (untilLoop c body k x)
  | 0, _, x, stk => ⟨_, R.refl _ _ _⟩
  | k + 1, hk, x, stk => by
    have ih := until_sim (bs' := bs') (cs' := cs') c body hbody hbr hct hc k (by omega)
    have h2 := hbody x stk
    have next : ∀ y, R F T 0 ⟨top, x, stk⟩ ⟨P, y, stk⟩ → Sim F T (k + 1) ⟨top, x, stk⟩ E bs' cs'
        (if (c y).1 then untilLoop c body k (c y).2 else some (.nrm, (c y).2)) := by
      intro y h
      have h1 := hc y stk
      cases hcy : (c y).1 with
      | false =>
        simp only [hcy, Bool.false_eq_true, if_false] at h1 ⊢
        exact (h.trans h1).mono (Nat.zero_le _)
      | true =>
        simp only [hcy, if_true] at h1 ⊢
        exact Sim.pre (h.trans h1) rfl (by omega) (ih _ _)
    simp only [untilLoop]
    cases hb : body x with
    | none =>
      rw [hb] at h2
      exact Sim.pre (R.refl _ _ _) rfl (by omega) h2
    | some r =>
      obtain ⟨o, y⟩ := r
      rw [hb] at h2
      cases o with
      | nrm => exact next y h2
      | cont =>
        obtain ⟨d, hd, h2⟩ := h2
        cases hd
        rw [hct] at h2
        exact next y h2
      | brk =>
        obtain ⟨d, hd, h2⟩ := h2
        cases hd
        rw [hbr] at h2
        exact h2
      | ret v => exact h2

/-- A list of effects. -/
theorem acts_run {F : List (Instr σ ρ)} {T : List Nat} : ∀ (l : List (σ → σ)) (pre : List (Instr σ ρ)) (x : σ) (stk : List Word32),
    pre ++ l.map .act <+: F → R F T 0 ⟨pre.length, x, stk⟩ ⟨pre.length + l.length, effects l x, stk⟩
  | [], pre, x, stk, h => R.refl _ _ _
  | f :: l, pre, x, stk, h => by
    have h' : (pre ++ [.act f]) ++ l.map .act <+: F := by simpa using h
    have h1 := fetch ((List.prefix_append _ _).trans h')
    have h2 : R F T 1 ⟨pre.length, x, stk⟩ ⟨pre.length + 1, f x, stk⟩ := R.one (by simp [step, h1])
    have h3 := acts_run (T := T) l (pre ++ [.act f]) (f x) stk h'
    simp only [List.length_append, List.length_cons, List.length_nil] at h3
    have := (h2.trans h3).mono (Nat.zero_le _)
    simpa [effects, Nat.add_comm, Nat.add_left_comm, Nat.add_assoc] using this

theorem while_no_cont (c : σ → Bool × σ) (body : σ → Option (Out ρ × σ)) (post : σ → σ) :
    ∀ k x y, whileLoop c body post k x ≠ some (.cont, y)
  | 0, x, y => by simp [whileLoop]
  | k + 1, x, y => by
    simp only [whileLoop]
    split
    · split
      · simp
      · exact while_no_cont c body post k _ y
      · exact while_no_cont c body post k _ y
      · simp
      · simp
    · simp
theorem until_no_cont (c : σ → Bool × σ) (body : σ → Option (Out ρ × σ)) :
    ∀ k x y, untilLoop c body k x ≠ some (.cont, y)
  | 0, x, y => by simp [untilLoop]
  | k + 1, x, y => by
    simp only [untilLoop]
    split
    · simp
    · simp
    · simp
    · split
      · exact until_no_cont c body k _ y
      · simp
    · split
      · exact until_no_cont c body k _ y
      · simp

mutual
/-- Without a free `continue`, a statement does not end in one. -/
theorem no_cont (n : Nat) : ∀ (s : Stmt σ ρ), freeCont s = false → ∀ x y, exec n s x ≠ some (.cont, y)
  | .skip, _, x, y => by simp [exec]
  | .act f, _, x, y => by simp [exec]
  | .ret f, _, x, y => by simp [exec]
  | .brk, _, x, y => by simp [exec]
  | .cont, h, x, y => by simp [freeCont] at h
  | .seq s t, h, x, y => by
    simp only [freeCont, Bool.or_eq_false_iff] at h
    simp only [exec]
    have := no_cont n s h.1 x
    split
    · exact no_cont n t h.2 _ y
    · exact this y
  | .ifThen c s, h, x, y => by
    simp only [freeCont] at h
    simp only [exec]
    split
    · exact no_cont n s h _ y
    · simp
  | .ifElse c s t, h, x, y => by
    simp only [freeCont, Bool.or_eq_false_iff] at h
    simp only [exec]
    split
    · exact no_cont n s h.1 _ y
    · exact no_cont n t h.2 _ y
  | .loop c s, _, x, y => by simp only [exec]; exact while_no_cont _ _ _ _ _ _
  | .doLoop s c, _, x, y => by simp only [exec]; exact until_no_cont _ _ _ _ _
  | .forLoop i c p s, _, x, y => by cases c <;> (simp only [exec]; exact while_no_cont _ _ _ _ _ _)
  | .each st nx s, _, x, y => by simp only [exec]; exact while_no_cont _ _ _ _ _ _
  | .switch sel b, h, x, y => by
    simp only [freeCont] at h
    simp only [exec, pickSel]
    obtain ⟨-, f, g⟩ := no_cont_body n b h (sel x).2 y
    have f := f (sel x).1
    cases h1 : execFrom n b (sel x).1 (sel x).2 with
    | some r =>
      rw [h1] at f
      match r, f with
      | none, _ => simp
      | some (.nrm, z), _ => simp
      | some (.brk, z), _ => simp
      | some (.ret v, z), _ => simp
      | some (.cont, z), f => intro hh; simp at hh; subst hh; exact f rfl
    | none =>
      simp only
      cases h2 : execDflt n b (sel x).2 with
      | none => simp
      | some r =>
        rw [h2] at g
        match r, g with
        | none, _ => simp
        | some (.nrm, z), _ => simp
        | some (.brk, z), _ => simp
        | some (.ret v, z), _ => simp
        | some (.cont, z), f => intro hh; simp at hh; subst hh; exact f rfl
theorem no_cont_body (n : Nat) : ∀ (b : Body σ ρ), freeContBody b = false → ∀ x y,
    execBody n b x ≠ some (.cont, y) ∧ (∀ h, execFrom n b h x ≠ some (some (.cont, y))) ∧
    execDflt n b x ≠ some (some (.cont, y))
  | .nil, _, x, y => by simp [execBody, execFrom, execDflt]
  | .case h b, hh, x, y => by
    simp only [freeContBody] at hh
    obtain ⟨e, f, g⟩ := no_cont_body n b hh x y
    refine ⟨by simpa [execBody] using e, fun h' => ?_, by simpa [execDflt] using g⟩
    simp only [execFrom]
    split
    · simpa using e
    · exact f h'
  | .dflt b, hh, x, y => by
    simp only [freeContBody] at hh
    obtain ⟨e, f, g⟩ := no_cont_body n b hh x y
    exact ⟨by simpa [execBody] using e, by simpa [execFrom] using f, by simpa [execDflt] using e⟩
  | .stmt s b, hh, x, y => by
    simp only [freeContBody, Bool.or_eq_false_iff] at hh
    obtain ⟨e, f, g⟩ := no_cont_body n b hh.2 x y
    refine ⟨?_, by simpa [execFrom] using f, by simpa [execDflt] using g⟩
    simp only [execBody]
    have := no_cont n s hh.1 x
    split
    · exact (no_cont_body n b hh.2 _ y).1
    · exact this y
end

end Wrench.Flow
