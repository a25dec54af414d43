import Verif.Goto.Lemmas
import Mathlib.Tactic.ByContra

namespace Wrench.Goto

open Wrench

variable {σ ρ : Type}

/-- Exactly `n` instructions lead from `(pc, x)` to `(pc', x')`. -/
inductive Star (P : Linked σ ρ) : Nat → Nat → σ → Nat → σ → Prop
  | refl {pc : Nat} {x : σ} : Star P 0 pc x pc x
  | head {n pc pc1 pc2 : Nat} {x x1 x2 : σ} (h : step P pc x = .go pc1 x1) (r : Star P n pc1 x1 pc2 x2) :
      Star P (n + 1) pc x pc2 x2

theorem Star.trans {P : Linked σ ρ} {n m a b c : Nat} {x y z : σ} (h : Star P n a x b y) (h' : Star P m b y c z) :
    Star P (n + m) a x c z := by
  induction h with
  | refl => rw [Nat.zero_add]; exact h'
  | @head n _ _ _ _ _ _ h _ ih =>
    rw [show n + 1 + m = (n + m) + 1 by omega]
    exact Star.head h (ih h')

theorem Star.one {P : Linked σ ρ} {a b : Nat} {x y : σ} (h : step P a x = .go b y) : Star P 1 a x b y :=
  Star.head h Star.refl

theorem Star.run {P : Linked σ ρ} {n a b : Nat} {x y : σ} (h : Star P n a x b y) (m : Nat) :
    run P (n + m) a x = run P m b y := by
  induction h with
  | refl => rw [Nat.zero_add]
  | @head n _ _ _ _ _ _ h _ ih =>
    rw [show n + 1 + m = (n + m) + 1 by omega]
    simp only [Goto.run, h]
    exact ih

theorem Star.run_none {P : Linked σ ρ} {n a b : Nat} {x y : σ} (h : Star P n a x b y) :
    ∀ m ≤ n, Goto.run P m a x = none := by
  induction h with
  | refl => intro m hm; rw [show m = 0 by omega]; rfl
  | @head n _ _ _ _ _ _ h _ ih =>
    intro m hm
    cases m with
    | zero => rfl
    | succ m =>
      simp only [Goto.run, h]
      exact ih m (by omega)

theorem step_jmp {P : Linked σ ρ} {p id : Nat} (h : P.code[p]? = some (.jmp id)) (x : σ) :
    step P p x = .go (P.tg.getD id 0) x := by
  simp [step, h]

theorem step_bz {P : Linked σ ρ} {p id : Nat} {c : σ → Bool × σ} (h : P.code[p]? = some (.bz c id)) (x : σ) :
    step P p x = .go (if (c x).1 then p + 1 else P.tg.getD id 0) (c x).2 := by
  simp [step, h]

theorem block_star {P : Linked σ ρ} : ∀ (l : List (σ → σ)) (p : Nat) (x : σ), Block P.code p (l.map .act) →
    Star P l.length p x (p + l.length) (effects l x)
  | [], p, x, _ => Star.refl
  | f :: l, p, x, h => by
    have h0 := h 0 (by simp)
    have ht : Block P.code (p + 1) (l.map .act) := by
      intro i hi
      have := h (i + 1) (by simpa using hi)
      rw [show p + 1 + i = p + (i + 1) by omega, this]
      simp
    have := block_star l (p + 1) (f x) ht
    rw [show p + (f :: l).length = p + 1 + l.length by simp; omega]
    exact Star.head (by simp [step] at h0 ⊢; rw [h0]) this

/-! ### Where the rest of the program stands in the code -/

inductive RestAt (P : Linked σ ρ) : Rest σ ρ → Nat → Option Nat → Option Nat → Prop
  | stop : RestAt P .stop P.code.length none none
  | jmp {k : Rest σ ρ} {p id : Nat} {b c : Option Nat} (h : P.code[p]? = some (.jmp id))
      (r : RestAt P k (P.tg.getD id 0) b c) : RestAt P k p b c
  | seq {t : Stmt σ ρ} {k : Rest σ ρ} {p m : Nat} {b c : Option Nat} {ls : List (Word32 × Nat)}
      (h : At P.code P.tg t p m b c ls) (r : RestAt P k m b c) : RestAt P (.seq t k) p b c
  | loop {g : σ → Bool × σ} {s : Stmt σ ρ} {k : Rest σ ρ} {p e br ct : Nat} {b c : Option Nat}
      {ls : List (Word32 × Nat)} (h : At P.code P.tg (.loop g s) p e b c ls) (hb : P.tg.getD br 0 = e)
      (hc : P.tg.getD ct 0 = p) (r : RestAt P k e b c) : RestAt P (.loop g s k) p (some br) (some ct)
  | doLoop {g : σ → Bool × σ} {s : Stmt σ ρ} {k : Rest σ ρ} {p e br ct top : Nat} {b c : Option Nat}
      {ls : List (Word32 × Nat)} (h1 : P.code[p]? = some (.bz g br)) (h2 : P.code[p + 1]? = some (.jmp top))
      (h : At P.code P.tg (.doLoop s g) (P.tg.getD top 0) e b c ls) (hb : P.tg.getD br 0 = e)
      (hc : P.tg.getD ct 0 = p) (r : RestAt P k e b c) : RestAt P (.doLoop s g k) p (some br) (some ct)
  | forLoop {g : Option (σ → Bool × σ)} {post : List (σ → σ)} {s : Stmt σ ρ} {k : Rest σ ρ}
      {p e br ct top : Nat} {b c : Option Nat} {ls : List (Word32 × Nat)}
      (h1 : Block P.code p (post.map .act)) (h2 : P.code[p + post.length]? = some (.jmp top))
      (h : At P.code P.tg (.forLoop [] g post s) (P.tg.getD top 0) e b c ls) (hb : P.tg.getD br 0 = e)
      (hc : P.tg.getD ct 0 = p) (r : RestAt P k e b c) : RestAt P (.forLoop g post s k) p (some br) (some ct)

/-- The statement stands at `pc`, followed by the rest. -/
def Match (P : Linked σ ρ) (s : Stmt σ ρ) (k : Rest σ ρ) (pc : Nat) : Prop :=
  ∃ e b c ls, At P.code P.tg s pc e b c ls ∧ RestAt P k e b c

/-- Steps of the program that take no instruction make this smaller. -/
def weight : Stmt σ ρ → Nat
  | .seq s t => weight s + weight t + 2
  | .doLoop s _ => weight s + 1
  | .forLoop _ _ _ s => weight s + 1
  | .label _ => 1
  | _ => 0

def rweight : Rest σ ρ → Nat
  | .stop => 0
  | .seq t k => weight t + 1 + rweight k
  | .loop _ _ k => 1 + rweight k
  | .doLoop _ _ k => rweight k
  | .forLoop _ _ _ k => rweight k

theorem match_skip {P : Linked σ ρ} {k : Rest σ ρ} {p : Nat} {b c : Option Nat} (h : RestAt P k p b c) :
    Match P .skip k p := ⟨p, b, c, [], ⟨rfl, rfl⟩, h⟩

theorem break_at {P : Linked σ ρ} {k : Rest σ ρ} {p : Nat} {b c : Option Nat} (h : RestAt P k p b c) :
    ∀ id, b = some id → ∃ k', afterBreak k = some k' ∧ ∃ b' c', RestAt P k' (P.tg.getD id 0) b' c' := by
  induction h with
  | stop => intro id h; exact absurd h (by simp)
  | jmp _ _ ih => exact ih
  | seq _ _ ih => exact ih
  | loop _ hb _ r _ =>
    intro id h
    simp only [Option.some.injEq] at h; subst h
    exact ⟨_, rfl, _, _, hb ▸ r⟩
  | doLoop _ _ _ hb _ r _ =>
    intro id h
    simp only [Option.some.injEq] at h; subst h
    exact ⟨_, rfl, _, _, hb ▸ r⟩
  | forLoop _ _ _ hb _ r _ =>
    intro id h
    simp only [Option.some.injEq] at h; subst h
    exact ⟨_, rfl, _, _, hb ▸ r⟩

theorem continue_at {P : Linked σ ρ} {k : Rest σ ρ} {p : Nat} {b c : Option Nat} (h : RestAt P k p b c) :
    ∀ id, c = some id → ∃ k', afterContinue k = some k' ∧ ∃ b' c', RestAt P k' (P.tg.getD id 0) b' c' := by
  induction h with
  | stop => intro id h; exact absurd h (by simp)
  | jmp _ _ ih => exact ih
  | seq _ _ ih => exact ih
  | loop h hb hc r _ =>
    intro id h
    simp only [Option.some.injEq] at h; subst h
    exact ⟨_, rfl, _, _, by rw [hc]; exact RestAt.loop (by assumption) hb hc r⟩
  | doLoop h1 h2 h hb hc r _ =>
    intro id h
    simp only [Option.some.injEq] at h; subst h
    exact ⟨_, rfl, _, _, by rw [hc]; exact RestAt.doLoop h1 h2 (by assumption) hb hc r⟩
  | forLoop h1 h2 h hb hc r _ =>
    intro id h
    simp only [Option.some.injEq] at h; subst h
    exact ⟨_, rfl, _, _, by rw [hc]; exact RestAt.forLoop h1 h2 (by assumption) hb hc r⟩

/-! ### Entering the parts of a statement -/

theorem enter_loop {P : Linked σ ρ} {g : σ → Bool × σ} {s : Stmt σ ρ} {k : Rest σ ρ} {p e : Nat} {b c : Option Nat}
    {ls : List (Word32 × Nat)} (h : At P.code P.tg (.loop g s) p e b c ls) (r : RestAt P k e b c) :
    ∃ m b' c', At P.code P.tg s (p + 1) m b' c' ls ∧ RestAt P (.loop g s k) m b' c' := by
  obtain ⟨ct, br, m, h1, h2, h3, h4, h5⟩ := id h
  exact ⟨m, _, _, h4, RestAt.jmp h5 (by rw [h3]; exact RestAt.loop h h2 h3 r)⟩

theorem enter_do {P : Linked σ ρ} {g : σ → Bool × σ} {s : Stmt σ ρ} {k : Rest σ ρ} {p e : Nat} {b c : Option Nat}
    {ls : List (Word32 × Nat)} (h : At P.code P.tg (.doLoop s g) p e b c ls) (r : RestAt P k e b c) :
    ∃ m b' c', At P.code P.tg s p m b' c' ls ∧ RestAt P (.doLoop s g k) m b' c' := by
  obtain ⟨ct, br, top, m, h1, h2, h3, h4, h5, h6⟩ := id h
  exact ⟨m, _, _, h1, RestAt.doLoop h3 h4 (by rw [h5]; exact h) h6 h2 r⟩

/-- The part of a `for` behind the initialisation. -/
theorem for_top {C : List (Instr σ ρ)} {T : List Nat} {init : List (σ → σ)} {g : Option (σ → Bool × σ)}
    {post : List (σ → σ)} {s : Stmt σ ρ} {p e : Nat} {b c : Option Nat} {ls : List (Word32 × Nat)}
    (h : At C T (.forLoop init g post s) p e b c ls) :
    At C T (.forLoop [] g post s) (p + init.length) e b c ls := by
  obtain ⟨ct, br, top, q, m, h1, h2, h3, h4, h5, h6, h7, h8⟩ := h
  exact ⟨ct, br, top, q, m, fun i hi => absurd hi (by simp), h2, h3, h4, h5, h6, h7, h8⟩

theorem enter_for {P : Linked σ ρ} {init : List (σ → σ)} {g : Option (σ → Bool × σ)} {post : List (σ → σ)}
    {s : Stmt σ ρ} {k : Rest σ ρ} {p e : Nat} {b c : Option Nat}
    {ls : List (Word32 × Nat)} (h : At P.code P.tg (.forLoop init g post s) p e b c ls) (r : RestAt P k e b c) :
    ∃ q m b' c', At P.code P.tg s q m b' c' ls ∧ RestAt P (.forLoop g post s k) m b' c' ∧
      Block P.code p (init.map .act) ∧
      (g = none ∧ q = p + init.length ∨
        ∃ g' br, g = some g' ∧ P.code[p + init.length]? = some (.bz g' br) ∧ q = p + init.length + 1 ∧
          P.tg.getD br 0 = e) := by
  have ht := for_top h
  obtain ⟨ct, br, top, q, m, h1, h2, h3, h4, h5, h6, h7, h8⟩ := h
  refine ⟨q, m, _, _, h4, RestAt.forLoop h6 h7 (by rw [h2]; exact ht) h8 h5 r, h1, ?_⟩
  cases g with
  | none => exact .inl ⟨rfl, h3⟩
  | some g => exact .inr ⟨g, br, rfl, h3.1, h3.2, h8⟩

theorem enter_else {P : Linked σ ρ} {g : σ → Bool × σ} {s t : Stmt σ ρ} {k : Rest σ ρ} {p e : Nat} {b c : Option Nat}
    {ls : List (Word32 × Nat)} (h : At P.code P.tg (.ifElse g s t) p e b c ls) (r : RestAt P k e b c) :
    ∃ id m l1 l2, P.code[p]? = some (.bz g id) ∧ P.tg.getD id 0 = m + 1 ∧
      At P.code P.tg s (p + 1) m b c l1 ∧ RestAt P k m b c ∧ At P.code P.tg t (m + 1) e b c l2 ∧ ls = l1 ++ l2 := by
  obtain ⟨id, id2, m, l1, l2, h1, h2, h3, h4, h5, h6, h7⟩ := h
  exact ⟨id, m, l1, l2, h1, h2, h3, RestAt.jmp h4 (by rw [h5]; exact r), h6, h7⟩

/-! ### Labels -/

theorem resolve_append (l1 l2 : List (Word32 × Nat)) (h : Word32) :
    resolve (l1 ++ l2) h = (resolve l1 h).or (resolve l2 h) := by
  simp only [resolve, List.find?_append]
  cases List.find? (fun l => l.1 == h) l1 <;> simp

/-- The position of a label in the code is that of the rest that follows it in the source. -/
theorem label_at {P : Linked σ ρ} (h : Word32) : ∀ (s : Stmt σ ρ) (k : Rest σ ρ) (p e : Nat) (b c : Option Nat)
    (ls : List (Word32 × Nat)), At P.code P.tg s p e b c ls → RestAt P k e b c →
    (∀ q, resolve ls h = some q → ∃ k', afterLabel h s k = some k' ∧ ∃ b' c', RestAt P k' q b' c') ∧
    (resolve ls h = none → afterLabel h s k = none) := by
  have or_case : ∀ (a1 a2 : Option (Rest σ ρ)) (l1 l2 : List (Word32 × Nat)),
      ((∀ q, resolve l1 h = some q → ∃ k', a1 = some k' ∧ ∃ b' c', RestAt P k' q b' c') ∧
        (resolve l1 h = none → a1 = none)) →
      ((∀ q, resolve l2 h = some q → ∃ k', a2 = some k' ∧ ∃ b' c', RestAt P k' q b' c') ∧
        (resolve l2 h = none → a2 = none)) →
      ((∀ q, resolve (l1 ++ l2) h = some q → ∃ k', a1.or a2 = some k' ∧ ∃ b' c', RestAt P k' q b' c') ∧
        (resolve (l1 ++ l2) h = none → a1.or a2 = none)) := by
    intro a1 a2 l1 l2 i1 i2
    rw [resolve_append]
    cases h1 : resolve l1 h with
    | none =>
      rw [i1.2 h1]
      simpa using i2
    | some q =>
      obtain ⟨k', e1, r1⟩ := i1.1 q h1
      rw [e1]
      refine ⟨fun q' hq => ?_, fun hq => by simp at hq⟩
      simp only [Option.some_or, Option.some.injEq] at hq
      subst hq
      exact ⟨k', rfl, r1⟩
  have nil_case : ∀ a : Option (Rest σ ρ), a = none →
      ((∀ q, resolve [] h = some q → ∃ k', a = some k' ∧ ∃ b' c', RestAt P k' q b' c') ∧
        (resolve [] h = none → a = none)) := by
    intro a ha
    exact ⟨fun q hq => by simp [resolve] at hq, fun _ => ha⟩
  intro s
  induction s with
  | skip => intro k p e b c ls a r; rw [a.2]; exact nil_case _ rfl
  | act f => intro k p e b c ls a r; rw [a.2.2]; exact nil_case _ rfl
  | ret f => intro k p e b c ls a r; rw [a.2.2]; exact nil_case _ rfl
  | goto f => intro k p e b c ls a r; rw [a.2.2]; exact nil_case _ rfl
  | brk => intro k p e b c ls a r; obtain ⟨_, _, _, _, a⟩ := a; rw [a]; exact nil_case _ rfl
  | cont => intro k p e b c ls a r; obtain ⟨_, _, _, _, a⟩ := a; rw [a]; exact nil_case _ rfl
  | label h' =>
    intro k p e b c ls a r
    obtain ⟨rfl, rfl⟩ := a
    simp only [resolve, afterLabel, List.find?_cons, List.find?_nil]
    by_cases hh : h' = h
    · subst hh
      simp only [beq_self_eq_true, if_true, Option.map_some, Option.some.injEq]
      refine ⟨fun q hq => ⟨k, rfl, _, _, hq ▸ r⟩, fun hq => by simp at hq⟩
    · have hb : (h' == h) = false := by simpa using hh
      simp only [hb, Option.map_none]
      exact ⟨fun q hq => by simp at hq, fun _ => by rw [if_neg hh]⟩
  | seq s t ih1 ih2 =>
    intro k p e b c ls a r
    obtain ⟨m, l1, l2, a1, a2, rfl⟩ := a
    exact or_case _ _ _ _ (ih1 _ _ _ _ _ _ a1 (RestAt.seq a2 r)) (ih2 _ _ _ _ _ _ a2 r)
  | ifThen g s ih =>
    intro k p e b c ls a r
    obtain ⟨id, _, _, a⟩ := a
    exact ih _ _ _ _ _ _ a r
  | ifElse g s t ih1 ih2 =>
    intro k p e b c ls a r
    obtain ⟨id, m, l1, l2, _, _, a1, r1, a2, rfl⟩ := enter_else a r
    exact or_case _ _ _ _ (ih1 _ _ _ _ _ _ a1 r1) (ih2 _ _ _ _ _ _ a2 r)
  | loop g s ih =>
    intro k p e b c ls a r
    obtain ⟨m, b', c', a1, r1⟩ := enter_loop a r
    exact ih _ _ _ _ _ _ a1 r1
  | doLoop s g ih =>
    intro k p e b c ls a r
    obtain ⟨m, b', c', a1, r1⟩ := enter_do a r
    exact ih _ _ _ _ _ _ a1 r1
  | forLoop i g po s ih =>
    intro k p e b c ls a r
    obtain ⟨q, m, b', c', a1, r1, _⟩ := enter_for a r
    exact ih _ _ _ _ _ _ a1 r1

/-! ### One step -/

/-- The machine at `pc` does what one step of the program says. -/
def Sim (P : Linked σ ρ) (pc : Nat) (x : σ) (w : Nat) : SRes σ ρ → Prop
  | .go s k y => ∃ n pc', Star P n pc x pc' y ∧ Match P s k pc' ∧
      (1 ≤ n ∨ (n = 0 ∧ weight s + rweight k < w))
  | .fin y => ∃ n pc', Star P n pc x pc' y ∧ step P pc' y = .fin y
  | .ret r y => ∃ n pc' z, Star P n pc x pc' z ∧ step P pc' z = .ret r y
  | .stuck => False

theorem Sim.pre {P : Linked σ ρ} {pc pc' : Nat} {x x' : σ} {w w' : Nat} {r : SRes σ ρ}
    (h : step P pc x = .go pc' x') (s : Sim P pc' x' w r) : Sim P pc x w' r := by
  cases r with
  | go s k y =>
    obtain ⟨n, q, st, m, _⟩ := s
    exact ⟨n + 1, q, Star.head h st, m, .inl (by omega)⟩
  | fin y =>
    obtain ⟨n, q, st, m⟩ := s
    exact ⟨n + 1, q, Star.head h st, m⟩
  | ret r y =>
    obtain ⟨n, q, z, st, m⟩ := s
    exact ⟨n + 1, q, z, Star.head h st, m⟩
  | stuck => exact s

theorem goOn_sim {P : Linked σ ρ} {k : Rest σ ρ} {p : Nat} {b c : Option Nat} (h : RestAt P k p b c) (x : σ) :
    Sim P p x (rweight k) (goOn k x) := by
  induction h with
  | stop => exact ⟨0, _, Star.refl, by simp [step]⟩
  | jmp h _ ih => exact ih.pre (step_jmp h x)
  | seq h r _ => exact ⟨0, _, Star.refl, ⟨_, _, _, _, h, r⟩, .inr ⟨rfl, by simp only [rweight]; omega⟩⟩
  | loop h hb hc r _ =>
    exact ⟨0, _, Star.refl, ⟨_, _, _, _, h, r⟩, .inr ⟨rfl, by simp only [rweight, weight]; omega⟩⟩
  | @doLoop g s k p e br ct top b c ls h1 h2 h hb hc r _ =>
    simp only [goOn]
    by_cases hg : (g x).1 = true
    · rw [if_pos hg]
      refine ⟨2, _, Star.head (step_bz h1 x) ?_, ⟨_, _, _, _, h, r⟩, .inl (by omega)⟩
      rw [if_pos hg]
      exact Star.one (step_jmp h2 _)
    · rw [if_neg hg]
      refine ⟨1, _, Star.head (step_bz h1 x) ?_, match_skip r, .inl (by omega)⟩
      rw [if_neg hg, hb]
      exact Star.refl
  | @forLoop g post s k p e br ct top b c ls h1 h2 h hb hc r _ =>
    exact ⟨post.length + 1, _, (block_star post p x h1).trans (Star.one (step_jmp h2 _)), ⟨_, _, _, _, h, r⟩,
      .inl (by omega)⟩

/-- The program `body`, linked. -/
structure Whole (P : Linked σ ρ) (body : Stmt σ ρ) : Prop where
  at_ : At P.code P.tg body 0 P.code.length none none P.lab
  resolved : ∀ (pc : Nat) (h : Word32), P.code[pc]? = some (Instr.goto h) → ∃ q, resolve P.lab h = some q

theorem step_sim {P : Linked σ ρ} {body : Stmt σ ρ} (w : Whole P body) (s : Stmt σ ρ) (k : Rest σ ρ) (pc : Nat) (x : σ)
    (m : Match P s k pc) : Sim P pc x (weight s + rweight k) (sstep body s k x) := by
  obtain ⟨e, b, c, ls, a, r⟩ := m
  cases s with
  | skip =>
    obtain ⟨rfl, _⟩ := a
    have := goOn_sim r x
    simpa [sstep, weight] using this
  | act f =>
    obtain ⟨h, rfl, _⟩ := a
    exact ⟨1, pc + 1, Star.one (by simp [step, h]), match_skip r, .inl (by omega)⟩
  | seq s t =>
    obtain ⟨m, l1, l2, a1, a2, _⟩ := a
    exact ⟨0, pc, Star.refl, ⟨m, b, c, l1, a1, RestAt.seq a2 r⟩, .inr ⟨rfl, by simp only [weight, rweight]; omega⟩⟩
  | ifThen g s =>
    obtain ⟨id, h, ht, a⟩ := a
    refine ⟨1, _, Star.one (step_bz h x), ?_, .inl (by omega)⟩
    by_cases hg : (g x).1 = true
    · rw [if_pos hg, if_pos hg]
      exact ⟨_, _, _, _, a, r⟩
    · rw [if_neg hg, if_neg hg, ht]
      exact match_skip r
  | ifElse g s t =>
    obtain ⟨id, m, l1, l2, h, ht, a1, r1, a2, _⟩ := enter_else a r
    refine ⟨1, _, Star.one (step_bz h x), ?_, .inl (by omega)⟩
    by_cases hg : (g x).1 = true
    · rw [if_pos hg, if_pos hg]
      exact ⟨_, _, _, _, a1, r1⟩
    · rw [if_neg hg, if_neg hg, ht]
      exact ⟨_, _, _, _, a2, r⟩
  | loop g s =>
    obtain ⟨m, b', c', a1, r1⟩ := enter_loop a r
    obtain ⟨ct, br, _, h, ht, _⟩ := a
    simp only [sstep]
    by_cases hg : (g x).1 = true
    · rw [if_pos hg]
      refine ⟨1, _, Star.one (step_bz h x), ?_, .inl (by omega)⟩
      rw [if_pos hg]
      exact ⟨_, _, _, _, a1, r1⟩
    · rw [if_neg hg]
      refine ⟨1, _, Star.one (step_bz h x), ?_, .inl (by omega)⟩
      rw [if_neg hg, ht]
      exact match_skip r
  | doLoop s g =>
    obtain ⟨m, b', c', a1, r1⟩ := enter_do a r
    exact ⟨0, pc, Star.refl, ⟨_, _, _, _, a1, r1⟩, .inr ⟨rfl, by simp only [weight, rweight]; omega⟩⟩
  | forLoop init g post s =>
    obtain ⟨q, m, b', c', a1, r1, hb, hq⟩ := enter_for a r
    have hs := block_star init pc x hb
    simp only [sstep]
    rcases hq with ⟨rfl, rfl⟩ | ⟨g', br, rfl, h, rfl, ht⟩
    · simp only [condOf, if_true]
      refine ⟨init.length, _, hs, ⟨_, _, _, _, a1, r1⟩, ?_⟩
      by_cases hi : 1 ≤ init.length
      · exact .inl hi
      · exact .inr ⟨by omega, by simp only [weight, rweight]; omega⟩
    · by_cases hg : (condOf (some g') (effects init x)).1 = true
      · rw [if_pos hg]
        refine ⟨init.length + 1, _, hs.trans (Star.one (step_bz h _)), ?_, .inl (by omega)⟩
        rw [if_pos (show (g' (effects init x)).1 = true from hg)]
        exact ⟨_, _, _, _, a1, r1⟩
      · rw [if_neg hg]
        refine ⟨init.length + 1, _, hs.trans (Star.one (step_bz h _)), ?_, .inl (by omega)⟩
        rw [if_neg (show ¬ (g' (effects init x)).1 = true from hg), ht]
        exact match_skip r
  | brk =>
    obtain ⟨id, rfl, h, _⟩ := a
    obtain ⟨k', hk, _, _, r'⟩ := break_at r id rfl
    simp only [sstep, hk, goOrStuck]
    exact ⟨1, _, Star.one (step_jmp h x), match_skip r', .inl (by omega)⟩
  | cont =>
    obtain ⟨id, rfl, h, _⟩ := a
    obtain ⟨k', hk, _, _, r'⟩ := continue_at r id rfl
    simp only [sstep, hk, goOrStuck]
    exact ⟨1, _, Star.one (step_jmp h x), match_skip r', .inl (by omega)⟩
  | ret f =>
    obtain ⟨h, _⟩ := a
    exact ⟨0, pc, x, Star.refl, by simp [step, h]⟩
  | goto l =>
    obtain ⟨h, _⟩ := a
    obtain ⟨q, hq⟩ := w.resolved pc l h
    obtain ⟨k', hk, _, _, r'⟩ := (label_at l body .stop 0 _ _ _ _ w.at_ RestAt.stop).1 q hq
    simp only [sstep, hk, goOrStuck]
    exact ⟨1, q, Star.one (by simp [step, h, hq]), match_skip r', .inl (by omega)⟩
  | label l =>
    obtain ⟨rfl, _⟩ := a
    exact ⟨0, _, Star.refl, match_skip r, .inr ⟨rfl, by simp only [weight]; omega⟩⟩

/-! ### Whole runs -/

theorem build_whole {body : Stmt σ ρ} {P : Linked σ ρ} (h : build body = some P) : Whole P body := by
  simp only [build, Option.bind_eq_some_iff] at h
  obtain ⟨k, hk, h⟩ := h
  by_cases hr : (k.code.all (Instr.resolved k.lab)) = true
  · rw [if_pos hr] at h
    simp only [Option.some.injEq] at h
    subst h
    obtain ⟨ls, hl, a⟩ := compile_at body _ _ hk
    constructor
    · have := a k.code k.tg ⟨List.prefix_refl _, fun _ _ _ => rfl⟩
      simp only [List.nil_append] at hl
      rw [hl]
      exact this
    · intro pc h hp
      have := List.all_eq_true.mp hr _ (List.mem_of_getElem? hp)
      exact Option.isSome_iff_exists.mp this
  · rw [if_neg hr] at h
    exact absurd h (by simp)

theorem ends_machine {P : Linked σ ρ} {body : Stmt σ ρ} (w : Whole P body) (e : End σ ρ) : ∀ (n : Nat) (s : Stmt σ ρ)
    (k : Rest σ ρ) (pc : Nat) (x : σ), Match P s k pc → srun body n s k x = some e.spec →
    ∃ m, run P m pc x = some e.mach
  | 0, _, _, _, _, _, h => by simp [srun] at h
  | n + 1, s, k, pc, x, m, h => by
    have hs := step_sim w s k pc x m
    simp only [srun] at h
    cases hst : sstep body s k x with
    | go s' k' x' =>
      rw [hst] at hs h
      obtain ⟨i, pc', st, m', _⟩ := hs
      obtain ⟨j, hj⟩ := ends_machine w e n s' k' pc' x' m' h
      exact ⟨i + j, by rw [st.run]; exact hj⟩
    | fin y =>
      rw [hst] at hs h
      obtain ⟨i, pc', st, hf⟩ := hs
      refine ⟨i + 1, ?_⟩
      rw [st.run]
      simp only [run, hf]
      cases e with
      | fin z => simp only [End.spec, Option.some.injEq, SRes.fin.injEq] at h; rw [h]; rfl
      | ret r z => simp [End.spec] at h
    | ret r y =>
      rw [hst] at hs h
      obtain ⟨i, pc', z, st, hf⟩ := hs
      refine ⟨i + 1, ?_⟩
      rw [st.run]
      simp only [run, hf]
      cases e with
      | fin z => simp [End.spec] at h
      | ret r' z => simp only [End.spec, Option.some.injEq, SRes.ret.injEq] at h; rw [h.1, h.2]; rfl
    | stuck => rw [hst] at hs; exact hs.elim

theorem diverges_machine {P : Linked σ ρ} {body : Stmt σ ρ} (w : Whole P body) : ∀ (m wt : Nat) (s : Stmt σ ρ)
    (k : Rest σ ρ) (pc : Nat) (x : σ), weight s + rweight k = wt → Match P s k pc →
    (∀ n, srun body n s k x = none) → run P m pc x = none := by
  intro m
  induction m using Nat.strongRecOn with
  | _ m ihm =>
    intro wt
    induction wt using Nat.strongRecOn with
    | _ wt ihw =>
      intro s k pc x hw hm hn
      have hs := step_sim w s k pc x hm
      have h1 := hn 1
      simp only [srun] at h1
      cases hst : sstep body s k x with
      | go s' k' x' =>
        rw [hst] at hs
        have hn' : ∀ n, srun body n s' k' x' = none := by
          intro n
          have := hn (n + 1)
          simp only [srun, hst] at this
          exact this
        obtain ⟨i, pc', st, m', hi⟩ := hs
        rcases hi with hi | ⟨rfl, hlt⟩
        · by_cases hmi : m ≤ i
          · exact st.run_none m hmi
          · rw [show m = i + (m - i) by omega, st.run]
            exact ihm (m - i) (by omega) _ s' k' pc' x' rfl m' hn'
        · have := ihw _ (by omega) s' k' pc' x' rfl m' hn'
          cases st
          exact this
      | fin y => rw [hst] at h1; simp at h1
      | ret r y => rw [hst] at h1; simp at h1
      | stuck => rw [hst] at hs; exact hs.elim

theorem run_mono {P : Linked σ ρ} {r : Res σ ρ} : ∀ (n m pc : Nat) (x : σ), run P n pc x = some r → n ≤ m →
    run P m pc x = some r
  | 0, _, _, _, h, _ => by simp [run] at h
  | n + 1, m, pc, x, h, hm => by
    obtain ⟨m', rfl⟩ : ∃ m', m = m' + 1 := ⟨m - 1, by omega⟩
    simp only [run] at h ⊢
    cases hs : step P pc x with
    | go pc' x' =>
      rw [hs] at h
      exact run_mono n m' pc' x' h (by omega)
    | fin y => rw [hs] at h; exact h
    | ret r y => rw [hs] at h; exact h
    | fault => rw [hs] at h; exact h

theorem run_det {P : Linked σ ρ} {n m pc : Nat} {x : σ} {r r' : Res σ ρ} (h : run P n pc x = some r)
    (h' : run P m pc x = some r') : r = r' := by
  have a := run_mono n (max n m) pc x h (Nat.le_max_left _ _)
  have b := run_mono m (max n m) pc x h' (Nat.le_max_right _ _)
  rw [a] at b
  exact Option.some.inj b

/-- A program that ends ends properly. -/
theorem srun_end {P : Linked σ ρ} {body : Stmt σ ρ} (w : Whole P body) : ∀ (n : Nat) (s : Stmt σ ρ) (k : Rest σ ρ)
    (pc : Nat) (x : σ) (r : SRes σ ρ), Match P s k pc → srun body n s k x = some r → ∃ e : End σ ρ, r = e.spec
  | 0, _, _, _, _, _, _, h => by simp [srun] at h
  | n + 1, s, k, pc, x, r, m, h => by
    have hs := step_sim w s k pc x m
    simp only [srun] at h
    cases hst : sstep body s k x with
    | go s' k' x' =>
      rw [hst] at hs h
      obtain ⟨i, pc', st, m', _⟩ := hs
      exact srun_end w n s' k' pc' x' r m' h
    | fin y => rw [hst] at h; exact ⟨.fin y, (Option.some.inj h).symm⟩
    | ret v y => rw [hst] at h; exact ⟨.ret v y, (Option.some.inj h).symm⟩
    | stuck => rw [hst] at hs; exact hs.elim

/-- A function with `goto`s and labels anywhere in `if`, `while`, `do` and `for` does what its source
says: it runs to the same end, with the same state and result, and runs on forever exactly if its
source does.  It never runs into anything else. -/
theorem C98_goto {body : Stmt σ ρ} {P : Linked σ ρ} (h : build body = some P) (x : σ) :
    (∀ e : End σ ρ, Ends body x e ↔ ∃ n, run P n 0 x = some e.mach) ∧
    ∀ n r, run P n 0 x = some r → ∃ e : End σ ρ, r = e.mach ∧ Ends body x e := by
  have w := build_whole h
  have m0 : Match P body .stop 0 := ⟨_, _, _, _, w.at_, RestAt.stop⟩
  have back : ∀ n r, run P n 0 x = some r → ∃ e : End σ ρ, r = e.mach ∧ Ends body x e := by
    intro n r hr
    by_cases hd : ∀ i, srun body i body .stop x = none
    · rw [diverges_machine w n _ body .stop 0 x rfl m0 hd] at hr
      exact absurd hr (by simp)
    · have : ∃ i, srun body i body .stop x ≠ none := by
        by_contra hc
        exact hd fun i => by
          by_contra hi
          exact hc ⟨i, hi⟩
      obtain ⟨i, hi⟩ := this
      obtain ⟨sr, hsr⟩ := Option.ne_none_iff_exists'.mp hi
      obtain ⟨e, rfl⟩ := srun_end w i body .stop 0 x sr m0 hsr
      obtain ⟨j, hj⟩ := ends_machine w e i body .stop 0 x m0 hsr
      exact ⟨e, run_det hr hj, i, hsr⟩
  refine ⟨fun e => ⟨fun ⟨n, hn⟩ => ends_machine w e n body .stop 0 x m0 hn, fun ⟨n, hn⟩ => ?_⟩, back⟩
  obtain ⟨e', he, hE⟩ := back n _ hn
  have : e = e' := by
    cases e <;> cases e' <;> simp_all [End.mach]
  rw [this]
  exact hE

/-! ### Which functions are accepted -/

/-- The `goto`s in the code. -/
def codeGotos (l : List (Instr σ ρ)) : List Word32 :=
  l.filterMap fun i => match i with
    | .goto h => some h
    | _ => none

theorem codeGotos_append (l l' : List (Instr σ ρ)) : codeGotos (l ++ l') = codeGotos l ++ codeGotos l' := by
  simp [codeGotos]

theorem codeGotos_acts (l : List (σ → σ)) : codeGotos (l.map (Instr.act (ρ := ρ))) = [] := by
  induction l with
  | nil => rfl
  | cons f l ih => simpa [codeGotos] using ih

theorem forStart_gotos (init : List (σ → σ)) (c : Option (σ → Bool × σ)) (k : CS σ ρ) :
    codeGotos (forStart init c k).code = codeGotos k.code := by
  unfold forStart
  cases c with
  | none => simp [codeGotos_append, codeGotos_acts]
  | some c => simp [codeGotos_append, codeGotos_acts]; simp [codeGotos]

/-- What compiling adds, and when it succeeds. -/
theorem compile_accepts : ∀ (s : Stmt σ ρ) (k : CS σ ρ) (inl : Bool), k.bs.isEmpty = !inl → k.cs.isEmpty = !inl →
    match compile s k with
    | none => loopOk inl s = false
    | some k' => loopOk inl s = true ∧ codeGotos k'.code = codeGotos k.code ++ gotos s ∧
        k'.lab.map (·.1) = k.lab.map (·.1) ++ labels s
  | .skip, k, inl, _, _ => by simp [compile, loopOk, gotos, labels]
  | .act f, k, inl, _, _ => by simp [compile, loopOk, gotos, labels, codeGotos_append]; simp [codeGotos]
  | .ret f, k, inl, _, _ => by simp [compile, loopOk, gotos, labels, codeGotos_append]; simp [codeGotos]
  | .goto h, k, inl, _, _ => by simp [compile, loopOk, gotos, labels, codeGotos_append]; simp [codeGotos]
  | .label h, k, inl, _, _ => by simp [compile, loopOk, gotos, labels]
  | .brk, k, inl, hb, _ => by
    simp only [compile]
    cases hk : k.bs with
    | nil => rw [hk] at hb; simp at hb; simp [loopOk, hb]
    | cons b r =>
      rw [hk] at hb; simp at hb
      simp [loopOk, hb, gotos, labels, codeGotos_append]; simp [codeGotos]
  | .cont, k, inl, _, hc => by
    simp only [compile]
    cases hk : k.cs with
    | nil => rw [hk] at hc; simp at hc; simp [loopOk, hc]
    | cons b r =>
      rw [hk] at hc; simp at hc
      simp [loopOk, hc, gotos, labels, codeGotos_append]; simp [codeGotos]
  | .seq s t, k, inl, hb, hc => by
    have i1 := compile_accepts s k inl hb hc
    simp only [compile]
    cases h1 : compile s k with
    | none => rw [h1] at i1; simp only [] at i1; simp [loopOk, i1]
    | some m =>
      rw [h1] at i1
      obtain ⟨o1, g1, l1⟩ := i1
      obtain ⟨-, gc, gb⟩ := compile_grow s _ _ h1
      have i2 := compile_accepts t m inl (by rw [gb]; exact hb) (by rw [gc]; exact hc)
      simp only [Option.bind_some]
      cases h2 : compile t m with
      | none => rw [h2] at i2; simp only [] at i2; simp [loopOk, i2]
      | some m2 =>
        rw [h2] at i2
        obtain ⟨o2, g2, l2⟩ := i2
        exact ⟨by simp [loopOk, o1, o2], by rw [g2, g1, gotos, List.append_assoc],
          by rw [l2, l1, labels, List.append_assoc]⟩
  | .ifThen c s, k, inl, hb, hc => by
    have i1 := compile_accepts s (k.new.emit (.bz c k.tg.length)) inl hb hc
    simp only [compile]
    cases h1 : compile s (k.new.emit (.bz c k.tg.length)) with
    | none => rw [h1] at i1; exact i1
    | some m =>
      rw [h1] at i1
      obtain ⟨o1, g1, l1⟩ := i1
      refine ⟨o1, ?_, l1⟩
      simp only [place_code, g1, emit_code, new_code, codeGotos_append, gotos]
      simp [codeGotos]
  | .ifElse c s t, k, inl, hb, hc => by
    have i1 := compile_accepts s (k.new.emit (.bz c k.tg.length)) inl hb hc
    simp only [compile]
    cases h1 : compile s (k.new.emit (.bz c k.tg.length)) with
    | none => rw [h1] at i1; simp only [] at i1; simp [loopOk, i1]
    | some m =>
      rw [h1] at i1
      obtain ⟨o1, g1, l1⟩ := i1
      obtain ⟨-, gc, gb⟩ := compile_grow s _ _ h1
      have i2 := compile_accepts t ((m.new.emit (.jmp m.tg.length)).place k.tg.length) inl
        (by simp only [place_bs, emit_bs, new_bs, gb]; exact hb) (by simp only [place_cs, emit_cs, new_cs, gc]; exact hc)
      simp only [Option.bind_some]
      cases h2 : compile t ((m.new.emit (.jmp m.tg.length)).place k.tg.length) with
      | none => rw [h2] at i2; simp only [] at i2; simp [loopOk, i2]
      | some m2 =>
        rw [h2] at i2
        obtain ⟨o2, g2, l2⟩ := i2
        refine ⟨by simp [loopOk, o1, o2], ?_, ?_⟩
        · simp only [place_code, g2, emit_code, new_code, codeGotos_append, g1, gotos]
          simp [codeGotos]
        · simp only [place_lab, l2, emit_lab, new_lab, l1, labels, List.append_assoc]
  | .loop c s, k, inl, hb, hc => by
    have i1 := compile_accepts s { (((k.new.place k.tg.length).new).emit (.bz c (k.tg.length + 1))) with
      cs := k.tg.length :: k.cs, bs := (k.tg.length + 1) :: k.bs } true rfl rfl
    simp only [compile]
    cases h1 : compile s { (((k.new.place k.tg.length).new).emit (.bz c (k.tg.length + 1))) with
      cs := k.tg.length :: k.cs, bs := (k.tg.length + 1) :: k.bs } with
    | none => rw [h1] at i1; exact i1
    | some m =>
      rw [h1] at i1
      obtain ⟨o1, g1, l1⟩ := i1
      refine ⟨o1, ?_, l1⟩
      simp only [place_code, emit_code, new_code, codeGotos_append, g1, gotos]
      simp [codeGotos]
  | .doLoop s c, k, inl, hb, hc => by
    have i1 := compile_accepts s { ((k.new.new.new).place (k.tg.length + 2)) with
      cs := k.tg.length :: k.cs, bs := (k.tg.length + 1) :: k.bs } true rfl rfl
    simp only [compile]
    cases h1 : compile s { ((k.new.new.new).place (k.tg.length + 2)) with
      cs := k.tg.length :: k.cs, bs := (k.tg.length + 1) :: k.bs } with
    | none => rw [h1] at i1; exact i1
    | some m =>
      rw [h1] at i1
      obtain ⟨o1, g1, l1⟩ := i1
      refine ⟨o1, ?_, l1⟩
      simp only [place_code, emit_code, new_code, codeGotos_append, g1, gotos]
      simp [codeGotos]
  | .forLoop init c post s, k, inl, hb, hc => by
    have i1 := compile_accepts s { forStart init c k with
      cs := k.tg.length :: k.cs, bs := (k.tg.length + 1) :: k.bs } true rfl rfl
    simp only [compile]
    cases h1 : compile s { forStart init c k with
      cs := k.tg.length :: k.cs, bs := (k.tg.length + 1) :: k.bs } with
    | none => rw [h1] at i1; exact i1
    | some m =>
      rw [h1] at i1
      obtain ⟨o1, g1, l1⟩ := i1
      refine ⟨o1, ?_, ?_⟩
      · simp only [place_code, emit_code, emits_code, codeGotos_append, codeGotos_acts, g1, forStart_gotos, gotos]
        simp [codeGotos]
      · simp only [(forStart_grow init c k).2.2.1] at l1
        exact l1

theorem resolve_isSome (lab : List (Word32 × Nat)) (h : Word32) :
    (resolve lab h).isSome = true ↔ h ∈ lab.map (·.1) := by
  simp only [resolve, Option.isSome_map, List.find?_isSome, List.mem_map]
  constructor
  · rintro ⟨a, ha, he⟩
    exact ⟨a, ha, by simpa using he⟩
  · rintro ⟨a, ha, he⟩
    exact ⟨a, ha, by simpa using he⟩

/-- A function is accepted exactly if `break` and `continue` occur in loops only and every `goto` has a
label somewhere in the same function, before or after it, at whatever depth. -/
theorem C98_accepted_iff (body : Stmt σ ρ) :
    (build body).isSome = true ↔ loopOk false body = true ∧ ∀ h ∈ gotos body, h ∈ labels body := by
  have i := compile_accepts body ⟨[], [], [], [], []⟩ false rfl rfl
  simp only [build]
  cases hc : compile body ⟨[], [], [], [], []⟩ with
  | none => rw [hc] at i; simp only [] at i; simp [i]
  | some k =>
    rw [hc] at i
    obtain ⟨o, g, l⟩ := i
    simp only [codeGotos, List.filterMap_nil, List.nil_append, List.map_nil] at g l
    simp only [Option.bind_some, o, true_and]
    by_cases hr : (k.code.all (Instr.resolved k.lab)) = true
    · rw [if_pos hr]
      refine ⟨fun _ h hh => ?_, fun _ => rfl⟩
      rw [← g, List.mem_filterMap] at hh
      obtain ⟨i, hi, he⟩ := hh
      cases i <;> simp only [reduceCtorEq, Option.some.injEq] at he
      subst he
      rw [← l, ← resolve_isSome]
      exact List.all_eq_true.mp hr _ hi
    · rw [if_neg hr]
      refine ⟨fun h => absurd h (by simp), fun h => absurd ?_ hr⟩
      refine List.all_eq_true.mpr fun i hi => ?_
      cases i with
      | goto l' =>
        simp only [Instr.resolved]
        rw [resolve_isSome, l]
        refine h l' ?_
        rw [← g, List.mem_filterMap]
        exact ⟨_, hi, rfl⟩
      | act => rfl
      | bz => rfl
      | jmp => rfl
      | ret => rfl

/-- In particular: a label that occurs twice is not noticed; `goto` goes to the first. -/
theorem C98_duplicates_accepted (h : Word32) (s t u : Stmt σ ρ) (k : Rest σ ρ) (hs : h ∉ labels s) :
    afterLabel h (.seq s (.seq (.label h) (.seq t (.seq (.label h) u)))) k =
      some (.seq (.seq t (.seq (.label h) u)) k) := by
  have none_of : ∀ (s : Stmt σ ρ) (k : Rest σ ρ), h ∉ labels s → afterLabel h s k = none := by
    intro s
    induction s with
    | label h' =>
      intro k hn
      simp only [labels, List.mem_singleton] at hn
      simp only [afterLabel]
      rw [if_neg (fun e => hn e.symm)]
    | seq s t ih1 ih2 =>
      intro k hn
      simp only [labels, List.mem_append, not_or] at hn
      simp [afterLabel, ih1 _ hn.1, ih2 _ hn.2]
    | ifThen c s ih => intro k hn; exact ih k hn
    | ifElse c s t ih1 ih2 =>
      intro k hn
      simp only [labels, List.mem_append, not_or] at hn
      simp [afterLabel, ih1 _ hn.1, ih2 _ hn.2]
    | loop c s ih => intro k hn; exact ih _ hn
    | doLoop s c ih => intro k hn; exact ih _ hn
    | forLoop i c p s ih => intro k hn; exact ih _ hn
    | _ => intro k _; rfl
  simp [afterLabel, none_of s _ hs]

end Wrench.Goto
