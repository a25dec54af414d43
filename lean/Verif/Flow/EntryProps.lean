import Verif.Flow.Entry

/-
C66: a function returns to its caller, whichever way its body ends.
C67: a host call of a function runs that function and nothing else.
-/
namespace Wrench.Flow

open Wrench

variable {σ ρ : Type}

/-! ### The last instruction -/

theorem endsRet_append (k : CS σ ρ) (l : List (Instr σ ρ)) (i : Instr σ ρ) (h : k.code = l ++ [i]) :
    k.endsRet = i.isRet := by
  simp [CS.endsRet, h]

theorem lastRet_code : ∀ (s : Stmt σ ρ) (k k' : CS σ ρ), compile s k = some k' → tail s ≠ .empty →
    k'.endsRet = lastRet s
  | .skip, _, _, _, h => by simp [tail] at h
  | .act f, k, k', h, _ => by
    simp only [compile, Option.some.injEq] at h; subst h
    rw [endsRet_append _ k.code _ rfl]; rfl
  | .ret f, k, k', h, _ => by
    simp only [compile, Option.some.injEq] at h; subst h
    rw [endsRet_append _ k.code _ rfl]; rfl
  | .brk, k, k', h, _ => by
    simp only [compile, Option.map_eq_some_iff] at h
    obtain ⟨b, _, rfl⟩ := h
    rw [endsRet_append _ k.code _ rfl]; rfl
  | .cont, k, k', h, _ => by
    simp only [compile, Option.map_eq_some_iff] at h
    obtain ⟨b, _, rfl⟩ := h
    rw [endsRet_append _ k.code _ rfl]; rfl
  | .seq s t, k, k', h, ht => by
    simp only [compile, Option.bind_eq_some_iff] at h
    obtain ⟨m, h1, h2⟩ := h
    simp only [tail] at ht
    simp only [lastRet]
    by_cases he : tail t = .empty
    · rw [if_pos he] at ht ⊢
      rw [(tail_empty t he).1 _ _ h2]
      exact lastRet_code s _ _ h1 ht
    · rw [if_neg he]
      exact lastRet_code t _ _ h2 he
  | .ifThen c s, k, k', h, _ => by
    simp only [compile, Option.map_eq_some_iff] at h
    obtain ⟨m, h1, rfl⟩ := h
    simp only [lastRet]
    show m.endsRet = _
    by_cases he : tail s = .empty
    · rw [(tail_empty s he).1 _ _ h1]
      rw [endsRet_append _ k.code _ rfl]
      exact (lastRet_empty s he).symm
    · exact lastRet_code s _ _ h1 he
  | .ifElse c s t, k, k', h, _ => by
    simp only [compile, Option.map_eq_some_iff, Option.bind_eq_some_iff] at h
    obtain ⟨m, h1, m2, h2, rfl⟩ := h
    simp only [lastRet]
    show m2.endsRet = _
    by_cases he : tail t = .empty
    · rw [(tail_empty t he).1 _ _ h2]
      rw [endsRet_append _ m.code _ rfl]
      exact (lastRet_empty t he).symm
    · exact lastRet_code t _ _ h2 he
  | .loop c s, k, k', h, _ => by
    simp only [compile, Option.map_eq_some_iff] at h
    obtain ⟨m, h1, rfl⟩ := h
    rw [endsRet_append _ m.code _ rfl]; rfl
  | .doLoop s c, k, k', h, _ => by
    simp only [compile, Option.map_eq_some_iff] at h
    obtain ⟨m, h1, rfl⟩ := h
    rw [endsRet_append _ (m.code ++ _) _ rfl]; rfl
  | .forLoop init c post s, k, k', h, _ => by
    simp only [compile, Option.map_eq_some_iff] at h
    obtain ⟨m, h1, rfl⟩ := h
    rw [endsRet_append _ (m.code ++ _) _ rfl]; rfl
  | .each st nx s, k, k', h, _ => by
    simp only [compile, Option.map_eq_some_iff] at h
    obtain ⟨m, h1, rfl⟩ := h
    rw [endsRet_append _ m.code _ rfl]; rfl
  | .switch sel b, k, k', h, _ => by
    simp only [compile, Option.map_eq_some_iff] at h
    obtain ⟨w, h1, rfl⟩ := h
    simp only [lastRet]
    split
    · rw [endsRet_append _ w.k.code.dropLast _ rfl]; rfl
    · rw [endsRet_append _ _ _ rfl]; rfl
where
  lastRet_empty : ∀ (s : Stmt σ ρ), tail s = .empty → lastRet s = false
  | .skip, _ => rfl
  | .act f, h => by simp [tail] at h
  | .ret f, h => by simp [tail] at h
  | .brk, h => by simp [tail] at h
  | .cont, h => by simp [tail] at h
  | .loop _ _, h => by simp [tail] at h
  | .doLoop _ _, h => by simp [tail] at h
  | .forLoop _ _ _ _, h => by simp [tail] at h
  | .each _ _ _, h => by simp [tail] at h
  | .switch _ _, h => by simp [tail] at h
  | .ifThen _ s, h => by simp only [tail] at h; split at h <;> simp at h
  | .ifElse _ _ t, h => by simp only [tail] at h; split at h <;> simp at h
  | .seq s t, h => by
    simp only [tail] at h
    simp only [lastRet]
    split at h
    · rename_i ht
      rw [if_pos ht]
      exact lastRet_empty s h
    · contradiction

theorem endsRet_unit {s : Stmt σ ρ} {k : CS σ ρ} (hc : compileUnit s = some k) : k.endsRet = lastRet s := by
  by_cases he : tail s = .empty
  · rw [lastRet_code.lastRet_empty s he, (tail_empty s he).1 _ _ hc]; rfl
  · exact lastRet_code s _ _ hc he

theorem mustRet_exec (n : Nat) : ∀ (s : Stmt σ ρ), mustRet s = true → ∀ x y, exec n s x ≠ some (.nrm, y)
  | .ret f, _, x, y => by simp [exec]
  | .seq s t, h, x, y => by
    simp only [mustRet, Bool.or_eq_true] at h
    simp only [exec]
    split
    · rename_i z hz
      rcases h with h | h
      · exact absurd hz (mustRet_exec n s h x z)
      · exact mustRet_exec n t h z y
    · rename_i hz; exact hz y
  | .ifElse c s t, h, x, y => by
    simp only [mustRet, Bool.and_eq_true] at h
    simp only [exec]
    split
    · exact mustRet_exec n s h.1 _ y
    · exact mustRet_exec n t h.2 _ y
  | .skip, h, _, _ => by simp [mustRet] at h
  | .act f, h, _, _ => by simp [mustRet] at h
  | .brk, h, _, _ => by simp [mustRet] at h
  | .cont, h, _, _ => by simp [mustRet] at h
  | .loop _ _, h, _, _ => by simp [mustRet] at h
  | .doLoop _ _, h, _, _ => by simp [mustRet] at h
  | .forLoop _ _ _ _, h, _, _ => by simp [mustRet] at h
  | .each _ _ _, h, _, _ => by simp [mustRet] at h
  | .switch _ _, h, _, _ => by simp [mustRet] at h
  | .ifThen _ _, h, _, _ => by simp [mustRet] at h

/-! ### C66 -/

theorem finish_agree {zero : ρ} {k : CS σ ρ} : Agree 0 k (k.finish zero).code (k.finish zero).tg := by
  unfold CS.finish
  split
  · exact ⟨List.prefix_refl _, fun _ _ _ => rfl⟩
  · exact ⟨List.prefix_append _ _, fun _ _ _ => rfl⟩

/-- The code of a unit, given how its body ends: a value is returned, or the code runs past the
end, or it runs on. -/
theorem unit_sim {zero : ρ} {s : Stmt σ ρ} {u : CS σ ρ} (hu : unit zero s = some u) (ok : Ok s) (n : Nat) (x : σ) :
    match exec n s x with
    | none => run u.code u.tg n ⟨0, x, []⟩ = none
    | some (.nrm, y) => ∃ m, run u.code u.tg m ⟨0, x, []⟩ =
        some (if lastRet s = true then .fin y [] else .ret zero y [])
    | some (.ret v, y) => ∃ m, run u.code u.tg m ⟨0, x, []⟩ = some (.ret v y [])
    | _ => False := by
  obtain ⟨k, hc, rfl⟩ := Option.map_eq_some_iff.mp hu
  have h := sim (k.finish zero).code (k.finish zero).tg n s _ k hc ok finish_agree x []
  have hl := endsRet_unit hc
  cases hr : exec n s x with
  | none =>
    rw [hr] at h
    obtain ⟨c', m, hm, h⟩ := h
    exact run_none _ _ _ _ _ _ hm h
  | some r =>
    obtain ⟨o, y⟩ := r
    rw [hr] at h
    cases o with
    | nrm =>
      obtain ⟨m, -, h⟩ := h
      refine ⟨m + 1, ?_⟩
      have e := run_of_steps _ _ 1 _ _ _ h
      simp only [List.length_nil] at e
      rw [e]
      by_cases hb : lastRet s = true
      · rw [if_pos hb]
        have : k.finish zero = k := by rw [CS.finish, hl, if_pos hb]
        rw [this]
        simp [run, step]
      · rw [if_neg hb]
        have : k.finish zero = k.emit (.ret fun x => (zero, x)) := by rw [CS.finish, hl, if_neg hb]
        rw [this]
        simp [run, step, CS.emit]
    | brk => obtain ⟨b, hb, -⟩ := h; simp at hb
    | cont => obtain ⟨b, hb, -⟩ := h; simp at hb
    | ret v =>
      obtain ⟨c', ⟨m, -, h⟩, hs⟩ := h
      refine ⟨m + 1, ?_⟩
      have e := run_of_steps _ _ 1 _ _ _ h
      simp only [List.length_nil] at e
      rw [e]
      simp [run, hs]

/-- A unit whose last statement is not a conditional `return` returns to its caller: with the value
of the `return` executed, with zero if the body completes; it never runs past its end.  (`lastRet`
without `mustRet`: the code ends in a `return` that can be jumped over.) -/
theorem C66_returns_partial {zero : ρ} {s : Stmt σ ρ} {u : CS σ ρ} (hu : unit zero s = some u) (ok : Ok s)
    (hl : lastRet s = true → mustRet s = true) (x y : σ) (v : ρ) :
    (∃ n o, exec n s x = some (o, y) ∧ valueOf zero o = some v) ↔
      ∃ n, run u.code u.tg n ⟨0, x, []⟩ = some (.ret v y []) := by
  have key : ∀ n o z, exec n s x = some (o, z) →
      ∃ m w, valueOf zero o = some w ∧ run u.code u.tg m ⟨0, x, []⟩ = some (.ret w z []) := by
    intro n o z he
    have h := unit_sim hu ok n x
    rw [he] at h
    cases o with
    | nrm =>
      obtain ⟨m, h⟩ := h
      by_cases hb : lastRet s = true
      · exact absurd he (mustRet_exec n s (hl hb) x z)
      · rw [if_neg hb] at h; exact ⟨m, zero, rfl, h⟩
    | ret w => obtain ⟨m, h⟩ := h; exact ⟨m, w, rfl, h⟩
    | brk => exact h.elim
    | cont => exact h.elim
  constructor
  · rintro ⟨n, o, he, hv⟩
    obtain ⟨m, w, hw, h⟩ := key n o y he
    rw [hv] at hw
    cases hw
    exact ⟨m, h⟩
  · rintro ⟨n, h⟩
    cases he : exec n s x with
    | none =>
      have h' := unit_sim hu ok n x
      rw [he] at h'
      rw [h] at h'; cases h'
    | some r =>
      obtain ⟨o, z⟩ := r
      obtain ⟨m, w, hw, h'⟩ := key n o z he
      have := run_unique _ _ h h'
      cases this
      exact ⟨n, o, he, hw⟩

/-- … and control never leaves it otherwise. -/
theorem C66_stays_inside_partial {zero : ρ} {s : Stmt σ ρ} {u : CS σ ρ} (hu : unit zero s = some u) (ok : Ok s)
    (hl : lastRet s = true → mustRet s = true) (x : σ) (n : Nat) (r : Res σ ρ)
    (h : run u.code u.tg n ⟨0, x, []⟩ = some r) : ∃ v y, r = .ret v y [] := by
  have h' := unit_sim hu ok n x
  cases he : exec n s x with
  | none => rw [he] at h'; rw [h] at h'; cases h'
  | some q =>
    obtain ⟨o, z⟩ := q
    rw [he] at h'
    cases o with
    | nrm =>
      obtain ⟨m, h'⟩ := h'
      by_cases hb : lastRet s = true
      · exact absurd he (mustRet_exec n s (hl hb) x z)
      · rw [if_neg hb] at h'; exact ⟨_, _, run_unique _ _ h h'⟩
    | ret w => obtain ⟨m, h'⟩ := h'; exact ⟨_, _, run_unique _ _ h h'⟩
    | brk => exact h'.elim
    | cont => exact h'.elim

/-- Every body that completes although its code ends in a `return` runs past the end of its unit,
into the code of the unit that is linked next. -/
theorem C66_runs_past_the_end {zero : ρ} {s : Stmt σ ρ} {u : CS σ ρ} (hu : unit zero s = some u) (ok : Ok s)
    (hl : lastRet s = true) (x y : σ) (n : Nat) (he : exec n s x = some (.nrm, y)) :
    ∃ m, run u.code u.tg m ⟨0, x, []⟩ = some (.fin y []) := by
  have h := unit_sim hu ok n x
  rw [he] at h
  obtain ⟨m, h⟩ := h
  rw [if_pos hl] at h
  exact ⟨m, h⟩

/-- `function f(x) { if (x) { return 1; } }`, called with 0. -/
theorem C66_conditional_return : ∃ (s : Stmt Nat Nat) (u : CS Nat Nat), unit 0 s = some u ∧ Ok s ∧
    s = .ifThen (fun x => (x != 0, x)) (.ret fun x => (1, x)) ∧ exec 1 s 0 = some (.nrm, 0) ∧
    run u.code u.tg 2 ⟨0, 0, []⟩ = some (.fin 0 []) ∧
    run u.code u.tg 2 ⟨0, 7, []⟩ = some (.ret 1 7 []) :=
  ⟨_, _, rfl, by simp [Ok], rfl, rfl, rfl, rfl⟩

/-- `if (x) x = x + 1; else return 5;`: the first branch ends in a jump past the end. -/
theorem C66_else_return : ∃ (s : Stmt Nat Nat) (u : CS Nat Nat), unit 0 s = some u ∧ Ok s ∧
    s = .ifElse (fun x => (x != 0, x)) (.act (· + 1)) (.ret fun x => (5, x)) ∧
    exec 1 s 3 = some (.nrm, 4) ∧ run u.code u.tg 5 ⟨0, 3, []⟩ = some (.fin 4 []) :=
  ⟨_, _, rfl, by simp [Ok], rfl, rfl, rfl⟩

/-- `while (x < 3) { if (x == 9) return 1; x = x + 1; }` and `if (x) return 1; return 2;` are within the
partial theorems. -/
theorem C66_example :
    (∃ u, unit 0 (.loop (fun x => (decide (x < 3), x)) (.seq (.ifThen (fun x => (x == 9, x)) (.ret fun x => (1, x)))
      (.act (· + 1))) : Stmt Nat Nat) = some u ∧ run u.code u.tg 40 ⟨0, 0, []⟩ = some (.ret 0 3 [])) ∧
    lastRet (.loop (fun x => (decide (x < 3), x)) (.seq (.ifThen (fun x => (x == 9, x)) (.ret fun x => (1, x)))
      (.act (· + 1))) : Stmt Nat Nat) = false ∧
    mustRet (.seq (.ifThen (fun x => (x != 0, x)) (.ret fun x => (1, x))) (.ret fun x => (2, x)) : Stmt Nat Nat) = true :=
  ⟨⟨_, rfl, rfl⟩, rfl, rfl⟩

/-! ### C67 -/

theorem while_no_ret (c : σ → Bool × σ) (body : σ → Option (Out ρ × σ)) (post : σ → σ)
    (hb : ∀ x v y, body x ≠ some (.ret v, y)) : ∀ k x v y, whileLoop c body post k x ≠ some (.ret v, y)
  | 0, x, v, y => by simp [whileLoop]
  | k + 1, x, v, y => by
    simp only [whileLoop]
    split
    · split
      · simp
      · exact while_no_ret c body post hb k _ v y
      · exact while_no_ret c body post hb k _ v y
      · simp
      · rename_i h; exact absurd h (hb _ _ _)
    · simp

theorem until_no_ret (c : σ → Bool × σ) (body : σ → Option (Out ρ × σ))
    (hb : ∀ x v y, body x ≠ some (.ret v, y)) : ∀ k x v y, untilLoop c body k x ≠ some (.ret v, y)
  | 0, x, v, y => by simp [untilLoop]
  | k + 1, x, v, y => by
    simp only [untilLoop]
    split
    · simp
    · simp
    · rename_i h; exact absurd h (hb _ _ _)
    · split
      · exact until_no_ret c body hb k _ v y
      · simp
    · split
      · exact until_no_ret c body hb k _ v y
      · simp

mutual
theorem no_ret (n : Nat) : ∀ (s : Stmt σ ρ), noRet s = true → ∀ x v y, exec n s x ≠ some (.ret v, y)
  | .skip, _, x, v, y => by simp [exec]
  | .act f, _, x, v, y => by simp [exec]
  | .ret f, h, x, v, y => by simp [noRet] at h
  | .brk, _, x, v, y => by simp [exec]
  | .cont, _, x, v, y => by simp [exec]
  | .seq s t, h, x, v, y => by
    simp only [noRet, Bool.and_eq_true] at h
    simp only [exec]
    have := no_ret n s h.1 x v
    split
    · exact no_ret n t h.2 _ v y
    · exact this y
  | .ifThen c s, h, x, v, y => by
    simp only [noRet] at h
    simp only [exec]
    split
    · exact no_ret n s h _ v y
    · simp
  | .ifElse c s t, h, x, v, y => by
    simp only [noRet, Bool.and_eq_true] at h
    simp only [exec]
    split
    · exact no_ret n s h.1 _ v y
    · exact no_ret n t h.2 _ v y
  | .loop c s, h, x, v, y => by
    simp only [noRet] at h
    simp only [exec]; exact while_no_ret _ _ _ (no_ret n s h) _ _ _ _
  | .doLoop s c, h, x, v, y => by
    simp only [noRet] at h
    simp only [exec]; exact until_no_ret _ _ (no_ret n s h) _ _ _ _
  | .forLoop i c p s, h, x, v, y => by
    simp only [noRet] at h
    cases c <;> (simp only [exec]; exact while_no_ret _ _ _ (no_ret n s h) _ _ _ _)
  | .each st nx s, h, x, v, y => by
    simp only [noRet] at h
    simp only [exec]; exact while_no_ret _ _ _ (no_ret n s h) _ _ _ _
  | .switch sel b, h, x, v, y => by
    simp only [noRet] at h
    simp only [exec, pickSel]
    obtain ⟨-, f, g⟩ := no_ret_body n b h (sel x).2 v y
    have f := f (sel x).1
    cases h1 : execFrom n b (sel x).1 (sel x).2 with
    | some r =>
      rw [h1] at f
      match r, f with
      | none, _ => simp
      | some (.nrm, z), _ => simp
      | some (.brk, z), _ => simp
      | some (.cont, z), _ => simp
      | some (.ret w, z), f => intro hh; simp at hh; obtain ⟨rfl, rfl⟩ := hh; exact f rfl
    | none =>
      simp only
      cases h2 : execDflt n b (sel x).2 with
      | none => simp
      | some r =>
        rw [h2] at g
        match r, g with
        | none, _ => simp
        | some (.nrm, z), _ => simp
        | some (.brk, z), _ => simp
        | some (.cont, z), _ => simp
        | some (.ret w, z), f => intro hh; simp at hh; obtain ⟨rfl, rfl⟩ := hh; exact f rfl
theorem no_ret_body (n : Nat) : ∀ (b : Body σ ρ), noRetBody b = true → ∀ x v y,
    execBody n b x ≠ some (.ret v, y) ∧ (∀ h, execFrom n b h x ≠ some (some (.ret v, y))) ∧
    execDflt n b x ≠ some (some (.ret v, y))
  | .nil, _, x, v, y => by simp [execBody, execFrom, execDflt]
  | .case h b, hh, x, v, y => by
    simp only [noRetBody] at hh
    obtain ⟨e, f, g⟩ := no_ret_body n b hh x v y
    refine ⟨by simpa [execBody] using e, fun h' => ?_, by simpa [execDflt] using g⟩
    simp only [execFrom]
    split
    · simpa using e
    · exact f h'
  | .dflt b, hh, x, v, y => by
    simp only [noRetBody] at hh
    obtain ⟨e, f, g⟩ := no_ret_body n b hh x v y
    exact ⟨by simpa [execBody] using e, by simpa [execFrom] using f, by simpa [execDflt] using e⟩
  | .stmt s b, hh, x, v, y => by
    simp only [noRetBody, Bool.and_eq_true] at hh
    obtain ⟨e, f, g⟩ := no_ret_body n b hh.2 x v y
    refine ⟨?_, by simpa [execFrom] using f, by simpa [execDflt] using g⟩
    simp only [execBody]
    have := no_ret n s hh.1 x v
    split
    · exact (no_ret_body n b hh.2 _ v y).1
    · exact this y
end

theorem noRet_lastRet : ∀ (s : Stmt σ ρ), noRet s = true → lastRet s = false
  | .skip, _ | .act _, _ | .brk, _ | .cont, _ | .loop _ _, _ | .doLoop _ _, _ | .forLoop _ _ _ _, _
  | .each _ _ _, _ | .switch _ _, _ => rfl
  | .ret _, h => by simp [noRet] at h
  | .seq s t, h => by
    simp only [noRet, Bool.and_eq_true] at h
    simp only [lastRet, noRet_lastRet s h.1, noRet_lastRet t h.2, ite_self]
  | .ifThen _ s, h => by
    simp only [noRet] at h
    simp only [lastRet, noRet_lastRet s h]
  | .ifElse _ s t, h => by
    simp only [noRet, Bool.and_eq_true] at h
    simp only [lastRet, noRet_lastRet t h.2]

theorem top_of_steps (F : List (Instr σ ρ)) (T : List Nat) (n : Nat) : ∀ (m : Nat) (c c' : Cfg σ), steps F T m c = some c' →
    topRun F T (m + n) c = topRun F T n c'
  | 0, c, c', h => by simp only [steps, Option.some.injEq] at h; subst h; simp
  | m + 1, c, c', h => by
    rw [show m + 1 + n = (m + n) + 1 by omega]
    simp only [steps] at h
    simp only [topRun]
    cases hs : step F T c with
    | go c1 => rw [hs] at h; exact top_of_steps F T n m _ _ h
    | fin _ _ => rw [hs] at h; cases h
    | ret _ _ _ => rw [hs] at h; cases h
    | fault => rw [hs] at h; cases h

/-- Top-level code without `return`, or with one as its last statement. -/
inductive Straight : Stmt σ ρ → Prop where
  | none {s : Stmt σ ρ} : noRet s = true → Straight s
  | last {s : Stmt σ ρ} (r : σ → ρ × σ) : noRet s = true → Straight (.seq s (.ret r))

/-- Running a straight top level leaves `stopLocation` at `Stop`, and delivers the state and value
the source says. -/
theorem C67_execute_partial {zero : ρ} {s : Stmt σ ρ} {u : CS σ ρ} (hu : unit zero s = some u) (ok : Ok s)
    (hs : Straight s) {n : Nat} {x y : σ} {o : Out ρ} {v : ρ} (he : exec n s x = some (o, y)) (hv : valueOf zero o = some v) :
    ∃ m, execute zero u m ⟨x, none⟩ = some (.value v, ⟨y, some u.code.length⟩) := by
  obtain ⟨k, hc, rfl⟩ := Option.map_eq_some_iff.mp hu
  cases hs with
  | none hn =>
    have h := sim (k.finish zero).code (k.finish zero).tg n s _ k hc ok finish_agree x []
    have hf : k.finish zero = k.emit (.ret fun x => (zero, x)) := by
      rw [CS.finish, endsRet_unit hc, noRet_lastRet s hn]; rfl
    rw [he] at h
    cases o with
    | nrm =>
      cases hv
      obtain ⟨m, -, h⟩ := h
      refine ⟨m + 1, ?_⟩
      have e := top_of_steps _ _ 1 _ _ _ h
      simp only [List.length_nil] at e
      simp only [execute, e]
      rw [hf]
      simp [topRun, step, CS.emit, toReply]
    | ret w => exact absurd he (no_ret n s hn x w y)
    | brk => cases hv
    | cont => cases hv
  | @last s r hn =>
    have hc' := hc
    simp only [compileUnit, compile, Option.bind_eq_some_iff, Option.some.injEq] at hc'
    obtain ⟨k1, h1, rfl⟩ := hc'
    have hf : (k1.emit (.ret r)).finish zero = k1.emit (.ret r) := by
      rw [CS.finish, endsRet_append _ k1.code _ rfl]; rfl
    rw [hf]
    have h := sim (k1.emit (.ret r)).code (k1.emit (.ret r)).tg n s _ k1 h1 ok.1
      ⟨List.prefix_append _ _, fun _ _ _ => rfl⟩ x []
    simp only [exec] at he
    cases hr : exec n s x with
    | none => rw [hr] at he; cases he
    | some q =>
      obtain ⟨o', z⟩ := q
      rw [hr] at h he
      cases o' with
      | nrm =>
        simp only [Option.some.injEq, Prod.mk.injEq] at he
        obtain ⟨rfl, rfl⟩ := he
        simp only [valueOf, Option.some.injEq] at hv
        subst hv
        obtain ⟨m, -, h⟩ := h
        refine ⟨m + 1, ?_⟩
        have e := top_of_steps _ _ 1 _ _ _ h
        simp only [List.length_nil] at e
        simp only [execute, e]
        simp [topRun, step, CS.emit, toReply]
      | ret w => exact absurd hr (no_ret n s hn x w z)
      | brk => simp only [Option.some.injEq, Prod.mk.injEq] at he; obtain ⟨rfl, _⟩ := he; cases hv
      | cont => simp only [Option.some.injEq, Prod.mk.injEq] at he; obtain ⟨rfl, _⟩ := he; cases hv

/-- From then on, a call of a function delivers that function's value and does what the function
does, and leaves the context ready for the next call. -/
theorem C67_call {zero : ρ} {u : CS σ ρ} {n : Nat} {f : σ → Option (ρ × σ)} {x y : σ} {v : ρ} (hf : f x = some (v, y)) :
    hostCall zero u n f ⟨x, some u.code.length⟩ = some (.value v, ⟨y, some u.code.length⟩) := by
  simp [hostCall, hf]

/-- Where the context is not ready, the function is run all the same, and what is delivered - whenever a value is
delivered - is zero, whatever the function and the code run after it return. -/
theorem C67_value_lost {zero : ρ} {u : CS σ ρ} {n p : Nat} {f : σ → Option (ρ × σ)} {x : σ} {v : ρ} {c : Context σ}
    (hp : p ≠ u.code.length) (h : hostCall zero u n f ⟨x, some p⟩ = some (.value v, c)) : v = zero := by
  simp only [hostCall, Option.bind_eq_some_iff] at h
  obtain ⟨⟨w, st⟩, -, h⟩ := h
  rw [if_neg hp] at h
  obtain ⟨e, -, h⟩ := Option.map_eq_some_iff.mp h
  cases e with
  | value r st p =>
    simp only [toReply, Prod.mk.injEq, Reply.value.injEq] at h
    simpa using h.1.symm
  | stale st p => simp [toReply] at h
  | fault => simp [toReply] at h

/-- A sequence of host calls. -/
def hostCalls (zero : ρ) (u : CS σ ρ) (n : Nat) : List (σ → Option (ρ × σ)) → Context σ → Option (List (Reply ρ) × Context σ)
  | [], c => some ([], c)
  | f :: fs, c => (hostCall zero u n f c).bind fun (r, c) => (hostCalls zero u n fs c).map fun (rs, c) => (r :: rs, c)

/-- What a sequence of functions does, one after the other. -/
def inTurn : List (σ → Option (ρ × σ)) → σ → Option (List ρ × σ)
  | [], x => some ([], x)
  | f :: fs, x => (f x).bind fun (v, y) => (inTurn fs y).map fun (vs, z) => (v :: vs, z)

/-- The whole story: run the script, then call any functions in any order. -/
theorem C67_run_then_call_partial {zero : ρ} {s : Stmt σ ρ} {u : CS σ ρ} (hu : unit zero s = some u) (ok : Ok s)
    (hs : Straight s) {n : Nat} {x y z : σ} {o : Out ρ} {v : ρ} (he : exec n s x = some (o, y)) (hv : valueOf zero o = some v)
    {fs : List (σ → Option (ρ × σ))} {vs : List ρ} (hf : inTurn fs y = some (vs, z)) (m' : Nat) :
    ∃ m c, execute zero u m ⟨x, none⟩ = some (.value v, c) ∧
      ∃ c', hostCalls zero u m' fs c = some (vs.map .value, c') ∧ c'.st = z := by
  obtain ⟨m, hm⟩ := C67_execute_partial hu ok hs he hv
  refine ⟨m, _, hm, ⟨z, some u.code.length⟩, ?_, rfl⟩
  clear hm he hv
  induction fs generalizing y vs with
  | nil =>
    simp only [inTurn, Option.some.injEq, Prod.mk.injEq] at hf
    obtain ⟨rfl, rfl⟩ := hf
    rfl
  | cons f fs ih =>
    simp only [inTurn] at hf
    obtain ⟨⟨w, y'⟩, h1, hf⟩ := Option.bind_eq_some_iff.mp hf
    obtain ⟨⟨ws, z'⟩, h2, hf⟩ := Option.map_eq_some_iff.mp hf
    simp only [Prod.mk.injEq] at hf
    obtain ⟨rfl, rfl⟩ := hf
    simp only [hostCalls, C67_call h1, Option.bind_some, ih h2, Option.map_some, List.map_cons]

/-- Calling a function before the script has run, or running it twice, is refused and changes
nothing. -/
theorem C67_refused (zero : ρ) (u : CS σ ρ) (n : Nat) (f : σ → Option (ρ × σ)) (x : σ) (p : Nat) :
    hostCall zero u n f ⟨x, none⟩ = some (.error, ⟨x, none⟩) ∧
    execute zero u n ⟨x, some p⟩ = some (.error, ⟨x, some p⟩) := ⟨rfl, rfl⟩

/-- `a = 1; while (a < 5) a = a + 1; return 8;` and then two calls. -/
theorem C67_example : ∃ (s : Stmt Nat Nat) (u : CS Nat Nat), unit 0 s = some u ∧ Ok s ∧ Straight s ∧
    exec 9 s 0 = some (.ret 8, 5) ∧ execute 0 u 30 ⟨0, none⟩ = some (.value 8, ⟨5, some 5⟩) ∧
    inTurn [fun x => some (x, x + 1), fun x => some (x, x + 1)] 5 = some ([5, 6], 7) :=
  ⟨.seq (.seq (.act fun _ => 1) (.loop (fun x => (decide (x < 5), x)) (.act (· + 1)))) (.ret fun x => (8, x)), _,
    rfl, by simp [Ok], .last _ rfl, rfl, rfl, rfl⟩

/-- The loop around a `switch` of Flow/Props.lean has no `return`. -/
example : Straight sample := .none rfl

/-- `if (a == 0) return 8; a = 100;` ends at its first `return`.  The call of `function f() { return
a = a + 1; }` afterwards goes on behind that `return`: `a` is 100, and the value is 0. -/
theorem C67_early_return : ∃ (s : Stmt Nat Nat) (u : CS Nat Nat), unit 0 s = some u ∧ Ok s ∧
    s = .seq (.ifThen (fun x => (x == 0, x)) (.ret fun x => (8, x))) (.act fun _ => 100) ∧
    exec 1 s 0 = some (.ret 8, 0) ∧ execute 0 u 9 ⟨0, none⟩ = some (.value 8, ⟨0, some 2⟩) ∧
    hostCall 0 u 9 (fun x => some (x + 1, x + 1)) ⟨0, some 2⟩ = some (.value 0, ⟨100, some 4⟩) :=
  ⟨_, _, rfl, by simp [Ok], rfl, rfl, rfl, rfl⟩

/-- `while (a < 3) { a = a + 1; if (a == 1) return 8; }`: the call resumes the loop. -/
theorem C67_resumes_loop : ∃ (s : Stmt Nat Nat) (u : CS Nat Nat), unit 0 s = some u ∧ Ok s ∧
    exec 9 s 0 = some (.ret 8, 1) ∧ execute 0 u 9 ⟨0, none⟩ = some (.value 8, ⟨1, some 4⟩) ∧
    hostCall 0 u 30 (fun x => some (x, x)) ⟨1, some 4⟩ = some (.value 0, ⟨3, some 6⟩) :=
  ⟨.loop (fun x => (decide (x < 3), x)) (.seq (.act (· + 1)) (.ifThen (fun x => (x == 1, x)) (.ret fun x => (8, x)))),
    _, rfl, by simp [Ok], rfl, rfl, rfl⟩

/-- `if (a) return 8;` as the last statement, `a` zero: `Stop` is reached without a value. -/
theorem C67_stale_result : ∃ (s : Stmt Nat Nat) (u : CS Nat Nat), unit 0 s = some u ∧ Ok s ∧
    exec 1 s 0 = some (.nrm, 0) ∧ execute 0 u 9 ⟨0, none⟩ = some (.garbage, ⟨0, some 2⟩) :=
  ⟨.ifThen (fun x => (x != 0, x)) (.ret fun x => (8, x)), _, rfl, by simp [Ok], rfl, rfl⟩

end Wrench.Flow
