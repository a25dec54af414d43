/-!
# Wildcard matching: `WRstr::isWildMatch`, `WRstr::isWildMatchCase`

A C string is modelled as the list of its characters before the terminating 0, so `[]` is
the position of the terminator.  The caller must pass terminated strings; the null-pointer
test of the pattern (wrench.h 1814-1817, 1883-1886) is not modelled.
-/

namespace Wrench.Util

/-- The wildcard character `*`. -/
abbrev star : UInt8 := 42

/-- The loop of `isWildMatch` (wrench.h 1829-1877) and of `isWildMatchCase`
(wrench.h 1898-1946).  `same` is the comparison of `t != w` (1847, 1916); the comparison in
the restart branch (`t == w`, 1871, 1934) is exact in both functions.  `after` is the C
variable of that name, `none` while it is 0. -/
def wildLoop (same : UInt8 → UInt8 → Bool) : Option (List UInt8) → List UInt8 → List UInt8 → Bool
  | _, [], [] => true
  | after, w :: p, [] => if w = star then wildLoop same after p [] else false
  | after, p, t :: h =>
    match p with
    | w :: p' =>
      if same t w then wildLoop same after p' h
      else if w = star then wildLoop same (some p') p' (t :: h)
      else
        match after with
        | some [] => true
        | some (w0 :: a) => if t = w0 then wildLoop same (some (w0 :: a)) a h
            else wildLoop same (some (w0 :: a)) (w0 :: a) h
        | none => false
    | [] =>
      match after with
      | some [] => true
      | some (w0 :: a) => if t = w0 then wildLoop same (some (w0 :: a)) a h
          else wildLoop same (some (w0 :: a)) (w0 :: a) h
      | none => false
termination_by _ p h => (h.length, p.length)

/-- `isWildMatch( pattern, haystack )` (wrench.h 1812-1878). -/
def isWildMatch (p h : List UInt8) : Bool :=
  if p = [] then h = [] else wildLoop (fun t w => t = w) none p h

/-- `tolower` of the C locale. -/
def lower (c : UInt8) : UInt8 := if 65 ≤ c ∧ c ≤ 90 then c + 32 else c

/-- `isWildMatchCase( pattern, haystack )` (wrench.h 1881-1947). -/
def isWildMatchCase (p h : List UInt8) : Bool :=
  if p = [] then h = [] else wildLoop (fun t w => lower t = lower w) none p h

/-! ### Specification -/

/-- `Matches same p h`: the text `h` is generated by the pattern `p`, where `*` generates any
text and any other character generates a character equivalent to itself. -/
inductive Matches (same : UInt8 → UInt8 → Bool) : List UInt8 → List UInt8 → Prop
  | nil : Matches same [] []
  | lit {w t : UInt8} {p h : List UInt8} : w ≠ star → same t w = true → Matches same p h →
      Matches same (w :: p) (t :: h)
  | any {p : List UInt8} (x : List UInt8) {h : List UInt8} : Matches same p h →
      Matches same (star :: p) (x ++ h)

/-- The characters of a pattern up to the next `*`. -/
def segment (p : List UInt8) : List UInt8 := p.takeWhile (· ≠ star)

/-- Every piece of literal text behind a `*` starts with a character that does not occur again
in that piece. -/
def NoRecurrence (p : List UInt8) : Prop :=
  ∀ (pre a : List UInt8) (c : UInt8), p = pre ++ star :: c :: a → c ≠ star → c ∉ segment a

variable {same : UInt8 → UInt8 → Bool}

theorem Matches.absorb {p h : List UInt8} (x : List UInt8) (m : Matches same (star :: p) h) :
    Matches same (star :: p) (x ++ h) := by
  generalize hq : star :: p = q at m
  cases m with
  | nil => cases hq
  | lit hw _ _ => injection hq with h1; exact absurd h1.symm hw
  | any y m =>
    injection hq with _ h2
    subst h2
    rw [← List.append_assoc]
    exact .any _ m

theorem Matches.star_inv {p h : List UInt8} (m : Matches same (star :: p) h) :
    ∃ x y, h = x ++ y ∧ Matches same p y := by
  generalize hq : star :: p = q at m
  cases m with
  | nil => cases hq
  | lit hw _ _ => injection hq with h1; exact absurd h1.symm hw
  | any y m =>
    injection hq with _ h2
    subst h2
    exact ⟨_, _, rfl, m⟩

theorem Matches.lit_inv {w : UInt8} {p h : List UInt8} (hw : w ≠ star) (m : Matches same (w :: p) h) :
    ∃ t h', h = t :: h' ∧ same t w = true ∧ Matches same p h' := by
  generalize hq : w :: p = q at m
  cases m with
  | nil => cases hq
  | lit _ h1 h2 =>
    injection hq with h3 h4
    subst h3; subst h4
    exact ⟨_, _, rfl, h1, h2⟩
  | any y m => injection hq with h1; exact absurd h1 hw

/-- Soundness of the loop: what is known about the part already consumed.  Before any `*`
the rest of the pattern must generate the rest of the text; afterwards `u` is the part of the
pattern consumed since that `*` and `v` the text it was matched against. -/
def Sound (same : UInt8 → UInt8 → Bool) (after : Option (List UInt8)) (p h : List UInt8) : Prop :=
  match after with
  | none => Matches same p h
  | some a => ∀ u v : List UInt8, a = u ++ p →
      (∀ b g : List UInt8, Matches same b g → Matches same (u ++ b) (v ++ g)) →
      Matches same (star :: a) (v ++ h)

theorem matches_cons {w t : UInt8} {b g : List UInt8} (h : same t w = true) (m : Matches same b g) :
    Matches same (w :: b) (t :: g) := by
  by_cases hw : w = star
  · subst hw; exact .any [t] m
  · exact .lit hw h m

theorem sound_step {after : Option (List UInt8)} {w t : UInt8} {p h : List UInt8} (hs : same t w = true)
    (ih : Sound same after p h) : Sound same after (w :: p) (t :: h) := by
  cases after with
  | none => exact matches_cons hs ih
  | some a =>
    intro u v ha huv
    have := ih (u ++ [w]) (v ++ [t]) (by simp [ha]) (by
      intro b g m
      simpa using huv (w :: b) (t :: g) (matches_cons hs m))
    simpa using this

theorem sound_star {after : Option (List UInt8)} {p h : List UInt8}
    (ih : Sound same (some p) p h) : Sound same after (star :: p) h := by
  have h0 : Matches same (star :: p) h := by
    have := ih [] [] rfl (fun _ _ m => m)
    simpa using this
  cases after with
  | none => exact h0
  | some a =>
    intro u v ha huv
    have := Matches.any [] (huv _ _ h0)
    rw [ha]; exact this

theorem sound_restart {w0 t : UInt8} {a p h : List UInt8} (hrf : ∀ t, same t t = true)
    (ih : wildLoop same (some (w0 :: a)) (if t = w0 then a else w0 :: a) h = true →
      Sound same (some (w0 :: a)) (if t = w0 then a else w0 :: a) h)
    (hl : wildLoop same (some (w0 :: a)) (if t = w0 then a else w0 :: a) h = true) :
    Sound same (some (w0 :: a)) p (t :: h) := by
  intro u v _ _
  have := ih hl
  by_cases ht : t = w0
  · rw [if_pos ht] at this
    have := this [w0] [t] rfl (fun b g m => matches_cons (ht ▸ hrf _) m)
    exact Matches.absorb v this
  · rw [if_neg ht] at this
    have := this [] [] rfl (fun b g m => m)
    have := Matches.absorb (v ++ [t]) this
    simpa using this

theorem sound_end {p h : List UInt8} : Sound same (some []) p h := by
  intro u v hu _
  have := Matches.any (same := same) (v ++ h) .nil
  simpa using this

theorem wildLoop_sound (hrf : ∀ t, same t t = true) (after : Option (List UInt8)) (p h : List UInt8) :
    wildLoop same after p h = true → Sound same after p h := by
  induction after, p, h using wildLoop.induct same with
  | case1 after =>
    intro _
    cases after with
    | none => exact .nil
    | some a =>
      intro u v ha huv
      have := Matches.any [] (huv _ _ .nil)
      simpa [ha] using this
  | case2 after p ih =>
    intro hl
    have ih := ih (by simpa [wildLoop] using hl)
    cases after with
    | none => exact .any [] ih
    | some a =>
      intro u v ha huv
      have := ih (u ++ [star]) v (by simp [ha]) (by
        intro b g m
        simpa using huv _ _ (.any [] m))
      exact this
  | case3 after w p hw => intro hl; simp [wildLoop, hw] at hl
  | case4 after t h w p' hs ih =>
    intro hl
    exact sound_step hs (ih (by unfold wildLoop at hl; simpa [hs] using hl))
  | case5 after t h p' hs ih =>
    intro hl
    exact sound_star (ih (by unfold wildLoop at hl; simpa [hs] using hl))
  | case6 t h w p' hs hw => intro _; exact sound_end
  | case7 h w p' hw w0 a hs ih =>
    intro hl
    refine sound_restart hrf (by simpa using ih) ?_
    simpa [wildLoop, hs, hw] using hl
  | case8 t h w p' hs hw w0 a ht ih =>
    intro hl
    refine sound_restart hrf (by simpa [ht] using ih) ?_
    simpa [wildLoop, hs, hw, ht] using hl
  | case9 t h w p' hs hw => intro hl; simp [wildLoop, hs, hw] at hl
  | case10 => intro _; exact sound_end
  | case11 h w0 a ih =>
    intro hl
    refine sound_restart hrf (by simpa using ih) ?_
    simpa [wildLoop] using hl
  | case12 t h w0 a ht ih =>
    intro hl
    refine sound_restart hrf (by simpa [ht] using ih) ?_
    simpa [wildLoop, ht] using hl
  | case13 => intro hl; simp [wildLoop] at hl

/-- Character equality. -/
abbrev eqc : UInt8 → UInt8 → Bool := fun t w => t = w

/-- Equality up to case. -/
abbrev eqlower : UInt8 → UInt8 → Bool := fun t w => lower t = lower w

/-- **C43, soundness.**  Whatever the two functions accept is generated by the pattern. -/
theorem C43_sound (p h : List UInt8) : isWildMatch p h = true → Matches eqc p h := by
  intro hm
  unfold isWildMatch at hm
  split at hm
  · rename_i h1; subst h1
    have : h = [] := by simpa using hm
    subst this; exact .nil
  · exact wildLoop_sound (fun t => by simp) none p h hm

/-- Two characters agree but for the case of a letter. -/
theorem eqlower_iff (t w : UInt8) : eqlower t w = true ↔ t = w ∨ (65 ≤ t.toNat ∧ t.toNat ≤ 90 ∧ w.toNat = t.toNat + 32) ∨
    (65 ≤ w.toNat ∧ w.toNat ≤ 90 ∧ t.toNat = w.toNat + 32) := by
  have key : ∀ c : UInt8, (lower c).toNat = if 65 ≤ c.toNat ∧ c.toNat ≤ 90 then c.toNat + 32 else c.toNat := by
    intro c
    unfold lower
    simp only [UInt8.le_iff_toNat_le]
    have h1 : (65 : UInt8).toNat = 65 := rfl
    have h2 : (90 : UInt8).toNat = 90 := rfl
    have h3 : (32 : UInt8).toNat = 32 := rfl
    rw [h1, h2]
    split
    · rw [UInt8.toNat_add, h3]
      omega
    · rfl
  simp only [eqlower, decide_eq_true_eq, ← UInt8.toNat_inj, key]
  split <;> split <;> omega

theorem C43_case_sound (p h : List UInt8) : isWildMatchCase p h = true → Matches eqlower p h := by
  intro hm
  unfold isWildMatchCase at hm
  split at hm
  · rename_i h1; subst h1
    have : h = [] := by simpa using hm
    subst this; exact .nil
  · exact wildLoop_sound (fun t => by simp) none p h hm

/-! ### Completeness for patterns without recurrences -/

theorem matches_lits {a : List UInt8} : ∀ {u x : List UInt8}, star ∉ u → Matches eqc (u ++ a) x →
    ∃ y, x = u ++ y ∧ Matches eqc a y
  | [], x, _, m => ⟨x, rfl, m⟩
  | w :: u, x, hu, m => by
    obtain ⟨t, h', rfl, h2, m2⟩ := Matches.lit_inv (fun h => hu (by simp [h])) m
    obtain ⟨y, rfl, m3⟩ := matches_lits (fun h => hu (List.mem_cons_of_mem _ h)) m2
    have : t = w := by simpa using h2
    subst this
    exact ⟨y, rfl, m3⟩

/-- Completeness of the loop. -/
def Complete (after : Option (List UInt8)) (p h : List UInt8) : Prop :=
  star ∉ h →
  match after with
  | none => NoRecurrence p → Matches eqc p h → wildLoop eqc none p h = true
  | some a => ∀ u : List UInt8, a = u ++ p → star ∉ u → NoRecurrence (star :: a) →
      Matches eqc (star :: a) (u ++ h) → wildLoop eqc (some a) p h = true

theorem NoRecurrence.tail {c : UInt8} {p : List UInt8} (h : NoRecurrence (c :: p)) : NoRecurrence p := by
  intro pre a d hp hd
  exact h (c :: pre) a d (by simp [hp]) hd

theorem NoRecurrence.drop {p : List UInt8} : ∀ {u : List UInt8}, NoRecurrence (u ++ p) → NoRecurrence p
  | [], h => h
  | _ :: _, h => NoRecurrence.drop (NoRecurrence.tail h)

theorem takeWhile_lits {u p : List UInt8} (hu : star ∉ u) : segment (u ++ p) = u ++ segment p := by
  unfold segment
  rw [List.takeWhile_append_of_pos]
  intro x hx
  simp only [decide_eq_true_eq]
  intro h; subst h; exact hu hx

/-- The restart loses no match: the piece just consumed cannot contain a later start. -/
theorem restart_complete {w0 t : UInt8} {a u p h : List UInt8} (ha : w0 :: a = u ++ p) (hu : star ∉ u)
    (hr : NoRecurrence (star :: w0 :: a)) (m : Matches eqc (star :: w0 :: a) (u ++ t :: h))
    (hne : ∀ (w : UInt8) (p' : List UInt8), p = w :: p' → t ≠ w ∧ w ≠ star) :
    w0 ≠ star ∧ Matches eqc (star :: w0 :: a) (t :: h) := by
  have hw0 : w0 ≠ star := by
    cases u with
    | nil => exact (hne w0 a (by simpa using ha.symm)).2
    | cons c u =>
      simp only [List.cons_append, List.cons.injEq] at ha
      intro h1; exact hu (by simp [← ha.1, h1])
  refine ⟨hw0, ?_⟩
  obtain ⟨x, y, hxy, my⟩ := m.star_inv
  obtain ⟨t', y', rfl, ht', -⟩ := Matches.lit_inv hw0 my
  have ht' : t' = w0 := by simpa using ht'
  subst ht'
  -- position of the match
  by_cases hlen : u.length ≤ x.length
  · -- the match starts in `t :: h`
    have h1 : x.take u.length = u := by
      have := congrArg (List.take u.length) hxy
      rw [List.take_append_of_le_length (Nat.le_refl _), List.take_length,
        List.take_append_of_le_length hlen] at this
      exact this.symm
    have h2 : t :: h = x.drop u.length ++ t' :: y' := by
      have := congrArg (List.drop u.length) hxy
      rw [List.drop_append_of_le_length (Nat.le_refl _), List.drop_length,
        List.drop_append_of_le_length hlen] at this
      simpa using this
    rw [h2]
    exact .any _ my
  · exfalso
    have hlen : x.length < u.length := Nat.lt_of_not_le hlen
    have hget : u[x.length]? = some t' := by
      have := congrArg (fun l : List UInt8 => l[x.length]?) hxy
      simp only [List.getElem?_append_left hlen] at this
      rw [this, List.getElem?_append_right (Nat.le_refl _)]; simp
    cases u with
    | nil => simp at hlen
    | cons c u =>
      simp only [List.cons_append, List.cons.injEq] at ha
      obtain ⟨hc, ha⟩ := ha
      subst hc
      cases x with
      | nil =>
        -- match at the very start: contradicts the mismatch
        simp only [List.nil_append] at hxy
        rw [← hxy, ha, ← List.cons_append] at my
        obtain ⟨z, hz, mz⟩ := matches_lits hu my
        have hz : z = t :: h := (List.append_cancel_left hz).symm
        subst hz
        cases p with
        | nil => cases mz
        | cons w p' =>
          obtain ⟨h3, h4⟩ := hne w p' rfl
          obtain ⟨t2, h2, h5, h6, -⟩ := Matches.lit_inv h4 mz
          injection h5 with h5
          subst h5
          exact h3 (by simpa using h6)
      | cons d x =>
        have hmem : t' ∈ u := by
          simp only [List.length_cons, List.getElem?_cons_succ] at hget
          exact List.mem_of_getElem? hget
        have := hr [] a t' (by simp) hw0
        rw [ha, takeWhile_lits (fun h => hu (List.mem_cons_of_mem _ h))] at this
        exact this (List.mem_append_left _ hmem)

theorem wildLoop_end {after : Option (List UInt8)} : ∀ {p : List UInt8}, Matches eqc p [] →
    wildLoop eqc after p [] = true
  | [], _ => by simp [wildLoop]
  | w :: p, m => by
    by_cases hw : w = star
    · subst hw
      obtain ⟨x, y, h1, h2⟩ := m.star_inv
      simp only [List.nil_eq, List.append_eq_nil_iff] at h1
      obtain ⟨rfl, rfl⟩ := h1
      rw [wildLoop, if_pos rfl]
      exact wildLoop_end h2
    · obtain ⟨t, h', h1, -⟩ := Matches.lit_inv hw m
      cases h1

theorem complete_end (after : Option (List UInt8)) (p : List UInt8) : Complete after p [] := by
  intro _
  cases after with
  | none => intro _ m; exact wildLoop_end m
  | some a =>
    intro u ha hu hr m
    obtain ⟨x, y, h1, h2⟩ := m.star_inv
    rw [ha] at h2
    obtain ⟨z, hz, m3⟩ := matches_lits hu h2
    simp only [List.append_nil] at h1
    have hl := congrArg List.length h1
    simp only [hz, List.length_append] at hl
    have hz0 : z = [] := List.length_eq_zero_iff.mp (by omega)
    subst hz0
    exact wildLoop_end m3

theorem complete_restart {t : UInt8} {h p w0a : List UInt8}
    (hend : w0a = [] → wildLoop eqc (some w0a) p (t :: h) = true)
    (hne : ∀ (w : UInt8) (p' : List UInt8), p = w :: p' → t ≠ w ∧ w ≠ star)
    (hstep : ∀ (w0 : UInt8) (a : List UInt8), w0a = w0 :: a → wildLoop eqc (some w0a) p (t :: h) =
      wildLoop eqc (some (w0 :: a)) (if t = w0 then a else w0 :: a) h)
    (ih : ∀ (w0 : UInt8) (a : List UInt8), w0a = w0 :: a →
      Complete (some (w0 :: a)) (if t = w0 then a else w0 :: a) h) :
    Complete (some w0a) p (t :: h) := by
  intro hs u ha hu hr m
  cases w0a with
  | nil => exact hend rfl
  | cons w0 a =>
    obtain ⟨hw0, m'⟩ := restart_complete ha hu hr m hne
    rw [hstep w0 a rfl]
    have ih := ih w0 a rfl (fun h1 => hs (List.mem_cons_of_mem _ h1))
    by_cases ht : t = w0
    · subst ht
      rw [if_pos rfl] at ih ⊢
      exact ih [t] rfl (by simpa using fun h1 => hw0 h1.symm) hr m'
    · rw [if_neg ht] at ih ⊢
      refine ih [] rfl (by simp) hr ?_
      obtain ⟨x, y, h1, h2⟩ := m'.star_inv
      cases x with
      | nil =>
        obtain ⟨t', h', h3, h4, -⟩ := Matches.lit_inv hw0 h2
        rw [List.nil_append] at h1
        rw [← h1] at h3
        injection h3 with h3
        subst h3
        exact absurd (by simpa using h4) ht
      | cons d x =>
        simp only [List.cons_append, List.cons.injEq] at h1
        rw [List.nil_append, h1.2]
        exact .any x h2

theorem wildLoop_complete (after : Option (List UInt8)) (p h : List UInt8) : Complete after p h := by
  induction after, p, h using wildLoop.induct eqc with
  | case1 after => exact complete_end _ _
  | case2 after p ih => exact complete_end _ _
  | case3 after w p hw => exact complete_end _ _
  | case4 after t h w p' hs ih =>
    intro hst
    have hts : t ≠ star := fun h1 => hst (by simp [h1])
    have htw : t = w := by simpa using hs
    subst htw
    have hst' : star ∉ h := fun h1 => hst (List.mem_cons_of_mem _ h1)
    have e : wildLoop eqc after (t :: p') (t :: h) = wildLoop eqc after p' h := by
      conv => lhs; unfold wildLoop
      simp
    cases after with
    | none =>
      intro hr m
      rw [e]
      obtain ⟨t', h', h1, h2, m'⟩ := Matches.lit_inv hts m
      injection h1 with h1 h3
      subst h3
      exact ih hst' hr.tail m'
    | some a =>
      intro u ha hu hr m
      rw [e]
      refine ih hst' (u ++ [t]) (by simp [ha]) ?_ hr (by simpa using m)
      simp only [List.mem_append, List.mem_singleton, not_or]
      exact ⟨hu, fun h1 => hts h1.symm⟩
  | case5 after t h p' hs ih =>
    intro hst
    have e : wildLoop eqc after (star :: p') (t :: h) = wildLoop eqc (some p') p' (t :: h) := by
      conv => lhs; unfold wildLoop
      simp [hs]
    have key : NoRecurrence (star :: p') → Matches eqc (star :: p') (t :: h) →
        wildLoop eqc after (star :: p') (t :: h) = true := by
      intro hr m
      rw [e]
      exact ih hst [] rfl (by simp) hr m
    cases after with
    | none => exact key
    | some a =>
      intro u ha hu hr m
      refine key ?_ ?_
      · rw [ha, ← List.cons_append] at hr
        exact hr.drop
      · obtain ⟨x, y, h1, h2⟩ := m.star_inv
        rw [ha] at h2
        obtain ⟨z, rfl, m3⟩ := matches_lits hu h2
        rw [← List.append_assoc] at h1
        have hl := congrArg List.length h1
        simp only [List.length_append] at hl
        -- drop the first `u.length` characters on both sides
        have h2 := congrArg (List.drop u.length) h1
        rw [List.drop_append_of_le_length (Nat.le_refl _), List.drop_length,
          List.drop_append_of_le_length (by simp)] at h2
        rw [List.nil_append] at h2
        rw [h2]
        exact Matches.absorb _ m3
  | case6 t h w p' hs hw =>
    refine complete_restart (fun _ => by unfold wildLoop; simp [hs, hw]) ?_ (fun _ _ h => by cases h) (fun _ _ h => by cases h)
    intro w2 p2 h2
    injection h2 with h2; subst h2
    exact ⟨by simpa using hs, hw⟩
  | case7 h w p' hw w0 a hs ih =>
    refine complete_restart (fun h => by cases h) ?_ ?_ ?_
    · intro w2 p2 h2
      injection h2 with h2; subst h2
      exact ⟨by simpa using hs, hw⟩
    · rintro w2 p2 ⟨⟩
      conv => lhs; unfold wildLoop
      simp [hw, show ¬ w0 = w by simpa using hs]
    · rintro w2 p2 ⟨⟩
      simpa using ih
  | case8 t h w p' hs hw w0 a ht ih =>
    refine complete_restart (fun h => by cases h) ?_ ?_ ?_
    · intro w2 p2 h2
      injection h2 with h2; subst h2
      exact ⟨by simpa using hs, hw⟩
    · rintro w2 p2 ⟨⟩
      conv => lhs; unfold wildLoop
      simp [hw, show ¬ t = w by simpa using hs, ht]
    · rintro w2 p2 ⟨⟩
      simpa [ht] using ih
  | case9 t h w p' hs hw =>
    intro _ _ m
    obtain ⟨t', h', h1, h2, -⟩ := Matches.lit_inv hw m
    injection h1 with h1
    subst h1
    exact absurd h2 hs
  | case10 t h =>
    exact complete_restart (fun _ => by unfold wildLoop; simp) (fun _ _ h => by cases h) (fun _ _ h => by cases h) (fun _ _ h => by cases h)
  | case11 h w0 a ih =>
    refine complete_restart (fun h => by cases h) (fun _ _ h => by cases h) ?_ ?_
    · rintro w2 p2 ⟨⟩
      conv => lhs; unfold wildLoop
      simp
    · rintro w2 p2 ⟨⟩
      simpa using ih
  | case12 t h w0 a ht ih =>
    refine complete_restart (fun h => by cases h) (fun _ _ h => by cases h) ?_ ?_
    · rintro w2 p2 ⟨⟩
      conv => lhs; unfold wildLoop
      simp [ht]
    · rintro w2 p2 ⟨⟩
      simpa [ht] using ih
  | case13 t h => intro _ _ m; cases m

/-- **C43, completeness (partial).**  For texts without `*` and patterns in which no piece of
literal text behind a `*` repeats its first character, `isWildMatch` accepts exactly the texts
the pattern generates.  Missing from the full claim: other patterns and texts, where the code
misses matches (`C43_misses_overlap`, `C43_misses_star_in_text`). -/
theorem C43_exact_partial (p h : List UInt8) (hs : star ∉ h) (hr : NoRecurrence p) :
    isWildMatch p h = true ↔ Matches eqc p h := by
  refine ⟨C43_sound p h, fun m => ?_⟩
  unfold isWildMatch
  split
  · rename_i h1; subst h1; cases m; simp
  · exact wildLoop_complete none p h hs hr m

/-! ### Concrete cases and counterexamples -/

/-- The characters of an ASCII literal. -/
def txt (s : String) : List UInt8 := s.toList.map (fun c => c.toNat.toUInt8)

/-- Executable form of `NoRecurrence`. -/
def noRecurrence : List UInt8 → Bool
  | [] => true
  | [_] => true
  | b :: c :: a => (b ≠ star || c = star || c ∉ segment a) && noRecurrence (c :: a)

theorem noRecurrence_sound : ∀ {p : List UInt8}, noRecurrence p = true → NoRecurrence p
  | [], _ => by intro pre a c h; simp at h
  | [x], _ => by
    intro pre a c h
    have := congrArg List.length h
    simp at this
    omega
  | b :: c :: p, hp => by
    simp only [noRecurrence, Bool.and_eq_true, Bool.or_eq_true, decide_eq_true_eq] at hp
    intro pre a d h hd
    cases pre with
    | nil =>
      simp only [List.nil_append, List.cons.injEq] at h
      obtain ⟨rfl, rfl, rfl⟩ := h
      rcases hp.1 with (h1 | h1) | h1
      · exact absurd rfl h1
      · exact absurd h1 hd
      · exact h1
    | cons x pre =>
      simp only [List.cons_append, List.cons.injEq] at h
      exact noRecurrence_sound hp.2 pre a d h.2 hd

/-- The example in the source comment meets the hypotheses of `C43_exact_partial`. -/
example : star ∉ txt "mississippi" ∧ NoRecurrence (txt "*sip*") ∧
    isWildMatch (txt "*sip*") (txt "mississippi") = true ∧ isWildMatch (txt "*sit*") (txt "mississippi") = false := by
  refine ⟨by decide, noRecurrence_sound (by decide), ?_, ?_⟩ <;>
    simp [txt, isWildMatch, wildLoop, star]

/-- **C43 fails when a piece behind `*` overlaps itself**: `*aab` generates `aaab` but the
function says no, because the restart resumes at the mismatching character. -/
theorem C43_misses_overlap : isWildMatch (txt "*aab") (txt "aaab") = false ∧
    Matches eqc (txt "*aab") (txt "aaab") := by
  constructor
  · simp [txt, isWildMatch, wildLoop, star]
  · exact .any [97] (.lit (by decide) rfl (.lit (by decide) rfl (.lit (by decide) rfl .nil)))

/-- **C43 fails when the text contains `*`**: the pattern `*` rejects the text `*x`. -/
theorem C43_misses_star_in_text : isWildMatch (txt "*") (txt "*x") = false ∧
    Matches eqc (txt "*") (txt "*x") := by
  constructor
  · simp [txt, isWildMatch, wildLoop, star]
  · exact .any [42, 120] .nil

/-- **The case-insensitive function misses matches the other one finds**: `*AB` generates
`aab` up to case, the function says no, although `isWildMatch` accepts `*ab` on the same text;
the restart compares the characters exactly. -/
theorem C43_case_misses : isWildMatchCase (txt "*AB") (txt "aab") = false ∧
    Matches eqlower (txt "*AB") (txt "aab") ∧ isWildMatch (txt "*ab") (txt "aab") = true := by
  refine ⟨by simp [txt, isWildMatchCase, wildLoop, lower, star], ?_, by simp [txt, isWildMatch, wildLoop, star]⟩
  exact .any [97] (.lit (by decide) rfl (.lit (by decide) rfl .nil))

end Wrench.Util
