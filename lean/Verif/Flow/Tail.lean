import Verif.Flow.Lemmas

namespace Wrench.Flow

open Wrench

variable {σ ρ : Type}

theorem endsJmp_append (k : CS σ ρ) (l : List (Instr σ ρ)) (i : Instr σ ρ) (h : k.code = l ++ [i]) :
    k.endsJmp = i.isJmp := by
  simp [CS.endsJmp, h]

theorem endsJmp_false (k : CS σ ρ) (l : List (Instr σ ρ)) (i : Instr σ ρ) (h : k.code = l ++ [i])
    (hi : i.isJmp = false) : k.endsJmp = false := (endsJmp_append k l i h).trans hi

theorem lt_of_prefix {α : Type} {a b : List α} (i : α) (h : a ++ [i] <+: b) : a.length < b.length := by
  have := h.length_le
  simp at this
  omega

mutual
/-- A statement without code does nothing. -/
theorem tail_empty : ∀ (s : Stmt σ ρ), tail s = .empty →
    (∀ k k', compile s k = some k' → k' = k) ∧ ∀ n x, exec n s x = some (.nrm, x)
  | .skip, _ => ⟨fun k k' h => by simpa [compile] using h.symm, fun n x => by simp [exec]⟩
  | .act f, h => by simp [tail] at h
  | .ret f, h => by simp [tail] at h
  | .brk, h => by simp [tail] at h
  | .cont, h => by simp [tail] at h
  | .loop _ _, h => by simp [tail] at h
  | .doLoop _ _, h => by simp [tail] at h
  | .forLoop _ _ _ _, h => by simp [tail] at h
  | .each _ _ _, h => by simp [tail] at h
  | .switch _ _, h => by simp [tail] at h
  | .ifThen _ s, h => by simp only [tail] at h; split at h <;> simp at h
  | .ifElse _ _ t, h => by simp only [tail] at h; split at h <;> simp at h
  | .seq s t, h => by
    simp only [tail] at h
    split at h
    · rename_i ht
      obtain ⟨c1, e1⟩ := tail_empty s h
      obtain ⟨c2, e2⟩ := tail_empty t ht
      refine ⟨fun k k' hc => ?_, fun n x => ?_⟩
      · simp only [compile, Option.bind_eq_some_iff] at hc
        obtain ⟨m, h1, h2⟩ := hc
        rw [c2 _ _ h2, c1 _ _ h1]
      · simp only [exec, e1, e2]
    · contradiction
theorem tailBody_empty : ∀ (b : Body σ ρ), tailBody b = .empty →
    (∀ dt w w', compileBody dt b w = some w' → w'.k.code = w.k.code ∧ w'.k.tg.length = w.k.tg.length) ∧
    (∀ n x, execBody n b x = some (.nrm, x)) ∧
    (∀ n h x, execFrom n b h x = none ∨ execFrom n b h x = some (some (.nrm, x))) ∧
    (∀ n x, execDflt n b x = none ∨ execDflt n b x = some (some (.nrm, x)))
  | .nil, _ => ⟨fun dt w w' h => by simp only [compileBody, Option.some.injEq] at h; subst h; exact ⟨rfl, rfl⟩,
      fun n x => by simp [execBody], fun n h x => by simp [execFrom], fun n x => by simp [execDflt]⟩
  | .case h b, hh => by
    simp only [tailBody] at hh
    obtain ⟨c, e, f, g⟩ := tailBody_empty b hh
    refine ⟨fun dt w w' hc => ?_, fun n x => by simp [execBody, e], fun n h x => ?_, fun n x => by simp [execDflt, g]⟩
    · simp only [compileBody] at hc
      split at hc
      · exact absurd hc (by simp)
      · have := c _ _ _ hc
        exact this
    · simp only [execFrom, e]
      split
      · exact Or.inr rfl
      · exact f n h x
  | .dflt b, hh => by
    simp only [tailBody] at hh
    obtain ⟨c, e, f, g⟩ := tailBody_empty b hh
    refine ⟨fun dt w w' hc => ?_, fun n x => by simp [execBody, e], fun n h x => by simp [execFrom, f], fun n x => by simp [execDflt, e]⟩
    · simp only [compileBody] at hc
      split at hc
      · exact absurd hc (by simp)
      · have := c _ _ _ hc
        simpa using this
  | .stmt s b, hh => by
    simp only [tailBody] at hh
    split at hh
    · rename_i hb
      split at hh
      · exact absurd hh (by simp)
      · obtain ⟨c, e, f, g⟩ := tailBody_empty b hb
        obtain ⟨c1, e1⟩ := tail_empty s hh
        refine ⟨fun dt w w' hc => ?_, fun n x => by simp [execBody, e, e1], fun n h x => by simp [execFrom, f], fun n x => by simp [execDflt, g]⟩
        simp only [compileBody] at hc
        split at hc
        · exact absurd hc (by simp)
        · simp only [Option.bind_eq_some_iff] at hc
          obtain ⟨m, h1, h2⟩ := hc
          have := c1 _ _ h1
          subst this
          exact c _ _ _ h2
    · contradiction
end

mutual
theorem tail_nonempty : ∀ (s : Stmt σ ρ), tail s ≠ .empty →
    ∀ k k', compile s k = some k' → k.code.length < k'.code.length
  | .skip, h, _, _, _ => by simp [tail] at h
  | .act f, _, k, k', h => by
    simp only [compile, Option.some.injEq] at h; subst h; simp
  | .ret f, _, k, k', h => by
    simp only [compile, Option.some.injEq] at h; subst h; simp
  | .brk, _, k, k', h => by
    simp only [compile, Option.map_eq_some_iff] at h
    obtain ⟨b, _, rfl⟩ := h; simp
  | .cont, _, k, k', h => by
    simp only [compile, Option.map_eq_some_iff] at h
    obtain ⟨b, _, rfl⟩ := h; simp
  | .seq s t, ht, k, k', h => by
    simp only [compile, Option.bind_eq_some_iff] at h
    obtain ⟨m, h1, h2⟩ := h
    have l1 := (compile_ext s _ _ h1).code.length_le
    have l2 := (compile_ext t _ _ h2).code.length_le
    simp only [tail] at ht
    split at ht
    · have := tail_nonempty s ht _ _ h1; omega
    · rename_i hn; have := tail_nonempty t hn _ _ h2; omega
  | .ifThen c s, _, k, k', h => by
    simp only [compile, Option.map_eq_some_iff] at h
    obtain ⟨m, h1, rfl⟩ := h
    exact lt_of_prefix _ (compile_ext s _ _ h1).code
  | .ifElse c s t, _, k, k', h => by
    simp only [compile, Option.map_eq_some_iff, Option.bind_eq_some_iff] at h
    obtain ⟨m, h1, m2, h2, rfl⟩ := h
    have a := lt_of_prefix _ (compile_ext s _ _ h1).code
    have b := lt_of_prefix _ (compile_ext t _ _ h2).code
    simp at a b ⊢
    omega
  | .loop c s, _, k, k', h => by
    simp only [compile, Option.map_eq_some_iff] at h
    obtain ⟨m, h1, rfl⟩ := h
    have a := (compile_ext s _ _ h1).code.length_le
    simp at a ⊢
    omega
  | .doLoop s c, _, k, k', h => by
    simp only [compile, Option.map_eq_some_iff] at h
    obtain ⟨m, h1, rfl⟩ := h
    have a := (compile_ext s _ _ h1).code.length_le
    simp at a ⊢
    omega
  | .forLoop init c post s, _, k, k', h => by
    simp only [compile, Option.map_eq_some_iff] at h
    obtain ⟨m, h1, rfl⟩ := h
    replace h1 : compile s { forStart init c k with cs := k.tg.length :: k.cs, bs := (k.tg.length + 1) :: k.bs } = some m := h1
    have a := (compile_ext s _ _ h1).code.length_le
    have b := (forStart_grow init c k).1.code.length_le
    simp at a ⊢
    omega
  | .each st nx s, _, k, k', h => by
    simp only [compile, Option.map_eq_some_iff] at h
    obtain ⟨m, h1, rfl⟩ := h
    have a := (compile_ext s _ _ h1).code.length_le
    simp at a ⊢
    omega
  | .switch sel b, _, k, k', h => by
    simp only [compile, Option.map_eq_some_iff] at h
    obtain ⟨w, h1, rfl⟩ := h
    have e := (body_ext (k.tg.length) b _ _ h1).code.length_le
    simp at e
    split
    · simp; omega
    · by_cases hj : w.k.endsJmp = true
      · rw [if_pos hj]; simp; omega
      · rw [if_neg hj]; simp; omega
theorem tailBody_nonempty : ∀ (b : Body σ ρ), tailBody b ≠ .empty →
    ∀ dt w w', compileBody dt b w = some w' → w.k.code.length < w'.k.code.length
  | .nil, hh, _, _, _, _ => by simp [tailBody] at hh
  | .case h b, hh, dt, w, w', hc => by
    simp only [tailBody] at hh
    simp only [compileBody] at hc
    split at hc
    · exact absurd hc (by simp)
    · have := tailBody_nonempty b hh _ _ _ hc
      exact this
  | .dflt b, hh, dt, w, w', hc => by
    simp only [tailBody] at hh
    simp only [compileBody] at hc
    split at hc
    · exact absurd hc (by simp)
    · have := tailBody_nonempty b hh _ _ _ hc
      simpa using this
  | .stmt s b, hh, dt, w, w', hc => by
    simp only [compileBody] at hc
    split at hc
    · exact absurd hc (by simp)
    simp only [Option.bind_eq_some_iff] at hc
    obtain ⟨m, h1, h2⟩ := hc
    have l1 := (compile_ext s _ _ h1).code.length_le
    have l2 := (body_ext _ b _ _ h2).code.length_le
    simp at l2
    simp only [tailBody] at hh
    split at hh
    · have hs : tail s ≠ .empty := by
        split at hh
        · rename_i h; rw [h.1]; simp
        · exact hh
      have := tail_nonempty s hs _ _ h1; omega
    · rename_i hn
      have := tailBody_nonempty b hn _ _ _ h2; simp at this; omega
end

mutual
theorem tail_plain : ∀ (s : Stmt σ ρ), tail s = .plain →
    ∀ k k', compile s k = some k' → k'.endsJmp = false
  | .skip, h, _, _, _ => by simp [tail] at h
  | .act f, _, k, k', h => by
    simp only [compile, Option.some.injEq] at h; subst h; exact endsJmp_false _ _ _ (by first | rfl | exact emit_code _ _) rfl
  | .ret f, _, k, k', h => by
    simp only [compile, Option.some.injEq] at h; subst h; exact endsJmp_false _ _ _ (by first | rfl | exact emit_code _ _) rfl
  | .brk, h, _, _, _ => by simp [tail] at h
  | .cont, h, _, _, _ => by simp [tail] at h
  | .loop _ _, h, _, _, _ => by simp [tail] at h
  | .doLoop _ _, h, _, _, _ => by simp [tail] at h
  | .forLoop _ _ _ _, h, _, _, _ => by simp [tail] at h
  | .each _ _ _, h, _, _, _ => by simp [tail] at h
  | .seq s t, ht, k, k', h => by
    simp only [compile, Option.bind_eq_some_iff] at h
    obtain ⟨m, h1, h2⟩ := h
    simp only [tail] at ht
    split at ht
    · rename_i he
      have := (tail_empty t he).1 _ _ h2
      subst this
      exact tail_plain s ht _ _ h1
    · exact tail_plain t ht _ _ h2
  | .ifThen c s, ht, k, k', h => by
    simp only [compile, Option.map_eq_some_iff] at h
    obtain ⟨m, h1, rfl⟩ := h
    simp only [tail] at ht
    split at ht
    · rename_i he
      have := (tail_empty s he).1 _ _ h1
      subst this
      exact endsJmp_false _ _ _ (by first | rfl | exact emit_code _ _) rfl
    · rename_i he
      have := tail_plain s he _ _ h1
      exact this
    · exact absurd ht (by simp)
  | .ifElse c s t, ht, k, k', h => by
    simp only [compile, Option.map_eq_some_iff, Option.bind_eq_some_iff] at h
    obtain ⟨m, h1, m2, h2, rfl⟩ := h
    simp only [tail] at ht
    split at ht
    · rename_i he
      have := tail_plain t he _ _ h2
      exact this
    · exact absurd ht (by simp)
  | .switch sel b, _, k, k', h => by
    simp only [compile, Option.map_eq_some_iff] at h
    obtain ⟨w, h1, rfl⟩ := h
    split
    · exact endsJmp_false _ _ _ (by first | rfl | exact emit_code _ _) rfl
    · by_cases hj : w.k.endsJmp = true
      · rw [if_pos hj]; exact endsJmp_false _ _ _ (by first | rfl | exact emit_code _ _) rfl
      · rw [if_neg hj]; exact endsJmp_false _ _ _ (by first | rfl | exact emit_code _ _) rfl
theorem tailBody_plain : ∀ (b : Body σ ρ), tailBody b = .plain →
    ∀ dt w w', compileBody dt b w = some w' → w'.k.endsJmp = false
  | .nil, hh, _, _, _, _ => by simp [tailBody] at hh
  | .case h b, hh, dt, w, w', hc => by
    simp only [tailBody] at hh
    simp only [compileBody] at hc
    split at hc
    · exact absurd hc (by simp)
    · exact tailBody_plain b hh _ _ _ hc
  | .dflt b, hh, dt, w, w', hc => by
    simp only [tailBody] at hh
    simp only [compileBody] at hc
    split at hc
    · exact absurd hc (by simp)
    · exact tailBody_plain b hh _ _ _ hc
  | .stmt s b, hh, dt, w, w', hc => by
    simp only [compileBody] at hc
    split at hc
    · exact absurd hc (by simp)
    simp only [Option.bind_eq_some_iff] at hc
    obtain ⟨m, h1, h2⟩ := hc
    simp only [tailBody] at hh
    split at hh
    · rename_i he
      split at hh
      · exact absurd hh (by simp)
      · have := tail_plain s hh _ _ h1
        have h3 := ((tailBody_empty b he).1 _ _ _ h2).1
        unfold CS.endsJmp at this ⊢
        rw [h3]; exact this
    · exact tailBody_plain b hh _ _ _ h2
end

/-- A statement ending in `break` or `continue` does not complete normally. -/
theorem tail_exit : ∀ (s : Stmt σ ρ), tail s = .exit → ∀ n x y, exec n s x ≠ some (.nrm, y)
  | .skip, h, _, _, _ => by simp [tail] at h
  | .act f, h, _, _, _ => by simp [tail] at h
  | .ret f, h, _, _, _ => by simp [tail] at h
  | .brk, _, n, x, y => by simp [exec]
  | .cont, _, n, x, y => by simp [exec]
  | .loop _ _, h, _, _, _ => by simp [tail] at h
  | .doLoop _ _, h, _, _, _ => by simp [tail] at h
  | .forLoop _ _ _ _, h, _, _, _ => by simp [tail] at h
  | .each _ _ _, h, _, _, _ => by simp [tail] at h
  | .switch _ _, h, _, _, _ => by simp [tail] at h
  | .ifThen _ s, h, _, _, _ => by simp only [tail] at h; split at h <;> simp at h
  | .ifElse _ _ t, h, _, _, _ => by simp only [tail] at h; split at h <;> simp at h
  | .seq s t, ht, n, x, y => by
    simp only [tail] at ht
    simp only [exec]
    split at ht
    · have := tail_exit s ht n x
      split
      · rename_i z hz; exact absurd hz (this z)
      · exact this y
    · split
      · exact tail_exit t ht n _ y
      · rename_i hz; exact fun h => hz _ h

theorem unlabelled (n : Nat) : ∀ (b : Body σ ρ), b.labelled = false → ∀ h x,
    execFrom n b h x = none ∧ execDflt n b x = none
  | .nil, _, h, x => by simp [execFrom, execDflt]
  | .case _ _, hb, _, _ => by simp [Body.labelled] at hb
  | .dflt _, hb, _, _ => by simp [Body.labelled] at hb
  | .stmt s b, hb, h, x => by
    simp only [Body.labelled] at hb
    simpa [execFrom, execDflt] using unlabelled n b hb h x

theorem tailBody_exit : ∀ (b : Body σ ρ), tailBody b = .exit → ∀ n x y,
    execBody n b x ≠ some (.nrm, y) ∧ (∀ h, execFrom n b h x ≠ some (some (.nrm, y))) ∧
    execDflt n b x ≠ some (some (.nrm, y))
  | .nil, hh, _, _, _ => by simp [tailBody] at hh
  | .case h b, hh, n, x, y => by
    simp only [tailBody] at hh
    obtain ⟨e, f, g⟩ := tailBody_exit b hh n x y
    refine ⟨by simpa [execBody] using e, fun h' => ?_, by simpa [execDflt] using g⟩
    simp only [execFrom]
    split
    · simpa using e
    · exact f h'
  | .dflt b, hh, n, x, y => by
    simp only [tailBody] at hh
    obtain ⟨e, f, g⟩ := tailBody_exit b hh n x y
    exact ⟨by simpa [execBody] using e, by simpa [execFrom] using f, by simpa [execDflt] using e⟩
  | .stmt s b, hh, n, x, y => by
    simp only [tailBody] at hh
    split at hh
    · rename_i he
      split at hh
      · exact absurd hh (by simp)
      · rename_i hl
        have hb : b.labelled = false := by
          cases hbl : b.labelled with
          | false => rfl
          | true => exact absurd ⟨hh, hbl⟩ hl
        obtain ⟨-, e, -, -⟩ := tailBody_empty b he
        have := tail_exit s hh n x
        refine ⟨?_, fun h' => ?_, ?_⟩
        · simp only [execBody]
          cases hr : exec n s x with
          | none => simp
          | some r =>
            obtain ⟨o, z⟩ := r
            cases o with
            | nrm => exact absurd hr (this z)
            | _ => simp
        · simp [execFrom, (unlabelled n b hb h' x).1]
        · simp [execDflt, (unlabelled n b hb 0 x).2]
    · refine ⟨?_, fun h' => ?_, ?_⟩
      · simp only [execBody]
        split
        · exact (tailBody_exit b hh n _ y).1
        · rename_i hz; exact fun h => hz _ h
      · simpa [execFrom] using (tailBody_exit b hh n x y).2.1 h'
      · simpa [execDflt] using (tailBody_exit b hh n x y).2.2

end Wrench.Flow
