import Verif.StrLib.FormatLoop

/-
What the format routine can change, whatever the format, the arguments and the buffer are: the
buffer may be the format itself or an argument, and arguments may be anything.
-/
namespace Wrench.StrLib

open Ops

/-- From `s` to `s'` nothing changed but bytes of the output buffer before `max`. -/
structure Kept (out : Out) (max : Nat) (s s' : PS) : Prop where
  cell : ∀ a, a.real = true → s'.mem.cell a = s.mem.cell a
  obj : ∀ o, out ≠ .obj o → s'.mem.obj o = s.mem.obj o
  tmp : out ≠ .tmp → s'.tmp = s.tmp
  buf : ∀ bs, outBytes out s = some bs → ∃ bs', outBytes out s' = some bs' ∧
    bs'.length = bs.length ∧ bs'.drop max = bs.drop max
  next : s'.mem.next = s.mem.next
  raw : s'.mem.rawMem = s.mem.rawMem

variable {out : Out} {max : Nat}

theorem Kept.refl (s : PS) : Kept out max s s :=
  ⟨fun _ _ => rfl, fun _ _ => rfl, fun _ => rfl, fun bs h => ⟨bs, h, rfl, rfl⟩, rfl, rfl⟩

theorem Kept.trans {s t u : PS} (h : Kept out max s t) (g : Kept out max t u) : Kept out max s u := by
  refine ⟨fun a ha => (g.cell a ha).trans (h.cell a ha), fun o ho => (g.obj o ho).trans (h.obj o ho),
    fun ho => (g.tmp ho).trans (h.tmp ho), ?_, g.next.trans h.next, g.raw.trans h.raw⟩
  intro bs hb
  obtain ⟨b1, h1, h2, h3⟩ := h.buf bs hb
  obtain ⟨b2, g1, g2, g3⟩ := g.buf b1 h1
  exact ⟨b2, g1, g2.trans h2, g3.trans h3⟩

theorem Kept.same {s : PS} {τ : St} (h : SameReal s.mem τ) : Kept out max s { s with mem := τ } := by
  refine ⟨h.cell, fun o _ => by rw [h.obj], fun _ => rfl, ?_, h.next, h.raw⟩
  intro bs hb
  refine ⟨bs, ?_, rfl, rfl⟩
  cases out with
  | tmp => exact hb
  | obj o => simpa only [outBytes, h.obj] using hb

/-- Splitting a computation that succeeded. -/
theorem bind_ok {α β : Type} {x : Res α} {g : α → Res β} {b : β} (h : (x >>= g) = .ok b) :
    ∃ a, x = .ok a ∧ g a = .ok b := by
  cases x with
  | ok a => exact ⟨a, rfl, h⟩
  | ub => cases h
  | oof => cases h

theorem drop_set_lt {bs : List Byte} {i : Nat} (c : Byte) (h : i < max) :
    (bs.set i c).drop max = bs.drop max := by
  rw [List.drop_set, if_pos h]

theorem addChar_kept {c : Byte} {s s' : PS} (h : addChar out max c s = .ok s') : Kept out max s s' := by
  obtain ⟨s1, h1, h2⟩ : ∃ s1, (if s.pos < max then poke out c s else .ok s) = .ok s1 ∧
      { s1 with pos := (s1.pos + 1) % 2 ^ 32 } = s' := by
    unfold addChar at h
    by_cases hlt : s.pos < max
    · rw [if_pos hlt] at h
      obtain ⟨s1, h1, h2⟩ := bind_ok h
      simp only [res_pure, Res.ok.injEq] at h2
      exact ⟨s1, by rw [if_pos hlt]; exact h1, h2⟩
    · rw [if_neg hlt] at h
      simp only [res_pure, res_bind, Res.ok.injEq] at h
      exact ⟨s, by rw [if_neg hlt], h⟩
  subst h2
  by_cases hlt : s.pos < max
  · rw [if_pos hlt] at h1
    unfold poke at h1
    cases out with
    | tmp =>
      simp only at h1
      by_cases hb : s.pos < s.tmp.length
      · rw [if_pos hb] at h1
        simp only [Res.ok.injEq] at h1
        subst h1
        refine ⟨fun _ _ => rfl, fun _ _ => rfl, fun h => absurd rfl h, ?_, rfl, rfl⟩
        intro bs hbs
        simp only [outBytes, Option.some.injEq] at hbs
        subst hbs
        exact ⟨s.tmp.set s.pos c, rfl, by simp, drop_set_lt c hlt⟩
      · rw [if_neg hb] at h1; cases h1
    | obj o =>
      simp only at h1
      cases hx : s.mem.obj o with
      | chars bs nc =>
        rw [hx] at h1
        simp only at h1
        by_cases hb : s.pos < bs.length
        · rw [if_pos hb] at h1
          simp only [Res.ok.injEq] at h1
          subst h1
          refine ⟨fun _ _ => rfl, ?_, fun _ => rfl, ?_, rfl, rfl⟩
          · intro o' ho'
            have : o' ≠ o := fun e => ho' (by rw [e])
            simp only [St.setObj, if_neg this]
          · intro bs' hbs
            simp only [outBytes, hx, Option.some.injEq] at hbs
            subst hbs
            exact ⟨bs.set s.pos c, by simp [outBytes, St.setObj], by simp, drop_set_lt c hlt⟩
        · rw [if_neg hb] at h1; cases h1
      | vals n => rw [hx] at h1; cases h1
      | other => rw [hx] at h1; cases h1
  · rw [if_neg hlt] at h1
    simp only [Res.ok.injEq] at h1
    subst h1
    refine ⟨fun _ _ => rfl, fun _ _ => rfl, fun _ => rfl, ?_, rfl, rfl⟩
    intro bs hb
    exact ⟨bs, by cases out <;> exact hb, rfl, rfl⟩

theorem addChars_kept {cs : List Byte} : ∀ {s s' : PS}, addChars out max cs s = .ok s' →
    Kept out max s s' := by
  induction cs with
  | nil =>
    intro s s' h
    simp only [addChars, List.foldlM_nil, res_pure, Res.ok.injEq] at h
    subst h
    exact .refl _
  | cons c cs ih =>
    intro s s' h
    simp only [addChars, List.foldlM_cons] at h
    obtain ⟨s1, h1, h2⟩ := bind_ok h
    exact (addChar_kept h1).trans (ih h2)

theorem copyChars_kept {o len : Nat} : ∀ (n : Nat) {s s' : PS}, copyChars out max o len n s = .ok s' →
    Kept out max s s' := by
  intro n
  induction n with
  | zero =>
    intro s s' h
    simp only [copyChars, Res.ok.injEq] at h
    subst h
    exact .refl _
  | succ n ih =>
    intro s s' h
    unfold copyChars at h
    obtain ⟨c, h1, h⟩ := bind_ok h
    obtain ⟨s1, h2, h⟩ := bind_ok h
    exact (addChar_kept h2).trans (ih h)

theorem field_kept {q : Spec} {minus hex : Bool} {len : Nat} {body : PS → Res PS}
    (hb : ∀ {s s' : PS}, body s = .ok s' → Kept out max s s') {s s' : PS}
    (h : field out max q minus hex len body s = .ok s') : Kept out max s s' := by
  unfold field at h
  obtain ⟨s1, h1, h⟩ := bind_ok h
  obtain ⟨s2, h2, h⟩ := bind_ok h
  obtain ⟨s3, h3, h⟩ := bind_ok h
  obtain ⟨s4, h4, h⟩ := bind_ok h
  exact (addChars_kept h1).trans ((addChars_kept h2).trans ((addChars_kept h3).trans
    ((hb h4).trans (addChars_kept h))))

/-- `deref` changes nothing but `s_temp2`. -/
theorem deref_same : ∀ (f : Nat) {σ τ : St} {a l : Addr}, deref f σ a = .ok (τ, l) → SameReal σ τ := by
  intro f
  induction f with
  | zero => intro σ τ a l h; cases h
  | succ f ih =>
    intro σ τ a l h
    have t2 : ∀ (σ : St) (v : Val), SameReal σ (σ.set .t2 v) := fun σ v => sameReal_set σ v rfl
    unfold deref at h
    split at h
    · exact ih h
    · exact (t2 _ _).trans (ih h)
    · simp only at h
      split at h
      · simp only [Res.ok.injEq, Prod.mk.injEq] at h
        rw [← h.1]
        exact (t2 _ _).trans (t2 _ _)
      · split at h
        · split at h <;>
          · simp only [Res.ok.injEq, Prod.mk.injEq] at h
            rw [← h.1]
            exact t2 _ _
        · split at h <;>
          · simp only [Res.ok.injEq, Prod.mk.injEq] at h
            rw [← h.1]
            first | exact (t2 _ _).trans (t2 _ _) | exact t2 _ _
        · cases h
      · cases h
    · simp only [Res.ok.injEq, Prod.mk.injEq] at h
      rw [← h.1]
      exact .refl _

theorem single_same {E : Env} {f : Nat} {σ τ : St} {a : Addr} (h : single E f σ a = .ok τ) :
    SameReal σ τ := by
  unfold single at h
  obtain ⟨⟨σ1, l⟩, h1, h⟩ := bind_ok h
  have t1 : ∀ (σ : St) (v : Val), SameReal σ (σ.set .t1 v) := fun σ v => sameReal_set σ v rfl
  refine (deref_same f h1).trans ?_
  simp only at h
  split at h <;>
  · simp only [res_pure, Res.ok.injEq] at h
    rw [← h]
    exact t1 _ _

theorem asInt_same {E : LEnv} {f : Nat} {σ τ : St} {a : Addr} {w : Word32}
    (h : asInt E f σ a = .ok (τ, w)) : SameReal σ τ := by
  unfold asInt at h
  split at h
  · simp only [Res.ok.injEq, Prod.mk.injEq] at h; rw [← h.1]; exact .refl _
  · obtain ⟨i, -, h⟩ := bind_ok h
    simp only [res_pure, Res.ok.injEq, Prod.mk.injEq] at h; rw [← h.1]; exact .refl _
  · obtain ⟨υ, h1, h⟩ := bind_ok h
    refine (single_same h1).trans ?_
    split at h
    · simp only [res_pure, Res.ok.injEq, Prod.mk.injEq] at h; rw [← h.1]; exact .refl _
    · obtain ⟨i, -, h⟩ := bind_ok h
      simp only [res_pure, Res.ok.injEq, Prod.mk.injEq] at h; rw [← h.1]; exact .refl _
    · cases h

theorem charsObj_same {f : Nat} {σ τ : St} {a : Addr} {r : Option (Nat × Nat)}
    (h : charsObj f σ a = .ok (τ, r)) : SameReal σ τ := by
  unfold charsObj at h
  obtain ⟨⟨σ1, l⟩, h1, h⟩ := bind_ok h
  refine (deref_same f h1).trans ?_
  simp only at h
  split at h
  · split at h <;>
    · simp only [res_pure, Res.ok.injEq, Prod.mk.injEq] at h
      rw [← h.1]
      exact .refl _
  · simp only [res_pure, Res.ok.injEq, Prod.mk.injEq] at h
    rw [← h.1]
    exact .refl _

theorem numArg_kept {E : LEnv} {f : Nat} {A : ArgList} {signed : Bool} {i j : Nat} {s s' : PS}
    {m : Bool} {w : Word32} (h : numArg E f A signed i s = .ok (s', j, m, w)) : Kept out max s s' := by
  have fin : ∀ {s1 : PS} {j1 : Nat} {w1 : Word32}, (if (signed && w1.msb) = true then
      if w1 = 0x80000000#32 then Res.ub else pure (s1, j1, true, 0 - w1)
      else pure (s1, j1, false, w1)) = Res.ok (s', j, m, w) → s1 = s' := by
    intro s1 j1 w1 h
    by_cases hc : (signed && w1.msb) = true
    · rw [if_pos hc] at h
      by_cases hi : w1 = 0x80000000#32
      · rw [if_pos hi] at h; cases h
      · rw [if_neg hi] at h
        simp only [res_pure, Res.ok.injEq, Prod.mk.injEq] at h
        exact h.1
    · rw [if_neg hc] at h
      simp only [res_pure, Res.ok.injEq, Prod.mk.injEq] at h
      exact h.1
  unfold numArg at h
  by_cases hi : i < A.argn
  · rw [if_pos hi] at h
    obtain ⟨⟨σ, w2⟩, h3, h4⟩ := bind_ok h
    simp only [res_pure, res_bind] at h4
    rw [← fin h4]
    exact .same (asInt_same h3)
  · rw [if_neg hi] at h
    simp only [res_pure, res_bind] at h
    rw [← fin h]
    exact .refl _

theorem conversion_kept {E : LEnv} {f : Nat} {A : ArgList} {c : Byte} {q : Spec} {i : Nat} {s s' : PS}
    {j : Option Nat} (h : conversion E f out max A c q i s = .ok (s', j)) : Kept out max s s' := by
  have done : ∀ {s1 : PS} {x : Option Nat}, (Res.ok (s1, x) : Res (PS × Option Nat)) = .ok (s', j) →
      s1 = s' := by
    intro s1 x h
    simp only [Res.ok.injEq, Prod.mk.injEq] at h
    exact h.1
  unfold conversion at h
  by_cases h1 : c = 99#8
  · rw [if_pos h1] at h
    by_cases hi : i < A.argn
    · rw [if_pos hi] at h
      obtain ⟨⟨σ, w⟩, h2, h⟩ := bind_ok h
      obtain ⟨s1, h3, h⟩ := bind_ok h
      rw [← done h]
      exact (Kept.same (asInt_same h2)).trans (addChar_kept h3)
    · rw [if_neg hi] at h
      rw [← done h]
      exact .refl _
  rw [if_neg h1] at h
  by_cases h2 : c = 37#8
  · rw [if_pos h2] at h
    obtain ⟨s1, h3, h⟩ := bind_ok h
    rw [← done h]
    exact addChar_kept h3
  rw [if_neg h2] at h
  by_cases h3 : c = 115#8
  · rw [if_pos h3] at h
    by_cases hi : i < A.argn
    · rw [if_pos hi] at h
      obtain ⟨⟨σ, r⟩, h4, h⟩ := bind_ok h
      have hk : Kept out max s { s with mem := σ } := .same (charsObj_same h4)
      cases r with
      | none =>
        rw [← done h]
        exact hk
      | some p =>
        obtain ⟨o, len⟩ := p
        simp only at h
        obtain ⟨s1, h5, h⟩ := bind_ok h
        rw [← done h]
        exact hk.trans (field_kept (fun h => copyChars_kept len h) h5)
    · rw [if_neg hi] at h
      obtain ⟨s1, h5, h⟩ := bind_ok h
      rw [← done h]
      refine field_kept ?_ h5
      intro s s' h
      simp only [Res.ok.injEq] at h
      rw [h]
      exact .refl _
  rw [if_neg h3] at h
  cases hc : numConv c with
  | none =>
    rw [hc] at h
    rw [← done h]
    exact .refl _
  | some p =>
    obtain ⟨base, width, lc, signed⟩ := p
    rw [hc] at h
    simp only at h
    obtain ⟨⟨s1, i1, m, w⟩, h4, h⟩ := bind_ok h
    obtain ⟨s2, h5, h⟩ := bind_ok h
    rw [← done h]
    exact (numArg_kept h4).trans (field_kept (fun h => addChars_kept h) h5)

theorem loop_kept {E : LEnv} {f fo fsz : Nat} {A : ArgList} : ∀ (n : Nat) {q : Spec} {i k : Nat}
    {s s' : PS}, sprintfLoop E f out max fo fsz A n q i s = .ok (s', k) → Kept out max s s' := by
  intro n
  induction n with
  | zero =>
    intro q i k s s' h
    simp only [sprintfLoop, Res.ok.injEq, Prod.mk.injEq] at h
    rw [← h.1]
    exact .refl _
  | succ n ih =>
    intro q i k s s' h
    unfold sprintfLoop at h
    obtain ⟨c, -, h⟩ := bind_ok h
    by_cases hq : q.inside = false
    · rw [if_pos hq] at h
      by_cases hc : c ≠ 37#8
      · rw [if_pos hc] at h
        obtain ⟨s1, h1, h⟩ := bind_ok h
        exact (addChar_kept h1).trans (ih h)
      · rw [if_neg hc] at h
        exact ih h
    · rw [if_neg hq] at h
      cases hm : modifier c q with
      | some q' => rw [hm] at h; exact ih h
      | none =>
        rw [hm] at h
        simp only at h
        obtain ⟨⟨s1, j⟩, h1, h⟩ := bind_ok h
        cases j with
        | none =>
          simp only [res_pure, Res.ok.injEq, Prod.mk.injEq] at h
          rw [← h.1]
          exact conversion_kept h1
        | some j => exact (conversion_kept h1).trans (ih h)

/-- **C22, nothing is stored outside the buffer or beyond the limit.**  Whatever the format, the
arguments and the buffer (which may be the format or an argument): after the routine the buffer has
its length and every byte from `max` on, and every value, every other object and raw array is as it
was. -/
theorem C22_no_overrun {E : LEnv} {f fo fsz n : Nat} {A : ArgList} {σ : St} {tmp : List Byte} {s : PS}
    (h : sprintfEx E f out max fo fsz A σ tmp = .ok (s, n)) :
    (∀ old, outBytes out ⟨σ, tmp, 0⟩ = some old → ∃ new, outBytes out s = some new ∧
      new.length = old.length ∧ new.drop max = old.drop max) ∧
    (∀ a, a.real = true → s.mem.cell a = σ.cell a) ∧
    (∀ o, out ≠ .obj o → s.mem.obj o = σ.obj o) ∧ s.mem.rawMem = σ.rawMem := by
  have := loop_kept fsz h
  exact ⟨this.buf, this.cell, this.obj, this.raw⟩

end Wrench.StrLib
