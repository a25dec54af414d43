import Verif.StrLib.Numerals
import Verif.StrLib.Props

/-
The state of the format routine after it has produced a text.
-/
namespace Wrench.StrLib

open Ops

/-- The bytes of the output buffer. -/
def outBytes (out : Out) (s : PS) : Option (List Byte) :=
  match out with
  | .tmp => some s.tmp
  | .obj o => match s.mem.obj o with
    | .chars bs _ => some bs
    | _ => none

/-- The buffer `old` after the text has been written from its start, but not at or beyond `max`. -/
def overlay (old : List Byte) (max : Nat) (text : List Byte) : List Byte :=
  text.take max ++ old.drop (min max text.length)

/-- After producing `text`, starting in memory `σ` with the output buffer `old`. -/
structure Inv (σ : St) (old : List Byte) (out : Out) (max : Nat) (text : List Byte) (s : PS) : Prop where
  pos : s.pos = text.length
  buf : outBytes out s = some (overlay old max text)
  cell : ∀ a, a.real = true → s.mem.cell a = σ.cell a
  obj : ∀ o, out ≠ .obj o → s.mem.obj o = σ.obj o
  ctx : ∀ o bs nc, σ.obj o = .chars bs nc → ∃ bs', s.mem.obj o = .chars bs' nc
  next : s.mem.next = σ.next
  raw : s.mem.rawMem = σ.rawMem

theorem overlay_length {old : List Byte} {max : Nat} (h : max ≤ old.length) (t : List Byte) :
    (overlay old max t).length = old.length := by
  simp only [overlay, List.length_append, List.length_take, List.length_drop]
  omega

theorem overlay_snoc {old : List Byte} {max : Nat} (h : max ≤ old.length) (t : List Byte) (c : Byte) :
    overlay old max (t ++ [c]) =
      if t.length < max then (overlay old max t).set t.length c else overlay old max t := by
  unfold overlay
  by_cases hlt : t.length < max
  · rw [if_pos hlt, List.take_of_length_le (by simp; omega), List.take_of_length_le (Nat.le_of_lt hlt),
      Nat.min_eq_right (by simp; omega), Nat.min_eq_right (Nat.le_of_lt hlt)]
    rw [List.set_append_right _ _ (Nat.le_refl _), Nat.sub_self]
    rw [List.drop_eq_getElem_cons (i := t.length) (l := old) (by omega), List.set_cons_zero]
    simp
  · rw [if_neg hlt, List.take_append_of_le_length (by omega), Nat.min_eq_left (by simp; omega),
      Nat.min_eq_left (by omega)]

variable {σ : St} {old : List Byte} {out : Out} {max : Nat}

theorem Inv.set_pos {t t' : List Byte} {s : PS} (h : Inv σ old out max t s)
    (e : overlay old max t = overlay old max t') {n : Nat} (hn : n = t'.length) :
    Inv σ old out max t' { s with pos := n } :=
  ⟨hn, by rw [← e]; exact h.buf, h.cell, h.obj, h.ctx, h.next, h.raw⟩

theorem addChar_inv {t : List Byte} {s : PS} {c : Byte} (hm : max ≤ old.length)
    (h : Inv σ old out max t s) (hl : (t ++ [c]).length < 2 ^ 32) :
    ∃ s', addChar out max c s = .ok s' ∧ Inv σ old out max (t ++ [c]) s' := by
  have ho := overlay_snoc hm t c
  have hp : (s.pos + 1) % 2 ^ 32 = (t ++ [c]).length := by
    rw [h.pos, List.length_append, List.length_singleton]
    simp only [List.length_append, List.length_singleton] at hl
    exact Nat.mod_eq_of_lt hl
  unfold addChar
  by_cases hlt : t.length < max
  · rw [if_pos hlt] at ho
    rw [if_pos (by rw [h.pos]; exact hlt)]
    have hb := h.buf
    cases out with
    | tmp =>
      simp only [outBytes, Option.some.injEq] at hb
      refine ⟨{ s with tmp := s.tmp.set s.pos c, pos := (s.pos + 1) % 2 ^ 32 }, ?_, ?_⟩
      · rw [poke]
        simp only
        rw [if_pos (by rw [h.pos, hb, overlay_length hm]; omega)]
        rfl
      · exact ⟨hp, by simp only [outBytes]; rw [hb, ho, h.pos], h.cell, h.obj, h.ctx, h.next, h.raw⟩
    | obj o =>
      simp only [outBytes] at hb
      cases hx : s.mem.obj o with
      | chars bs nc =>
        rw [hx] at hb
        simp only [Option.some.injEq] at hb
        subst hb
        refine ⟨{ s with
            mem := s.mem.setObj o (.chars ((overlay old max t).set s.pos c) nc)
            pos := (s.pos + 1) % 2 ^ 32 }, ?_, ?_⟩
        · rw [poke]
          simp only [hx]
          rw [if_pos (by rw [h.pos, overlay_length hm]; omega)]
          rfl
        · refine ⟨hp, ?_, h.cell, ?_, ?_, h.next, h.raw⟩
          · simp only [outBytes, St.setObj, if_true]
            rw [ho, h.pos]
          · intro o' ho'
            have : o' ≠ o := fun e => ho' (by rw [e])
            simp only [St.setObj, if_neg this]
            exact h.obj o' ho'
          · intro o' bs nc' ho'
            obtain ⟨bs', hb'⟩ := h.ctx o' bs nc' ho'
            by_cases e : o' = o
            · subst e
              rw [hx] at hb'
              cases hb'
              exact ⟨(overlay old max t).set s.pos c, by simp [St.setObj]⟩
            · exact ⟨bs', by simp only [St.setObj, if_neg e]; exact hb'⟩
      | vals n => rw [hx] at hb; cases hb
      | other => rw [hx] at hb; cases hb
  · rw [if_neg hlt] at ho
    rw [if_neg (by rw [h.pos]; exact hlt)]
    exact ⟨_, rfl, h.set_pos ho.symm hp⟩

theorem addChars_inv {cs : List Byte} (hm : max ≤ old.length) : ∀ {t : List Byte} {s : PS},
    Inv σ old out max t s → (t ++ cs).length < 2 ^ 32 →
    ∃ s', addChars out max cs s = .ok s' ∧ Inv σ old out max (t ++ cs) s' := by
  induction cs with
  | nil => intro t s h _; exact ⟨s, rfl, by simpa using h⟩
  | cons c cs ih =>
    intro t s h hl
    obtain ⟨s1, h1, h2⟩ := addChar_inv (c := c) hm h (by
      simp only [List.length_append, List.length_cons] at hl ⊢; simp; omega)
    obtain ⟨s2, h3, h4⟩ := ih h2 (by simpa using hl)
    refine ⟨s2, ?_, by simpa using h4⟩
    simp only [addChars, List.foldlM_cons, h1, res_bind]
    exact h3

theorem byteAt_inv {t : List Byte} {s : PS} (h : Inv σ old out max t s) {o : Nat} {bs : List Byte}
    {nc : Bool} (ho : σ.obj o = .chars bs nc) (hne : out ≠ .obj o) {i : Nat} {c : Byte}
    (hc : bs[i]? = some c) : byteAt s.mem o i = .ok c := by
  simp [byteAt, h.obj o hne, ho, hc]

theorem copyChars_inv (hm : max ≤ old.length) {o : Nat} {bs : List Byte} {nc : Bool}
    (ho : σ.obj o = .chars bs nc) (hne : out ≠ .obj o) : ∀ (n : Nat), n ≤ bs.length →
    ∀ {t : List Byte} {s : PS}, Inv σ old out max t s →
    (t ++ bs.drop (bs.length - n)).length < 2 ^ 32 →
    ∃ s', copyChars out max o bs.length n s = .ok s' ∧
      Inv σ old out max (t ++ bs.drop (bs.length - n)) s' := by
  intro n
  induction n with
  | zero => intro _ t s h _; exact ⟨s, rfl, by simpa using h⟩
  | succ n ih =>
    intro hn t s h hl
    have hd : bs.drop (bs.length - (n + 1)) =
        bs[bs.length - (n + 1)]'(by omega) :: bs.drop (bs.length - n) := by
      rw [List.drop_eq_getElem_cons (by omega)]
      congr 2
      omega
    rw [hd] at hl ⊢
    obtain ⟨s1, h1, h2⟩ := addChar_inv (c := bs[bs.length - (n + 1)]'(by omega)) hm h (by
      simp only [List.length_append, List.length_cons] at hl ⊢; simp; omega)
    obtain ⟨s2, h3, h4⟩ := ih (by omega) h2 (by simpa using hl)
    refine ⟨s2, ?_, by simpa using h4⟩
    unfold copyChars
    rw [byteAt_inv h ho hne (List.getElem?_eq_getElem (by omega))]
    simp only [res_bind, h1, h3]

/-- The padding, sign and prefix around a text. -/
theorem field_inv (hm : max ≤ old.length) {q : Spec} {minus hex : Bool} {text : List Byte}
    {body : PS → Res PS}
    (hbody : ∀ {t : List Byte} {s : PS}, Inv σ old out max t s → (t ++ text).length < 2 ^ 32 →
      ∃ s', body s = .ok s' ∧ Inv σ old out max (t ++ text) s')
    {t u : List Byte} {s : PS} (h : Inv σ old out max t s)
    (hu : u = (if q.left then [] else List.replicate (q.columns - text.length)
        (if q.padZero then 48#8 else 32#8)) ++ (if minus then [45#8] else []) ++
      (if q.alt || hex then [48#8, 120#8] else []) ++ text ++
      (if q.left then List.replicate (q.columns - text.length) 32#8 else []))
    (hl : (t ++ u).length < 2 ^ 32) :
    ∃ s', field out max q minus hex text.length body s = .ok s' ∧ Inv σ old out max (t ++ u) s' := by
  obtain ⟨lead, hlead⟩ : ∃ x, x = (if q.left then [] else List.replicate (q.columns - text.length)
        (if q.padZero then 48#8 else 32#8)) := ⟨_, rfl⟩
  obtain ⟨sg, hsg⟩ : ∃ x, x = (if minus then [45#8] else []) := ⟨_, rfl⟩
  obtain ⟨px, hpx⟩ : ∃ x, x = (if q.alt || hex then [48#8, 120#8] else []) := ⟨_, rfl⟩
  obtain ⟨tl, htl⟩ : ∃ x, x = (if q.left then List.replicate (q.columns - text.length) 32#8 else []) :=
    ⟨_, rfl⟩
  rw [← hlead, ← hsg, ← hpx, ← htl] at hu
  subst hu
  simp only [List.length_append] at hl
  obtain ⟨s1, a1, b1⟩ := addChars_inv (cs := lead) hm h (by simp only [List.length_append]; omega)
  obtain ⟨s2, a2, b2⟩ := addChars_inv (cs := sg) hm b1 (by simp only [List.length_append]; omega)
  obtain ⟨s3, a3, b3⟩ := addChars_inv (cs := px) hm b2 (by simp only [List.length_append]; omega)
  obtain ⟨s4, a4, b4⟩ := hbody b3 (by simp only [List.length_append]; omega)
  obtain ⟨s5, a5, b5⟩ := addChars_inv (cs := tl) hm b4 (by simp only [List.length_append]; omega)
  refine ⟨s5, ?_, by simpa using b5⟩
  have e1 : List.replicate (if q.left = true then 0 else q.columns - text.length)
      (if q.padZero then 48#8 else 32#8) = lead := by
    rw [hlead]; cases q.left <;> simp
  have e2 : List.replicate (if q.left = true then q.columns - text.length else 0) 32#8 = tl := by
    rw [htl]; cases q.left <;> simp
  unfold field
  simp only [e1, a1, res_bind, ← hsg, a2, ← hpx, a3, a4, e2, a5]

end Wrench.StrLib
