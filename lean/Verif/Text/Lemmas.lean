import Verif.Text.Spec

/-
Stores into a buffer, and the technical form of values whose text fits.
-/
namespace Wrench.Text

open Wrench.Std

/-- `b` is `buf` with the text `t` from `pos` on; what is from `lim` on has not changed, what is
in between may have. -/
structure Ext (buf b : List Byte) (pos : Nat) (t : List Byte) (lim : Nat) : Prop where
  len : b.length = buf.length
  text : b.take (pos + t.length) = buf.take pos ++ t
  rest : b.drop lim = buf.drop lim

theorem put_some {buf : List Byte} {pos : Nat} {bs : List Byte} (h : pos + bs.length ≤ buf.length) :
    put buf pos bs = some (buf.take pos ++ bs ++ buf.drop (pos + bs.length)) := by
  simp [put, h]

theorem put_ext {buf : List Byte} {pos : Nat} {bs : List Byte} {lim : Nat}
    (h : pos + bs.length ≤ lim) (hl : lim ≤ buf.length) :
    ∃ b, put buf pos bs = some b ∧ Ext buf b pos bs lim := by
  refine ⟨_, put_some (by omega), ?_, ?_, ?_⟩
  · simp; omega
  · have : (buf.take pos ++ bs).length = pos + bs.length := by simp; omega
    rw [← this, List.take_left']
    rfl
  · have : (buf.take pos ++ bs).length = pos + bs.length := by simp; omega
    rw [List.drop_append, this, List.drop_of_length_le (by omega), List.nil_append, List.drop_drop]
    congr 1; omega

theorem Ext.trans {buf b c : List Byte} {pos : Nat} {t u : List Byte} {lim : Nat}
    (h : Ext buf b pos t lim) (g : Ext b c (pos + t.length) u lim) : Ext buf c pos (t ++ u) lim := by
  refine ⟨g.len.trans h.len, ?_, g.rest.trans h.rest⟩
  rw [List.length_append, ← Nat.add_assoc, g.text, h.text, List.append_assoc]

/-- Keep only a first part of what was stored. -/
theorem Ext.shorten {buf b : List Byte} {pos : Nat} {t u : List Byte} {lim : Nat}
    (h : Ext buf b pos (t ++ u) lim) (hp : pos ≤ buf.length) : Ext buf b pos t lim := by
  refine ⟨h.len, ?_, h.rest⟩
  have := congrArg (List.take (pos + t.length)) h.text
  rw [List.take_take, Nat.min_eq_left (by simp), ← List.append_assoc] at this
  rw [this]
  apply List.take_left'
  simp; omega

theorem Ext.refl {buf : List Byte} {pos lim : Nat} : Ext buf buf pos [] lim :=
  ⟨rfl, by simp, rfl⟩

theorem snp_ext {buf : List Byte} {pos maxLen : Nat} {t : List Byte}
    (h : pos + t.length < maxLen) (hl : maxLen ≤ buf.length) :
    ∃ b, snp buf pos maxLen t = some b ∧ Ext buf b pos t maxLen := by
  have h1 : pos ≤ maxLen := by omega
  have h2 : maxLen - pos ≠ 0 := by omega
  simp only [snp, h1, if_true, h2, if_false]
  rw [List.take_of_length_le (by omega)]
  obtain ⟨b, hb, he⟩ := put_ext (buf := buf) (pos := pos) (bs := t ++ [0#8]) (lim := maxLen)
    (by simp; omega) hl
  exact ⟨b, hb, he.shorten (by omega)⟩

theorem techChars_ext {maxLen : Nat} : ∀ (cs buf : List Byte) (pos : Nat), pos + cs.length < maxLen →
    maxLen ≤ buf.length →
    ∃ b, techChars maxLen cs buf pos = some (b, pos + cs.length) ∧ Ext buf b pos cs maxLen := by
  intro cs
  induction cs with
  | nil => intro buf pos _ _; exact ⟨buf, rfl, Ext.refl⟩
  | cons c cs ih =>
    intro buf pos h hl
    simp only [List.length_cons] at h
    obtain ⟨b, hb, he⟩ := put_ext (buf := buf) (pos := pos) (bs := [c]) (lim := maxLen)
      (by simp; omega) hl
    obtain ⟨b2, hb2, he2⟩ := ih b (pos + 1) (by omega) (by rw [he.len]; exact hl)
    refine ⟨b2, ?_, he.trans he2⟩
    have : pos < maxLen := by omega
    simp only [techChars, this, if_true, hb, hb2, List.length_cons]
    congr 2; omega

theorem rawText_eq : rawSpec = rawText := by
  unfold rawSpec
  decide +kernel

variable (O : FloatOps)

mutual
theorem tech_ext (hex : Bool) (maxLen : Nat) : ∀ (v : Tv) (buf : List Byte) (pos : Nat),
    pos + (text O hex v).length < maxLen → maxLen ≤ buf.length →
    ∃ b, tech O hex maxLen v buf pos = some (b, pos + (text O hex v).length) ∧
      Ext buf b pos (text O hex v) maxLen
  | .ref v, buf, pos, h, hl => by
    simp only [text, List.length_append, List.length_cons, List.length_nil] at h
    have hp : ¬ (pos ≥ maxLen) := by omega
    have ht : ([114#8, 101#8, 102#8, 58#8, 32#8] ++ List.replicate (maxLen - pos) (0#8)).take
        (maxLen - pos) = [114#8, 101#8, 102#8, 58#8, 32#8] ++
          List.replicate (maxLen - pos - 5) (0#8) := by
      rw [List.take_append, List.take_of_length_le (by simp; omega), List.take_replicate]
      simp only [List.length_cons, List.length_nil]
      rw [Nat.min_eq_left (by omega)]
    obtain ⟨b, hb, he⟩ := put_ext (buf := buf) (pos := pos)
      (bs := [114#8, 101#8, 102#8, 58#8, 32#8] ++ List.replicate (maxLen - pos - 5) (0#8))
      (lim := maxLen) (by simp; omega) hl
    have he1 := he.shorten (by omega)
    obtain ⟨b2, hb2, he2⟩ := tech_ext hex maxLen v b (pos + 5) (by omega) (by rw [he.len]; exact hl)
    refine ⟨b2, ?_, he1.trans he2⟩
    rw [tech]
    simp only [hp, if_false, ht, hb, hb2, text, List.length_append, List.length_cons, List.length_nil]
    congr 2; omega
  | .float f, buf, pos, h, hl => by
    simp only [text] at h ⊢
    obtain ⟨b, hb, he⟩ := snp_ext h hl
    refine ⟨b, ?_, he⟩
    rw [tech]
    have hp : ¬ (pos ≥ maxLen) := by omega
    simp only [hp, if_false, hb, Option.map_some]
  | .int i, buf, pos, h, hl => by
    simp only [text] at h ⊢
    obtain ⟨b, hb, he⟩ := snp_ext h hl
    refine ⟨b, ?_, he⟩
    rw [tech]
    have hp : ¬ (pos ≥ maxLen) := by omega
    simp only [hp, if_false, hb, Option.map_some]
  | .arr items, buf, pos, h, hl => by
    simp only [text, List.length_append, List.length_cons, List.length_nil] at h
    have hp : ¬ (pos ≥ maxLen) := by omega
    obtain ⟨b, hb, he⟩ := snp_ext (buf := buf) (pos := pos) (maxLen := maxLen) (t := [91#8, 32#8])
      (by simp; omega) hl
    obtain ⟨b1, hb1, he1⟩ := techItems_ext hex maxLen items true b (pos + 2) (by omega)
      (by rw [he.len]; exact hl)
    obtain ⟨b2, hb2, he2⟩ := snp_ext (buf := b1)
      (pos := pos + 2 + (textItems O hex items true).length) (maxLen := maxLen) (t := [32#8, 93#8])
      (by simp; omega) (by rw [he1.len, he.len]; exact hl)
    have hq : ¬ (pos + 2 + (textItems O hex items true).length ≥ maxLen) := by omega
    have hq2 : ¬ (pos + 2 + (textItems O hex items true).length + 2 ≥ maxLen) := by omega
    refine ⟨b2, ?_, (he.trans he1).trans (by
      simpa only [List.length_append, List.length_cons, List.length_nil, ← Nat.add_assoc] using he2)⟩
    rw [tech]
    simp only [hp, if_false, hb, hb1, hb2, hq, hq2, text, List.length_append, List.length_cons,
      List.length_nil, Option.map_some]
    congr 2; omega
  | .str bytes, buf, pos, h, hl => by
    simp only [text, List.length_append, List.length_cons, List.length_nil] at h
    have hp : ¬ (pos ≥ maxLen) := by omega
    obtain ⟨b, hb, he⟩ := snp_ext (buf := buf) (pos := pos) (maxLen := maxLen) (t := [34#8])
      (by simp; omega) hl
    obtain ⟨b1, hb1, he1⟩ := techChars_ext (maxLen := maxLen) bytes b (pos + 1) (by omega)
      (by rw [he.len]; exact hl)
    obtain ⟨b2, hb2, he2⟩ := snp_ext (buf := b1)
      (pos := pos + 1 + bytes.length) (maxLen := maxLen) (t := [34#8])
      (by simp; omega) (by rw [he1.len, he.len]; exact hl)
    have hq : ¬ (pos + 1 + bytes.length ≥ maxLen) := by omega
    have hq2 : ¬ (pos + 1 + bytes.length + 1 ≥ maxLen) := by omega
    refine ⟨b2, ?_, (he.trans he1).trans (by
      simpa only [List.length_append, List.length_cons, List.length_nil, ← Nat.add_assoc] using he2)⟩
    rw [tech]
    simp only [hp, if_false, hb, hb1, hb2, hq, hq2, text, List.length_append, List.length_cons,
      List.length_nil, Option.map_some]
    congr 2; omega
  | .table slots, buf, pos, h, hl => by
    simp only [text, List.length_append, List.length_cons, List.length_nil] at h
    have hp : ¬ (pos ≥ maxLen) := by omega
    obtain ⟨b, hb, he⟩ := snp_ext (buf := buf) (pos := pos) (maxLen := maxLen) (t := [123#8, 32#8])
      (by simp; omega) hl
    obtain ⟨b1, hb1, he1⟩ := techSlots_ext hex maxLen slots true b (pos + 2) (by omega)
      (by rw [he.len]; exact hl)
    obtain ⟨b2, hb2, he2⟩ := snp_ext (buf := b1)
      (pos := pos + 2 + (textSlots O hex slots true).length) (maxLen := maxLen) (t := [32#8, 125#8])
      (by simp; omega) (by rw [he1.len, he.len]; exact hl)
    have hq2 : ¬ (pos + 2 + (textSlots O hex slots true).length + 2 ≥ maxLen) := by omega
    refine ⟨b2, ?_, (he.trans he1).trans (by
      simpa only [List.length_append, List.length_cons, List.length_nil, ← Nat.add_assoc] using he2)⟩
    rw [tech]
    simp only [hp, if_false, hb, hb1, hb2, hq2, text, List.length_append, List.length_cons,
      List.length_nil, Option.map_some]
    congr 2; omega
  | .raw, buf, pos, h, hl => by
    simp only [text] at h ⊢
    rw [rawText_eq] at h ⊢
    obtain ⟨b, hb, he⟩ := snp_ext h hl
    refine ⟨b, ?_, he⟩
    have hr : rawText.length = 11 := rfl
    rw [hr] at h
    have hp : ¬ (pos ≥ maxLen) := by omega
    have hq : ¬ (pos + 11 ≥ maxLen) := by omega
    rw [tech]
    simp only [hp, hq, if_false, hb, Option.map_some, hr]
  | .other, buf, pos, h, hl => by
    simp only [text, List.length_nil] at h ⊢
    refine ⟨buf, ?_, Ext.refl⟩
    have hp : ¬ (pos ≥ maxLen) := by omega
    rw [tech]
    simp only [hp, if_false, Nat.add_zero]

theorem techItems_ext (hex : Bool) (maxLen : Nat) : ∀ (vs : Items) (first : Bool) (buf : List Byte)
    (pos : Nat), pos + (textItems O hex vs first).length < maxLen → maxLen ≤ buf.length →
    ∃ b, techItems O hex maxLen vs first buf pos = some (b, pos + (textItems O hex vs first).length) ∧
      Ext buf b pos (textItems O hex vs first) maxLen
  | .nil, first, buf, pos, h, hl => by
    exact ⟨buf, by simp [techItems, textItems], by simpa [textItems] using Ext.refl⟩
  | .cons v vs, true, buf, pos, h, hl => by
    simp only [textItems, if_true, List.nil_append, List.length_append] at h ⊢
    have hp : pos < maxLen := by omega
    obtain ⟨b, hb, he⟩ := tech_ext hex maxLen v buf pos (by omega) hl
    obtain ⟨b1, hb1, he1⟩ := techItems_ext hex maxLen vs false b _ (by
      show pos + (text O hex v).length + _ < maxLen; omega) (by rw [he.len]; exact hl)
    refine ⟨b1, ?_, he.trans he1⟩
    simp only [techItems, hp, if_true, hb, hb1, Nat.add_assoc]
  | .cons v vs, false, buf, pos, h, hl => by
    simp only [textItems, Bool.false_eq_true, if_false, List.length_append, List.length_cons,
      List.length_nil] at h ⊢
    have hp : pos < maxLen := by omega
    obtain ⟨b0, hb0, he0⟩ := snp_ext (buf := buf) (pos := pos) (maxLen := maxLen) (t := [44#8, 32#8])
      (by simp; omega) hl
    obtain ⟨b, hb, he⟩ := tech_ext hex maxLen v b0 (pos + 2) (by omega) (by rw [he0.len]; exact hl)
    obtain ⟨b1, hb1, he1⟩ := techItems_ext hex maxLen vs false b (pos + 2 + (text O hex v).length)
      (by omega) (by rw [he.len, he0.len]; exact hl)
    refine ⟨b1, ?_, (he0.trans he).trans (by
      simpa only [List.length_append, List.length_cons, List.length_nil, ← Nat.add_assoc] using he1)⟩
    simp only [techItems, hp, if_true, Bool.false_eq_true, if_false, hb0, hb, hb1]
    congr 2; omega

theorem techSlots_ext (hex : Bool) (maxLen : Nat) : ∀ (ss : Slots) (first : Bool) (buf : List Byte)
    (pos : Nat), pos + (textSlots O hex ss first).length < maxLen → maxLen ≤ buf.length →
    ∃ b, techSlots O hex maxLen ss first buf pos = some (b, pos + (textSlots O hex ss first).length) ∧
      Ext buf b pos (textSlots O hex ss first) maxLen
  | .nil, first, buf, pos, h, hl => by
    exact ⟨buf, by simp [techSlots, textSlots], by simpa [textSlots] using Ext.refl⟩
  | .empty rest, first, buf, pos, h, hl => by
    simp only [textSlots] at h ⊢
    simp only [techSlots]
    exact techSlots_ext hex maxLen rest first buf pos h hl
  | .entry k v rest, true, buf, pos, h, hl => by
    simp only [textSlots, if_true, List.nil_append, List.length_append, List.length_cons,
      List.length_nil] at h ⊢
    obtain ⟨b, hb, he⟩ := tech_ext hex maxLen k buf pos (by omega) hl
    obtain ⟨b1, hb1, he1⟩ := snp_ext (buf := b) (pos := pos + (text O hex k).length)
      (maxLen := maxLen) (t := [58#8]) (by simp; omega) (by rw [he.len]; exact hl)
    obtain ⟨b2, hb2, he2⟩ := tech_ext hex maxLen v b1 (pos + (text O hex k).length + 1) (by omega)
      (by rw [he1.len, he.len]; exact hl)
    obtain ⟨b3, hb3, he3⟩ := techSlots_ext hex maxLen rest false b2
      (pos + (text O hex k).length + 1 + (text O hex v).length) (by omega)
      (by rw [he2.len, he1.len, he.len]; exact hl)
    refine ⟨b3, ?_, ((he.trans he1).trans (by
      simpa only [List.length_append, List.length_cons, List.length_nil, ← Nat.add_assoc] using he2)).trans (by
      simpa only [List.length_append, List.length_cons, List.length_nil, ← Nat.add_assoc] using he3)⟩
    simp only [techSlots, if_true, hb, hb1, hb2, hb3]
    congr 2; omega
  | .entry k v rest, false, buf, pos, h, hl => by
    simp only [textSlots, Bool.false_eq_true, if_false, List.length_append, List.length_cons,
      List.length_nil] at h ⊢
    obtain ⟨b0, hb0, he0⟩ := snp_ext (buf := buf) (pos := pos) (maxLen := maxLen) (t := [44#8, 32#8])
      (by simp; omega) hl
    obtain ⟨b, hb, he⟩ := tech_ext hex maxLen k b0 (pos + 2) (by omega) (by rw [he0.len]; exact hl)
    obtain ⟨b1, hb1, he1⟩ := snp_ext (buf := b) (pos := pos + 2 + (text O hex k).length)
      (maxLen := maxLen) (t := [58#8]) (by simp; omega) (by rw [he.len, he0.len]; exact hl)
    obtain ⟨b2, hb2, he2⟩ := tech_ext hex maxLen v b1 (pos + 2 + (text O hex k).length + 1) (by omega)
      (by rw [he1.len, he.len, he0.len]; exact hl)
    obtain ⟨b3, hb3, he3⟩ := techSlots_ext hex maxLen rest false b2
      (pos + 2 + (text O hex k).length + 1 + (text O hex v).length) (by omega)
      (by rw [he2.len, he1.len, he.len, he0.len]; exact hl)
    refine ⟨b3, ?_, (((he0.trans he).trans (by
      simpa only [List.length_append, List.length_cons, List.length_nil, ← Nat.add_assoc] using he1)).trans (by
      simpa only [List.length_append, List.length_cons, List.length_nil, ← Nat.add_assoc] using he2)).trans (by
      simpa only [List.length_append, List.length_cons, List.length_nil, ← Nat.add_assoc] using he3)⟩
    simp only [techSlots, Bool.false_eq_true, if_false, hb0, hb, hb1, hb2, hb3]
    congr 2; omega
end

end Wrench.Text
