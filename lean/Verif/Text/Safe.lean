import Verif.Text.Lemmas

/-
The technical form of values without hash tables: no store from `maxLen` on, whether or not the
text fits.
-/
namespace Wrench.Text

open Wrench.Std

mutual
/-- No hash table inside. -/
def noTable : Tv → Bool
  | .ref v => noTable v
  | .arr items => noTableItems items
  | .table _ => false
  | _ => true
/-- No hash table inside any element. -/
def noTableItems : Items → Bool
  | .nil => true
  | .cons v vs => noTable v && noTableItems vs
end

/-- An array or string, or a reference to one. -/
def isContainer : Tv → Bool
  | .ref v => isContainer v
  | .arr _ => true
  | .str _ => true
  | .raw => true
  | _ => false

/-- Nothing from `lim` on has changed. -/
def Kept (buf b : List Byte) (lim : Nat) : Prop := b.length = buf.length ∧ b.drop lim = buf.drop lim

theorem Kept.trans {buf b c : List Byte} {lim : Nat} (h : Kept buf b lim) (g : Kept b c lim) :
    Kept buf c lim := ⟨g.1.trans h.1, g.2.trans h.2⟩

theorem Ext.kept {buf b t : List Byte} {pos lim : Nat} (h : Ext buf b pos t lim) : Kept buf b lim :=
  ⟨h.len, h.rest⟩

theorem snp_kept {buf : List Byte} {pos maxLen : Nat} (t : List Byte)
    (h : pos < maxLen) (hl : maxLen ≤ buf.length) :
    ∃ b, snp buf pos maxLen t = some b ∧ Kept buf b maxLen := by
  have h1 : pos ≤ maxLen := by omega
  have h2 : maxLen - pos ≠ 0 := by omega
  simp only [snp, h1, if_true, h2, if_false]
  obtain ⟨b, hb, he⟩ := put_ext (buf := buf) (pos := pos)
    (bs := t.take (maxLen - pos - 1) ++ [0#8]) (lim := maxLen)
    (by simp only [List.length_append, List.length_take, List.length_cons, List.length_nil]; omega) hl
  exact ⟨b, hb, he.kept⟩

theorem techChars_kept {maxLen : Nat} : ∀ (cs buf : List Byte) (pos : Nat), maxLen ≤ buf.length →
    ∃ b p, techChars maxLen cs buf pos = some (b, p) ∧ Kept buf b maxLen := by
  intro cs
  induction cs with
  | nil => intro buf pos _; exact ⟨buf, pos, rfl, rfl, rfl⟩
  | cons c cs ih =>
    intro buf pos hl
    by_cases hp : pos < maxLen
    · obtain ⟨b, hb, he⟩ := put_ext (buf := buf) (pos := pos) (bs := [c]) (lim := maxLen)
        (by simp; omega) hl
      obtain ⟨b2, p, hb2, hk⟩ := ih b (pos + 1) (by rw [he.len]; exact hl)
      exact ⟨b2, p, by simp only [techChars, hp, if_true, hb, hb2], he.kept.trans hk⟩
    · exact ⟨buf, pos, by simp only [techChars, hp, if_false], rfl, rfl⟩

variable (O : FloatOps)

mutual
theorem tech_kept (hex : Bool) (maxLen : Nat) (hm : 1 ≤ maxLen) : ∀ (v : Tv), noTable v = true →
    ∀ (buf : List Byte) (pos : Nat), maxLen ≤ buf.length →
    ∃ b p, tech O hex maxLen v buf pos = some (b, p) ∧ Kept buf b maxLen ∧
      (isContainer v = true → p ≤ maxLen)
  | v, hv, buf, pos, hl => by
    have hm0 : maxLen ≠ 0 := by omega
    by_cases hp : pos ≥ maxLen
    · refine ⟨buf, maxLen - 1, ?_, ⟨rfl, rfl⟩, fun _ => by omega⟩
      cases v <;> (rw [tech]; simp only [hp, if_true, hm0, if_false])
    · match v, hv with
      | .ref v, hv =>
        obtain ⟨b, hb, he⟩ := put_ext (buf := buf) (pos := pos)
          (bs := ([114#8, 101#8, 102#8, 58#8, 32#8] ++ List.replicate (maxLen - pos) (0#8)).take
            (maxLen - pos)) (lim := maxLen) (by rw [List.length_take]; omega) hl
        obtain ⟨b2, p, hb2, hk, hc⟩ := tech_kept hex maxLen hm v (by simpa [noTable] using hv) b
          (pos + 5) (by rw [he.len]; exact hl)
        refine ⟨b2, p, ?_, he.kept.trans hk, fun h => hc (by simpa [isContainer] using h)⟩
        rw [tech]
        simp only [hp, if_false, hb, hb2]
      | .float f, _ =>
        obtain ⟨b, hb, hk⟩ := snp_kept (buf := buf) (O.gText f) (by omega : pos < maxLen) hl
        refine ⟨b, pos + (O.gText f).length, ?_, hk, fun h => by simp [isContainer] at h⟩
        rw [tech]
        simp only [hp, if_false, hb, Option.map_some]
      | .int i, _ =>
        obtain ⟨b, hb, hk⟩ := snp_kept (buf := buf) (if hex then hexText i else decText i)
          (by omega : pos < maxLen) hl
        refine ⟨b, pos + (if hex then hexText i else decText i).length, ?_, hk, fun h => by simp [isContainer] at h⟩
        rw [tech]
        simp only [hp, if_false, hb, Option.map_some]
      | .arr items, hv =>
        obtain ⟨b, hb, hk⟩ := snp_kept (buf := buf) [91#8, 32#8] (by omega : pos < maxLen) hl
        obtain ⟨b1, p1, hb1, hk1⟩ := techItems_kept hex maxLen hm items (by simpa [noTable] using hv)
          true b (pos + 2) (by rw [hk.1]; exact hl)
        by_cases hq : p1 ≥ maxLen
        · refine ⟨b1, maxLen, ?_, hk.trans hk1, fun _ => Nat.le_refl _⟩
          rw [tech]
          simp only [hp, if_false, hb, hb1, hq, if_true]
        · obtain ⟨b2, hb2, hk2⟩ := snp_kept (buf := b1) [32#8, 93#8] (by omega : p1 < maxLen)
            (by rw [hk1.1, hk.1]; exact hl)
          refine ⟨b2, if p1 + 2 ≥ maxLen then maxLen else p1 + 2, ?_, (hk.trans hk1).trans hk2,
            fun _ => by split <;> omega⟩
          rw [tech]
          simp only [hp, if_false, hb, hb1, hq, hb2, Option.map_some]
      | .str bytes, _ =>
        obtain ⟨b, hb, hk⟩ := snp_kept (buf := buf) [34#8] (by omega : pos < maxLen) hl
        obtain ⟨b1, p1, hb1, hk1⟩ := techChars_kept (maxLen := maxLen) bytes b (pos + 1)
          (by rw [hk.1]; exact hl)
        by_cases hq : p1 ≥ maxLen
        · refine ⟨b1, maxLen, ?_, hk.trans hk1, fun _ => Nat.le_refl _⟩
          rw [tech]
          simp only [hp, if_false, hb, hb1, hq, if_true]
        · obtain ⟨b2, hb2, hk2⟩ := snp_kept (buf := b1) [34#8] (by omega : p1 < maxLen)
            (by rw [hk1.1, hk.1]; exact hl)
          refine ⟨b2, if p1 + 1 ≥ maxLen then maxLen else p1 + 1, ?_, (hk.trans hk1).trans hk2,
            fun _ => by split <;> omega⟩
          rw [tech]
          simp only [hp, if_false, hb, hb1, hq, hb2, Option.map_some]
      | .table _, hv => exact absurd hv (by simp [noTable])
      | .raw, _ =>
        obtain ⟨b, hb, hk⟩ := snp_kept (buf := buf) rawText (by omega : pos < maxLen) hl
        refine ⟨b, if pos + 11 ≥ maxLen then maxLen else pos + 11, ?_, hk, fun _ => by split <;> omega⟩
        rw [tech]
        simp only [hp, if_false, hb, Option.map_some]
      | .other, _ =>
        refine ⟨buf, pos, ?_, ⟨rfl, rfl⟩, fun h => by simp [isContainer] at h⟩
        rw [tech]
        simp only [hp, if_false]

theorem techItems_kept (hex : Bool) (maxLen : Nat) (hm : 1 ≤ maxLen) : ∀ (vs : Items),
    noTableItems vs = true → ∀ (first : Bool) (buf : List Byte) (pos : Nat), maxLen ≤ buf.length →
    ∃ b p, techItems O hex maxLen vs first buf pos = some (b, p) ∧ Kept buf b maxLen
  | .nil, _, first, buf, pos, _ => ⟨buf, pos, by simp [techItems], rfl, rfl⟩
  | .cons v vs, hv, first, buf, pos, hl => by
    simp only [noTableItems, Bool.and_eq_true] at hv
    by_cases hp : pos < maxLen
    · have hsep : ∃ b0, (if first then some buf else snp buf pos maxLen [44#8, 32#8]) = some b0 ∧
          Kept buf b0 maxLen := by
        cases first with
        | true => exact ⟨buf, rfl, rfl, rfl⟩
        | false => exact snp_kept _ hp hl
      obtain ⟨b0, hb0, hk0⟩ := hsep
      obtain ⟨b, p, hb, hk, _⟩ := tech_kept hex maxLen hm v hv.1 b0 (if first then pos else pos + 2)
        (by rw [hk0.1]; exact hl)
      obtain ⟨b1, p1, hb1, hk1⟩ := techItems_kept hex maxLen hm vs hv.2 false b p
        (by rw [hk.1, hk0.1]; exact hl)
      refine ⟨b1, p1, ?_, (hk0.trans hk).trans hk1⟩
      simp only [techItems, hp, if_true, hb0, hb, hb1]
    · exact ⟨buf, pos, by simp only [techItems, hp, if_false], rfl, rfl⟩
end

end Wrench.Text
