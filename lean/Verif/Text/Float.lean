import Verif.Text.Lemmas

/-
`wr_ftoa`: the stores and the text.
-/
namespace Wrench.Text

open Wrench.Std

theorem dropZeros_nil : dropZeros [] = [] := rfl

theorem dropZeros_snoc_zero (ds : List Byte) : dropZeros (ds ++ [48#8]) = dropZeros ds := by
  simp [dropZeros]

theorem dropZeros_snoc {ds : List Byte} {d : Byte} (h : d ≠ 48#8) :
    dropZeros (ds ++ [d]) = ds ++ [d] := by
  have : (d == 48#8) = false := by simpa using h
  simp [dropZeros, this]

theorem snoc_cases {α : Type} (l : List α) : l = [] ∨ ∃ a b, l = a ++ [b] := by
  rcases List.eq_nil_or_concat l with h | ⟨a, b, h⟩
  · exact .inl h
  · exact .inr ⟨a, b, by simpa using h⟩

theorem dropZeros_prefix : ∀ (n : Nat) (ds : List Byte), ds.length = n →
    ∃ zs, ds = dropZeros ds ++ zs := by
  intro n
  induction n with
  | zero => intro ds h; exact ⟨[], by rw [List.length_eq_zero_iff.mp h]; rfl⟩
  | succ n ih =>
    intro ds h
    rcases snoc_cases ds with rfl | ⟨a, d, rfl⟩
    · exact ⟨[], rfl⟩
    · by_cases hd : d = 48#8
      · subst hd
        obtain ⟨zs, hz⟩ := ih a (by simpa using h)
        refine ⟨zs ++ [48#8], ?_⟩
        rw [dropZeros_snoc_zero, ← List.append_assoc, ← hz]
      · exact ⟨[], by rw [dropZeros_snoc hd]; simp⟩

theorem getElem?_of_take {buf t : List Byte} {n : Nat} (h : buf.take n = t) (k : Nat) (hk : k < n) :
    buf[k]? = t[k]? := by
  rw [← h, List.getElem?_take]
  simp [hk]

theorem trim_spec (buf pre : List Byte) : ∀ (n : Nat) (ds : List Byte), ds.length = n →
    buf.take (pre.length + 1 + ds.length) = pre ++ 46#8 :: ds →
    trim buf (pre.length + ds.length) = pre.length + (dropZeros ds).length := by
  intro n
  induction n with
  | zero =>
    intro ds h ht
    have : ds = [] := List.length_eq_zero_iff.mp h
    subst this
    have hg := getElem?_of_take ht pre.length (by simp)
    simp only [dropZeros_nil, List.length_nil, Nat.add_zero]
    cases hp : pre.length with
    | zero => rfl
    | succ p =>
      rw [trim, ← hp, hg]
      simp
  | succ n ih =>
    intro ds h ht
    rcases snoc_cases ds with rfl | ⟨a, d, rfl⟩
    · simp at h
    · have ha : a.length = n := by simpa using h
      have hg := getElem?_of_take ht (pre.length + 1 + a.length) (by simp)
      have hd : (pre ++ 46#8 :: (a ++ [d]))[pre.length + 1 + a.length]? = some d := by
        rw [List.getElem?_append_right (by omega)]
        have : pre.length + 1 + a.length - pre.length = a.length + 1 := by omega
        rw [this]
        simp
      have ht' : buf.take (pre.length + 1 + a.length) = pre ++ 46#8 :: a := by
        have := congrArg (List.take (pre.length + 1 + a.length)) ht
        rw [List.take_take, Nat.min_eq_left (by simp)] at this
        rw [this]
        have e : pre ++ 46#8 :: (a ++ [d]) = (pre ++ 46#8 :: a) ++ [d] := by simp
        rw [e]
        apply List.take_left'
        simp; omega
      have e : pre.length + (a ++ [d]).length = (pre.length + a.length) + 1 := by simp; omega
      rw [e, trim]
      have e2 : pre.length + a.length + 1 = pre.length + 1 + a.length := by omega
      rw [e2, hg, hd]
      by_cases h0 : d = 48#8
      · subst h0
        simp only [if_true]
        rw [ih a ha ht', dropZeros_snoc_zero]
      · have : ¬ (some d = some 48#8) := by simpa using h0
        rw [if_neg this, dropZeros_snoc h0]
        simp; omega

theorem ftoaEnd_spec {buf pre ds : List Byte} {lim : Nat} (hd : ∀ d ∈ ds, d ≠ 46#8)
    (ht : buf.take (pre.length + 1 + ds.length) = pre ++ 46#8 :: ds)
    (hl : pre.length + (fraction ds).length < lim) (hb : lim ≤ buf.length) :
    ∃ b, ftoaEnd buf (pre.length + 1 + ds.length) =
        some (b, pre.length + (fraction ds).length) ∧ b.length = buf.length ∧
      b.take (pre.length + (fraction ds).length + 1) = pre ++ fraction ds ++ [0#8] ∧
      b.drop lim = buf.drop lim := by
  have htr := trim_spec buf pre ds.length ds rfl ht
  have e0 : pre.length + 1 + ds.length - 1 = pre.length + ds.length := by omega
  obtain ⟨zs, hz⟩ := dropZeros_prefix ds.length ds rfl
  -- the position of the terminator
  have hq : (if buf[trim buf (pre.length + ds.length)]? = some 46#8 then
      trim buf (pre.length + ds.length) else trim buf (pre.length + ds.length) + 1) =
      pre.length + (fraction ds).length := by
    rw [htr]
    by_cases hn : dropZeros ds = []
    · have hg := getElem?_of_take ht pre.length (by omega)
      have : buf[pre.length + (dropZeros ds).length]? = some 46#8 := by
        rw [hn]; simpa using hg
      rw [if_pos this]
      simp [fraction, hn]
    · obtain ⟨m, hm⟩ : ∃ m, (dropZeros ds).length = m + 1 :=
        ⟨(dropZeros ds).length - 1, by have := List.length_pos_iff.mpr hn; omega⟩
      have hle : (dropZeros ds).length ≤ ds.length := by
        have := congrArg List.length hz; simp at this; omega
      have hg := getElem?_of_take ht (pre.length + (dropZeros ds).length) (by omega)
      have hx : (pre ++ 46#8 :: ds)[pre.length + (dropZeros ds).length]? = ds[m]? := by
        rw [List.getElem?_append_right (by omega), Nat.add_sub_cancel_left, hm]
        simp
      have hne : ¬ (buf[pre.length + (dropZeros ds).length]? = some 46#8) := by
        rw [hg, hx]
        intro hh
        exact hd _ (List.mem_of_getElem? hh) rfl
      rw [if_neg hne]
      simp [fraction, hn]; omega
  -- what is kept
  have htake : buf.take (pre.length + (fraction ds).length) = pre ++ fraction ds := by
    have hfr : ∃ ys, 46#8 :: ds = fraction ds ++ ys := by
      by_cases hn : dropZeros ds = []
      · exact ⟨46#8 :: ds, by simp [fraction, hn]⟩
      · refine ⟨zs, ?_⟩
        simp only [fraction, hn, if_false, List.cons_append]
        rw [← hz]
    obtain ⟨ys, hys⟩ := hfr
    have hlen : (fraction ds).length ≤ 1 + ds.length := by
      have := congrArg List.length hys; simp at this; omega
    have := congrArg (List.take (pre.length + (fraction ds).length)) ht
    rw [List.take_take, Nat.min_eq_left (by omega), hys, ← List.append_assoc] at this
    rw [this]
    apply List.take_left'
    simp
  obtain ⟨b, hput, he⟩ := put_ext (buf := buf) (pos := pre.length + (fraction ds).length)
    (bs := [0#8]) (lim := lim) (by simp; omega) hb
  refine ⟨b, ?_, he.len, ?_, he.rest⟩
  · simp only [ftoaEnd, e0]
    rw [hq, hput]
    rfl
  · have := he.text
    simp only [List.length_cons, List.length_nil, Nat.zero_add] at this
    rw [this, htake]

variable (O : FloatOps)

theorem digitsOf_length : ∀ (n : Nat) (f : O.F), (digitsOf O n f).length = n := by
  intro n
  induction n with
  | zero => intro f; rfl
  | succ n ih => intro f; simp [digitsOf, ih]

theorem ftoaDigits_spec (len : Nat) : ∀ (n : Nat) (buf : List Byte) (pos : Nat) (f : O.F),
    len < buf.length →
    ∃ b, ftoaDigits O len n buf pos f = some (b, pos + min n (len - pos)) ∧
      Ext buf b pos (digitsOf O (min n (len - pos)) f) (len + 1) := by
  intro n
  induction n with
  | zero => intro buf pos f _; exact ⟨buf, by simp [ftoaDigits], by simpa [digitsOf] using Ext.refl⟩
  | succ n ih =>
    intro buf pos f hl
    by_cases hp : pos < len
    · obtain ⟨b, hb, he⟩ := put_ext (buf := buf) (pos := pos) (bs := [(O.digit f).1])
        (lim := len + 1) (by simp; omega) hl
      obtain ⟨b1, hb1, he1⟩ := ih b (pos + 1) (O.digit f).2 (by rw [he.len]; exact hl)
      have hm : min (n + 1) (len - pos) = min n (len - (pos + 1)) + 1 := by omega
      refine ⟨b1, ?_, ?_⟩
      · simp only [ftoaDigits, hp, if_true, hb, hb1, hm]
        congr 2; omega
      · rw [hm, digitsOf]
        exact he.trans he1
    · have hm : min (n + 1) (len - pos) = 0 := by omega
      refine ⟨buf, by simp [ftoaDigits, hp, hm], ?_⟩
      rw [hm]
      exact Ext.refl

/-- What follows the integer part: the point and the digits. -/
theorem ftoa_tail {buf pre : List Byte} {len : Nat} {g : O.F} (hl : len < buf.length)
    (hpre : pre.length ≤ len) (ht : buf.take pre.length = pre)
    (hd : ∀ d ∈ digitsOf O 5 g, d ≠ 46#8) :
    ∃ b2 b3 b, put buf pre.length [46#8] = some b2 ∧
      ftoaDigits O len 5 b2 (pre.length + 1) g =
        some (b3, pre.length + 1 + min 5 (len - (pre.length + 1))) ∧
      ftoaEnd b3 (pre.length + 1 + min 5 (len - (pre.length + 1))) =
        some (b, (pre ++ fraction (digitsOf O (min 5 (len - (pre.length + 1))) g)).length) ∧
      b.length = buf.length ∧
      b.take ((pre ++ fraction (digitsOf O (min 5 (len - (pre.length + 1))) g)).length + 1) =
        pre ++ fraction (digitsOf O (min 5 (len - (pre.length + 1))) g) ++ [0#8] ∧
      b.drop (len + 1) = buf.drop (len + 1) := by
  obtain ⟨k, hk⟩ : ∃ k, k = min 5 (len - (pre.length + 1)) := ⟨_, rfl⟩
  rw [← hk]
  obtain ⟨b2, hb2, he2⟩ := put_ext (buf := buf) (pos := pre.length) (bs := [46#8])
    (lim := len + 1) (by simp; omega) hl
  obtain ⟨b3, hb3, he3⟩ := ftoaDigits_spec O len 5 b2 (pre.length + 1) g (by rw [he2.len]; exact hl)
  rw [← hk] at hb3 he3
  have hsub : ∀ (m n : Nat) (f : O.F), m ≤ n → ∀ d ∈ digitsOf O m f, d ∈ digitsOf O n f := by
    intro m
    induction m with
    | zero => intro n f _ d hm; simp [digitsOf] at hm
    | succ m ih =>
      intro n f hmn d hm
      obtain ⟨n', rfl⟩ : ∃ n', n = n' + 1 := ⟨n - 1, by omega⟩
      simp only [digitsOf, List.mem_cons] at hm ⊢
      rcases hm with hm | hm
      · exact .inl hm
      · exact .inr (ih n' _ (by omega) d hm)
  have hlenD := digitsOf_length O k g
  have h23 := he2.trans he3
  have htake : b3.take (pre.length + 1 + (digitsOf O k g).length) = pre ++ 46#8 :: digitsOf O k g := by
    have := h23.text
    simp only [List.cons_append, List.nil_append, List.length_cons] at this
    rw [ht] at this
    rw [← this]
    congr 1; omega
  have hfl : (fraction (digitsOf O k g)).length ≤ if k = 0 then 0 else k + 1 := by
    obtain ⟨zs, hz⟩ := dropZeros_prefix _ (digitsOf O k g) rfl
    have hle := congrArg List.length hz
    rw [hlenD, List.length_append] at hle
    unfold fraction
    split
    · simp
    · next hn =>
      have := List.length_pos_iff.mpr hn
      split
      · omega
      · simp; omega
  obtain ⟨b, hb, hbl, hbt, hbd⟩ := ftoaEnd_spec (lim := len + 1)
    (fun d hm => hd d (hsub k 5 g (by omega) d hm)) htake (by split at hfl <;> omega)
    (by rw [h23.len]; exact hl)
  rw [hlenD] at hb
  refine ⟨b2, b3, b, hb2, hb3, by rw [List.length_append]; exact hb, by rw [hbl, h23.len], ?_, by rw [hbd, h23.rest]⟩
  rw [List.length_append]
  exact hbt

end Wrench.Text
