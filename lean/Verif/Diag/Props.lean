import Verif.Diag.Model

/-
C70: the message of a compile error names the line at which the compiler stopped, shows it, and points
at the last character read.
-/
namespace Wrench.Diag

open Wrench

/-- `t` is the line of `src` that holds position `pos`, `col` characters into it: it is delimited by
line feeds or the ends of the source and contains none. -/
def LineAt (src : List Byte) (pos col : Nat) (t : Text) : Prop :=
  ∃ a b, src = a ++ t ++ b ∧ a.length + col = pos ∧ col ≤ t.length ∧ 10#8 ∉ t ∧
    (a = [] ∨ a.getLast? = some 10#8) ∧ (b = [] ∨ b.head? = some 10#8)

/-- The number of the line that holds position `pos`, counted from one. -/
def lineNo (src : List Byte) (pos : Nat) : Nat := (src.take pos).count 10#8 + 1

/-- The row of the message that shows the source line: its number in five columns, a blank, the text. -/
def row (n : Nat) (t : Text) : Text := dec5 n ++ [32#8] ++ t

/-- The message a user expects. -/
def expected (src : List Byte) (pos err col : Nat) (e : String) (t : Text) : Text :=
  ascii "line:" ++ dec (lineNo src pos) ++ ascii "\n" ++
  ascii "err: " ++ ascii e ++ ascii "[" ++ dec err ++ ascii "]\n" ++
  row (lineNo src pos) t ++ ascii "\n" ++
  (List.replicate (col + 5) 32#8 ++ ascii "^\n")

/-! ### The position -/

theorem takeWhile_stop (l : List Byte) : 10#8 ∉ l.takeWhile (· != 10#8) := by
  induction l with
  | nil => simp
  | cons x xs ih =>
    by_cases g : x = 10#8
    · subst g; simp
    · simp only [List.takeWhile_cons, bne_iff_ne, ne_eq, g, not_false_eq_true, if_true, List.mem_cons, not_or]
      exact ⟨fun h => g h.symm, ih⟩

theorem dropWhile_head (l : List Byte) :
    l.dropWhile (· != 10#8) = [] ∨ (l.dropWhile (· != 10#8)).head? = some 10#8 := by
  induction l with
  | nil => left; rfl
  | cons x xs ih =>
    by_cases g : x = 10#8
    · right; subst g; simp
    · simpa [List.dropWhile_cons, g] using ih

theorem line_start (src : List Byte) (p : Nat) (hp : p ≤ src.length)
    (h : p = 0 ∨ src[p - 1]? = some 10#8 ∧ 0 < p) : LineAt src p 0 (lineFrom src p) := by
  refine ⟨src.take p, (src.drop p).dropWhile (· != 10#8), ?_, ?_, by omega, takeWhile_stop _, ?_, dropWhile_head _⟩
  · rw [List.append_assoc, lineFrom, List.takeWhile_append_dropWhile, List.take_append_drop]
  · simp; omega
  · rcases h with h | ⟨h, h0⟩
    · left; subst h; rfl
    · right
      rw [List.getLast?_eq_getElem?, List.length_take, Nat.min_eq_left hp, List.getElem?_take_of_lt (by omega), h]

theorem LineAt.next {src : List Byte} {p col : Nat} {t : Text} {c : Byte} (h : LineAt src p col t)
    (hc : src[p]? = some c) (hn : c ≠ 10#8) : LineAt src (p + 1) (col + 1) t := by
  obtain ⟨a, b, e, hp, hl, ht, ha, hb⟩ := h
  refine ⟨a, b, e, by omega, ?_, ht, ha, hb⟩
  rcases Nat.lt_or_ge col t.length with g | g
  · omega
  · exfalso
    have : col = t.length := by omega
    subst this
    rw [e, List.append_assoc, List.getElem?_append_right (by omega), ← hp, Nat.add_sub_cancel_left,
      List.getElem?_append_right (Nat.le_refl _), Nat.sub_self] at hc
    rcases hb with hb | hb
    · simp [hb] at hc
    · rw [List.head?_eq_getElem?, hc] at hb
      exact hn (by simpa using hb)

/-- **C70** (position).  Wherever the compiler stops inside the source, the reported line number is one
more than the number of line feeds before it, the text is the whole of that line, and the column is the
number of characters between the beginning of the line and the position. -/
theorem C70_position (src : List Byte) (pos : Nat) (hp : pos ≤ src.length) :
    ∃ col t, getSourcePosition src pos = some (lineNo src pos, col, t) ∧ LineAt src pos col t := by
  induction pos with
  | zero => exact ⟨0, lineFrom src 0, by simp [getSourcePosition, lineNo], line_start src 0 (by omega) (.inl rfl)⟩
  | succ p ih =>
    obtain ⟨col, t, h1, h2⟩ := ih (by omega)
    have hlt : p < src.length := by omega
    have hg : src[p]? = some src[p] := List.getElem?_eq_getElem hlt
    have hs : getSourcePosition src (p + 1) = posStep src (some (lineNo src p, col, t)) p := by
      rw [getSourcePosition, List.range_succ, List.foldl_append, ← getSourcePosition, h1]; rfl
    have hl : lineNo src (p + 1) = lineNo src p + if src[p] = 10#8 then 1 else 0 := by
      rw [lineNo, lineNo, List.take_add_one, hg]
      simp only [Option.toList, List.count_append, List.count_singleton, beq_iff_eq]
      omega
    rw [hs, posStep, hg]
    by_cases g : src[p] = 10#8
    · refine ⟨0, lineFrom src (p + 1), by simp [g, hl], line_start src (p + 1) (by omega) (.inr ⟨?_, by omega⟩)⟩
      rw [Nat.add_sub_cancel, hg, g]
    · exact ⟨col + 1, t, by simp [g, hl], h2.next hg g⟩

/-- The line and the column are determined by the source and the position. -/
theorem LineAt.unique {src : List Byte} {pos c1 c2 : Nat} {t1 t2 : Text} (h1 : LineAt src pos c1 t1)
    (h2 : LineAt src pos c2 t2) : c1 = c2 ∧ t1 = t2 := by
  have key : ∀ {c1 c2 : Nat} {t1 t2 : Text}, LineAt src pos c1 t1 → LineAt src pos c2 t2 → c1 ≤ c2 := by
    intro c1 c2 t1 t2 h1 h2
    obtain ⟨a, b, e, hp, hl, ht, ha, hb⟩ := h1
    obtain ⟨a', b', e', hp', hl', ht', ha', hb'⟩ := h2
    rcases Nat.lt_or_ge c2 c1 with g | g
    · exfalso
      -- the second line begins inside the first
      have hne : a' ≠ [] := by intro h; subst h; simp at hp'; omega
      have hl2 : a'.getLast? = some 10#8 := ha'.resolve_left hne
      have hpos : 0 < a'.length := List.length_pos_iff.2 hne
      have h10 : src[a'.length - 1]? = some 10#8 := by
        rw [e', List.append_assoc, List.getElem?_append_left (by omega), ← List.getLast?_eq_getElem?, hl2]
      rw [e, List.append_assoc, List.getElem?_append_right (by omega),
        List.getElem?_append_left (by omega)] at h10
      exact ht (List.mem_of_getElem? h10)
    · exact g
  have hc : c1 = c2 := Nat.le_antisymm (key h1 h2) (key h2 h1)
  refine ⟨hc, ?_⟩
  subst hc
  obtain ⟨a, b, e, hp, hl, ht, ha, hb⟩ := h1
  obtain ⟨a', b', e', hp', hl', ht', ha', hb'⟩ := h2
  have haa : a = a' := by
    have h1 : a = src.take (pos - c1) := by
      rw [e, List.append_assoc, List.take_append_of_le_length (by omega), List.take_of_length_le (by omega)]
    have h2 : a' = src.take (pos - c1) := by
      rw [e', List.append_assoc, List.take_append_of_le_length (by omega), List.take_of_length_le (by omega)]
    rw [h1, h2]
  subst haa
  have hd : t1 ++ b = t2 ++ b' := by
    have := e.symm.trans e'
    simpa [List.append_assoc] using this
  have w : ∀ (t b : Text), 10#8 ∉ t → (b = [] ∨ b.head? = some 10#8) → (t ++ b).takeWhile (· != 10#8) = t := by
    intro t b ht hb
    rw [List.takeWhile_append_of_pos (by intro x hx; simp; rintro rfl; exact ht hx)]
    rcases hb with rfl | hb
    · simp
    · cases b with
      | nil => simp
      | cons x xs => simp at hb; subst hb; simp
  rw [← w t1 b ht hb, hd, w t2 b' ht' hb']

/-! ### Formatted printing -/

theorem dec_length (k : Nat) : ∀ n : Nat, n < 10 ^ (k + 1) → (dec n).length ≤ k + 1 := by
  induction k with
  | zero => intro n h; rw [dec, if_pos (by simpa using h)]; simp
  | succ k ih =>
    intro n h
    rw [dec]
    split
    · simp
    · have : n / 10 < 10 ^ (k + 1) := by rw [Nat.div_lt_iff_lt_mul (by omega)]; rw [Nat.pow_succ] at h; omega
      have := ih _ this
      simp; omega

theorem dec5_length (n : Nat) (h : n < 100000) : (dec5 n).length = 5 := by
  have := dec_length 4 n (by omega)
  simp [dec5]; omega

/-- Text shorter than the trial buffer is appended as it is. -/
theorem appendFormat_short {str t : Text} {f : List Piece} {va rest : List Arg} (h : render f va = some (t, rest))
    (ht : t.length < 80) : appendFormat str f va = some (str ++ t) := by
  rw [appendFormat, h]
  exact if_pos (show t.length < trySize from ht)

/-- Text that does not fit the trial buffer is formatted a second time with whatever is left of the
argument list. -/
theorem appendFormat_long {str t : Text} {f : List Piece} {va rest : List Arg} (h : render f va = some (t, rest))
    (ht : 80 ≤ t.length) : appendFormat str f va = (render f rest).map fun r => str ++ r.1.take t.length := by
  rw [appendFormat, h]
  simp only
  rw [if_neg (show ¬ t.length < trySize by rw [trySize]; omega)]
  cases render f rest <;> rfl

theorem blanks_eq : ∀ (n : Nat) (m : Text), blanks n m = some (m ++ List.replicate n 32#8) := by
  intro n
  induction n with
  | zero => intro m; simp [blanks]
  | succ n ih =>
    intro m
    rw [blanks, appendFormat_short (t := [32#8]) (rest := []) rfl (by decide)]
    simp [ih, List.replicate_succ]

theorem err_short (err : Nat) (e : String) (h : errStrings[err]? = some e) :
    err < 52 ∧ (ascii e).length ≤ 50 ∧ 0#8 ∉ ascii e := by
  have hl : err < errStrings.length := by
    rw [List.getElem?_eq_some_iff] at h; exact h.1
  have hm : e ∈ errStrings := List.mem_of_getElem? h
  have : ∀ e ∈ errStrings, (ascii e).length ≤ 50 ∧ 0#8 ∉ ascii e := by decide +kernel
  exact ⟨hl, this e hm⟩

theorem takeWhile_all {t : Text} (h : 0#8 ∉ t) : t.takeWhile (· != 0#8) = t := by
  induction t with
  | nil => rfl
  | cons x xs ih =>
    simp only [List.mem_cons, not_or] at h
    have hx : x ≠ 0#8 := fun g => h.1 g.symm
    simp [hx, ih h.2]

/-- Everything before the source row. -/
theorem message_head (src : List Byte) (pos err col : Nat) (e : String) (t : Text) (hp : pos ≤ src.length)
    (hs : src.length < 2 ^ 31) (he : errStrings[err]? = some e) (hl : LineAt src pos col t) :
    message src pos err =
      (appendFormat (ascii "line:" ++ dec (lineNo src pos) ++ ascii "\n" ++
          (ascii "err: " ++ ascii e ++ ascii "[" ++ dec err ++ ascii "]\n"))
        [.d5, .lit (ascii " "), .s, .lit (ascii "\n")] [.n (lineNo src pos), .p t]).bind fun m =>
      (blanks col m).bind fun m => appendFormat m [.lit (ascii "     ^\n")] [] := by
  obtain ⟨col', t', h1, h2⟩ := C70_position src pos hp
  obtain ⟨rfl, rfl⟩ := h2.unique hl
  obtain ⟨e1, e2, e3⟩ := err_short err e he
  have hn : lineNo src pos < 10 ^ 10 := by
    have := List.count_le_length (a := 10#8) (l := src.take pos)
    rw [List.length_take] at this
    rw [lineNo]; omega
  have hd := dec_length 9 _ hn
  have he2 := dec_length 1 err (by omega)
  have a1 : (ascii "line:").length = 5 := by decide
  have a2 : (ascii "\n").length = 1 := by decide
  have a3 : (ascii "err: ").length = 5 := by decide
  have a4 : (ascii "[").length = 1 := by decide
  have a5 : (ascii "]\n").length = 2 := by decide
  rw [message, h1]
  simp only [Option.bind_some]
  rw [format, appendFormat_short (t := ascii "line:" ++ (dec (lineNo src pos) ++ (ascii "\n" ++ []))) (rest := []) rfl
    (by simp only [List.length_append, List.length_nil]; omega)]
  simp only [Option.bind_some, he]
  rw [appendFormat_short (t := ascii "err: " ++ (ascii e ++ (ascii "[" ++ (dec err ++ (ascii "]\n" ++ []))))) (rest := [])
    (by simp only [render, Option.map_some, takeWhile_all e3])
    (by simp only [List.length_append, List.length_nil]; omega)]
  simp only [Option.bind_some, List.nil_append, List.append_nil, List.append_assoc]

/-- **C70** (message), for the lines that fit.  If the row that shows the source line has at most 78
characters, the message is the expected one.  Missing: longer rows, see `C70_long_line`. -/
theorem C70_message_partial (src : List Byte) (pos err col : Nat) (e : String) (t : Text) (hp : pos ≤ src.length)
    (hs : src.length < 2 ^ 31) (he : errStrings[err]? = some e) (hl : LineAt src pos col t) (hz : 0#8 ∉ t)
    (hr : (row (lineNo src pos) t).length ≤ 78) :
    message src pos err = some (expected src pos err col e t) := by
  have a1 : ascii " " = [32#8] := by decide
  have a2 : ascii "\n" = [10#8] := by decide
  have a3 : ascii "     ^\n" = List.replicate 5 32#8 ++ ascii "^\n" := by decide
  rw [message_head src pos err col e t hp hs he hl,
    appendFormat_short (t := dec5 (lineNo src pos) ++ (ascii " " ++ (t ++ (ascii "\n" ++ [])))) (rest := [])
      (by simp only [render, Option.map_some, takeWhile_all hz])
      (by simp only [row, List.length_append, a1, a2, List.length_cons, List.length_nil] at hr ⊢; omega)]
  simp only [Option.bind_some, blanks_eq]
  rw [appendFormat_short (t := ascii "     ^\n" ++ []) (rest := []) rfl (by decide), a3, expected, row, a1,
    ← List.replicate_append_replicate]
  simp only [List.append_assoc, List.append_nil]

/-- **C70** fails for long lines: whenever the row has 79 characters or more, the second `vsnprintf`
takes arguments that do not exist. -/
theorem C70_long_line (src : List Byte) (pos err col : Nat) (e : String) (t : Text) (hp : pos ≤ src.length)
    (hs : src.length < 2 ^ 31) (he : errStrings[err]? = some e) (hl : LineAt src pos col t) (hz : 0#8 ∉ t)
    (hr : 79 ≤ (row (lineNo src pos) t).length) : message src pos err = none := by
  have a1 : ascii " " = [32#8] := by decide
  have a2 : ascii "\n" = [10#8] := by decide
  rw [message_head src pos err col e t hp hs he hl,
    appendFormat_long (t := dec5 (lineNo src pos) ++ (ascii " " ++ (t ++ (ascii "\n" ++ [])))) (rest := [])
      (by simp only [render, Option.map_some, takeWhile_all hz])
      (by simp only [row, List.length_append, a1, a2, List.length_cons, List.length_nil] at hr ⊢; omega)]
  rfl

/-- In the first 99999 lines the limit is 72 characters of source. -/
theorem C70_limit (n : Nat) (t : Text) (h : n < 100000) : (row n t).length = t.length + 6 := by
  simp [row, dec5_length n h]; omega

/-- **C70** (caret).  The caret stands `col + 5` columns into its row.  In the first 99999 lines that is
below the last character the compiler read, if it read any of this line. -/
theorem C70_caret (src : List Byte) (pos col : Nat) (t : Text) (hl : LineAt src pos col t) (hc : 0 < col)
    (h : lineNo src pos < 100000) :
    (List.replicate (col + 5) 32#8 ++ ascii "^\n")[col + 5]? = some 94#8 ∧
    (row (lineNo src pos) t)[col + 5]? = src[pos - 1]? := by
  constructor
  · rw [List.getElem?_append_right (by simp), List.length_replicate, Nat.sub_self]; decide
  · obtain ⟨a, b, e, hp, hle, ht, ha, hb⟩ := hl
    have h5 := dec5_length _ h
    rw [row, List.getElem?_append_right (by simp; omega), List.length_append, h5, e, List.append_assoc,
      List.getElem?_append_right (by omega), List.getElem?_append_left (by omega)]
    congr 1
    simp; omega

/-- **C70** (names).  A global written without `::` is stored under its name with `::` in front, if the
name has at most 77 characters. -/
theorem C70_global_name_partial (token : Text) (h : token.take 2 ≠ ascii "::") (hz : 0#8 ∉ token) (hl : token.length ≤ 77) :
    globalName token = some (ascii "::" ++ token) := by
  have a1 : (ascii "::").length = 2 := by decide
  rw [globalName, if_neg h, format, appendFormat_short (t := ascii "::" ++ (token ++ [])) (rest := [])
    (by simp only [render, Option.map_some, takeWhile_all hz])
    (by simp only [List.length_append, a1, List.length_nil]; omega)]
  simp

/-- A longer one is undefined behaviour. -/
theorem C70_long_name (token : Text) (h : token.take 2 ≠ ascii "::") (hz : 0#8 ∉ token) (hl : 78 ≤ token.length) :
    globalName token = none := by
  have a1 : (ascii "::").length = 2 := by decide
  rw [globalName, if_neg h, format, appendFormat_long (t := ascii "::" ++ (token ++ [])) (rest := [])
    (by simp only [render, Option.map_some, takeWhile_all hz])
    (by simp only [List.length_append, a1, List.length_nil]; omega)]
  rfl

/-- Formats without arguments survive any length. -/
theorem C70_literal (str t : Text) : appendFormat str [.lit t] [] = some (str ++ t) := by
  rcases Nat.lt_or_ge t.length 80 with h | h
  · rw [appendFormat_short (t := t ++ []) (rest := []) rfl (by simpa using h)]; simp
  · rw [appendFormat_long (t := t ++ []) (rest := []) rfl (by simpa using h)]
    simp [render, List.take_of_length_le]

theorem d2 : dec 2 = [50#8] := by rw [dec]; rfl

theorem d7 : dec 7 = [55#8] := by rw [dec]; rfl

/-- `var a;`, then `if (` and the end of the source at position 11: the second line, column 4. -/
theorem C70_example : message (ascii "var a;\nif (") 11 7 =
    some (ascii "line:2\nerr: WR_ERR_unexpected_EOF[7]\n2     if (\n         ^\n") := by
  rw [C70_message_partial (ascii "var a;\nif (") 11 7 4 "WR_ERR_unexpected_EOF" (ascii "if (") (by decide) (by decide)
    (by decide) ⟨ascii "var a;\n", [], by decide, by decide, by decide, by decide, by decide, by decide⟩ (by decide)]
  · rw [expected, row, show lineNo (ascii "var a;\nif (") 11 = 2 by decide, dec5, d2, d7]
    decide
  · rw [row, show lineNo (ascii "var a;\nif (") 11 = 2 by decide, dec5, d2]
    decide

/-- A line of 73 characters with a syntax error. -/
theorem C70_crash : message (List.replicate 73 120#8) 73 9 = none :=
  C70_long_line _ 73 9 73 "WR_ERR_bad_expression" (List.replicate 73 120#8) (by decide) (by decide) (by decide)
    ⟨[], [], by simp, by decide, by decide, by decide, by decide, by decide⟩ (by decide) (by
      rw [C70_limit _ _ (by decide)]; decide)

end Wrench.Diag
