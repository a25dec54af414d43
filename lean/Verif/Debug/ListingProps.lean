import Verif.Debug.Listing
import Verif.Diag.Props

namespace Wrench.Listing

open Wrench.Diag (getSourcePosition lineNo C70_position)

/-- A line with its end: line feed, or carriage return and line feed. -/
def ended (l : List Byte × Bool) : List Byte := l.1 ++ (if l.2 then [13#8, 10#8] else [10#8])

/-- A text: lines with their ends, and what is behind the last end. -/
def text (lines : List (List Byte × Bool)) (last : List Byte) : List Byte :=
  lines.flatMap ended ++ last

/-- No character that ends a line. -/
def Plain (l : List Byte) : Prop := ∀ c ∈ l, c ≠ 10#8 ∧ c ≠ 13#8

theorem splitGo_char (cur : Option (List Byte)) (c : Byte) (r : List Byte) (h : c ≠ 10#8 ∧ c ≠ 13#8) :
    splitGo cur (c :: r) = splitGo (some (cur.getD [] ++ [c])) r := by
  cases cur <;> cases r <;> rw [splitGo.eq_def] <;> simp [h.1, h.2]

theorem splitGo_lf (cur : Option (List Byte)) (r : List Byte) :
    splitGo cur (10#8 :: r) = cur.getD [] :: splitGo none r := by
  cases cur <;> cases r <;> rw [splitGo.eq_def] <;> simp

theorem splitGo_crlf (cur : Option (List Byte)) (r : List Byte) :
    splitGo cur (13#8 :: 10#8 :: r) = cur.getD [] :: splitGo none r := by
  cases cur <;> simp [splitGo]

theorem splitGo_plain : ∀ (l : List Byte) (cur : Option (List Byte)) (rest : List Byte), Plain l →
    l ≠ [] → splitGo cur (l ++ rest) = splitGo (some (cur.getD [] ++ l)) rest := by
  intro l
  induction l with
  | nil => intro _ _ _ h; exact absurd rfl h
  | cons x xs ih =>
    intro cur rest hp _
    have hx := hp x (by simp)
    rw [List.cons_append, splitGo_char cur x _ hx]
    by_cases e : xs = []
    · subst e; simp
    · rw [ih _ rest (fun c hc => hp c (by simp [hc])) e]
      simp

theorem splitGo_end (cur : Option (List Byte)) (b : Bool) (rest : List Byte) :
    splitGo cur ((if b then [13#8, 10#8] else [10#8]) ++ rest) = cur.getD [] :: splitGo none rest := by
  cases b
  · rw [if_neg (by simp), List.singleton_append, splitGo_lf]
  · rw [if_pos rfl, List.cons_append, List.singleton_append, splitGo_crlf]

theorem splitGo_ended (l : List Byte × Bool) (hp : Plain l.1) (rest : List Byte) :
    splitGo none (ended l ++ rest) = l.1 :: splitGo none rest := by
  unfold ended
  rw [List.append_assoc]
  by_cases e : l.1 = []
  · rw [e, List.nil_append, splitGo_end]; rfl
  · rw [splitGo_plain l.1 none _ hp e, splitGo_end]; rfl

/-- C93: the listing has exactly the lines of the source, in order, without their ends; nothing is
listed behind the last end if nothing is there. -/
theorem C93_listing_partial (lines : List (List Byte × Bool)) (last : List Byte)
    (hl : ∀ l ∈ lines, Plain l.1) (hp : Plain last) :
    splitNL (text lines last) = lines.map (·.1) ++ (if last = [] then [] else [last]) := by
  unfold splitNL text
  induction lines with
  | nil =>
    rw [List.flatMap_nil, List.nil_append]
    by_cases e : last = []
    · subst e; simp [splitGo]
    · have := splitGo_plain last none [] hp e
      rw [List.append_nil] at this
      rw [this, splitGo, if_neg e]; simp
  | cons l ls ih =>
    rw [List.flatMap_cons, List.append_assoc, splitGo_ended l (hl l (by simp)),
      ih (fun l h => hl l (by simp [h]))]
    simp

theorem count_plain {l : List Byte} (h : Plain l) : l.count 10#8 = 0 :=
  List.count_eq_zero.2 (fun hm => (h _ hm).1 rfl)

theorem count_lines (lines : List (List Byte × Bool)) (hl : ∀ l ∈ lines, Plain l.1) :
    (lines.flatMap ended).count 10#8 = lines.length := by
  induction lines with
  | nil => rfl
  | cons l ls ih =>
    have e : (ended l).count 10#8 = 1 := by
      unfold ended
      rw [List.count_append, count_plain (hl l (by simp))]
      cases l.2 <;> rfl
    rw [List.flatMap_cons, List.count_append, e, ih (fun l h => hl l (by simp [h])), List.length_cons]
    omega

/-- C93: wherever the compiler is inside a line, the number it gives that place is the number under
which the debugger lists the line.  (Partial: sources with a carriage return alone, see
`C93_carriage_return`.) -/
theorem C93_same_number_partial (before after : List (List Byte × Bool)) (line : List Byte × Bool)
    (last : List Byte) (hl : ∀ l ∈ before ++ line :: after, Plain l.1) (hp : Plain last) (pos : Nat)
    (h1 : (before.flatMap ended).length ≤ pos)
    (h2 : pos < (before.flatMap ended).length + (ended line).length) :
    ∃ n col t, getSourcePosition (text (before ++ line :: after) last) pos = some (n, col, t) ∧
      0 < n ∧ (splitNL (text (before ++ line :: after) last))[n - 1]? = some line.1 := by
  have et : text (before ++ line :: after) last =
      before.flatMap ended ++ (ended line ++ (after.flatMap ended ++ last)) := by
    simp [text, List.flatMap_append, List.flatMap_cons]
  have hpl : Plain line.1 := hl line (by simp)
  have hlen : pos ≤ (text (before ++ line :: after) last).length := by
    rw [et, List.length_append, List.length_append]; omega
  obtain ⟨col, t, h, _⟩ := C70_position (text (before ++ line :: after) last) pos hlen
  have hn : lineNo (text (before ++ line :: after) last) pos = before.length + 1 := by
    have e0 : ((ended line).take (pos - (before.flatMap ended).length)).count 10#8 = 0 := by
      have hsub : (ended line).take (pos - (before.flatMap ended).length) =
          (ended line).dropLast.take (pos - (before.flatMap ended).length) := by
        rw [List.dropLast_eq_take, List.take_take, Nat.min_eq_left (by omega)]
      have hd : (ended line).dropLast.count 10#8 = 0 := by
        unfold ended
        cases line.2
        · rw [if_neg (by simp), List.dropLast_concat, count_plain hpl]
        · have : line.1 ++ [13#8, 10#8] = (line.1 ++ [13#8]) ++ [10#8] := by simp
          rw [if_pos rfl, this, List.dropLast_concat, List.count_append, count_plain hpl]
          rfl
      rw [hsub]
      exact Nat.le_zero.1 (hd ▸ (List.take_sublist _ _).count_le _)
    have e1 : (text (before ++ line :: after) last).take pos =
        before.flatMap ended ++ (ended line).take (pos - (before.flatMap ended).length) := by
      rw [et, List.take_append, List.take_of_length_le h1, List.take_append,
        Nat.sub_eq_zero_of_le (show pos - (before.flatMap ended).length ≤ (ended line).length by omega)]
      simp
    unfold lineNo
    rw [e1, List.count_append, e0, count_lines before (fun l h => hl l (by simp [h]))]
  refine ⟨before.length + 1, col, t, by rw [← hn]; exact h, by omega, ?_⟩
  rw [C93_listing_partial _ _ hl hp]
  simp

/-- C93: the same behind the last line end: in a last line that is not ended, the compiler's number
(also at the end of the source) is the number under which the debugger lists that line; if nothing
is there, the number is one behind the listing.  (Partial: as above.) -/
theorem C93_same_number_last_partial (lines : List (List Byte × Bool)) (last : List Byte)
    (hl : ∀ l ∈ lines, Plain l.1) (hp : Plain last) (pos : Nat) (h1 : (lines.flatMap ended).length ≤ pos)
    (h2 : pos ≤ (text lines last).length) :
    ∃ n col t, getSourcePosition (text lines last) pos = some (n, col, t) ∧ 0 < n ∧
      (splitNL (text lines last))[n - 1]? = (if last = [] then none else some last) ∧
      (last = [] → n = (splitNL (text lines last)).length + 1) := by
  obtain ⟨col, t, h, _⟩ := C70_position (text lines last) pos h2
  have hn : lineNo (text lines last) pos = lines.length + 1 := by
    have e1 : (text lines last).take pos = lines.flatMap ended ++ last.take (pos - (lines.flatMap ended).length) := by
      unfold text
      rw [List.take_append, List.take_of_length_le h1]
    have e0 : (last.take (pos - (lines.flatMap ended).length)).count 10#8 = 0 :=
      count_plain (fun c hc => hp c (List.mem_of_mem_take hc))
    unfold lineNo
    rw [e1, List.count_append, e0, count_lines lines hl]
  refine ⟨lines.length + 1, col, t, by rw [← hn]; exact h, by omega, ?_, ?_⟩
  · rw [C93_listing_partial _ _ hl hp]
    by_cases e : last = []
    · simp [e]
    · simp [e]
  · intro e
    rw [C93_listing_partial _ _ hl hp, if_pos e]
    simp

/-- A case: in `a`, line end, `b` the place of `b` has number 2, and line 2 of the listing is `b`. -/
example : (getSourcePosition (text [([97#8], true)] [98#8]) 3).map (·.1) = some 2 ∧
    (splitNL (text [([97#8], true)] [98#8]))[1]? = some [98#8] := by
  refine ⟨by decide, ?_⟩
  simp [text, ended, splitNL, splitGo]

/-- C93: a carriage return alone ends a line in the listing but not for the compiler: in `a\rb` the
compiler finds `b` in line 1, the listing has it in line 2. -/
theorem C93_carriage_return :
    (getSourcePosition [97#8, 13#8, 98#8] 2).map (·.1) = some 1 ∧
      splitNL [97#8, 13#8, 98#8] = [[97#8], [98#8]] := by
  refine ⟨by decide, ?_⟩
  simp [splitNL, splitGo]

/-! ### Commands -/

/-- The characters that separate words: space, tab, line feed, vertical tab, form feed and carriage
return. -/
def Space (c : Byte) : Prop := c ∈ [32#8, 9#8, 10#8, 11#8, 12#8, 13#8]

/-- A word: characters that separate nothing. -/
def Word (w : List Byte) : Prop := ∀ c ∈ w, ¬ Space c

theorem isSpace_iff (c : Byte) : isSpace c = true ↔ Space c := by
  revert c
  unfold Space
  decide +kernel

/-- The words, and the spaces behind each. -/
def typed (ws : List (List Byte × List Byte)) : List Byte := ws.flatMap (fun w => w.1 ++ w.2)

theorem args_word : ∀ (w : List Byte) (acc rest : List Byte), Word w →
    argsGo (some acc) (w ++ rest) = argsGo (some (acc ++ w)) rest := by
  intro w
  induction w with
  | nil => intro acc rest _; simp
  | cons c w ih =>
    intro acc rest h
    have hc : ¬ isSpace c = true := fun e => h c (by simp) ((isSpace_iff c).1 e)
    rw [List.cons_append, argsGo, if_neg hc, ih _ _ (fun d hd => h d (by simp [hd]))]
    simp

theorem args_first (a : Byte) (w rest : List Byte) (h : Word (a :: w)) :
    argsGo none (a :: w ++ rest) = argsGo (some (a :: w)) rest := by
  have ha : ¬ isSpace a = true := fun e => h a (by simp) ((isSpace_iff a).1 e)
  rw [List.cons_append, argsGo, if_neg ha, args_word w [a] rest (fun c hc => h c (by simp [hc]))]
  rfl

theorem args_space (acc : List Byte) (c : Byte) (rest : List Byte) (h : Space c) :
    argsGo (some acc) (c :: rest) = acc :: argsGo none rest := by
  rw [argsGo.eq_def]
  exact if_pos ((isSpace_iff c).2 h)

theorem args_spaces : ∀ (s rest : List Byte), (∀ c ∈ s, Space c) →
    argsGo none (s ++ rest) = argsGo none rest := by
  intro s
  induction s with
  | nil => intro rest _; rfl
  | cons c s ih =>
    intro rest h
    rw [List.cons_append, argsGo, if_pos ((isSpace_iff c).2 (h c (by simp))),
      ih _ (fun d hd => h d (by simp [hd]))]

theorem args_typed (last : List Byte) (hl : Word last) : ∀ (ws : List (List Byte × List Byte)),
    (∀ w ∈ ws, w.1 ≠ [] ∧ Word w.1 ∧ w.2 ≠ [] ∧ ∀ c ∈ w.2, Space c) →
    argsGo none (typed ws ++ last) = ws.map (·.1) ++ (if last = [] then [] else [last]) := by
  intro ws
  induction ws with
  | nil =>
    intro _
    match last, hl with
    | [], _ => rfl
    | a :: l, hl =>
      have := args_first a l [] hl
      rw [List.append_nil] at this
      rw [typed, List.flatMap_nil, List.nil_append, this, if_neg (by simp), argsGo]
      rfl
  | cons w ws ih =>
    intro h
    obtain ⟨h1, h2, h3, h4⟩ := h w (by simp)
    have ih' := ih (fun v hv => h v (by simp [hv]))
    obtain ⟨w1, w2⟩ := w
    match w1, w2, h1, h3 with
    | a :: w1, s :: w2, _, _ =>
      have e : typed ((a :: w1, s :: w2) :: ws) ++ last =
          a :: w1 ++ (s :: (w2 ++ (typed ws ++ last))) := by simp [typed]
      rw [e, args_first a w1 _ h2, args_space _ s _ (h4 s (by simp)),
        args_spaces w2 _ (fun c hc => h4 c (by simp [hc])), ih']
      simp

/-- C93: a command is taken apart into its words, wherever in it there are how many spaces, and
whether or not some follow the last word.  (Partial: not if it begins with a space, see
`C93_leading_space`.) -/
theorem C93_words_partial (ws : List (List Byte × List Byte)) (last : List Byte) (hl : Word last)
    (h : ∀ w ∈ ws, w.1 ≠ [] ∧ Word w.1 ∧ w.2 ≠ [] ∧ ∀ c ∈ w.2, Space c) :
    splitArgs (typed ws ++ last) = ws.map (·.1) ++ (if last = [] then [] else [last]) := by
  rw [← args_typed last hl ws h]
  have key : ∀ (a : Byte) (r : List Byte), ¬ Space a → splitArgs (a :: r) = argsGo none (a :: r) := by
    intro a r ha
    have ha' : ¬ isSpace a = true := fun e => ha ((isSpace_iff a).1 e)
    rw [splitArgs, if_neg (by simp), argsGo, argsGo, if_neg ha', if_neg ha', List.nil_append]
  match ws, h with
  | [], _ =>
    match last, hl with
    | [], _ => rfl
    | a :: l, hl => exact key a l (hl a (by simp))
  | (w1, w2) :: ws, h =>
    have h0 := h (w1, w2) (by simp)
    match w1, h0 with
    | a :: w1, h0 =>
      have e : typed ((a :: w1, w2) :: ws) ++ last = a :: (w1 ++ (w2 ++ (typed ws ++ last))) := by
        simp [typed]
      rw [e]
      exact key a _ (h0.2.1 a (by simp))

/-- C93: a command typed behind a space is not understood: its first word is empty. -/
theorem C93_leading_space (c : Byte) (rest : List Byte) (h : Space c) :
    ∃ ws, splitArgs (c :: rest) = [] :: ws := by
  refine ⟨argsGo none rest, ?_⟩
  rw [splitArgs, if_neg (by simp), args_space _ _ _ h]

/-- `a`, an empty line, `b` with carriage return, `c`; and the command `b 12` with its line feed. -/
example : text [([97], false), ([], false), ([98], true)] [99] = [97, 10, 10, 98, 13, 10, 99] := rfl

example : splitArgs (typed [([98], [32, 32]), ([49, 50], [10])]) = [[98], [49, 50]] := by decide

end Wrench.Listing
