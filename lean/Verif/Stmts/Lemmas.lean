import Verif.Stmts.Spec

/-
The parser on the text of a source.
-/
namespace Wrench.Stmts

open Wrench

mutual
def size : S → Nat
  | .block l => 4 + sizeL l
  | .ifThen _ s => 4 + size s
  | .ifElse _ s t => 4 + size s + size t
  | .loop _ s => 4 + size s
  | .doLoop s _ => 4 + size s
  | .forLoop _ _ _ s => 4 + size s
  | .each _ _ _ s => 4 + size s
  | .switch _ b => 4 + sizeB b
  | _ => 4
def sizeL : SL → Nat
  | .nil => 4
  | .cons s l => 4 + size s + sizeL l
def sizeB : SB → Nat
  | .nil => 4
  | .case _ b => 4 + sizeB b
  | .dflt b => 4 + sizeB b
  | .stmt s b => 4 + size s + sizeB b
end

/-- What is left after a statement. -/
def left (s : S) (rest : List Tok) : List Tok := if leaks s = true then .semi :: rest else rest

theorem left_head (s : S) (rest : List Tok) (h : rest.head? ≠ some .kElse) : (left s rest).head? ≠ some .kElse := by
  unfold left; split <;> simp [h]

/-! ### Expressions and headers -/

theorem pParen_text (c : E) (rest : List Tok) : pParen (.lp :: .e c :: .rp :: rest) = some (some c, rest) := by
  cases c <;> simp [pParen, pEx, Tok.ends]

theorem pPost_text : ∀ (p : List E) (rest : List Tok), pPost (commas p ++ .rp :: rest) = some (p.map some, rest)
  | [], rest => by simp [commas, pPost]
  | [x], rest => by simp [commas, pPost]
  | x :: y :: l, rest => by
    have := pPost_text (y :: l) rest
    simp [commas, pPost] at this ⊢
    simp [this]

theorem pInit_text : ∀ (p : List E) (rest : List Tok), pInit (commas p ++ .semi :: rest) = some (p.map some, none, rest)
  | [], rest => by simp [commas, pInit]
  | [x], rest => by simp [commas, pInit]
  | x :: y :: l, rest => by
    have := pInit_text (y :: l) rest
    simp only [commas, pInit, List.cons_append] at this ⊢
    rw [this]
    rfl

theorem pHead_plain (i : List E) (c : Option E) (p : List E) (rest : List Tok) :
    pHead (.lp :: (commas i ++ .semi :: (condText c ++ .semi ::
      (commas p ++ .rp :: rest)))) = some (.plain (i.map some) c (p.map some), rest) := by
  simp only [pHead]
  rw [pInit_text]
  cases c <;> simp [condText, pCond, pPost_text]

theorem pHead_each (k : Option Nat) (v a : Nat) (rest : List Tok) :
    pHead (.lp :: (keyText k ++
      .e (.nm v) :: .colon :: .e (.nm a) :: .rp :: rest)) = some (.each (vars k v) a, rest) := by
  cases k <;> simp [keyText, pHead, pInit, eachVars, vars]

/-- The first token of a statement. -/
theorem text_head (s : S) : ∃ t r, text s = t :: r ∧ t ≠ .kElse ∧ t ≠ .rb ∧ t ≠ .kCase ∧ t ≠ .kDefault ∧
    (isEmpty s = false → t ≠ .semi) ∧ (isBlock s = false → t ≠ .lb) := by
  cases s with
  | ret x => cases x <;> simp [text]
  | _ => simp [text, isEmpty, isBlock]

theorem textL_head (l : SL) (rest : List Tok) : (textL l ++ .rb :: rest).head? ≠ some .kElse := by
  cases l with
  | nil => simp [textL]
  | cons s l =>
    obtain ⟨t, r, h, hn, -⟩ := text_head s
    simp [textL, h, hn]

theorem textB_head (l : SB) (rest : List Tok) : (textB l ++ .rb :: rest).head? ≠ some .kElse := by
  cases l with
  | stmt s b =>
    obtain ⟨t, r, h, hn, -⟩ := text_head s
    simp [textB, h, hn]
  | _ => simp [textB]

/-- A statement that starts with none of `;`, `}`, `{`. -/
theorem pStmt_one {n : Nat} {b : Bool} {ts : List Tok} {t : Tok} {r : List Tok} (h : ts = t :: r)
    (h1 : t ≠ .semi) (h2 : t ≠ .rb) (h3 : t ≠ .lb) :
    pStmt (n + 1) b ts = (pOne n ts).bind fun (s, r) =>
        if b = true then (pStmt n b r).map fun (t, r) => (.seq s t, r) else some (s, r) := by
  subst h
  cases t <;> first | exact absurd rfl h1 | exact absurd rfl h2 | exact absurd rfl h3 | simp only [pStmt]

theorem pBody_stmt {n : Nat} {ts : List Tok} {t : Tok} {r : List Tok} (h : ts = t :: r)
    (h1 : t ≠ .rb) (h2 : t ≠ .kCase) (h3 : t ≠ .kDefault) :
    pBody (n + 1) ts = (pStmt n false ts).bind fun (s, r) => (pBody n r).map fun (b, r) => (.stmt s b, r) := by
  subst h
  cases t <;> first | exact absurd rfl h1 | exact absurd rfl h2 | exact absurd rfl h3 | simp only [pBody]

/-! ### Statements -/

mutual
/-- A statement that is not a block and not empty, read by the chain of keywords. -/
theorem pOne_text (s : S) (hR : Reads s) (he : isEmpty s = false) (hb : isBlock s = false) :
    ∀ (n : Nat) (rest : List Tok), size s ≤ n + 1 → (openIf s = true → rest.head? ≠ some .kElse) →
    pOne n (text s ++ rest) = some (tree s, left s rest) := by
  intro n rest hn ho
  obtain ⟨n, rfl⟩ : ∃ m, n = m + 1 := ⟨n - 1, by cases s <;> simp [size] at hn <;> omega⟩
  cases s with
  | empty => simp [isEmpty] at he
  | block l => simp [isBlock] at hb
  | ex x => cases x <;> simp [text, pOne, pEx, Tok.ends, tree, left, leaks]
  | brk => simp [text, pOne, tree, left, leaks]
  | cont => simp [text, pOne, tree, left, leaks]
  | ret x =>
    cases x with
    | none => simp [text, pOne, tree, left, leaks]
    | some x => cases x <;> simp [text, pOne, tree, left, leaks, pEx, Tok.ends]
  | ifThen c s =>
    have ih := pStmt_text s hR n rest (by simp [size] at hn; omega) (fun _ => ho rfl)
    simp only [text, List.cons_append, pOne, pParen_text, Option.bind_some, ih, tree]
    have hl := left_head s rest (ho rfl)
    have e : left (.ifThen c s) rest = left s rest := rfl
    rw [e]
    split
    · rename_i r' hr; rw [hr] at hl; simp at hl
    · rfl
  | ifElse c s t =>
    obtain ⟨hs, ht, hl, hi⟩ := hR
    have ih := pStmt_text s hs n (.kElse :: (text t ++ rest)) (by simp [size] at hn; omega) (by simp [hi])
    have ih2 := pStmt_text t ht n rest (by simp [size] at hn; omega) (fun h => ho (by simpa [openIf] using h))
    simp only [left, hl, Bool.false_eq_true, if_false] at ih
    simp only [text, List.cons_append, List.append_assoc, pOne, pParen_text, Option.bind_some, ih, ih2, tree]
    rfl
  | loop c s =>
    have ih := pStmt_text s hR n rest (by simp [size] at hn; omega) (fun h => ho (by simpa [openIf] using h))
    simp only [text, List.cons_append, pOne, pParen_text, Option.bind_some, ih, tree]
    rfl
  | doLoop s c =>
    obtain ⟨hs, hl⟩ := hR
    have ih := pStmt_text s hs n ([.kWhile, .lp, .e c, .rp, .semi] ++ rest) (by simp [size] at hn; omega) (by simp)
    simp only [left, hl, Bool.false_eq_true, if_false, List.cons_append, List.nil_append] at ih
    simp only [text, List.cons_append, List.append_assoc, List.nil_append, pOne, ih, tree, Option.bind_some, pParen_text]
    rfl
  | forLoop i c p s =>
    have ih := pStmt_text s hR n rest (by simp [size] at hn; omega) (fun h => ho (by simpa [openIf] using h))
    simp only [text, List.cons_append, List.append_assoc, pOne, pHead_plain, ih, tree, Option.bind_some]
    rfl
  | each k v a s =>
    have ih := pStmt_text s hR n rest (by simp [size] at hn; omega) (fun h => ho (by simpa [openIf] using h))
    simp only [text, List.cons_append, List.append_assoc, pOne, pHead_each, ih, tree, Option.bind_some]
    rfl
  | switch c b =>
    have ih := pBody_text b hR n rest (by simp [size] at hn; omega)
    simp only [text, List.cons_append, List.append_assoc, pOne, pParen_text, Option.bind_some, tree,
      List.nil_append, ih]
    rfl
/-- A statement where one statement is asked for. -/
theorem pStmt_text (s : S) (hR : Reads s) : ∀ (n : Nat) (rest : List Tok), size s ≤ n →
    (openIf s = true → rest.head? ≠ some .kElse) →
    pStmt n false (text s ++ rest) = some (tree s, left s rest) := by
  intro n rest hn ho
  obtain ⟨n, rfl⟩ : ∃ m, n = m + 1 := ⟨n - 1, by cases s <;> simp [size] at hn <;> omega⟩
  by_cases he : isEmpty s = true
  · cases s <;> simp [isEmpty] at he
    simp [text, pStmt, tree, left, leaks]
  by_cases hb : isBlock s = true
  · cases s with
    | block l =>
      have ih := pList_text l hR n rest (by simp [size] at hn; omega)
      simp only [text, List.cons_append, List.append_assoc, pStmt, List.nil_append, ih, tree]
      rfl
    | _ => simp [isBlock] at hb
  · obtain ⟨t, r, h, -, h2, -, -, h4, h5⟩ := text_head s
    rw [pStmt_one (t := t) (r := r ++ rest) (by simp [h]) (h4 (by simpa using he)) h2 (h5 (by simpa using hb))]
    rw [pOne_text s hR (by simpa using he) (by simpa using hb) n rest hn ho]
    rfl
/-- Statements up to a closing brace. -/
theorem pList_text (l : SL) (hR : ReadsL l) : ∀ (n : Nat) (rest : List Tok), sizeL l ≤ n →
    pStmt n true (textL l ++ .rb :: rest) = some (treeL l, rest) := by
  intro n rest hn
  obtain ⟨n, rfl⟩ : ∃ m, n = m + 1 := ⟨n - 1, by cases l <;> simp [sizeL] at hn <;> omega⟩
  cases l with
  | nil => simp [textL, pStmt, treeL]
  | cons s l =>
    obtain ⟨hb, hs, hl⟩ := hR
    have hsz : size s + sizeL l + 4 ≤ n + 1 := by simp [sizeL] at hn; omega
    by_cases he : isEmpty s = true
    · cases s <;> simp [isEmpty] at he
      have ih := pList_text l hl n rest (by omega)
      simp [textL, text, pStmt, treeL, ih]
    · have he : isEmpty s = false := by simpa using he
      obtain ⟨t, r, h, -, h2, -, -, h4, h5⟩ := text_head s
      have h1 := pOne_text s hs he hb n (textL l ++ .rb :: rest) (by omega) (fun _ => textL_head l rest)
      simp only [textL, List.append_assoc]
      rw [pStmt_one (t := t) (r := r ++ (textL l ++ .rb :: rest)) (by simp [h]) (h4 he) h2 (h5 hb), h1]
      have ht : treeL (.cons s l) = .seq (tree s) (if leaks s = true then .seq .pop (treeL l) else treeL l) := by
        cases s <;> first | rfl | simp [isEmpty] at he
      rw [ht]
      by_cases hk : leaks s = true
      · obtain ⟨n, rfl⟩ : ∃ m, n = m + 1 := ⟨n - 1, by omega⟩
        have ih := pList_text l hl n rest (by omega)
        simp [left, hk, pStmt, ih]
      · have ih := pList_text l hl n rest (by omega)
        simp [left, hk, ih]
/-- The body of a switch. -/
theorem pBody_text (b : SB) (hR : ReadsB b) : ∀ (n : Nat) (rest : List Tok), sizeB b ≤ n →
    pBody n (textB b ++ .rb :: rest) = some (treeB b, rest) := by
  intro n rest hn
  obtain ⟨n, rfl⟩ : ∃ m, n = m + 1 := ⟨n - 1, by cases b <;> simp [sizeB] at hn <;> omega⟩
  cases b with
  | nil => simp [textB, pBody, treeB]
  | case h b =>
    have ih := pBody_text b hR n rest (by simp [sizeB] at hn; omega)
    simp [textB, pBody, pVal, treeB, ih]
  | dflt b =>
    have ih := pBody_text b hR n rest (by simp [sizeB] at hn; omega)
    simp [textB, pBody, treeB, ih]
  | stmt s b =>
    obtain ⟨hs, hb⟩ := hR
    have hsz : size s + sizeB b + 4 ≤ n + 1 := by simp [sizeB] at hn; omega
    obtain ⟨t, r, h, -, h2, h3, h4, -⟩ := text_head s
    have h1 := pStmt_text s hs n (textB b ++ .rb :: rest) (by omega) (fun _ => textB_head b rest)
    simp only [textB, List.append_assoc]
    rw [pBody_stmt (t := t) (r := r ++ (textB b ++ .rb :: rest)) (by simp [h]) h2 h3 h4, h1]
    by_cases hk : leaks s = true
    · obtain ⟨n, rfl⟩ : ∃ m, n = m + 2 := ⟨n - 2, by omega⟩
      have ih := pBody_text b hb (n + 1) rest (by omega)
      have e : pBody (n + 2) (.semi :: (textB b ++ .rb :: rest)) = some (.stmt .skip (treeB b), rest) := by
        rw [pBody_stmt (t := .semi) rfl (by simp) (by simp) (by simp)]
        simp [pStmt, ih]
      simp [left, hk, treeB, e]
    · have ih := pBody_text b hb n rest (by omega)
      simp [left, hk, ih, treeB]
end

mutual
theorem size_text (s : S) : size s ≤ 8 * (text s).length := by
  cases s with
  | ret x => cases x <;> simp [size, text]
  | block l => have := sizeL_text l; simp [size, text]; omega
  | ifThen c s => have := size_text s; simp [size, text]; omega
  | ifElse c s t => have := size_text s; have := size_text t; simp [size, text]; omega
  | loop c s => have := size_text s; simp [size, text]; omega
  | doLoop s c => have := size_text s; simp [size, text]; omega
  | forLoop i c p s => have := size_text s; simp [size, text]; omega
  | each k v a s => have := size_text s; simp [size, text]; omega
  | switch c b => have := sizeB_text b; simp [size, text]; omega
  | _ => simp [size, text]
theorem sizeL_text (l : SL) : sizeL l ≤ 8 * (textL l).length + 4 := by
  cases l with
  | nil => simp [sizeL, textL]
  | cons s l =>
    have h1 := size_text' s
    have h2 := sizeL_text l
    simp [sizeL, textL]; omega
theorem sizeB_text (b : SB) : sizeB b ≤ 8 * (textB b).length + 4 := by
  cases b with
  | nil => simp [sizeB, textB]
  | case h b => have := sizeB_text b; simp [sizeB, textB]; omega
  | dflt b => have := sizeB_text b; simp [sizeB, textB]; omega
  | stmt s b =>
    have h1 := size_text' s
    have h2 := sizeB_text b
    simp [sizeB, textB]; omega
theorem size_text' (s : S) : size s + 4 ≤ 8 * (text s).length := by
  cases s with
  | ret x => cases x <;> simp [size, text]
  | block l => have := sizeL_text l; simp [size, text]; omega
  | ifThen c s => have := size_text s; simp [size, text]; omega
  | ifElse c s t => have := size_text s; have := size_text t; simp [size, text]; omega
  | loop c s => have := size_text s; simp [size, text]; omega
  | doLoop s c => have := size_text s; simp [size, text]; omega
  | forLoop i c p s => have := size_text s; simp [size, text]; omega
  | each k v a s => have := size_text s; simp [size, text]; omega
  | switch c b => have := sizeB_text b; simp [size, text]; omega
  | _ => simp [size, text]
end

end Wrench.Stmts
