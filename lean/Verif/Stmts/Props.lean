import Verif.Stmts.Sem

/-
C68: the compiler reads statements the way they are written.
C69: a statement leaves the stack at the level at which it found it.
-/
namespace Wrench.Stmts

open Wrench Flow

variable {σ ρ : Type}

theorem parse_text (l : SL) (h : ReadsL l) (rest : List Tok) :
    parse (textL l ++ .rb :: rest) = some (treeL l, rest) := by
  have := sizeL_text l
  exact pList_text l h _ rest (by simp; omega)

theorem textL_head' (l : SL) : (textL l).head? ≠ some .kElse := by
  cases l with
  | nil => simp [textL]
  | cons s l =>
    obtain ⟨t, r, h, hn, -⟩ := text_head s
    simp [textL, h, hn]

theorem pTop_cons (n : Nat) (t : Tok) (r : List Tok) : pTop (n + 1) (t :: r) =
    (pStmt n false (t :: r)).bind fun (s, r) => (pTop n r).map fun t => .seq s t := rfl

theorem pTop_text : ∀ (l : SL) (_ : ReadsT l) (n : Nat), sizeL l ≤ n → pTop n (textL l) = some (treeT l)
  | .nil, _, n, hn => by
    obtain ⟨n, rfl⟩ : ∃ m, n = m + 1 := ⟨n - 1, by simp [sizeL] at hn; omega⟩
    rfl
  | .cons s l, ⟨hs, hl⟩, n, hn => by
    have hsz : 4 + size s + sizeL l ≤ n := hn
    obtain ⟨n, rfl⟩ : ∃ m, n = m + 2 := ⟨n - 2, by omega⟩
    obtain ⟨t, r, h, -⟩ := text_head s
    have h1 := pStmt_text s hs (n + 1) (textL l) (by omega) (fun _ => textL_head' l)
    have e : pTop (n + 2) (textL (.cons s l)) =
        (pStmt (n + 1) false (text s ++ textL l)).bind fun (s, r) => (pTop (n + 1) r).map fun t => .seq s t := by
      simp only [textL, h, List.cons_append, pTop]
    rw [e, h1]
    by_cases hk : leaks s = true
    · have ih := pTop_text l hl n (by omega)
      have e : pTop (n + 1) (.semi :: textL l) = some (.seq .skip (treeT l)) := by
        obtain ⟨n, rfl⟩ : ∃ m, n = m + 1 := ⟨n - 1, by omega⟩
        rw [pTop_cons, show pStmt (n + 1) false (.semi :: textL l) = some (.skip, textL l) by simp [pStmt]]
        simp [ih]
      simp [left, hk, e, treeT]
    · have ih := pTop_text l hl (n + 1) (by omega)
      simp [left, hk, ih, treeT]

theorem program_text (l : SL) (h : ReadsT l) : program (textL l) = some (treeT l) := by
  have := sizeL_text l
  exact pTop_text l h _ (by omega)

/-- A block that is not closed before the end of the source is refused. -/
theorem unclosed_list : ∀ (l : SL) (_ : ReadsL l) (n : Nat), sizeL l ≤ n → pStmt n true (textL l) = none
  | .nil, _, n, hn => by
    obtain ⟨n, rfl⟩ : ∃ m, n = m + 1 := ⟨n - 1, by simp [sizeL] at hn; omega⟩
    simp [textL, pStmt]
  | .cons s l, ⟨hb, hs, hl⟩, n, hn => by
    obtain ⟨n, rfl⟩ : ∃ m, n = m + 1 := ⟨n - 1, by simp [sizeL] at hn; omega⟩
    have hsz : size s + sizeL l + 4 ≤ n + 1 := by simp [sizeL] at hn; omega
    by_cases he : isEmpty s = true
    · cases s <;> simp [isEmpty] at he
      have ih := unclosed_list l hl n (by omega)
      simp [textL, text, pStmt, ih]
    · have he : isEmpty s = false := by simpa using he
      obtain ⟨t, r, h, -, h2, -, -, h4, h5⟩ := text_head s
      have h1 := pOne_text s hs he hb n (textL l) (by omega) (fun _ => textL_head' l)
      simp only [textL]
      rw [pStmt_one (t := t) (r := r ++ textL l) (by simp [h]) (h4 he) h2 (h5 hb), h1]
      by_cases hk : leaks s = true
      · obtain ⟨n, rfl⟩ : ∃ m, n = m + 1 := ⟨n - 1, by omega⟩
        have ih := unclosed_list l hl n (by omega)
        simp [left, hk, pStmt, ih]
      · have ih := unclosed_list l hl n (by omega)
        simp [left, hk, ih]

/-- A function body that is not closed before the end of the source is refused. -/
theorem C68_unclosed (l : SL) (h : ReadsL l) : parse (textL l) = none := by
  have := sizeL_text l
  exact unclosed_list l h _ (by omega)

/-- A condition without a statement at the end of the source is accepted: nothing is done. -/
theorem C68_missing_statement (c : E) : ∃ p, program [.kIf, .lp, .e c, .rp] = some p ∧
    ∀ {σ ρ : Type} (v : Env σ ρ) (n : Nat) (z : Lv σ), drop (exec n (p.flow v) z) = exec n (meanL v (.cons (.ifThen c .empty) .nil)) z.2 := by
  refine ⟨treeT (.cons (.ifThen c .empty) .nil), ?_, fun v n z => top_drop v n _ z⟩
  simp [program, pTop, pStmt, pOne, pParen, pEx, Tok.ends, treeT, tree, leaks]

/-- The body of a function is read to its closing brace and no further, and what is read does to the
program what the source says: same outcome, same state, for all statements, expressions and states. -/
theorem C68_body_partial (l : SL) (h : ReadsL l) (rest : List Tok) :
    ∃ p, parse (textL l ++ .rb :: rest) = some (p, rest) ∧
      ∀ {σ ρ : Type} (v : Env σ ρ) (n : Nat) (z : Lv σ), drop (exec n (p.flow v) z) = exec n (meanL v l) z.2 :=
  ⟨treeL l, parse_text l h rest, fun v n z => list_drop v n l z⟩

/-- The same for the top level of a program. -/
theorem C68_top_partial (l : SL) (h : ReadsT l) :
    ∃ p, program (textL l) = some p ∧
      ∀ {σ ρ : Type} (v : Env σ ρ) (n : Nat) (z : Lv σ), drop (exec n (p.flow v) z) = exec n (meanL v l) z.2 :=
  ⟨treeT l, program_text l h, fun v n z => top_drop v n l z⟩

theorem drop_normal {r : Option (Out ρ × Lv σ)} {o : Out ρ} {y : σ} :
    drop r = some (o, y) ↔ ∃ d, r = some (o, (d, y)) := by
  cases r with
  | none => simp [drop]
  | some p => obtain ⟨o', d, y'⟩ := p; simp [drop]

/-- From text to code: if the code emitted for a function body completes, it has done what the text
says, and if the text says that it completes, it does. -/
theorem C68_code_partial (l : SL) (h : ReadsL l) (rest : List Tok) (v : Env σ ρ) :
    ∃ p, parse (textL l ++ .rb :: rest) = some (p, rest) ∧
      ∀ k, compileUnit (p.flow v) = some k → Ok (p.flow v) → ∀ (d : Int) (x y : σ),
        (∃ n, exec n (meanL v l) x = some (.nrm, y)) ↔
          ∃ n d', run k.code k.tg n ⟨0, (d, x), []⟩ = some (.fin (d', y) []) := by
  refine ⟨treeL l, parse_text l h rest, ?_⟩
  intro k hk ok d x y
  constructor
  · rintro ⟨n, he⟩
    have hd := list_drop v n l (d, x)
    rw [he] at hd
    obtain ⟨d', hd⟩ := drop_normal.1 hd
    obtain ⟨m, hm⟩ := (C40_normal_partial hk ok (d, x) (d', y)).1 ⟨n, hd⟩
    exact ⟨m, d', hm⟩
  · rintro ⟨m, d', hm⟩
    obtain ⟨n, hn⟩ := (C40_normal_partial hk ok (d, x) (d', y)).2 ⟨m, hm⟩
    have hd := list_drop v n l (d, x)
    rw [hn] at hd
    exact ⟨n, hd.symm⟩

/-- `if (a) { if (b) x; } else { while (c) { y; break; } }  for (i; c; j) if (b) x; else { z; }
switch (s) { case 7: { x; } break; default: y; }  return r;` -/
def sample : SL :=
  .cons (.ifElse (.ex 0) (.block (.cons (.ifThen (.ex 1) (.ex (.ex 2))) .nil))
    (.block (.cons (.loop (.ex 3) (.block (.cons (.ex (.ex 4)) (.cons .brk .nil)))) .nil)))
  (.cons (.forLoop [.ex 5, .nm 6] (some (.ex 3)) [.ex 7] (.ifElse (.ex 1) (.ex (.ex 2)) (.block (.cons (.ex (.ex 8)) .nil))))
  (.cons (.switch (.nm 9) (.case 7 (.stmt (.block (.cons (.ex (.ex 2)) .nil)) (.stmt .brk (.dflt (.stmt (.ex (.ex 4)) .nil))))))
  (.cons (.each (some 1) 2 3 (.ex (.ex 1)))
  (.cons (.ret (some (.ex 9))) .nil))))

theorem C68_example : ReadsL sample ∧ (∃ p, parse (textL sample ++ [.rb]) = some (p, [])) ∧
    ReadsT sample ∧ (∃ p, program (textL sample) = some p) := by
  have h1 : ReadsL sample := by simp [sample, ReadsL, ReadsB, Reads, isBlock, leaks, openIf]
  have h2 : ReadsT sample := by simp [sample, ReadsT, ReadsL, ReadsB, Reads, isBlock, leaks, openIf]
  exact ⟨h1, ⟨_, parse_text sample h1 []⟩, h2, ⟨_, program_text sample h2⟩⟩

/-- Its code is covered by C40. -/
example (v : Env σ ρ) : Ok ((treeL sample).flow v) ∧ Placed false false ((treeL sample).flow v) := by
  constructor <;> simp [sample, treeL, tree, treeB, P.flow, PB.flow, Ok, OkBody, freeCont, tailBody, tail,
    Placed, PlacedBody, leaks, Body.labelled]

/-! ### What the parser gets wrong -/

/-- A block as the first statement of a function body, whatever follows: the function ends with that
block, the statements after it and the closing brace are read as part of what surrounds the function. -/
theorem C68_nested_block (l k : SL) (h : ReadsL l) (rest : List Tok) :
    parse (textL (.cons (.block l) k) ++ .rb :: rest) = some (treeL l, textL k ++ .rb :: rest) := by
  have hs := sizeL_text l
  have e := pList_text l h (8 * (textL (.cons (.block l) k) ++ .rb :: rest).length + 7) (textL k ++ .rb :: rest)
    (by simp [textL, text]; omega)
  simpa [parse, textL, text, pStmt] using e

/-- `if (c) break; else …` is refused, whatever the other branch is. -/
theorem C68_break_else (c : E) (t : S) (rest : List Tok) : program (text (.ifElse c .brk t) ++ rest) = none := by
  have hl : 8 * (text (.ifElse c .brk t) ++ rest).length + 8 = (8 * (text t ++ rest).length + 48) + 16 := by
    simp [text]; omega
  rw [program, hl]
  generalize 8 * (text t ++ rest).length + 48 = N
  simp only [text, List.cons_append, List.nil_append]
  rw [pTop_cons, pStmt_one (t := .kIf) rfl (by simp) (by simp) (by simp)]
  have e : pStmt (N + 13) false (.kBreak :: .semi :: .kElse :: (text t ++ rest)) =
      some (.brk, .semi :: .kElse :: (text t ++ rest)) := by simp [pStmt, pOne]
  have e2 : pTop (N + 15) (.semi :: .kElse :: (text t ++ rest)) = none := by
    rw [pTop_cons, show pStmt (N + 14) false (.semi :: .kElse :: (text t ++ rest)) = some (.skip, .kElse :: (text t ++ rest)) by
      simp [pStmt]]
    simp only [Option.bind_some]
    rw [pTop_cons]
    simp [pStmt, pOne, pEx, Tok.ends]
  simp only [pOne, pParen_text, Option.bind_some, e, e2, Bool.false_eq_true, if_false, Option.map_none]

/-- So is `do break; while (c);`. -/
theorem C68_do_break (c : E) (rest : List Tok) : program (text (.doLoop .brk c) ++ rest) = none := by
  simp [program, pTop, text, pStmt, pOne]

/-- A case with parentheses around its constant, `switch (s) { case (7): …`, is refused. -/
theorem C68_case_parens (s : E) (h : Word32) (rest : List Tok) :
    program ([.kSwitch, .lp, .e s, .rp, .lb, .kCase, .lp, .lit h, .rp, .colon] ++ rest) = none := by
  have hl : 8 * (List.length ([.kSwitch, .lp, .e s, .rp, .lb, .kCase, .lp, .lit h, .rp, .colon] ++ rest)) + 8 =
      (8 * rest.length + 80) + 8 := by simp; omega
  rw [program, hl]
  generalize 8 * rest.length + 80 = N
  have e : pBody (N + 5) ([.kCase, .lp, .lit h, .rp, .colon] ++ rest) = none := by
    simp [pBody, pVal, pStmt, pOne, pEx, Tok.ends]
  simp only [List.cons_append, List.nil_append] at e ⊢
  rw [pTop_cons, pStmt_one (t := .kSwitch) rfl (by simp) (by simp) (by simp)]
  simp only [pOne, pParen_text, Option.bind_some, e, Option.map_none, Option.bind_none]

/-- `if () x;` is accepted: the branch takes whatever is on the stack. -/
theorem C68_no_condition (x : E) (rest : List Tok) (n : Nat) (hr : rest.head? ≠ some .kElse) :
    pOne (n + 3) ([.kIf, .lp, .rp, .e x, .semi] ++ rest) = some (.ifThen none (.ex x), rest) := by
  cases x <;> cases rest with
  | nil => simp [pOne, pParen, pEx, Tok.ends, pStmt]
  | cons t r =>
    simp at hr
    cases t <;> first | exact absurd rfl hr | simp [pOne, pParen, pEx, Tok.ends, pStmt]

/-! ### The level of the stack -/

/-- The outcome of the source, at level `d`. -/
def at_ (d : Int) (r : Option (Out ρ × σ)) : Option (Out ρ × Lv σ) := r.map fun p => (p.1, (d, p.2))

theorem at_of {d : Int} {r : Option (Out ρ × Lv σ)} {q : Option (Out ρ × σ)} (h : drop r = q) (hk : Keeps d r) :
    r = at_ d q := by
  subst h
  cases r with
  | none => rfl
  | some p =>
    obtain ⟨o, d', y⟩ := p
    have : d' = d := hk _ rfl
    subst this
    rfl

/-- A function body in which no block contains a lone semicolon, and every `break` and `continue` in a
block either stands there directly or has its own braces: whenever it stops, in whatever way, the stack
is at the level at which it started. -/
theorem C69_body_partial (l : SL) (h : ReadsL l) (hv : LevelL l) (rest : List Tok) :
    ∃ p, parse (textL l ++ .rb :: rest) = some (p, rest) ∧
      ∀ {σ ρ : Type} (v : Env σ ρ) (n : Nat) (d : Int) (x : σ),
        exec n (p.flow v) (d, x) = at_ d (exec n (meanL v l) x) :=
  ⟨treeL l, parse_text l h rest, fun v n d x => at_of (list_drop v n l (d, x)) (list_keeps v n l hv (d, x))⟩

/-- The same on the top level, where lone semicolons and bare jumps do no harm by themselves. -/
def LevelT : SL → Prop
  | .nil => True
  | .cons s l => Level s ∧ LevelT l

theorem top_keeps (v : Env σ ρ) (n : Nat) : ∀ (l : SL) (_ : LevelT l) (z : Lv σ),
    Keeps z.1 (exec n ((treeT l).flow v) z)
  | .nil, _, z => keeps_some rfl
  | .cons s l, ⟨hs, hl⟩, z => by
    have ih := top_keeps v n l hl
    refine seq_keeps (exec_keeps v n s hs) ?_ z
    intro z
    by_cases hk : leaks s = true
    · rw [if_pos hk]; exact ih z
    · rw [if_neg hk]; exact ih z

theorem C69_top_partial (l : SL) (h : ReadsT l) (hv : LevelT l) :
    ∃ p, program (textL l) = some p ∧
      ∀ {σ ρ : Type} (v : Env σ ρ) (n : Nat) (d : Int) (x : σ),
        exec n (p.flow v) (d, x) = at_ d (exec n (meanL v l) x) :=
  ⟨treeT l, program_text l h, fun v n d x => at_of (top_drop v n l (d, x)) (top_keeps v n l hv (d, x))⟩

/-- The code of such a function body, when it completes or returns, leaves the stack where it was. -/
theorem C69_code_partial (l : SL) (h : ReadsL l) (hv : LevelL l) (rest : List Tok) (v : Env σ ρ) :
    ∃ p, parse (textL l ++ .rb :: rest) = some (p, rest) ∧
      ∀ k, compileUnit (p.flow v) = some k → Ok (p.flow v) → ∀ (d d' : Int) (x y : σ) (n : Nat),
        (run k.code k.tg n ⟨0, (d, x), []⟩ = some (.fin (d', y) []) → d' = d) ∧
        (∀ r, run k.code k.tg n ⟨0, (d, x), []⟩ = some (.ret r (d', y) []) → d' = d) := by
  refine ⟨treeL l, parse_text l h rest, ?_⟩
  intro k hk ok d d' x y n
  constructor
  · intro hr
    obtain ⟨m, hm⟩ := (C40_normal_partial hk ok (d, x) (d', y)).2 ⟨n, hr⟩
    exact list_keeps v m l hv (d, x) _ hm
  · intro r hr
    obtain ⟨m, hm⟩ := (C40_return_partial hk ok (d, x) (d', y) r).2 ⟨n, hr⟩
    exact list_keeps v m l hv (d, x) _ hm

theorem C69_example : LevelL sample ∧ LevelT sample := by
  constructor <;> simp [sample, LevelL, LevelT, LevelB, Level, isEmpty, isJump, leaks]

/-- `while (a) { if (b) break; c; }` -/
def sinking : SL :=
  .cons (.loop (.ex 0) (.block (.cons (.ifThen (.ex 1) .brk) (.cons (.ex (.ex 2)) .nil)))) .nil

/-- `a` holds `n` times, `b` never, and `c` counts. -/
def counting (n : Nat) : Env Nat Unit where
  act _ x := x + 1
  test e x := (match e with | .ex 0 => decide (x < n) | _ => false, x)
  hash _ x := (0, x)
  result _ x := ((), x)
  start _ x := x
  next _ _ x := (false, x)
  junk _ := false
  junkHash _ := 0

theorem sinking_loop (n F : Nat) : ∀ (m j : Nat) (d : Int), j ≤ n → n - j < m →
    whileLoop ((counting n).cond (some (.ex 0)))
      (exec F ((treeL (.cons (.ifThen (.ex 1) .brk) (.cons (.ex (.ex 2)) .nil))).flow (counting n)))
      id m (d, j) = some (.nrm, (d - ((n - j : Nat) : Int), n)) := by
  intro m
  induction m with
  | zero => intro j d hj hm; omega
  | succ m ih =>
    intro j d hj hm
    simp only [whileLoop]
    by_cases hlt : j < n
    · have hc : ((counting n).cond (some (.ex 0)) (d, j)).1 = true := by simp [Env.cond, counting, hlt]
      rw [if_pos hc]
      have hb : exec F ((treeL (.cons (.ifThen (.ex 1) .brk) (.cons (.ex (.ex 2)) .nil))).flow (counting n))
          ((counting n).cond (some (.ex 0)) (d, j)).2 = some (.nrm, (d - 1, j + 1)) := by
        simp [treeL, tree, P.flow, exec, leaks, Env.cond, counting, Env.stmt]
      rw [hb]
      have := ih (j + 1) (d - 1) (by omega) (by omega)
      simp only [id_eq]
      rw [this]
      congr 3
      omega
    · have hj : j = n := by omega
      subst hj
      have hc : ((counting j).cond (some (.ex 0)) (d, j)).1 = false := by simp [Env.cond, counting]
      rw [if_neg (by simp [hc])]
      simp [Env.cond, counting]

/-- The compiler reads `while (a) { if (b) break; c; }` so that every round takes one value off the
stack: after `n` rounds the top of the stack is `n` places below where it was, for every `n`. -/
theorem C69_sinks (n : Nat) (d : Int) (rest : List Tok) :
    ∃ p k, parse (textL sinking ++ .rb :: rest) = some (p, rest) ∧ compileUnit (p.flow (counting n)) = some k ∧
      ∃ m, run k.code k.tg m ⟨0, (d, 0), []⟩ = some (.fin (d - n, n) []) := by
  have hR : ReadsL sinking := by simp [sinking, ReadsL, Reads, isBlock]
  have ok : Ok ((treeL sinking).flow (counting n)) := by
    simp [sinking, treeL, tree, P.flow, Ok, leaks]
  have hc : (compileUnit ((treeL sinking).flow (counting n))).isSome = true := by
    rw [C40_compiles]; simp [sinking, treeL, tree, P.flow, Placed, leaks]
  obtain ⟨k, hk⟩ := Option.isSome_iff_exists.1 hc
  refine ⟨treeL sinking, k, parse_text sinking hR rest, hk, ?_⟩
  refine (C40_normal_partial hk ok (d, 0) (d - n, n)).1 ⟨n + 1, ?_⟩
  have h := sinking_loop n (n + 1) (n + 1) 0 d (Nat.zero_le _) (by omega)
  have e : exec (n + 1) ((treeL sinking).flow (counting n)) (d, 0) = exec (n + 1)
      (.seq (.loop ((counting n).cond (some (.ex 0)))
        ((treeL (.cons (.ifThen (.ex 1) .brk) (.cons (.ex (.ex 2)) .nil))).flow (counting n))) .skip) (d, 0) := rfl
  rw [e]
  simp only [exec, h, Nat.sub_zero]

/-- `x; ;` in a block. -/
theorem C69_semicolon (x : E) (rest : List Tok) (v : Env σ ρ) (n : Nat) (d : Int) (s : σ) :
    ∃ p, parse (textL (.cons (.ex x) (.cons .empty .nil)) ++ .rb :: rest) = some (p, rest) ∧
      exec n (p.flow v) (d, s) = some (.nrm, (d - 1, v.act x s)) :=
  ⟨_, parse_text _ (by simp [ReadsL, Reads, isBlock]) rest, by
    simp [treeL, tree, P.flow, exec, leaks, Env.stmt]⟩

end Wrench.Stmts
