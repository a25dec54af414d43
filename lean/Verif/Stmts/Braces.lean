import Verif.Stmts.Props

/-
A block directly in a block: the program is refused.
-/
namespace Wrench.Stmts

open Wrench

/-- Closing braces minus opening braces. -/
def net : List Tok → Int
  | [] => 0
  | .rb :: r => net r + 1
  | .lb :: r => net r - 1
  | _ :: r => net r

@[simp] theorem net_nil : net [] = 0 := rfl
@[simp] theorem net_rb (r : List Tok) : net (.rb :: r) = net r + 1 := rfl
@[simp] theorem net_lb (r : List Tok) : net (.lb :: r) = net r - 1 := rfl
theorem net_cons (t : Tok) (r : List Tok) (h1 : t ≠ .rb) (h2 : t ≠ .lb) : net (t :: r) = net r := by
  cases t <;> first | exact absurd rfl h1 | exact absurd rfl h2 | rfl
@[simp] theorem net_e (x : E) (r : List Tok) : net (.e x :: r) = net r := rfl
@[simp] theorem net_lit (x : Word32) (r : List Tok) : net (.lit x :: r) = net r := rfl
@[simp] theorem net_semi (r : List Tok) : net (.semi :: r) = net r := rfl
@[simp] theorem net_lp (r : List Tok) : net (.lp :: r) = net r := rfl
@[simp] theorem net_rp (r : List Tok) : net (.rp :: r) = net r := rfl
@[simp] theorem net_comma (r : List Tok) : net (.comma :: r) = net r := rfl
@[simp] theorem net_colon (r : List Tok) : net (.colon :: r) = net r := rfl
@[simp] theorem net_if (r : List Tok) : net (.kIf :: r) = net r := rfl
@[simp] theorem net_else (r : List Tok) : net (.kElse :: r) = net r := rfl
@[simp] theorem net_while (r : List Tok) : net (.kWhile :: r) = net r := rfl
@[simp] theorem net_do (r : List Tok) : net (.kDo :: r) = net r := rfl
@[simp] theorem net_for (r : List Tok) : net (.kFor :: r) = net r := rfl
@[simp] theorem net_switch (r : List Tok) : net (.kSwitch :: r) = net r := rfl
@[simp] theorem net_case (r : List Tok) : net (.kCase :: r) = net r := rfl
@[simp] theorem net_default (r : List Tok) : net (.kDefault :: r) = net r := rfl
@[simp] theorem net_break (r : List Tok) : net (.kBreak :: r) = net r := rfl
@[simp] theorem net_continue (r : List Tok) : net (.kContinue :: r) = net r := rfl
@[simp] theorem net_return (r : List Tok) : net (.kReturn :: r) = net r := rfl

theorem net_append : ∀ (a b : List Tok), net (a ++ b) = net a + net b
  | [], b => by simp
  | t :: a, b => by
    have ih := net_append a b
    cases t <;> simp [ih] <;> omega

/-! ### The parser never reads more closing braces than it should -/

theorem pEx_net {ts : List Tok} {x : Option E} {t : Tok} {r : List Tok} (h : pEx ts = some (x, t, r)) :
    net ts = net (t :: r) := by
  unfold pEx at h
  split at h
  · cases h
  · split at h
    · cases h; simp
    · cases h
  · split at h
    · cases h; rfl
    · cases h
  · cases h

theorem pParen_net {ts : List Tok} {x : Option E} {r : List Tok} (h : pParen ts = some (x, r)) :
    net ts = net r := by
  unfold pParen at h
  split at h
  · split at h
    · rename_i hx
      cases h
      have := pEx_net hx
      simpa using this
    · cases h
  · cases h

theorem pVal_net {stop : Tok} (h1 : stop ≠ .rb) (h2 : stop ≠ .lb) {ts : List Tok} {x : Word32} {r : List Tok}
    (h : pVal stop ts = some (x, r)) : net ts = net r := by
  fun_induction pVal stop ts with
  | case1 stop r' ih => simp; exact ih (by simp) (by simp) h
  | case2 => cases h; simp [net_cons _ _ h1 h2]
  | case3 => cases h
  | case4 => cases h

theorem pInit_net {ts : List Tok} : ∀ {l : List (Option E)} {a : Option Nat} {r : List Tok},
    pInit ts = some (l, a, r) → net ts = net r := by
  fun_induction pInit ts with
  | case1 r => intro l a r h; cases h; simp
  | case2 r ih =>
    intro l a r h
    cases hp : pInit _ with
    | none => rw [hp] at h; cases h
    | some q => rw [hp] at h; obtain ⟨l', a', r'⟩ := q; cases h; simpa using ih hp
  | case3 x r => intro l a r h; cases h; simp
  | case4 x r ih =>
    intro l a r h
    cases hp : pInit _ with
    | none => rw [hp] at h; cases h
    | some q => rw [hp] at h; obtain ⟨l', a', r'⟩ := q; cases h; simpa using ih hp
  | case5 x a r => intro l a r h; cases h; simp
  | case6 => intro l a r h; cases h

theorem pPost_net {ts : List Tok} : ∀ {l : List (Option E)} {r : List Tok},
    pPost ts = some (l, r) → net ts = net r := by
  fun_induction pPost ts with
  | case1 r => intro l r h; cases h; simp
  | case2 r ih =>
    intro l r h
    cases hp : pPost _ with
    | none => rw [hp] at h; cases h
    | some q => rw [hp] at h; obtain ⟨l', r'⟩ := q; cases h; simpa using ih hp
  | case3 x r => intro l r h; cases h; simp
  | case4 x r ih =>
    intro l r h
    cases hp : pPost _ with
    | none => rw [hp] at h; cases h
    | some q => rw [hp] at h; obtain ⟨l', r'⟩ := q; cases h; simpa using ih hp
  | case5 => intro l r h; cases h

theorem pCond_net {ts : List Tok} {c : Option E} {r : List Tok} (h : pCond ts = some (c, r)) : net ts = net r := by
  unfold pCond at h
  split at h <;> cases h <;> simp

theorem pHead_net {ts : List Tok} {c : Head} {r : List Tok} (h : pHead ts = some (c, r)) : net ts = net r := by
  unfold pHead at h
  split at h
  · split at h
    · rename_i hi
      rw [Option.map_eq_some_iff] at h
      obtain ⟨vs, -, h⟩ := h
      cases h
      simpa using pInit_net hi
    · rename_i hi
      have e := pInit_net hi
      simp only [Option.bind_eq_some_iff, Option.map_eq_some_iff] at h
      obtain ⟨⟨c', r1⟩, h1, ⟨p', r2⟩, h2, h⟩ := h
      cases h
      have e1 := pCond_net h1
      have e2 := pPost_net h2
      simp only [net_lp] at *; omega
    · cases h
  · cases h

mutual
theorem pStmt_net : ∀ (n : Nat) (b : Bool) (ts : List Tok) (p : P) (r : List Tok), pStmt n b ts = some (p, r) →
    net ts ≤ net r + (if b = true then 1 else 0)
  | 0, _, _, _, _, h => by cases h
  | n + 1, b, ts, p, r, h => by
    rw [pStmt.eq_def] at h
    simp only at h
    split at h
    · split at h
      · cases h
      · rename_i hb; cases h; simp [hb]
    · split at h
      · rename_i hb
        simp only [Option.map_eq_some_iff] at h
        obtain ⟨⟨p', r'⟩, h1, h⟩ := h
        cases h
        have := pStmt_net n b _ _ _ h1
        simpa using this
      · cases h; simp; split <;> omega
    · split at h
      · rename_i hb; cases h; simp [hb]
      · cases h
    · have := pStmt_net n true _ _ _ h
      simp at this ⊢; split <;> omega
    · simp only [Option.bind_eq_some_iff] at h
      obtain ⟨⟨p', r'⟩, h1, h⟩ := h
      have e := pOne_net n _ _ _ h1
      simp only at h
      split at h
      · rename_i hb
        simp only [Option.map_eq_some_iff] at h
        obtain ⟨⟨p2, r2⟩, h2, h⟩ := h
        cases h
        have := pStmt_net n b _ _ _ h2
        rw [if_pos hb] at this ⊢
        simp only at *
        omega
      · rename_i hb
        cases h
        rw [if_neg hb]; omega
theorem pOne_net : ∀ (n : Nat) (ts : List Tok) (p : P) (r : List Tok), pOne n ts = some (p, r) → net ts ≤ net r
  | 0, _, _, _, h => by cases h
  | n + 1, ts, p, r, h => by
    rw [pOne.eq_def] at h
    simp only at h
    split at h
    · simp only [Option.bind_eq_some_iff] at h
      obtain ⟨⟨c, r1⟩, h1, ⟨s, r2⟩, h2, h⟩ := h
      have e1 := pParen_net h1
      have e2 := pStmt_net n false _ _ _ h2
      simp only [Bool.false_eq_true, if_false] at e2
      simp only at h
      split at h
      · simp only [Option.map_eq_some_iff] at h
        obtain ⟨⟨t, r3⟩, h3, h⟩ := h
        cases h
        have e3 := pStmt_net n false _ _ _ h3
        simp at e2 e3 ⊢; omega
      · cases h; simp; omega
    · simp only [Option.bind_eq_some_iff, Option.map_eq_some_iff] at h
      obtain ⟨⟨c, r1⟩, h1, ⟨s, r2⟩, h2, h⟩ := h
      cases h
      have e1 := pParen_net h1
      have e2 := pStmt_net n false _ _ _ h2
      simp at e2 ⊢; omega
    · simp only [Option.bind_eq_some_iff] at h
      obtain ⟨⟨s, r1⟩, h1, h⟩ := h
      have e1 := pStmt_net n false _ _ _ h1
      simp only at h
      split at h
      · simp only [Option.bind_eq_some_iff] at h
        obtain ⟨⟨c, r2⟩, h2, h⟩ := h
        have e2 := pParen_net h2
        simp only at h
        split at h
        · cases h; simp at e1 e2 ⊢; omega
        · cases h
      · cases h
    · simp only [Option.bind_eq_some_iff, Option.map_eq_some_iff] at h
      obtain ⟨⟨c, r1⟩, h1, ⟨s, r2⟩, h2, h⟩ := h
      have e1 := pHead_net h1
      have e2 := pStmt_net n false _ _ _ h2
      have er : r = r2 := by simp only at h; split at h <;> cases h <;> rfl
      subst er
      simp at e2 ⊢; omega
    · simp only [Option.bind_eq_some_iff] at h
      obtain ⟨⟨c, r1⟩, h1, h⟩ := h
      have e1 := pParen_net h1
      simp only at h
      split at h
      · simp only [Option.map_eq_some_iff] at h
        obtain ⟨⟨b, r2⟩, h2, h⟩ := h
        cases h
        have e2 := pBody_net n _ _ _ h2
        simp at e1 ⊢; omega
      · cases h
    · cases h; simp
    · cases h; simp
    · cases h; simp
    · split at h
      · rename_i hx; cases h
        have := pEx_net hx
        simp at this ⊢; omega
      · cases h
    · split at h
      · rename_i hx; cases h
        have := pEx_net hx
        simp at this ⊢; omega
      · rename_i hx; cases h
        have := pEx_net hx
        simp at this ⊢; omega
      · cases h
theorem pBody_net : ∀ (n : Nat) (ts : List Tok) (b : PB) (r : List Tok), pBody n ts = some (b, r) → net ts ≤ net r + 1
  | 0, _, _, _, h => by cases h
  | n + 1, ts, b, r, h => by
    rw [pBody.eq_def] at h
    simp only at h
    split at h
    · cases h
    · cases h; simp
    · simp only [Option.bind_eq_some_iff, Option.map_eq_some_iff] at h
      obtain ⟨⟨c, r1⟩, h1, ⟨s, r2⟩, h2, h⟩ := h
      cases h
      have e1 := pVal_net (by simp) (by simp) h1
      have e2 := pBody_net n _ _ _ h2
      simp at *; omega
    · simp only [Option.map_eq_some_iff] at h
      obtain ⟨⟨s, r2⟩, h2, h⟩ := h
      cases h
      have e2 := pBody_net n _ _ _ h2
      simpa using e2
    · cases h
    · simp only [Option.bind_eq_some_iff, Option.map_eq_some_iff] at h
      obtain ⟨⟨c, r1⟩, h1, ⟨s, r2⟩, h2, h⟩ := h
      cases h
      have e1 := pStmt_net n false _ _ _ h1
      have e2 := pBody_net n _ _ _ h2
      simp at *; omega
end

theorem pTop_net : ∀ (n : Nat) (ts : List Tok) (p : P), pTop n ts = some p → net ts ≤ 0
  | 0, _, _, h => by cases h
  | n + 1, [], _, _ => by simp
  | n + 1, t :: r, p, h => by
    rw [pTop_cons] at h
    simp only [Option.bind_eq_some_iff, Option.map_eq_some_iff] at h
    obtain ⟨⟨s, r1⟩, h1, q, h2, -⟩ := h
    have e1 := pStmt_net n false _ _ _ h1
    have e2 := pTop_net n r1 q h2
    simp at e1; omega

/-! ### The text is balanced -/

theorem net_commas : ∀ (l : List E), net (commas l) = 0
  | [] => rfl
  | [_] => rfl
  | x :: y :: l => by simp [commas, net_commas (y :: l)]

mutual
theorem net_text (s : S) : net (text s) = 0 := by
  cases s with
  | ret x => cases x <;> rfl
  | block l => simp [text, net_append, net_textL l]
  | ifThen c s => simp [text, net_text s]
  | ifElse c s t => simp [text, net_append, net_text s, net_text t]
  | loop c s => simp [text, net_text s]
  | doLoop s c => simp [text, net_append, net_text s]
  | forLoop i c p s => cases c <;> simp [text, net_append, net_commas, condText, net_text s]
  | each k v a s => cases k <;> simp [text, net_append, keyText, net_text s]
  | switch c b => simp [text, net_append, net_textB b]
  | _ => rfl
theorem net_textL (l : SL) : net (textL l) = 0 := by
  cases l with
  | nil => rfl
  | cons s l => simp [textL, net_append, net_text s, net_textL l]
theorem net_textB (b : SB) : net (textB b) = 0 := by
  cases b with
  | nil => rfl
  | case h b => simp [textB, net_textB b]
  | dflt b => simp [textB, net_textB b]
  | stmt s b => simp [textB, net_append, net_text s, net_textB b]
end

/-! ### Nested blocks -/

mutual
/-- A block stands directly in a block. -/
def Nest : S → Bool
  | .block l => NestL l
  | .ifThen _ s => Nest s
  | .ifElse _ s t => Nest s || Nest t
  | .loop _ s => Nest s
  | .doLoop s _ => Nest s
  | .forLoop _ _ _ s => Nest s
  | .each _ _ _ s => Nest s
  | .switch _ b => NestB b
  | _ => false
def NestL : SL → Bool
  | .nil => false
  | .cons s l => isBlock s || Nest s || NestL l
def NestB : SB → Bool
  | .nil => false
  | .case _ b => NestB b
  | .dflt b => NestB b
  | .stmt s b => Nest s || NestB b
end

mutual
/-- `Reads` without the condition on blocks. -/
def Plain : S → Prop
  | .block l => PlainL l
  | .ifThen _ s => Plain s
  | .ifElse _ s t => Plain s ∧ Plain t ∧ leaks s = false ∧ openIf s = false
  | .loop _ s => Plain s
  | .doLoop s _ => Plain s ∧ leaks s = false
  | .forLoop _ _ _ s => Plain s
  | .each _ _ _ s => Plain s
  | .switch _ b => PlainB b
  | _ => True
def PlainL : SL → Prop
  | .nil => True
  | .cons s l => Plain s ∧ PlainL l
def PlainB : SB → Prop
  | .nil => True
  | .case _ b => PlainB b
  | .dflt b => PlainB b
  | .stmt s b => Plain s ∧ PlainB b
end

mutual
theorem reads_iff (s : S) : Reads s ↔ Plain s ∧ Nest s = false := by
  cases s with
  | block l => simp only [Reads, Plain, Nest]; exact readsL_iff l
  | ifThen c s => simp only [Reads, Plain, Nest]; exact reads_iff s
  | ifElse c s t =>
    simp only [Reads, Plain, Nest, Bool.or_eq_false_iff, reads_iff s, reads_iff t]
    constructor
    · rintro ⟨⟨a, b⟩, ⟨c, d⟩, e, f⟩; exact ⟨⟨a, c, e, f⟩, b, d⟩
    · rintro ⟨⟨a, c, e, f⟩, b, d⟩; exact ⟨⟨a, b⟩, ⟨c, d⟩, e, f⟩
  | loop c s => simp only [Reads, Plain, Nest]; exact reads_iff s
  | doLoop s c =>
    simp only [Reads, Plain, Nest, reads_iff s]
    constructor
    · rintro ⟨⟨a, b⟩, c⟩; exact ⟨⟨a, c⟩, b⟩
    · rintro ⟨⟨a, c⟩, b⟩; exact ⟨⟨a, b⟩, c⟩
  | forLoop i c p s => simp only [Reads, Plain, Nest]; exact reads_iff s
  | each k v a s => simp only [Reads, Plain, Nest]; exact reads_iff s
  | switch c b => simp only [Reads, Plain, Nest]; exact readsB_iff b
  | _ => simp [Reads, Plain, Nest]
theorem readsL_iff (l : SL) : ReadsL l ↔ PlainL l ∧ NestL l = false := by
  cases l with
  | nil => simp [ReadsL, PlainL, NestL]
  | cons s l =>
    simp only [ReadsL, PlainL, NestL, Bool.or_eq_false_iff, reads_iff s, readsL_iff l]
    constructor
    · rintro ⟨a, ⟨b, c⟩, d, e⟩; exact ⟨⟨b, d⟩, ⟨a, c⟩, e⟩
    · rintro ⟨⟨b, d⟩, ⟨a, c⟩, e⟩; exact ⟨a, ⟨b, c⟩, d, e⟩
theorem readsB_iff (b : SB) : ReadsB b ↔ PlainB b ∧ NestB b = false := by
  cases b with
  | nil => simp [ReadsB, PlainB, NestB]
  | case h b => simp only [ReadsB, PlainB, NestB]; exact readsB_iff b
  | dflt b => simp only [ReadsB, PlainB, NestB]; exact readsB_iff b
  | stmt s b =>
    simp only [ReadsB, PlainB, NestB, Bool.or_eq_false_iff, reads_iff s, readsB_iff b]
    constructor
    · rintro ⟨⟨b, c⟩, d, e⟩; exact ⟨⟨b, d⟩, c, e⟩
    · rintro ⟨⟨b, d⟩, c, e⟩; exact ⟨⟨b, c⟩, d, e⟩
end

theorem net_left (s : S) (rest : List Tok) : net (left s rest) = net rest := by
  unfold left; split <;> simp

set_option maxHeartbeats 2000000 in
mutual
theorem nestOne (s : S) (hp : Plain s) (hn : Nest s = true) (hb : isBlock s = false) :
    ∀ (n : Nat) (rest : List Tok) (p : P) (r : List Tok), size s ≤ n + 1 →
      pOne n (text s ++ rest) = some (p, r) → net rest + 1 ≤ net r := by
  intro n rest p r hz h
  obtain ⟨n, rfl⟩ : ∃ m, n = m + 1 := ⟨n - 1, by cases s <;> simp [size] at hz <;> omega⟩
  cases s with
  | empty => simp [Nest] at hn
  | ex x => simp [Nest] at hn
  | brk => simp [Nest] at hn
  | cont => simp [Nest] at hn
  | ret x => simp [Nest] at hn
  | block l => simp [isBlock] at hb
  | ifThen c s =>
    simp only [text, List.cons_append, pOne, pParen_text, Option.bind_some, Option.bind_eq_some_iff] at h
    obtain ⟨⟨q, r1⟩, h1, h⟩ := h
    have e1 := nestStmt s hp hn n rest q r1 (by simp [size] at hz; omega) h1
    simp only at h
    split at h
    · simp only [Option.map_eq_some_iff] at h
      obtain ⟨⟨t, r3⟩, h3, h⟩ := h
      cases h
      have e3 := pStmt_net n false _ _ _ h3
      simp at e1 e3 ⊢; omega
    · cases h; exact e1
  | ifElse c s t =>
    obtain ⟨ps, pt, hl, ho⟩ := hp
    simp only [text, List.cons_append, List.append_assoc, pOne, pParen_text, Option.bind_some, Option.bind_eq_some_iff] at h
    obtain ⟨⟨q, r1⟩, h1, h⟩ := h
    by_cases hs : Nest s = true
    · have e1 := nestStmt s ps hs n _ q r1 (by simp [size] at hz; omega) h1
      simp only [net_else, net_append, net_text] at e1
      simp only at h
      split at h
      · simp only [Option.map_eq_some_iff] at h
        obtain ⟨⟨t', r3⟩, h3, h⟩ := h
        cases h
        have e3 := pStmt_net n false _ _ _ h3
        simp at e1 e3 ⊢; omega
      · cases h; omega
    · have hs : Nest s = false := by simpa using hs
      have ht : Nest t = true := by simpa [Nest, hs] using hn
      have e := pStmt_text s ((reads_iff s).2 ⟨ps, hs⟩) n (.kElse :: (text t ++ rest)) (by simp [size] at hz; omega)
        (by simp [ho])
      rw [e] at h1
      cases h1
      simp only [left, hl, Bool.false_eq_true, if_false, Option.map_eq_some_iff] at h
      obtain ⟨⟨t', r3⟩, h3, h⟩ := h
      cases h
      exact nestStmt t pt ht n rest _ _ (by simp [size] at hz; omega) h3
  | loop c s =>
    simp only [text, List.cons_append, pOne, pParen_text, Option.bind_some, Option.map_eq_some_iff] at h
    obtain ⟨⟨q, r1⟩, h1, h⟩ := h
    cases h
    exact nestStmt s hp hn n rest q _ (by simp [size] at hz; omega) h1
  | doLoop s c =>
    simp only [text, List.cons_append, List.append_assoc, pOne, Option.bind_eq_some_iff] at h
    obtain ⟨⟨q, r1⟩, h1, h⟩ := h
    have e1 := nestStmt s hp.1 hn n _ q _ (by simp [size] at hz; omega) h1
    simp only at h
    split at h
    · simp only [Option.bind_eq_some_iff] at h
      obtain ⟨⟨c, r2⟩, h2, h⟩ := h
      have e2 := pParen_net h2
      simp only at h
      split at h
      · cases h; simp at e1 e2 ⊢; omega
      · cases h
    · cases h
  | forLoop i c q s =>
    simp only [text, List.cons_append, List.append_assoc, pOne, pHead_plain, Option.bind_some, Option.map_eq_some_iff] at h
    obtain ⟨⟨q, r1⟩, h1, h⟩ := h
    cases h
    exact nestStmt s hp hn n rest q _ (by simp [size] at hz; omega) h1
  | each k v a s =>
    simp only [text, List.cons_append, List.append_assoc, pOne, pHead_each, Option.bind_some, Option.map_eq_some_iff] at h
    obtain ⟨⟨q, r1⟩, h1, h⟩ := h
    cases h
    exact nestStmt s hp hn n rest q _ (by simp [size] at hz; omega) h1
  | switch c b =>
    simp only [text, List.cons_append, List.append_assoc, List.nil_append, pOne, pParen_text, Option.bind_some,
      Option.map_eq_some_iff] at h
    obtain ⟨⟨q, r1⟩, h1, h⟩ := h
    cases h
    exact nestBody b hp hn n rest q _ (by simp [size] at hz; omega) h1
theorem nestStmt (s : S) (hp : Plain s) (hn : Nest s = true) :
    ∀ (n : Nat) (rest : List Tok) (p : P) (r : List Tok), size s ≤ n →
      pStmt n false (text s ++ rest) = some (p, r) → net rest + 1 ≤ net r := by
  intro n rest p r hz h
  obtain ⟨n, rfl⟩ : ∃ m, n = m + 1 := ⟨n - 1, by cases s <;> simp [size] at hz <;> omega⟩
  have he : isEmpty s = false := by cases s <;> first | rfl | simp [Nest] at hn
  by_cases hb : isBlock s = true
  · cases s with
    | block l =>
      simp only [text, List.cons_append, List.append_assoc, List.nil_append, pStmt] at h
      exact nestList l hp hn n rest p r (by simp [size] at hz; omega) h
    | _ => simp [isBlock] at hb
  · have hb : isBlock s = false := by simpa using hb
    obtain ⟨t, r', ht, -, h2, -, -, h4, h5⟩ := text_head s
    rw [pStmt_one (t := t) (r := r' ++ rest) (by simp [ht]) (h4 he) h2 (h5 hb)] at h
    simp only [Option.bind_eq_some_iff] at h
    obtain ⟨⟨q, r1⟩, h1, h⟩ := h
    simp only [Bool.false_eq_true, if_false] at h
    cases h
    exact nestOne s hp hn hb n rest _ _ hz h1
theorem nestList (l : SL) (hp : PlainL l) (hn : NestL l = true) :
    ∀ (n : Nat) (rest : List Tok) (p : P) (r : List Tok), sizeL l ≤ n →
      pStmt n true (textL l ++ .rb :: rest) = some (p, r) → net rest + 1 ≤ net r := by
  intro n rest p r hz h
  obtain ⟨n, rfl⟩ : ∃ m, n = m + 1 := ⟨n - 1, by cases l <;> simp [sizeL] at hz <;> omega⟩
  cases l with
  | nil => simp [NestL] at hn
  | cons s l =>
    obtain ⟨ps, pl⟩ := hp
    have hsz : size s + sizeL l + 4 ≤ n + 1 := by simp [sizeL] at hz; omega
    have hrest : net (textL l ++ .rb :: rest) = net rest + 1 := by simp [net_append, net_textL]
    by_cases hb : isBlock s = true
    · cases s with
      | block m =>
        simp only [textL, text, List.cons_append, List.append_assoc, pStmt] at h
        have e := pStmt_net n true _ _ _ h
        simp only [net_append, net_textL, net_rb, if_true, List.nil_append, List.cons_append] at e
        omega
      | _ => simp [isBlock] at hb
    · have hb : isBlock s = false := by simpa using hb
      simp only [textL, List.append_assoc] at h
      by_cases he : isEmpty s = true
      · cases s <;> simp [isEmpty] at he
        have hl : NestL l = true := by simpa [NestL, isBlock, Nest] using hn
        simp only [text, List.cons_append, List.nil_append, pStmt, if_true, Option.map_eq_some_iff] at h
        obtain ⟨⟨q, r1⟩, h1, h⟩ := h
        cases h
        exact nestList l pl hl n rest _ _ (by omega) h1
      · have he : isEmpty s = false := by simpa using he
        obtain ⟨t, r', ht, -, h2, -, -, h4, h5⟩ := text_head s
        rw [pStmt_one (t := t) (r := r' ++ (textL l ++ .rb :: rest)) (by simp [ht]) (h4 he) h2 (h5 hb)] at h
        simp only [Option.bind_eq_some_iff] at h
        obtain ⟨⟨q, r1⟩, h1, h⟩ := h
        simp only [if_true, Option.map_eq_some_iff] at h
        obtain ⟨⟨q2, r2⟩, h2, h⟩ := h
        cases h
        by_cases hs : Nest s = true
        · have e1 := nestOne s ps hs hb n _ _ _ (by omega) h1
          have e2 := pStmt_net n true _ _ _ h2
          simp only [if_true] at e1 e2 ⊢
          omega
        · have hs : Nest s = false := by simpa using hs
          have hl : NestL l = true := by simpa [NestL, hb, hs] using hn
          have e := pOne_text s ((reads_iff s).2 ⟨ps, hs⟩) he hb n (textL l ++ .rb :: rest) (by omega)
            (fun _ => textL_head l rest)
          rw [e] at h1
          cases h1
          by_cases hk : leaks s = true
          · obtain ⟨n, rfl⟩ : ∃ m, n = m + 1 := ⟨n - 1, by omega⟩
            simp only [left, hk, if_true, pStmt, Option.map_eq_some_iff] at h2
            obtain ⟨⟨q3, r3⟩, h3, h2⟩ := h2
            cases h2
            exact nestList l pl hl n rest _ _ (by omega) h3
          · simp only [left, hk, if_false] at h2
            exact nestList l pl hl n rest _ _ (by omega) h2
theorem nestBody (b : SB) (hp : PlainB b) (hn : NestB b = true) :
    ∀ (n : Nat) (rest : List Tok) (p : PB) (r : List Tok), sizeB b ≤ n →
      pBody n (textB b ++ .rb :: rest) = some (p, r) → net rest + 1 ≤ net r := by
  intro n rest p r hz h
  obtain ⟨n, rfl⟩ : ∃ m, n = m + 1 := ⟨n - 1, by cases b <;> simp [sizeB] at hz <;> omega⟩
  cases b with
  | nil => simp [NestB] at hn
  | case w b =>
    simp only [textB, List.cons_append, pBody, pVal, if_true, Option.bind_some, Option.map_eq_some_iff] at h
    obtain ⟨⟨q, r1⟩, h1, h⟩ := h
    cases h
    exact nestBody b hp hn n rest _ _ (by simp [sizeB] at hz; omega) h1
  | dflt b =>
    simp only [textB, List.cons_append, pBody, Option.map_eq_some_iff] at h
    obtain ⟨⟨q, r1⟩, h1, h⟩ := h
    cases h
    exact nestBody b hp hn n rest _ _ (by simp [sizeB] at hz; omega) h1
  | stmt s b =>
    obtain ⟨ps, pb⟩ := hp
    have hsz : size s + sizeB b + 4 ≤ n + 1 := by simp [sizeB] at hz; omega
    have hrest : net (textB b ++ .rb :: rest) = net rest + 1 := by simp [net_append, net_textB]
    obtain ⟨t, r', ht, -, h2, h3, h4, -⟩ := text_head s
    simp only [textB, List.append_assoc] at h
    rw [pBody_stmt (t := t) (r := r' ++ (textB b ++ .rb :: rest)) (by simp [ht]) h2 h3 h4] at h
    simp only [Option.bind_eq_some_iff, Option.map_eq_some_iff] at h
    obtain ⟨⟨q, r1⟩, h1, ⟨q2, r2⟩, h2, h⟩ := h
    cases h
    by_cases hs : Nest s = true
    · have e1 := nestStmt s ps hs n _ _ _ (by omega) h1
      have e2 := pBody_net n _ _ _ h2
      simp only at e1 e2 ⊢
      omega
    · have hs : Nest s = false := by simpa using hs
      have hl : NestB b = true := by simpa [NestB, hs] using hn
      have e := pStmt_text s ((reads_iff s).2 ⟨ps, hs⟩) n (textB b ++ .rb :: rest) (by omega)
        (fun _ => textB_head b rest)
      rw [e] at h1
      cases h1
      by_cases hk : leaks s = true
      · obtain ⟨n, rfl⟩ : ∃ m, n = m + 2 := ⟨n - 2, by omega⟩
        simp only [left, hk, if_true] at h2
        rw [pBody_stmt (t := .semi) rfl (by simp) (by simp) (by simp)] at h2
        simp only [pStmt, Bool.false_eq_true, if_false, Option.bind_some, Option.map_eq_some_iff] at h2
        obtain ⟨⟨q3, r3⟩, h3, h2⟩ := h2
        cases h2
        exact nestBody b pb hl (n + 1) rest _ _ (by omega) h3
      · simp only [left, hk, if_false] at h2
        exact nestBody b pb hl n rest _ _ (by omega) h2
end

def PlainT : SL → Prop
  | .nil => True
  | .cons s l => Plain s ∧ PlainT l

/-- A block stands directly in a block, somewhere in the program.  (On the top level a block may stand.) -/
def NestT : SL → Bool
  | .nil => false
  | .cons s l => Nest s || NestT l

theorem readsT_iff : ∀ l : SL, ReadsT l ↔ PlainT l ∧ NestT l = false
  | .nil => by simp [ReadsT, PlainT, NestT]
  | .cons s l => by
    simp only [ReadsT, PlainT, NestT, Bool.or_eq_false_iff, reads_iff s, readsT_iff l]
    constructor
    · rintro ⟨⟨b, c⟩, d, e⟩; exact ⟨⟨b, d⟩, c, e⟩
    · rintro ⟨⟨b, d⟩, c, e⟩; exact ⟨⟨b, c⟩, d, e⟩

theorem nestTop : ∀ (l : SL) (_ : PlainT l) (_ : NestT l = true) (n : Nat), sizeL l ≤ n → pTop n (textL l) = none
  | .nil, _, hn, _, _ => by simp [NestT] at hn
  | .cons s l, ⟨ps, pl⟩, hn, n, hz => by
    have hsz : 4 + size s + sizeL l ≤ n := hz
    obtain ⟨n, rfl⟩ : ∃ m, n = m + 2 := ⟨n - 2, by omega⟩
    obtain ⟨t, r, ht, -⟩ := text_head s
    have e : pTop (n + 2) (textL (.cons s l)) =
        (pStmt (n + 1) false (text s ++ textL l)).bind fun (s, r) => (pTop (n + 1) r).map fun t => .seq s t := by
      simp only [textL, ht, List.cons_append, pTop]
    rw [e]
    by_cases hs : Nest s = true
    · cases hr : pStmt (n + 1) false (text s ++ textL l) with
      | none => rfl
      | some q =>
        obtain ⟨q, r1⟩ := q
        have e1 := nestStmt s ps hs (n + 1) _ _ _ (by omega) hr
        rw [net_textL] at e1
        cases hq : pTop (n + 1) r1 with
        | none => simp [hq]
        | some w => have := pTop_net _ _ _ hq; omega
    · have hs : Nest s = false := by simpa using hs
      have hl : NestT l = true := by simpa [NestT, hs] using hn
      rw [pStmt_text s ((reads_iff s).2 ⟨ps, hs⟩) (n + 1) (textL l) (by omega) (fun _ => textL_head' l)]
      simp only [Option.bind_some]
      by_cases hk : leaks s = true
      · have ih := nestTop l pl hl n (by omega)
        simp only [left, hk, if_true]
        rw [pTop_cons]
        obtain ⟨n, rfl⟩ : ∃ m, n = m + 1 := ⟨n - 1, by omega⟩
        rw [show pStmt (n + 1) false (.semi :: textL l) = some (.skip, textL l) by simp [pStmt]]
        simp [ih]
      · have ih := nestTop l pl hl (n + 1) (by omega)
        simp [left, hk, ih]

/-- A program in which a block stands directly in a block, at any depth, is refused; otherwise (under
the other conditions of `Reads`) it is accepted. -/
theorem C68_accepted_iff (l : SL) (h : PlainT l) : (program (textL l)).isSome = true ↔ NestT l = false := by
  have hs := sizeL_text l
  cases hn : NestT l with
  | false => simp [program_text l ((readsT_iff l).2 ⟨h, hn⟩)]
  | true =>
    have := nestTop l h hn (8 * (textL l).length + 8) (by omega)
    simp [program, this]

/-- `if (a) { x; { y; } z; }` -/
theorem C68_accepted_example : PlainT (.cons (.ifThen (.ex 0) (.block (.cons (.ex (.ex 1))
      (.cons (.block (.cons (.ex (.ex 2)) .nil)) (.cons (.ex (.ex 3)) .nil))))) .nil) ∧
    NestT (.cons (.ifThen (.ex 0) (.block (.cons (.ex (.ex 1))
      (.cons (.block (.cons (.ex (.ex 2)) .nil)) (.cons (.ex (.ex 3)) .nil))))) .nil) = true := by
  constructor
  · simp [PlainT, Plain, PlainL]
  · rfl

end Wrench.Stmts
