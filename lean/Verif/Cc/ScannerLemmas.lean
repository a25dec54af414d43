import Verif.Cc.Scanner

/-
Lemmas about the tokenizer: the rest of the source is a suffix of the source, reads outside
the source, and locality (a token does not depend on what follows a white space).
-/
namespace Wrench.Cc

open Wrench

/-! ### Suffixes -/

theorem run_suffix {p : Byte → Bool} {src t r : List Byte} (h : run p src = some (t, r)) :
    r <:+ src := by
  induction src generalizing t r with
  | nil => simp [run] at h
  | cons c s ih =>
    simp only [run] at h
    split at h
    · cases hr : run p s with
      | none => simp [hr] at h
      | some x =>
        simp only [hr, Option.map_some, Option.some.injEq, Prod.mk.injEq] at h
        rw [← h.2]
        exact (ih (t := x.1) (r := x.2) hr).trans (List.suffix_cons _ _)
    · simp only [Option.some.injEq, Prod.mk.injEq] at h
      rw [← h.2]
      exact List.suffix_rfl

theorem decLoop_suffix {d : Bool} {t src : List Byte} {x : Bool × List Byte × List Byte}
    (h : decLoop d t src = some x) : x.2.2 <:+ src := by
  induction src generalizing d t with
  | nil => simp [decLoop] at h
  | cons c s ih =>
    simp only [decLoop] at h
    split at h
    · split at h
      · cases h
      · exact (ih h).trans (List.suffix_cons _ _)
    · split at h
      · split at h
        · cases h; exact List.suffix_cons _ _
        · cases h; exact List.suffix_rfl
      · exact (ih h).trans (List.suffix_cons _ _)

theorem scanNumber_suffix {L : Nat} {c : Byte} {src : List Byte} {v : Value} {r : List Byte}
    (h : scanNumber L c src = .tok v r) : r <:+ src := by
  unfold scanNumber at h
  cases src with
  | nil => cases h
  | cons d s =>
    simp only at h
    split at h
    · split at h
      · cases h
      · next hr => cases h; exact (run_suffix hr).trans (List.suffix_cons _ _)
    · split at h
      · split at h
        · cases h
        · next hr => cases h; exact (run_suffix hr).trans (List.suffix_cons _ _)
      · split at h
        · split at h
          · cases h
          · next hr => cases h; exact run_suffix hr
        · split at h
          · cases h
          · next hr => cases h; exact decLoop_suffix hr
          · next hr => cases h; exact decLoop_suffix hr

theorem scanNumber_not_oob (L : Nat) (c : Byte) (src : List Byte) : scanNumber L c src ≠ .oob := by
  unfold scanNumber
  cases src with
  | nil => simp
  | cons d s =>
    simp only
    split
    · split <;> simp
    · split
      · split <;> simp
      · split
        · split <;> simp
        · split <;> simp

theorem strLoop_suffix {single : Bool} {t src T r : List Byte} (h : strLoop single t src = .text T r) :
    r <:+ src := by
  fun_induction strLoop single t src with
  | case1 => cases h; exact List.suffix_rfl
  | case2 => cases h; exact List.suffix_cons _ _
  | case3 => cases h
  | case4 => cases h; exact List.suffix_cons _ _
  | case5 => cases h
  | case6 => cases h
  | case7 => rename_i ih; exact ((ih h).trans (List.suffix_cons _ _)).trans (List.suffix_cons _ _)
  | case8 => cases h
  | case9 => rename_i ih; exact (((ih h).trans (List.dropWhile_suffix _)).trans (List.suffix_cons _ _)).trans (List.suffix_cons _ _)
  | case10 => rename_i ih; exact ((ih h).trans (List.suffix_cons _ _)).trans (List.suffix_cons _ _)
  | case11 => rename_i ih; exact ((ih h).trans (List.suffix_cons _ _)).trans (List.suffix_cons _ _)
  | case12 => rename_i ih; exact ((ih h).trans (List.suffix_cons _ _)).trans (List.suffix_cons _ _)
  | case13 => rename_i ih; exact ((ih h).trans (List.suffix_cons _ _)).trans (List.suffix_cons _ _)
  | case14 => rename_i ih; exact ((ih h).trans (List.suffix_cons _ _)).trans (List.suffix_cons _ _)
  | case15 => cases h
  | case16 => rename_i ih; exact (ih h).trans (List.suffix_cons _ _)

theorem findEnd_suffix {src r : List Byte} (h : findEnd src = some r) : ∃ a b, (a :: b :: r) <:+ src := by
  fun_induction findEnd src with
  | case1 a b s hc => cases h; exact ⟨a, b, List.suffix_rfl⟩
  | case2 a b s hc ih =>
    obtain ⟨x, y, hx⟩ := ih h
    exact ⟨x, y, hx.trans (List.suffix_cons _ _)⟩
  | case3 => cases h

theorem labelLoop_suffix (src : List Byte) : (labelLoop src).2 <:+ src := by
  fun_induction labelLoop src with
  | case1 => exact List.suffix_rfl
  | case2 => exact List.nil_suffix
  | case3 => exact List.suffix_rfl
  | case4 => rename_i ih; exact (ih.trans (List.suffix_cons _ _)).trans (List.suffix_cons _ _)
  | case5 => rename_i ih; exact ih.trans (List.suffix_cons _ _)
  | case6 => exact List.suffix_rfl

theorem opExt_suffix (c : Byte) (src : List Byte) : (opExt c src).2 <:+ src := by
  unfold opExt
  have h1 : ∀ (a : Byte) (l : List Byte), l <:+ a :: l := fun a l => List.suffix_cons a l
  cases src with
  | nil => exact List.suffix_rfl
  | cons d r =>
    simp only
    split
    · split
      · exact h1 _ _
      · exact List.suffix_rfl
    · split
      · split
        · exact h1 _ _
        · exact List.suffix_rfl
      · split
        · split
          · exact h1 _ _
          · split
            · split
              · split
                · exact (h1 _ _).trans (h1 _ _)
                · exact h1 _ _
              · exact List.nil_suffix
            · exact List.suffix_rfl
        · split
          · split
            · exact h1 _ _
            · exact List.suffix_rfl
          · exact List.suffix_rfl

theorem matchLabel_suffix {α : Type} {ls : List (List Byte × α)} {src : List Byte} {v : α}
    {r : List Byte} (h : matchLabel ls src = some (v, r)) :
    ∃ l, (l, v) ∈ ls ∧ src = l ++ r := by
  induction ls with
  | nil => cases h
  | cons x ls ih =>
    obtain ⟨l, w⟩ := x
    simp only [matchLabel] at h
    split at h
    · next hc =>
      cases h
      refine ⟨l, by simp, ?_⟩
      have := List.isPrefixOf_iff_prefix.mp hc.1
      obtain ⟨t, ht⟩ := this
      rw [← ht]
      simp
    · obtain ⟨l', hl, hs⟩ := ih h
      exact ⟨l', by simp [hl], hs⟩

/-- The labels of named constants: not empty, made of name characters and colons (cc/cc.cpp
2438-2586 takes them from label tokens). -/
def Names (K : List (List Byte × Value)) : Prop :=
  ∀ x ∈ K, x.1 ≠ [] ∧ ∀ c ∈ x.1, isName c = true ∨ c = 58#8

theorem macros_ne : ∀ m ∈ macros, m ≠ [] := by decide

/-- Whatever `tokenAt` does, it consumes at least the first character and leaves a suffix. -/
theorem tokenAt_suffix {L : Nat} {K : List (List Byte × Value)} (hK : Names K) {c : Byte}
    {r rest : List Byte} (h : (∃ t, tokenAt L K c r = .done t rest) ∨ tokenAt L K c r = .again rest) :
    rest <:+ r := by
  have hdrop : ∀ (l x : List Byte), l ≠ [] → c :: r = l ++ x → x <:+ r := by
    intro l x hl he
    cases l with
    | nil => exact absurd rfl hl
    | cons a l => cases he; exact List.suffix_append _ _
  have hscan : ∀ (s : Scan), ((∃ t, s.toStep = .done t rest) ∨ s.toStep = .again rest) →
      ∃ v, s = .tok v rest := by
    intro s hs
    cases s with
    | tok v r =>
      rcases hs with ⟨t, ht⟩ | ht
      · simp only [Scan.toStep, Step.done.injEq] at ht
        exact ⟨v, by rw [ht.2]⟩
      · cases ht
    | fail => rcases hs with ⟨t, ht⟩ | ht <;> cases ht
    | oob => rcases hs with ⟨t, ht⟩ | ht <;> cases ht
  have hq : ∀ (single : Bool) (v : Value), scanQuoted single r = .tok v rest → rest <:+ r := by
    intro single v hv
    unfold scanQuoted at hv
    split at hv
    · cases hv
    · split at hv
      · cases hv
      · cases hv
      · next hs =>
        split at hv <;> cases hv <;> exact strLoop_suffix hs
  unfold tokenAt at h
  split at h
  · next t x hm =>
    obtain ⟨l, hl, hs⟩ := matchLabel_suffix hm
    have hx : x = rest := by
      rcases h with ⟨t, ht⟩ | ht
      · cases ht; rfl
      · cases ht
    subst hx
    refine hdrop l x ?_ hs
    obtain ⟨m, hm1, hm2⟩ := List.mem_map.mp hl
    cases hm2
    exact macros_ne _ hm1
  · split at h
    · next v x hm =>
      obtain ⟨l, hl, hs⟩ := matchLabel_suffix hm
      have hx : x = rest := by
        rcases h with ⟨t, ht⟩ | ht
        · cases ht; rfl
        · cases ht
      subst hx
      exact hdrop l x (hK _ hl).1 hs
    · split at h
      · have hx : (opExt c r).2 = rest := by
          rcases h with ⟨t, ht⟩ | ht
          · simp only [Step.done.injEq] at ht; exact ht.2
          · cases ht
        rw [← hx]
        exact opExt_suffix c r
      · split at h
        · obtain ⟨v, hv⟩ := hscan _ h
          exact hq _ _ hv
        · split at h
          · obtain ⟨v, hv⟩ := hscan _ h
            exact hq _ _ hv
          · split at h
            · cases r with
              | nil =>
                rcases h with ⟨t, ht⟩ | ht
                · cases ht; exact List.suffix_rfl
                · cases ht
              | cons d r' =>
                simp only at h
                split at h
                · rcases h with ⟨t, ht⟩ | ht
                  · cases ht
                  · cases ht; exact List.dropWhile_suffix _
                · split at h
                  · cases hf : findEnd (d :: r') with
                    | none => rw [hf] at h; rcases h with ⟨t, ht⟩ | ht <;> cases ht
                    | some x =>
                      rw [hf] at h
                      rcases h with ⟨t, ht⟩ | ht
                      · cases ht
                      · cases ht
                        obtain ⟨a, b, hab⟩ := findEnd_suffix hf
                        exact ((List.suffix_cons _ _).trans (List.suffix_cons _ _)).trans hab
                  · split at h
                    · rcases h with ⟨t, ht⟩ | ht
                      · cases ht; exact List.suffix_cons _ _
                      · cases ht
                    · rcases h with ⟨t, ht⟩ | ht
                      · cases ht; exact List.suffix_rfl
                      · cases ht
            · split at h
              · obtain ⟨v, hv⟩ := hscan _ h
                exact scanNumber_suffix hv
              · split at h
                · cases r with
                  | nil => rcases h with ⟨t, ht⟩ | ht <;> cases ht
                  | cons d r' =>
                    simp only at h
                    split at h
                    · rcases h with ⟨t, ht⟩ | ht
                      · cases ht; exact List.suffix_rfl
                      · cases ht
                    · split at h
                      · rcases h with ⟨t, ht⟩ | ht
                        · simp only [Step.done.injEq] at ht
                          rw [← ht.2]
                          exact (labelLoop_suffix _).trans (List.suffix_cons _ _)
                        · cases ht
                      · rcases h with ⟨t, ht⟩ | ht
                        · cases ht; exact List.suffix_rfl
                        · cases ht
                · split at h
                  · rcases h with ⟨t, ht⟩ | ht
                    · simp only [Step.done.injEq] at ht
                      rw [← ht.2]
                      exact labelLoop_suffix _
                    · cases ht
                  · rcases h with ⟨t, ht⟩ | ht
                    · cases ht; exact List.suffix_rfl
                    · cases ht

/-! ### Reads outside the source -/

theorem getLast?_cons_cons' (a : Byte) {l : List Byte} (h : l ≠ []) : (a :: l).getLast? = l.getLast? := by
  cases l with
  | nil => exact absurd rfl h
  | cons b l => rw [List.getLast?_cons_cons]

theorem getLast?_suffix {l s : List Byte} (h : s <:+ l) (hs : s ≠ []) : l.getLast? = s.getLast? := by
  obtain ⟨p, rfl⟩ := h
  rw [List.getLast?_append]
  cases hl : s.getLast? with
  | none => exact absurd (List.getLast?_eq_none_iff.mp hl) hs
  | some x => rfl

/-- The last character is a backslash or a digit. -/
def Bad (src : List Byte) : Prop := ∃ c, src.getLast? = some c ∧ (c = 92#8 ∨ isDigit c = true)

theorem Bad.suffix {l s : List Byte} (h : Bad s) (hs : s <:+ l) : Bad l := by
  obtain ⟨c, h1, h2⟩ := h
  refine ⟨c, ?_, h2⟩
  rw [getLast?_suffix hs (by rintro rfl; cases h1), h1]

theorem strLoop_oob {single : Bool} {t src : List Byte} (h : strLoop single t src = .oob) : Bad src := by
  fun_induction strLoop single t src with
  | case1 => cases h
  | case2 => cases h
  | case3 => cases h
  | case4 => cases h
  | case5 => cases h
  | case6 => exact ⟨92#8, by simp_all, Or.inl rfl⟩
  | case8 =>
    rename List.all _ isDigit = true => hall
    rename_i r' _ _ _ _
    rcases List.eq_nil_or_concat r' with rfl | ⟨s, x, rfl⟩
    · exact ⟨48#8, by simp_all, Or.inr (by decide)⟩
    · refine ⟨x, by
        rw [List.concat_eq_append, ← List.cons_append, ← List.cons_append, List.getLast?_concat], Or.inr ?_⟩
      rw [List.all_eq_true] at hall
      exact hall x (by simp)
  | case15 => cases h
  | case9 =>
    rename_i ih
    exact (ih h).suffix (((List.dropWhile_suffix _).trans (List.suffix_cons _ _)).trans (List.suffix_cons _ _))
  | case16 => rename_i ih; exact (ih h).suffix (List.suffix_cons _ _)
  | _ => rename_i ih; exact (ih h).suffix ((List.suffix_cons _ _).trans (List.suffix_cons _ _))

theorem tokenAt_oob {L : Nat} {K : List (List Byte × Value)} {c : Byte} {r : List Byte}
    (h : tokenAt L K c r = .oob) : Bad r ∨ (c = 58#8 ∧ r = []) := by
  have hscan : ∀ (s : Scan), s.toStep = .oob → s = .oob := by
    intro s hs; cases s <;> first | rfl | cases hs
  have hq : ∀ (single : Bool), scanQuoted single r = .oob → Bad r := by
    intro single hv
    unfold scanQuoted at hv
    split at hv
    · cases hv
    · split at hv
      · cases hv
      · next hs => exact strLoop_oob hs
      · split at hv <;> cases hv
  unfold tokenAt at h
  split at h
  · cases h
  · split at h
    · cases h
    · split at h
      · cases h
      · split at h
        · exact Or.inl (hq _ (hscan _ h))
        · split at h
          · exact Or.inl (hq _ (hscan _ h))
          · split at h
            · cases r with
              | nil => cases h
              | cons d r' =>
                simp only at h
                split at h
                · cases h
                · split at h
                  · cases hf : findEnd (d :: r') <;> rw [hf] at h <;> cases h
                  · split at h <;> cases h
            · split at h
              · exact absurd (hscan _ h) (scanNumber_not_oob _ _ _)
              · split at h
                · next hc =>
                  cases r with
                  | nil => exact Or.inr ⟨hc, rfl⟩
                  | cons d r' =>
                    simp only at h
                    split at h
                    · cases h
                    · split at h <;> cases h
                · split at h <;> cases h

/-! ### Locality -/

/-- Name characters are neither blank nor slash. -/
theorem isName_sep : isName 32#8 = false ∧ isName 47#8 = false := by decide

theorem run_local {p : Byte → Bool} (h1 : p 32#8 = false) (h2 : p 47#8 = false) (a b x : List Byte) :
    ∃ t r, run p (a ++ 32#8 :: b) = some (t, r ++ 32#8 :: b) ∧
      run p (a ++ 47#8 :: x) = some (t, r ++ 47#8 :: x) := by
  induction a with
  | nil => exact ⟨[], [], by simp [run, h1], by simp [run, h2]⟩
  | cons c a ih =>
    obtain ⟨t, r, e1, e2⟩ := ih
    cases hc : p c with
    | true => exact ⟨c :: t, r, by simp [run, hc, e1], by simp [run, hc, e2]⟩
    | false => exact ⟨[], c :: a, by simp [run, hc], by simp [run, hc]⟩

theorem decLoop_local (a b x : List Byte) : ∀ (d : Bool) (t : List Byte),
    (decLoop d t (a ++ 32#8 :: b) = none) ∨
    ∃ d' T r, decLoop d t (a ++ 32#8 :: b) = some (d', T, r ++ 32#8 :: b) ∧
      decLoop d t (a ++ 47#8 :: x) = some (d', T, r ++ 47#8 :: x) := by
  induction a with
  | nil =>
    intro d t
    refine Or.inr ⟨d, t, [], ?_, ?_⟩
    · simp [decLoop, show isDigit 32#8 = false from rfl]
    · simp [decLoop, show isDigit 47#8 = false from rfl]
  | cons c a ih =>
    intro d t
    by_cases h1 : c = 46#8
    · cases d with
      | true => exact Or.inl (by simp [decLoop, h1])
      | false =>
        rcases ih true (t ++ [c]) with h | ⟨d', T, r, e1, e2⟩
        · exact Or.inl (by simp only [List.cons_append, decLoop]; rw [if_pos h1]; simpa using h)
        · refine Or.inr ⟨d', T, r, ?_, ?_⟩
          · simp only [List.cons_append, decLoop]; rw [if_pos h1]; simpa using e1
          · simp only [List.cons_append, decLoop]; rw [if_pos h1]; simpa using e2
    · cases h2 : isDigit c with
      | false =>
        by_cases h3 : c = 102#8 ∨ c = 70#8
        · exact Or.inr ⟨true, t, a, by simp [decLoop, h1, h2, h3], by simp [decLoop, h1, h2, h3]⟩
        · exact Or.inr ⟨d, t, c :: a, by simp [decLoop, h1, h2, h3], by simp [decLoop, h1, h2, h3]⟩
      | true =>
        rcases ih d (t ++ [c]) with h | ⟨d', T, r, e1, e2⟩
        · exact Or.inl (by simp [decLoop, h1, h2, h])
        · exact Or.inr ⟨d', T, r, by simp [decLoop, h1, h2, e1], by simp [decLoop, h1, h2, e2]⟩

theorem scanNumber_local (L : Nat) (c : Byte) (a b x : List Byte) (v : Value) (R : List Byte)
    (h : scanNumber L c (a ++ 32#8 :: b) = .tok v R) :
    ∃ r, R = r ++ 32#8 :: b ∧ scanNumber L c (a ++ 47#8 :: x) = .tok v (r ++ 47#8 :: x) := by
  have hdec : ∀ a : List Byte, (∃ d0 t0, (match decLoop d0 t0 (a ++ 32#8 :: b) with
      | none => Scan.fail
      | some (true, t, r) => .tok (.float t) r
      | some (false, t, r) => .tok (.int (BitVec.ofNat 32 (strto (2 ^ L - 1) 10 t))) r) = .tok v R ∧
      d0 = decide (c = 46#8) ∧ t0 = [c]) →
      ∃ r, R = r ++ 32#8 :: b ∧ (match decLoop (decide (c = 46#8)) [c] (a ++ 47#8 :: x) with
      | none => Scan.fail
      | some (true, t, r) => .tok (.float t) r
      | some (false, t, r) => .tok (.int (BitVec.ofNat 32 (strto (2 ^ L - 1) 10 t))) r)
        = .tok v (r ++ 47#8 :: x) := by
    rintro a ⟨d0, t0, hh, rfl, rfl⟩
    rcases decLoop_local a b x (decide (c = 46#8)) [c] with h' | ⟨d', T, r, e1, e2⟩
    · rw [h'] at hh; cases hh
    · rw [e1] at hh
      rw [e2]
      cases d' <;> (cases hh; exact ⟨r, rfl, rfl⟩)
  cases a with
  | nil =>
    have e : ∀ (y : Byte) (z : List Byte), y = 32#8 ∨ y = 47#8 → scanNumber L c (y :: z)
        = (match decLoop (decide (c = 46#8)) [c] (y :: z) with
      | none => Scan.fail
      | some (true, t, r) => .tok (.float t) r
      | some (false, t, r) => .tok (.int (BitVec.ofNat 32 (strto (2 ^ L - 1) 10 t))) r) := by
      intro y z hy
      unfold scanNumber
      simp only
      rw [if_neg, if_neg, if_neg]
      · rfl
      · rintro ⟨_, h⟩; rcases hy with rfl | rfl <;> exact absurd h (by decide)
      · rintro ⟨_, h⟩; rcases hy with rfl | rfl <;> exact absurd h (by decide)
      · rintro ⟨_, h⟩; rcases hy with rfl | rfl <;> exact absurd h (by decide)
    rw [List.nil_append, e _ _ (Or.inl rfl)] at h
    obtain ⟨r, h1, h2⟩ := hdec [] ⟨_, _, h, rfl, rfl⟩
    exact ⟨r, h1, by rw [List.nil_append, e _ _ (Or.inr rfl)]; exact h2⟩
  | cons d a =>
    simp only [List.cons_append, scanNumber] at h ⊢
    by_cases c1 : c = 48#8 ∧ d = 120#8
    · rw [if_pos c1] at h ⊢
      obtain ⟨t, r, e1, e2⟩ := run_local (p := isXDigit) rfl rfl a b x
      rw [e1] at h
      rw [e2]
      cases h
      exact ⟨r, rfl, rfl⟩
    · rw [if_neg c1] at h ⊢
      by_cases c2 : c = 48#8 ∧ d = 98#8
      · rw [if_pos c2] at h ⊢
        obtain ⟨t, r, e1, e2⟩ := run_local (p := fun x => x = 48#8 ∨ x = 49#8) rfl rfl a b x
        rw [e1] at h
        rw [e2]
        cases h
        exact ⟨r, rfl, rfl⟩
      · rw [if_neg c2] at h ⊢
        by_cases c3 : c = 48#8 ∧ isDigit d = true
        · rw [if_pos c3] at h ⊢
          obtain ⟨t, r, e1, e2⟩ := run_local (p := fun x => 48 ≤ x.toNat && x.toNat ≤ 55) rfl rfl (d :: a) b x
          rw [List.cons_append] at e1 e2
          rw [e1] at h
          rw [e2]
          cases h
          exact ⟨r, rfl, rfl⟩
        · rw [if_neg c3] at h ⊢
          exact hdec (d :: a) ⟨_, _, h, rfl, rfl⟩

theorem dropWhile_sep (y : Byte) (hy : isDigit y = false) (a b : List Byte) :
    (a ++ y :: b).dropWhile isDigit = a.dropWhile isDigit ++ y :: b := by
  induction a with
  | nil => simp [List.dropWhile, hy]
  | cons c a ih =>
    simp only [List.cons_append, List.dropWhile_cons]
    split
    · exact ih
    · rfl

theorem takeWhile_sep (y : Byte) (hy : isDigit y = false) (a b : List Byte) :
    (a ++ y :: b).takeWhile isDigit = a.takeWhile isDigit := by
  induction a with
  | nil => simp [List.takeWhile, hy]
  | cons c a ih =>
    simp only [List.cons_append, List.takeWhile_cons]
    split
    · rw [ih]
    · rfl

theorem atoi_sep (e : Byte) (a b x : List Byte) :
    atoiByte (e :: (a ++ 32#8 :: b)) = atoiByte (e :: (a ++ 47#8 :: x)) := by
  unfold atoiByte
  rw [← List.cons_append, ← List.cons_append, takeWhile_sep _ rfl, takeWhile_sep _ rfl]

theorem strLoop_local {single : Bool} (b x T r : List Byte) : ∀ (n : Nat) (t a : List Byte),
    a.length = n → strLoop single t (a ++ 32#8 :: b) = .text T (r ++ 32#8 :: b) →
    strLoop single t (a ++ 47#8 :: x) = .text T (r ++ 47#8 :: x) := by
  have all_sep : ∀ (a b : List Byte) (y : Byte), isDigit y = false → (a ++ y :: b).all isDigit = false := by
    intro a b y hy
    simp [hy]
  intro n
  induction n using Nat.strongRecOn with
  | _ n ih =>
  intro t a hn h
  cases a with
  | nil =>
    exfalso
    rw [List.nil_append] at h
    unfold strLoop at h
    rw [if_neg (by simp), if_neg (by simp), if_neg (by simp), if_neg (by simp)] at h
    have := (strLoop_suffix h).length_le
    simp at this
    omega
  | cons c a =>
    rw [List.cons_append] at h ⊢
    unfold strLoop at h
    conv => lhs; unfold strLoop
    have hcancel : ∀ t', StrScan.text t' (a ++ 32#8 :: b) = .text T (r ++ 32#8 :: b) →
        StrScan.text t' (a ++ 47#8 :: x) = .text T (r ++ 47#8 :: x) := by
      intro t' he
      simp only [StrScan.text.injEq] at he
      rw [he.1, List.append_cancel_right he.2]
    have hlen : a.length < n := by simp at hn; omega
    by_cases c1 : c = 34#8 ∧ single = false
    · rw [if_pos c1] at h ⊢
      exact hcancel _ h
    · rw [if_neg c1] at h ⊢
      by_cases c2 : c = 39#8 ∧ single = true
      · rw [if_pos c2] at h ⊢
        split at h
        · cases h
        · next hl => rw [if_neg hl]; exact hcancel _ h
      · rw [if_neg c2] at h ⊢
        by_cases c3 : c = 10#8
        · rw [if_pos c3] at h; cases h
        · rw [if_neg c3] at h ⊢
          by_cases c4 : c = 92#8
          · rw [if_pos c4] at h ⊢
            cases a with
            | nil => simp at h
            | cons e a =>
              have hlen' : a.length < n := by simp at hn; omega
              simp only [List.cons_append] at h ⊢
              by_cases e1 : e = 92#8
              · rw [if_pos e1] at h ⊢; exact ih _ hlen' _ _ rfl h
              · rw [if_neg e1] at h ⊢
                by_cases e2 : e = 48#8
                · rw [if_pos e2] at h ⊢
                  rw [all_sep _ _ _ rfl] at h ⊢
                  simp only [Bool.false_eq_true, if_false] at h ⊢
                  rw [dropWhile_sep _ rfl] at h ⊢
                  rw [← atoi_sep _ a b x]
                  refine ih _ ?_ _ _ rfl h
                  have := (List.dropWhile_suffix isDigit (l := a)).length_le
                  omega
                · rw [if_neg e2] at h ⊢
                  by_cases e3 : e = 34#8
                  · rw [if_pos e3] at h ⊢; exact ih _ hlen' _ _ rfl h
                  · rw [if_neg e3] at h ⊢
                    by_cases e4 : e = 39#8
                    · rw [if_pos e4] at h ⊢; exact ih _ hlen' _ _ rfl h
                    · rw [if_neg e4] at h ⊢
                      by_cases e5 : e = 110#8
                      · rw [if_pos e5] at h ⊢; exact ih _ hlen' _ _ rfl h
                      · rw [if_neg e5] at h ⊢
                        by_cases e6 : e = 114#8
                        · rw [if_pos e6] at h ⊢; exact ih _ hlen' _ _ rfl h
                        · rw [if_neg e6] at h ⊢
                          by_cases e7 : e = 116#8
                          · rw [if_pos e7] at h ⊢; exact ih _ hlen' _ _ rfl h
                          · rw [if_neg e7] at h; cases h
          · rw [if_neg c4] at h ⊢
            exact ih _ hlen _ _ rfl h

theorem scanQuoted_local {single : Bool} (a b x r : List Byte) (v : Value)
    (h : scanQuoted single (a ++ 32#8 :: b) = .tok v (r ++ 32#8 :: b)) :
    scanQuoted single (a ++ 47#8 :: x) = .tok v (r ++ 47#8 :: x) := by
  have hne : ∀ (y : Byte) (z : List Byte), scanQuoted single (a ++ y :: z)
      = match strLoop single [] (a ++ y :: z) with
        | .fail => .fail
        | .oob => .oob
        | .text t r =>
          if single then .tok (.int (match t with | [c] => c.signExtend 32 | _ => 0)) r
          else .tok (.str t) r := by
    intro y z
    unfold scanQuoted
    generalize hl : a ++ y :: z = l
    cases l with
    | nil => simp at hl
    | cons => rfl
  rw [hne] at h ⊢
  cases hs : strLoop single [] (a ++ 32#8 :: b) with
  | fail => rw [hs] at h; cases h
  | oob => rw [hs] at h; cases h
  | text T R =>
    rw [hs] at h
    simp only at h
    have hR : R = r ++ 32#8 :: b := by split at h <;> (simp only [Scan.tok.injEq] at h; exact h.2)
    rw [hR] at hs
    rw [strLoop_local b x T r _ [] a rfl hs]
    simp only
    split at h
    · next hh => simp only [Scan.tok.injEq] at h; rw [if_pos hh, h.1]
    · next hh => simp only [Scan.tok.injEq] at h; rw [if_neg hh, h.1]

theorem findEnd_local (b x r : List Byte) : ∀ (a : List Byte),
    findEnd (a ++ 32#8 :: b) = some (r ++ 32#8 :: b) →
    findEnd (a ++ 47#8 :: x) = some (r ++ 47#8 :: x) := by
  have hshort : findEnd (32#8 :: b) = some (r ++ 32#8 :: b) → False := by
    intro h
    obtain ⟨p, q, hpq⟩ := findEnd_suffix h
    have := hpq.length_le
    simp at this
    omega
  intro a
  induction a with
  | nil => intro h; exact absurd h hshort
  | cons c a ih =>
    intro h
    cases a with
    | nil =>
      exfalso
      simp only [List.cons_append, List.nil_append, findEnd] at h
      rw [if_neg (by simp)] at h
      exact hshort h
    | cons d a =>
      simp only [List.cons_append, findEnd] at h ih ⊢
      by_cases hc : c = 42#8 ∧ d = 47#8
      · rw [if_pos hc] at h ⊢
        simp only [Option.some.injEq] at h
        rw [List.append_cancel_right h]
      · rw [if_neg hc] at h ⊢
        exact ih h

theorem dropNl_local (b x r : List Byte) : ∀ (a : List Byte),
    (a ++ 32#8 :: b).dropWhile (· != 10#8) = r ++ 32#8 :: b →
    (a ++ 47#8 :: x).dropWhile (· != 10#8) = r ++ 47#8 :: x := by
  intro a
  induction a with
  | nil =>
    intro h
    exfalso
    simp only [List.nil_append, List.dropWhile_cons] at h
    rw [if_pos (by decide)] at h
    have := (List.dropWhile_suffix (· != 10#8) (l := b)).length_le
    rw [h] at this
    simp at this
    omega
  | cons c a ih =>
    intro h
    simp only [List.cons_append, List.dropWhile_cons] at h ⊢
    split at h
    · next hc => rw [if_pos hc]; exact ih h
    · next hc =>
      rw [if_neg hc]
      rw [← List.cons_append] at h ⊢
      rw [List.append_cancel_right h]

theorem labelLoop_local (b x : List Byte) : ∀ (n : Nat) (a : List Byte), a.length = n →
    ∃ t r, labelLoop (a ++ 32#8 :: b) = (t, r ++ 32#8 :: b) ∧
      labelLoop (a ++ 47#8 :: x) = (t, r ++ 47#8 :: x) := by
  have hnil : ∀ (y : Byte) (z : List Byte), isName y = false → y ≠ 58#8 → labelLoop (y :: z) = ([], y :: z) := by
    intro y z hy h58
    cases z <;> simp [labelLoop, hy, h58]
  intro n
  induction n using Nat.strongRecOn with
  | _ n ih =>
  intro a hn
  cases a with
  | nil => exact ⟨[], [], hnil _ _ rfl (by decide), hnil _ _ rfl (by decide)⟩
  | cons c a =>
    cases a with
    | nil =>
      have h32 := hnil 32#8 b rfl (by decide)
      have h47 := hnil 47#8 x rfl (by decide)
      cases hc : isName c with
      | true =>
        refine ⟨[c], [], ?_, ?_⟩
        · simp [labelLoop, hc, h32]
        · simp [labelLoop, hc, h47]
      | false =>
        refine ⟨[], [c], ?_, ?_⟩ <;> simp [labelLoop, hc]
    | cons d a =>
      simp only [List.cons_append, labelLoop]
      by_cases h1 : c = 58#8 ∧ d = 58#8
      · obtain ⟨t, r, e1, e2⟩ := ih a.length (by simp at hn; omega) a rfl
        refine ⟨58#8 :: 58#8 :: t, r, ?_, ?_⟩
        · rw [if_pos h1, e1]
        · rw [if_pos h1, e2]
      · cases hc : isName c with
        | true =>
          obtain ⟨t, r, e1, e2⟩ := ih (d :: a).length (by simp at hn ⊢; omega) (d :: a) rfl
          rw [List.cons_append] at e1 e2
          refine ⟨c :: t, r, ?_, ?_⟩
          · rw [if_neg h1, if_pos rfl, e1]
          · rw [if_neg h1, if_pos rfl, e2]
        | false =>
          refine ⟨[], c :: d :: a, ?_, ?_⟩
          · rw [if_neg h1]; simp
          · rw [if_neg h1]; simp

theorem opExt_local (c : Byte) (a b x : List Byte) :
    ∃ t r, opExt c (a ++ 32#8 :: b) = (t, r ++ 32#8 :: b) ∧
      opExt c (a ++ 47#8 :: x) = (t, r ++ 47#8 :: x) := by
  cases a with
  | nil =>
    refine ⟨[], [], ?_, ?_⟩
    · simp only [List.nil_append, opExt]
      split
      · rfl
      · split
        · rfl
        · split
          · next h => rcases h with rfl | rfl <;> rfl
          · split
            · next h => rcases h with rfl | rfl | rfl <;> rfl
            · rfl
    · simp only [List.nil_append, opExt]
      split
      · rfl
      · split
        · rfl
        · split
          · next h => rcases h with rfl | rfl <;> rfl
          · split
            · next h => rcases h with rfl | rfl | rfl <;> rfl
            · rfl
  | cons d a =>
    simp only [List.cons_append, opExt]
    by_cases h1 : c = 45#8
    · simp only [if_pos h1]
      by_cases h2 : d = 45#8 ∨ d = 61#8
      · simp only [if_pos h2]; exact ⟨[d], a, rfl, rfl⟩
      · simp only [if_neg h2]; exact ⟨[], d :: a, rfl, rfl⟩
    · simp only [if_neg h1]
      by_cases h3 : c = 61#8 ∨ c = 33#8 ∨ c = 42#8 ∨ c = 37#8 ∨ c = 94#8
      · simp only [if_pos h3]
        by_cases h2 : d = 61#8
        · simp only [if_pos h2]; exact ⟨[d], a, rfl, rfl⟩
        · simp only [if_neg h2]; exact ⟨[], d :: a, rfl, rfl⟩
      · simp only [if_neg h3]
        by_cases h4 : c = 60#8 ∨ c = 62#8
        · simp only [if_pos h4]
          by_cases h2 : d = 61#8
          · simp only [if_pos h2]; exact ⟨[d], a, rfl, rfl⟩
          · simp only [if_neg h2]
            by_cases h5 : d = c
            · simp only [if_pos h5]
              cases a with
              | nil => exact ⟨[d], [], rfl, rfl⟩
              | cons e a =>
                simp only [List.cons_append]
                by_cases h6 : e = 61#8
                · simp only [if_pos h6]; exact ⟨[d, e], a, rfl, rfl⟩
                · simp only [if_neg h6]; exact ⟨[d], e :: a, rfl, rfl⟩
            · simp only [if_neg h5]; exact ⟨[], d :: a, rfl, rfl⟩
        · simp only [if_neg h4]
          by_cases h7 : c = 38#8 ∨ c = 124#8 ∨ c = 43#8
          · simp only [if_pos h7]
            by_cases h2 : d = c ∨ d = 61#8
            · simp only [if_pos h2]; exact ⟨[d], a, rfl, rfl⟩
            · simp only [if_neg h2]; exact ⟨[], d :: a, rfl, rfl⟩
          · simp only [if_neg h7]; exact ⟨[], d :: a, rfl, rfl⟩

theorem prefix_sep (l a b : List Byte) (y : Byte) (hl : y ∉ l) : l <+: a ++ y :: b ↔ l <+: a := by
  constructor
  · intro h
    rcases List.prefix_or_prefix_of_prefix h (List.prefix_append a (y :: b)) with h1 | h1
    · exact h1
    · obtain ⟨s, rfl⟩ := h1
      rw [List.prefix_append_right_inj] at h
      cases s with
      | nil => simp
      | cons z s =>
        rw [List.cons_prefix_cons] at h
        exact absurd (by simp [h.1]) hl
  · intro h
    exact h.trans (List.prefix_append _ _)

theorem matchLabel_local {α : Type} (ls : List (List Byte × α)) (a b x : List Byte)
    (hl : ∀ l ∈ ls, 32#8 ∉ l.1 ∧ 47#8 ∉ l.1) :
    (matchLabel ls (a ++ 32#8 :: b) = none ∧ matchLabel ls (a ++ 47#8 :: x) = none) ∨
    ∃ v r, matchLabel ls (a ++ 32#8 :: b) = some (v, r ++ 32#8 :: b) ∧
      matchLabel ls (a ++ 47#8 :: x) = some (v, r ++ 47#8 :: x) := by
  induction ls with
  | nil => exact Or.inl ⟨rfl, rfl⟩
  | cons e ls ih =>
    obtain ⟨l, w⟩ := e
    obtain ⟨n1, n2⟩ := hl (l, w) (by simp)
    have ih := ih fun l h => hl l (by simp [h])
    simp only [matchLabel]
    by_cases hp : l <+: a
    · obtain ⟨s, rfl⟩ := hp
      have hd : ∀ (y : Byte) (z : List Byte), (l ++ s ++ y :: z).drop l.length = s ++ y :: z := by
        intro y z; rw [List.append_assoc, List.drop_left]
      have h1 : ∀ (y : Byte) (z : List Byte), l.isPrefixOf (l ++ s ++ y :: z) = true := by
        intro y z; rw [List.isPrefixOf_iff_prefix, List.append_assoc]; exact List.prefix_append _ _
      have h2 : ∀ (y : Byte) (z : List Byte), l.length < (l ++ s ++ y :: z).length := by
        intro y z; simp; omega
      by_cases hn : isName ((s ++ 32#8 :: b).headD 0) = false
      · have hn' : isName ((s ++ 47#8 :: x).headD 0) = false := by
          cases s with
          | nil => rfl
          | cons z s => exact hn
        refine Or.inr ⟨w, s, ?_, ?_⟩
        · rw [if_pos ⟨h1 _ _, h2 _ _, by rw [hd]; exact hn⟩, hd]
        · rw [if_pos ⟨h1 _ _, h2 _ _, by rw [hd]; exact hn'⟩, hd]
      · have e1 : ¬ (l.isPrefixOf (l ++ s ++ 32#8 :: b) = true ∧ l.length < (l ++ s ++ 32#8 :: b).length ∧
            isName (((l ++ s ++ 32#8 :: b).drop l.length).headD 0) = false) := by
          rw [hd]; rintro ⟨_, _, h⟩; exact hn h
        have e2 : ¬ (l.isPrefixOf (l ++ s ++ 47#8 :: x) = true ∧ l.length < (l ++ s ++ 47#8 :: x).length ∧
            isName (((l ++ s ++ 47#8 :: x).drop l.length).headD 0) = false) := by
          rw [hd]
          rintro ⟨_, _, h⟩
          cases s with
          | nil => exact hn rfl
          | cons z s => exact hn h
        rw [if_neg e1, if_neg e2]
        exact ih
    · rw [if_neg, if_neg]
      · exact ih
      · rintro ⟨h, _⟩
        rw [List.isPrefixOf_iff_prefix, prefix_sep _ _ _ _ n2] at h
        exact hp h
      · rintro ⟨h, _⟩
        rw [List.isPrefixOf_iff_prefix, prefix_sep _ _ _ _ n1] at h
        exact hp h

end Wrench.Cc
