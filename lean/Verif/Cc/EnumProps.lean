import Verif.Cc.Enum
import Verif.Cc.ScannerProps
import Verif.Cc.LiteralProps

/-
C71: the members of an enumeration stand for their values.
-/
namespace Wrench.Cc.Enum

open Wrench Wrench.Cc

/-! ### Specification -/

/-- A member: its name, and what it is set to: sign, text and magnitude. -/
structure Member where
  name : List Byte
  init : Option (Bool × List Byte × Nat)

/-- The value of a member: the one written, or one more than the value of the member before. -/
def Member.value (prev : Int) (m : Member) : Int :=
  match m.init with
  | none => prev + 1
  | some (true, _, n) => - (n : Int)
  | some (false, _, n) => n

/-- The values of the members of an enumeration; the first one counts from zero. -/
def values : Int → List Member → List Int
  | _, [] => []
  | prev, m :: ms => m.value prev :: values (m.value prev) ms

/-- ` = - 12` -/
def Member.initText (m : Member) : List Byte :=
  match m.init with
  | none => []
  | some (true, t, _) => ascii " = - " ++ t
  | some (false, t, _) => ascii " = " ++ t

/-- ` name = - 12 ,` -/
def Member.text (m : Member) : List Byte := 32#8 :: m.name ++ m.initText ++ [32#8, 44#8]

/-- The optional name. -/
def headText : Option (List Byte) → List Byte
  | none => []
  | some e => 32#8 :: e

/-- The text of a declaration after the keyword: ` Name { a , b = 5 , } ;`. -/
def declText (name : Option (List Byte)) (ms : List Member) (rest : List Byte) : List Byte :=
  headText name ++ [32#8, 123#8] ++ ms.flatMap Member.text ++
    [32#8, 125#8, 32#8, 59#8] ++ rest

/-- The name under which a member is known. -/
def label (name : Option (List Byte)) (m : Member) : List Byte :=
  match name with
  | none => m.name
  | some e => e ++ ascii "::" ++ m.name

/-- A member is well written: a proper name, and the number as C39 has it; the value leaves room for
its successor. -/
def Member.Ok (m : Member) : Prop :=
  validLabel m.name = true ∧ ∀ s t n, m.init = some (s, t, n) → Denotes t n ∧ n < 2 ^ 31

/-- The labels of `K` are names or qualified names. -/
def Labels (K : Consts) : Prop :=
  ∀ x ∈ K, validLabel x.1 = true ∨ ∃ e m, x.1 = e ++ ascii "::" ++ m ∧ validLabel e = true ∧ validLabel m = true

/-! ### Names -/

theorem valid_cons {t : List Byte} (h : validLabel t = true) : ∃ c w, t = c :: w ∧ (isAlpha c = true ∨ c = 95#8) ∧
    (∀ d ∈ w, isName d = true) ∧ c :: w ∉ reserved := by
  cases t with
  | nil => simp [validLabel] at h
  | cons c w =>
    simp only [validLabel, Bool.and_eq_true, Bool.or_eq_true, beq_iff_eq, List.all_eq_true, Bool.not_eq_true',
      List.contains_eq_mem, decide_eq_false_iff_not] at h
    exact ⟨c, w, rfl, h.1.1, h.1.2, h.2⟩

theorem valid_name {t : List Byte} (h : validLabel t = true) : ∀ d ∈ t, isName d = true := by
  obtain ⟨c, w, rfl, h1, h2, -⟩ := valid_cons h
  intro d hd
  rcases List.mem_cons.mp hd with rfl | hd
  · rcases h1 with h | rfl
    · simp [isName, h]
    · rfl
  · exact h2 d hd

theorem valid_ne {t : List Byte} (h : validLabel t = true) : t ≠ [] := by
  obtain ⟨c, w, rfl, -⟩ := valid_cons h; simp

theorem alpha_not_digit {c : Byte} (h : isAlpha c = true ∨ c = 95#8) : isDigit c = false := by
  rcases h with h | rfl
  · simp only [isAlpha, isDigit, Bool.or_eq_true, Bool.and_eq_true, decide_eq_true_eq, Bool.and_eq_false_iff,
      decide_eq_false_iff_not] at *
    omega
  · rfl

/-- The first character of a label is a letter or an underscore. -/
theorem Labels.head {K : Consts} (h : Labels K) {x : List Byte × Value} (hx : x ∈ K) :
    ∃ c w, x.1 = c :: w ∧ (isAlpha c = true ∨ c = 95#8) := by
  rcases h x hx with h | ⟨e, m, h, he, -⟩
  · obtain ⟨c, w, h1, h2, -⟩ := valid_cons h; exact ⟨c, w, h1, h2⟩
  · obtain ⟨c, w, rfl, h2, -⟩ := valid_cons he; exact ⟨c, _, h, h2⟩

theorem Labels.names {K : Consts} (h : Labels K) : Names K := by
  intro x hx
  rcases h x hx with h | ⟨e, m, h, he, hm⟩
  · exact ⟨valid_ne h, fun c hc => .inl (valid_name h c hc)⟩
  · rw [h]
    refine ⟨by simp [valid_ne he], fun c hc => ?_⟩
    simp only [List.mem_append] at hc
    rcases hc with (hc | hc) | hc
    · exact .inl (valid_name he c hc)
    · right
      have : ascii "::" = [58#8, 58#8] := by decide
      rw [this] at hc; simpa using hc
    · exact .inl (valid_name hm c hc)

theorem Labels.snoc {K : Consts} (h : Labels K) {l : List Byte} {v : Value}
    (hl : validLabel l = true ∨ ∃ e m, l = e ++ ascii "::" ++ m ∧ validLabel e = true ∧ validLabel m = true) :
    Labels (K ++ [(l, v)]) := by
  intro x hx
  rw [List.mem_append] at hx
  rcases hx with hx | hx
  · exact h x hx
  · simp only [List.mem_singleton] at hx; subst hx; exact hl

/-! ### Scanning the tokens of a declaration -/

variable (L : Nat) {K : Consts}

theorem skip_blank (hK : Labels K) (src : List Byte) : getToken L K (32#8 :: src) = getToken L K src :=
  C41_whitespace L K hK.names [32#8] src (by decide)

theorem nameEnd_blank (r : List Byte) : NameEnd (32#8 :: r) := by
  intro d hd; simp at hd; subst hd; decide

/-- A name that is not a constant. -/
theorem scan_name (hK : Labels K) {w : List Byte} (hw : validLabel w = true) (hn : w ∉ K.map (·.1)) (r : List Byte) :
    getToken L K (32#8 :: (w ++ 32#8 :: r)) = .tok (.sym w) (32#8 :: r) := by
  obtain ⟨c, w, rfl, h1, h2, h3⟩ := valid_cons hw
  rw [skip_blank L hK, C41_name L K hK.names c w (32#8 :: r) h1 h2 (nameEnd_blank r)
    (fun x hx e => hn (List.mem_map.2 ⟨x, hx, e⟩))]
  have e1 : c :: w ≠ ascii "true" := fun e => h3 (by rw [e]; decide)
  have e2 : c :: w ≠ ascii "false" := fun e => h3 (by rw [e]; decide)
  have e3 : c :: w ≠ ascii "null" := fun e => h3 (by rw [e]; decide)
  have f1 : ¬ c :: w = "true".toList.map (fun c => BitVec.ofNat 8 c.toNat) := e1
  have f2 : ¬ (c :: w = "false".toList.map (fun c => BitVec.ofNat 8 c.toNat) ∨
    c :: w = "null".toList.map (fun c => BitVec.ofNat 8 c.toNat)) := by rintro (h | h) <;> contradiction
  rw [if_neg f1, if_neg f2]

/-- A mark. -/
theorem scan_mark (hK : Labels K) (c : Byte) (hc : c = 123#8 ∨ c = 125#8 ∨ c = 44#8 ∨ c = 59#8) (r : List Byte) :
    getToken L K (32#8 :: c :: r) = .tok (.sym [c]) r := by
  rw [skip_blank L hK, getToken_eq L K hK.names]
  have e : c ≠ 58#8 ∧ isName c = false ∧ c ≠ 46#8 ∧ isSpace c = false ∧ isOper c = false ∧ c ≠ 34#8 ∧ c ≠ 39#8 ∧
      c ≠ 47#8 ∧ isDigit c = false ∧ isAlpha c = false ∧ c ≠ 95#8 := by
    rcases hc with rfl | rfl | rfl | rfl <;> decide
  obtain ⟨e1, e2, e3, e4, e5, e6, e7, e8, e9, e10, e11⟩ := e
  obtain ⟨m1, m2⟩ := label_none K hK.names c r e2 e1 e3
  rw [List.dropWhile_cons, e4]
  simp only [Bool.false_eq_true, if_false]
  unfold tokenAt
  rw [m1, m2]
  simp [e1, e3, e5, e6, e7, e8, e9, e10, e11]

theorem scan_op (hK : Labels K) (c : Byte) (hc : c = 61#8 ∨ c = 45#8) (r : List Byte) :
    getToken L K (32#8 :: c :: 32#8 :: r) = .tok (.sym [c]) (32#8 :: r) := by
  rw [skip_blank L hK]
  exact C41_operator L K hK.names [c] (by rcases hc with rfl | rfl <;> decide) (32#8 :: r)
    (by intro d hd; simp at hd; subst hd; decide)

theorem digit_label {α : Type} (c : Byte) (hc : isDigit c = true) (r : List Byte) (ls : List (List Byte × α))
    (h : ∀ x ∈ ls, ∃ d w, x.1 = d :: w ∧ isDigit d = false) : matchLabel ls (c :: r) = none := by
  cases hm : matchLabel ls (c :: r) with
  | none => rfl
  | some x =>
    obtain ⟨v, y⟩ := x
    obtain ⟨l, h1, h2⟩ := matchLabel_suffix hm
    obtain ⟨d, w, e, hd⟩ := h _ h1
    simp only at e
    rw [e] at h2
    cases h2
    rw [hd] at hc; cases hc

theorem denotes_digit {t : List Byte} {n : Nat} (h : Denotes t n) : ∃ c w, t = c :: w ∧ isDigit c = true := by
  cases h with
  | hex cs ds hd => exact ⟨_, _, rfl, rfl⟩
  | bin cs ds hd => exact ⟨_, _, rfl, rfl⟩
  | oct cs ds hd hne => exact ⟨_, _, rfl, rfl⟩
  | dec cs ds hd h0 hne =>
    cases t with
    | nil => exact absurd rfl hne
    | cons c w =>
      refine ⟨c, w, rfl, ?_⟩
      obtain ⟨d, h1, h2⟩ := Forall₂.all hd (List.mem_cons_self)
      simp only [isDigit, Bool.and_eq_true, decide_eq_true_eq]
      omega

/-- A number. -/
theorem scan_num (hL : 32 ≤ L) (hK : Labels K) {t : List Byte} {n : Nat} (h : Denotes t n) (hn : n < 2 ^ 31) (r : List Byte) :
    getToken L K (32#8 :: (t ++ 32#8 :: r)) = .tok (.lit (.int (BitVec.ofNat 32 n))) (32#8 :: r) := by
  obtain ⟨c, w, rfl, hc⟩ := denotes_digit h
  have hd : 48 ≤ c.toNat ∧ c.toNat ≤ 57 := by simpa [isDigit] using hc
  have hne : ∀ k : Nat, k < 48 ∨ 57 < k → k < 256 → c ≠ BitVec.ofNat 8 k := by
    rintro k hk h256 rfl
    simp only [BitVec.toNat_ofNat, Nat.reducePow, Nat.mod_eq_of_lt h256] at hd
    omega
  have hp : 2 ^ 31 ≤ 2 ^ (L - 1) := Nat.pow_le_pow_right (by omega) (by omega)
  have hs := C39_scan L (c :: w) n h (by omega) c w rfl 32#8 (by simp [Ends]) r
  have m1 : matchLabel (macros.map fun m => (m, Tok.sym m)) (c :: (w ++ 32#8 :: r)) = none := by
    refine digit_label c hc _ _ ?_
    intro x hx
    obtain ⟨m, hm, rfl⟩ := List.mem_map.mp hx
    have : ∀ m ∈ macros, ∃ d w, m = d :: w ∧ isDigit d = false := by
      intro m hm
      have hh : ∀ m ∈ macros, m.head? = some 46#8 := by decide
      cases m with
      | nil => exact absurd (hh _ hm) (by simp)
      | cons d w => have := hh _ hm; simp at this; subst this; exact ⟨_, _, rfl, rfl⟩
    exact this m hm
  have m2 : matchLabel K (c :: (w ++ 32#8 :: r)) = none := by
    refine digit_label c hc _ _ fun x hx => ?_
    obtain ⟨d, w, e, hd⟩ := hK.head hx
    exact ⟨d, w, e, alpha_not_digit hd⟩
  have hsp : isSpace c = false := by
    simp only [isSpace, Bool.or_eq_false_iff, Bool.and_eq_false_iff, decide_eq_false_iff_not]
    omega
  have hop : isOper c = false := by
    simp only [isOper, decide_eq_false_iff_not]
    have := hne 45 (by omega) (by omega)
    have := hne 61 (by omega) (by omega)
    have := hne 33 (by omega) (by omega)
    have := hne 42 (by omega) (by omega)
    have := hne 37 (by omega) (by omega)
    have := hne 94 (by omega) (by omega)
    have := hne 60 (by omega) (by omega)
    have := hne 62 (by omega) (by omega)
    have := hne 38 (by omega) (by omega)
    have := hne 124 (by omega) (by omega)
    have := hne 43 (by omega) (by omega)
    simp [*]
  rw [skip_blank L hK, getToken_eq L K hK.names, List.cons_append, List.dropWhile_cons, hsp]
  simp only [Bool.false_eq_true, if_false]
  unfold tokenAt
  rw [m1, m2]
  simp only [hop, hne 34 (by omega) (by omega), hne 39 (by omega) (by omega), hne 47 (by omega) (by omega), hc, true_or,
    if_true, if_false, Bool.false_eq_true, hs, Scan.toStep]

/-! ### The declaration -/

/-- The constants a declaration adds. -/
def added (name : Option (List Byte)) (prev : Int) (ms : List Member) : Consts :=
  (ms.zip (values prev ms)).map fun x => (label name x.1, .int (BitVec.ofInt 32 x.2))

/-- What is put in front of the members' names. -/
def pfxOf : Option (List Byte) → List Byte
  | none => []
  | some e => e ++ ascii "::"

theorem label_eq (name : Option (List Byte)) (m : Member) : label name m = pfxOf name ++ m.name := by
  cases name <;> simp [label, pfxOf]

theorem valid_sym {w : List Byte} (h : validLabel w = true) (c : Byte) (hc : isName c = false) : w ≠ [c] := by
  rintro rfl
  have := valid_name h c (by simp)
  rw [hc] at this; cases this

theorem next_tok {pend : Option Tok} {src r : List Byte} {t : Tok} (hp : pend = none) (h : getToken L K src = .tok t r) :
    next L K pend src = some (t, r) := by
  subst hp; simp [next, h]

theorem a_rb : ascii "}" = [125#8] := by decide
theorem a_cm : ascii "," = [44#8] := by decide
theorem a_eq : ascii "=" = [61#8] := by decide
theorem a_mi : ascii "-" = [45#8] := by decide
theorem a_lb : ascii "{" = [123#8] := by decide
theorem a_sc : ascii ";" = [59#8] := by decide
theorem a_se : ascii " = " = [32#8, 61#8, 32#8] := by decide
theorem a_sm : ascii " = - " = [32#8, 61#8, 32#8, 45#8, 32#8] := by decide

/-- The comma after a member. -/
theorem loop_comma (hK : Labels K) (pfx : List Byte) (n : Nat) (index : Int) (r : List Byte) :
    loop L pfx (n + 1) index K none (32#8 :: 44#8 :: r) = loop L pfx n index K none r ∧
    loop L pfx (n + 1) index K (some (.sym [44#8])) r = loop L pfx n index K none r := by
  constructor
  · rw [loop, next_tok L rfl (scan_mark L hK 44#8 (by decide) r)]
    simp only [a_rb, a_cm]
    rw [if_neg (by decide), if_pos trivial]
  · rw [loop]
    simp only [next, a_rb, a_cm]
    rw [if_neg (by decide), if_pos trivial]

/-- The beginning of a member: its name is read, `index++`. -/
theorem loop_name (hK : Labels K) (pfx w : List Byte) (hw : validLabel w = true) (hn : w ∉ K.map (·.1)) (n : Nat)
    (index : Int) (hi : index ≠ 2147483647) (r : List Byte) :
    loop L pfx (n + 1) index K none (32#8 :: (w ++ 32#8 :: r)) =
      match next L K none (32#8 :: r) with
        | none => .err
        | some (t2, r2) =>
          if t2 = .sym (ascii "=") then
            match explicit L K r2 with
            | none => .err
            | some (neg, v, r3) =>
              match settle neg index v with
              | none => .ub
              | some none => .err
              | some (some (v, index)) =>
                if (pfx ++ w) ∈ K.map (·.1) then .err
                else loop L pfx n index (K ++ [(pfx ++ w, v)]) none r3
          else if (pfx ++ w) ∈ K.map (·.1) then .err
          else loop L pfx n (index + 1) (K ++ [(pfx ++ w, .int (BitVec.ofInt 32 index))]) (some t2) r2 := by
  rw [loop, next_tok L rfl (scan_name L hK hw hn r)]
  simp only [a_rb, a_cm, text, hw]
  rw [if_neg (by intro e; exact valid_sym hw 125#8 (by decide) (by simpa using e)),
    if_neg (by intro e; exact valid_sym hw 44#8 (by decide) (by simpa using e)), if_neg (by simp), if_neg hi]
  cases next L K none (32#8 :: r) with
  | none => rfl
  | some p =>
    obtain ⟨t2, r2⟩ := p
    simp only [a_eq]
    split
    · cases explicit L K r2 with
      | none => rfl
      | some q =>
        obtain ⟨neg, v, r3⟩ := q
        simp only
        cases settle neg index v with
        | none => rfl
        | some q => cases q <;> rfl
    · rfl

theorem ofInt_ofNat (n : Nat) : BitVec.ofInt 32 (n : Int) = BitVec.ofNat 32 n := by simp

theorem ofInt_neg_ofNat (n : Nat) : BitVec.ofInt 32 (-(n : Int)) = - BitVec.ofNat 32 n := by
  rw [BitVec.ofInt_neg]; simp

/-- A value in range settles on itself. -/
theorem settle_int (neg : Bool) (index : Int) (n : Nat) (hn : n < 2 ^ 31) (v : Int) (hv : v = if neg then -(n : Int) else n)
    (hm : v < 2147483647) :
    settle neg index (.int (BitVec.ofNat 32 n)) = some (some (.int (BitVec.ofInt 32 v), v + 1)) := by
  have h1 : BitVec.ofNat 32 n ≠ 0x80000000#32 := by
    intro e
    have := congrArg BitVec.toNat e
    simp at this
    omega
  have hw : (if neg = true then - BitVec.ofNat 32 n else BitVec.ofNat 32 n) = BitVec.ofInt 32 v := by
    subst hv
    cases neg
    · simp
    · simp only [if_true]; exact (ofInt_neg_ofNat n).symm
  have hr : -2147483648 ≤ v ∧ v < 2147483647 := by
    refine ⟨?_, hm⟩
    subst hv
    split <;> omega
  have ht : (BitVec.ofInt 32 v).toInt = v := by
    rw [BitVec.toInt_ofInt, Int.bmod_eq_of_le (by simp; omega) (by simp; omega)]
  have h2 : BitVec.ofInt 32 v ≠ 0x7FFFFFFF#32 := by
    intro e
    rw [e] at ht
    have : (0x7FFFFFFF#32).toInt = 2147483647 := by decide
    omega
  simp only [settle]
  rw [if_neg (fun g => h1 g.2), hw, if_neg h2, ht]

/-- A whole member and its comma. -/
theorem loop_member (hL : 32 ≤ L) (hK : Labels K) (pfx : List Byte) (m : Member) (ho : m.Ok)
    (hl : Labels (K ++ [(pfx ++ m.name, .int (BitVec.ofInt 32 0))]))
    (hn : m.name ∉ K.map (·.1)) (hp : pfx ++ m.name ∉ K.map (·.1)) (n : Nat) (prev : Int) (hi : prev + 1 < 2147483647)
    (hv : m.value prev < 2147483647) (r : List Byte) :
    loop L pfx (n + 2) (prev + 1) K none (m.text ++ r) =
      loop L pfx n (m.value prev + 1) (K ++ [(pfx ++ m.name, .int (BitVec.ofInt 32 (m.value prev)))]) none r := by
  obtain ⟨o1, o2⟩ := ho
  have hl' : ∀ v, Labels (K ++ [(pfx ++ m.name, v)]) := by
    intro v
    refine hK.snoc ?_
    exact hl (pfx ++ m.name, .int (BitVec.ofInt 32 0)) (by simp)
  cases hm : m.init with
  | none =>
    have e : m.text ++ r = 32#8 :: (m.name ++ 32#8 :: 44#8 :: r) := by
      simp [Member.text, Member.initText, hm]
    have ev : m.value prev = prev + 1 := by simp [Member.value, hm]
    rw [e, loop_name L hK pfx m.name o1 hn (n + 1) (prev + 1) (by omega), next_tok L rfl (scan_mark L hK 44#8 (by decide) r)]
    simp only [a_eq]
    rw [if_neg (by decide), if_neg hp, (loop_comma L (hl' _) pfx n _ r).2, ev]
  | some i =>
    obtain ⟨s, t, k⟩ := i
    obtain ⟨d1, d2⟩ := o2 s t k hm
    cases s with
    | false =>
      have e : m.text ++ r = 32#8 :: (m.name ++ 32#8 :: 61#8 :: 32#8 :: (t ++ 32#8 :: 44#8 :: r)) := by
        simp [Member.text, Member.initText, hm, a_se]
      have ev : m.value prev = k := by simp [Member.value, hm]
      have ex : explicit L K (32#8 :: (t ++ 32#8 :: 44#8 :: r)) =
          some (false, .int (BitVec.ofNat 32 k), 32#8 :: 44#8 :: r) := by
        rw [explicit, next_tok L rfl (scan_num L hL hK d1 d2 (44#8 :: r))]
        simp only [text, a_mi]
        rw [if_neg (by decide)]
      rw [e, loop_name L hK pfx m.name o1 hn (n + 1) (prev + 1) (by omega),
        next_tok L rfl (scan_op L hK 61#8 (by decide) _)]
      simp only [a_eq, if_true, ex]
      rw [settle_int false _ k d2 k (by simp) (by omega)]
      simp only
      rw [if_neg hp, (loop_comma L (hl' _) pfx n _ r).1, ev]
    | true =>
      have e : m.text ++ r = 32#8 :: (m.name ++ 32#8 :: 61#8 :: 32#8 :: 45#8 :: 32#8 :: (t ++ 32#8 :: 44#8 :: r)) := by
        simp [Member.text, Member.initText, hm, a_sm]
      have ev : m.value prev = -(k : Int) := by simp [Member.value, hm]
      have ex : explicit L K (32#8 :: 45#8 :: 32#8 :: (t ++ 32#8 :: 44#8 :: r)) =
          some (true, .int (BitVec.ofNat 32 k), 32#8 :: 44#8 :: r) := by
        rw [explicit, next_tok L rfl (scan_op L hK 45#8 (by decide) _)]
        simp only [text, a_mi, if_true]
        rw [next_tok L rfl (scan_num L hL hK d1 d2 (44#8 :: r))]
      rw [e, loop_name L hK pfx m.name o1 hn (n + 1) (prev + 1) (by omega),
        next_tok L rfl (scan_op L hK 61#8 (by decide) _)]
      simp only [a_eq, if_true, ex]
      rw [settle_int true _ k d2 (-(k : Int)) (by simp) (by omega)]
      simp only
      rw [if_neg hp, (loop_comma L (hl' _) pfx n _ r).1, ev]

/-- The declaration is well formed: the members are well written, distinct, and new. -/
structure Fresh (K : Consts) (name : Option (List Byte)) (ms : List Member) : Prop where
  head : ∀ e, name = some e → validLabel e = true
  ok : ∀ m ∈ ms, m.Ok
  nodup : (ms.map Member.name).Nodup
  plain : ∀ m ∈ ms, m.name ∉ K.map (·.1)
  new : ∀ m ∈ ms, label name m ∉ K.map (·.1)

theorem colon_in (e m : List Byte) : 58#8 ∈ e ++ ascii "::" ++ m := by
  have : ascii "::" = [58#8, 58#8] := by decide
  simp [this]

theorem Fresh.step {name : Option (List Byte)} {m : Member} {ms : List Member} (hf : Fresh K name (m :: ms)) (prev : Int) :
    Fresh (K ++ [(pfxOf name ++ m.name, .int (BitVec.ofInt 32 (m.value prev)))]) name ms := by
  have hnd := hf.nodup
  simp only [List.map_cons, List.nodup_cons] at hnd
  refine ⟨hf.head, fun x hx => hf.ok x (by simp [hx]), hnd.2, fun x hx => ?_, fun x hx => ?_⟩
  · have h1 := hf.plain x (by simp [hx])
    simp only [List.map_append, List.map_cons, List.map_nil, List.mem_append, List.mem_singleton, not_or]
    refine ⟨h1, fun e => ?_⟩
    cases hname : name with
    | none =>
      rw [hname] at e
      simp only [pfxOf, List.nil_append] at e
      exact hnd.1 (List.mem_map.2 ⟨x, hx, e⟩)
    | some d =>
      rw [hname] at e
      simp only [pfxOf] at e
      have hc := colon_in d m.name
      rw [← e] at hc
      have := valid_name (hf.ok x (by simp [hx])).1 _ hc
      exact absurd this (by decide)
  · have h1 := hf.new x (by simp [hx])
    simp only [List.map_append, List.map_cons, List.map_nil, List.mem_append, List.mem_singleton, not_or]
    refine ⟨h1, fun e => ?_⟩
    rw [label_eq, List.append_cancel_left_eq] at e
    exact hnd.1 (List.mem_map.2 ⟨x, hx, e⟩)

theorem loop_members (hL : 32 ≤ L) (name : Option (List Byte)) : ∀ (ms : List Member) (K : Consts) (n : Nat) (prev : Int)
    (rest : List Byte), Labels K → Fresh K name ms → (∀ v ∈ prev :: values prev ms, v < 2147483646) →
    loop L (pfxOf name) (2 * ms.length + n + 1) (prev + 1) K none (ms.flatMap Member.text ++ [32#8, 125#8, 32#8, 59#8] ++ rest) =
      .ok (K ++ added name prev ms) rest ∧ Labels (K ++ added name prev ms) := by
  intro ms
  induction ms with
  | nil =>
    intro K n prev rest hK hf hv
    refine ⟨?_, by simpa [added] using hK⟩
    simp only [List.flatMap_nil, List.nil_append, List.length_nil, Nat.mul_zero, Nat.zero_add, List.cons_append]
    rw [loop, next_tok L rfl (scan_mark L hK 125#8 (by decide) _)]
    simp only [a_rb, if_true, finish]
    rw [scan_mark L hK 59#8 (by decide) rest]
    simp [text, a_sc, added]
  | cons m ms ih =>
    intro K n prev rest hK hf hv
    have hlab : validLabel (pfxOf name ++ m.name) = true ∨ ∃ e k, pfxOf name ++ m.name = e ++ ascii "::" ++ k ∧
        validLabel e = true ∧ validLabel k = true := by
      have hm := (hf.ok m (by simp)).1
      cases name with
      | none => left; simpa [pfxOf] using hm
      | some e => right; exact ⟨e, m.name, by simp [pfxOf], hf.head e rfl, hm⟩
    have hval := hv (m.value prev) (by simp [values])
    have hprev := hv prev (by simp)
    have hstep := loop_member L hL hK (pfxOf name) m (hf.ok m (by simp)) (hK.snoc hlab) (hf.plain m (by simp))
      (by rw [← label_eq]; exact hf.new m (by simp)) (2 * ms.length + n + 1) prev (by omega) (by omega)
      (ms.flatMap Member.text ++ [32#8, 125#8, 32#8, 59#8] ++ rest)
    have hf' := hf.step prev
    obtain ⟨i1, i2⟩ := ih (K ++ [(pfxOf name ++ m.name, .int (BitVec.ofInt 32 (m.value prev)))]) n (m.value prev) rest
      (hK.snoc hlab) hf' (fun v h => hv v (by simp only [values] at h ⊢; exact List.mem_cons_of_mem _ h))
    have ea : K ++ [(pfxOf name ++ m.name, .int (BitVec.ofInt 32 (m.value prev)))] ++ added name (m.value prev) ms =
        K ++ added name prev (m :: ms) := by
      simp [added, values, label_eq]
    rw [ea] at i1 i2
    refine ⟨?_, i2⟩
    have efuel : 2 * (m :: ms).length + n + 1 = (2 * ms.length + n + 1) + 2 := by simp; omega
    rw [efuel, ← i1, ← hstep]
    simp

theorem text_length (ms : List Member) : ms.length ≤ (ms.flatMap Member.text).length := by
  induction ms with
  | nil => simp
  | cons m ms ih => simp [Member.text] at ih ⊢; omega

/-- The part of `parseEnum` before the members. -/
theorem parse_head (hK : Labels K) (name : Option (List Byte)) (hw : ∀ e, name = some e → validLabel e = true)
    (hn : ∀ e, name = some e → e ∉ K.map (·.1)) (body : List Byte) :
    parseEnum L K (headText name ++ [32#8, 123#8] ++ body) =
      loop L (pfxOf name) (2 * (headText name ++ [32#8, 123#8] ++ body).length + 2) 0 K none
        body := by
  generalize hlen : 2 * (headText name ++ [32#8, 123#8] ++ body).length + 2 = n
  cases name with
  | none =>
    rw [parseEnum, hlen]
    have e2 : headText none ++ [32#8, 123#8] ++ body = 32#8 :: 123#8 :: body := by simp [headText]
    rw [e2]
    rw [next_tok L rfl (scan_mark L hK 123#8 (by decide) _)]
    simp only [text, a_lb, if_true]
    rfl
  | some w =>
    rw [parseEnum, hlen]
    have e2 : headText (some w) ++ [32#8, 123#8] ++ body = 32#8 :: (w ++ 32#8 :: 123#8 :: body) := by simp [headText]
    rw [e2]
    rw [next_tok L rfl (scan_name L hK (hw w rfl) (hn w rfl) _)]
    simp only [text, a_lb]
    rw [if_neg (valid_sym (hw w rfl) 123#8 (by decide)), if_neg (by simp [hw w rfl]), next_tok L rfl (scan_mark L hK 123#8 (by decide) _)]
    simp only [if_true]
    rfl

/-- **C71** (numbering).  A declaration adds one constant per member: its name (after `Name::` in a
named enumeration) with the value written for it, or else with one more than the value of the member
before it, the first one being 0. -/
theorem C71_values (hL : 32 ≤ L) (hK : Labels K) (name : Option (List Byte)) (ms : List Member) (rest : List Byte)
    (hf : Fresh K name ms) (hn : ∀ e, name = some e → e ∉ K.map (·.1)) (hv : ∀ v ∈ values (-1) ms, v < 2147483646) :
    parseEnum L K (declText name ms rest) = .ok (K ++ added name (-1) ms) rest ∧ Labels (K ++ added name (-1) ms) := by
  have hlen : ∀ ms : List Member, ms.length ≤ (ms.flatMap Member.text).length := by
    intro ms
    induction ms with
    | nil => simp
    | cons m ms ih => simp [Member.text] at ih ⊢; omega
  have hfuel : ∀ src : List Byte, (ms.flatMap Member.text).length ≤ src.length → ∃ n, 2 * src.length + 2 = 2 * ms.length + n + 1 := by
    intro src h
    exact ⟨2 * src.length + 1 - 2 * ms.length, by have := hlen ms; omega⟩
  have hv' : ∀ v ∈ (-1 : Int) :: values (-1) ms, v < 2147483646 := by
    intro v h
    rcases List.mem_cons.mp h with rfl | h
    · decide
    · exact hv v h
  cases name with
  | none =>
    obtain ⟨n, e⟩ := hfuel (declText none ms rest) (by simp [declText, headText]; omega)
    have key := loop_members L hL none ms K n (-1) rest hK hf hv'
    refine ⟨?_, key.2⟩
    rw [← key.1, parseEnum, e]
    have e2 : declText none ms rest = 32#8 :: 123#8 :: (ms.flatMap Member.text ++ [32#8, 125#8, 32#8, 59#8] ++ rest) := by
      simp [declText, headText]
    rw [e2, next_tok L rfl (scan_mark L hK 123#8 (by decide) _)]
    simp only [text, a_lb, if_true]
    rfl
  | some w =>
    obtain ⟨n, e⟩ := hfuel (declText (some w) ms rest) (by simp [declText, headText]; omega)
    have key := loop_members L hL (some w) ms K n (-1) rest hK hf hv'
    refine ⟨?_, key.2⟩
    have hw := hf.head w rfl
    rw [← key.1, parseEnum, e]
    have e2 : declText (some w) ms rest =
        32#8 :: (w ++ 32#8 :: 123#8 :: (ms.flatMap Member.text ++ [32#8, 125#8, 32#8, 59#8] ++ rest)) := by
      simp [declText, headText]
    rw [e2, next_tok L rfl (scan_name L hK hw (hn w rfl) _)]
    simp only [text, a_lb]
    rw [if_neg (valid_sym hw 123#8 (by decide)), if_neg (by simp [hw]), next_tok L rfl (scan_mark L hK 123#8 (by decide) _)]
    simp only [if_true]
    rfl

/-! ### Using a constant -/

theorem names_split : ∀ (a b x y : List Byte), (∀ c ∈ a, isName c = true) → (∀ c ∈ b, isName c = true) →
    (∀ d ∈ x.head?, isName d = false) → (∀ d ∈ y.head?, isName d = false) → a ++ x = b ++ y → a = b ∧ x = y := by
  intro a
  induction a with
  | nil =>
    intro b x y _ hb hx _ e
    cases b with
    | nil => exact ⟨rfl, e⟩
    | cons c b =>
      simp only [List.nil_append, List.cons_append] at e
      subst e
      have := hx c rfl
      rw [hb c (by simp)] at this; cases this
  | cons c a ih =>
    intro b x y ha hb hx hy e
    cases b with
    | nil =>
      simp only [List.nil_append, List.cons_append] at e
      subst e
      have := hy c rfl
      rw [ha c (by simp)] at this; cases this
    | cons d b =>
      simp only [List.cons_append, List.cons.injEq] at e
      obtain ⟨rfl, e⟩ := e
      obtain ⟨h1, h2⟩ := ih b x y (fun c h => ha c (by simp [h])) (fun c h => hb c (by simp [h])) hx hy e
      exact ⟨by rw [h1], h2⟩

theorem matchLabel_at (K1 K2 : Consts) (l : List Byte) (v : Value) (d : Byte) (r : List Byte) (hd : isName d = false)
    (h : ∀ x ∈ K1, ∀ y, x.1 ++ y = l ++ d :: r → y ≠ [] → (∀ c ∈ y.head?, isName c = false) → False) :
    matchLabel (K1 ++ (l, v) :: K2) (l ++ d :: r) = some (v, d :: r) := by
  induction K1 with
  | nil =>
    simp only [List.nil_append, matchLabel]
    rw [if_pos]
    · simp
    · refine ⟨?_, by simp, by simp [hd]⟩
      rw [List.isPrefixOf_iff_prefix]; exact List.prefix_append _ _
  | cons x K1 ih =>
    obtain ⟨k, u⟩ := x
    simp only [List.cons_append, matchLabel]
    rw [if_neg, ih (fun x hx => h x (by simp [hx]))]
    rintro ⟨h1, h2, h3⟩
    rw [List.isPrefixOf_iff_prefix] at h1
    obtain ⟨y, hy⟩ := h1
    refine h (k, u) (by simp) y hy ?_ ?_
    · rintro rfl
      have := congrArg List.length hy
      simp only [List.append_nil] at this
      omega
    · rw [← hy, List.drop_left] at h3
      intro c hc
      cases y with
      | nil => cases hc
      | cons z y => simp only [List.head?_cons, Option.mem_def, Option.some.injEq] at hc; subst hc; simpa using h3

theorem scan_const (hK : Labels K) (l : List Byte) (v : Value) (s : List Byte) (hl : ∃ c w, l = c :: w ∧ (isAlpha c = true ∨ c = 95#8))
    (hm : matchLabel K (l ++ s) = some (v, s)) : getToken L K (l ++ s) = .tok (.lit v) s := by
  obtain ⟨c, w, rfl, hc⟩ := hl
  have hcl : (65 ≤ c.toNat ∧ c.toNat ≤ 90) ∨ (97 ≤ c.toNat ∧ c.toNat ≤ 122) ∨ c.toNat = 95 := by
    rcases hc with h | rfl
    · simp only [isAlpha, Bool.or_eq_true, Bool.and_eq_true, decide_eq_true_eq] at h
      omega
    · exact Or.inr (Or.inr rfl)
  have hsp : isSpace c = false := by
    simp only [isSpace, Bool.or_eq_false_iff, Bool.and_eq_false_iff, decide_eq_false_iff_not]
    omega
  have hd : c ≠ 46#8 := by rintro rfl; simp at hcl
  have m1 : matchLabel (macros.map fun m => (m, Tok.sym m)) (c :: (w ++ s)) = none := by
    cases hm : matchLabel (macros.map fun m => (m, Tok.sym m)) (c :: (w ++ s)) with
    | none => rfl
    | some x =>
      obtain ⟨v, y⟩ := x
      obtain ⟨l, h1, h2⟩ := matchLabel_suffix hm
      obtain ⟨m, hm', e⟩ := List.mem_map.mp h1
      cases e
      have hh : ∀ m ∈ macros, m.head? = some 46#8 := by decide
      have := hh _ hm'
      cases l with
      | nil => cases this
      | cons z l =>
        simp only [List.head?_cons, Option.some.injEq] at this
        simp only [List.cons_append, List.cons.injEq] at h2
        exact absurd (h2.1.trans this) hd
  rw [List.cons_append] at hm ⊢
  rw [getToken_eq L K hK.names, List.dropWhile_cons, hsp]
  simp only [Bool.false_eq_true, if_false]
  unfold tokenAt
  rw [m1, hm]

/-- **C71** (use).  Wherever a token starts, the name of a constant stands for its value, whatever other
constants there are, if it is followed by a character that is not part of a name, and not by `::`. -/
theorem C71_constant (K1 K2 : Consts) (w : List Byte) (v : Value) (hK : Labels (K1 ++ (w, v) :: K2)) (hw : validLabel w = true)
    (h1 : w ∉ K1.map (·.1)) (d : Byte) (r : List Byte) (hd : isName d = false) (hc : ¬ (d = 58#8 ∧ r.head? = some 58#8)) :
    getToken L (K1 ++ (w, v) :: K2) (w ++ d :: r) = .tok (.lit v) (d :: r) := by
  obtain ⟨c, w', e, hh, -⟩ := valid_cons hw
  refine scan_const L hK w v (d :: r) ⟨c, w', e, hh⟩ (matchLabel_at K1 K2 w v d r hd ?_)
  intro x hx y hy hne hyn
  rcases hK x (by simp [hx]) with hv | ⟨e, m, he, hev, hmv⟩
  · obtain ⟨e1, -⟩ := names_split x.1 w y (d :: r) (valid_name hv) (valid_name hw) hyn (by simpa using hd) hy
    exact h1 (List.mem_map.2 ⟨x, hx, e1⟩)
  · have a : ascii "::" = [58#8, 58#8] := by decide
    rw [he, a] at hy
    obtain ⟨-, e2⟩ := names_split e w (58#8 :: 58#8 :: (m ++ y)) (d :: r) (valid_name hev) (valid_name hw) (by intro d hd; simp at hd; subst hd; decide)
      (by simpa using hd) (by simpa using hy)
    cases e2
    exact hc ⟨rfl, rfl⟩

/-- **C71** (use, qualified).  `Name::member` stands for the member's value, unless a constant is called
`Name`. -/
theorem C71_qualified (K1 K2 : Consts) (e m : List Byte) (v : Value) (hK : Labels (K1 ++ (e ++ ascii "::" ++ m, v) :: K2))
    (he : validLabel e = true) (hm : validLabel m = true)
    (h1 : e ++ ascii "::" ++ m ∉ K1.map (·.1)) (h2 : e ∉ K1.map (·.1)) (d : Byte) (r : List Byte) (hd : isName d = false) :
    getToken L (K1 ++ (e ++ ascii "::" ++ m, v) :: K2) (e ++ ascii "::" ++ m ++ d :: r) = .tok (.lit v) (d :: r) := by
  obtain ⟨c, w', e', hh, -⟩ := valid_cons he
  refine scan_const L hK _ v (d :: r) ⟨c, w' ++ ascii "::" ++ m, by simp [e'], hh⟩ (matchLabel_at K1 K2 _ v d r hd ?_)
  have a : ascii "::" = [58#8, 58#8] := by decide
  intro x hx y hy hne hyn
  rcases hK x (by simp [hx]) with hv | ⟨e1, m1, he1, hev, hmv⟩
  · rw [a] at hy
    obtain ⟨e1, -⟩ := names_split x.1 e y (58#8 :: 58#8 :: (m ++ d :: r)) (valid_name hv) (valid_name he) hyn
      (by intro d hd; simp at hd; subst hd; decide) (by simpa using hy)
    exact h2 (List.mem_map.2 ⟨x, hx, e1⟩)
  · rw [he1, a] at hy
    obtain ⟨e2, e3⟩ := names_split e1 e (58#8 :: 58#8 :: (m1 ++ y)) (58#8 :: 58#8 :: (m ++ d :: r)) (valid_name hev) (valid_name he)
      (by intro d hd; simp at hd; subst hd; decide) (by intro d hd; simp at hd; subst hd; decide) (by simpa using hy)
    simp only [List.cons.injEq, true_and] at e3
    obtain ⟨e4, -⟩ := names_split m1 m y (d :: r) (valid_name hmv) (valid_name hm) hyn (by simpa using hd) e3
    exact h1 (List.mem_map.2 ⟨x, hx, by rw [he1, e2, e4]⟩)

theorem values_length (prev : Int) (ms : List Member) : (values prev ms).length = ms.length := by
  induction ms generalizing prev with
  | nil => rfl
  | cons m ms ih => simp [values, ih]

theorem label_inj (name : Option (List Byte)) (a b : Member) (h : label name a = label name b) : a.name = b.name := by
  rw [label_eq, label_eq] at h
  exact List.append_cancel_left h

theorem nodup_labels (name : Option (List Byte)) : ∀ ms : List Member, (ms.map Member.name).Nodup → (ms.map (label name)).Nodup := by
  intro ms
  induction ms with
  | nil => intro _; simp
  | cons m ms ih =>
    intro h
    simp only [List.map_cons, List.nodup_cons] at h ⊢
    refine ⟨fun hm => h.1 ?_, ih h.2⟩
    obtain ⟨x, hx, e⟩ := List.mem_map.mp hm
    exact List.mem_map.2 ⟨x, hx, label_inj name x m e⟩

/-- **C71** (members).  After the declaration, every member stands for its value. -/
theorem C71_members (hL : 32 ≤ L) (hK : Labels K) (name : Option (List Byte)) (ms : List Member) (rest : List Byte)
    (hf : Fresh K name ms) (hn : ∀ e, name = some e → e ∉ K.map (·.1)) (hv : ∀ v ∈ values (-1) ms, v < 2147483646) :
    ∃ K', parseEnum L K (declText name ms rest) = .ok K' rest ∧
      ∀ x ∈ ms.zip (values (-1) ms), ∀ d r, isName d = false → ¬ (d = 58#8 ∧ r.head? = some 58#8) →
        getToken L K' (label name x.1 ++ d :: r) = .tok (.lit (.int (BitVec.ofInt 32 x.2))) (d :: r) := by
  obtain ⟨h1, h2⟩ := C71_values L hL hK name ms rest hf hn hv
  refine ⟨_, h1, ?_⟩
  intro x hx d r hd hc
  obtain ⟨A, B, e⟩ := List.append_of_mem hx
  have hxm : x.1 ∈ ms := (List.of_mem_zip hx).1
  have eK : K ++ added name (-1) ms = (K ++ A.map fun x => (label name x.1, Value.int (BitVec.ofInt 32 x.2))) ++
      (label name x.1, .int (BitVec.ofInt 32 x.2)) :: B.map fun x => (label name x.1, Value.int (BitVec.ofInt 32 x.2)) := by
    simp [added, e]
  have hnd := nodup_labels name ms hf.nodup
  have hz : ms.map (label name) = (ms.zip (values (-1) ms)).map fun x => label name x.1 := by
    have := List.map_fst_zip (l₁ := ms) (l₂ := values (-1) ms) (by rw [values_length])
    rw [show (fun x : Member × Int => label name x.1) = label name ∘ Prod.fst from rfl, ← List.map_map, this]
  rw [hz, e, List.map_append, List.map_cons, List.nodup_append] at hnd
  have hfirst : label name x.1 ∉ (K ++ A.map fun x => (label name x.1, Value.int (BitVec.ofInt 32 x.2))).map (·.1) := by
    simp only [List.map_append, List.map_map, List.mem_append, not_or]
    refine ⟨hf.new _ hxm, fun hm => ?_⟩
    exact hnd.2.2 (label name x.1) hm (label name x.1) (by simp) rfl
  rw [eK] at h2 ⊢
  cases name with
  | none => exact C71_constant L _ _ x.1.name _ h2 (hf.ok _ hxm).1 hfirst d r hd hc
  | some w =>
    refine C71_qualified L _ _ w x.1.name _ h2 (hf.head w rfl) (hf.ok _ hxm).1 hfirst ?_ d r hd
    simp only [List.map_append, List.map_map, List.mem_append, not_or]
    refine ⟨hn w rfl, fun hm => ?_⟩
    obtain ⟨y, -, ey⟩ := List.mem_map.mp hm
    have hcol := colon_in w y.1.name
    have ey' : w ++ ascii "::" ++ y.1.name = w := ey
    rw [ey'] at hcol
    exact absurd (valid_name (hf.head w rfl) _ hcol) (by decide)

/-! ### Declaring a name twice -/

/-- The members read before `tail`. -/
theorem loop_through (hL : 32 ≤ L) (name : Option (List Byte)) : ∀ (ms : List Member) (K : Consts) (n : Nat) (prev : Int)
    (tail : List Byte), Labels K → Fresh K name ms → (∀ v ∈ prev :: values prev ms, v < 2147483646) →
    ∃ last, last ∈ prev :: values prev ms ∧
    loop L (pfxOf name) (2 * ms.length + n) (prev + 1) K none (ms.flatMap Member.text ++ tail) =
      loop L (pfxOf name) n (last + 1) (K ++ added name prev ms) none tail ∧ Labels (K ++ added name prev ms) := by
  intro ms
  induction ms with
  | nil =>
    intro K n prev tail hK hf hv
    exact ⟨prev, by simp, by simp [added], by simpa [added] using hK⟩
  | cons m ms ih =>
    intro K n prev tail hK hf hv
    have hlab : validLabel (pfxOf name ++ m.name) = true ∨ ∃ e k, pfxOf name ++ m.name = e ++ ascii "::" ++ k ∧
        validLabel e = true ∧ validLabel k = true := by
      have hm := (hf.ok m (by simp)).1
      cases name with
      | none => left; simpa [pfxOf] using hm
      | some e => right; exact ⟨e, m.name, by simp [pfxOf], hf.head e rfl, hm⟩
    have hval := hv (m.value prev) (by simp [values])
    have hprev := hv prev (by simp)
    have hstep := loop_member L hL hK (pfxOf name) m (hf.ok m (by simp)) (hK.snoc hlab) (hf.plain m (by simp))
      (by rw [← label_eq]; exact hf.new m (by simp)) (2 * ms.length + n) prev (by omega) (by omega)
      (ms.flatMap Member.text ++ tail)
    have hf' := hf.step prev
    obtain ⟨last, i0, i1, i2⟩ := ih (K ++ [(pfxOf name ++ m.name, .int (BitVec.ofInt 32 (m.value prev)))]) n (m.value prev) tail
      (hK.snoc hlab) hf' (fun v h => hv v (by simp only [values] at h ⊢; exact List.mem_cons_of_mem _ h))
    have ea : K ++ [(pfxOf name ++ m.name, .int (BitVec.ofInt 32 (m.value prev)))] ++ added name (m.value prev) ms =
        K ++ added name prev (m :: ms) := by
      simp [added, values, label_eq]
    rw [ea] at i1 i2
    refine ⟨last, ?_, ?_, i2⟩
    · simp only [values]; exact List.mem_cons_of_mem _ i0
    · have efuel : 2 * (m :: ms).length + n = (2 * ms.length + n) + 2 := by simp; omega
      rw [efuel, ← i1, ← hstep]
      simp

theorem values_append (prev : Int) (ms : List Member) (m : Member) :
    values prev (ms ++ [m]) = values prev ms ++ [m.value ((values prev ms).getLast?.getD prev)] := by
  induction ms generalizing prev with
  | nil => simp [values]
  | cons a ms ih =>
    simp only [List.cons_append, values, ih, List.cons.injEq, true_and]
    cases h : values (a.value prev) ms with
    | nil => simp
    | cons b l => simp [List.getLast?_cons]

theorem first_split : ∀ (K : Consts) (l : List Byte), l ∈ K.map (·.1) → ∃ K1 v K2, K = K1 ++ (l, v) :: K2 ∧ l ∉ K1.map (·.1) := by
  intro K l
  induction K with
  | nil => intro h; cases h
  | cons x K ih =>
    intro h
    by_cases e : x.1 = l
    · exact ⟨[], x.2, K, by rw [← e]; rfl, by simp⟩
    · have h' : l ∈ K.map (·.1) := by
        simp only [List.map_cons, List.mem_cons] at h
        rcases h with h | h
        · exact absurd h.symm e
        · exact h
      obtain ⟨K1, v, K2, h1, h2⟩ := ih h'
      refine ⟨x :: K1, v, K2, by rw [h1]; rfl, ?_⟩
      simp only [List.map_cons, List.mem_cons, not_or]
      exact ⟨fun g => e g.symm, h2⟩

/-- **C71** (no second declaration).  A member whose name, or whose qualified name, is a constant already is
refused, wherever in the declaration it stands. -/
theorem C71_duplicate (hL : 32 ≤ L) (hK : Labels K) (hs : ∀ x ∈ K, ∀ t, x.2 ≠ .str t) (name : Option (List Byte))
    (ms : List Member) (m : Member) (more : List Byte)
    (hf : Fresh K name ms) (hm : m.Ok) (hn : ∀ e, name = some e → e ∉ K.map (·.1))
    (hv : ∀ v ∈ values (-1) (ms ++ [m]), v < 2147483646)
    (hd : m.name ∈ (K ++ added name (-1) ms).map (·.1) ∨ label name m ∈ (K ++ added name (-1) ms).map (·.1)) :
    parseEnum L K (headText name ++ [32#8, 123#8] ++ ms.flatMap Member.text ++
      (m.text ++ more)) = .err := by
  have hv' : ∀ v ∈ (-1 : Int) :: values (-1) ms, v < 2147483646 := by
    intro v h
    rcases List.mem_cons.mp h with rfl | h
    · decide
    · refine hv v ?_
      rw [values_append]; exact List.mem_append_left _ h
  have hlen := text_length ms
  obtain ⟨n, e⟩ : ∃ n, 2 * (headText name ++ [32#8, 123#8] ++ ms.flatMap Member.text ++
      (m.text ++ more)).length + 2 = 2 * ms.length + (n + 1) :=
    ⟨2 * (headText name ++ [32#8, 123#8] ++ ms.flatMap Member.text ++
      (m.text ++ more)).length + 1 - 2 * ms.length, by simp only [List.length_append]; omega⟩
  rw [List.append_assoc (_ ++ _), parse_head L hK name hf.head hn, ← List.append_assoc (_ ++ _), e]
  obtain ⟨last, h1, h2, h3⟩ := loop_through L hL name ms K (n + 1) (-1) (m.text ++ more) hK hf hv'
  rw [show (0 : Int) = -1 + 1 from rfl, h2]
  have hl := hv' last h1
  generalize hK' : K ++ added name (-1) ms = K' at *
  have hs' : ∀ x ∈ K', ∀ t, x.2 ≠ .str t := by
    intro x hx t e
    rw [← hK', List.mem_append] at hx
    rcases hx with hx | hx
    · exact hs x hx t e
    · simp only [added, List.mem_map] at hx
      obtain ⟨y, -, rfl⟩ := hx
      cases e
  obtain ⟨s, et⟩ : ∃ s, m.text = 32#8 :: (m.name ++ 32#8 :: s) := by
    cases hi : m.init with
    | none => exact ⟨[44#8], by simp [Member.text, Member.initText, hi]⟩
    | some i =>
      obtain ⟨g, t, k⟩ := i
      cases g
      · exact ⟨61#8 :: 32#8 :: (t ++ [32#8, 44#8]), by simp [Member.text, Member.initText, hi, a_se]⟩
      · exact ⟨61#8 :: 32#8 :: 45#8 :: 32#8 :: (t ++ [32#8, 44#8]), by simp [Member.text, Member.initText, hi, a_sm]⟩
  by_cases hin : m.name ∈ K'.map (·.1)
  · obtain ⟨K1, v, K2, eK, hfst⟩ := first_split K' m.name hin
    have hsc : getToken L K' (m.text ++ more) = .tok (.lit v) (32#8 :: (s ++ more)) := by
      rw [et, List.cons_append, skip_blank L h3, List.append_assoc, List.cons_append]
      rw [eK] at h3 ⊢
      exact C71_constant L K1 K2 m.name v h3 hm.1 hfst 32#8 _ (by decide) (fun g => absurd g.1 (by decide))
    have hvs := hs' (m.name, v) (by rw [eK]; simp)
    rw [loop, next_tok L rfl hsc]
    cases v with
    | str t => exact absurd rfl (hvs t)
    | int i => rfl
    | float t => rfl
  · have hp : pfxOf name ++ m.name ∈ K'.map (·.1) := by
      rw [← label_eq]
      rcases hd with hd | hd
      · exact absurd hd hin
      · exact hd
    obtain ⟨o1, o2⟩ := hm
    have hmv : ∃ p, m.value p < 2147483646 := by
      refine ⟨(values (-1) ms).getLast?.getD (-1), hv _ ?_⟩
      rw [values_append]
      exact List.mem_append_right _ (by simp [values])
    cases hi : m.init with
    | none =>
      have et' : m.text ++ more = 32#8 :: (m.name ++ 32#8 :: 44#8 :: more) := by
        simp [Member.text, Member.initText, hi]
      rw [et', loop_name L h3 _ m.name o1 hin n (last + 1) (by omega), next_tok L rfl (scan_mark L h3 44#8 (by decide) more)]
      simp only [a_eq]
      rw [if_neg (by decide), if_pos hp]
    | some i =>
      obtain ⟨g, t, k⟩ := i
      obtain ⟨d1, d2⟩ := o2 g t k hi
      obtain ⟨p, hmv⟩ := hmv
      simp only [Member.value, hi] at hmv
      cases g with
      | false =>
        have et' : m.text ++ more = 32#8 :: (m.name ++ 32#8 :: 61#8 :: 32#8 :: (t ++ 32#8 :: 44#8 :: more)) := by
          simp [Member.text, Member.initText, hi, a_se]
        have ex : explicit L K' (32#8 :: (t ++ 32#8 :: 44#8 :: more)) =
            some (false, .int (BitVec.ofNat 32 k), 32#8 :: 44#8 :: more) := by
          rw [explicit, next_tok L rfl (scan_num L hL h3 d1 d2 (44#8 :: more))]
          simp only [text, a_mi]
          rw [if_neg (by decide)]
        rw [et', loop_name L h3 _ m.name o1 hin n (last + 1) (by omega), next_tok L rfl (scan_op L h3 61#8 (by decide) _)]
        simp only [a_eq, if_true, ex]
        have hk : (k : Int) < 2147483646 := hmv
        rw [settle_int false _ k d2 k (by simp) (by omega)]
        simp only
        rw [if_pos hp]
      | true =>
        have et' : m.text ++ more = 32#8 :: (m.name ++ 32#8 :: 61#8 :: 32#8 :: 45#8 :: 32#8 :: (t ++ 32#8 :: 44#8 :: more)) := by
          simp [Member.text, Member.initText, hi, a_sm]
        have ex : explicit L K' (32#8 :: 45#8 :: 32#8 :: (t ++ 32#8 :: 44#8 :: more)) =
            some (true, .int (BitVec.ofNat 32 k), 32#8 :: 44#8 :: more) := by
          rw [explicit, next_tok L rfl (scan_op L h3 45#8 (by decide) _)]
          simp only [text, a_mi, if_true]
          rw [next_tok L rfl (scan_num L hL h3 d1 d2 (44#8 :: more))]
        rw [et', loop_name L h3 _ m.name o1 hin n (last + 1) (by omega), next_tok L rfl (scan_op L h3 61#8 (by decide) _)]
        simp only [a_eq, if_true, ex]
        rw [settle_int true _ k d2 (-(k : Int)) (by simp) (by omega)]
        simp only
        rw [if_pos hp]

/-! ### An example, and where the code goes another way -/

def sample : List Member :=
  [⟨ascii "Red", none⟩, ⟨ascii "Green", some (false, ascii "0x10", 16)⟩, ⟨ascii "Blue", none⟩,
   ⟨ascii "Off", some (true, ascii "3", 3)⟩, ⟨ascii "Next", none⟩]

example : values (-1) sample = [0, 16, 17, -3, -2] := by decide

theorem sample_fresh : Fresh [] (some (ascii "Color")) sample := by
  refine ⟨by intro e h; cases h; decide, ?_, by decide, by intros; simp, by intros; simp⟩
  intro m hm
  refine ⟨?_, ?_⟩
  · revert m hm; decide
  · intro s t n hi
    simp only [sample, List.mem_cons, List.not_mem_nil, or_false] at hm
    rcases hm with rfl | rfl | rfl | rfl | rfl
    · cases hi
    · cases hi
      refine ⟨?_, by decide⟩
      exact .hex [49#8, 48#8] [1, 0] (by repeat constructor)
    · cases hi
    · cases hi
      refine ⟨?_, by decide⟩
      exact .dec [51#8] [3] (by repeat constructor) (by decide) (by decide)
    · cases hi

example (rest : List Byte) : ∃ K', parseEnum 32 [] (declText (some (ascii "Color")) sample rest) = .ok K' rest ∧
    getToken 32 K' (ascii "Color::Next" ++ 59#8 :: rest) = .tok (.lit (.int 0xFFFFFFFE#32)) (59#8 :: rest) := by
  obtain ⟨K', h1, h2⟩ := C71_members 32 (K := []) (Nat.le_refl _) (by intro x hx; cases hx) (some (ascii "Color")) sample rest
    sample_fresh (by intros; simp) (by decide)
  have h := h2 (⟨ascii "Next", none⟩, -2) (by simp [sample, values, Member.value]) 59#8 rest (by decide)
    (fun g => absurd g.1 (by decide))
  have e : label (some (ascii "Color")) ⟨ascii "Next", none⟩ = ascii "Color::Next" := by decide
  have e2 : BitVec.ofInt 32 (-2) = 0xFFFFFFFE#32 := by decide
  simp only [e, e2] at h
  exact ⟨K', h1, h⟩

/-- `enum Color { Red , … , Next , Red , …` -/
example (more : List Byte) : parseEnum 32 [] (headText (some (ascii "Color")) ++ [32#8, 123#8] ++ sample.flatMap Member.text ++
    (Member.text ⟨ascii "Red", none⟩ ++ more)) = .err :=
  C71_duplicate 32 (K := []) (Nat.le_refl _) (by intro x hx; cases hx) (by intro x hx; cases hx) (some (ascii "Color")) sample _ more
    sample_fresh ⟨by decide, by intro s t n h; cases h⟩ (by intros; simp) (by decide) (.inr (by decide))

/-- **C71** (numbers with a fraction).  A member set to such a number, with or without a minus sign, stands for
its text, the sign in front; the counting goes on as if nothing had been written for it. -/
theorem C71_float (hK : Labels K) (pfx w : List Byte) (hw : validLabel w = true) (hn : w ∉ K.map (·.1))
    (hp : pfx ++ w ∉ K.map (·.1))
    (hl : validLabel (pfx ++ w) = true ∨ ∃ e m, pfx ++ w = e ++ ascii "::" ++ m ∧ validLabel e = true ∧ validLabel m = true)
    (n : Nat) (index : Int) (hi : index ≠ 2147483647) (t x : List Byte) (r : List Byte)
    (hx : getToken L K (32#8 :: (x ++ 32#8 :: 44#8 :: r)) = .tok (.lit (.float t)) (32#8 :: 44#8 :: r)) :
    loop L pfx (n + 2) index K none (32#8 :: (w ++ ascii " = " ++ x ++ ascii " ," ++ r)) =
      loop L pfx n (index + 1) (K ++ [(pfx ++ w, .float t)]) none r ∧
    loop L pfx (n + 2) index K none (32#8 :: (w ++ ascii " = - " ++ x ++ ascii " ," ++ r)) =
      loop L pfx n (index + 1) (K ++ [(pfx ++ w, .float (ascii "-" ++ t))]) none r := by
  have hl' : ∀ v, Labels (K ++ [(pfx ++ w, v)]) := fun v => hK.snoc hl
  have e2 : ascii " ," = [32#8, 44#8] := by decide
  constructor
  · have e : 32#8 :: (w ++ ascii " = " ++ x ++ ascii " ," ++ r) =
        32#8 :: (w ++ 32#8 :: 61#8 :: 32#8 :: (x ++ 32#8 :: 44#8 :: r)) := by simp [a_se, e2]
    have ex : explicit L K (32#8 :: (x ++ 32#8 :: 44#8 :: r)) = some (false, .float t, 32#8 :: 44#8 :: r) := by
      rw [explicit, next_tok L rfl hx]
      simp [text, a_mi]
    rw [e, loop_name L hK pfx w hw hn (n + 1) index hi, next_tok L rfl (scan_op L hK 61#8 (by decide) _)]
    simp only [a_eq, if_true, ex, settle]
    rw [if_neg hp, (loop_comma L (hl' _) pfx n _ r).1]
    rfl
  · have e : 32#8 :: (w ++ ascii " = - " ++ x ++ ascii " ," ++ r) =
        32#8 :: (w ++ 32#8 :: 61#8 :: 32#8 :: 45#8 :: 32#8 :: (x ++ 32#8 :: 44#8 :: r)) := by simp [a_sm, e2]
    have ex : explicit L K (32#8 :: 45#8 :: 32#8 :: (x ++ 32#8 :: 44#8 :: r)) =
        some (true, .float t, 32#8 :: 44#8 :: r) := by
      rw [explicit, next_tok L rfl (scan_op L hK 45#8 (by decide) _)]
      simp only [text, a_mi, if_true]
      rw [next_tok L rfl hx]
    rw [e, loop_name L hK pfx w hw hn (n + 1) index hi, next_tok L rfl (scan_op L hK 61#8 (by decide) _)]
    simp only [a_eq, if_true, ex, settle]
    rw [if_neg hp, (loop_comma L (hl' _) pfx n _ r).1]
    rfl

/-- `Half = - 0.5 ,` -/
example (n : Nat) : loop 32 [] (n + 2) 3 [] none (32#8 :: (ascii "Half" ++ ascii " = - " ++ ascii "0.5" ++ ascii " ," ++ [])) =
    loop 32 [] n 4 [(ascii "Half", .float (ascii "-" ++ ascii "0.5"))] none [] :=
  (C71_float 32 (K := []) (by intro x hx; cases hx) [] (ascii "Half") (by decide) (by simp) (by simp) (.inl (by decide)) n 3
    (by decide) (ascii "0.5") (ascii "0.5") [] (by decide +kernel)).2

/-- A constant called like an enumeration hides the members: `Color::Red` is read as the value of `Color`
followed by `::Red`. -/
theorem C71_shadowed (v u : Value) (r : List Byte) :
    getToken L [(ascii "Color", v), (ascii "Color::Red", u)] (ascii "Color::Red" ++ 59#8 :: r) =
      .tok (.lit v) (ascii "::Red" ++ 59#8 :: r) := by
  have hK : Labels [(ascii "Color", v), (ascii "Color::Red", u)] := by
    intro x hx
    simp only [List.mem_cons, List.not_mem_nil, or_false] at hx
    rcases hx with rfl | rfl
    · left; show validLabel (ascii "Color") = true; decide
    · right; exact ⟨ascii "Color", ascii "Red", rfl, by decide, by decide⟩
  have e : ascii "Color::Red" ++ 59#8 :: r = ascii "Color" ++ (ascii "::Red" ++ 59#8 :: r) := rfl
  rw [e]
  exact scan_const L hK _ v _ ⟨_, _, rfl, by decide⟩ rfl

/-- A member whose value is the largest integer: counting on is undefined, even if no other member
follows. -/
theorem C71_overflow (rest : List Byte) (hL : 32 ≤ L) :
    parseEnum L [] (declText none [⟨ascii "Max", some (false, ascii "0x7FFFFFFF", 0x7FFFFFFF)⟩] rest) = .ub := by
  have hK : Labels [] := by intro x hx; cases hx
  have hd : Denotes (ascii "0x7FFFFFFF") 0x7FFFFFFF :=
    .hex [55#8, 70#8, 70#8, 70#8, 70#8, 70#8, 70#8, 70#8] [7, 15, 15, 15, 15, 15, 15, 15] (by simp [IsDigitOf])
  generalize hr : (32#8 :: 44#8 :: 32#8 :: 125#8 :: 32#8 :: 59#8 :: rest) = r
  have e : declText none [⟨ascii "Max", some (false, ascii "0x7FFFFFFF", 0x7FFFFFFF)⟩] rest =
      32#8 :: 123#8 :: 32#8 :: (ascii "Max" ++ 32#8 :: 61#8 :: 32#8 :: (ascii "0x7FFFFFFF" ++ r)) := by
    rw [← hr]; rfl
  obtain ⟨n, hn⟩ : ∃ n, 2 * (declText none [⟨ascii "Max", some (false, ascii "0x7FFFFFFF", 0x7FFFFFFF)⟩] rest).length + 2 = n + 1 :=
    ⟨_, rfl⟩
  rw [parseEnum, hn, e, next_tok L rfl (scan_mark L hK 123#8 (by decide) _)]
  simp only [text, a_lb, if_true]
  rw [loop_name L hK [] (ascii "Max") (by decide) (by simp) n 0 (by decide), next_tok L rfl (scan_op L hK 61#8 (by decide) _)]
  subst hr
  simp only [a_eq, if_true, explicit]
  rw [next_tok L rfl (scan_num L hL hK hd (by decide) _)]
  rfl

end Wrench.Cc.Enum
