import Verif.Diag.Props

/-!
# The header file made by `wrench ch` (`utils/wrench_cli.cpp` 97-126)

`blobToHeader` writes compiled code as a C array.  It goes through the formatted printing of
`Diag/Model.lean`.  Simplified: `unsigned int p` is a natural number; a string object is the list
of its characters.  `blobToAssemblyInc` (129-153) is not called anywhere and is left out.
-/

namespace Wrench.Diag

/-- The format of the beginning, wrench_cli.cpp 99-105. -/
def headFormat : List Piece :=
  [.lit (ascii "#ifndef _"), .s, .lit (ascii "_H\n#define _"), .s,
   .lit (ascii "_H\n\n/******* wrench bytcode automatically generated header *******/\n\nconst int "), .s,
   .lit (ascii "_bytecodeSize="), .d, .lit (ascii ";\nconst unsigned char "), .s,
   .lit (ascii "_bytecode[]=\n{\n")]

/-- Its arguments, wrench_cli.cpp 106-110. -/
def headArgs (blob name : List Byte) : List Arg := [.p name, .p name, .p name, .n blob.length, .p name]

/-- The loop over a line, wrench_cli.cpp 116-119; the number counts `16 - i`, `rest` is the code from
`p` on. -/
def lineGo : Nat → List Byte → Text → Nat → Option (Text × List Byte × Nat)
  | 0, rest, h, p => some (h, rest, p)
  | _ + 1, [], h, p => some (h, [], p)
  | k + 1, b :: rest, h, p =>
    (appendFormat h [.lit (ascii "0x"), .x2, .lit (ascii ", ")] [.n b.toNat]).bind fun h => lineGo k rest h (p + 1)

/-- The loop over the lines, wrench_cli.cpp 113-122; every round takes at least one byte, so that the
length of the code bounds the rounds. -/
def linesGo : Nat → List Byte → Text → Nat → Option Text
  | _, [], h, _ => some h
  | 0, _ :: _, _, _ => none
  | n + 1, b :: rest, h, p =>
    (lineGo 16 (b :: rest) (h ++ ascii "\t") p).bind fun (h, rest, p) =>
    (appendFormat h [.lit (ascii "// "), .d, .lit (ascii "\n")] [.n p]).bind fun h => linesGo n rest h p

/-- The lines of the array. -/
def table (blob : List Byte) (h : Text) : Option Text := linesGo blob.length blob h 0

/-- `blobToHeader`, wrench_cli.cpp 97-126. -/
def blobToHeader (blob name : List Byte) : Option Text :=
  (format headFormat (headArgs blob name)).bind fun h =>
  (table blob h).map fun h => h ++ ascii "};\n\n#endif\n"

/-! ### What a C compiler reads -/

/-- The value of a character as a hexadecimal digit in C. -/
def IsDigit (c : Byte) (v : Nat) : Prop :=
  (48 ≤ c.toNat ∧ c.toNat ≤ 57 ∧ v = c.toNat - 48) ∨ (65 ≤ c.toNat ∧ c.toNat ≤ 70 ∧ v = c.toNat - 55) ∨
    (97 ≤ c.toNat ∧ c.toNat ≤ 102 ∧ v = c.toNat - 87)

/-- The elements a C compiler reads from the text of an array: blanks, tabs and line ends are skipped,
so are comments from `//` to the end of the line, and an element is `0x`, two hexadecimal digits and a
comma. -/
inductive Reads : Text → List Byte → Prop
  | nil : Reads [] []
  | blank {c : Byte} {r : Text} {b : List Byte} : c = 32#8 ∨ c = 9#8 ∨ c = 10#8 → Reads r b → Reads (c :: r) b
  | comment {w r : Text} {b : List Byte} : 10#8 ∉ w → 92#8 ∉ w → Reads r b →
      Reads (47#8 :: 47#8 :: (w ++ 10#8 :: r)) b
  | element {x y e : Byte} {r : Text} {b : List Byte} {u v : Nat} : IsDigit x u → IsDigit y v →
      e.toNat = 16 * u + v → Reads r b → Reads (48#8 :: 120#8 :: x :: y :: 44#8 :: r) (e :: b)

theorem digit_unique {c : Byte} {u v : Nat} (h : IsDigit c u) (h' : IsDigit c v) : u = v := by
  unfold IsDigit at h h'
  omega

theorem split_unique : ∀ {w w' r r' : Text}, 10#8 ∉ w → 10#8 ∉ w' → w ++ 10#8 :: r = w' ++ 10#8 :: r' → r = r'
  | [], [], _, _, _, _, h => by simpa using h
  | [], c :: w', _, _, _, h2, h => by
    simp only [List.nil_append, List.cons_append, List.cons.injEq] at h
    exact absurd (by rw [← h.1]; exact List.mem_cons_self) h2
  | c :: w, [], _, _, h1, _, h => by
    simp only [List.nil_append, List.cons_append, List.cons.injEq] at h
    exact absurd (by rw [h.1]; exact List.mem_cons_self) h1
  | c :: w, c' :: w', _, _, h1, h2, h => by
    simp only [List.cons_append, List.cons.injEq] at h
    exact split_unique (fun e => h1 (List.mem_cons_of_mem _ e)) (fun e => h2 (List.mem_cons_of_mem _ e)) h.2

/-- A text is read in one way only. -/
theorem reads_unique {t : Text} {a b : List Byte} (h : Reads t a) : Reads t b → a = b := by
  induction h generalizing b with
  | nil => intro h; cases h; rfl
  | blank hc _ ih =>
    intro h
    cases h with
    | blank _ h => exact ih h
    | comment _ _ _ => exact absurd hc (by decide)
    | element _ _ _ _ => exact absurd hc (by decide)
  | comment h1 _ _ ih =>
    intro h
    generalize ht : 47#8 :: 47#8 :: (_ ++ 10#8 :: _) = t at h
    cases h with
    | nil => cases ht
    | blank hc _ =>
      injection ht with e _
      subst e
      exact absurd hc (by decide)
    | comment h2 _ h =>
      injection ht with _ ht
      injection ht with _ ht
      rw [← split_unique h1 h2 ht] at h
      exact ih h
    | element _ _ _ _ => injection ht with e _; exact absurd e (by decide)
  | element hx hy he _ ih =>
    intro h
    cases h with
    | blank hc _ => exact absurd hc (by decide)
    | element hx' hy' he' h =>
      rw [ih h]
      congr 1
      apply BitVec.eq_of_toNat_eq
      rw [he, he', digit_unique hx hx', digit_unique hy hy']

theorem reads_append {s t : Text} {a b : List Byte} (h : Reads s a) (h' : Reads t b) : Reads (s ++ t) (a ++ b) := by
  induction h with
  | nil => exact h'
  | blank hc _ ih => exact .blank hc ih
  | comment h1 h2 _ ih =>
    rw [List.cons_append, List.cons_append, List.append_assoc, List.cons_append]
    exact .comment h1 h2 ih
  | element hx hy he _ ih => exact .element hx hy he ih

theorem hexDigit_isDigit (n : Nat) (h : n < 16) : IsDigit (hexDigit n) n := by
  unfold hexDigit IsDigit
  by_cases h' : n < 10
  · rw [if_pos h', BitVec.toNat_ofNat, Nat.mod_eq_of_lt (by omega)]
    omega
  · rw [if_neg h', BitVec.toNat_ofNat, Nat.mod_eq_of_lt (by omega)]
    omega

theorem dec_digits (n : Nat) : ∀ c ∈ dec n, 48 ≤ c.toNat ∧ c.toNat ≤ 57 := by
  induction n using Nat.strongRecOn with
  | _ n ih =>
    intro c hc
    rw [dec] at hc
    by_cases h : n < 10
    · rw [if_pos h, List.mem_singleton] at hc
      subst hc
      rw [BitVec.toNat_ofNat, Nat.mod_eq_of_lt (by omega)]
      omega
    · rw [if_neg h, List.mem_append, List.mem_singleton] at hc
      rcases hc with hc | hc
      · exact ih (n / 10) (by omega) c hc
      · subst hc
        rw [BitVec.toNat_ofNat, Nat.mod_eq_of_lt (by omega)]
        omega

theorem lineGo_spec : ∀ (k : Nat) (rest : List Byte) (h : Text) (p : Nat),
    ∃ t, lineGo k rest h p = some (h ++ t, rest.drop k, p + (rest.take k).length) ∧ Reads t (rest.take k)
  | 0, rest, h, p => ⟨[], by simp [lineGo], by simpa using Reads.nil⟩
  | k + 1, [], h, p => ⟨[], by simp [lineGo], by simpa using Reads.nil⟩
  | k + 1, b :: rest, h, p => by
    have e1 : appendFormat h [.lit (ascii "0x"), .x2, .lit (ascii ", ")] [.n b.toNat] =
        some (h ++ (ascii "0x" ++ (hex2 b.toNat ++ (ascii ", " ++ [])))) :=
      appendFormat_short (rest := []) (by simp only [render, Option.map_some]) (by simp [hex2, ascii])
    obtain ⟨t, e2, ht⟩ := lineGo_spec k rest (h ++ (ascii "0x" ++ (hex2 b.toNat ++ (ascii ", " ++ [])))) (p + 1)
    refine ⟨(ascii "0x" ++ (hex2 b.toNat ++ (ascii ", " ++ []))) ++ t, ?_, ?_⟩
    · rw [lineGo, e1, Option.bind_some, e2, List.append_assoc, List.drop_succ_cons, List.take_succ_cons,
        List.length_cons, show p + 1 + (rest.take k).length = p + ((rest.take k).length + 1) by omega]
    · have hb : b.toNat < 256 := b.isLt
      rw [List.take_succ_cons]
      have e3 : (ascii "0x" ++ (hex2 b.toNat ++ (ascii ", " ++ []))) ++ t =
          48#8 :: 120#8 :: hexDigit (b.toNat / 16) :: hexDigit (b.toNat % 16) :: 44#8 :: 32#8 :: t := by
        rw [show ascii "0x" = [48#8, 120#8] by decide, show ascii ", " = [44#8, 32#8] by decide]
        rfl
      rw [e3]
      exact .element (hexDigit_isDigit _ (by omega)) (hexDigit_isDigit _ (by omega)) (by omega)
        (.blank (Or.inl rfl) ht)

theorem linesGo_spec : ∀ (n : Nat) (rest : List Byte) (h : Text) (p : Nat), rest.length ≤ n →
    p + rest.length < 2147483648 → ∃ t, linesGo n rest h p = some (h ++ t) ∧ Reads t rest
  | n, [], h, p, _, _ => ⟨[], by rw [linesGo, List.append_nil], .nil⟩
  | 0, b :: rest, _, _, hl, _ => by simp at hl
  | n + 1, b :: rest, h, p, hl, hs => by
    obtain ⟨t1, e1, r1⟩ := lineGo_spec 16 (b :: rest) (h ++ ascii "\t") p
    have hlen : ((b :: rest).take 16).length + ((b :: rest).drop 16).length = (b :: rest).length := by
      rw [← List.length_append, List.take_append_drop]
    have hpos : 0 < ((b :: rest).take 16).length := by simp
    have hd := dec_length 9 (p + ((b :: rest).take 16).length) (by omega)
    have e2 : appendFormat (h ++ ascii "\t" ++ t1) [.lit (ascii "// "), .d, .lit (ascii "\n")]
        [.n (p + ((b :: rest).take 16).length)] =
        some (h ++ ascii "\t" ++ t1 ++ (ascii "// " ++ (dec (p + ((b :: rest).take 16).length) ++ (ascii "\n" ++ [])))) := by
      refine appendFormat_short (rest := []) (by simp only [render, Option.map_some]) ?_
      rw [List.length_append, List.length_append, List.length_append, show (ascii "// ").length = 3 by decide,
        show (ascii "\n").length = 1 by decide, List.length_nil]
      omega
    obtain ⟨t3, e3, r3⟩ := linesGo_spec n ((b :: rest).drop 16)
      (h ++ ascii "\t" ++ t1 ++ (ascii "// " ++ (dec (p + ((b :: rest).take 16).length) ++ (ascii "\n" ++ []))))
      (p + ((b :: rest).take 16).length) (by simp only [List.length_cons] at hl hlen ⊢; omega) (by omega)
    refine ⟨ascii "\t" ++ (t1 ++ ((ascii "// " ++ (dec (p + ((b :: rest).take 16).length) ++ (ascii "\n" ++ []))) ++ t3)),
      ?_, ?_⟩
    · rw [linesGo, e1, Option.bind_some]
      simp only []
      rw [e2, Option.bind_some, e3]
      simp only [List.append_assoc]
    · have ec : ascii "// " ++ (dec (p + ((b :: rest).take 16).length) ++ (ascii "\n" ++ [])) =
          47#8 :: 47#8 :: ((32#8 :: dec (p + ((b :: rest).take 16).length)) ++ 10#8 :: []) := by
        rw [show ascii "// " = [47#8, 47#8, 32#8] by decide, show ascii "\n" = [10#8] by decide]
        rfl
      rw [ec, show ascii "\t" = [9#8] by decide]
      refine .blank (Or.inr (Or.inl rfl)) ?_
      have hno : ∀ c : Byte, c.toNat = 10 ∨ c.toNat = 92 → c ∉ (32#8 :: dec (p + ((b :: rest).take 16).length)) := by
        intro c hc hm
        rcases List.mem_cons.mp hm with e | e
        · subst e; revert hc; decide
        · have := dec_digits _ c e
          omega
      have rc : Reads (47#8 :: 47#8 :: ((32#8 :: dec (p + ((b :: rest).take 16).length)) ++ 10#8 :: [])) [] :=
        .comment (hno _ (by decide)) (hno _ (by decide)) .nil
      have := reads_append r1 (reads_append rc r3)
      rw [List.nil_append, List.take_append_drop] at this
      exact this

/-- **C117 (partial).**  The lines `blobToHeader` writes into the braces are read by a C compiler as
the bytes of the compiled code, all of them, in order, and nothing else, for code of any size an `int`
holds.  Missing: the lines in front of them, which are undefined behaviour
(`C117_heading_undefined`). -/
theorem C117_table_partial (blob : List Byte) (hb : blob.length < 2147483648) (h : Text) :
    ∃ t, table blob h = some (h ++ t) ∧ Reads t blob ∧ ∀ b, Reads t b → b = blob := by
  obtain ⟨t, e, r⟩ := linesGo_spec blob.length blob h 0 (Nat.le_refl _) (by omega)
  exact ⟨t, e, r, fun b hb => reads_unique hb r⟩

/-- **C117 fails**: the beginning of the header is longer than the 80 characters of the trial buffer
for every name, so it is formatted a second time with an argument list already used up: undefined for
every code and name. -/
theorem C117_heading_undefined (blob name : List Byte) : blobToHeader blob name = none := by
  have hr : ∃ t, render headFormat (headArgs blob name) = some (t, []) ∧ 80 ≤ t.length := by
    refine ⟨_, by simp only [render, headFormat, headArgs, Option.map_some]; rfl, ?_⟩
    simp only [List.length_append]
    have : (ascii "_H\n\n/******* wrench bytcode automatically generated header *******/\n\nconst int ").length = 79 := by
      decide
    have : (ascii "#ifndef _").length = 9 := by decide
    omega
  obtain ⟨t, e, hl⟩ := hr
  unfold blobToHeader format
  rw [appendFormat_long e hl]
  rfl

/-- A case: the two bytes 0x1F and 0x80 are written as one line, and the line is read as them. -/
example : table [31#8, 128#8] [] = some (ascii "\t0x1F, 0x80, // 2\n") ∧
    Reads (ascii "\t0x1F, 0x80, // 2\n") [31#8, 128#8] := by
  have e : table [31#8, 128#8] [] = some (ascii "\t0x1F, 0x80, // 2\n") := by
    have d : ascii "// " ++ (dec 2 ++ (ascii "\n" ++ [])) = ascii "// 2\n" := by rw [d2]; decide
    have f : ∀ h : Text, appendFormat h [.lit (ascii "// "), .d, .lit (ascii "\n")] [.n 2] = some (h ++ ascii "// 2\n") := by
      intro h
      rw [← d]
      exact appendFormat_short (rest := []) (by simp only [render, Option.map_some]) (by rw [d]; decide)
    have g : lineGo 16 [31#8, 128#8] (ascii "\t") 0 = some (ascii "\t0x1F, 0x80, ", [], 2) := by decide
    unfold table
    rw [show [31#8, 128#8].length = 1 + 1 from rfl, linesGo, List.nil_append, g, Option.bind_some]
    simp only []
    rw [f, Option.bind_some, linesGo]
    decide
  obtain ⟨t, e', r, _⟩ := C117_table_partial [31#8, 128#8] (by decide) []
  rw [e] at e'
  injection e' with e'
  rw [List.nil_append] at e'
  exact ⟨e, e' ▸ r⟩

end Wrench.Diag
