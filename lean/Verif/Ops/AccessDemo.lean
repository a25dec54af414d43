import Verif.Ops.AccessProps

/-
C74, C75: concrete cases meeting the hypotheses.
-/
namespace Wrench.Ops

/-- Stack slot 0 refers to variable 10 = 5; slot 1 is element 1 of the array in variable 11 =
[7, "ab"]; slot 2 is a character of that string; slot 3 refers to slot 0; variable 12 is a raw
array. -/
def demoHost : St := demo
  (fun | .cell 0 => .ref (.cell 10) | .cell 10 => .int 5 | .cell 1 => .mem (.cell 11) 1
       | .cell 11 => .arr 0 | .elem 0 0 => .int 7 | .elem 0 1 => .arr 1
       | .cell 2 => .mem (.elem 0 1) 0 | .cell 3 => .ref (.cell 0) | .cell 12 => .raw 3 9
       | .cell 4 => .mem (.cell 11) 0 | .cell 5 => .ref (.cell 11)
       | _ => .other)
  (fun | 0 => .vals 2 | 1 => .chars [97#8, 98#8] false | _ => .other)

theorem demoHost_str : Reads demoHost true 1 (.cell 1) (.arr 1) :=
  .velem (s := 1) (o := 0) (n := 2) rfl rfl (b := .cell 11) rfl rfl rfl (by decide) rfl

theorem demoHost_seven : Reads demoHost true 1 (.cell 4) (.int 7) :=
  .velem (s := 0) (o := 0) (n := 2) rfl rfl (b := .cell 11) rfl rfl rfl (by decide) rfl

theorem demoHost_var : Names demoHost false 1 (.cell 0) (.cell 10) :=
  .ref (r := .cell 10) rfl rfl (.here rfl rfl)

theorem demoHost_array : Names demoHost false 1 (.cell 5) (.cell 11) :=
  .ref (r := .cell 11) rfl rfl (.here rfl rfl)

/-- A string in an array is a string of its length for the host. -/
example : ∃ τ, isString 2 demoHost (.cell 1) = .ok (τ, some 2) ∧ SameReal demoHost τ := by
  obtain ⟨τ, s, wa, ra, ht, st, h1, -, h2, -, -, -, -, h3⟩ := C74_kinds demoHost_str 0
  exact ⟨τ, by rw [h2, h3.str]; rfl, h1⟩

example : ∃ τ, array 2 demoHost (.cell 1) true = .ok (τ, some (.bytes [97#8, 98#8])) := by
  obtain ⟨τ, -, h, -⟩ := C74_data demoHost_str 0
  exact ⟨τ, (h 1 _ _ rfl rfl).1⟩

example : ∃ τ, asInt demoEnv (fun _ => none) 2 demoHost (.cell 4) = .ok (τ, 7) ∧ SameReal demoHost τ :=
  C74_asInt demoEnv (fun _ => none) demoHost_seven 0

example : ∃ τ, asFloat demoEnv 2 demoHost (.cell 4) = .ok (τ, 7) ∧ SameReal demoHost τ :=
  C74_asFloat demoEnv demoHost_seven 0

/-- But the 7 in the array is not an int for the host. -/
example : isInt demoHost (.cell 4) = false := (C75_element_not_int rfl).1

example : isInt demoHost (.cell 0) = true :=
  (C75_number_kind_partial (k := 1) (Nat.le_refl 1)
    (.ref (r := .cell 10) rfl rfl (.here (a := .cell 10) rfl))).1.2 ⟨5, rfl⟩

example : isInt demoHost (.cell 3) = false := (C75_two_references_not_int (r := .cell 0) rfl rfl).1

/-- `asString` shows the string, `asMallocString` the number of its hash. -/
example : ∃ τ, textOf demoEnv 3 demoHost (.cell 1) = .ok (τ, .arr 1) := by
  obtain ⟨τ, -, h⟩ := C74_text demoEnv demoHost_str 0
  exact ⟨τ, h⟩

example : ∃ τ, mallocTextOf demoEnv 2 demoHost (.cell 1) = .ok (τ, .int (wrHash [97#8, 98#8])) :=
  C75_malloc_element_hash demoEnv demoHost_str rfl rfl 0

/-- The variable holding 5 becomes an array of 4 zeros; the array of 2 gets a third and fourth. -/
example : ∃ τ, indexArray 2 demoHost (.cell 0) 3 true = .ok (τ, some (.elem 100 3)) ∧
    HasElem demoHost τ (.cell 10) 100 0 4 :=
  C75_index_create_partial demoHost_var (fun _ => by simp)
    (fun o n i h => by cases h) (w := 3) (by decide) 0

example : ∃ τ, indexArray 2 demoHost (.cell 5) 3 true = .ok (τ, some (.elem 0 3)) ∧
    HasElem demoHost τ (.cell 11) 0 2 4 :=
  C75_index_create_partial demoHost_array (fun _ => by simp)
    (fun o n i _ _ _ => by simp) (w := 3) (by decide) 0

example : ∃ τ υ, wrap 2 demoHost (.cell 5) = .ok (τ, .cell 11) ∧
    asArrayMember τ (.cell 11) 3 = .ok (υ, .elem 0 3) ∧ HasElem demoHost υ (.cell 11) 0 2 4 :=
  C75_member_partial demoHost_array (fun _ => by simp)
    (fun o n i _ _ _ => by simp) (fun o h => ⟨2, by injection h with h; subst h; rfl⟩)
    (w := 3) (by decide) 0

example : indexArray 2 demoHost (.cell 0) 0xFFFFFFFF#32 true = .ub :=
  C75_index_wraps demoHost_var rfl 0

/-- A host stores "hi" with its length and reads it back. -/
example : ∃ τ, setString demoHost (.cell 10) [104#8, 105#8, 33#8] 2 = .ok τ ∧
    array 1 τ (.cell 10) true = .ok (τ, some (.bytes [104#8, 105#8])) := by
  obtain ⟨τ, h1, h2, -⟩ := C75_set_string_partial demoHost (.cell 10) [104#8, 105#8] [33#8] 2
    (.inl ⟨rfl, by decide⟩) 0 0
  exact ⟨τ, h1, h2⟩

/-- An array turned into the int of its hash. -/
example : ∃ τ, wrap 2 demoHost (.cell 5) = .ok (τ, .cell 11) ∧
    ∃ υ, wvInt demoEnv (fun _ => none) 1 τ (.cell 11) = .ok (υ, 7) ∧
      OnlySet demoHost υ (.cell 11) (.int 7) := by
  obtain ⟨τ, h1, h2, -⟩ := C74_convert demoEnv (fun _ => none) demoHost_array 0
  exact ⟨τ, h1, h2 7 rfl⟩

example : ∃ τ, countOf 2 demoHost (.cell 1) (.cell 1) = .ok τ ∧
    OnlySet demoHost τ (.cell 1) (.int 2) :=
  C74_count demoHost_str 0 (.inl ⟨1, _, _, rfl, rfl, rfl⟩)

end Wrench.Ops
