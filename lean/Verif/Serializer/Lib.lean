import Verif.Serializer.Props

/-
The script functions `std::serialize` and `std::deserialize`: discrete_src/lib/std_serialize.cpp 28-67.

Simplifications.  `CallLibFunction` sets the result slot to 0 before the call (vm.cpp 1078-1079), so a function
that leaves it alone gives 0.  Failing allocations are not modelled.
-/
namespace Wrench.Serializer

variable {exHash : SVal → Word32}

/-- The value in the result slot before the call. -/
def zero : SVal := .int 0

/-- `wr_stdSerialize`, std_serialize.cpp 28-49: the first argument (`*(stackTop - argn)`) as a string of bytes. -/
def stdSerialize : List SVal → SVal
  | [] => zero
  | v :: _ => match serialize v with
    | some buf => .str buf
    | none => zero

/-- `wr_stdDeserialize`, std_serialize.cpp 52-67.  `none` is undefined behaviour. -/
def stdDeserialize (exHash : SVal → Word32) : List SVal → Option SVal
  | .str bs :: _ => match deserialize exHash bs with
    | .ok v _ => some v
    | .fail => some zero
    | .ub => none
    | .oof => none
  | _ => some zero

/-- **C100, partial.**  `std::deserialize( std::serialize( v, … ), … )` is `v`, up to the element counts of hash
tables; whatever further arguments are given. -/
theorem C100_roundtrip_partial (v : SVal) (hv : Supported v) (more more' : List SVal) :
    stdDeserialize exHash (stdSerialize (v :: more) :: more') = some (recount v) := by
  obtain ⟨buf, h1, h2⟩ := C09_roundtrip_partial (exHash := exHash) v hv
  have h3 := h2 []
  rw [List.append_nil] at h3
  simp only [stdSerialize, h1, stdDeserialize, h3]

/-- **C100**, without hash tables. -/
theorem C100_roundtrip (v : SVal) (hv : Supported v) (hn : NoHash v) (more more' : List SVal) :
    stdDeserialize exHash (stdSerialize (v :: more) :: more') = some v := by
  rw [C100_roundtrip_partial v hv, recount_noHash v hn]

/-- **C100**: the text survives being appended to, and any shorter part of it gives 0. -/
theorem C100_text (v : SVal) (hv : Supported v) : ∃ buf, stdSerialize [v] = .str buf ∧
    (∀ rest, stdDeserialize exHash [.str (buf ++ rest)] = some (recount v)) ∧
    ∀ k, k < buf.length → stdDeserialize exHash [.str (buf.take k)] = some zero := by
  obtain ⟨buf, h1, h2⟩ := C09_roundtrip_partial (exHash := exHash) v hv
  refine ⟨buf, by simp only [stdSerialize, h1], fun rest => ?_, fun k hk => ?_⟩
  · simp only [stdDeserialize, h2 rest]
  · have := C10_truncated_rejected (exHash := exHash) v hv buf (buf.take k) h1 (List.take_prefix _ _)
      (fun h => by have := congrArg List.length h; rw [List.length_take] at this; omega)
    simp only [stdDeserialize, this]

/-- **C100**: a text can be kept in a string, and serialized again with the value it is in, up to 65535 bytes. -/
theorem C100_twice (v : SVal) (hv : Supported v) (buf : List Byte) (h : stdSerialize [v] = .str buf)
    (hl : buf.length < 65536) :
    (stdDeserialize exHash [stdSerialize [stdSerialize [v]]]).bind (fun t => stdDeserialize exHash [t])
      = some (recount v) := by
  have hs : Supported (.str buf) := hl
  rw [h, C100_roundtrip (.str buf) hs (by simp [NoHash])]
  rw [← h]
  exact C100_roundtrip_partial v hv [] []

/-- **C100**: everything else gives 0: no argument, a value that is not supported at its top level, something that
is not a string. -/
theorem C100_otherwise_zero (x : Byte) (more : List SVal) (w : SVal) (hw : ∀ bs, w ≠ .str bs) :
    stdSerialize [] = zero ∧ stdSerialize (.other x :: more) = zero ∧
    stdDeserialize exHash [] = some zero ∧ stdDeserialize exHash (w :: more) = some zero := by
  refine ⟨rfl, rfl, rfl, ?_⟩
  cases w with
  | str bs => exact absurd rfl (hw bs)
  | _ => rfl

/-- **C100, partial**: no string makes `std::deserialize` fail other than by giving 0, unless it has a hash table
header announcing 0 or more than 49157 slots.  Missing: those (`C10_bad_slot_count_is_undefined`). -/
theorem C100_any_string_partial (bs : List Byte) (hb : ¬ BadHeader bs) :
    ∃ v, stdDeserialize exHash [.str bs] = some v := by
  rcases C10_arbitrary_bytes_partial (exHash := exHash) bs hb with ⟨v, r, h⟩ | h
  · exact ⟨v, by simp only [stdDeserialize, h]⟩
  · exact ⟨zero, by simp only [stdDeserialize, h]⟩

/-- The same 4 characters crash the interpreter. -/
theorem C100_fails_header : stdDeserialize exHash [.str [3#8, 0xE0#8, 0#8, 0#8]] = none := rfl

example : stdDeserialize (fun _ => 0) [stdSerialize [sample]] = some (recount sample) := by
  refine C100_roundtrip_partial sample ?_ [] []
  simp [sample, Supported, SupportedElems, SupportedSlots, SVals.length, Slots.length, hashOf,
    HashTable.primeTable]

example : stdSerialize [.arr (.cons (.other 0x90#8) .nil)] = zero := rfl

end Wrench.Serializer
