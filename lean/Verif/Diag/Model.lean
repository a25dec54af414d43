import Verif.Bytes.Model

/-
The text of a compile error: `getSourcePosition` (cc/cc.cpp 310-343), the message put together by
`compile` (cc/cc.cpp 113-129), and the formatted printing it goes through, `WRstr::format`,
`appendFormat` and `appendFormatVA` (wrench.h 1373-1377, 1986-2020); also the qualified name of a
global (cc/cc.cpp 856-865 and 919-927), which goes through the same function.

Simplifications.  A string object is the list of its characters (Verif/Util/Str.lean shows that
inserting at the end appends).  `vsnprintf` is modelled for the conversions used here: `%d`, `%-5d`,
`%s` and (for `Diag/Header.lean` and
`Diag/Dump.lean`) `%02X` and `%08X`.  Its argument list is the list of the arguments not yet taken; after the call it is the
rest of the list, which is what happens where `va_list` is an array type (the C standard leaves its
value open).  Taking an argument that is not there is undefined: `none`.  Numbers printed are not
negative.
-/
namespace Wrench.Diag

open Wrench

abbrev Text := List Byte

/-- The characters of a literal. -/
def ascii (s : String) : Text := s.toList.map fun c => BitVec.ofNat 8 c.toNat

/-- A piece of a format: literal text, `%d`, `%-5d`, `%02X` (of a byte), `%08X`,
`%s`. -/
inductive Piece where
  | lit (t : Text)
  | d
  | d5
  | x2
  | x8
  | s

/-- An argument: a number, or the characters from a `char*` on. -/
inductive Arg where
  | n (v : Nat)
  | p (mem : Text)

/-- `%d`. -/
def dec (n : Nat) : Text :=
  if n < 10 then [BitVec.ofNat 8 (48 + n)] else dec (n / 10) ++ [BitVec.ofNat 8 (48 + n % 10)]
termination_by n

/-- `%-5d`: at least five characters, filled with blanks on the right. -/
def dec5 (n : Nat) : Text := dec n ++ List.replicate (5 - (dec n).length) 32#8

/-- A hexadecimal digit of `%X`. -/
def hexDigit (n : Nat) : Byte := if n < 10 then BitVec.ofNat 8 (48 + n) else BitVec.ofNat 8 (55 + n)

/-- `%02X` of a number below 256. -/
def hex2 (n : Nat) : Text := [hexDigit (n / 16), hexDigit (n % 16)]

/-- `%08X` of a number below 2^32. -/
def hex8 (n : Nat) : Text := [7, 6, 5, 4, 3, 2, 1, 0].map fun k => hexDigit (n / 16 ^ k % 16)

/-- `vsnprintf` without the limit: the text, and the arguments that are left.  `%s` prints up to the
terminating zero. -/
def render : List Piece → List Arg → Option (Text × List Arg)
  | [], va => some ([], va)
  | .lit t :: f, va => (render f va).map fun r => (t ++ r.1, r.2)
  | .d :: f, .n v :: va => (render f va).map fun r => (dec v ++ r.1, r.2)
  | .d5 :: f, .n v :: va => (render f va).map fun r => (dec5 v ++ r.1, r.2)
  | .x2 :: f, .n v :: va => (render f va).map fun r => (hex2 v ++ r.1, r.2)
  | .x8 :: f, .n v :: va => (render f va).map fun r => (hex8 v ++ r.1, r.2)
  | .s :: f, .p m :: va => (render f va).map fun r => (m.takeWhile (· != 0#8) ++ r.1, r.2)
  | _, _ => none

/-- `c_formatBaseTrySize`, wrench.h 1350. -/
def trySize : Nat := 80

/-- `appendFormatVA`, wrench.h 1986-2020: a first `vsnprintf` into a buffer of `trySize` bytes, which
is used if the text fits; otherwise a second one, with the same `arg`, into a block that has room
for as many characters as the first call reported. -/
def appendFormat (str : Text) (f : List Piece) (va : List Arg) : Option Text :=
  match render f va with
  | none => none
  | some (t, arg) =>
    if t.length < trySize then some (str ++ t)
    else
      match render f arg with
      | none => none
      | some (t', _) => some (str ++ t'.take t.length)

/-- `format`, wrench.h 1374: `clear`, then append. -/
def format (f : List Piece) (va : List Arg) : Option Text := appendFormat [] f va

/-- The characters from position `p` to the next line feed, cc/cc.cpp 315-318 and 329-332. -/
def lineFrom (src : List Byte) (p : Nat) : Text := (src.drop p).takeWhile (· != 10#8)

/-- One round of the loop of `getSourcePosition`, cc/cc.cpp 320-340; `none` = read outside the source. -/
def posStep (src : List Byte) (st : Option (Nat × Nat × Text)) (i : Nat) : Option (Nat × Nat × Text) :=
  st.bind fun (onLine, onChar, line) =>
    (src[i]?).map fun c =>
      if c = 10#8 then (onLine + 1, 0, lineFrom src (i + 1)) else (onLine, onChar + 1, line)

/-- `getSourcePosition( onLine, onChar, &line )`, cc/cc.cpp 310-343. -/
def getSourcePosition (src : List Byte) (pos : Nat) : Option (Nat × Nat × Text) :=
  (List.range pos).foldl (posStep src) (some (1, 0, lineFrom src 0))

/-- `c_errStrings`, utils/utils.cpp 1636-1700. -/
def errStrings : List String :=
  ["WR_ERR_None",
   "WR_ERR_compiler_not_loaded",
   "WR_ERR_function_not_found",
   "WR_ERR_lib_function_not_found",
   "WR_ERR_hash_not_found",
   "WR_ERR_library_constant_not_loaded",
   "WR_ERR_unknown_opcode",
   "WR_ERR_unexpected_EOF",
   "WR_ERR_unexpected_token",
   "WR_ERR_bad_expression",
   "WR_ERR_bad_label",
   "WR_ERR_statement_expected",
   "WR_ERR_unterminated_string_literal",
   "WR_ERR_newline_in_string_literal",
   "WR_ERR_bad_string_escape_sequence",
   "WR_ERR_tried_to_load_non_resolvable",
   "WR_ERR_break_keyword_not_in_looping_structure",
   "WR_ERR_continue_keyword_not_in_looping_structure",
   "WR_ERR_expected_while",
   "WR_ERR_compiler_panic",
   "WR_ERR_constant_redefined",
   "WR_ERR_struct_in_struct",
   "WR_ERR_var_not_seen_before_label",
   "WR_ERR_unexpected_export_keyword",
   "WR_ERR_new_assign_by_label_or_offset_not_both",
   "WR_ERR_struct_not_exported",
   "WR_ERR_empty_parens",
   "WR_ERR_blank_variables_cannot_be_initialized",
   "WR_ERR_run_must_be_called_by_itself_first",
   "WR_ERR_hash_table_size_exceeded",
   "WR_ERR_hash_table_invalid_key",
   "WR_ERR_wrench_function_not_found",
   "WR_ERR_array_must_be_indexed",
   "WR_ERR_context_not_found",
   "WR_ERR_context_not_yielded",
   "WR_ERR_cannot_call_function_context_yielded",
   "WR_ERR_hash_declaration_in_array",
   "WR_ERR_array_declaration_in_hash",
   "WR_ERR_stack_overflow",
   "WR_ERR_bad_goto_label",
   "WR_ERR_bad_goto_location",
   "WR_ERR_goto_target_not_found",
   "WR_ERR_switch_with_no_cases",
   "WR_ERR_switch_case_or_default_expected",
   "WR_ERR_switch_construction_error",
   "WR_ERR_switch_bad_case_hash",
   "WR_ERR_switch_duplicate_case",
   "WR_ERR_bad_bytecode_CRC",
   "WR_ERR_execute_function_zero_called_more_than_once",
   "WR_ERR_malloc_failed",
   "WR_ERR_USER_err_out_of_range",
   "WR_ERR_division_by_zero"]

/-- `msg.appendFormat(" ")`, `n` times, cc/cc.cpp 124-127. -/
def blanks : Nat → Text → Option Text
  | 0, m => some m
  | n + 1, m => (appendFormat m [.lit (ascii " ")] []).bind (blanks n)

/-- The message built in `compile`, cc/cc.cpp 113-129, when `m_err` is `err` and `m_pos` is `pos`. -/
def message (src : List Byte) (pos err : Nat) : Option Text :=
  (getSourcePosition src pos).bind fun (onLine, onChar, line) =>
  (format [.lit (ascii "line:"), .d, .lit (ascii "\n")] [.n onLine]).bind fun m =>
  (errStrings[err]?).bind fun e =>
  (appendFormat m [.lit (ascii "err: "), .s, .lit (ascii "["), .d, .lit (ascii "]\n")]
    [.p (ascii e), .n err]).bind fun m =>
  (appendFormat m [.d5, .lit (ascii " "), .s, .lit (ascii "\n")] [.n onLine, .p line]).bind fun m =>
  (blanks onChar m).bind fun m =>
  appendFormat m [.lit (ascii "     ^\n")] []

/-- The name a global is stored under, cc/cc.cpp 856-865 and 919-927: the token as it is if it begins
with `::`, otherwise `t2.format( "::%s", token.c_str() )`. -/
def globalName (token : Text) : Option Text :=
  if token.take 2 = ascii "::" then some token else format [.lit (ascii "::"), .s] [.p token]

end Wrench.Diag
