{
 "claims": [
  {
   "property": "C01",
   "status": "proved",
   "theorems": [
    "Wrench.C01_image_accepted_iff",
    "Wrench.C01_linked_image_accepted"
   ],
   "note": "full characterisation of acceptance, and every linked image is accepted"
  },
  {
   "property": "C02",
   "status": "proved",
   "theorems": [
    "Wrench.C02_single_byte_corruption_rejected"
   ],
   "note": ""
  },
  {
   "property": "C03",
   "status": "proved",
   "theorems": [
    "Wrench.C03_pack16_roundtrip",
    "Wrench.C03_pack32_roundtrip",
    "Wrench.C03_pack_injective",
    "Wrench.C03_pack32_little_endian"
   ],
   "note": ""
  },
  {
   "property": "C04",
   "status": "partial",
   "theorems": [
    "Wrench.C04_hash_incremental_partial",
    "Wrench.C04_incremental_fails_at_zero",
    "Wrench.C04_hashStr_eq_hash_partial",
    "Wrench.C04_hashStr_differs_on_high_bytes",
    "Wrench.C04_one_byte_never_collides"
   ],
   "note": "the code violates the full statement: incremental hashing restarts when the running hash is 0, and wr_hashStr sign-extends bytes >= 0x80; both violations are proved, the partial theorems hold outside those cases"
  },
  {
   "property": "C05",
   "status": "proved",
   "theorems": [
    "Wrench.HashTable.C05_hash_table_refines_map",
    "Wrench.HashTable.C05_last_write_wins",
    "Wrench.HashTable.C05_only_exhaustion_fails",
    "Wrench.HashTable.C05_reserved_key_lost"
   ],
   "note": "keys whose hash is the reserved empty marker are excluded; C05_reserved_key_lost shows the exclusion is needed"
  },
  {
   "property": "C06",
   "status": "proved",
   "theorems": [
    "Wrench.HashTable.C06_exists_exact",
    "Wrench.HashTable.C06_remove_exact"
   ],
   "note": ""
  },
  {
   "property": "C07",
   "status": "partial",
   "theorems": [
    "Wrench.HashTable.C07_count_partial",
    "Wrench.HashTable.C07_count_wrong_after_growth",
    "Wrench.HashTable.C07_count_underflows"
   ],
   "note": "the code violates the full statement: the insertion that triggers a growth is not counted; proved for histories without growth, violation proved"
  },
  {
   "property": "C08",
   "status": "partial",
   "theorems": [
    "Wrench.HashTable.C08_untouched_reads_default_partial",
    "Wrench.HashTable.C08_stale_value_resurfaces"
   ],
   "note": "the code violates the full statement: removing a key leaves its value, which a later insertion in that slot exposes; proved for histories without removal"
  },
  {
   "property": "C09",
   "status": "partial",
   "theorems": [
    "Wrench.Serializer.C09_roundtrip_partial",
    "Wrench.Serializer.C09_roundtrip_without_tables",
    "Wrench.Serializer.C09_buffers_prefix_free",
    "Wrench.Serializer.C09_array_failure_reported",
    "Wrench.Serializer.C09_writer_never_overflows",
    "Wrench.Serializer.C09_count_not_restored",
    "Wrench.Serializer.C09_long_string_truncated",
    "Wrench.Serializer.C09_nested_failure_hidden"
   ],
   "note": "the code violates the full statement (table element count, strings over 65535 bytes, unsupported values inside tables): violations proved; round trip proved for all supported values up to the count word, exactly for values without tables"
  },
  {
   "property": "C10",
   "status": "partial",
   "theorems": [
    "Wrench.Serializer.C10_reads_exactly_its_prefix",
    "Wrench.Serializer.C10_truncated_rejected",
    "Wrench.Serializer.C10_arbitrary_bytes_partial",
    "Wrench.Serializer.C10_bad_slot_count_is_undefined"
   ],
   "note": "truncation and exact consumption proved in full; the code has undefined behaviour on table headers announcing 0 or more than 49157 slots (proved reachable), excluded in the partial theorem"
  },
  {
   "property": "C100",
   "status": "partial",
   "theorems": [
    "Wrench.Serializer.C100_roundtrip_partial",
    "Wrench.Serializer.C100_roundtrip",
    "Wrench.Serializer.C100_text",
    "Wrench.Serializer.C100_twice",
    "Wrench.Serializer.C100_otherwise_zero",
    "Wrench.Serializer.C100_any_string_partial",
    "Wrench.Serializer.C100_fails_header"
   ],
   "note": "exact for values without hash tables; element counts of hash tables are not restored (C09_count_not_restored); strings with a bad slot count are undefined behaviour (C100_fails_header)"
  },
  {
   "property": "C101",
   "status": "proved",
   "theorems": [
    "Wrench.Frames.C99_slice_length",
    "Wrench.Frames.C99_disabled",
    "Wrench.Frames.C99_force",
    "Wrench.Frames.C99_no_overflow",
    "Wrench.Frames.slice_example"
   ],
   "note": "The parts of C99 that hold without exception. Induction over the uninterrupted run."
  },
  {
   "property": "C102",
   "status": "proved",
   "theorems": [
    "Wrench.Packet.C85_sent",
    "Wrench.Packet.C85_is_sent",
    "Wrench.Packet.C85_received",
    "Wrench.Packet.C85_is_received",
    "Wrench.Packet.C85_in_step",
    "Wrench.Packet.C85_alloc_is_sized",
    "Wrench.Packet.C85_loopback_order",
    "Wrench.Packet.C85_loopback_copy"
   ],
   "note": "The parts of C85 that hold; what does not (packets of the constructor, poll on Linux) is there."
  },
  {
   "property": "C103",
   "status": "proved",
   "theorems": [
    "Wrench.Server.C87_step_into",
    "Wrench.Server.C87_step_over",
    "Wrench.Server.C87_breakpoints",
    "Wrench.Server.C87_stack_depth",
    "Wrench.Server.C87_line_number"
   ],
   "note": "The parts of C87 that hold. Which code words the compiler emits is not modelled."
  },
  {
   "property": "C104",
   "status": "partial",
   "theorems": [
    "Wrench.Link.C104_new_partial",
    "Wrench.Link.C104_instance_partial",
    "Wrench.Link.C104_import_new_partial",
    "Wrench.Link.C104_refused",
    "Wrench.Link.C27_object_resolves",
    "Wrench.Link.structP_ok",
    "Wrench.Link.structProg_wf",
    "Wrench.Link.C104_fails_import_arguments",
    "Wrench.Link.C104_fails_import_operands",
    "Wrench.Link.C104_fails_import_example",
    "Wrench.Link.C104_fails_no_constructor",
    "Wrench.Link.C104_fails_two_names"
   ],
   "note": "The constructor's run (Frames) composed with linker, loader and member map (Link), for every program, state and length of execution. Left out, with theorems: new of an imported struct with arguments reads the members n slots too low and leaves one operand too many; wr_instanceStruct makes an instance even if the constructor failed, and with two structs of one name mixes them; new with a map at 32768 or later (C27)."
  },
  {
   "property": "C105",
   "status": "partial",
   "theorems": [
    "Wrench.Frames.C105_import_call_partial",
    "Wrench.Frames.C105_defined",
    "Wrench.Frames.C105_yield_is_error",
    "Wrench.Frames.import_run",
    "Wrench.Frames.imported_wf",
    "Wrench.Frames.C105_fails_variable",
    "Wrench.Frames.C105_fails_sum",
    "Wrench.Frames.C105_fails_overflow"
   ],
   "note": "Every importing and imported well-formed program, caller state and length of execution. Fails for returned variables (the result is a reference into the frame just left and changes with the next push) and for the stack limit, which is counted from the import's stack base."
  },
  {
   "property": "C106",
   "status": "partial",
   "theorems": [
    "Wrench.Frames.C106_protected_partial",
    "Wrench.Frames.C106_host_call",
    "Wrench.Frames.C106_no_false_alarm",
    "Wrench.Frames.after_agrees",
    "Wrench.Frames.smallProg_checked",
    "Wrench.Frames.C106_fails_literals",
    "Wrench.Frames.C106_fails_yield",
    "Wrench.Frames.C106_fails_host_arguments"
   ],
   "note": "Every well-formed program in which at most two slots are pushed without a check between two checks (the two slots between the limit and the end of the stack), every run length and stack size. after is the memory also of an instruction that ends in the error (after_agrees ties it to step). The code violates the full statement: LiteralInt32, LiteralFloat, yield() and host arguments are not checked (C106_fails_literals, C106_fails_yield, C106_fails_host_arguments). Imported functions are in C105 (C105_fails_overflow). GlobalIndexHash, LocalIndexHash, IndexLocalLiteral16, NewObjectTable and the compact LLCompare opcodes also push without a check and are not among the modelled instructions."
  },
  {
   "property": "C107",
   "status": "proved",
   "theorems": [
    "Wrench.Libs.C107_call",
    "Wrench.Libs.C107_constant",
    "Wrench.Libs.C107_distinct",
    "Wrench.Libs.demo_runs"
   ],
   "note": "On top of C72_history_partial, with the tables of names of the ten libraries. The table is assumed able to grow (C05); demo_runs loads all libraries in the order of wr_loadAllLibs. Messages under the names of functions are C38. The libraries for boards are left out."
  },
  {
   "property": "C108",
   "status": "proved",
   "theorems": [
    "Wrench.Blocks.C108_safe",
    "Wrench.Blocks.C108_handed_over",
    "Wrench.Blocks.C108_host_keeps",
    "Wrench.Blocks.C108_all_gone",
    "Wrench.Blocks.C108_refused",
    "Wrench.Blocks.C108_import_leaks",
    "Wrench.Blocks.C108_run_ambiguous"
   ],
   "note": "On top of C31 (contexts and imports); its exceptions for scripts that import while being imported are excluded by the rules. C108_run_ambiguous and C108_import_leaks prove the two corners. Whether a block is accepted and whether a script succeeds are parameters; allocation does not fail."
  },
  {
   "property": "C109",
   "status": "partial",
   "theorems": [
    "Wrench.Gc.C109_when_collected",
    "Wrench.Gc.C109_destroy_frees_all_partial",
    "Wrench.Gc.C109_destroy_leaks"
   ],
   "note": "The code violates the statement: wr_destroyContextEx forces the collection by setting the counter to (uint16_t)-1, so with a limit above 65535 nothing is collected and every object of the context is leaked (C109_destroy_leaks, for all heaps). Proved for limits up to 65535, from cleared flags (see C110 for flags left by other contexts). Growth of hash tables is not counted by the code and not in this model."
  },
  {
   "property": "C11",
   "status": "proved",
   "theorems": [
    "Wrench.Ops.C11_int_arithmetic_wraps",
    "Wrench.Ops.C11_float_arithmetic"
   ],
   "note": "All operand forms (stack value, reference chain, array/string/raw/hash element); floats abstract."
  },
  {
   "property": "C110",
   "status": "partial",
   "theorems": [
    "Wrench.Gc.C110_own_variables_only",
    "Wrench.Gc.C110_isolated_partial",
    "Wrench.Gc.C110_returned_array_freed",
    "Wrench.Gc.C110_flag_left",
    "Wrench.Gc.C110_stale_flag_frees"
   ],
   "note": "The code violates the statement: a collection marks from the variables of its own context only (C110_own_variables_only: exactly what they do not reach is freed), so an array returned by an import and kept by the script is freed (C110_returned_array_freed); and the flags that the script's collector leaves on objects of the import make the import's collector free what those objects contain (C110_flag_left, C110_stale_flag_frees). Proved for contexts that keep their objects to themselves."
  },
  {
   "property": "C111",
   "status": "partial",
   "theorems": [
    "Wrench.Whole.C111_text_partial",
    "Wrench.Whole.C111_bare_partial",
    "Wrench.Whole.C111_settled_partial",
    "Wrench.Whole.C111_calm_partial",
    "Wrench.Whole.C111_same_bytes_partial",
    "Wrench.Whole.C111_reference",
    "Wrench.Whole.C111_fails_negation",
    "Wrench.Whole.C111_fails_compare"
   ],
   "note": "The code violates the statement: a parenthesised sum, difference or quotient of two variables is fused and its cache of opcodes cleared, so the entries of the enclosing expression seem to describe its last bytes; -(a + b) * -5 loses the negation (C111_fails_negation), c == (a + b) & -5 overwrites an operand byte and reads a local that does not exist (C111_fails_compare). Proved: compilation succeeds and the bytes push the value for every expression without parentheses whose operands are placed right (C28), for every expression whose parentheses hold no sum, difference or quotient of two variables, with at most two operators on plain operands outside parentheses and inside each pair (C111_text_partial, a condition on the text alone), for parentheses whose code hides the cache, for all expressions the cache stays right in, and for all expressions with an emitter that forgets the cache there (C111_reference). The byte before an empty cache, which the optimizer reads, is taken not to be the opcode of a load."
  },
  {
   "property": "C112",
   "status": "partial",
   "theorems": [
    "Wrench.Prog.C112_terminates_partial",
    "Wrench.Prog.C112_diverges_partial",
    "Wrench.Prog.good_bare",
    "Wrench.Prog.good_text",
    "Wrench.Prog.C112_fails"
   ],
   "note": "Both directions are proved for programs whose expressions the emitter handles (Good: the conditions of C111; good_text gives them for all expressions with at most two operators on plain operands outside parentheses and inside each pair whose parentheses hold no sum, difference or quotient of two variables). The code violates the statement for others: c = -(a + b) * -5 leaves -205 instead of 205 (C112_fails). Where an operation is undefined in C++ (overflow of ++, -- and *=, see C14 and C51) nothing is claimed. return is covered by C113. Missing: those expressions, other types, calls, declarations, switch, for-each, goto."
  },
  {
   "property": "C113",
   "status": "partial",
   "theorems": [
    "Wrench.Prog.C113_script_partial",
    "Wrench.Prog.C113_function_partial",
    "Wrench.Prog.C113_call_partial",
    "Wrench.Prog.enter_steps",
    "Wrench.Prog.enter_ready",
    "Wrench.Prog.ret_stmt",
    "Wrench.Prog.C113_fails",
    "Wrench.Prog.gcd_runs",
    "Wrench.Prog.isqrt_runs",
    "Wrench.Prog.script_runs"
   ],
   "note": "Proved for return anywhere in the script or function, under the conditions of C112 on the expressions (Good; sufficient conditions on the text are good_bare and good_text). The code violates the statement for bodies that end without return although their code ends in one: they run past the end (C113_fails), excluded by hypothesis. After a return before the end of the script the context is not ready for calls (C67). Missing: expressions the emitter gets wrong (C111), other types, calls inside the script. C113_call_partial has the entry of the function step by step."
  },
  {
   "property": "C114",
   "status": "partial",
   "theorems": [
    "Wrench.Prog.C114_session_partial",
    "Wrench.Prog.C114_host_partial",
    "Wrench.Prog.calls_run",
    "Wrench.Prog.host_calls_run",
    "Wrench.Prog.bsteps_behind",
    "Wrench.Prog.session_runs",
    "Wrench.Prog.host_runs"
   ],
   "note": "Proved under the conditions of C113 on the script and on every function (expressions the emitter handles, no body that ends without return although its code ends in one), for scripts with no return before the end (otherwise the context is not ready for calls, C67) and images below 65536 bytes (offsets wrap beyond, C29_offset_wraps). What the first variable behind the parameters holds before it is set is arbitrary (C99); C114_host_partial, with the entry of functions step by step, is for calls whose value does not depend on it, C114_session_partial for given contents. Functions are called by number; finding them by name is C29. Missing: calls between functions, other types."
  },
  {
   "property": "C115",
   "status": "partial",
   "theorems": [
    "Wrench.Util.Str.C115_find_partial",
    "Wrench.Util.Str.C115_findCase_partial",
    "Wrench.Util.Str.C115_rfind_partial",
    "Wrench.Util.Str.C115_find_zero",
    "Wrench.Util.Str.C115_find_corners"
   ],
   "note": "Every string the operations of C35 leave, every nonempty pattern; the text has no zero byte for find and findCase, and their start is inside it. C115_find_zero and C115_find_corners show what the code does otherwise."
  },
  {
   "property": "C116",
   "status": "partial",
   "theorems": [
    "Wrench.Util.Str.C116_equal_partial",
    "Wrench.Util.Str.C116_equal_front",
    "Wrench.Util.Str.C116_isMatch",
    "Wrench.Util.Str.C116_isMatchCase_partial",
    "Wrench.Util.Str.C116_isMatchCase_prefix",
    "Wrench.Util.Str.C116_isMatchCase_longer",
    "Wrench.Util.Str.C116_equal_zero"
   ],
   "note": "Every string the operations of C35 leave. == and != are exact when one text has no zero byte, isMatchCase when the C string is not longer than the text; C116_equal_front and C116_isMatchCase_prefix say what they compute otherwise, C116_equal_zero and C116_isMatchCase_longer are counterexamples to the plain reading."
  },
  {
   "property": "C117",
   "status": "partial",
   "theorems": [
    "Wrench.Diag.C117_table_partial",
    "Wrench.Diag.reads_unique",
    "Wrench.Diag.C117_heading_undefined"
   ],
   "note": "The array is read back as the code, uniquely, under a reading of C initialisers stated on its own (Reads). The code violates the rest: the heading is formatted with a used up argument list, undefined for every input (C117_heading_undefined; va_list as in C70)."
  },
  {
   "property": "C118",
   "status": "partial",
   "theorems": [
    "Wrench.Util.Args.C118_index",
    "Wrench.Util.Args.C118_option",
    "Wrench.Util.Args.C118_parameter_partial",
    "Wrench.Util.Args.C118_index_parameter_partial",
    "Wrench.Util.Args.C118_no_terminator",
    "Wrench.Util.Args.C118_overrun"
   ],
   "note": "Proved for all argument lists. The parameter is a proper C string for buffers with room for the limit and parameters shorter than it; C118_no_terminator and C118_overrun show, for all inputs of that kind, what happens otherwise."
  },
  {
   "property": "C119",
   "status": "proved",
   "theorems": [
    "Wrench.Diag.C119_dump"
   ],
   "note": "For all data; the marked byte (markByte) is not modelled."
  },
  {
   "property": "C12",
   "status": "partial",
   "theorems": [
    "Wrench.Ops.C12_division_partial",
    "Wrench.Ops.C12_modulo_partial",
    "Wrench.Ops.C12_bit_operators",
    "Wrench.Ops.C12_int_min_divided_by_minus_one",
    "Wrench.Ops.C12_modulo_zero",
    "Wrench.Ops.C12_element_modulo_variable"
   ],
   "note": "The code is not total: INT_MIN / -1, x % 0, INT_MIN % -1 are undefined, and element % variable uses the wrong table entry; proved everywhere else."
  },
  {
   "property": "C13",
   "status": "partial",
   "theorems": [
    "Wrench.Ops.C13_comparison_partial",
    "Wrench.Ops.C13_int_variable_retyped",
    "Wrench.Ops.C13_mixed_answer"
   ],
   "note": "Fails in the code for int variable compared with float by <, >, &&, ||: the variable is retyped."
  },
  {
   "property": "C14",
   "status": "partial",
   "theorems": [
    "Wrench.Ops.C14_compound_assignment_partial",
    "Wrench.Ops.C14_element_target_overwrites_operand",
    "Wrench.Ops.C14_element_minus_element",
    "Wrench.Ops.C14_multiply_assign_overflow"
   ],
   "note": "Proved for variables on the left; container elements on the left violate it (witnesses), *= overflow is undefined."
  },
  {
   "property": "C15",
   "status": "partial",
   "theorems": [
    "Wrench.Gc.C15_reachable_survive_partial",
    "Wrench.Gc.markAll_exact",
    "Wrench.Gc.C15_hash_element_freed",
    "Wrench.Gc.C15_struct_member_freed",
    "Wrench.Gc.C15_raw_array_element_undefined"
   ],
   "note": "Every heap, root set and flag assignment, reachability through values and through element references that name a variable. False in the code for objects reachable only through a WR_REF into an object or through a hash element reference (witnesses), and undefined for element references to raw arrays."
  },
  {
   "property": "C16",
   "status": "proved",
   "theorems": [
    "Wrench.Gc.C16_exactly_unreachable_freed",
    "Wrench.Gc.C16_collections_repeat"
   ],
   "note": "For every collection that completes; completion itself is C17. SV_HASH_ENTRY and SV_VOID_HASH_TABLE objects never occur on the list and are not modelled."
  },
  {
   "property": "C17",
   "status": "partial",
   "theorems": [
    "Wrench.Gc.C17_acyclic_terminates_partial",
    "Wrench.Gc.C17_cycle_never_completes",
    "Wrench.Gc.C17_self_reference_diverges"
   ],
   "note": "Acyclic heaps: terminates with depth at most 2n+2. Any reachable cycle: never completes, for every recursion depth (the property is false in the code)."
  },
  {
   "property": "C18",
   "status": "partial",
   "theorems": [
    "Wrench.Containers.Foreach.C18_foreach_partial",
    "Wrench.Containers.Foreach.C18_table",
    "Wrench.Containers.Foreach.C18_large_array_stops",
    "Wrench.Containers.Foreach.C18_number_resumes_old_loop",
    "Wrench.Containers.Foreach.C18_recursion_cuts_loop_short"
   ],
   "note": "Hash tables: every present key exactly once after any history, no bound. Arrays and strings: for every container of at most 65536 elements and every body that does not change its shape nor re-enter the same statement; beyond 65536 the loop is proved to stop early, and re-entry (recursion) and iterating a number are shown to go wrong."
  },
  {
   "property": "C19",
   "status": "partial",
   "theorems": [
    "Wrench.Containers.C19_remove_partial",
    "Wrench.Containers.C19_remove_negative_count",
    "Wrench.Containers.C19_truncate",
    "Wrench.Containers.C19_insert_partial",
    "Wrench.Containers.C19_insert_beyond_end",
    "Wrench.Containers.C19_insert_negative_count",
    "Wrench.Containers.C19_push_pop",
    "Wrench.Containers.C19_remove_op_partial",
    "Wrench.Containers.C19_remove_op_out_of_range",
    "Wrench.Containers.C19_remove_op_empty",
    "Wrench.Containers.C19_clear_uninitialised",
    "Wrench.Containers.C19_push_limit"
   ],
   "note": "All in-range arguments, sizes below 2^27 (byte count is an int; C19_push_limit shows the bound is exact). Out-of-range arguments are proved to be undefined or wrong on witnesses. Allocation failure and the collector run are not in this model."
  },
  {
   "property": "C20",
   "status": "partial",
   "theorems": [
    "Wrench.Containers.C20_stack_lifo_partial",
    "Wrench.Containers.C20_queue_fifo_partial",
    "Wrench.Containers.C20_stored_reference"
   ],
   "note": "Every history (below the int size limits; 2^21 for queue::peek) of plain values. A pushed variable is stored as a reference, so a later assignment to it changes the stored value: C20_stored_reference."
  },
  {
   "property": "C21",
   "status": "partial",
   "theorems": [
    "Wrench.Std.C21_itoa_partial",
    "Wrench.Std.C21_int_min"
   ],
   "note": "missing: INT_MIN, where the negation in wr_itoa overflows (C21_int_min); every other 32-bit integer is covered"
  },
  {
   "property": "C22",
   "status": "partial",
   "theorems": [
    "Wrench.StrLib.C22_no_overrun",
    "Wrench.StrLib.C22_buffer_partial",
    "Wrench.StrLib.C22_format_partial",
    "Wrench.StrLib.C22_printf_partial",
    "Wrench.StrLib.C22_sprintf_new_partial",
    "Wrench.StrLib.C22_sprintf_reuse_partial",
    "Wrench.StrLib.C22_printf_overread",
    "Wrench.StrLib.C22_percent_s_of_number",
    "Wrench.StrLib.C22_sprintf_alias",
    "Wrench.StrLib.C22_sprintf_shared"
   ],
   "note": "No store at or beyond the limit for every format, argument list and buffer, aliased or not (C22_no_overrun). Full length and truncated text for every format that has a text, any limit; format, printf and sprintf yield the whole text. Missing: texts of 2^32 bytes, the buffer being the format or an argument. Where it fails: %s of a number returns 0, aliased sprintf, printf of the default build reads past the text."
  },
  {
   "property": "C23",
   "status": "partial",
   "theorems": [
    "Wrench.StrLib.C23_left",
    "Wrench.StrLib.C23_right",
    "Wrench.StrLib.C23_mid_rest_partial",
    "Wrench.StrLib.C23_mid_partial",
    "Wrench.StrLib.C23_concat",
    "Wrench.StrLib.C23_insert",
    "Wrench.StrLib.C23_trimleft_partial",
    "Wrench.StrLib.C23_trimright_partial",
    "Wrench.StrLib.C23_trim_partial",
    "Wrench.StrLib.C23_tolower_partial",
    "Wrench.StrLib.C23_toupper_partial",
    "Wrench.StrLib.C23_case_of_code_partial",
    "Wrench.StrLib.C23_chr",
    "Wrench.StrLib.C23_strlen_partial",
    "Wrench.StrLib.C23_not_a_string",
    "Wrench.StrLib.C23_classes_partial",
    "Wrench.StrLib.C23_mid_of_empty",
    "Wrench.StrLib.C23_trim_high_byte",
    "Wrench.StrLib.C23_concat_overrun"
   ],
   "note": "left, right, concat, insert, chr for every string and every index; mid for every non-empty string; the others for strings whose bytes the C character functions accept. Where it fails: mid of the empty string, bytes 0x80-0xFE, concat of 2^32 bytes."
  },
  {
   "property": "C24",
   "status": "proved",
   "theorems": [
    "Wrench.Vm.Jump.C24_jumps_land",
    "Wrench.Vm.Jump.C24_misfit_reported",
    "Wrench.Vm.Jump.C24_source_layout",
    "Wrench.Vm.Jump.C24_sourceEx_layout",
    "Wrench.Vm.Jump.C24_goto_lands",
    "Wrench.Vm.Jump.C24_goto_misfit",
    "Wrench.Vm.Jump.C24_unplaced_target_rejected"
   ],
   "note": "All branch opcodes, any number of targets and references; resolution is idempotent (it is re-run per enclosing loop). Emission establishes the well-formed layout the main theorem assumes. C24_unplaced_target_rejected records a spurious compile error for nested loops beyond 32768 bytes. Whether the code before a jump source has the expected operand bytes is the peephole emitter's business (C25); label position relies on the LiteralZero being dropped by PopOne."
  },
  {
   "property": "C25",
   "status": "partial",
   "theorems": [
    "Wrench.Peep.C25_emit_partial",
    "Wrench.Peep.C25_append_partial",
    "Wrench.Peep.C25_cache",
    "Wrench.Peep.Rw.sound",
    "Wrench.Peep.C25_fails_negate",
    "Wrench.Peep.C25_fails_negate16",
    "Wrench.Peep.C25_fails_index",
    "Wrench.Peep.C25_fails_index_numbers",
    "Wrench.Peep.C25_fails_skipLoad",
    "Wrench.Peep.C25_fails_concat",
    "Wrench.Peep.C25_fails_compare",
    "Wrench.Peep.C25_fails_literal_store",
    "Wrench.Peep.C25_fails_increment",
    "Wrench.Peep.C25_fails_negative_index",
    "Wrench.Peep.C25_fails_stale_cache",
    "Wrench.Peep.C25_fails_short_cache",
    "Wrench.StrLib.C25_lib_call_and_pop"
   ],
   "note": "Every emission by pushOpcode/appendBytecode on code the emitter built is a plain append or an instance of one of 29 rules, and every rule preserves stack, variables, arrays, objects, branch and return from every state meeting its side condition, to code with any common prefix. The unconditional claim is false (C25_fails_negate) and each side condition has a witness. Left out: PopOne right after a call, hash/struct indexing, jump and goto fix-ups in appendBytecode. Fails for a library call whose result is dropped (C25_lib_call_and_pop)."
  },
  {
   "property": "C26",
   "status": "partial",
   "theorems": [
    "Wrench.Cc.C26_dispatch_partial",
    "Wrench.Cc.C26_int_partial",
    "Wrench.Cc.C26_string_partial",
    "Wrench.Cc.C26_labels_distinct",
    "Wrench.Cc.C26_duplicate_rejected",
    "Wrench.Cc.C26_all_ones_label",
    "Wrench.Cc.C26_far_case",
    "Wrench.Cc.C26_kinds_mixed",
    "Wrench.Cc.C26_high_byte_label"
   ],
   "note": "Every label set and selector, both table forms, when no label hashes to 0xFFFFFFFF and the displacements fit 16 bits. Otherwise the code is wrong: C26_all_ones_label (table of size 0), C26_far_case (silent wrap), labels and selectors are compared by hash only. The statement layout around the table belongs to C40."
  },
  {
   "property": "C27",
   "status": "partial",
   "theorems": [
    "Wrench.Link.C27_member_resolves_partial",
    "Wrench.Link.C27_object_resolves",
    "Wrench.Link.C27_new_resolves_partial",
    "Wrench.Link.C27_no_members_overflows",
    "Wrench.Link.C27_high_map_outside",
    "Wrench.Link.C27_null_name_outside",
    "Wrench.Link.C27_many_locals_hang"
   ],
   "note": "Holds for maps below 32768 (C27_object_resolves: anywhere, for wr_instanceStruct and imports), at least one member, and names other than the reserved hash. The last four theorems show the cases left out: a constructor with arguments and no members, a map at 32768 or later, a name with the reserved hash, more than 255 locals."
  },
  {
   "property": "C28",
   "status": "partial",
   "theorems": [
    "Wrench.Expr.C28_unambiguous",
    "Wrench.Expr.C28_few_pending_partial",
    "Wrench.Expr.C28_clean_partial",
    "Wrench.Expr.C28_miscompiled_sum",
    "Wrench.Expr.C28_miscompiled_compare",
    "Wrench.Expr.C28_miscompiled_equality",
    "Wrench.Expr.C28_double_prefix_refused"
   ],
   "note": "the compiler miscompiles some expressions with three or more pending intermediate values (three proved counterexamples) and refuses nested prefix operators; correct for every expression with at most two innermost operators, and for every expression whose compilation meets no defective operand placement. Assignment, ++/--, member access, indexing and the peephole pass are outside this model"
  },
  {
   "property": "C29",
   "status": "partial",
   "theorems": [
    "Wrench.Link.C29_link_load_partial",
    "Wrench.Link.C29_global_by_name_partial",
    "Wrench.Link.C29_offset_wraps",
    "Wrench.Link.C29_long_labels_confused",
    "Wrench.Link.C29_limits",
    "Wrench.Link.C29_links"
   ],
   "note": "Every program whose image is at most 65536 bytes and whose functions have at most 254 arguments and locals, none called yield. Beyond 65535 the stored offset is the true one modulo 65536 (C29_offset_wraps); labels over 61 characters are cut (C29_long_labels_confused). Code-level debug symbols are off and the symbol block is opaque. C29_limits: the linker reports an error exactly when a count does not fit. C29_links: below 65536 bytes nothing else stops it than a member map that cannot be built (C42, C27)."
  },
  {
   "property": "C30",
   "status": "partial",
   "theorems": [
    "Wrench.Host.scheduler_history_partial",
    "Wrench.Host.tick_resumes_each_once_partial",
    "Wrench.Host.tick_keeps_partial",
    "Wrench.Host.tick_lastErr_partial",
    "Wrench.Host.gone_never_resumed_partial",
    "Wrench.Host.removeTask_exact_partial",
    "Wrench.Host.addThread_fresh",
    "Wrench.Host.freeTasks_all",
    "Wrench.Host.addThread_finished_keeps_context",
    "Wrench.Host.nested_add_lost",
    "Wrench.Host.nested_remove_ub"
   ],
   "note": "Every history and every behaviour of the tasks, as long as ids fit an int and no task calls the scheduler while it runs. A task that does can lose a new task or use a freed one (proved); a thread that finishes at once leaves its context allocated."
  },
  {
   "property": "C31",
   "status": "partial",
   "theorems": [
    "Wrench.Host.contexts_history_partial",
    "Wrench.Host.destroy_exact",
    "Wrench.Host.destroyState_frees_all",
    "Wrench.Host.destroy_import_noop",
    "Wrench.Host.nestedImport_leaks",
    "Wrench.Host.destroyWhileImporting_ub"
   ],
   "note": "Every history in which a script being imported does not itself import or destroy the importing context. Otherwise the code leaks the nested import or uses freed memory (last two theorems)."
  },
  {
   "property": "C32",
   "status": "proved",
   "theorems": [
    "Wrench.Frames.C32_resume_continues",
    "Wrench.Frames.C32_default_value",
    "Wrench.Frames.C32_not_yielded_refused",
    "Wrench.Frames.C32_frame_kept",
    "Wrench.Frames.C32_host_call_resumes_instead"
   ],
   "note": "Every machine state with the yield arguments on the stack. C32_host_call_resumes_instead records that wr_callFunction on a yielded context ignores the function and arguments and continues the yielded code. Time-sliced (forced) yields are a build option and not modelled; a yield inside an imported context is a run-time error in the code."
  },
  {
   "property": "C33",
   "status": "partial",
   "theorems": [
    "Wrench.Frames.C33_call_and_return_partial",
    "Wrench.Frames.C33_push_return_value",
    "Wrench.Frames.C33_entry_partial",
    "Wrench.Frames.C33_host_call_partial",
    "Wrench.Frames.C33_linked_adjustment",
    "Wrench.Frames.demoProg_wf",
    "Wrench.Frames.C33_fails_first_local",
    "Wrench.Frames.C33_fails_first_local_example",
    "Wrench.Frames.C33_fails_frame_overflow"
   ],
   "note": "Every caller state, argument count, call depth and length of execution, recursion and yields included, for well-formed code: entering, being inside and returning keep the caller's slots except those reachable through by-reference arguments. The first local does not start as 0 (C33_fails_first_local) and 255 or more arguments and locals break the frame base (C33_fails_frame_overflow). Assumed, not proved here: the compiler emits one operand depth per position (WF; demoProg_wf shows a program that meets it), and cells outside the stack hold no references to stack slots. Imported contexts and by-hash callbacks are not modelled."
  },
  {
   "property": "C34",
   "status": "partial",
   "theorems": [
    "Wrench.Std.C34_seed_update",
    "Wrench.Std.C34_never_stuck",
    "Wrench.Std.C34_rand_in_range_partial",
    "Wrench.Std.C34_full_range_overflows",
    "Wrench.Std.C34_zero_seed_stuck"
   ],
   "note": "range theorem needs to-from <= 2^31-2; beyond that the code overflows (C34_full_range_overflows)"
  },
  {
   "property": "C35",
   "status": "partial",
   "theorems": [
    "Wrench.Util.Str.C35_string_ops_partial",
    "Wrench.Util.Str.C35_substr_partial",
    "Wrench.Util.Str.C35_setSize",
    "Wrench.Util.Str.C35_insert_beyond_end",
    "Wrench.Util.Str.C35_append_self_freed",
    "Wrench.Util.Str.C35_substr_npos",
    "Wrench.Util.Str.C35_white_space",
    "Wrench.Util.Str.C35_append_self_partial"
   ],
   "note": "All histories with insertion points inside the text and sizes below 2^32; counterexamples otherwise. Searching is C115; format is not covered."
  },
  {
   "property": "C36",
   "status": "partial",
   "theorems": [
    "Wrench.Util.Arr.C36_array_is_list_partial",
    "Wrench.Util.Arr.C36_read",
    "Wrench.Util.Arr.C36_tail",
    "Wrench.Util.Arr.C36_remove_overruns",
    "Wrench.Util.Arr.C36_remove_keeps_extra",
    "Wrench.Util.Arr.C36_copy_capacity",
    "Wrench.Util.Arr.C36_read_beyond"
   ],
   "note": "All histories with removals inside the array; counterexamples for straddling removals and for the copy constructor. Counts do not wrap at 2^32."
  },
  {
   "property": "C37",
   "status": "proved",
   "theorems": [
    "Wrench.Util.LL.C37_list",
    "Wrench.Util.LL.C37_values",
    "Wrench.Util.LL.C37_iterate",
    "Wrench.Util.LL.C37_clear"
   ],
   "note": "SimpleLL: every history of first/next/tail/count/[]/add/pop/popAt/popItem/clear refines a list with a cursor; every item is visited once in order; clear frees every node."
  },
  {
   "property": "C38",
   "status": "partial",
   "theorems": [
    "Wrench.Host.mailbox_history_partial",
    "Wrench.Host.write_then_read_partial",
    "Wrench.Host.holds_registered",
    "Wrench.Host.message_replaces_function",
    "Wrench.Host.message_is_callable",
    "Wrench.Host.clear_removes_function",
    "Wrench.Host.unknown_call_makes_message",
    "Wrench.Host.stale_message_called"
   ],
   "note": "Every history on keys that are not function names. The mailbox shares the function registry: the last five theorems show messages replacing functions, being called as code addresses, and failed calls leaving messages. Reading removes only with the clear argument."
  },
  {
   "property": "C39",
   "status": "partial",
   "theorems": [
    "Wrench.Cc.C39_scan",
    "Wrench.Cc.C39_scan_lp64",
    "Wrench.Cc.C39_push",
    "Wrench.Cc.C39_negate_partial",
    "Wrench.Cc.C39_negate_decimal",
    "Wrench.Cc.C39_float",
    "Wrench.Cc.C39_char",
    "Wrench.Cc.C39_char_escape",
    "Wrench.Cc.C39_negate_wrong",
    "Wrench.Cc.C39_binary_clamped",
    "Wrench.Cc.C39_octal_digit"
   ],
   "note": "Every notation and every 32-bit value is scanned and pushed exactly (64-bit long); -n is right for all n up to 2^31. The property fails for -0xFFFFFF80 and -0xFFFF8000 (C39_negate_wrong) and for binary/octal literals >= 2^31 where long has 32 bits (C39_binary_clamped). atof is not interpreted."
  },
  {
   "property": "C40",
   "status": "partial",
   "theorems": [
    "Wrench.Flow.C40_normal_partial",
    "Wrench.Flow.C40_return_partial",
    "Wrench.Flow.C40_no_fault_partial",
    "Wrench.Flow.C40_diverges_partial",
    "Wrench.Flow.C40_compiles",
    "Wrench.Flow.C40_switch_ends_in_loop",
    "Wrench.Flow.C40_switch_ends_in_if",
    "Wrench.Flow.C40_switch_ends_in_label",
    "Wrench.Flow.C40_foreach_continue"
   ],
   "note": "For every statement tree (if, if-else, while, do, for, for-each, switch, break, continue, return, any nesting) without continue in a for-each body and without a switch whose code ends in a jump that has a continuation: the emitted code terminates with a state iff the source does, keeps the operand stack, never faults, and diverges iff the source does. The two excluded shapes are witnessed to be miscompiled. Expressions are opaque and complete normally; goto is not covered; code positions are instructions (bytes: C24, table lookup: C26)."
  },
  {
   "property": "C41",
   "status": "partial",
   "theorems": [
    "Wrench.Cc.C41_progress",
    "Wrench.Cc.C41_inside_partial",
    "Wrench.Cc.C41_reads_outside",
    "Wrench.Cc.C41_whitespace",
    "Wrench.Cc.C41_line_comment",
    "Wrench.Cc.C41_block_comment",
    "Wrench.Cc.C41_unterminated",
    "Wrench.Cc.C41_slash_star_slash",
    "Wrench.Cc.C41_comment_between",
    "Wrench.Cc.C41_operator",
    "Wrench.Cc.C41_name",
    "Wrench.Cc.C41_macro",
    "Wrench.Cc.C41_scoped_name"
   ],
   "note": "Proved for every source: progress, skipping of white space and of both comment forms, invariance of the whole token stream under replacing a blank between tokens by any comment, operators and names scanned whole. Partial because the code does read one character past the source when it ends in a colon, or in a string cut inside an escape (C41_reads_outside); the no-read-outside theorem assumes the last character is not a colon, backslash or digit. /*/ is taken as a complete comment."
  },
  {
   "property": "C42",
   "status": "partial",
   "theorems": [
    "Wrench.Util.NameTable.C42_table_is_map_partial",
    "Wrench.Util.NameTable.set_defined_iff",
    "Wrench.Util.NameTable.C42_eighteen_keys_undefined",
    "Wrench.Util.NameTable.C42_reserved_key",
    "Wrench.Util.NameTable.C42_grows_iff"
   ],
   "note": "Map behaviour for all histories inside the prime table and keys other than the reserved hash; exact condition for running off the table; counterexamples."
  },
  {
   "property": "C43",
   "status": "partial",
   "theorems": [
    "Wrench.Util.C43_sound",
    "Wrench.Util.C43_case_sound",
    "Wrench.Util.eqlower_iff",
    "Wrench.Util.C43_exact_partial",
    "Wrench.Util.C43_misses_overlap",
    "Wrench.Util.C43_misses_star_in_text",
    "Wrench.Util.C43_case_misses"
   ],
   "note": "Soundness for all inputs; exactness for patterns whose pieces do not repeat their first character and texts without *; counterexamples otherwise (the code misses matches)."
  },
  {
   "property": "C44",
   "status": "partial",
   "theorems": [
    "Wrench.Ops.C44_index_partial",
    "Wrench.Ops.C44_read",
    "Wrench.Ops.C44_store_partial",
    "Wrench.Ops.C44_index_forms_agree",
    "Wrench.Ops.C44_index_returned_array",
    "Wrench.Ops.C44_string_index_partial",
    "Wrench.Ops.C44_constant_string_past_end",
    "Wrench.Ops.C44_index_number_partial",
    "Wrench.Ops.C44_fails_past_2_21",
    "Wrench.Ops.C44_fails_float_index",
    "Wrench.Ops.C44_fails_float_element",
    "Wrench.Ops.C44_fails_negative_index",
    "Wrench.Ops.C44_fails_raw_member",
    "Wrench.Ops.C44_string_grows_partial"
   ],
   "note": "Proved for every array, size and integer index below 2^21, every index form (literal, variable, element of a container) and every way of naming the array. The code departs past 2^21 elements, for float and negative indices and for members of raw arrays (C44_fails_*). Hash tables and structs as containers are not part of this model."
  },
  {
   "property": "C45",
   "status": "partial",
   "theorems": [
    "Wrench.Expr.C45_stack_swap",
    "Wrench.Expr.C45_swap_two_partial",
    "Wrench.Expr.C45_swap_two_wrong"
   ],
   "note": "StackSwap fully proved; SwapTwoToTop proved when the second value is not on top, and proved wrong when it is"
  },
  {
   "property": "C46",
   "status": "proved",
   "theorems": [
    "Wrench.HashTable.C46_element_reference_survives_growth"
   ],
   "note": ""
  },
  {
   "property": "C47",
   "status": "proved",
   "theorems": [
    "Wrench.HashTable.C47_registry_last_registration_wins",
    "Wrench.HashTable.C47_unregistered_name_is_default"
   ],
   "note": "excludes names hashing to the reserved empty marker; registrations only (no removal) for the unregistered half"
  },
  {
   "property": "C48",
   "status": "partial",
   "theorems": [
    "Wrench.Ops.C48_assignment_to_variable",
    "Wrench.Ops.C48_assignment_to_element",
    "Wrench.Ops.C48_string_element_assignment_lost",
    "Wrench.Ops.C48_raw_store",
    "Wrench.Ops.C48_host_array"
   ],
   "note": "Assigning to a character of a string is lost in the code (proved). Stores into host arrays: C48_host_array."
  },
  {
   "property": "C49",
   "status": "partial",
   "theorems": [
    "Wrench.Ops.C49_string_equality_partial",
    "Wrench.Ops.C49_colliding_strings_equal"
   ],
   "note": "Equality compares hashes: equal strings are equal, but colliding strings are too (witness)."
  },
  {
   "property": "C50",
   "status": "partial",
   "theorems": [
    "Wrench.Ops.C50_concatenation_partial",
    "Wrench.Ops.C50_element_string_plus_int",
    "Wrench.Ops.C50_string_plus_float"
   ],
   "note": "Fails in the code for string element + int and string + float (witnesses)."
  },
  {
   "property": "C51",
   "status": "partial",
   "theorems": [
    "Wrench.Ops.C51_negate",
    "Wrench.Ops.C51_logical_not",
    "Wrench.Ops.C51_increment_partial",
    "Wrench.Ops.C51_increment_overflow",
    "Wrench.Ops.C51_post_increment_partial",
    "Wrench.Ops.C51_increment_string",
    "Wrench.Ops.C51_increment_element_partial",
    "Wrench.Ops.C51_post_increment_element_partial",
    "Wrench.Ops.C51_increment_character",
    "Wrench.Ops.C51_increment_host_byte"
   ],
   "note": "++/-- overflow is undefined (C51_increment_overflow); ++/-- of a string overwrites its first character (C51_increment_string); ++/-- of a character of a string changes nothing (C51_increment_character). Elements of arrays and hash tables and bytes of host arrays are covered. Missing: floats, x++ on a byte of a host array."
  },
  {
   "property": "C52",
   "status": "partial",
   "theorems": [
    "Wrench.Cc.C52_scan",
    "Wrench.Cc.C52_push_partial",
    "Wrench.Cc.C52_long_string",
    "Wrench.Cc.C52_unterminated"
   ],
   "note": "Holds for strings below 65536 characters; longer ones are cut and their tail is executed as code (C52_long_string)."
  },
  {
   "property": "C53",
   "status": "partial",
   "theorems": [
    "Wrench.Link.C53_calls_bound_partial",
    "Wrench.Link.C53_host_agrees_partial",
    "Wrench.Link.C53_duplicate_names_disagree",
    "Wrench.Link.C53_yield_function_overwrites",
    "Wrench.Link.C53_yield_name"
   ],
   "note": "Same limits as C29. Duplicate names are accepted: the script calls the first and the host the last. A function called yield corrupts the code after the call. That the compiler records call sites that do not overlap is assumed (UnitOk)."
  },
  {
   "property": "C54",
   "status": "partial",
   "theorems": [
    "Wrench.Host.resolveImport_exact",
    "Wrench.Host.resolveImport_root",
    "Wrench.Host.import_goes_first",
    "Wrench.Host.nestedImport_search_ub"
   ],
   "note": "Every state reached by the histories of C31; after a nested import the search runs for ever (nestedImport_search_ub)."
  },
  {
   "property": "C55",
   "status": "partial",
   "theorems": [
    "Wrench.StrLib.C55_decimal_partial",
    "Wrench.StrLib.C55_unsigned",
    "Wrench.StrLib.C55_hex",
    "Wrench.StrLib.C55_binary_octal_partial",
    "Wrench.StrLib.C55_text",
    "Wrench.StrLib.C55_float",
    "Wrench.StrLib.C55_wrong_numbers",
    "Wrench.StrLib.C55_int_min"
   ],
   "note": "The text (render) that C22_format_partial and the others prove is produced, for every integer but INT_MIN under %d, and below 2^16 / 2^15 under %b / %o. Where it fails: floats print nothing, larger %b and %o lose digits, INT_MIN is undefined."
  },
  {
   "property": "C56",
   "status": "partial",
   "theorems": [
    "Wrench.Tables.C56_tables_partial",
    "Wrench.Tables.C56_no_fault",
    "Wrench.Tables.C56_store_load",
    "Wrench.Tables.C56_other_key",
    "Wrench.Tables.C56_initializer_aliases",
    "Wrench.Tables.C56_nested_index_lost",
    "Wrench.Tables.C56_float_key_replaces",
    "Wrench.Tables.C56_exists_of_temporary",
    "Wrench.Tables.C56_hash_is_key",
    "Wrench.Tables.C56_key_reference"
   ],
   "note": "Every script of the modelled statements is simulated by a machine of maps; the value found is exact except for a key mentioned again after something was removed from the table (C08). The code violates the property where a value in an initializer is itself an element (it is stored as a reference), where x[\"a\"][\"b\"] is stored through a number, with float literal keys, with _exists on a temporary; those are witnessed. Arrays, structs, garbage collection and the keys seen by foreach are outside this theorem."
  },
  {
   "property": "C57",
   "status": "partial",
   "theorems": [
    "Wrench.Names.C57_names_partial",
    "Wrench.Names.C57_slots_distinct",
    "Wrench.Names.C57_arguments",
    "Wrench.Names.C57_tidy_not_hidden",
    "Wrench.Names.C57_parentheses_alias",
    "Wrench.Names.C57_post_alias",
    "Wrench.Names.C57_repeated_argument",
    "Wrench.Names.C57_slot_wraps",
    "Wrench.Names.C57_colliding_names"
   ],
   "note": "Holds for programs whose names have different 32-bit hashes and whose sub-expressions and for post expressions declare nothing (C57_tidy_not_hidden gives a source rule for that with var required), with distinct argument names and at most 256 variables per unit. Outside of that the code does not have the property, shown by witnesses: variables declared in two parentheses, or in a post expression and the loop body, share a slot; a repeated argument name; slot 256 wraps to 0; colliding names. The tokens are given after tokenizing; enum constants are an arbitrary fixed set."
  },
  {
   "property": "C58",
   "status": "proved",
   "theorems": [
    "Wrench.StrLib.C22_no_overrun"
   ],
   "note": "For every run of the routine that returns; runs that would not return (undefined reads of their format or arguments) are a separate outcome of the model, see C22."
  },
  {
   "property": "C59",
   "status": "proved",
   "theorems": [
    "Wrench.Serializer.C10_reads_exactly_its_prefix",
    "Wrench.Serializer.C10_truncated_rejected"
   ],
   "note": "Every byte buffer; the undefined outcomes on malformed table headers (C10) are not acceptances."
  },
  {
   "property": "C60",
   "status": "proved",
   "theorems": [
    "Wrench.Containers.Foreach.C18_table"
   ],
   "note": "The table part of C18, for every history the table survives (a history that would need more than 49157 slots has no resulting table)."
  },
  {
   "property": "C61",
   "status": "partial",
   "theorems": [
    "Wrench.HostCont.C61_contents_partial",
    "Wrench.HostCont.C61_iteration_partial",
    "Wrench.HostCont.C61_keys",
    "Wrench.HostCont.C61_only_exhaustion_fails",
    "Wrench.HostCont.C61_arrays",
    "Wrench.HostCont.C61_raw_size",
    "Wrench.HostCont.C61_high_bytes",
    "Wrench.HostCont.C61_large_array",
    "Wrench.HostCont.C61_lookup_creates",
    "Wrench.HostCont.C61_colliding_names",
    "Wrench.HostCont.C61_hint_counts",
    "Wrench.HostCont.C61_hint_too_large"
   ],
   "note": "False in the code for names with equal hashes, 8-bit names looked up by WrenchValue, raw arrays of 2 MiB and more, look-ups of missing names (they create an entry with key 0), size hints counted as members, hints from 49157 on; all witnessed. Proved for everything else."
  },
  {
   "property": "C62",
   "status": "proved",
   "theorems": [
    "Wrench.HostCont.C61_destroy"
   ],
   "note": "For every sequence of calls that completes; no assumption on names or values."
  },
  {
   "property": "C63",
   "status": "partial",
   "theorems": [
    "Wrench.Text.C63_technical_fits",
    "Wrench.Text.C63_technical_bounded_partial",
    "Wrench.Text.C63_numbers",
    "Wrench.Text.C63_string",
    "Wrench.Text.C63_int_partial",
    "Wrench.Text.C63_float_partial",
    "Wrench.Text.C63_malloc_partial",
    "Wrench.Text.C63_terminator_outside",
    "Wrench.Text.C63_int_terminator_outside",
    "Wrench.Text.C63_unlimited_int_empty",
    "Wrench.Text.C63_float_limit_1",
    "Wrench.Text.C63_malloc_string_length",
    "Wrench.Text.C63_technical_terminator",
    "Wrench.Text.C63_number_overrun",
    "Wrench.Text.C63_table_overrun",
    "Wrench.Text.C63_technical_limit_0"
   ],
   "note": "The code violates the full statement. Proved: technical text that fits is exact and in bounds (C63_technical_fits); arrays and strings without tables never store past index maxLen (C63_technical_bounded_partial); asString of strings, ints other than INT_MIN with a limit of at least 1, and floats in int range with a limit of at least 2, given maxLen+1 bytes; asMallocString blocks suffice. Not proved because false: maxLen bytes suffice (C63_terminator_outside, C63_int_terminator_outside, C63_technical_terminator), maxLen 0 means unlimited (C63_unlimited_int_empty), small float limits (C63_float_limit_1), long numbers and tables (C63_number_overrun, C63_table_overrun), limit 0 (C63_technical_limit_0), string length of asMallocString (C63_malloc_string_length). Float arithmetic and %g are parameters; values reaching singleValue or deref are not followed."
  },
  {
   "property": "C64",
   "status": "partial",
   "theorems": [
    "Wrench.Compact.C64_binary_partial",
    "Wrench.Compact.C64_compare",
    "Wrench.Compact.C64_compare_partial",
    "Wrench.Compact.C64_concatenation",
    "Wrench.Compact.C64_compound_partial",
    "Wrench.Compact.C64_increment_partial",
    "Wrench.Compact.C64_post_increment_partial",
    "Wrench.Compact.C64_overflow",
    "Wrench.Compact.C64_integer_operator_with_float",
    "Wrench.Compact.C64_string_plus_float",
    "Wrench.Compact.C64_string_minus_string",
    "Wrench.Compact.C64_element_mod_variable",
    "Wrench.Compact.C64_logical_float",
    "Wrench.Compact.C64_branch_float",
    "Wrench.Compact.C64_string_minus_assign",
    "Wrench.Compact.C64_string_increment"
   ],
   "note": "Agreement is proved for all number operands in all forms (binary operators, comparisons, compound assignment to a variable, ++ and --) and for every concatenation the normal build performs. The full statement is false: proved differences are 32-bit overflow (undefined in the compact build), integer-only operators with a float operand, string + float, string - string, element % variable, && and || with a float operand (an unset callback as a value, always false as a branch), -= and ++ on strings. Assumes two facts about float conversion (FloatFacts). Not compared: operands that are objects other than strings, container elements as targets of compound assignment, and opcode wiring (which callbacks each opcode selects) beyond the operators themselves."
  },
  {
   "property": "C65",
   "status": "partial",
   "theorems": [
    "Wrench.Disasm.C65_every_byte_once",
    "Wrench.Disasm.C65_opcode",
    "Wrench.Disasm.C65_follows_partial",
    "Wrench.Disasm.C65_follows_example",
    "Wrench.Disasm.C65_call_phantom",
    "Wrench.Disasm.C65_call_real",
    "Wrench.Disasm.C65_values_misaligned",
    "Wrench.Disasm.C65_stop_hidden",
    "Wrench.Disasm.C65_targets",
    "Wrench.Disasm.C65_targets_example",
    "Wrench.Disasm.C65_switch_linear_default",
    "Wrench.Disasm.C65_switch_default",
    "Wrench.Disasm.C65_variables_partial",
    "Wrench.Disasm.C65_variables_short",
    "Wrench.Disasm.C65_variables_short_example",
    "Wrench.Disasm.C65_variables_example",
    "Wrench.Disasm.C65_mixed_wrong",
    "Wrench.Disasm.C65_units",
    "Wrench.Disasm.C65_units_example",
    "Wrench.Disasm.C65_total",
    "Wrench.Disasm.C65_text_exact",
    "Wrench.Disasm.C65_text_printable"
   ],
   "note": "Proved for any bytes: never reads outside, every line starts where the previous ends, every byte of a unit shown once or skipped after a line that says so, opcode of each line, printed branch targets and switch defaults equal the interpreter's, units partition the code, string text readable back. Partial: instruction boundaries agree with the interpreter for all instructions but LL/LG/GL/GGValues, CallFunctionByIndex and GlobalStop, whose sizes are wrong in the code (witnesses C65_values_misaligned, C65_call_phantom, C65_stop_hidden); printed variables agree except those and GL/LG arithmetic, whose scope letters are swapped (C65_mixed_wrong). Member maps stored between units are listed as instructions."
  },
  {
   "property": "C66",
   "status": "partial",
   "theorems": [
    "Wrench.Flow.C66_returns_partial",
    "Wrench.Flow.C66_stays_inside_partial",
    "Wrench.Flow.C66_runs_past_the_end",
    "Wrench.Flow.C66_conditional_return",
    "Wrench.Flow.C66_else_return",
    "Wrench.Flow.C66_example"
   ],
   "note": "The code violates the statement: the return at the end of a unit is left out when the last opcode is a return, even if that return can be jumped over, so \"function f(x) { if (x) { return 1; } }\" called with 0 runs into the next unit (C66_runs_past_the_end for all such bodies; witnesses C66_conditional_return, C66_else_return). Proved for all other bodies (lastRet implies mustRet), under the side condition Ok of C40."
  },
  {
   "property": "C67",
   "status": "partial",
   "theorems": [
    "Wrench.Flow.C67_execute_partial",
    "Wrench.Flow.C67_call",
    "Wrench.Flow.C67_run_then_call_partial",
    "Wrench.Flow.C67_refused",
    "Wrench.Flow.C67_example",
    "Wrench.Flow.C67_early_return",
    "Wrench.Flow.C67_resumes_loop",
    "Wrench.Flow.C67_stale_result",
    "Wrench.Flow.C67_value_lost"
   ],
   "note": "The code violates the statement: stopLocation is the byte after the GlobalStop that ended the run, so after an early top-level return a host call continues in the top-level code behind it (C67_early_return, C67_resumes_loop); a script ending in a conditional return delivers a stale value (C67_stale_result). Proved for top-level code without return or with one as the last statement, for any sequence of calls."
  },
  {
   "property": "C68",
   "status": "partial",
   "theorems": [
    "Wrench.Stmts.C68_body_partial",
    "Wrench.Stmts.C68_top_partial",
    "Wrench.Stmts.C68_code_partial",
    "Wrench.Stmts.C68_example",
    "Wrench.Stmts.C68_accepted_iff",
    "Wrench.Stmts.C68_accepted_example",
    "Wrench.Stmts.C68_nested_block",
    "Wrench.Stmts.C68_break_else",
    "Wrench.Stmts.C68_do_break",
    "Wrench.Stmts.C68_case_parens",
    "Wrench.Stmts.C68_no_condition",
    "Wrench.Stmts.C68_unclosed",
    "Wrench.Stmts.C68_missing_statement"
   ],
   "note": "Proved for all statement trees in which no block stands directly in a block, no break or continue without braces stands before an else or as the body of a do, and no else could belong to two ifs. These exclusions are the code: a block directly in a block ends the enclosing block (C68_nested_block), so that a program is accepted exactly if it contains none (C68_accepted_iff); if (c) break; else and do break; while (c); are refused, so is a case constant in parentheses, and if () x; is accepted. C68_code_partial carries the result to the emitted code under the conditions of C40. Whole expressions are single tokens; labels, goto, enum and nested functions are not part of the model. An unclosed block and a missing statement are refused (C68_unclosed, C68_missing_statement)."
  },
  {
   "property": "C69",
   "status": "partial",
   "theorems": [
    "Wrench.Stmts.C69_body_partial",
    "Wrench.Stmts.C69_top_partial",
    "Wrench.Stmts.C69_code_partial",
    "Wrench.Stmts.C69_example",
    "Wrench.Stmts.C69_sinks",
    "Wrench.Stmts.C69_semicolon"
   ],
   "note": "Proved for sources in which no block contains a lone semicolon and every break or continue inside a block stands there directly or has its own braces. Otherwise the code violates it: the semicolon of break and continue is not read, so in a block while (a) { if (b) break; c; } it becomes an expression statement without expression, a bare PopOne; C69_sinks shows that after n rounds the top of the stack is n places too low, for every n. Expressions are taken to leave exactly one value (C13 and the expression properties)."
  },
  {
   "property": "C70",
   "status": "partial",
   "theorems": [
    "Wrench.Diag.C70_position",
    "Wrench.Diag.C70_message_partial",
    "Wrench.Diag.C70_long_line",
    "Wrench.Diag.C70_limit",
    "Wrench.Diag.C70_caret",
    "Wrench.Diag.C70_global_name_partial",
    "Wrench.Diag.C70_long_name",
    "Wrench.Diag.C70_literal",
    "Wrench.Diag.C70_example",
    "Wrench.Diag.C70_crash"
   ],
   "note": "The code does not have the property: text of 80 characters or more is formatted a second time with an argument list that has already been consumed. Proved: line, column and text for every position; the exact message when the source line has at most 72 characters (lines below 100000); undefined behaviour for every longer one; names likewise (77 characters)."
  },
  {
   "property": "C71",
   "status": "proved",
   "theorems": [
    "Wrench.Cc.Enum.C71_values",
    "Wrench.Cc.Enum.C71_constant",
    "Wrench.Cc.Enum.C71_qualified",
    "Wrench.Cc.Enum.C71_members",
    "Wrench.Cc.Enum.C71_duplicate",
    "Wrench.Cc.Enum.C71_shadowed",
    "Wrench.Cc.Enum.C71_overflow",
    "Wrench.Cc.Enum.C71_float"
   ],
   "note": "The conditions of the statement are needed: a constant called Color makes Color::Red read as its value followed by ::Red (C71_shadowed), and a member with value INT_MAX is signed overflow in the compiler (C71_overflow). The declaration is taken with blanks around every token and a comma after each member; other white space and comments are C41. C71_float is the value of a float member."
  },
  {
   "property": "C72",
   "status": "partial",
   "theorems": [
    "Wrench.Registry.C72_history_partial",
    "Wrench.Registry.C72_constant_called",
    "Wrench.Registry.C72_native_as_library",
    "Wrench.Registry.C72_looked_up",
    "Wrench.Registry.C72_imported_looked_up",
    "Wrench.Registry.C72_failed_host_call"
   ],
   "note": "C72_history_partial: for every history in which each name is used for one purpose and sys::isFunction is not asked for a name that was looked up in vain, the outputs are those of a specification that keeps the last registration of every name. The hypotheses are needed, the code does not have the rest: a constant that is called is jumped to (C72_constant_called, for every nonzero value), a C function called by the host is called with the library signature, failed look-ups register the name, and a failed host call makes an importing script run the top-level code of the import. What the called function does is left out; the table is assumed able to grow (C05)."
  },
  {
   "property": "C73",
   "status": "partial",
   "theorems": [
    "Wrench.Full.C73_one_value_partial",
    "Wrench.Full.C73_calls_partial",
    "Wrench.Full.C73_lone_operator",
    "Wrench.Full.C73_dangling_operator",
    "Wrench.Full.C73_key_missing",
    "Wrench.Full.C73_empty_argument",
    "Wrench.Full.C73_member_call_dropped",
    "Wrench.Full.C73_call_member_refused",
    "Wrench.Full.C73_two_prefixes_refused",
    "Wrench.Full.C73_adjacent_refused"
   ],
   "note": "Proved for all expressions of a grammar stated independently of the model (terms with at most one prefix operator and any suffixes, joined by any binary operators; parentheses, calls, keys nested to any depth), up to 255 operands and operators per expression and 255 arguments: accepted, height goes from d to d+1 without underflow for every d, and the non-moving instructions are a permutation of what is written. The rest of the property is false of the code, with witnesses: a lone operator is accepted with empty code; a + * is accepted and multiplies values that are not there; a._remove without key; f(,) counts an argument nothing pushed; a.f(x) compiles as a.x, dropping the call; f(x).y, !!a and -(int)a are refused. Not modelled here: new, initializers, var, blank, labels; the values computed (C28 for operators without side effects)."
  },
  {
   "property": "C74",
   "status": "proved",
   "theorems": [
    "Wrench.Ops.C74_kinds",
    "Wrench.Ops.C74_one_kind",
    "Wrench.Ops.C74_asInt",
    "Wrench.Ops.C74_asFloat",
    "Wrench.Ops.C74_data",
    "Wrench.Ops.C74_count",
    "Wrench.Ops.C74_text",
    "Wrench.Ops.C74_index_read",
    "Wrench.Ops.C74_set_number",
    "Wrench.Ops.C74_convert"
   ],
   "note": "Over the memory model of the operators. Float to int conversion is a parameter (undefined where C++ leaves it so); the member count of isHashTable is C07; _count of tables, structs and iterators is not modelled."
  },
  {
   "property": "C75",
   "status": "partial",
   "theorems": [
    "Wrench.Ops.C75_number_kind_partial",
    "Wrench.Ops.C75_malloc_text_partial",
    "Wrench.Ops.C75_index_create_partial",
    "Wrench.Ops.C75_member_partial",
    "Wrench.Ops.C75_set_string_partial",
    "Wrench.Ops.C75_element_not_int",
    "Wrench.Ops.C75_two_references_not_int",
    "Wrench.Ops.C75_malloc_element_hash",
    "Wrench.Ops.C75_index_wraps",
    "Wrench.Ops.C75_string_member_confused",
    "Wrench.Ops.C75_negative_is_last",
    "Wrench.Ops.C75_negative_on_empty",
    "Wrench.Ops.C75_string_element_lost",
    "Wrench.Ops.C75_empty_slice"
   ],
   "note": "Proved for values held directly or by one reference (isInt, isFloat), by references (asMallocString), indexes below 2^31-1 on variables and elements of arrays and tables, non-empty texts by length and texts by terminator. The code fails otherwise: the other theorems are the witnesses."
  },
  {
   "property": "C76",
   "status": "proved",
   "theorems": [
    "Wrench.Util.C43_sound",
    "Wrench.Util.C43_case_sound"
   ],
   "note": "The half of C43 that holds without exception. The code does miss matches (C43_misses_overlap)."
  },
  {
   "property": "C77",
   "status": "proved",
   "theorems": [
    "Wrench.Ops.C48_assignment_to_variable",
    "Wrench.Ops.C48_assignment_to_element"
   ],
   "note": "C48 without the characters of strings (where the code loses the assignment) and without host arrays."
  },
  {
   "property": "C78",
   "status": "proved",
   "theorems": [
    "Wrench.Cc.C41_progress",
    "Wrench.Cc.C41_whitespace",
    "Wrench.Cc.C41_line_comment",
    "Wrench.Cc.C41_block_comment",
    "Wrench.Cc.C41_comment_between",
    "Wrench.Cc.C41_operator",
    "Wrench.Cc.C41_name"
   ],
   "note": "C41 without the claim that nothing past the source is read, which the code violates."
  },
  {
   "property": "C79",
   "status": "proved",
   "theorems": [
    "Wrench.Serializer.C09_roundtrip_without_tables",
    "Wrench.Serializer.C09_buffers_prefix_free"
   ],
   "note": "The part of C09 that holds without exception; tables lose their element count."
  },
  {
   "property": "C80",
   "status": "proved",
   "theorems": [
    "Wrench.StrLib.C23_left",
    "Wrench.StrLib.C23_right",
    "Wrench.StrLib.C23_concat",
    "Wrench.StrLib.C23_insert",
    "Wrench.StrLib.C23_chr"
   ],
   "note": "The functions of C23 that have no exception."
  },
  {
   "property": "C81",
   "status": "proved",
   "theorems": [
    "Wrench.Disasm.C65_every_byte_once",
    "Wrench.Disasm.C65_units",
    "Wrench.Disasm.C65_targets"
   ],
   "note": "The part of C65 that holds without exception."
  },
  {
   "property": "C82",
   "status": "proved",
   "theorems": [
    "Wrench.Diag.C70_position"
   ],
   "note": "The part of C70 that holds without exception; lines of 512 characters are cut in the message."
  },
  {
   "property": "C83",
   "status": "proved",
   "theorems": [
    "Wrench.StrLib.C55_unsigned",
    "Wrench.StrLib.C55_hex",
    "Wrench.StrLib.C55_text"
   ],
   "note": "The conversions of C55 that have no exception, in terms of the text (render) that C22 proves to be produced."
  },
  {
   "property": "C84",
   "status": "proved",
   "theorems": [
    "Wrench.Ops.C51_negate",
    "Wrench.Ops.C51_logical_not"
   ],
   "note": "The operators of C51 that have no exception."
  },
  {
   "property": "C85",
   "status": "partial",
   "theorems": [
    "Wrench.Packet.C85_sent",
    "Wrench.Packet.C85_is_sent",
    "Wrench.Packet.C85_received",
    "Wrench.Packet.C85_is_received",
    "Wrench.Packet.C85_in_step",
    "Wrench.Packet.C85_alloc_is_sized",
    "Wrench.Packet.C85_callstack",
    "Wrench.Packet.C85_loopback_order",
    "Wrench.Packet.C85_loopback_copy",
    "Wrench.Packet.C85_constructed_not_sent",
    "Wrench.Packet.C85_huge_not_sent",
    "Wrench.Packet.C85_linux_tcp_receives_nothing",
    "Wrench.Packet.C85_loopback_constructed",
    "Wrench.Packet.C85_out_of_step"
   ],
   "note": "Proved for packets made by alloc below two gigabytes. The code breaks the full statement: packets made by the constructor (every request of the client except load) have size 0, so nothing is sent; over TCP on Linux the number of descriptors poll reports is taken for the number of bytes waiting and nothing is ever received; an error while the payload is read leaves the payload to be taken for the next header."
  },
  {
   "property": "C86",
   "status": "proved",
   "theorems": [
    "Wrench.Ll.C86_as_a_sequence",
    "Wrench.Ll.C86_removing_skips"
   ],
   "note": "The list is modelled at the level of nodes in memory. C86_removing_skips is a remark outside the statement: taking out the current item during a walk makes the walk skip the next one."
  },
  {
   "property": "C87",
   "status": "partial",
   "theorems": [
    "Wrench.Server.C87_run_partial",
    "Wrench.Server.C87_step_into",
    "Wrench.Server.C87_step_over",
    "Wrench.Server.C87_breakpoints",
    "Wrench.Server.C87_line_number",
    "Wrench.Server.C87_line_wraps",
    "Wrench.Server.C87_stack_depth",
    "Wrench.Server.C87_stack_partial",
    "Wrench.Server.go_stack",
    "Wrench.Server.C87_return_drops_the_caller",
    "Wrench.Server.C87_wrong_after_return",
    "Wrench.Server.C87_null_after_host_call",
    "Wrench.Server.C87_run_stops_early",
    "Wrench.Server.C87_step_over_into",
    "Wrench.Server.C87_far_lines"
   ],
   "note": "Stepping, breakpoints, depth of the stack: proved. run: proved when no step is under way (a step ended by a breakpoint stays under way, C87_run_stops_early). Contents of the call stack: proved until the first return; a return takes out the wrong end (C87_return_drops_the_caller, C87_wrong_after_return) and can leave an empty stack that the next line dereferences (C87_null_after_host_call). Lines from 16384 on are confused (C87_far_lines). Step-over out of a function may stop inside another one (C87_step_over_into). Which code words the compiler emits is not modelled."
  },
  {
   "property": "C88",
   "status": "partial",
   "theorems": [
    "Wrench.Symbols.C88_symbols",
    "Wrench.Symbols.C88_told",
    "Wrench.Symbols.C88_label",
    "Wrench.Symbols.demo_told",
    "Wrench.Symbols.C88_source_one_longer",
    "Wrench.Symbols.C88_stale",
    "Wrench.Symbols.C88_shows_code_as_symbols",
    "Wrench.Symbols.C88_many_variables"
   ],
   "note": "Names, arguments, source text and hash: proved from the linked image to what the client lists, for units of at most 255 variables (more are not handled, C88_many_variables). The length handed out with the source is wrong by one (C88_source_one_longer). A program compiled without symbols shows leftovers of the one before (C88_stale, C88_shows_code_as_symbols)."
  },
  {
   "property": "C89",
   "status": "partial",
   "theorems": [
    "Wrench.Session.C89_session_partial",
    "Wrench.Session.C89_lag",
    "Wrench.Session.C89_load_lags",
    "Wrench.Session.C89_late_lags",
    "Wrench.Session.C89_wrong_value",
    "Wrench.Session.C89_late",
    "Wrench.Session.C89_text_unterminated",
    "Wrench.Session.C89_println"
   ],
   "note": "Proved for sessions that do not load a program through the debugger and whose replies are there when looked for. Otherwise false: after load, or after one late reply, every call gets the answer to the call before (C89_load_lags, C89_late_lags, C89_lag). Text printed is complete and in order but has no terminator (C89_text_unterminated)."
  },
  {
   "property": "C90",
   "status": "partial",
   "theorems": [
    "Wrench.Net.C90_address",
    "Wrench.Net.C90_no_address",
    "Wrench.Net.C90_connect_partial",
    "Wrench.Net.C90_connect_port",
    "Wrench.Net.C90_unknown_host",
    "Wrench.Net.C90_send_ignores_data",
    "Wrench.Net.C90_send_fails",
    "Wrench.Net.C90_receive_partial",
    "Wrench.Net.C90_receive_error"
   ],
   "note": "Addresses are recognised exactly. The code does not have the rest: a name nobody knows is connected to address 0, tcp::send sends the number of the socket instead of the data, and after an error tcp::recv returns a string of 4294967295 characters. getaddrinfo is a parameter and taken to find version 4 addresses."
  },
  {
   "property": "C91",
   "status": "partial",
   "theorems": [
    "Wrench.Io.C91_whole_file",
    "Wrench.Io.C91_read",
    "Wrench.Io.C91_read_all",
    "Wrench.Io.C91_overwrite",
    "Wrench.Io.C91_write",
    "Wrench.Io.C91_write_count",
    "Wrench.Io.C91_write_read",
    "Wrench.Io.C91_append",
    "Wrench.Io.C91_new_file",
    "Wrench.Io.C91_open",
    "Wrench.Io.C91_read_only",
    "Wrench.Io.C91_empty_files_crash",
    "Wrench.Io.C91_unreadable_crash",
    "Wrench.Io.C91_raw_and_delete_crash",
    "Wrench.Io.C91_getline_partial",
    "Wrench.Io.C91_getlines_partial",
    "Wrench.Io.C91_getline_loses",
    "Wrench.Io.C91_getline_crlf",
    "Wrench.Io.C91_flags_independent",
    "Wrench.Io.C91_seek_from"
   ],
   "note": "Relative to a model of the operating system for regular files. The code fails for: empty files read often enough and unreadable files (crash), memory of the host given to io::write, io::deleteFile (name used after it was freed), lines of more than 256 characters (one character lost), lines ending in carriage return and line feed. io::writeFile returns 1, not the number of bytes."
  },
  {
   "property": "C92",
   "status": "partial",
   "theorems": [
    "Wrench.Cleanup.C92_each_once_partial",
    "Wrench.Cleanup.C92_added_is_lost",
    "Wrench.Cleanup.C92_endless"
   ],
   "note": "Holds when no cleanup function registers another one. One that does is called again, what it registered is thrown away uncalled, and if it always does the loop never ends."
  },
  {
   "property": "C93",
   "status": "partial",
   "theorems": [
    "Wrench.Listing.C93_listing_partial",
    "Wrench.Listing.C93_same_number_partial",
    "Wrench.Listing.C93_same_number_last_partial",
    "Wrench.Listing.C93_carriage_return",
    "Wrench.Listing.C93_words_partial",
    "Wrench.Listing.C93_leading_space"
   ],
   "note": "For sources whose carriage returns all stand before a line feed; one alone ends a line for the debugger but not for the compiler. C93_same_number_last_partial covers what is behind the last line end. A command behind a space has an empty first word."
  },
  {
   "property": "C94",
   "status": "partial",
   "theorems": [
    "Wrench.MathLib.C94_one_argument",
    "Wrench.MathLib.C94_two_arguments_partial",
    "Wrench.MathLib.C94_pow_reversed",
    "Wrench.MathLib.C94_wrong_count"
   ],
   "note": "One-argument functions and wrong argument counts are as stated. Two-argument functions get their arguments in the opposite order (C94_two_arguments_partial says exactly which), so math::pow(2,3) is 9 (C94_pow_reversed)."
  },
  {
   "property": "C95",
   "status": "partial",
   "theorems": [
    "Wrench.HashLib.C95_own_history",
    "Wrench.HashLib.C95_exists_partial",
    "Wrench.HashLib.C95_add",
    "Wrench.HashLib.C95_count_partial",
    "Wrench.HashLib.C95_no_table",
    "Wrench.HashLib.C95_demo",
    "Wrench.HashLib.C95_never_one",
    "Wrench.HashLib.C95_clear_leaves_the_others",
    "Wrench.HashLib.C95_count_wrong"
   ],
   "note": "Proved for all scripts: every table is the one of the accesses that reached it; add, read, exists and remove agree with that history. Violated: the answer for a key that is there is part of an address, never 1; the count is too small by one per growth; hash::clear gives the variable a new table and leaves the old one as it is for other variables. Assumes that no entry lies at a multiple of 4 GB."
  },
  {
   "property": "C96",
   "status": "proved",
   "theorems": [
    "Wrench.MathLib.C96_library_call",
    "Wrench.MathLib.C96_library_call_dropped",
    "Wrench.MathLib.C96_error_stops",
    "Wrench.MathLib.C96_halt",
    "Wrench.MathLib.C96_error_surfaces_later"
   ],
   "note": "C96_error_surfaces_later shows what is outside the statement: an error left by a native function stops the script at the next library call, not at the native call."
  },
  {
   "property": "C97",
   "status": "proved",
   "theorems": [
    "Wrench.MathLib.C97_iscale",
    "Wrench.MathLib.C97_iscale_demo",
    "Wrench.MathLib.C97_iscale_few"
   ],
   "note": "The quotient is specified by its remainder, not by the division used in the model."
  },
  {
   "property": "C98",
   "status": "proved",
   "theorems": [
    "Wrench.Goto.C98_goto",
    "Wrench.Goto.C98_accepted_iff",
    "Wrench.Goto.C98_duplicates_accepted",
    "Wrench.Goto.C98_label_no_code",
    "Wrench.Goto.C98_goto_bytes"
   ],
   "note": "For functions without switch and for-each. Code positions count instructions in C98_goto; C98_goto_bytes and C24 relate them to bytes (distances within 16 bits; a larger one is refused, C24_goto_misfit). Names whose hash is 0 are not considered."
  },
  {
   "property": "C99",
   "status": "partial",
   "theorems": [
    "Wrench.Frames.C99_slices_partial",
    "Wrench.Frames.C99_slice_length",
    "Wrench.Frames.C99_no_overflow",
    "Wrench.Frames.C99_disabled",
    "Wrench.Frames.C99_force",
    "Wrench.Frames.C99_fails_first_local",
    "Wrench.Frames.C99_slices_used"
   ],
   "note": "the two runs agree after every instruction (same_run, by induction over the run with the invariant of all suspended callers); excluded: functions entered with something left in the slot of their first local, for which C99_fails_first_local shows that slicing changes the value; calls into other contexts and debugger stops not modelled"
  }
 ]
}