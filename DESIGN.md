# Design of the formal model of wrench

Source: `/repo/discrete_src` (the canonical sources; `/repo/src/wrench.cpp` is
their concatenation).  The configuration modelled is the default one:
non-compact VM (`WRENCH_COMPACT` off), little-endian target, no
`WRENCH_HANDLE_MALLOC_FAIL`, no `WRENCH_TIME_SLICES` unless a section says so,
`int` = 32 bits.

## Trusted base

* Lean 4.33.0's kernel.
* Axioms: at most `propext`, `Classical.choice`, `Quot.sound` (Lean's standard
  three).  No axiom of our own, no `sorry`, `native_decide` or `bv_decide`.
* The hand translation from C++ to Lean.  Every definition of the model cites
  the file and lines it models; simplifications are listed in that comment.
* `malloc` never fails; pointers are modelled as indices into explicit memories;
  C++ signed overflow, out-of-range shift, out-of-bounds access and division by
  zero are *distinct outcomes* (`none` / `Outcome.ub`), never assumed away.

Floating point arithmetic itself is not modelled: float payloads are opaque
32-bit words, and float operations appear as uninterpreted parameters where a
theorem needs them.

## Layout

`lean/Verif/<Area>/Model.lean` – definitions that transcribe the code;
`lean/Verif/<Area>/Spec.lean` – small independent specification (if needed);
`lean/Verif/<Area>/Lemmas.lean` – helper lemmas;
`lean/Verif/<Area>/Props.lean` – the property theorems, each followed by an
`example` exhibiting a concrete case meeting its hypotheses.

## Plan per property

| id | modelled | proof |
|----|----------|-------|
| C01 | `wr_isBytecodeValid`, `wr_hash_read8`, trailer emission of `link` | direct characterisation |
| C02 | same | each FNV step is a bijection in the state and injective in the byte (multiplier odd); induction over the suffix |
| C03 | `wr_pack16/32`, `READ_16/32` | BitVec extensionality |
| C04 | the four hash functions | fold over append; sign extension only for bytes ≥ 0x80 (negation witness + partial) |
| C05–C08 | `WRGCObject::init/exists/get/getIndexOfHit/growHash` as a state machine over (prime index, slot hashes, slot values, size) | representation invariant (every key within its probe window, no duplicates) preserved by every operation; refinement to a finite map; C07/C08 are false in the code → witnesses and partials |
| C09,C10 | `wr_serializeEx`, `wr_deserializeEx`, `WRValueSerializer::read/write` | structural induction over values; prefix-monotonicity of the reader |
| C11–C14 | the operator dispatch tables of `operations_non_compact.cpp` over a store with references | case analysis over operand forms, BitVec algebra; violations by witness |
| C15–C17 | `mark/markBase/gc` over an explicit heap | marking = reachability (fuelled recursion, fuel shown sufficient on acyclic heaps), sweep = filter; cyclic non-termination by witness |
| C18 | `wr_pushIterator`, `wr_getNextValue`, `NextValue` opcodes | induction on remaining elements; witness beyond 65536 |
| C19,C20 | `std_container.cpp` on a flat cell array with memmove/memset | refinement to lists |
| C21 | `wr_itoa` | digit induction against an independent parser |
| C22,C55 | `wr_sprintfEx`, `wr_doSprintf`, `format`, `sprintf`, `printf` | invariant of the output cursor, refinement to the text of the format |
| C23 | `std_string.cpp` | list equalities |
| C24 | `resolveRelativeJumps` | arithmetic on displacements, byte-level read-back |
| C25 | `pushOpcode` fusions and the VM semantics of source and fused opcodes | one simulation theorem per fusion over an abstract machine state, lifted to every emitted sequence |
| C26 | `parseSwitch` table construction, `Switch`, `SwitchLinear` | lookup correctness; witness for label −1 |
| C27 | `createLocalHashMap`, `valueFromConfirmedStruct` | perfect-hash argument |
| C28 | `resolveExpression(Ex)`, stack position tracking, `StackSwap`, `SwapTwoToTop` | simulation with invariant on virtual stack positions |
| C29 | `link`, `wr_createContext` | codec round trip |
| C30 | `scheduler.cpp` | invariant over histories |
| C31 | `wr_createContext/import/destroy` | list invariants |
| C27,C29,C53 | `link.cpp`, `wr_createContext`, struct objects | image bytes, call decoding |
| C30 | `scheduler.cpp` | task list in a heap, trace of resumptions |
| C31,C54 | `wr_newContext`, `wr_import`, `wr_destroyContext`, import search | context list and import rings |
| C38 | `std_msg.cpp` over the registry | messages and functions in one table |
| C32,C33 | call, return, yield and resume of `vm.cpp` | frame arithmetic over a cell stack |
| C34 | `wr_randEx` | integer arithmetic |
| C35,C36,C37,C42,C43 | `WRstr`, `WRarray`, `SimpleLL`, `WRHashTable` | refinement to lists/maps |
| C38 | `std_msg.cpp` | refinement |
| C39 | tokenizer number scanning, `pushLiteral`, negate folding | round trip |
| C40 | layouts emitted by the statement parsers | simulation of an abstract code layout |
| C41 | comment scanner | induction over the source |
| C44 | `index.cpp`, element encoding | case analysis; witnesses for limits |
| C45 | `StackSwap`, `SwapTwoToTop` | list permutations |
| C46 | `WRGCObject` growth and the value cells it moves | part of the hash table refinement |
| C47 | `wr_registerFunction` / library registry on the same table | refinement to a finite map |
| C48 | `wr_assign` dispatch table | case analysis over operand forms |
| C49,C50 | string cases of the compare and addition tables | case analysis; witnesses for the hash based cases |
| C51 | unary operator tables | case analysis |
| C52 | string branch of the tokenizer, `pushLiteral`, `LiteralString` | round trip |
| C56 | indexing, assignment and the hash instructions over the tables of C05 | simulation by a machine of maps |
| C57 | `addLocalSpaceLoad`, `addGlobalSpaceLoad`, the copies and merges of local spaces, argument lists | simulation by a scope semantics without slots or hashes |
| C58 | the printing loop of C22, every run | frame condition by induction on the run |
| C59 | `deserialize` of C10, every buffer | exactness by induction on the fuel of the reader |
| C60 | `wr_getNextValue` on the tables of C05 | refinement of a finite map |
| C61 | `wr_makeContainer`, `wr_add…ToContainer`, `wr_getValueFromContainer`, `WrenchValue` table functions, `WRValue::Iterator` over the tables of C05 | simulation by a list of named entries; permutation of slots and entries |
| C62 | the same with every `g_malloc`/`g_free` numbered, `wr_destroyContainer` | invariant: live blocks are a permutation of the blocks on the chains |
| C63 | `WRValue::asString`, `asMallocString`, `technicalAsString`, `wr_ftoa` on a byte buffer; values as finite trees | mutual induction over the value: the buffer is extended by the text / kept from the limit on |
| C64 | the operator tables and callbacks of `operations_compact.cpp` over the memory of Ops | both builds compute the same `meaning`; dispatch lemma of Ops reused; differences by witness |
| C65 | `debug/disassemble.cpp`: sizes, operand decoding, listing loop, units, escaping | recursion on the bytes left; agreement with the interpreter's own layout; unit ends as least upper offsets |
| C66, C67 | `Flow/Entry.lean`: end of a unit, `GlobalStop`/`Stop`/`stopLocation`, entry of host calls, over the statements of Flow | the simulation of C40 on the finished code; source-level predicates for the last instruction; induction over the sequence of calls |
| C68, C69 | Stmts/Model: tokens, `pStmt`, `pOne`, `pBody`, `parse`, `program`, `P.flow` | induction over source trees: the parser on their text; projection of the outcome; level of the stack; loop with n rounds; balance of braces for any token list |
| C70 | Diag/Model: `getSourcePosition`, `message`, `appendFormat`, `globalName` | induction over the position; uniqueness of the line; the argument list of the second `vsnprintf` |
| C71 | Cc/Enum: `parseEnum`, `loop`, `settle` over Cc/Scanner | induction over the members with a growing list of constants; uniqueness of the label that matches |
| C72 | `Registry.step`, `run`, `search`, `loadFns`, `newContext` (over the tables of C05) | simulation of a map of last registrations, one step per API call |
| C73 | Expr/Full.lean: `table`, `operatorFound`, `contexts`, `operand`, `arguments`, `load`, `pushToStack`, `swapWithTop`, `placeCommute`, `placeBinary`, `resolveEx`, `pass`, `levels`, `resolveExpression`, `height` | invariant over the steps of the resolution (positions are 0 … k−1 each once; code leaves k values; work done plus work pending is constant; kinds accepted by an automaton; no operator of a lower level left), then mutual induction over a grammar of expressions |
| C74, C75 | Ops/Access.lean: `isInt`, `isFloat`, `isString`, `isWrenchArray`, `isRawArray`, `isHashTable`, `isStruct`, `asInt`, `asFloat`, `array`, `arraySize`, `countOf`, `indexArray`, `wvInt`, `wvFloat`, `asArrayMember`, `setInt`, `setFloat`, `setString`, `textOf`, `mallocTextOf` | induction over the chain of references and members (`Reads`, `Names`), frame conditions on the whole memory |
| C76–C84 | the models of C43, C48, C41, C09, C23, C65, C70, C55, C51 | the parts of these properties that hold without exception, stated as properties of their own; same theorems |
| C85 | `Debug/Packet.lean` `send`, `receive`, `xlate`, `sendEx`, `recvEx`, `allocCopy`, `callstackRead` | conversion of words is an involution that makes memory alike on both machines; induction over the transport's answers and over the packets |
| C86 | `Debug/Ll.lean` nodes in memory, all operations | representation invariant (chain, tail, iterator, nothing allocated besides), preserved by each operation; induction over the run |
| C87 | `Server.encountered`, `clearBreakpoint`, `request`, `requests`, `go`, `codewordOf` (Debug/Server.lean) | induction over the code words the program runs over and over the requests |
| C88 | `Symbols.symbolBlock`, `findBlocks`, `symbolReply`, `sourceReply`, `readSymbols`, `valueLabel`, `sourceCode` (Debug/Symbols.lean), `Link.link`, `Link.load` | round trip of writer and reader by induction over units and labels; the blocks located in the linked image (`Link.blocks_in`) |
| C89 | `Session.exec`, `session`, `ask`, `getPacket`, `populateSymbols`, `tick`, `debugOut`, `cString` (Debug/Session.lean) | simulation of the queues by direct calls, induction over the session |
| C90 | `Net.octet`, `isIp`, `connectsTo`, `connectTCP`, `sendTCP`, `receiveTCP` | both directions against a grammar of addresses; packing by bit lemmas |
| C91 | `Io.Sys`, `sysOpen` … `sysSeek`, `readFile`, `writeFile`, `ioOpen` … `ioSeek`, `getline` | induction over the pieces and over what is left of the file |
| C92 | `Cleanup.add`, `destroy` | induction over the list and over the rounds |
| C93 | `Listing.splitNL`, `splitArgs`, with `Diag.getSourcePosition` | induction over the lines and words; the compiler's number from C70 |
| C94 | `MathLib.math1`, `math2` called through `callLib` | unfolding over an arbitrary C library and machine |
| C95 | `HashLib.calls` over `HashTable` | simulation: each table is the one of its own access history; then C05–C07 |
| C96 | `MathLib.callLib`, `callLibPop`, `halt`, `run` | case analysis over builds and argument counts, any library function |
| C97 | `MathLib.intScale` | bounds on products; characterisation of truncated division by its remainder |
| C98 | `Goto` | `C98_goto`, `C98_accepted_iff`, `C98_duplicates_accepted`, `C98_label_no_code`, `C98_goto_bytes` | proved |
| C99 | `Frames/Slice` | `C99_slices_partial`, `C99_slice_length`, `C99_no_overflow`, `C99_disabled`, `C99_force`, `C99_fails_first_local` | partial |
| C100 | `Serializer/Lib` | `C100_roundtrip_partial`, `C100_roundtrip`, `C100_text`, `C100_twice`, `C100_otherwise_zero`, `C100_any_string_partial`, `C100_fails_header` | partial |
| C101,C102,C103 | as C99, C85, C87 | the parts of these that hold without exception, stated on their own | proved |
| C104 | `Link/Instance.lean` `instanceStruct`, `importNew`, `objectAt` | composition of the frame theorem (C33), the linked program (C29) and the member map (C27) |
| C105 | `Frames/Import.lean` `importCall`, `importRun`, `takeResult` | the frame invariant with the caller's stack top as stack base |
| C106 | `Frames/Stack.lean` `after`, `callMem`, `room` | the soundness of every reached state (C33) with a bound on the unchecked pushes at each position |
| C107 | `Host/Libs.lean` names of the libraries, `Host/Registry.lean` `run` | C72 with the invariant which library names have their own entry |
| C108 | `Host/Blocks.lean` `bstep`, `wrRun` | ledger of owners as simulation relation over the context lists of C31 |
| C109, C110 | `Gc/Shared.lean` `Sys.gc`, `Sys.destroy`, `Sys.alloc` | marking lemmas of C15/C16 from any root lists and flags; counter by induction over allocations |
| C111 | `Whole/Model.lean` `compile`: `Expr.compile`, `Cc.pushInt`, `Peep.pushOpcode`, `Peep.appendCode` composed | the cache describes the last instructions through loads and literals (`Inv`); each emission refines one more abstract instruction (`emit_good`); abstract stack of integers and variable references simulated by the interpreter of `Peep` (`arun_runs`); C28 for a lawful interpretation in operands; induction over parentheses; which text leaves a stale cache: the last operator is the root, read off C28 for an interpretation that marks it (`finish_sealed`) |
| C112 | `Prog/Model.lean` `compile`, `bstep`: statements over `Whole.compile`, `Peep.pushOpcode`, `Jump.resolve` | the bytes are a list of chunks, one for each instruction of `Flow` (`Rep`); each parser step keeps it (`compile_rep`), resolution by C24; each instruction of `Flow` is one or more of the interpreter (`Done.step`); C40 for the rest |
| C113 | `Prog/Script.lean` `compileScript`, `runScript`, `compileFn`, `enterFn`, `runFn`, `leave`, `Prog/Entry.lean` `enterHost` | each `return` is a chunk with a known effect (`Prog/Ret.lean` `RetOk`, `ret_stmt`: `LiteralZero` and `Return` become `ReturnZero`), the closed code is the closed code of `Flow` (`fn_done`, `script_done`), whose value is C66 and C67; the interpreter follows it to the return (`Done.returns`); more code behind does not change a run (`bsteps_append`); the value is followed through a reference into the frame (`leave_value`) |
| C114 | `Prog/Calls.lean` `linkAll`, `Image.run`, `Image.call`, `Image.session`, `Prog/Host.lean` `Image.host` | code in front and behind does not change a run (`bsteps_behind`, `bsteps_append`); induction on the calls, each by C113 (`calls_run`) |
| C115 | `WRstr::find`, `findCase`, `rfind` | the loops over the buffer against "first/last place where the pattern occurs" |
| C116 | `WRstr` `==`, `!=`, `isMatch`, `isMatchCase` | comparison loops over the buffers against equality of texts |
| C117 | `blobToHeader` of the command line tool | the text written against a relation that reads C initialisers |
| C118 | `SimpleArgs::get` | search loop and `strncpy` against positions in the argument list |
| C119 | `wr_asciiDump` | the loops against the column of every byte |

Status of each claim is in `MANIFEST.json`.

## What is modelled, area by area

Paths are relative to `/repo/discrete_src`.  "Not modelled" names what a reader could expect and
does not get.

**Bytes** (`utils/utils.cpp` hash functions, `vm/vm.cpp` operand readers, `cc/link.cpp` trailer,
`wr_isBytecodeValid`).  Little-endian reader and writer.  Not modelled: the big-endian variants.

**HashTable** (`vm/gc_object.cpp`).  `init`, `exists`, `get`, `getIndexOfHit`, `growHash`, removal and
iteration as a state machine over total functions `Nat → …`; a history is a list of operations.
Keys are their 32-bit hashes: two keys with the same hash are the same key for the code.  Not
modelled: allocation failure, the collector running between two operations.

**Serializer** (`utils/serializer.*`).  Values are trees.  Sharing and cycles are not representable; a
cyclic value makes the code recurse forever.

**Ops** (`vm/operations_non_compact.cpp`, `vm/operations.cpp`).  Memory is a map from addresses to
values with references, container members and string/array/raw objects; the dispatch tables are
transcribed entry by entry, recursion on references is fuelled and the fuel is shown sufficient.
Floats are opaque words with uninterpreted operations.  `vm/index.cpp` on arrays, strings, raw arrays and
numbers is in `Ops/Index.lean`.  Not modelled: indexing a hash table or struct, and turning
a number into a hash table (`x[b[0]]` with `x` a number makes a hash table where `x[2]` makes an array).

**Std** (`lib/std.cpp`): `wr_itoa`, `wr_randEx`.

**Expr** (`cc/cc.cpp` 968-1418, `cc/cc.h` 64-130).  Operators, operands and the stack positions the
compiler tracks; the emitted code is run on a value stack.  Operand values are opaque.  Not
modelled: assignment, `++`/`--`, member access, indexing, the peephole pass.

**Containers** (`lib/std_container.cpp`, `vm/operations.cpp` 95-123, for-each opcodes).  Arrays are flat
cell lists; `memmove`/`memset` outside the block are `none`.

**Gc** (`vm/gc.cpp`).  Objects are numbered, `svAllocated` is a list; marking is a fuelled recursion and
"never completes" means for every fuel.

**Util** (`wrench.h` `WRstr`, `utils/utils.h` `WRarray`, `WRHashTable`).  Buffers with uninitialised bytes.

**Util.SimpleLL** (`utils/simple_ll.h` 35-285).  Numbered nodes, a freed node is gone and following a pointer to
it undefined; addresses are never reused.  The specification is a list of (address, item) and a cursor; a removed
item under the cursor moves the cursor on, so removing while iterating skips an item, and `count` ends an
iteration (witnessed, not claimed otherwise).  `&null->item` in `next()` is taken to be null, as `item` comes first.
Not modelled: `m_clearFunc`, failed allocation, `Iterator`.

**Vm** (`utils/opcode.h`, jump emission and resolution `cc/cc.cpp` 345-752, goto patching
`cc/link.cpp` 258-293, branch instructions of `vm/vm.cpp`).

**Cc** (`cc/token.cpp`, `pushLiteral`, negate folding of `cc/optimizer.cpp`).  The whole tokenizer except
push-back and the `expect` argument.  `atof` is uninterpreted.  Switch tables (`parseSwitch` 2785-2958)
and their dispatch (`vm/vm.cpp` 1743-1773).

**Flow** (`cc/cc.cpp` 1947-2405, 2656-3263).  Statement trees, the context of jump targets with the break and
continue stacks, instructions with target numbers, a machine with an operand stack for selectors.  The
meaning of the source is a fuelled evaluator (`Flow/Spec.lean`) that does not mention code; the theorems
relate termination on both sides, so the fuel does not bound anything.  Not modelled: parsing, `goto` (see Goto, C98),
expressions that stop the program.

**Peep** (`cc/optimizer.cpp`, the fused instructions of `vm/vm.cpp`, `vm/index.cpp`).  The emitter works on
bytes and an opcode cache; `Seg`/`Tracked` say what the cache describes, `Rw` lists the rewriting rules with
their side conditions, `emit_step`/`append_step` show that the emitter applies nothing else, and `Rw.sound`
that each rule preserves the machine up to free stack slots, registers and C++ temporaries.  The hypothesis
`OkM` on states says that no live value points to a free stack slot.  `EnvOk` asks that the float addition,
multiplication and equality are commutative.  Not modelled: hash and struct indexing, jump, goto and hash
fix-ups in `appendBytecode`, the rewriting of a discarded call result.

**Frames** (`vm/vm.cpp` 664-860, 1011-1136, 1247-1312, yield interface of `utils/utils.cpp`).  A machine with
stack slots, cells outside the stack, a frame base and return vectors; instructions that stay within a frame
are functions with a contract (`POk`), shown for the ones in `Frames/Demo.lean`.  `WF` asks that each code
position has one operand depth; `frame_run` shows by induction on the length of the execution that a frame
stays intact until it returns, whatever the host answers to yields.  Not modelled: calls into imported
contexts, the debugger; forced yields are in Frames/Slice (C99).

**Link** (`cc/link.cpp` 34-416, `wr_createContext`, `wr_getGlobalRef`, `wr_newObjectTable`,
`wr_valueFromConfirmedStruct`).  The linker as byte-list writes, with member maps, call fixing and `new`
operands; the loader; how the interpreter decodes a call; and how it makes an object and finds a member.
`Layout.lean` carries an invariant over the loop: where each unit is, that later steps leave it there, and
which operands still wait.  Assumed of the compiler (`UnitOk`): the recorded call and `new` sites lie in the
code and do not overlap.  Writes outside a buffer and endless loops are the outcome `ub`.  Goto patching is
in Vm/Jump; code-level debug symbols are not modelled.

**Host** (`utils/utils.cpp` 216-229, 386-411, 437-541; `vm/scheduler.cpp`; `lib/std_msg.cpp`; the import
search of `vm/vm.cpp` 871-994).  `Contexts`: contexts are nodes of a heap with their two links; using a freed
node, or a loop that never ends, is `ub`.  The state is related to plain lists by `Rep`, kept by every allowed
event; an import is two events, so that what the imported script does in between is part of the history.
`Scheduler`: tasks are nodes of a heap, the outcome of the k-th resumption is an arbitrary function of k, and
the ids resumed are recorded in a trace.  `Mailbox`: messages live in the hash table of `HashTable`, cells
being a 64-bit pointer or integer and a type word.  Not modelled: what a context holds besides its links,
failing allocations, time slices, host calls of the scheduler from a running task except in the
counterexamples.

**StrLib** (`lib/std_string.cpp` 31-881; `WRValue::array`, `asInt` of `utils/utils.cpp`).  Over the memory of
Ops: a library function reads its arguments below the result slot and stores its result there.  New buffers
hold unwritten bytes until copied to; reading one, or copying outside a buffer, is `ub`.  The format routine
runs on a buffer that may also be the format or an argument; `FormatSpec` says which text a format and its
arguments stand for, `FormatInv`/`FormatLoop` show by induction over the format that this text is produced,
`FormatSafe` that nothing else is touched whatever happens.  Assumed: the "C" locale, plain `char` signed,
arguments that do not refer to the result slot.  Not modelled: `wr_tol`, the float conversions of
`WRENCH_FLOAT_SPRINTF` (off by default), failing allocations.

**Tables** (`vm/index.cpp` 59-270, `vm/operations.cpp` 142-464, the hash instructions of `vm/vm.cpp`).  The
memory is the variables and the cells of every block each table has had; a value is a number, a string, a
table, a reference to a cell or a hash element.  `Spec` is a machine of maps with shared tables and no blocks;
`Sim` shows statement by statement that the memory stands for it.  The specification is undefined (`none`)
on arrays, tables used as keys, the reserved key, the value of a key mentioned again after a removal (C08),
and initializer values that are elements.  Not modelled here: garbage collection between statements, structs,
the keys kept for iteration (they are stored, and one witness shows a wrong one, but no theorem is about them).

**Names** (`cc/cc.cpp` 834-1040, 1430-1600, 1836-1946, 2128-2405, `cc/expression.cpp` 60-640, `cc/optimizer.cpp`
1326-1365).  Of the byte code only the local space and the instructions that name something are kept.  The source
is given as the contexts `parseExpression` builds; the order in which operators load them is an arbitrary list.
`Spec` resolves names in environments of declared names; a sub-expression that declares something, or whose names
change meaning before it runs, has the outcome `hidden`, about which nothing is claimed (two of the witnesses are
such sources).  Not modelled: tokens, enum constants (an arbitrary predicate), debug symbols.

**Host containers** (`HostCont`).  `utils.cpp` 51-60, 149-194, 988-1053, 1164-1181, 1216-1323
over the hash table of `HashTable` (one slot carries its value and key cell as a pair).  Every
allocation takes a fresh block number and a `free` of a block that is not live is a failure.  A
reference stored by `wr_addValueToContainer` points to a host variable.  Not modelled: garbage
collection between the calls, scripts changing the container meanwhile, references to references,
pointers kept across a growth.

**Text for the host** (`Text`).  `utils.cpp` 792-985 and `std.cpp` 124-174.  A buffer is a list of bytes, a
store outside it the outcome `none`.  Values are finite trees (a cyclic value makes the code recurse for
ever and is not represented).  Parameters: the float operations of `wr_ftoa` (the theorems assume the
magnitude converts to a non-negative `int` and that fraction characters are not points) and the text of
`%g`.  `snprintf` is modelled by its C definition with a 64-bit `size_t`; a library that refuses sizes above
`INT_MAX` is not followed.  Positions are below 2^31, allocation succeeds.  Not modelled: values `asString`
passes on to `singleValue` or `deref` (the outcome is `none`).

**Compact** (`vm/operations_compact.cpp`, callbacks of `vm.cpp` 238-275).  The tables of the compact build as
entries of the same interpreter as Ops; an operator is a pair of callbacks.  `+ - *` on ints are plain signed
arithmetic (undefined on overflow).  An unset float callback (`&&`, `||` as values) is undefined.  The theorems
assume two facts about floats (`FloatFacts`: an int converts to a nonzero float iff it is nonzero; subtracting
1 is adding -1).  Not modelled: the opcode bodies of the compact interpreter loop other than the operator
calls; everything outside this area is the normal build.

**Disasm** (`debug/disassemble.cpp` 82-818). Operand sizes, operand decoding, the listing loop, the division of the code into units and the escaping of string text are modelled function by function; a listing is a list of lines (offset, bytes, opcode, fields) and the final `snprintf` formatting of numbers is not modelled. The instruction names are the strings of `c_opcodeName`, because sizes are decided by searching in them. The specification side (`Disasm/Spec.lean`) is the interpreter's: branches from `Vm/Jump.lean`, the instructions of `Peep/Vm.lean`, `Cc/Switch.lean`, and `restLen` for the others. The header part of `wr_disassemble` (739-773: globals and function table text) is not modelled beyond the offsets it yields.

**Flow/Entry** (`cc/cc.cpp` 139-149, 1932-1943; `vm/vm.cpp` 711-737, 1287-1306; `utils/utils.cpp` 450-460, 1056-1066). The return added at the end of a unit, `stopLocation`, and host calls. A function called by the host is a partial function on the state; its code, arguments and frames are in Frames (C33). The value delivered by `GlobalStop` after a function has returned into top-level code is the slot cleared by the entry of `wr_callFunction`.

**Stmts** (C68, C69).  `parseStatement`, `parseIf`, `parseWhile`, `parseDoWhile`, `parseForLoop`, `parseSwitch` and `getSingleValueHash` (cc/cc.cpp) as parsers over tokens, and the way `parseExpression` ends (cc/expression.cpp 101-105, 566).  A whole expression is one token; a name is told apart from other expressions.  Keywords are reserved words, so a keyword where an expression should start is an error.  Labels, `goto`, `enum`, `export`, nested `function`/`struct` are left out.  The tree that is read is turned into a statement of Flow whose state carries the level of the stack; the code for it is that of Flow/Model (C40).  Specification: source trees, their text (`text`), their meaning (`mean`), which say nothing about tokens left over.

**Diag** (C70).  `getSourcePosition` character by character, the message of `compile`, and `appendFormatVA` over a `vsnprintf` that takes its arguments from a list; the second call gets what the first left, as on platforms where `va_list` is an array type (the C standard leaves the value indeterminate).  Conversions other than `%d`, `%-5d`, `%s` are not modelled; the output to `stdout` is not.  The position is any position inside the source (C41 shows that scanning never leaves it).

**Enumerations** (Cc/Enum, C71). `parseEnum` (cc/cc.cpp 2438-2586) over source bytes with the tokenizer of Cc/Scanner; the list of constants grows while the declaration is read, so the member's own names influence how the rest is read. Which compile error is reported is left out; a float keeps its text. An explicit float value does not reset the counter but still advances it (`a = 1, b = 2.5, c` gives c = 3); this is in the model only. The constants of unit 0 and of the current unit are one list.

**Registries** (`Host/Registry.lean`).  The state's table of C functions, library functions and library constants, and the contexts' tables of script functions, over the hash table of C05: the registration functions, `CallFunctionByHash`, `CallLibFunction`, `LoadLibConstant`, `wr_callFunction` by hash, `wr_getFunction`, `sys::isFunction`, the loop of `wr_newContext`.  Cells are two words, as in the union.  Names are their hashes; the order of imports is a parameter (C54); the mailbox, which shares the table, is C38.

**Expressions, all operators** (Expr/Full*.lean). The token loop of `parseExpression` over trees of tokens in which brackets are grouped, the operator table with precedence, direction, kind and alternative, the choice between prefix and other rows, the resolution with growth of the context array on access past its end (`grow`), the name after a dot, the refusal of `.` in `appendBytecode`, calls with their argument count modulo 256. An instruction is kept as what it does to the stack height (`I.eff`). Left out: `new`, initializers, `var`/`blank`, labels, the declaration `a[n];`, a comma before the closing parenthesis of a call, library constants; peephole rules (C25).

**Host access** (Ops/Access*.lean). The questions and conversions of `WRValue` and `WrenchValue` over the memory of the operators. `textOf` and `mallocTextOf` are the choice of the value that is formatted, the formatting itself is C63. Float to int conversion is a parameter; arrays of 2^31 elements cannot be allocated; tables have no contents in this memory (C05-C08, C56, C61 have them), so `indexHash`, `indexStruct` and the member count are left out.

**Debugger.** `Debug/Ll.lean` is `SimpleLL` with its nodes in memory: an access to a freed node is an outcome of its own; `m_clearFunc` and the `Iterator` class are left out. `Debug/Packet.lean` has the packets, the conversion of byte order, `send`/`receive` over a transport that takes or delivers as many bytes at a time as it likes or fails, the loopback (on top of the list) and the call stack's wire form. `g_malloc` succeeds. Sockets and serial ports are represented by their answers only.

**Debug server** (Debug/Server.lean). `codewordEncountered`, `clearBreakpoint`, the run/step/breakpoint requests of `processPacket`, and the code word `pushDebug` makes. The program is the sequence of code words it runs over; a sequence makes sense (`Fine`) if functions called exist and lines are only reached inside a function. The linked lists are sequences (C86). Not modelled: which code words the compiler emits where (it leaves one out when it is the same as the last one emitted, in the order of the source), the values a stopped program shows, source loading.

**Debug symbols** (Debug/Symbols.lean). The symbol block the linker writes, how the server finds it, the source and the hash in the image, the replies, and how the client takes the block apart (`sscanf("%63s")` is modelled as: skip white space, at most 63 characters up to white space or the terminator, nothing stored if there are none). Assumed: replies arrive as sent (C85); names contain no white space (the scanner's business).

**Debugging sessions** (Debug/Session.lean). The functions of `WRDebugClientInterface` with what they cache, `getPacket`, `populateSymbols` and the server's `tick`, for an arbitrary server. Packets arrive in order and unchanged (C85). Whether the server has been at work before the client looks for a reply is a parameter for every call, since the client does not wait (`timeoutMilliseconds = 0`).

**TCP library** (`Std/Net.lean`, C90). `isIp` without a mask (the branch for masks is dead code and left out), `ipFromAddress`, `wr_connectTCP`, `wr_sendTCP`, `wr_receiveTCP`. The name lookup, the text of a value and the result of the read are parameters. Not modelled: bind, accept, peek, timeouts, sizes below 0, version 6 addresses.

**File library** (`Std/Io.lean`, C91). All functions of std_io.cpp but `fsync` and `wr_stdout`, over a model of the operating system (trusted, not part of wrench): regular files under one name each, full reads and writes, no full disk, descriptors not used again. One permission, `readable`, stands for being allowed to open an existing file. Names that are no strings are not modelled.

**Library cleanup** (`Host/Cleanup.lean`, C92). The list of cleanup functions and the first loop of `wr_destroyState`; a cleanup function is a number with a parameter and may register others.

**Debugger front end** (`Debug/Listing.lean`, C93). Only `splitNL` and `splitArgs`; what is printed around them and the commands themselves are not modelled.

**Library calls, `math::`, `sys::halt`** (`Std/Math.lean`, C94, C96, C97). A library function is any partial function on the machine (stack, top, error); the C math library and float conversions are arbitrary functions on the 32 payload bits. Not modelled: how references and containers are converted by `asInt`/`asFloat` (arbitrary), the look-up of the function (C47, C72).

**`hash::` library** (`Containers/HashLib.lean`, C95). Variables share numbered table objects, each the `HT` of C05; addresses are a parameter (`Plausible`: 8-byte aligned, no entry at a multiple of 4 GB). Not modelled: the collection run after `hash::clear`, calls with too few arguments.

**Goto (C98).** `Verif/Goto/Model.lean` has the compilation of `goto` and labels with the statements of `Flow` except `switch` and for-each; `Spec.lean` gives their meaning by small steps in front of a rest (what remains to be done), so that `goto` replaces the rest by the one behind the label; `Props.lean` proves the two equal in both directions (ends and endless runs), by a relation between rests and code positions and a weight for steps that take no instruction. `Bytes.lean` composes the label's `O_LiteralZero`, `appendBytecode`, `O_PopOne` (model `Peep`) and the linker's patch (model `Vm/Jump`). Findings: the check for duplicate labels looks at the fresh stream of the label's own expression and never fires, so duplicates are accepted and the first label is used (`C98_duplicates_accepted`). Read but not modelled: in a `switch` whose body consists of labels only, the compiler takes the body for empty and removes the last jump target, which is then the label's; `if (c) lab: x;` runs `x` in any case, since a label is a statement of its own; a name with hash 0 would match any jump target.

**Frames/Slice (C99).** `Slice.lean` adds `sliceInstructionCount` and `yieldEnabled` to the machine of Frames (`vm/vm.cpp` 190-211, 651-661, 684-709, 828-845); a forced yield clears the slot above the stack and is resumed without a value. Which instructions end in CHECK_FORCE_YIELD is a parameter (`chk`, only instructions that stay in their frame). `Chain.lean` extends the invariant of Frames to the whole stack of suspended callers (`Sound`), so that it holds in every state of a host call; `SliceProps.lean` runs the sliced and the unsliced machine side by side: they agree on everything below the stack top, on the cells outside the stack, and, right after a return, up to the returned value. `PTwo` asks of an instruction not to read above the stack (shown for the ones of `Frames/Demo.lean`), `Prog.Blind` the same of library functions and containers. The count is a 32-bit word, and decrementing the least `int` is undefined: with positive slice sizes this never happens (`C99_no_overflow`), with slices switched off (size 0) the count is still decremented and not reset, so that a build with WRENCH_TIME_SLICES overflows it after 2^31 jumps. Not modelled: a function of another context that is interrupted by a slice (the caller then fails with WR_ERR_cannot_call_function_context_yielded), a debugger's stop.

**Serializer/Lib (C100).** `std::serialize` and `std::deserialize` (`lib/std_serialize.cpp` 28-67) over the model of Serializer; the result slot starts as 0 (`CallLibFunction`). Not modelled: failing allocations, the collection `std::deserialize` triggers (C18).

**Imported contexts and instances (C104, C105).** `Frames/Import.lean` models a call that finds its function in an imported context (vm.cpp 862-961): the import runs on the caller's stack above its top, to its Stop instruction, and its result is taken as it is.  The registry lookup among several imports is C53; one import is modelled.  `Link/Instance.lean` puts together the run of a constructor (Frames), the linked image and its member maps (Link): `new`, imported `new` and `wr_instanceStruct`.  A value is a stack slot; that the collection at the end of `wr_newObjectTable` keeps the new object is C15.

### The stack limit (Frames/Stack.lean)

`step` of Frames/Model.lean has the checks of WRENCH_PROTECT_STACK_FROM_OVERFLOW (off in the default build, wrench.h
109).  An instruction that ends in the error loses its memory in `step`; `after` gives it, following the order of the
stores and CHECK_STACK in vm.cpp, and `after_agrees` shows that it is the memory of `step` in all other cases.  `limit`
is `stackSize - 2` slots above `stackBase`, so slots `limit` and `limit + 1` are still in the stack.  C106 is stated
with a bound `U` on the slots used above the limit at each position (`Checked`), which must not exceed 2.

### The libraries (Host/Libs.lean)

`names` lists, for each `wr_load...Lib`, the names and C functions in the order of the calls; C functions are given by
name and their addresses are a parameter.  C107 composes it with the registry (C72).  That all hashes differ is
computed by the kernel over the whole table.

### Bytecode blocks (Host/Blocks.lean)

C31 extended by the blocks: each context has its block and the flag `WRC_OwnsMemory`, and an operation that destroys
contexts frees the blocks they own; reading or freeing a block that is not allocated is `ub`.  The specification is a
ledger of who owns which block.

### Several collectors (Gc/Shared.lean)

The heap of C15 shared by several contexts, each with its own `svAllocated`, globals, part of the stack and
`allocatedMemoryHint`; flags are not cleared in between, as in the code.  `destroy` is the forced collection of
`wr_destroyContextEx`.

### Source to execution for integer expressions (Whole/)

`compile` puts three models together: the placement of operands (`Expr`), the literals (`Cc`) and the emitter with
its rewrites (`Peep`); the result is run by the interpreter of `Peep/Vm.lean`, which for this got the instructions
that exchange stack slots and the prefix operators.  `IE.eval` is written without reference to any of them.
`compileRef` differs in one point: it forgets the cache when appended code hides it.  `compileCalm` is `compile`
where that makes no difference and has no outcome elsewhere.  Not covered: operands that are calls, indexing,
members, strings or floats; assignment inside expressions.

### Source to execution for integer programs (Prog/)

`Prog.compile` emits bytes for statements: expressions by `Whole.compile`, appended and rewritten by `Peep`, jump
references and their resolution by `Vm/Jump`.  `bstep` executes the instruction at a program counter: the
operation is that of `Peep/Vm.lean`, the jump that of `Vm/Jump` in its 8-bit or 16-bit form.  What a program means is
`Flow.exec` over the values of the variables, with `IE.eval` for expressions.  Not covered: declarations (slots are
given), debug instructions, and the end of the unit.  A compile error for a jump that does not fit is an error here
as well; the theorems are about programs that compile.

Statements that change a variable (`Eff`) are `v = e`, `v op= e` for the ten operators, and `++`/`--` in front or behind. A compound assignment keeps its `…AndPop` form in the emitter's cache, so the cache may hold loads and operators of earlier statements; `quiet` says that its last entry combines with nothing. What `*=`, `++` and `--` do on overflow is undefined in the model, and the source then means nothing (`compSpec`, `bumpSpec`).

**Scripts and functions of integers** (`Prog/Ret.lean`, `Prog/Script.lean`). C113 adds to C112 the end of the top-level code (cc.cpp 141-149), of functions (cc.cpp 1934-1939), `return` anywhere (cc.cpp 3077-3109), and what the host gets (vm.cpp 1247-1306). Excluded by hypothesis are bodies that end without `return` although their code ends in one: they run past their end (`C113_fails`, C66, C67). After a `return` before the end of the top-level code the position kept for calls is wrong (C67); the theorem says nothing about it then. The entry of a function is modelled by its result - result cell, arguments, further variables, return vector - (`enterFn`) and step by step (`Prog/Entry.lean` `enterHost`, vm.cpp 712-730, 1019-1066), proved equal (`enter_steps`); what `stackTop->p = 0` makes of a cell is a parameter (`Raw`); the return vector is one opaque cell which `Return` must find in place. Not modelled: calls between functions.

**Sessions** (`Prog/Calls.lean`). C114 puts script and functions into one image as `link` does (link.cpp 216-297: header, top-level code, for each function its table of names and its code; `functionOffset` modulo 65536) and lets the host run the script and make any sequence of calls. The header, the tables of names and the lookup by hash are opaque (C27, C29). A call returns to `stopLocation`, where `Stop` must be. Functions do not call each other. `Prog/Host.lean` has the same with the entry of functions step by step, for calls whose value does not depend on what variables hold before they are set (`Says`).

**Searching in a `WRstr`** (`Util/StrFind`): the three search loops of `wrench.h` 1483-1571 read the buffer of `Util/Str`, where a byte outside or never written is undefined.  `C115_find_partial`, `C115_findCase_partial` and `C115_rfind_partial` hold for every state the string operations reach (`Rep`).  Simplified: `int f` and `int i` are natural numbers (texts below 2^31 bytes), `tolower` is that of the C locale for all 256 bytes.

**Comparing `WRstr`s** (`Util/StrCmp`): `strcmp`, `strncmp` and `strncasecmp` are written out as byte loops over the buffers of `Util/Str` (trusted reading of the C library, C locale); only "result is 0" is kept.

**Header files** (`Diag/Header`): `blobToHeader` (`utils/wrench_cli.cpp` 97-126) over the formatted printing of `Diag/Model` (with `%02X` added).  `Reads` states what a C compiler reads from the lines of the array; `reads_unique` shows that it determines the bytes.  Not modelled: writing the file, the rest of the tool, `blobToAssemblyInc` (never called).

**Command line arguments** (`Util/Args`): both forms of `SimpleArgs::get` (`utils/simple_args.h` 46-101), with `strncpy` writing exactly its count of bytes into the caller's buffer and `strncmp` from `Util/StrCmp`.  `argn` is the length of `argv`, limits are not negative.

**Dump** (`Diag/Dump`): `wr_asciiDump` (`cc/cc.h` 534-570) over the formatted printing of `Diag/Model` (with `%08X` added).  Not modelled: `markByte`.

## Places where the code does not have the property

Each is proved as a theorem about the model (a witness), and the positive theorem excludes it.

| property | what happens | theorem |
|---|---|---|
| C04 | incremental hashing restarts at hash 0; `wr_hashStr` sign-extends bytes ≥ 0x80 | Bytes/Props |
| C05 | a key hashing to 0xABABABAB is lost | C05_reserved_key_lost |
| C07 | the insertion that triggers a growth is not counted | HashTable/Props |
| C08 | the value of a removed key reappears under the next key put in that slot | HashTable/Props |
| C09,C10 | table element count, strings over 65535 bytes, unsupported members; headers announcing 0 or > 49157 slots | Serializer/Props |
| C12 | `INT_MIN / -1`, `x % 0`, `INT_MIN % -1` undefined; `element % variable` uses the wrong table entry | Ops |
| C13 | comparing an int variable with a float retypes the variable | Ops |
| C14 | `a[i] op= x` overwrites `x`; `a[i] -= b[j]` uses one temporary twice | Ops |
| C15 | objects only reachable through a reference into an object, or through a hash element reference, are freed | Gc/Props |
| C17 | marking a cyclic container never completes | Gc/Term |
| C18 | for-each stops after 65536 elements; the iterator is one hidden global per statement | Containers/Foreach |
| C19,C20 | arrays end at 2^27-1 elements; out-of-range `insert`, negative counts; a pushed variable stays a reference | Containers/Props |
| C21 | `INT_MIN` | C21_int_min |
| C25 | negating the literals -128 and -32768; `[]` on two loads exchanges container and index; `%`, shifts and bit operators on floats leave garbage; `g + l` on strings is reversed; a comparison with a float literal retypes the variable; storing a literal or `++` on a by-reference parameter cuts the reference; negative literal index; stale or short opcode cache | C25_fails_* |
| C26 | a label hashing to 0xFFFFFFFF, cases out of 16-bit range, labels compared by hash only, labels with bytes ≥ 0x80 | Cc/SwitchProps |
| C28,C45 | three miscompiled expression shapes; `SwapTwoToTop` with the second value on top | Expr/Props |
| C27 | a constructor with arguments and no members stores outside the object; a member map at 32768 or later is read outside the image (signed offset); a name hashing to 0xABABABAB is found in an empty slot; more than 255 arguments and locals never ends | C27_no_members_overflows, C27_high_map_outside, C27_null_name_outside, C27_many_locals_hang |
| C29 | function offsets are kept modulo 65536; labels are cut at 61 characters | C29_offset_wraps, C29_long_labels_confused |
| C53 | two functions of one name: script and host disagree; a function called `yield` overwrites code | C53_duplicate_names_disagree, C53_yield_function_overwrites |
| C33 | the first local keeps the bits its slot held; 255 or more arguments and locals overflow the frame adjustment byte | C33_fails_first_local, C33_fails_frame_overflow |
| C34 | range wider than 2^31-2 | C34_full_range_overflows |
| C35,C36,C42 | `insert` past the end, `substr(n, npos)`, `s += s`; straddling `remove`, copied capacity; prime table overrun | Util |
| C39 | `-0xFFFFFF80`, `-0xFFFF8000`; binary and octal literals ≥ 2^31 with a 32-bit `long` | C39_negate_wrong, C39_binary_clamped |
| C40 | `continue` in a for-each jumps to the start of the unit; a switch ending in a loop, in `if (..) break;` or in a label after a `break` runs its dispatch without a selector | Flow/Props |
| C41 | a source ending in `:` or inside a string escape is read one past the end; `/*/` is a whole comment | C41_reads_outside, C41_slash_star_slash |
| C43 | restart after `*` misses matches | Util/Wild |
| C44 | the member encoding keeps 21 bits of the index; float indices are ignored, or used as bit patterns when they are elements; negative indices; indexing a member of a raw array | C44_fails_* |
| C48-C51 | assignment to a string character is lost; `++` on a string overwrites its first character, on one of its characters changes nothing; equality by hash; `"s" + 1.5` | Ops |
| C52 | string literals of 65536 characters or more | C52_long_string |
| C30 | a task that adds a thread while it runs and then finishes as first of the list loses the new thread; one that removes itself is used after being freed; a thread finishing at once leaves its context | nested_add_lost, nested_remove_ub, addThread_finished_keeps_context |
| C31,C54 | a script that imports while being imported: its import is never freed and searching from it never ends; destroying the importing context during an import uses freed memory | nestedImport_leaks, nestedImport_search_ub, destroyWhileImporting_ub |
| C38 | `msg::write("f", n); f();` jumps to address n; so does calling an unknown name that lands in the cell of a cleared message; clearing a function's name unregisters it; a failed call leaves a message | message_is_callable, stale_message_called, clear_removes_function, unknown_call_makes_message |
| C22 | `%s` of a number returns 0; `str::sprintf(s, "[%s]", s)`; `str::sprintf` changes every holder of the string; `str::printf` of the default build reads past the text | C22_percent_s_of_number, C22_sprintf_alias, C22_sprintf_shared, C22_printf_overread |
| C23 | `str::mid("", ..)` is 0; trimming bytes 0x80-0xFE; a concatenation of 2^32 bytes overruns | C23_mid_of_empty, C23_trim_high_byte, C23_concat_overrun |
| C25 | a library call whose result is dropped formats into the last value left in its result slot: `a = str::trim(" hi "); str::printf("bye");` changes `a` | C25_lib_call_and_pop |
| C55 | `%f` and `%.2f` print nothing and "2f"; `%b` keeps 16 bits, `%o` 15; `%05d` of -7 is "0000-7"; `%d` of INT_MIN is undefined | C55_float, C55_wrong_numbers, C55_int_min |
| C56 | `{ k : t[i] }` stores a reference to the element; `x["a"]["b"] = v` is lost; `t[1.5] = v` replaces the table; `f()._exists(k)` is 0; a string and its hash are one key; `t[t[k]]` that grows keeps a reference as the key | C56_initializer_aliases, C56_nested_index_lost, C56_float_key_replaces, C56_exists_of_temporary, C56_hash_is_key, C56_key_reference |
| C57 | `(var a = 1) && (var b = 2)` puts both in one slot; so do a `for` post expression and the loop body when `var` is not required; `f(a, a)`; the 257th slot is slot 0; `costarring` and `liquid` are one variable | C57_parentheses_alias, C57_post_alias, C57_repeated_argument, C57_slot_wraps, C57_colliding_names |
| C61 | an 8-bit name added is not found by `getHashTableValue`; a raw array of 2 MiB has size 0, of 4 MiB is none; a look-up creates an entry with key 0; names of equal hash; the size hint is counted as members; a hint of 49157 runs off the primes | C61_high_bytes, C61_large_array, C61_lookup_creates, C61_colliding_names, C61_hint_counts, C61_hint_too_large |
| C63 | the terminator goes to `string[maxLen]`; `maxLen` 0 gives ints as ""; small float limits overrun; `technicalAsString` of a number or table longer than `maxLen` overruns; `asMallocString` reports length 0 for strings | C63_terminator_outside, C63_int_terminator_outside, C63_technical_terminator, C63_unlimited_int_empty, C63_float_limit_1, C63_number_overrun, C63_table_overrun, C63_technical_limit_0, C63_malloc_string_length |
| C64 | the compact build: overflow undefined; `5 % 2.5` stores 0.0; `"s" + 1.5` concatenates; `"a" - "b"` does nothing; `x && 1.5` calls an unset pointer, in a branch it is false; `s -= "c"` and `++s` append | C64_overflow, C64_integer_operator_with_float, C64_string_plus_float, C64_string_minus_string, C64_logical_float, C64_branch_float, C64_string_minus_assign, C64_string_increment |
| C65 | `…Values` instructions get no operand bytes, so variable numbers are listed as instructions; after `CallFunctionByIndex` the placeholder's last bytes are listed as a comparison; `GlobalStop` swallows the following `Stop`; `GL`/`LG` arithmetic shows the scopes the wrong way round | C65_values_misaligned, C65_call_phantom, C65_stop_hidden, C65_mixed_wrong |
| C66, C67 | a body whose code ends in a `return` that can be jumped over runs into the next unit; a top level ending so delivers a stale value; after an early `return` at top level a host call goes on behind it and delivers 0 | C66_runs_past_the_end, C66_conditional_return, C66_else_return, C67_early_return, C67_resumes_loop, C67_stale_result |
| C68 | A block directly in a block ends the enclosing block, so the program is refused; `if (c) break; else y;`, `do break; while (c);` and `case (7):` are refused; `if () x;` is accepted | C68_nested_block, C68_accepted_iff, C68_break_else, C68_do_break, C68_case_parens, C68_no_condition |
| C69 | The semicolon after `break`/`continue` is not read; in a block it becomes a bare `PopOne`, so `while (a) { if (b) break; c; }` takes one value off the stack in every round | C69_sinks, C69_semicolon |
| C70 | `appendFormatVA` copies the argument list but then uses the consumed one for text of 80 characters or more: a compile error in a line of 73 characters or more, or a global whose name has 78 characters or more, is undefined behaviour | C70_long_line, C70_crash, C70_long_name |
| C71 | `index = value.i + 1` is computed for every explicit value, so `enum { Max = 0x7FFFFFFF }` is signed overflow in the compiler. A plain constant `Color` hides `Color::Red`. A constant is substituted wherever a token starts, also after a dot, so a struct field called like a constant cannot be named | C71_overflow, C71_shadowed, C71_constant |
| C72 | a script call of a library constant jumps to its value; a `wr_registerFunction` function called by the host is called with the library signature; a failed look-up registers the name for `sys::isFunction`; after a failed host call on an imported context the same call from a script runs the import's top-level code | `C72_constant_called`, `C72_native_as_library`, `C72_looked_up`, `C72_imported_looked_up`, `C72_failed_host_call` |
| C73 | A lone operator is an accepted expression with no code; `a + *` multiplies values that are not there; `a._remove` takes `a` for the key; `f(,)` calls with an argument nothing pushed; `a.f(x)` is compiled as `a.x`; `f(x).y`, `!!a`, `-(int)a` are refused | `C73_lone_operator`, `C73_dangling_operator`, `C73_key_missing`, `C73_empty_argument`, `C73_member_call_dropped`, `C73_call_member_refused`, `C73_two_prefixes_refused` |
| C75 | An int that is an element of a container (`f(a[0])`), or behind two references, is not an int for the host; `asMallocString` of a string in an array is the number of its hash; `indexArray` with create and index 0xFFFFFFFF returns a wild pointer; `WrenchValue` indexing of a string returns a pointer to a character as a value, of a negative index the last element or memory before the array; storing to a character through `WrenchValue` is lost; `setString` with length 0 takes the text up to its terminator | `C75_element_not_int`, `C75_two_references_not_int`, `C75_malloc_element_hash`, `C75_index_wraps`, `C75_string_member_confused`, `C75_negative_is_last`, `C75_negative_on_empty`, `C75_string_element_lost`, `C75_empty_slice` |
| C85 | every request of the debug client except `load` is a packet of size 0 and is not sent; over Linux TCP nothing is received because the answer of `poll` is taken for a byte count; an error while the payload is read puts the stream out of step | `C85_constructed_not_sent`, `C85_linux_tcp_receives_nothing`, `C85_out_of_step`, `C85_loopback_constructed` |
| C87 | the debugger's call stack loses its outermost entry when a function returns, not the innermost (`m_callStack->popHead()`), so the function that returned stays on display and gets its caller's lines; after the only entry is gone the next line is stored through a null pointer; a step that ends on a breakpoint stays under way, so that a following `run` stops at the next line; stepping over the end of a function stops inside the next function called in the same line; line numbers are kept modulo 16384 | `Server.C87_return_drops_the_caller`, `C87_wrong_after_return`, `C87_null_after_host_call`, `C87_run_stops_early`, `C87_step_over_into`, `C87_far_lines`, `C87_line_wraps` |
| C88 | the length handed out with the source is one more than the source has; a program without symbols leaves the pointers to the previous program's symbols and source in place, so that bytes of the new program are shown as names; with 256 or more variables in a function the rest of the list is read wrongly; names are cut at 63 characters | `Symbols.C88_source_one_longer`, `C88_stale`, `C88_shows_code_as_symbols`, `C88_many_variables`, `C88_symbols` (`shown`) |
| C89 | `load` does not take the reply to its request: it is taken for the symbols, which are then missing, and from then on every call gets the reply to the request before (a value asked for is that of the variable asked for before); the same after a reply that comes late; text printed is handed on without a terminator; `println` ends no line | `Session.C89_load_lags`, `C89_lag`, `C89_late_lags`, `C89_wrong_value`, `C89_late`, `C89_text_unterminated`, `C89_println` |
| C90 | `tcp::send` sends the text of its first argument (the socket), never the data; an unknown host name is connected to address 0; an error of `tcp::recv` becomes a string of 4294967295 characters | `C90_send_ignores_data`, `C90_send_fails`, `C90_unknown_host`, `C90_receive_error` |
| C91 | An empty file read often enough crashes (its stream is never closed, then a null one is); so does an unreadable file, host memory given to `io::write`, and `io::deleteFile` uses a freed name; `io::getline` loses the 257th character of a line and makes two lines of one that ends in CR LF | `C91_empty_files_crash`, `C91_unreadable_crash`, `C91_raw_and_delete_crash`, `C91_getline_loses`, `C91_getline_crlf` |
| C92 | A cleanup function that registers another is called again, and the other one is freed without being called; one that always does so makes `wr_destroyState` endless | `C92_added_is_lost`, `C92_endless` |
| C93 | A carriage return alone ends a line in the debugger's listing but not for the compiler, so the numbers differ from there on; a command behind a space has an empty first word | `C93_carriage_return`, `C93_leading_space` |
| C94 | `math::pow( a, b )` computes b^a, `math::fmod( a, b )` b mod a, `math::ldexp( a, b )` b·2^a | `C94_two_arguments_partial`, `C94_pow_reversed` |
| C95 | `hash::exists`/`hash::remove` return part of an address, never the documented 1; `hash::clear` leaves the old table to other variables; `hash::count` as C07 | `C95_exists_partial`, `C95_never_one`, `C95_clear_leaves_the_others`, `C95_count_wrong` |
| C96 | (outside the statement) an error left by a native function stops the script at the next library call | `C96_error_surfaces_later` |
| C99 | `C99_fails_first_local`: a forced yield writes 0 into the slot above the stack, where the next function called may have its first local; as that local is not initialised (C33), what the script computes depends on where the slice ended |
| C100 | `C100_fails_header`: a script can crash the host with `std::deserialize` of four characters (see C10) |
| C104 | `new` of an imported struct with n arguments takes the members n slots too low - with as many arguments as parameters they are the arguments - and leaves the constructor's result below the object; `wr_instanceStruct` does not look at whether the constructor came to its end; with two structs of one name it runs one and uses the names of the other | `C104_fails_import_arguments`, `C104_fails_import_operands`, `C104_fails_no_constructor`, `C104_fails_two_names` |
| C105 | a variable returned by an imported function is a reference into the frame just left and changes with the next push; the stack limit of an import is counted from its own base, so that its frames can lie beyond the stack | `C105_fails_variable`, `C105_fails_sum`, `C105_fails_overflow` |
| C106 | LiteralInt32 and LiteralFloat (vm.cpp 749-769), the value of `yield()` on continuing (684-709), host arguments (716-719), and also GlobalIndexHash/LocalIndexHash (1342-1355) push without CHECK_STACK: three of the first kinds in a row write behind the stack | `C106_fails_literals`, `C106_fails_yield`, `C106_fails_host_arguments` |
| C109 | `wr_destroyContextEx` sets the counter to 65535 to force the collection; with `wr_setAllocatedMemoryGCHint` above that, no object of the context is freed (utils.cpp 486-489, gc.cpp 85-96) | `C109_destroy_leaks` |
| C110 | an import's collection does not mark the variables of the importing script: an array an import returned is freed while in use; marks left on objects of another context make that context's collection free their contents (gc.cpp 98-151) | `C110_returned_array_freed`, `C110_flag_left`, `C110_stale_flag_frees` |
| C111 | appending the code of a parenthesised sum, difference or quotient of two variables leaves the cache of the enclosing expression over bytes it does not describe (optimizer.cpp 1391-1592): `-(a + b) * -5` loses the negation, `c == (a + b) & -5` overwrites an operand byte and reads a local out of range | `C111_fails_negation`, `C111_fails_compare` |
| C112 | `c = -(a + b) * -5;` leaves -205 in `c` instead of 205 | `C112_fails` |
| C113 | `function f(a) { if (a) return 1; }`, called with 0, runs past the end of its code | `C113_fails` |
| C115 | `find` and `findCase` stop at a zero byte of the text, take a start behind the end for 0; the empty pattern gives 0 | C115_find_zero, C115_find_corners |
| C116 | `isMatchCase` compares only as many bytes as the string has: "on" matches "ONE", the empty string matches everything; `==` stops at a zero byte | C116_isMatchCase_longer, C116_equal_zero |
| C117 | the beginning of the header is formatted twice with one argument list | C117_heading_undefined |
| C118 | a parameter as long as the limit or longer is left without terminator; without a limit 1024 bytes are written | C118_no_terminator, C118_overrun |

## How the theorems were tested

`seeded/LOG.jsonl` has one line per wrong program: the definition edited in a scratch copy, the edit, the
claim it breaks and the theorems that stopped compiling. An edit that broke no theorem is logged too,
with an empty list; where the edited program behaves the same the line says so.
