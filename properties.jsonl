{"id": "C01", "title": "A bytecode image with a correct trailer is accepted, and only such an image", "statement": "wr_isBytecodeValid (and hence wr_newContext/wr_run) accepts an image exactly when it is at least 8 bytes long and its last four bytes are, little endian, the FNV hash of everything before them plus the major version; in particular the image the linker emits for any code body of at least four bytes is always accepted.", "quantifier": "every byte string offered as an image; every code body handed to the linker's final step", "why_tests_cant": "The set of images is infinite; a test can only load a handful of compiled programs.", "anchors": ["discrete_src/utils/utils.cpp wr_isBytecodeValid", "discrete_src/lib/std.cpp wr_hash_read8", "discrete_src/cc/link.cpp link"]}
{"id": "C02", "title": "Any single corrupted byte in a bytecode image is detected", "statement": "If a valid image has exactly one of its bytes (body or trailer) replaced by a different byte, wr_isBytecodeValid rejects the result.", "quantifier": "every valid image, every position in it, every replacement byte", "why_tests_cant": "length x 255 mutations for every possible image; needs the algebraic fact that each hash step is a bijection.", "anchors": ["discrete_src/utils/utils.cpp wr_isBytecodeValid", "discrete_src/lib/std.cpp wr_hash_read8"]}
{"id": "C03", "title": "Multi-byte operands survive the trip through bytecode", "statement": "For every 16-bit and 32-bit value, packing it into bytecode and reading it back in the interpreter gives the same signed value, the encoding is 2/4 bytes long, and distinct values have distinct encodings.", "quantifier": "all 2^16 and 2^32 values at any offset in any code", "why_tests_cant": "2^32 values times all surrounding code.", "anchors": ["discrete_src/utils/utils.cpp wr_pack16", "discrete_src/utils/utils.cpp wr_pack32", "discrete_src/vm/vm.h READ_16_FROM_PC", "discrete_src/vm/vm.h READ_32_FROM_PC"]}
{"id": "C04", "title": "Name hashing is incremental and consistent", "statement": "Hashing data in pieces (passing the previous result as the serial argument) equals hashing it in one go, and hashing a name as a C string gives the same number as hashing its bytes, so that a name compiled into bytecode and the same name registered from C++ meet.", "quantifier": "all byte strings and all ways of splitting them; all NUL-free names", "why_tests_cant": "infinite inputs; the disagreement shows only on particular byte values.", "anchors": ["discrete_src/lib/std.cpp wr_hash", "discrete_src/lib/std.cpp wr_hashStr", "discrete_src/lib/std.cpp wr_hash_read8", "discrete_src/lib/std.cpp wr_hashStr_read8"]}
{"id": "C05", "title": "A script hash table behaves like a finite map", "statement": "For every history of writes h[k]=v, reads h[k], and removals, a read returns the value of the latest write to that key that was not followed by a removal, and writes or removals of other keys never change it, regardless of collisions and table growth.", "quantifier": "every sequence of operations, every set of 32-bit key hashes (other than the reserved empty marker) that does not exhaust the prime table", "why_tests_cant": "Depends on collision patterns and rehash points over unbounded histories.", "anchors": ["discrete_src/vm/gc_object.cpp WRGCObject::getIndexOfHit", "discrete_src/vm/gc_object.cpp WRGCObject::growHash", "discrete_src/vm/gc_object.cpp WRGCObject::exists", "discrete_src/vm/gc_object.cpp WRGCObject::get"]}
{"id": "C06", "title": "Existence checks and removal on hash tables are exact", "statement": "h._exists(k) is true exactly when k has been written or touched since its last removal; after h._remove(k) it is false and every other key's answer is unchanged.", "quantifier": "every operation history and key", "why_tests_cant": "As C05.", "anchors": ["discrete_src/vm/gc_object.cpp WRGCObject::exists", "discrete_src/vm/vm.cpp Remove", "discrete_src/vm/vm.cpp HashEntryExists", "discrete_src/lib/std_container.cpp"]}
{"id": "C07", "title": "Hash table count equals the number of distinct keys", "statement": "h._count / hash::count reports the number of distinct keys currently present, after any history of insertions and removals.", "quantifier": "every operation history", "why_tests_cant": "The discrepancy depends on which insertion triggered a rehash.", "anchors": ["discrete_src/vm/gc_object.cpp WRGCObject::growHash", "discrete_src/vm/gc_object.cpp WRGCObject::getIndexOfHit", "discrete_src/vm/operations.cpp wr_countOfArrayElement"]}
{"id": "C08", "title": "A key that was never written reads as the default value", "statement": "Reading a key that is not present yields the default integer 0, whatever was previously stored in and removed from the table.", "quantifier": "every operation history", "why_tests_cant": "Depends on the slot history of removed entries.", "anchors": ["discrete_src/vm/gc_object.cpp WRGCObject::exists", "discrete_src/vm/gc_object.cpp WRGCObject::getIndexOfHit", "discrete_src/vm/gc_object.cpp WRGCObject::init"]}
{"id": "C09", "title": "Serialize then deserialize restores the value", "statement": "For every value built from integers, floats, strings, arrays and hash tables (nested to any depth, sizes within the 16-bit format limit), wr_deserialize(wr_serialize(v)) succeeds, consumes exactly the produced bytes and yields a value structurally equal to v.", "quantifier": "every nested value within the format limits", "why_tests_cant": "Unbounded nesting and sizes.", "anchors": ["discrete_src/utils/serializer.cpp wr_serializeEx", "discrete_src/utils/serializer.cpp wr_deserializeEx", "discrete_src/utils/serializer.h WRValueSerializer"]}
{"id": "C10", "title": "Deserialization of arbitrary bytes stays inside the buffer and never accepts a truncated message", "statement": "For every byte string, wr_deserialize reads only bytes inside the buffer; and if it accepts a serialized message it rejects every strict prefix of the bytes it consumed.", "quantifier": "every byte string and every truncation point", "why_tests_cant": "Adversarial input space is infinite.", "anchors": ["discrete_src/utils/serializer.h WRValueSerializer::read", "discrete_src/utils/serializer.cpp wr_deserializeEx"]}
{"id": "C100", "title": "std::deserialize of what std::serialize made is the value; anything else gives 0", "statement": "In a script, std::deserialize( std::serialize( v ) ) is v for every value of numbers, strings, arrays and hash tables within the format limits (up to the element counts of hash tables), whatever further arguments are given. The text may have anything appended, may itself be stored in a value and serialized again while it has at most 65535 bytes, and no shorter part of it is accepted: it gives 0. No argument, an unsupported value, and a non-string also give 0. Every string gives some value, except those announcing a hash table of 0 or more than 49157 slots.", "quantifier": "every nested value within the format limits, every string, every truncation point, any further arguments", "why_tests_cant": "nesting and byte strings are unbounded", "anchors": ["discrete_src/lib/std_serialize.cpp wr_stdSerialize", "discrete_src/lib/std_serialize.cpp wr_stdDeserialize", "discrete_src/utils/serializer.cpp wr_serialize", "discrete_src/utils/serializer.cpp wr_deserialize"]}
{"id": "C101", "title": "A time slice is exactly as long as set", "statement": "With instructions-per-slice set to n, a slice executes fewer than n jumps without interruption, and the forced yield comes at the n-th jump, at which wr_slicesUsedLastCall gives n. With 0 no yield is forced. After wr_forceYield the very next jump yields, before its target is executed. While all sizes set are positive the count never overflows.", "quantifier": "For all programs, states, slice sizes and lengths of run.", "why_tests_cant": "A test uses a few sizes and one loop; that the count is right for every size, for every mix of forward and backward jumps and across resumptions needs an argument over all runs.", "anchors": ["discrete_src/vm/vm.cpp wr_callFunction", "discrete_src/vm/vm.cpp wr_setInstructionsPerSlice", "discrete_src/vm/vm.cpp wr_forceYield", "discrete_src/vm/vm.cpp wr_slicesUsedLastCall"]}
{"id": "C102", "title": "Packets made by alloc arrive as they were sent, in order", "statement": "A packet made by WrenchPacket::alloc with a payload below two gigabytes, sent over a byte stream, is received with the same type, parameters and payload, and the bytes behind it stay on the stream; the sender keeps its packet unchanged. Any number of packets are received in the order they were sent. This for either byte order on either side and however the transport cuts up the bytes, as long as it keeps moving at least one byte at a time.", "quantifier": "For all packets, sequences of packets, byte orders and transports that make progress.", "why_tests_cant": "Byte order and fragmentation cannot be varied on one machine over the loopback; the number of ways to cut up a stream is unbounded.", "anchors": ["discrete_src/debug/debug.cpp send", "discrete_src/debug/debug.cpp receive", "discrete_src/debug/packet.cpp xlate", "discrete_src/debug/tcp_debug_comm.cpp recvEx"]}
{"id": "C103", "title": "Stepping and breakpoints of the debugger", "statement": "Step-into stops on the very next line the program comes to, in whatever function; step-over stops on the next line of the function it was asked in, however deeply the functions called and returned from in between call on, or earlier on a line with a breakpoint; the line shown for the innermost function is the one stopped on. Through any sequence of requests a line has a breakpoint exactly if the last request about it was to set one, and it is kept once. The call stack has as many entries as functions are being executed.", "quantifier": "For all programs seen as sequences of code words (calls, returns and lines below 16384, any depth), and all sequences of requests.", "why_tests_cant": "Nesting depth and the interleaving of requests and calls are unbounded.", "anchors": ["discrete_src/debug/server_interface_private.cpp codewordEncountered", "discrete_src/debug/server_interface_private.cpp processPacket", "discrete_src/debug/server_interface_private.cpp clearBreakpoint"]}
{"id": "C104", "title": "An instance of a struct holds what its constructor left in its members", "statement": "After new S(...) in a script, new of a struct of an imported context, or wr_instanceStruct from the host, the object has for each variable of the constructor a member of that name whose value is the one the variable had when the constructor returned; names that are not variables of the constructor are not members. A struct that is not exported and that no new names, or a name no function has, makes no instance.", "quantifier": "all programs, all constructors, any arguments, any length of execution, any calling state", "why_tests_cant": "The member is found by composing the frame layout, the linker's member map and the loader's offsets; a wrong slot shows only for some combination of argument count, position in the image and way of making the instance.", "anchors": ["discrete_src/vm/vm.cpp:113-152", "discrete_src/vm/vm.cpp:899-926", "discrete_src/utils/utils.cpp:1184-1213"]}
{"id": "C105", "title": "A call of a function of an imported context is like a call of an own function", "statement": "Calling a function of an imported context from a script with n arguments keeps the caller's variables and operands except those passed by reference, runs the function with the arguments as given, and leaves its result in place of the arguments, whatever the function calls and however long it runs; a yield inside it is an error.", "quantifier": "all importing and imported programs, all stack contents, any number of arguments and instructions", "why_tests_cant": "The import runs on the importer's stack from its top on; whether values survive depends on the depth and on what is pushed next, which no single test fixes.", "anchors": ["discrete_src/vm/vm.cpp:862-961", "discrete_src/vm/vm.cpp:640-690"]}
{"id": "C106", "title": "With stack protection, a script that needs more stack than there is gets the error and nothing outside the stack is written", "statement": "In a build with WRENCH_PROTECT_STACK_FROM_OVERFLOW, whatever a script does (endless recursion, functions with many locals, missing arguments, deep expressions), no instruction writes a slot outside the stack of its context, also not the instruction that is then reported as WR_ERR_stack_overflow, and the stack top stays within the stack. The check has no other effect: an instruction behaves as without the check unless it is the one reported, and then the stack top is within what this instruction needs of the limit. Excepted: pushes that have no check. More than two LiteralInt32/LiteralFloat or value-less yield() in a row without a checked push between them can leave the stack, as can wr_callFunction with more than stackSize-2 arguments.", "quantifier": "for all programs meeting the depth discipline, all stack sizes, all functions and arguments, all lengths of run and answers to yields", "why_tests_cant": "an overflow depends on the call depth, the frame sizes and the stack size; a write behind the stack is invisible to a test unless it hits something that is used", "anchors": ["discrete_src/vm/vm.cpp wr_callFunction", "discrete_src/vm/vm.cpp CHECK_STACK", "discrete_src/wrench.h WRENCH_PROTECT_STACK_FROM_OVERFLOW"]}
{"id": "C107", "title": "Every name of the standard libraries stands for its own function or constant, in whatever order libraries are loaded", "statement": "After any history of loading libraries with wr_load...Lib (in any order, any number of times, all or some of them), of registering functions and constants of the host under other names, and of calls and reads, a script calling a library function runs the C function of that name if its library has been loaded and gets an error if it has not; a library constant likewise is its value or an error. No two of the library names have the same hash.", "quantifier": "for all histories, all hosts whose own names hash differently from the library names and are each used for one purpose, all addresses and constant values", "why_tests_cant": "which slot of the registry a name gets depends on everything loaded before it and on the growth of the table; two names colliding shows only if both are used", "anchors": ["discrete_src/lib/std.cpp wr_loadAllLibs", "discrete_src/lib/std_math.cpp wr_loadMathLib", "discrete_src/lib/std_container.cpp wr_loadContainerLib", "discrete_src/utils/utils.cpp wr_registerLibraryFunction"]}
{"id": "C108", "title": "A bytecode block is freed exactly once, by whoever owns it", "statement": "A block handed over with takeOwnership to wr_newContext or wr_import, or copied by sys::importByteCode, and accepted, stays allocated as long as the context that took it and is freed with that context, once. A block passed without takeOwnership, or refused, is never freed by the library. No freed block is read or freed again. Two corners are part of the claim: wr_run answers null both when the block is refused (still the caller's) and when the script fails (already freed), so with takeOwnership the caller cannot know whether to free; the copy that sys::importByteCode makes of bytes that are refused is never freed.", "quantifier": "for all histories of allocating, creating, importing (by host or script), running, destroying and freeing by a host that passes and frees only its own blocks, frees and hands over only blocks no context uses, and whose imported scripts do not import themselves", "why_tests_cant": "reading or freeing freed memory shows nothing in an ordinary test; which block is whose depends on the whole history of contexts and imports", "anchors": ["discrete_src/utils/utils.cpp wr_createContext", "discrete_src/utils/utils.cpp wr_run", "discrete_src/utils/utils.cpp wr_destroyContextEx", "discrete_src/lib/std_sys.cpp wr_importByteCode"]}
{"id": "C109", "title": "Garbage is collected when the set amount has been allocated, and destroying a context frees everything it allocated", "statement": "After a collection a script may allocate objects of together less than the amount set with wr_setAllocatedMemoryGCHint without a collection happening; once they reach it, the next occasion (an allocating instruction, entering or continuing the script) collects, and exactly the objects reachable from the context's variables are left. wr_destroyContext frees every object the context allocated, once, and no other's.", "quantifier": "for all limits, all sequences of allocations of together less than 4 GB, all heaps and contexts", "why_tests_cant": "how much is allocated and freed when is invisible to scripts; a leak shows only in long-running hosts", "anchors": ["discrete_src/vm/gc.cpp WRContext::gc", "discrete_src/vm/gc.cpp WRContext::getSVA", "discrete_src/utils/utils.cpp wr_destroyContextEx", "discrete_src/utils/utils.cpp wr_setAllocatedMemoryGCHint"]}
{"id": "C11", "title": "Integer arithmetic wraps modulo 2^32 and never disturbs its operands", "statement": "For script variables or literals holding integers, a+b, a-b, a*b evaluate to the 32-bit two's-complement wrap of the exact result whether the operands are literals, variables or references, and the operand variables keep their values.", "quantifier": "all pairs of 32-bit integers and all operand forms", "why_tests_cant": "2^64 operand pairs times operand forms.", "anchors": ["discrete_src/vm/operations_non_compact.cpp wr_AdditionBinary", "discrete_src/vm/operations_non_compact.cpp X_BINARY", "discrete_src/vm/vm.cpp targetFuncOp"]}
{"id": "C110", "title": "A collection in one context does not free what another context uses", "statement": "A script and the scripts it imports each collect their own garbage on one stack. Whatever array, string, table or struct a variable of any of them refers to stays allocated when any of them collects, including what functions of an import returned to the importing script.", "quantifier": "for all heaps shared by any number of contexts, all stacks, all limits", "why_tests_cant": "a freed array is usually still readable; it fails only when memory is reused, and only after enough allocation in the right context", "anchors": ["discrete_src/vm/gc.cpp WRContext::gc", "discrete_src/vm/gc.cpp WRContext::mark", "discrete_src/vm/vm.cpp CallFunctionByHash", "discrete_src/utils/utils.cpp wr_import"]}
{"id": "C111", "title": "An integer expression in a script has the value its text means, from source to execution", "statement": "For an expression built from local and global variables holding integers, integer literals, parentheses, the prefix operators - ! ~ and all arithmetic, comparison, logical, bit and shift operators, the bytes the compiler and its optimizer emit, executed, push the value the expression has by the precedence rules and 32-bit arithmetic, and change no variable and nothing else below.", "quantifier": "for all such expressions of any size, all values of the variables, all states of the machine", "why_tests_cant": "the optimizer rewrites bytes already emitted according to what came before and after; which rewrites meet depends on the whole expression, and the wrong ones give ordinary wrong numbers", "anchors": ["discrete_src/cc/expression.cpp WRCompilationContext::parseExpression", "discrete_src/cc/cc.cpp WRCompilationContext::resolveExpressionEx", "discrete_src/cc/optimizer.cpp WRCompilationContext::pushOpcode", "discrete_src/cc/optimizer.cpp WRCompilationContext::appendBytecode", "discrete_src/vm/vm.cpp WRContext::callFunction"]}
{"id": "C112", "title": "An integer program with conditionals and loops does what its source says, from statements to executed bytes", "statement": "A program built from assignments and compound assignments of integer expressions to existing variables, ++ and --, if and if/else, while, do/while, for, break and continue, once it compiles, behaves as its source: run from its first byte on a machine whose variables hold given integers, it reaches the end of its code exactly with the values the source gives them, the stack as high as before and everything else unchanged; if the source does not end, the bytes run for ever without undefined behaviour.", "quantifier": "for all such programs of any size and nesting, all values of the variables, all states of the machine, all lengths of jumps", "why_tests_cant": "comparisons are fused with branches, assignments and increments with the instructions around them, jumps are shortened while others are still open; a wrong combination shows only for some programs and some distances", "anchors": ["discrete_src/cc/cc.cpp WRCompilationContext::parseIf", "discrete_src/cc/cc.cpp WRCompilationContext::parseWhile", "discrete_src/cc/cc.cpp WRCompilationContext::parseDoWhile", "discrete_src/cc/cc.cpp WRCompilationContext::parseForLoop", "discrete_src/cc/cc.cpp WRCompilationContext::parseStatement", "discrete_src/cc/cc.cpp WRCompilationContext::addRelativeJumpSource", "discrete_src/cc/cc.cpp WRCompilationContext::resolveRelativeJumps", "discrete_src/cc/optimizer.cpp WRCompilationContext::pushOpcode", "discrete_src/vm/vm.cpp WRContext::callFunction"]}
{"id": "C113", "title": "The host gets from an integer script, and from an integer function it calls, the value the source says", "statement": "When the host runs a script of integer statements with return anywhere or nowhere, it gets the value of the expression of the return reached, for the values the variables then have, or zero without one, and the context is left ready for calls of functions. When it calls a function of integer parameters and variables, with return anywhere or nowhere, with any number of integer arguments, it gets the value the source of the function says for these arguments (missing ones zero, extra ones dropped), zero if the function returns nothing; the global variables hold what the source says and nothing else below the frame changes.", "quantifier": "for all such scripts and functions of any size and nesting, all arguments, any number of them, all values of the globals, all contents of the rest of memory", "why_tests_cant": "the value returned may be a reference into the frame just left or to a global, a zero is returned by another instruction, and the code of the return is fused with the code before it; only all programs and all arguments together show that none of it is seen", "anchors": ["discrete_src/cc/cc.cpp WRCompilationContext::compile", "discrete_src/cc/cc.cpp WRCompilationContext::parseStatement", "discrete_src/cc/optimizer.cpp WRCompilationContext::pushOpcode", "discrete_src/vm/vm.cpp wr_callFunction"]}
{"id": "C114", "title": "A host that runs an integer script and then calls its functions gets every value the source says", "statement": "When the host runs a script of integer statements and then calls its functions, in any order, any number of times, with any arguments, every value it gets is the one the source says, with the global variables carried from the script to the first call and from each call to the next, whatever earlier calls left on the stack.", "quantifier": "for all scripts and lists of functions of such statements, all sequences of calls and arguments, all contents of memory at the start", "why_tests_cant": "the result depends on the whole history of calls; the code of each function is placed behind the code of others, and each call starts on what the previous one left on the stack", "anchors": ["discrete_src/cc/link.cpp WRCompilationContext::link", "discrete_src/cc/cc.cpp WRCompilationContext::compile", "discrete_src/vm/vm.cpp wr_callFunction", "discrete_src/vm/vm.cpp WRContext::callFunction"]}
{"id": "C115", "title": "Searching in a WRstr finds the first or last occurrence", "statement": "find(str, from) on a WRstr gives the first position from 'from' on where the bytes of str occur in the text, findCase the same up to the case of letters, and rfind(str, from) the last such position up to 'from'; each gives npos exactly when there is none, and none of them reads outside the buffer. Excepted: a text with a zero byte (find and findCase stop there), a start behind the end of the text for find and findCase (taken for 0), and the empty pattern (always 0).", "quantifier": "for all strings any history of operations leaves, all patterns and all starting positions", "why_tests_cant": "the early exit of find at the end of the text is right only because no later position can match, which no sample of texts settles", "anchors": ["discrete_src/wrench.h WRstr::find", "discrete_src/wrench.h WRstr::findCase", "discrete_src/wrench.h WRstr::rfind"]}
{"id": "C116", "title": "Comparing WRstr strings compares their texts", "statement": "s1 == s2 on two WRstr is true exactly when their texts are equal and s1 != s2 exactly when they are not; comparing with a C string (==, isMatch) is true exactly when the C string is the text; isMatchCase the same up to the case of letters. No comparison reads outside a buffer. Excepted: texts with zero bytes (compared up to the first one) and isMatchCase with a C string longer than the text, which matches when it begins with the text, so that the empty string matches everything.", "quantifier": "for all strings any history of operations leaves and all C strings", "why_tests_cant": "the length limit of the comparison and stale bytes behind the terminator matter only for particular pairs of texts and histories", "anchors": ["discrete_src/wrench.h WRstr operator ==", "discrete_src/wrench.h WRstr::isMatch", "discrete_src/wrench.h WRstr::isMatchCase"]}
{"id": "C117", "title": "The C header made by the command line compiler holds exactly the compiled code", "statement": "wrench ch writes a file that a C compiler reads as an array [name]_bytecode with exactly the bytes of the compiled code, in order, and a constant [name]_bytecodeSize with their number. The lines of the array are as stated for code of any size; the lines in front of them are not: they are longer than the 80 characters WRstr::format tries first, and the second attempt uses an argument list that is used up, for every name.", "quantifier": "for all compiled code of less than 2^31 bytes and all names", "why_tests_cant": "every byte value, the cut into lines of 16 and the comment at the end of each line must be right for code of any length", "anchors": ["discrete_src/utils/wrench_cli.cpp blobToHeader", "discrete_src/wrench.h WRstr::appendFormatVA"]}
{"id": "C118", "title": "SimpleArgs::get finds the argument asked for", "statement": "get by index returns argument 0, 1, 2... or, with -1, -2..., the last, second to last..., and null for any other index; get by option returns the first argument equal to the option (not merely beginning with it), or, when a buffer is given, the argument behind it, null if there is none. The parameter is copied to the buffer with its terminator, and nothing is written behind the limit. Excepted: parameters as long as the limit or longer get no terminator, and with no limit 1024 bytes are written whatever the size of the buffer.", "quantifier": "for all argument lists, options, indexes, buffers and limits", "why_tests_cant": "the number, order and length of arguments is unbounded, and a missing terminator shows only with particular lengths", "anchors": ["discrete_src/utils/simple_args.h SimpleArgs::get"]}
{"id": "C119", "title": "The dump of compiled code shows every byte at its place", "statement": "wr_asciiDump without a marked byte gives, for any data, one line of 79 characters for every 16 bytes and a shorter one for the rest; byte n stands in line n/16 with its two hexadecimal digits in column 12+3*(n mod 16) and, if it can be printed (otherwise a dot), as a character in column 62+(n mod 16); each line begins with the offset of its first byte in eight hexadecimal digits.", "quantifier": "for all data of any length an unsigned int holds", "why_tests_cant": "the loop changes its counter inside the lines and steps back at their end; data of every length and every byte value must come out right", "anchors": ["discrete_src/cc/cc.h wr_asciiDump"]}
{"id": "C12", "title": "Division and modulo are total on integers", "statement": "a/b and a%b on integers never invoke undefined behaviour: division by zero yields 0 and every other pair yields the truncated quotient / remainder.", "quantifier": "all pairs of 32-bit integers", "why_tests_cant": "2^64 pairs; the failing ones are isolated points.", "anchors": ["discrete_src/vm/operations_non_compact.cpp wr_DivideBinary", "discrete_src/vm/operations_non_compact.cpp X_INT_BINARY"]}
{"id": "C13", "title": "Comparing values does not change them", "statement": "Evaluating a<b, a>b, a<=b, a>=b, a==b, a!=b, a&&b, a||b yields the mathematically right answer for integers and leaves every variable involved unchanged, whatever the types of the operands.", "quantifier": "all operand values and operand forms (literal, variable, reference)", "why_tests_cant": "Depends on the combination of types and on whether the operand is a variable.", "anchors": ["discrete_src/vm/operations_non_compact.cpp X_COMPARE", "discrete_src/vm/operations_non_compact.cpp wr_CompareLT", "discrete_src/vm/operations_non_compact.cpp wr_CompareEQ"]}
{"id": "C14", "title": "Compound assignment is assignment of the binary operation", "statement": "a op= b stores in a exactly the value a op b would have had, and does not modify b.", "quantifier": "all operand values, operators and operand forms", "why_tests_cant": "as C13.", "anchors": ["discrete_src/vm/operations_non_compact.cpp X_LOGIC_ASSIGN", "discrete_src/vm/operations_non_compact.cpp wr_AddAssign", "discrete_src/vm/operations.cpp wr_assign"]}
{"id": "C15", "title": "Garbage collection never frees a reachable object", "statement": "After a collection, every object reachable from the stack, the globals or a permanent object is still allocated, with unchanged contents.", "quantifier": "every heap graph, root set and flag assignment", "why_tests_cant": "All heap shapes.", "anchors": ["discrete_src/vm/gc.cpp WRContext::gc", "discrete_src/vm/gc.cpp WRContext::mark", "discrete_src/vm/gc.cpp WRContext::markBase"]}
{"id": "C16", "title": "Garbage collection frees every unreachable object exactly once and leaves the heap ready for the next cycle", "statement": "After a collection exactly the unreachable objects have been freed, each once; survivors keep their order and none is left marked, so that collections can be repeated indefinitely.", "quantifier": "every heap graph and every number of repetitions", "why_tests_cant": "All heap shapes and histories.", "anchors": ["discrete_src/vm/gc.cpp WRContext::gc"]}
{"id": "C17", "title": "Garbage collection terminates on every heap, including cyclic ones", "statement": "The marking phase terminates with recursion depth bounded by the number of objects.", "quantifier": "every heap graph", "why_tests_cant": "Requires cyclic structures at a collection point.", "anchors": ["discrete_src/vm/gc.cpp WRContext::markBase"]}
{"id": "C18", "title": "for-each visits every element exactly once, in order", "statement": "for(v : a) over an array of n elements executes the body n times with the elements in index order, and over a hash table exactly once for every present key.", "quantifier": "arrays/tables of any size", "why_tests_cant": "The defect appears only beyond 65536 elements.", "anchors": ["discrete_src/vm/vm.cpp wr_getNextValue", "discrete_src/vm/operations.cpp wr_pushIterator"]}
{"id": "C19", "title": "Array library operations implement list insertion, removal and truncation", "statement": "array::insert(a,where,count), array::remove(a,where,count), array::truncate, push_back/pop etc. produce exactly the list obtained by inserting default values / deleting the given range, for every in-range argument, and leave the other elements in order.", "quantifier": "every array content and every argument", "why_tests_cant": "Unbounded arrays and arguments; wrong only at boundary values.", "anchors": ["discrete_src/lib/std_container.cpp arrayInsertEx", "discrete_src/lib/std_container.cpp arrayRemoveEx", "discrete_src/vm/operations.cpp wr_growValueArray"]}
{"id": "C20", "title": "stack:: is LIFO and queue:: is FIFO", "statement": "For every sequence of pushes and pops, stack::pop returns the most recently pushed unpopped value and queue::pop the least recently pushed one; popping an empty container is a no-op returning the default.", "quantifier": "every operation sequence", "why_tests_cant": "Unbounded histories.", "anchors": ["discrete_src/lib/std_container.cpp"]}
{"id": "C21", "title": "Integer to text conversion is exact", "statement": "wr_itoa writes the canonical decimal representation of every int for which the buffer suffices, and parsing it back gives the same integer.", "quantifier": "all 32-bit integers and buffer sizes", "why_tests_cant": "2^32 inputs.", "anchors": ["discrete_src/lib/std.cpp wr_itoa"]}
{"id": "C22", "title": "Formatted printing never overruns its buffer and always reports the full length", "statement": "The format routine never stores at or beyond the given limit, and returns the length the complete output would have, so that retrying with that size yields the whole text.", "quantifier": "all format strings, arguments and buffer sizes", "why_tests_cant": "Unbounded format strings.", "anchors": ["discrete_src/lib/std_string.cpp sprintfEx", "discrete_src/lib/std_string.cpp doSprintf"]}
{"id": "C23", "title": "String library functions agree with their list specifications", "statement": "str::left, right, mid, trim, trimleft, trimright, insert, concat, tolower, toupper, chr return exactly the corresponding slice/edit of the argument, for every string and every index including out-of-range ones.", "quantifier": "all strings and all integer arguments", "why_tests_cant": "Boundary arguments over unbounded strings.", "anchors": ["discrete_src/lib/std_string.cpp"]}
{"id": "C24", "title": "Every resolved jump lands on its target", "statement": "After jump resolution, executing any branch instruction moves the program counter to the target recorded for it when taken and just past the instruction when not, for the short and long forms; a displacement that does not fit is reported as an error instead of being truncated.", "quantifier": "every code layout, displacement and number of re-resolutions", "why_tests_cant": "Displacement boundaries and repeated short/long conversions.", "anchors": ["discrete_src/cc/cc.cpp resolveRelativeJumps", "discrete_src/cc/cc.cpp addRelativeJumpSource", "discrete_src/vm/vm.cpp RelativeJump"]}
{"id": "C25", "title": "The peephole optimizer preserves program behaviour", "statement": "Appending an instruction through the optimizing emitter yields code that, from every machine state, has the same effect on variables and stack as the unoptimized instruction sequence.", "quantifier": "every emitted instruction sequence, every operand byte and every machine state", "why_tests_cant": "Each fused instruction must agree with its expansion for all operand types.", "anchors": ["discrete_src/cc/optimizer.cpp pushOpcode", "discrete_src/cc/optimizer.cpp CheckSkipLoad", "discrete_src/cc/optimizer.cpp CheckCompareReplace", "discrete_src/vm/vm.cpp"]}
{"id": "C26", "title": "switch selects the matching case, otherwise default", "statement": "For every set of distinct case labels and every selector value, the generated dispatch jumps to the case whose label equals the selector, and to default (or past the switch) when there is none.", "quantifier": "every set of labels, every selector", "why_tests_cant": "The table construction depends on the label set; the failing label sets are rare.", "anchors": ["discrete_src/cc/cc.cpp parseSwitch", "discrete_src/vm/vm.cpp Switch", "discrete_src/vm/vm.cpp SwitchLinear"]}
{"id": "C27", "title": "Struct members resolve to their own slot", "statement": "For every struct declaration whose member names have distinct hashes, each member name resolves to its own slot and a name that is not a member resolves to nothing.", "quantifier": "every set of member names", "why_tests_cant": "Depends on hash residues of the names.", "anchors": ["discrete_src/cc/link.cpp createLocalHashMap", "discrete_src/vm/index.cpp valueFromConfirmedStruct", "discrete_src/vm/vm.cpp wr_newObjectTable"]}
{"id": "C28", "title": "Compiled expressions evaluate according to precedence and associativity", "statement": "For every infix expression over binary and unary operators, the emitted stack code leaves exactly one value on the stack, equal to evaluating the expression tree determined by the operator table's precedence levels and associativity.", "quantifier": "every expression of any length", "why_tests_cant": "Unbounded operator sequences with stack reordering.", "anchors": ["discrete_src/cc/cc.cpp resolveExpression", "discrete_src/cc/cc.cpp resolveExpressionEx", "discrete_src/cc/cc.cpp swapWithTop", "discrete_src/cc/cc.h c_operations", "discrete_src/vm/vm.cpp StackSwap", "discrete_src/vm/vm.cpp SwapTwoToTop"]}
{"id": "C29", "title": "Function table and globals written by the linker are read back unchanged by the loader", "statement": "For every list of functions (name hash, argument count, frame size, code offset) within the format limits, loading the linked image reconstructs the same list.", "quantifier": "every function table within the limits", "why_tests_cant": "Unbounded tables; truncation only at limits.", "anchors": ["discrete_src/cc/link.cpp link", "discrete_src/utils/utils.cpp wr_createContext"]}
{"id": "C30", "title": "The task scheduler runs every live task once per tick and never runs a removed one", "statement": "Thread ids handed out are unique among live threads; each tick resumes each live yielded task exactly once in order; finished and removed tasks are dropped and never resumed.", "quantifier": "every sequence of addThread / tick / removeTask", "why_tests_cant": "Unbounded histories.", "anchors": ["discrete_src/vm/scheduler.cpp"]}
{"id": "C31", "title": "Creating, importing and destroying contexts keeps the context lists consistent", "statement": "For every history of wr_newContext/wr_import/wr_destroyContext, the state's list holds exactly the live contexts, destroying removes the context and its imports and nothing else, and no context is visited or freed twice.", "quantifier": "every history of operations", "why_tests_cant": "Unbounded histories over linked structures.", "anchors": ["discrete_src/utils/utils.cpp wr_destroyContext", "discrete_src/utils/utils.cpp wr_import", "discrete_src/utils/utils.cpp wr_createContext"]}
{"id": "C32", "title": "A yielded context resumes where it stopped", "statement": "Continuing a yielded context resumes at the instruction after the yield with the same locals, globals and operand stack and with the supplied resume value as result of yield(), and continuing a context that has not yielded is refused.", "quantifier": "every machine state at every yield point", "why_tests_cant": "Any program point, any stack depth.", "anchors": ["discrete_src/vm/vm.cpp Yield", "discrete_src/vm/vm.cpp wr_callFunction", "discrete_src/utils/utils.cpp wr_getYieldInfo"]}
{"id": "C33", "title": "Calls and returns preserve the caller's frame", "statement": "Calling a function with any number of arguments (fewer or more than declared) and returning restores the caller's frame base, program counter and operand stack, leaving exactly the return value; missing arguments and locals start as 0.", "quantifier": "every caller state and argument count", "why_tests_cant": "Any stack contents and call depth.", "anchors": ["discrete_src/vm/vm.cpp CallFunctionByIndex", "discrete_src/vm/vm.cpp Return"]}
{"id": "C34", "title": "Random numbers stay in the requested range", "statement": "rand(to) and rand(from,to) always return a value in the inclusive range, the generator never overflows and its state never becomes stuck unless seeded with a multiple of the modulus.", "quantifier": "every seed and range", "why_tests_cant": "2^32 seeds x 2^64 ranges.", "anchors": ["discrete_src/lib/std.cpp wr_randEx"]}
{"id": "C35", "title": "WRstr operations behave like string operations", "statement": "Every sequence of set/append/insert/truncate/shave/trim on a WRstr yields the same text as the abstract string operation, with the length and terminator always consistent.", "quantifier": "every operation sequence and text", "why_tests_cant": "Unbounded histories, small-buffer/heap transitions.", "anchors": ["discrete_src/wrench.h WRstr"]}
{"id": "C36", "title": "WRarray operations behave like list operations", "statement": "append, remove, setCount, indexing and copy of WRarray behave as list operations with no access outside the allocation.", "quantifier": "every operation sequence", "why_tests_cant": "Reallocation boundaries.", "anchors": ["discrete_src/utils/utils.h WRarray"]}
{"id": "C37", "title": "The intrusive containers used by the VM and compiler are faithful lists, stacks and queues", "statement": "SimpleLL iteration, push, pop, popAll return elements in the documented order and forget nothing.", "quantifier": "every operation sequence", "why_tests_cant": "Unbounded histories.", "anchors": ["discrete_src/utils/simple_ll.h"]}
{"id": "C38", "title": "The message mailbox stores and removes messages by key without touching anything else", "statement": "msg::write then msg::peek/read under the same key returns the written value; read removes it; other keys are unaffected and library functions stay callable.", "quantifier": "every history of mailbox operations", "why_tests_cant": "Key collisions with other registrations.", "anchors": ["discrete_src/lib/std_msg.cpp"]}
{"id": "C39", "title": "Literals in source denote the value written", "statement": "Every integer literal (decimal, hex, octal, binary, character) is compiled to an instruction that pushes exactly that 32-bit value, in every size class, also under unary minus.", "quantifier": "every 32-bit integer and literal form", "why_tests_cant": "2^32 values with boundary classes.", "anchors": ["discrete_src/cc/token.cpp", "discrete_src/cc/cc.cpp pushLiteral", "discrete_src/cc/optimizer.cpp pushOpcode"]}
{"id": "C40", "title": "Loops and conditionals transfer control to the right block", "statement": "In the code emitted for if/else, while, do-while, for and for-each, the condition, body, break and continue transfer control exactly as the language defines.", "quantifier": "every body, nesting and trip count", "why_tests_cant": "Unbounded nesting and iterations.", "anchors": ["discrete_src/cc/cc.cpp parseWhile", "discrete_src/cc/cc.cpp parseDoWhile", "discrete_src/cc/cc.cpp parseForLoop", "discrete_src/cc/cc.cpp parseIf"]}
{"id": "C41", "title": "Comments and whitespace never change the token stream and scanning never leaves the source", "statement": "The scanner only reads characters inside the given source, always makes progress, and skips comments entirely.", "quantifier": "every source text", "why_tests_cant": "Infinite inputs.", "anchors": ["discrete_src/cc/token.cpp", "discrete_src/cc/cc.cpp checkAsComment"]}
{"id": "C42", "title": "Name tables find exactly what was stored", "statement": "The compiler/registry hash table (WRHashTable) returns for each key the last stored value and nothing for keys never stored or removed.", "quantifier": "every operation history", "why_tests_cant": "Collision patterns.", "anchors": ["discrete_src/utils/utils.h WRHashTable"]}
{"id": "C43", "title": "Wildcard matching accepts exactly the strings generated by the pattern", "statement": "WRstr::isWildMatch returns true exactly when the text is generated by the pattern with * standing for any text and every other character for itself; isWildMatchCase the same up to letter case.", "quantifier": "all patterns and texts", "why_tests_cant": "Infinitely many pattern/text pairs; failures need self-overlapping pieces.", "anchors": ["discrete_src/wrench.h WRstr::isWildMatch"]}
{"id": "C44", "title": "Array indexing reaches exactly the indexed element", "statement": "a[i] for an in-range integer index denotes element i and only element i, writing grows the array to i+1 filling with 0, and literal, variable and computed indices behave alike.", "quantifier": "every array size and every 32-bit index, all index forms", "why_tests_cant": "2^32 indices; encoding limits appear only past 2^21 elements or for negative literals.", "anchors": ["discrete_src/vm/index.cpp", "discrete_src/vm/operations.cpp wr_growValueArray", "discrete_src/vm/vm.cpp IndexLiteral8", "discrete_src/utils/utils.h ENCODE_ARRAY_ELEMENT_TO_P2"]}
{"id": "C45", "title": "Stack-shuffle instructions are the intended permutations", "statement": "StackSwap n exchanges the top with the n-th value and SwapTwoToTop brings the two given values to the top two positions, leaving all other positions unchanged.", "quantifier": "every stack and operand", "why_tests_cant": "Unbounded stacks and all position pairs.", "anchors": ["discrete_src/vm/vm.cpp StackSwap", "discrete_src/vm/vm.cpp SwapTwoToTop"]}
{"id": "C46", "title": "Element references survive hash growth", "statement": "A reference obtained to a hash-table element (for example by indexing on the left of an assignment) still designates that same element after any number of later insertions into the table, including ones that re-allocate its storage.", "quantifier": "every table state, every element reference taken in it, and every finite sequence of later insertions and look-ups", "why_tests_cant": "The failure needs a particular interleaving of reference taking and several growths; the number of growths and the displacement of keys are unbounded.", "anchors": ["vm/gc_object.cpp:growHash", "wrench.h:WRValue::deref"]}
{"id": "C47", "title": "Library registry: last registration wins", "statement": "After any sequence of host registrations of library functions, calling a name reaches the function most recently registered under that name, and an unregistered name is not found.", "quantifier": "every finite sequence of registrations and every name (by 32-bit hash)", "why_tests_cant": "Depends on the collision pattern of an unbounded set of registered names.", "anchors": ["utils/utils.cpp:wr_registerFunction", "wr_registerLibraryFunction", "vm/gc_object.cpp:getAsRawValueHashTable"]}
{"id": "C48", "title": "Plain assignment copies exactly the value", "statement": "After x = e, a[i] = e or h[k] = e the variable or element holds the value e designated, and no other variable, container element or string has changed.", "quantifier": "all values, all operand forms (literal, variable, reference, array/hash/raw element), all heap states", "why_tests_cant": "Depends on aliasing between static temporaries, references and container members, which grows with every combination of operand forms.", "anchors": ["discrete_src/vm/operations.cpp wr_assign", "discrete_src/vm/operations.cpp wr_valueToEx", "discrete_src/vm/operations.cpp WRValue::deref"]}
{"id": "C49", "title": "String equality", "statement": "s == t on two strings is true exactly when they have the same characters, and comparing does not modify them.", "quantifier": "all pairs of strings", "why_tests_cant": "Unbounded strings; the failing pairs are hash collisions.", "anchors": ["discrete_src/vm/operations_non_compact.cpp wr_CompareEQ", "discrete_src/vm/operations.cpp WRValue::getHashEx"]}
{"id": "C50", "title": "String concatenation", "statement": "s + t, s + n and n + s where s, t are strings and n a number yield a new string consisting of the text of the left operand followed by the text of the right operand; the operands and every other object are unchanged.", "quantifier": "all strings, numbers and operand forms", "why_tests_cant": "Unbounded strings times operand forms.", "anchors": ["discrete_src/vm/operations.cpp wr_concatStringCheck", "discrete_src/vm/operations_non_compact.cpp wr_AdditionBinary"]}
{"id": "C51", "title": "Unary operators", "statement": "-x wraps modulo 2^32, !x tests for zero without modifying anything, ++x/--x/x++/x-- change x by exactly one (wrapping) and yield the new/old value, leaving everything else alone.", "quantifier": "all integers and operand forms", "why_tests_cant": "2^32 values times operand forms; boundary values are isolated points.", "anchors": ["discrete_src/vm/operations.cpp wr_negate", "discrete_src/vm/operations.cpp wr_LogicalNot", "discrete_src/vm/operations_non_compact.cpp X_UNARY_PRE"]}
{"id": "C52", "title": "String literals denote the text written", "statement": "For every text, the string literal obtained by escaping backslash, double quote and newline compiles to an instruction that creates a string object with exactly that text, and execution continues after it.", "quantifier": "all byte strings", "why_tests_cant": "Strings of every length and content; the length field is 16 bits wide", "anchors": ["discrete_src/cc/token.cpp:270-378", "discrete_src/cc/cc.cpp:784-793", "discrete_src/vm/vm.cpp:771-794"]}
{"id": "C53", "title": "Calls are bound to the function of that name", "statement": "In a linked image every call in every unit runs the first function of the program with the called name, or is looked up by exactly that name at run time when the program has none; the argument count and what happens to the result are as compiled; and every new uses the member map of the struct it names.", "quantifier": "every program, every unit, every call and every new in it", "why_tests_cant": "Placement depends on the whole program; a wrong index or offset only shows for some combination of units.", "anchors": ["discrete_src/cc/link.cpp link", "discrete_src/vm/vm.cpp CallFunctionByIndex"]}
{"id": "C54", "title": "Cross-module calls pick the most recent import and always end", "statement": "A call of a function the script does not define is made to the most recently imported module that defines it; an imported module's own calls go through the other modules of the same importing context, oldest direction first and then the importing context and newer modules; the search visits each module at most once, never a destroyed one, and ends.", "quantifier": "every history of creating, importing and destroying contexts, every set of definitions", "why_tests_cant": "Unbounded rings of imports over every history.", "anchors": ["discrete_src/vm/vm.cpp CallFunctionByHash", "discrete_src/utils/utils.cpp wr_import"]}
{"id": "C55", "title": "Format conversions print the canonical text of their argument", "statement": "In str::format, sprintf and printf, %d and %i print the canonical signed decimal of the integer, %u the unsigned decimal, %x and %X the hexadecimal, %b the binary, %o the octal, %s the string, %c the character and %% a percent sign, wherever the conversion stands in the format.", "quantifier": "every 32-bit integer, every string, every surrounding text", "why_tests_cant": "2^32 integers per conversion and unbounded surrounding text.", "anchors": ["discrete_src/lib/std_string.cpp wr_sprintfEx"]}
{"id": "C56", "title": "Script hash tables are shared maps from keys to values", "statement": "Through any script of indexings t[k], names t.name, initializers { k : v }, _exists, _remove and assignments, a hash table behaves as a map from the 32-bit hash of a key to a value, shared by every variable and element that holds it: what was stored under a key is what is later found under it, by whatever expression designates the table, stores under other keys and growth of the table do not change it (also when the table grows while one of its elements is already on the evaluation stack), _exists is exact, _remove removes exactly that key, and no reference dangles or loops.", "quantifier": "every finite script over variables, integer, float and string literals, nested tables; every table size up to the largest prime", "why_tests_cant": "The element references, forwarded block by block through up to seventeen growths, and the operand order make the number of interleavings unbounded; tests see a few small tables.", "anchors": ["discrete_src/vm/index.cpp:59-275", "discrete_src/vm/operations.cpp:142-464", "discrete_src/vm/gc_object.cpp:100-330", "discrete_src/vm/vm.cpp:1199-1382"]}
{"id": "C57", "title": "Every name in a script denotes the variable its scope says", "statement": "In the byte code compiled from any source, every occurrence of a name loads the variable the name means: the local variable or argument of that name when the unit has declared one, otherwise the global variable of that name, otherwise a newly declared one (or, when var is required, the name of a function where one is allowed, and a compile error elsewhere). All occurrences of one variable use one slot, different variables of a unit use different slots, argument i of a function is slot i, all units share the global slots, and the tables written for the linker and the host list the variables in that order.", "quantifier": "all programs: any number of units, arguments, statements, for loops, nested sub-expressions (arguments, indices, parentheses, initializers, new) and any order in which operators load their operands, strict and non-strict", "why_tests_cant": "Slots are handed out while local spaces are copied into sub-expressions and merged back, so aliasing depends on which names were known where; the combinations of nesting, order of loading and declarations are unbounded and an aliased variable only shows in scripts that use both.", "anchors": ["cc/cc.cpp:834-1040", "cc/cc.cpp:1430-1600", "cc/cc.cpp:1836-1946", "cc/cc.cpp:2128-2405", "cc/expression.cpp:60-640", "cc/optimizer.cpp:1326-1365", "cc/cc.h:185-350"]}
{"id": "C58", "title": "Formatted printing stores nothing outside its buffer", "statement": "Whatever the format, the arguments and the output buffer (also when the buffer is itself the format or one of the arguments), formatted printing with limit max changes no byte of the buffer at or after max, does not change the length of the buffer, and changes no variable, no other object and no raw array.", "quantifier": "all formats, argument lists, buffers, limits and memory contents for which the routine returns", "why_tests_cant": "Formats, widths, precisions and aliasing of buffer and arguments combine without bound, and an overrun of a few bytes is invisible to tests that only compare the text.", "anchors": ["discrete_src/lib/std_string.cpp sprintfEx", "discrete_src/lib/std_string.cpp doSprintf"]}
{"id": "C59", "title": "A serialized value is read exactly, and a truncated one is never accepted", "statement": "When deserialization accepts a buffer, it has used exactly some prefix of it: the same value is read whatever follows that prefix, the rest is left unread, and every proper prefix of the used part is rejected. In particular no proper prefix of the output of serialize for a supported value is accepted.", "quantifier": "all byte buffers and all supported values (numbers, strings, arrays, hash tables, nested to any depth)", "why_tests_cant": "Truncation points and nested sizes are unbounded, and acceptance of a truncated message depends on the bytes that happen to lie behind it.", "anchors": ["discrete_src/utils/serializer.h WRValueSerializer::read", "discrete_src/utils/serializer.cpp wr_deserializeEx"]}
{"id": "C60", "title": "for-each over a hash table visits every present key exactly once", "statement": "After any history of insertions, lookups and removals on a hash table (on keys other than the reserved hash WRENCH_NULL_HASH, 0xABABABAB), a for-each whose body does not change the table visits every present key exactly once and no other key, and sees under each key the value last stored there.", "quantifier": "all histories of any length, all size hints, all values", "why_tests_cant": "Slots depend on every collision and growth in the history; the number of histories is unbounded.", "anchors": ["discrete_src/vm/vm.cpp wr_getNextValue", "discrete_src/vm/operations.cpp wr_pushIterator"]}
{"id": "C61", "title": "A container built by the host holds what was put in it, and iterating it shows every entry once", "statement": "After wr_makeContainer and any sequence of wr_addInt/Float/Value/ArrayToContainer, wr_getValueFromContainer, addHashTableValue and getHashTableValue calls, with writes through the pointers they return, every look-up sees the value last stored under its name (through the variable for entries added by reference), a missing name is reported missing, and a range-for over the value shows every entry exactly once with its name as the key; over arrays and strings it shows every index once in order; raw arrays keep their size.", "quantifier": "all sequences of calls of any length, all names, values, size hints and array sizes", "why_tests_cant": "Slots depend on all collisions and growths of the history, and stale or duplicated entries only show for particular sets of names.", "anchors": ["discrete_src/utils/utils.cpp wr_addToContainerEx", "discrete_src/utils/utils.cpp wr_getValueFromContainer", "discrete_src/utils/utils.cpp WrenchValue::addHashTableValue", "discrete_src/utils/utils.cpp WRValue::Iterator::operator++"]}
{"id": "C62", "title": "Destroying a container frees everything it allocated, exactly once", "statement": "After wr_makeContainer and any sequence of container calls (also repeated names, growths and look-ups that create), wr_destroyContainer frees only blocks that are live, frees each of them once, and leaves nothing allocated except key strings that belong to a context.", "quantifier": "all size hints and all sequences of calls of any length", "why_tests_cant": "Leaks and double frees depend on how often the table grew and which names were repeated; a test sees neither without instrumenting the allocator.", "anchors": ["discrete_src/utils/utils.cpp wr_destroyContainer", "discrete_src/utils/utils.cpp wr_freeGCChain", "discrete_src/vm/gc_object.cpp WRGCObject::growHash", "discrete_src/wrench.h WRGCBase::clear"]}
{"id": "C63", "title": "Text of values for the host stays in its buffer and says what the value is", "statement": "asString, asMallocString and technicalAsString store only inside the buffer the caller was told to supply (maxLen bytes), terminate the text and report its length; the text of an int is its canonical decimal form, of a float its sign, integer part and up to 5 fraction digits without trailing zeros, of a string its characters; the technical text of an array lists its elements in order and of a table its key:value pairs.", "quantifier": "all values (finite nesting), all limits and buffers", "why_tests_cant": "Overruns appear only when the text length and the limit meet in particular ways, at any nesting depth; the space of values, limits and buffers is unbounded.", "anchors": ["discrete_src/utils/utils.cpp wr_technicalAsStringEx", "discrete_src/utils/utils.cpp WRValue::technicalAsString", "discrete_src/utils/utils.cpp WRValue::asString", "discrete_src/utils/utils.cpp WRValue::asMallocString", "discrete_src/lib/std.cpp wr_ftoa"]}
{"id": "C64", "title": "The compact build computes what the normal build computes", "statement": "Defining WRENCH_COMPACT selects a different set of operator functions to save code space. A script must not notice: for any operands, every arithmetic, comparison, compound-assignment and increment operator leaves the same values in its target, in the variables and in the containers as it does in the normal build, and string concatenation builds the same strings.", "quantifier": "all operators, all operand values and all forms of operand (literal, variable, element of an array, string, raw array or hash), all memory states", "why_tests_cant": "The two builds are never linked into one program, the shipped tests run one configuration at a time on a few operand combinations, and the differences sit in type pairs of a 16-entry table (float with integer-only operators, strings with -, floats under &&) that scripts reach only with particular operand types.", "anchors": ["discrete_src/vm/operations_compact.cpp wr_funcBinary", "discrete_src/vm/operations_compact.cpp wr_FuncAssign", "discrete_src/vm/operations_compact.cpp wr_Compare", "discrete_src/vm/vm.cpp LogicalAnd"]}
{"id": "C65", "title": "A disassembly lists the program the interpreter runs", "statement": "For every compiled image, wr_disassemble lists every byte of every unit exactly once and in order; each line is an instruction the interpreter would execute at that offset, with the same operand bytes; the addresses printed for jumps and switch defaults are the ones the interpreter goes to, the variables printed are the ones it uses, and the text printed for a string literal identifies that literal. No byte outside the image is read, whatever the bytes are.", "quantifier": "for all byte sequences, all function tables, all instruction sequences and all string literals", "why_tests_cant": "A test disassembles a few scripts and compares with stored text; the claim is about agreement with the interpreter for all instructions and operand values, and about arbitrary damaged bytes.", "anchors": ["discrete_src/debug/disassemble.cpp wr_disassembleRange", "discrete_src/debug/disassemble.cpp wr_operandSizeForOpcode", "discrete_src/debug/disassemble.cpp wr_decodeOperands", "discrete_src/debug/disassemble.cpp wr_disassemble", "discrete_src/vm/vm.cpp wr_callFunction"]}
{"id": "C66", "title": "A function returns to its caller, whichever way its body ends", "statement": "For every function body made of statements, calling the function ends by returning to the caller: with the value of the return statement executed, and with 0 if the end of the body is reached without one. Control never runs on into the code that follows the function.", "quantifier": "for all function bodies (any nesting of conditionals, loops and switches), all states at the call", "why_tests_cant": "A test calls functions whose every path ends in an explicit return, or in none; the failing shape is a body whose last statement is a return under a condition, with the condition false.", "anchors": ["discrete_src/cc/cc.cpp WRCompilationContext::parseUnit", "discrete_src/cc/cc.cpp WRCompilationContext::parseIf", "discrete_src/cc/cc.cpp WRCompilationContext::parseStatement"]}
{"id": "C67", "title": "A host call of a function runs that function and nothing else", "statement": "After a script has been run by wr_run, however its top-level code ended, wr_callFunction runs the body of the function named, changes the state as that body does, delivers its return value, and leaves the context ready for further calls; before the script has run, and for a second run, it is refused.", "quantifier": "for all top-level code, all functions, all sequences of host calls", "why_tests_cant": "Tests run scripts whose top level ends normally; an early return at top level followed by a host call is one of unboundedly many combinations of script and call sequence.", "anchors": ["discrete_src/vm/vm.cpp wr_callFunction", "discrete_src/utils/utils.cpp wr_executeContext", "discrete_src/utils/utils.cpp wr_callFunction", "discrete_src/cc/cc.cpp WRCompilationContext::compile"]}
{"id": "C68", "title": "Statements are read with the nesting their text shows", "statement": "A function body or program made of blocks, conditionals, loops, switches, jumps and expression statements is accepted, the body of a function extends exactly to its closing brace, each else belongs to the nearest open if, and running what was read has the outcome and effect the text denotes.", "quantifier": "every nesting of statements, every expression and program state", "why_tests_cant": "The nesting of statements is unbounded, and which tokens one statement leaves for the next depends on all statements around it.", "anchors": ["discrete_src/cc/cc.cpp parseStatement", "discrete_src/cc/cc.cpp parseIf", "discrete_src/cc/cc.cpp parseForLoop", "discrete_src/cc/cc.cpp parseSwitch", "discrete_src/cc/expression.cpp parseExpression"]}
{"id": "C69", "title": "A statement leaves the stack where it found it", "statement": "However a function body or the top level of a program runs (to the end, to a return, any number of rounds of its loops) the evaluation stack is afterwards at the level it had before, so that no statement pops values that belong to local variables or to the caller.", "quantifier": "every nesting of statements, every number of iterations, every expression and state", "why_tests_cant": "The level depends on the path taken and may sink by one per iteration, so no finite set of runs bounds it.", "anchors": ["discrete_src/cc/cc.cpp parseStatement", "discrete_src/cc/cc.cpp parseIf", "discrete_src/vm/vm.cpp PopOne"]}
{"id": "C70", "title": "A compile error names and shows the line at which the compiler stopped", "statement": "When compilation fails, the message returned to the host consists of the number of the line at which the compiler stopped, the name and number of the error, the text of that line, and a caret below the last character read, for every source text and every position in it; likewise the qualified name of a global is its name with :: in front. Neither depends on how long the line or the name is.", "quantifier": "every source text, every position in it, every error of the table, every name", "why_tests_cant": "Tests check a handful of short erroneous scripts; the trouble begins with the length of the line, which no sample bounds.", "anchors": ["discrete_src/cc/cc.cpp getSourcePosition", "discrete_src/cc/cc.cpp compile", "discrete_src/wrench.h appendFormatVA", "discrete_src/cc/cc.cpp addGlobalSpaceLoad"]}
{"id": "C71", "title": "Enumeration members stand for their values", "statement": "Compiling an enum declaration whose member names are new adds exactly one named constant per member (member, or Name::member for a named enumeration) holding the value written for it, or else one more than the value of the previous member, the first one 0. From then on the name stands for that integer wherever a token starts, unless it is followed by a character that continues a name (or by ::). Declaring a member that is already a constant is a compile error. Values must stay below INT_MAX-1, and no constant may have the name of the enumeration itself.", "quantifier": "all member lists, all values and ways of writing them, all previously declared constants, all texts following", "why_tests_cant": "The substitution is made by the tokenizer by prefix comparison with every constant, in declaration order, so whether a name is read right depends on all other constants; tests have a handful of enumerations.", "anchors": ["discrete_src/cc/cc.cpp parseEnum", "discrete_src/cc/token.cpp getToken"]}
{"id": "C72", "title": "A registered name does what it was last registered for", "statement": "Whatever sequence of registrations, script calls, host calls, constant loads and questions is made of a state and its contexts, a call of a name runs the function it was last registered with (with its user pointer), a library call the library function, a constant load yields the constant with its type, a name not registered falls through to the first import that defines it, and a host call reaches the function of the context; merely asking for or failing to find a name changes nothing.", "quantifier": "all histories of registrations, calls, loads and queries; all function tables and import orders; all names", "why_tests_cant": "The registry is one untyped hash table shared by C functions, library functions and constants, and every look-up may insert an entry and regrow the table; whether an entry survives and keeps its meaning depends on the whole history of names, of which tests try a few.", "anchors": ["discrete_src/utils/utils.cpp wr_registerFunction", "discrete_src/utils/utils.cpp wr_registerLibraryFunction", "discrete_src/utils/utils.cpp wr_registerLibraryConstant", "discrete_src/utils/utils.cpp wr_callFunction", "discrete_src/utils/utils.cpp wr_getFunction", "discrete_src/vm/vm.cpp wr_callFunction", "discrete_src/lib/std_sys.cpp wr_isFunction"]}
{"id": "C73", "title": "Every expression leaves exactly one value, does everything in it exactly once, and malformed expressions are refused", "statement": "For every expression, whatever its operators, nesting, indexing, member accesses and calls: if it is well formed the compiler accepts it, and the code it produces never takes a value from the stack that is not there, leaves exactly one value on top of whatever was on the stack, evaluates every operand and makes every call exactly once and applies every operator exactly once. If it is malformed (an operator without its operands, an argument missing between commas, a key missing) the compiler reports an error.", "quantifier": "for all expressions (all operators of the table, any nesting of parentheses, calls and indexes) and all stack heights", "why_tests_cant": "The number of expressions is unbounded and the code depends on the interplay of precedence levels, of which operands are already on the stack and of how positions are renumbered after each step; a wrong position or a missing load shows up as a corrupted caller value far away from the expression.", "anchors": ["discrete_src/cc/expression.cpp parseExpression", "discrete_src/cc/cc.cpp resolveExpression", "discrete_src/cc/cc.cpp resolveExpressionEx", "discrete_src/cc/cc.cpp loadExpressionContext", "discrete_src/cc/cc.cpp parseCallFunction", "discrete_src/cc/cc.cpp operatorFound", "discrete_src/cc/cc.h pushToStack"]}
{"id": "C74", "title": "The host is told what a value is, and asking does not change it", "statement": "Take any value a host function receives, whether directly, through references, or as an element of an array, string, raw array or hash table. isString, isWrenchArray, isRawArray, isHashTable and isStruct answer for the value designated, with its length; at most one of them says yes, and none for a number. asInt and asFloat give the number itself, converted if it is of the other kind (and fits), and the hash of an object. array, arraySize and _count hand out exactly the characters or elements and their number. asString shows the number or string itself. indexArray without create gives the place of the element if there is one and null otherwise. None of these changes any variable, element or object. setInt and setFloat store exactly the number; WrenchValue::Int and Float turn exactly the value named into that number.", "quantifier": "for every memory state, every value, every chain of references and container members, every index", "why_tests_cant": "The value can be reached in unboundedly many ways (chains of references, elements of any container), and that nothing else changes is a statement about the whole memory", "anchors": ["discrete_src/utils/utils.cpp WRValue::isString", "discrete_src/utils/utils.cpp WRValue::asInt", "discrete_src/utils/utils.cpp WRValue::asFloat", "discrete_src/utils/utils.cpp WRValue::array", "discrete_src/utils/utils.cpp WRValue::indexArray", "discrete_src/vm/operations.cpp WRValue::deref"]}
{"id": "C75", "title": "What the host makes of a value is what it asked for", "statement": "isInt and isFloat recognise every int and float a host function is given, however it is reached; asMallocString shows the same text as asString; indexArray with create and WrenchValue indexing make the value an array that has the element, keep its other elements, fill up with 0, change nothing else, and return the place of that element, for every index; setString makes the value a string of exactly the bytes given.", "quantifier": "for every memory state, value, chain of references, index, text and length", "why_tests_cant": "The index ranges over 32 bits and the memory is arbitrary; the failures are at the extremes (index 0xFFFFFFFF, empty texts, elements of containers)", "anchors": ["discrete_src/wrench.h WRValue::isInt", "discrete_src/utils/utils.cpp WRValue::indexArray", "discrete_src/utils/utils.cpp WrenchValue::asArrayMember", "discrete_src/utils/utils.cpp wr_makeString", "discrete_src/utils/utils.cpp WRValue::asMallocString"]}
{"id": "C76", "title": "A wildcard match is never a false one", "statement": "Whenever WRstr::isWildMatch answers yes, the text is generated by the pattern, with * standing for any text and every other character for itself; whenever isWildMatchCase answers yes, the same holds up to letter case.", "quantifier": "for every pattern and every text", "why_tests_cant": "Patterns and texts are unbounded and the loop backtracks; a false match needs a particular interplay of both", "anchors": ["discrete_src/wrench.h WRstr::isWildMatch"]}
{"id": "C77", "title": "Assigning to a variable or to an element of an array or hash table stores that value there and nowhere else", "statement": "After x = e, a[i] = e or h[k] = e, where the left side is a variable or an element of an array or hash table, that variable or element holds the value e designated, whatever it held before and however e is reached, and no other variable, element, string or host array has changed.", "quantifier": "for every memory state, every kind of value, every chain of references on both sides", "why_tests_cant": "The assignment goes through a table of sixteen routines over operand types and through static temporaries; that nothing else changes is a statement about all of memory", "anchors": ["discrete_src/vm/operations.cpp wr_assign", "discrete_src/vm/operations.cpp wr_valueToEx", "discrete_src/vm/operations.cpp WRValue::deref"]}
{"id": "C78", "title": "White space and comments do not change the tokens", "statement": "White space before a token is skipped; a // comment is skipped to the end of its line and a /* */ comment (whose text does not begin with a slash) to its end; replacing a blank between two tokens by any comment leaves the whole sequence of tokens as it is, unless the token before is a slash. Every successful scan consumes at least one character. Every operator is scanned whole when what follows cannot extend it, and every name up to the first character that cannot be part of a name.", "quantifier": "for every source text, every comment and every place between two tokens", "why_tests_cant": "The number of places, comments and surrounding tokens is unbounded, and operators are recognised by look-ahead that could run into the comment", "anchors": ["discrete_src/cc/token.cpp getToken"]}
{"id": "C79", "title": "Serializing a value without hash tables loses nothing", "statement": "For every value built from ints, floats, strings and arrays (strings and arrays of at most 65535 elements), wr_serialize succeeds, and wr_deserialize of its bytes, followed by anything, gives back that value and consumes exactly those bytes. The bytes of one such value are never the beginning of the bytes of another.", "quantifier": "for every nesting of arrays, strings and numbers, and any bytes following", "why_tests_cant": "Values nest to any depth; the reader has to find the end of each part from the bytes alone", "anchors": ["discrete_src/utils/serializer.cpp wr_serializeEx", "discrete_src/utils/serializer.cpp wr_deserializeEx"]}
{"id": "C80", "title": "Cutting, joining and searching strings", "statement": "str::left and str::right return the first and last n bytes (all of them when n is larger or negative), str::concat the two strings one after the other, str::insert the second string placed before the given position of the first (at its end when the position is larger or negative), str::chr the position of the first occurrence of the character or -1; each in a new string object, leaving the arguments and everything else as they were.", "quantifier": "for every string (results below 4 GiB), every index, every way an argument is passed", "why_tests_cant": "Out-of-range and negative indexes, empty strings and arguments that are references or elements combine; that the arguments stay as they are is a statement about memory", "anchors": ["discrete_src/lib/std_string.cpp wr_left", "discrete_src/lib/std_string.cpp wr_right", "discrete_src/lib/std_string.cpp wr_concat", "discrete_src/lib/std_string.cpp wr_insert", "discrete_src/lib/std_string.cpp wr_strchr"]}
{"id": "C81", "title": "A listing accounts for every byte, and prints the addresses jumps go to", "statement": "wr_disassemble never reads outside the unit it lists, whatever the bytes are; every line starts where the previous one ends, and the bytes shown are those of the unit in order, left out only after a line that says so; every byte of the code is in exactly one unit; the address printed for a branch is the one the interpreter goes to.", "quantifier": "for every sequence of bytes, every table of function offsets, every branch instruction", "why_tests_cant": "The bytes are arbitrary, so instructions can be cut off or operands misread at any position", "anchors": ["discrete_src/debug/disassemble.cpp wr_disassembleRange", "discrete_src/debug/disassemble.cpp wr_disassemble"]}
{"id": "C82", "title": "The position of a compile error is right", "statement": "Wherever the compiler stops in the source, the line number it works out is one more than the number of line feeds before that place, the line is the whole text between the line feeds around it, and the column is the distance from the beginning of that line.", "quantifier": "for every source text and every position in it", "why_tests_cant": "Positions at line feeds, at the end of the text and in empty lines behave differently, and texts are unbounded", "anchors": ["discrete_src/cc/cc.cpp getSourcePosition"]}
{"id": "C83", "title": "Unsigned, hexadecimal, text and character conversions print exactly their argument", "statement": "A format with one conversion yields the text around it unchanged, and in its place: for %u the decimal of the unsigned value, for %x and %X its hexadecimal in lower or upper case, without leading zeros, for %s the string, for %c the character, for %% a percent sign.", "quantifier": "for every text around the conversion, every 32-bit value, every string", "why_tests_cant": "All 2^32 values and all surrounding texts", "anchors": ["discrete_src/lib/std_string.cpp wr_sprintfEx"]}
{"id": "C84", "title": "Negation wraps and logical not only looks", "statement": "-x of any operand that designates an integer is its negation modulo 2^32, stored in the target and nowhere else; !x of any operand tells whether the 32 bits of its number (of its hash for an object) are all zero and changes nothing.", "quantifier": "for every integer, every chain of references and elements, every memory state", "why_tests_cant": "All integers including the most negative one, all ways to reach the operand, and the rest of memory", "anchors": ["discrete_src/vm/operations.cpp wr_negate", "discrete_src/vm/operations.cpp wr_LogicalNot"]}
{"id": "C85", "title": "A debug packet that is sent is the packet that is received", "statement": "A packet sent over a byte stream arrives as it was - type, parameters and payload - and leaves the sender's packet unchanged; packets sent one after the other arrive one after the other and stay in step; a call stack in a packet is read back entry for entry. All this whatever the byte orders of the two machines and however the transport cuts up the bytes; over the loopback packets come out in the order they went in.", "quantifier": "for every packet, every sequence of packets, both byte orders at either end, every way the transport answers", "why_tests_cant": "All payloads, all fragmentations of the stream and pairs of machines", "anchors": ["discrete_src/debug/debug.cpp send", "discrete_src/debug/debug.cpp receive", "discrete_src/debug/packet.cpp xlate", "discrete_src/debug/tcp_debug_comm.cpp recvEx"]}
{"id": "C86", "title": "The debugger's linked list behaves as a sequence", "statement": "Whatever is done with a SimpleLL - adding at either end, taking out at either end, by index or by pointer, counting, indexing, looking at the last item, walking through it, clearing - every answer is the one a plain sequence gives (a negative index of operator[] stands for 0), no node is used after it was freed, none is freed twice and none is lost.", "quantifier": "for every sequence of operations of any length on lists of any length", "why_tests_cant": "All interleavings of the operations", "anchors": ["discrete_src/utils/simple_ll.h popItem", "discrete_src/utils/simple_ll.h popAt", "discrete_src/utils/simple_ll.h popTail"]}
{"id": "C87", "title": "The debugger stops where it was asked to", "statement": "In a debugging session, run stops at the first line the program comes to that has a breakpoint or is the line given, and nowhere else; step-into stops on the very next line in whatever function; step-over stops on the next line of the same function, however deeply the functions called in between call on, or on a breakpoint among them; a line has a breakpoint exactly if the last request about it set one; and the call stack shown has one entry for each function being executed, with the line stopped on for the innermost.", "quantifier": "for all programs (sequences of lines, calls and returns, recursive to any depth), all sets of breakpoints and all sequences of requests", "why_tests_cant": "sessions interleave requests, calls, returns and lines without bound; a test follows one script through one program", "anchors": ["discrete_src/debug/server_interface_private.cpp codewordEncountered", "discrete_src/debug/server_interface_private.cpp processPacket", "discrete_src/debug/server_interface_private.cpp clearBreakpoint", "discrete_src/cc/cc.cpp pushDebug"]}
{"id": "C88", "title": "The debugger shows the names and the source of the program it runs", "statement": "For a program compiled with its source, the debugger lists exactly the functions of the program, in order, each with its number of arguments and its variables in the order of their places in the frame (names of more than 63 characters cut there), and hands out the source text and its hash unchanged.", "quantifier": "for all programs with any number of functions and variables that fit the format, all names, all source texts and all states of the server before", "why_tests_cant": "the block is a packed sequence of variable-length names whose reader must stay in step with its writer for every combination of lengths and counts", "anchors": ["discrete_src/cc/link.cpp link", "discrete_src/debug/server_interface_private.cpp loadBytes", "discrete_src/debug/client_interface_private.cpp populateSymbols", "discrete_src/debug/client_debug.cpp getSourceCode", "discrete_src/debug/client_debug.cpp getValueLabel"]}
{"id": "C89", "title": "Every call of the debugger gets its own answer", "statement": "In a debugging session each call of the debugger interface (value, call stack, source, hash, functions, stack dump) returns what the program being debugged answers to that very request, not to another one; and all text the program prints is handed to the callback, complete, in order and as a proper string.", "quantifier": "for all sessions, of any length and in any order of calls, all programs being debugged", "why_tests_cant": "requests and replies are matched only by their order; whether they stay matched depends on every call made before", "anchors": ["discrete_src/debug/client_debug.cpp load", "discrete_src/debug/client_debug.cpp getValue", "discrete_src/debug/client_interface_private.cpp getPacket", "discrete_src/debug/client_interface_private.cpp populateSymbols", "discrete_src/debug/server_interface_private.cpp tick", "discrete_src/lib/debug_lib.cpp wr_debugPrintEx"]}
{"id": "C90", "title": "TCP calls reach the machine, and carry the data, the script named", "statement": "tcp::connect goes to the address written as four numbers, or to the one the name stands for, at the port given, and to no other machine; tcp::send sends the data given; tcp::recv returns exactly the bytes that were read.", "quantifier": "for all texts given as an address, all results of the name lookup, all data and all results of the system calls", "why_tests_cant": "the parser of addresses must accept exactly the dotted addresses among all texts, and the failure branches depend on answers of the network no test controls", "anchors": ["discrete_src/lib/std_tcp.cpp isIp", "discrete_src/lib/std_tcp.cpp ipFromAddress", "discrete_src/lib/std_tcp.cpp wr_connectTCP", "discrete_src/lib/std_tcp.cpp wr_sendTCP", "discrete_src/lib/std_tcp.cpp wr_receiveTCP"]}
{"id": "C91", "title": "Files hold what a script wrote and scripts read what files hold", "statement": "What a script writes into a file, at once, piece by piece, appended or at a place sought, is what it reads back, at once or in pieces of any size; counts and positions are right; no other file or descriptor changes; lines of the input are returned one by one and complete.", "quantifier": "for all contents, all ways of cutting them into pieces, all positions, all states of the file system modelled and all numbers of calls", "why_tests_cant": "the positions and contents depend on the whole history of calls, and empty files, unreadable files, gaps and long lines are cases of their own", "anchors": ["discrete_src/lib/std_io.cpp wr_read_file", "discrete_src/lib/std_io.cpp wr_write_file", "discrete_src/lib/std_io.cpp wr_ioOpen", "discrete_src/lib/std_io.cpp wr_ioRead", "discrete_src/lib/std_io.cpp wr_ioWrite", "discrete_src/lib/std_io.cpp wr_ioSeek", "discrete_src/lib/std_io.cpp wr_getline"]}
{"id": "C92", "title": "Every library is cleaned up once when the state is destroyed", "statement": "wr_destroyState calls every function registered with wr_addLibraryCleanupFunction, with its parameter, exactly once per registration, the last registered first, and comes to an end.", "quantifier": "for all sequences of registrations, of any length, and all behaviours of the functions", "why_tests_cant": "the number and order of registrations is open, and what happens when a cleanup function registers another depends on the list changing under the loop", "anchors": ["discrete_src/vm/operations.cpp wr_addLibraryCleanupFunction", "discrete_src/utils/utils.cpp wr_destroyState"]}
{"id": "C93", "title": "The debugger lists lines under the numbers the compiler gives them and understands commands as typed", "statement": "The line the debugger lists under the number the compiler puts into the program is the line of the source that number was made for; the listing has all lines of the source, in order; a command typed is taken apart into its words.", "quantifier": "for all sources, all positions in them, and all commands", "why_tests_cant": "compiler and debugger split the same text with different code, and agree only if they do so for every mixture of line ends", "anchors": ["discrete_src/debug/debugger.cpp splitNL", "discrete_src/debug/debugger.cpp splitArgs", "discrete_src/cc/cc.cpp getSourcePosition"]}
{"id": "C94", "title": "Math library functions get their arguments as written", "statement": "math::f( a ) is the C function f of the argument as a float; math::f( a, b ) is the C function f with a as its first and b as its second argument (pow, fmod, ldexp; for atan2( x, y ) the documentation names the arguments the other way round); with another number of arguments the result is zero.", "quantifier": "for all argument values, stacks, C math libraries, both builds", "why_tests_cant": "tests check that a result looks right for a few calls; which argument goes where shows only if the function is not symmetric in the tested values", "anchors": ["discrete_src/lib/std_math.cpp wr_math_pow", "discrete_src/lib/std_math.cpp wr_math_fmod", "discrete_src/lib/std_math.cpp wr_math_ldexp", "discrete_src/lib/std_math.cpp wr_math_sin"]}
{"id": "C95", "title": "The hash library treats a table as indexing does", "statement": "hash::add puts a value under a key of the table the variable holds and gives that value; hash::exists and hash::remove answer 1 if the key is there and 0 otherwise; hash::remove removes it; hash::count is the number of keys; hash::clear leaves an empty table; all of this consistently with assignment and indexing, through every variable that holds the table.", "quantifier": "for all scripts of such calls over any number of variables and tables", "why_tests_cant": "the answer depends on everything that happened to the table, through whichever variable, and on where the allocator put it", "anchors": ["discrete_src/lib/std_container.cpp wr_hashAdd", "discrete_src/lib/std_container.cpp wr_hashExistEx", "discrete_src/lib/std_container.cpp wr_hashClear", "discrete_src/lib/std_container.cpp wr_hashCount", "discrete_src/vm/gc_object.cpp exists"]}
{"id": "C96", "title": "A library call takes its arguments and gives one result; sys::halt stops the script", "statement": "A call of a library function, with any number of arguments and in both builds, replaces its arguments by one result and leaves everything below alone (or leaves nothing if the result is not used); an error set by the function stops the script at that call; sys::halt( e ) stops it with the error e if WR_USER < e <= WR_ERR_LAST and with WR_ERR_USER_err_out_of_range otherwise.", "quantifier": "for all library functions that write only their result, stacks, argument counts, values of e and continuations", "why_tests_cant": "the compact and the ordinary build take different paths through pointer arithmetic for every number of arguments; halt has 2^32 arguments", "anchors": ["discrete_src/vm/vm.cpp CallLibFunction", "discrete_src/vm/vm.cpp CallLibFunctionAndPop", "discrete_src/lib/std_sys.cpp wr_halt"]}
{"id": "C97", "title": "math::iscale computes a*b/divisor without overflow", "statement": "math::iscale( a, b, d ) is the whole part of a * b / d computed as if numbers had no bounds, whenever that is an int, and its low 32 bits otherwise; for d = 0 it is 0; no step of the computation overflows.", "quantifier": "for all 2^96 arguments", "why_tests_cant": "the interesting products lie at the edge of 64 bits; a test touches a handful of 2^96 cases", "anchors": ["discrete_src/lib/std_math.cpp wr_intScale"]}
{"id": "C98", "title": "goto continues behind the first label of that name in the same function, from and to any depth of if and loops", "statement": "A function built from expression statements, if/else, while, do, for, break, continue, return, labels and goto is accepted exactly when every goto has a label of that name (of that name hash) somewhere in the same function and break/continue are inside loops. If it is accepted, its code behaves as the source says, where goto continues with the statement behind the first label of that name in source order, with the loops enclosing that label in force: it ends in the same state with the same return value, or runs forever, exactly if the source does, and never reaches anything else. A label adds no code and keeps the optimizer from merging instructions across it, and the linked jump lands on the first byte behind it. A label given twice is accepted silently.", "quantifier": "for all functions of any size and nesting, all placements of labels and gotos (forward, backward, into and out of loops), all states, all runs; for all byte streams before the label", "why_tests_cant": "tests jump between a few places; the interplay of labels, loop targets and merged instructions at every position is unbounded", "anchors": ["discrete_src/cc/cc.cpp WRCompilationContext::parseStatement", "discrete_src/cc/expression.cpp WRCompilationContext::parseExpression", "discrete_src/cc/link.cpp WRCompilationContext::link", "discrete_src/cc/optimizer.cpp WRCompilationContext::appendBytecode"]}
{"id": "C99", "title": "Running a script in time slices does not change what it does, and a slice is exactly as long as set", "statement": "A function called by the host runs through the same instructions with the same frames, stack and global cells, and ends with the same result or error, whether it is run in one go or in time slices of any sizes (changed at any yield), with wr_forceYield called at any moment and wr_continue after every forced yield; yields of the script itself are answered with the same values in both runs. With a slice size of n > 0 the forced yield comes at the n-th jump executed in the slice, not earlier or later, and wr_slicesUsedLastCall then gives n; with size 0 it never comes; after wr_forceYield it comes at the next jump. The count never overflows while the sizes are positive. Excepted: functions called while something is left in the slot of their first, uninitialised local.", "quantifier": "for all programs meeting the depth discipline, all functions and arguments, all lengths of run, all sequences of slice sizes, answers and wr_forceYield calls", "why_tests_cant": "where a slice ends depends on the size and the history; the positions of interruptions cannot be enumerated", "anchors": ["discrete_src/vm/vm.cpp wr_callFunction", "discrete_src/vm/vm.cpp wr_setInstructionsPerSlice", "discrete_src/vm/vm.cpp wr_forceYield", "discrete_src/vm/vm.cpp wr_slicesUsedLastCall", "discrete_src/utils/utils.cpp wr_getYieldInfo"]}
