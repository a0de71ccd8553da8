{"id": "C01", "title": "Allocated objects never overlap", "statement": "When a map is saved, every dword that some object really occupies in the payload belongs to exactly one object: the placements chosen for the collected objects never put two occupied dwords at the same payload address.", "quantifier": "every finite list of objects with every occupancy pattern (any number, size and interleaving of used and free dwords)", "why_tests_cant": "The placement is a greedy search that skips using a running conflict table; a wrong skip only shows for particular interleavings of holes. The set of occupancy lists is infinite.", "anchors": ["src/rust/src/allocator/payload.rs: stack_objects, PayloadBuilder.alloc_objects"]}
{"id": "C02", "title": "The placement search finishes, stays in bounds and reserves enough room", "statement": "Placing objects always finishes without an internal failure, gives every object a 4-aligned offset and reserves a payload at least as long as the end of every object.", "quantifier": "every finite list of occupancy maps", "why_tests_cant": "Termination and freedom from out-of-range indexing are statements about all runs of an unbounded search.", "anchors": ["src/rust/src/allocator/payload.rs: stack_objects"]}
{"id": "C03", "title": "The dry run of an object marks every dword the real write touches", "statement": "The occupancy computed in the dry run of an object's write sequence has the same number of dwords as the real write, and each byte actually stored by the real write lies in a dword marked occupied. Hence the final payload contains, at the address of each object, exactly the bytes the object wrote.", "quantifier": "every sequence of byte/word/dword/pack/bytes/space/trigger writes an object may issue", "why_tests_cant": "Sequences are unbounded and the sub-dword bookkeeping depends on the whole prefix.", "anchors": ["src/rust/src/allocator/payload.rs: ObjAllocator", "src/rust/src/allocator/pbuffer.rs: PayloadBuffer"]}
{"id": "C04", "title": "Relocated payload words equal the absolute value of the expression written", "statement": "After the payload is loaded at any 4-aligned base address B, adding B to every dword in the pointer relocation table and B/4 to every dword in the EPD relocation table makes each dword equal to the value of the address expression that was written there, computed with the real load address; dwords outside both tables are unchanged.", "quantifier": "every write history, every load address", "why_tests_cant": "The load address is only known at game start and every address must be right at once.", "anchors": ["src/rust/src/allocator/pbuffer.rs: WriteDword, WritePack", "src/eudplib/maprw/injector/payload_init.py", "src/eudplib/maprw/injector/vector_reloc.py"]}
{"id": "C05", "title": "Address arithmetic is exact or refused", "statement": "For an address expression e and integers k, the value of e+k, k+e, e-k, k-e, e*k, e//k and -e is the corresponding arithmetic on the value of e; when the result would not be representable (address not divisible) an error is raised rather than a wrong constant being produced.", "quantifier": "all expressions built by any finite combination of the operators, all integers, all placements", "why_tests_cant": "Expressions are arbitrary trees; each must agree for every later placement of the base object.", "anchors": ["src/rust/src/allocator/constexpr.rs: PyConstExpr", "src/rust/src/allocator/rlocint.rs: RlocInt"]}
{"id": "C06", "title": "Relocatable integers obey integer arithmetic modulo 2^32", "statement": "Each operator on evaluated address values (add, subtract, multiply, divide, modulo, and, or, xor, shifts, negate, invert, and their reflected forms) returns the value of that operator on the represented number.", "quantifier": "all pairs of 32-bit offsets and relocation factors accepted by the operator", "why_tests_cant": "2^64 pairs per operator.", "anchors": ["src/rust/src/allocator/rlocint.rs: PyRlocInt"]}
{"id": "C07", "title": "Forward labels resolve to exactly what they were set to, once", "statement": "A Forward evaluates to the value of the expression it was last set to, refuses to be set twice without Reset, refuses None, and raises when evaluated unset.", "quantifier": "every history of set / reset / evaluate calls on any number of labels", "why_tests_cant": "Histories are unbounded.", "anchors": ["src/rust/src/allocator/constexpr.rs: Forward"]}
{"id": "C08", "title": "Triggers run in the order they are created inside their scope", "statement": "A trigger created without an explicit successor continues at the next trigger created in the same scope, whatever nested scopes were opened and closed in between; pending NextTrigger() labels resolve to that same trigger; SetNextTrigger overrides it once.", "quantifier": "every well-nested history of scope pushes/pops, trigger creations, NextTrigger and SetNextTrigger calls", "why_tests_cant": "The histories are unbounded trees.", "anchors": ["src/eudplib/core/rawtrigger/triggerscope.py", "src/eudplib/core/rawtrigger/rawtriggerdef.py"]}
{"id": "C09", "title": "Block structures are strictly nested", "statement": "Closing a control block succeeds only when the innermost open block has that name, and returns exactly the data stored when that block was opened; looking up a block returns the innermost one with the name; opening and closing a balanced sequence restores the previous nesting.", "quantifier": "every history of block operations", "why_tests_cant": "Histories are unbounded.", "anchors": ["src/eudplib/utils/blockstru.py"]}
{"id": "C10", "title": "Map sections survive a save/load round trip", "statement": "Loading the bytes produced by saving a map's sections gives back the same sections with the same contents and order.", "quantifier": "every set of sections with every content", "why_tests_cant": "Contents are arbitrary byte strings.", "anchors": ["src/eudplib/core/mapdata/chktok.py: CHK.loadchk, CHK.savechk"]}
{"id": "C11", "title": "String ids are stable and mean the string they were given for", "statement": "Once a string id has been handed out it keeps denoting the same bytes whatever strings are added later, equal strings get equal ids, and different ids never denote different strings for one lookup.", "quantifier": "every history of string additions, lookups and forced additions over any initial table", "why_tests_cant": "Histories are unbounded and the reuse of empty slots depends on the whole history.", "anchors": ["src/eudplib/core/mapdata/tblformat.py: TBL", "src/eudplib/core/mapdata/stringmap.py"]}
{"id": "C12", "title": "A saved string table reads back the same strings", "statement": "Reading the n-th string out of the saved string table gives the n-th string that was stored (truncated at the first NUL), for both offset widths.", "quantifier": "every list of strings accepted by the writer", "why_tests_cant": "Byte contents and counts are unbounded; offsets overlap on purpose when strings are shared.", "anchors": ["src/eudplib/core/mapdata/tblformat.py: SaveTBL, LoadTBL"]}
{"id": "C13", "title": "Unit property slots are shared only by equal properties", "statement": "Asking for the slot of a unit property returns the same slot for equal properties and different slots for different ones, never changes a slot given out before, and fails when no slot is left.", "quantifier": "every history of at most any number of requests over any initial slot usage", "why_tests_cant": "Histories are unbounded.", "anchors": ["src/eudplib/core/mapdata/proptable.py", "src/eudplib/core/mapdata/unitprp.py"]}
{"id": "C14", "title": "Integers and little-endian byte strings convert both ways", "statement": "Converting an integer to 1, 2 or 4 little-endian bytes and back gives the integer modulo 2^8, 2^16 or 2^32, and converting bytes to an integer and back gives the bytes.", "quantifier": "all integers, all byte strings and all offsets", "why_tests_cant": "2^32 values and arbitrary offsets.", "anchors": ["src/eudplib/utils/binio.py"]}
{"id": "C15", "title": "Compiled line tables decode to the mapped source lines", "statement": "The line table generated for a compiled script decodes (by the Python 3.11+ line table format) to the mapped line for every instruction.", "quantifier": "every instruction sequence and every line mapping", "why_tests_cant": "Sequences and deltas are unbounded; encoding is variable length.", "anchors": ["src/rust/eudplib-epscript/src/linetable.rs", "src/eudplib/epscript/linetable_calculator.py"]}
{"id": "C16", "title": "Negating a condition gives the opposite truth value", "statement": "EUDNot of a memory/variable condition, and the conditions that eudplib negates in place, are true exactly when the original is false, in every memory state; conditions that cannot be negated in place are not changed.", "quantifier": "all memory states, all comparison operators, amounts and masks", "why_tests_cant": "2^32 values and masks; boundaries 0 and 2^32-1 flip to special forms.", "anchors": ["src/eudplib/core/rawtrigger/condition.py: Condition.negate", "src/eudplib/trigger/tpatcher.py: is_nagatable_cond, negate_cond"]}
{"id": "C17", "title": "Constant in-place operations on variables are exact modulo 2^32", "statement": "For a variable v and constant k, v+=k, v-=k, v&=k, v|=k, v^=k, v.ineg(), v.iinvert() leave in v the 32-bit result and change no other variable; v.isubtract (SubtractNumber) saturates at zero.", "quantifier": "all values of v and k", "why_tests_cant": "2^64 pairs; implementation uses masked saturating primitives.", "anchors": ["src/eudplib/core/variable/eudv.py", "src/eudplib/core/variable/vbase.py", "src/eudplib/core/inplacecw.py"]}
{"id": "C18", "title": "Constant in-place shifts are exact", "statement": "v<<=n and v>>=n for constant 0<=n<=31 leave (v*2^n mod 2^32) and floor(v/2^n) in v, although they are built only from masked set/add/subtract.", "quantifier": "all v, all n", "why_tests_cant": "32 * 2^32 combinations with per-bit rewriting.", "anchors": ["src/eudplib/core/variable/vbase.py: __ilshift__, __irshift__"]}
{"id": "C19", "title": "Assignment batches behave like the written sequence of assignments", "statement": "SeqCompute with any list of (destination, modifier, source) executes like the listed assignments performed one after the other, and SetVariables/NonSeqCompute like a simultaneous assignment; other memory is untouched and the code can be executed again with the same meaning.", "quantifier": "every list of assignments (constants and variables, repeated sources and destinations), every memory state", "why_tests_cant": "The list is unbounded and the implementation batches up to 64 actions per trigger with reordering of parameters.", "anchors": ["src/eudplib/core/variable/eudv.py: SeqCompute, NonSeqCompute, SetVariables, VProc"]}
{"id": "C20", "title": "Multiplication is exact modulo 2^32", "statement": "f_mul(a,b) and a*b equal the product modulo 2^32 for constant and variable operands.", "quantifier": "all operands", "why_tests_cant": "2^64 pairs.", "anchors": ["src/eudplib/core/calcf/muldiv.py: f_mul, _const_mul"]}
{"id": "C21", "title": "Unsigned division is exact", "statement": "f_div(a,b) returns quotient and remainder of unsigned 32-bit division for b != 0, and (2^32-1, a) for b = 0, for constant and variable operands.", "quantifier": "all operands", "why_tests_cant": "2^64 pairs; the algorithm is restoring division with overflow cut-off.", "anchors": ["src/eudplib/core/calcf/muldiv.py: f_div, _const_div"]}
{"id": "C22", "title": "Bitwise operations and shifts by a variable amount are exact", "statement": "f_bitand/or/xor/nand/nor/nxor/not and f_bitlshift/f_bitrshift equal the 32-bit operation for every operand, with shift amounts of 32 or more giving 0.", "quantifier": "all operands", "why_tests_cant": "2^64 pairs.", "anchors": ["src/eudplib/core/calcf/bitwise.py"]}
{"id": "C23", "title": "Comparisons of variables mean the unsigned comparison", "statement": "The six comparison operators between a variable and a constant or variable are true exactly when the unsigned 32-bit comparison is; out-of-range constants give the constant truth value of the integer comparison.", "quantifier": "all values", "why_tests_cant": "boundaries on both sides of [0,2^32) are turned into special conditions.", "anchors": ["src/eudplib/core/variable/eudv.py: EUDVariable.__lt__ ...", "src/eudplib/core/variable/vbase.py"]}
{"id": "C24", "title": "A branch goes to the true side exactly when all its conditions hold", "statement": "EUDBranch / EUDIf / EUDJumpIf with any list of conditions continues at the true target when every condition holds in the memory state at entry and at the false target otherwise, changes no variable, and can be executed any number of times.", "quantifier": "any number of conditions, every state, every repetition count", "why_tests_cant": "More than 16 conditions are split over several self-modifying triggers; unbounded repetition.", "anchors": ["src/eudplib/trigger/branch.py: EUDBranch, _branch_sub", "src/eudplib/ctrlstru/basicstru.py", "src/eudplib/ctrlstru/cshelper.py"]}
{"id": "C25", "title": "Loops run their body exactly while the condition holds", "statement": "EUDWhile runs the body as long as its condition holds and then leaves; EUDLoopN(n) runs it exactly n times; EUDContinue/EUDBreak go to the documented points.", "quantifier": "every body, every number of iterations", "why_tests_cant": "Iteration counts are unbounded.", "anchors": ["src/eudplib/ctrlstru/loopblock.py"]}
{"id": "C26", "title": "EUDSwitch enters exactly the matching case", "statement": "EUDSwitch(v, mask) jumps to the case whose label equals v & mask, or to the default (or end) when none does, whichever of the three code shapes the library picks, and restores its own code.", "quantifier": "every set of case labels, every value, every mask", "why_tests_cant": "The shape depends on label count and density; labels and values range over 2^32.", "anchors": ["src/eudplib/ctrlstru/swblock.py"]}
{"id": "C27", "title": "Short-circuit conditions evaluate like the boolean expression", "statement": "EUDSCAnd / EUDSCOr chains are true exactly when the conjunction / disjunction of their parts is, and parts after the deciding one are not evaluated.", "quantifier": "all chains and states", "why_tests_cant": "Chains are unbounded.", "anchors": ["src/eudplib/ctrlstru/shortcircuit.py"]}
{"id": "C28", "title": "Once-only code runs at most once", "statement": "EUDExecuteOnce bodies and Trigger(..., preserved=False) perform their actions at most once over the whole game, and at the first time their conditions hold.", "quantifier": "every number of executions and every evolution of memory", "why_tests_cant": "All histories of executions.", "anchors": ["src/eudplib/ctrlstru/simpleblock.py: EUDExecuteOnce", "src/eudplib/trigger/triggerdef.py: Trigger"]}
{"id": "C29", "title": "Trigger() with any number of conditions and actions behaves like one big trigger", "statement": "Trigger(conditions, actions) performs all actions in order exactly when all conditions hold, for any number of conditions and actions, and can be executed again.", "quantifier": "any number of conditions and actions, every state", "why_tests_cant": "Triggers are split in 16-condition and 64-action pieces joined by self-modifying links.", "anchors": ["src/eudplib/trigger/triggerdef.py: Trigger"]}
{"id": "C30", "title": "Player-restricted triggers leave the current player alone", "statement": "PTrigger(players, conditions, actions) runs its actions only for listed players and does not change the current player.", "quantifier": "all current player values, all player sets", "why_tests_cant": "2^32 current player values.", "anchors": ["src/eudplib/trigger/ptrigger.py"]}
{"id": "C31", "title": "Calling an EUDFunc passes arguments and results and returns to the caller", "statement": "A call evaluates its arguments, runs the body with parameters equal to the arguments, stores the results in the requested variables and continues after the call, for any number of call sites executed in any order, directly or through a function pointer.", "quantifier": "every call history, any number of arguments, results and call sites", "why_tests_cant": "The return address is patched into shared code; mistakes appear only for certain call sequences.", "anchors": ["src/eudplib/core/eudfunc/eudfuncn.py", "src/eudplib/core/eudfunc/eudfptr.py"]}
{"id": "C32", "title": "Memory reads return the addressed value and preserve the current player", "statement": "f_dwread_epd, f_maskread_epd, f_wread/bread and their pointer/cp variants return the addressed dword / masked and shifted dword / word / byte for every memory content and leave the current player as it was.", "quantifier": "all memory contents, all addresses, all sub-offsets", "why_tests_cant": "2^32 contents per address; bit-by-bit reconstruction through self-modifying code.", "anchors": ["src/eudplib/memio/dwepdio.py", "src/eudplib/memio/bwepdio.py", "src/eudplib/memio/cpmemio.py", "src/eudplib/memio/readtable.py"]}
{"id": "C33", "title": "Shared read code stays correct whatever other readers were compiled", "statement": "The reader for one mask/shift returns floor((value & mask) * 2^shift) mod 2^32 no matter which other readers were requested before, although all readers share one table of bit-test triggers.", "quantifier": "every history of reader requests", "why_tests_cant": "Histories are unbounded; sharing is keyed by bit ranges.", "anchors": ["src/eudplib/memio/readtable.py"]}
{"id": "C34", "title": "Memory writes touch only the addressed bytes", "statement": "f_dwwrite/f_wwrite/f_bwrite (epd, pointer and cp forms) store the value in the addressed dword/word/byte and change no other byte.", "quantifier": "all values, addresses and sub-offsets", "why_tests_cant": "2^32 values times all neighbours.", "anchors": ["src/eudplib/memio/bwepdio.py", "src/eudplib/memio/cpmemio.py", "src/eudplib/memio/rwcommon.py"]}
{"id": "C35", "title": "The cached current player equals the real one", "statement": "After any sequence of f_setcurpl / f_addcurpl / SetCurrentPlayer / AddCurrentPlayer operations f_getcurpl returns the real current player, also when the game itself changed it in between.", "quantifier": "every history of operations and outside changes", "why_tests_cant": "Histories are unbounded and the cache is checked by a self-modified condition.", "anchors": ["src/eudplib/core/curpl.py", "src/eudplib/memio/modcurpl.py"]}
{"id": "C36", "title": "Block and string primitives agree with byte semantics", "statement": "f_memcpy, f_memcmp, f_repmovsd, f_strcpy, f_strlen, f_strcmp, f_strnstr behave as on byte arrays.", "quantifier": "all memory contents and lengths", "why_tests_cant": "Lengths are unbounded.", "anchors": ["src/eudplib/memio/mblockio.py", "src/eudplib/string/strfunc.py"]}
{"id": "C37", "title": "Byte readers and writers see consecutive bytes", "statement": "An EUDByteReader started at a pointer returns the bytes of memory in order; an EUDByteWriter stores successive bytes at successive addresses and changes nothing else.", "quantifier": "all start alignments and all lengths", "why_tests_cant": "Unbounded streams with dword-internal state.", "anchors": ["src/eudplib/memio/byterw.py", "src/eudplib/memio/cpbyterw.py"]}
{"id": "C38", "title": "EUDQueue is a bounded FIFO that drops the oldest element on overflow", "statement": "For any history of append and popleft, popleft returns the oldest element still stored, length is the number of stored elements, and appending to a full queue drops the oldest.", "quantifier": "every capacity, every history", "why_tests_cant": "Histories are unbounded, ring positions wrap.", "anchors": ["src/eudplib/collections/eudqueue.py: EUDQueue"]}
{"id": "C39", "title": "EUDDeque is a bounded double-ended queue", "statement": "For any history of append, appendleft, pop, popleft on EUDDeque the results are those of a bounded deque that drops from the opposite end on overflow.", "quantifier": "every capacity, every history", "why_tests_cant": "Histories are unbounded, ring positions wrap at both ends.", "anchors": ["src/eudplib/collections/eudqueue.py: EUDDeque"]}
{"id": "C40", "title": "EUDStack is LIFO", "statement": "For any history of push and pop within capacity, pop returns the most recently pushed element not yet popped and empty() tells whether there is one.", "quantifier": "every history", "why_tests_cant": "Histories are unbounded.", "anchors": ["src/eudplib/collections/eudstack.py"]}
{"id": "C41", "title": "Object pools never hand out a live object twice", "statement": "ObjPool.alloc returns an object that is not currently allocated, or 0 when the pool is full; free makes exactly that object available again.", "quantifier": "every capacity, every valid alloc/free history", "why_tests_cant": "Histories are unbounded.", "anchors": ["src/eudplib/collections/objpool.py"]}
{"id": "C42", "title": "Array elements are independent", "statement": "Reading element i of an EUDArray / EUDVArray returns the last value written to element i, for constant and variable indices, and writing one element changes no other.", "quantifier": "all sizes, indices and histories", "why_tests_cant": "Unbounded sizes; index is turned into an address bit by bit.", "anchors": ["src/eudplib/collections/eudarray.py", "src/eudplib/core/eudstruct/vararray.py"]}
{"id": "C43", "title": "Signed division follows the documented rounding", "statement": "f_div_towards_zero, f_div_floor and f_div_euclid satisfy a = q*b + r (mod 2^32) with the documented sign/rounding rule on two's complement values for b != 0.", "quantifier": "all operand pairs", "why_tests_cant": "2^64 pairs.", "anchors": ["src/eudplib/eudlib/mathf/div.py"]}
{"id": "C44", "title": "f_pow is the power modulo 2^32", "statement": "f_pow(a,b) terminates and equals a^b modulo 2^32.", "quantifier": "all operand pairs", "why_tests_cant": "2^64 pairs; loop.", "anchors": ["src/eudplib/eudlib/mathf/pow.py"]}
{"id": "C45", "title": "f_sqrt is the integer square root", "statement": "f_sqrt(n) is the largest x with x*x <= n.", "quantifier": "all n", "why_tests_cant": "2^32 values with wrap-around squares inside a binary search.", "anchors": ["src/eudplib/eudlib/mathf/sqrt.py", "src/eudplib/eudlib/utilf/binsearch.py"]}
{"id": "C46", "title": "Binary searches return the boundary of a monotone predicate", "statement": "EUDBinaryMax / EUDBinaryMin return the largest / smallest value in [minv,maxv] satisfying the monotone condition.", "quantifier": "all monotone predicates and all bounds", "why_tests_cant": "Predicates are arbitrary.", "anchors": ["src/eudplib/eudlib/utilf/binsearch.py"]}
{"id": "C47", "title": "f_unpatchall undoes every patch", "statement": "After any sequence of f_dwpatch / f_blockpatch operations f_unpatchall restores the previous memory contents.", "quantifier": "every patch history, overlapping targets included", "why_tests_cant": "Histories are unbounded.", "anchors": ["src/eudplib/eudlib/utilf/mempatch.py"]}
{"id": "C48", "title": "Boolean variables packed in one dword are independent", "statement": "Setting, clearing or toggling an EUDLightBool changes only that boolean and conditions on it read that boolean.", "quantifier": "all histories over any number of packed booleans", "why_tests_cant": "32 booleans share a dword; all interleavings.", "anchors": ["src/eudplib/core/variable/eudlv.py"]}
{"id": "C49", "title": "Inlined map triggers run exactly once per cycle for their players", "statement": "A trigger of the original map that is moved into the payload runs exactly once per trigger cycle for each player it applied to.", "quantifier": "every trigger, player set and player", "why_tests_cant": "All player sets and flags.", "anchors": ["src/eudplib/maprw/inlinecode/btinliner.py: inline_codify_binary_trigger"]}
{"id": "C50", "title": "Nested condition/action lists are flattened in order", "statement": "Conditions and actions given as arbitrarily nested lists are executed in left-to-right order with nothing lost or duplicated.", "quantifier": "all nestings", "why_tests_cant": "Unbounded nesting.", "anchors": ["src/eudplib/utils/etc.py: FlattenList"]}
{"id": "C51", "title": "Every variable of a variable buffer is a valid variable trigger", "statement": "Variables share overlapping storage, 72 bytes apart. However many variables a program uses and whatever their initial values are, each of them is an enabled, preserved trigger without conditions and with one masked set-deaths action, and holds its initial value.", "quantifier": "every number of variables, every list of initial values, every buffer address", "why_tests_cant": "Fields of one variable are stored inside the records of variables up to 28 places away, so correctness depends on the number of variables, which is unbounded.", "anchors": ["src/eudplib/core/variable/vbuf.py: EUDVarBuffer.WritePayload, EUDVarBuffer.Evaluate"]}
{"id": "C52", "title": "A written trigger is executed as it was specified", "statement": "The bytes written for a RawTrigger are read back by the game's trigger interpreter as exactly the given conditions, actions and next pointer, with nothing before, between or after them.", "quantifier": "every list of at most 16 conditions and 64 actions of the memory kind, every address and argument", "why_tests_cant": "Arguments are 32-bit values and lists have arbitrary length; a field packed at the wrong place only shows for particular arguments.", "anchors": ["src/rust/src/allocator/pbuffer.rs: _write_trigger", "src/eudplib/core/rawtrigger/condition.py: Condition", "src/eudplib/core/rawtrigger/action.py: Action", "src/eudplib/core/rawtrigger/rawtriggerdef.py: RawTrigger"]}
{"id": "C53", "title": "Operators between variables are exact modulo 2^32", "statement": "For variables x and y, x+y, x-y, k-x, -x, ~x, x&y, x|y, x^y and the in-place forms x+=y, x-=y, x&=y, x|=y, x^=y give the 32-bit result in the resulting variable and change no other variable of the program, whether or not operands are temporaries.", "quantifier": "all values of the variables, all placements of the variables, repeated execution", "why_tests_cant": "2^64 operand pairs per operator, and the result depends on which storage the operands share", "anchors": ["src/eudplib/core/variable/eudv.py: EUDVariable.__add__ ... __ixor__"]}
{"id": "C54", "title": "EPD of a pointer variable addresses the dword of the pointer", "statement": "EPD(p) of a variable p yields a number that addresses the dword containing the byte p points to, for all values of p; for 4-aligned pointers behind the table of deaths it is the number that EPD of the same constant has. Besides the result no variable of the program changes.", "quantifier": "all 2^32 values of p, all placements", "why_tests_cant": "2^32 values; 32 masked self-modifying actions in a shared trigger", "anchors": ["src/eudplib/utils/etc.py: EPD"]}
{"id": "C55", "title": "A dword breaks into its words and bytes", "statement": "f_dwbreak(x) returns the lower word, the upper word and the four bytes of x, each as a number, on every call; f_dwbreak2(x) returns the same parts left at their places in the dword. The words, and the bytes, make up x again. Besides the results no variable of the program changes.", "quantifier": "all 2^32 values of x, constant or variable, all placements of the results, repeated calls", "why_tests_cant": "2^32 values; two of the result variables are written through a mask, so that a result depends on what earlier calls left there", "anchors": ["src/eudplib/memio/dwepdio.py: f_dwbreak, f_dwbreak2"]}
{"id": "C56", "title": "Random numbers follow the generator through any history of calls", "statement": "After f_srand(x), any mixture of f_rand(), f_dwrand() and f_getseed() calls gives the results of the linear congruential generator s -> s*1103515245+12345 (mod 2^32): f_rand returns the upper 16 bits of the next state, f_dwrand returns the upper 16 bits of the next state as high word and of the one after as low word, f_getseed returns the current state; no call changes any other variable of the program.", "quantifier": "for all seeds, all histories of f_srand/f_getseed/f_rand/f_dwrand calls and all destinations of the results", "why_tests_cant": "the results depend on a 32-bit state through wrapping multiplications spread over dozens of triggers and on the whole history of calls; a test follows a few seeds for a few steps", "anchors": ["src/eudplib/eudlib/utilf/random.py:20-27", "src/eudplib/eudlib/utilf/random.py:67-97"]}
{"id": "C57", "title": "Numbers and strings are printed exactly", "statement": "f_dbstr_adddw(dst, n) writes the decimal numeral of n (no leading zeros, \"0\" for 0) and a terminating zero byte at dst and returns dst plus the length of the numeral; f_dbstr_addptr(dst, n) writes eight upper-case hexadecimal digits and a terminating zero and returns dst + 8; f_dbstr_addstr(dst, src) copies the zero-terminated string at src with its terminator and returns dst plus its length. No byte outside the written range changes, and a next call finds the shared reader and writer usable.", "quantifier": "for all 2^32 numbers, all destinations (any alignment) in writable memory, all strings of any length whose bytes are not overwritten before they are read, constant or variable arguments, repeated calls", "why_tests_cant": "2^32 numbers times all alignments and lengths; the code patches a trigger's number field to count written bytes, jumps out of nested loops through a patched next pointer, and must restore both for the next call", "anchors": ["src/eudplib/string/eudprint.py:16-73", "src/eudplib/string/eudprint.py:93-215"]}
{"id": "C58", "title": "f_dbstr_print writes the concatenation of its arguments", "statement": "f_dbstr_print(dst, *args, EOS) writes at dst the texts of its arguments one after the other (literals as given, decimal numerals of variables and constant expressions, eight hexadecimal digits for hptr, the zero-terminated strings of ptr2s, epd2s and Db), then a zero byte if EOS, and returns dst plus the length of the text; nothing else changes, and the next call works in the same way. The literals are kept backwards and encoded in one shared byte array in which every literal of the program is found at the place given to it, whatever other literals are printed.", "quantifier": "for all destinations, all lists of arguments of any length and kinds, all literal texts up to 32768 bytes, all keys and random counts the code may draw, all values of the variables, all sequences of literals in a program", "why_tests_cant": "the literals share substrings in one data array, the loop counts with a random step until bit 31 is set, the decoding keys are added bit-wise into fields of a running trigger, the reader goes backwards by patching its own next pointer, and all state must be restored for the next use", "anchors": ["src/eudplib/string/eudprint.py:218-272", "src/eudplib/string/strcommon.py:41-86", "src/eudplib/string/strcommon.py:130-192"]}
{"id": "C59", "title": "Loops over linked lists visit every node once, in order", "statement": "EUDLoopList(header) (hence EUDLoopBullet), EUDLoopUnit() and, row by row, EUDLoopSprite() run their body once for every node of the linked list that starts at the header, in the order of the list, with the node's pointer and its EPD in the two loop variables, as long as the body keeps the links of the nodes not yet visited; EUDContinue goes on with the next node, EUDBreak leaves the list and EUDReturn the function.", "quantifier": "for all lists of any length, all contents of memory, all bodies that terminate", "why_tests_cant": "the length of the list and its order are chosen by the game, the next pointer is rebuilt bit by bit from memory by a function that changes the current player and, for units, jumps over the bit tests by patching its own next pointer", "anchors": ["src/eudplib/eudlib/utilf/listloop.py:27-63", "src/eudplib/eudlib/utilf/listloop.py:272-289", "src/eudplib/memio/specialized.py:13-18", "src/eudplib/memio/memifgen.py:22-67"]}
{"id": "C60", "title": "EUDLoopUnit2 visits exactly the units that are there, in the order of their addresses", "statement": "EUDLoopUnit2() (hence EUDLoopCUnit) takes the 1700 units in the order of their addresses; for each unit whose existence field is not zero at the moment its turn comes, the body runs once with the unit's pointer and EPD in the loop variables, and for every other unit nothing happens. The body may change the loop variables and any unit, EUDContinue goes on with the next unit, EUDBreak and EUDReturn leave the loop, and the loop can be run again with the same result.", "quantifier": "for all contents of memory, all bodies that terminate, with and without the unlimiter plugin", "why_tests_cant": "the loop moves the player field of a condition and the value fields of two actions while it runs; whether a unit is visited depends on the state at its turn, which the body may have changed", "anchors": ["src/eudplib/eudlib/utilf/listloop.py:199-232"]}
{"id": "C61", "title": "EUDLoopPlayerUnit visits every unit of the player once, and the body may remove the unit it runs for", "statement": "EUDLoopPlayerUnit(player) runs its body once for every unit of the player's list, in order, with the unit's pointer and EPD in the loop variables. The next unit is read before the body starts, so the body may overwrite both loop variables and the unit it runs for, including its link to the next unit, as long as the units that follow stay in the list. EUDContinue goes on with the next unit; EUDBreak and EUDReturn leave the loop.", "quantifier": "for all players, all lists of units, all bodies that terminate and keep the rest of the list", "why_tests_cant": "the next unit is kept in the value fields of two actions that are executed after the body; whether the walk survives what the body does depends on the list, its length and everything the body writes", "anchors": ["src/eudplib/eudlib/utilf/listloop.py:235-266", "src/eudplib/memio/specialized.py:13-18"]}
{"id": "C62", "title": "f_playerexist tells whether a player is in the game, and EUDLoopPlayer visits exactly the wanted players that are", "statement": "f_playerexist(p) gives 1 if p is one of the eight players and the player's list of triggers is not empty, and 0 otherwise, for every 32-bit p, whatever the result variable held before. EUDLoopPlayer goes through its players in order and runs the body, with the player in the loop variable, exactly for those that are in the game at the moment their turn comes; EUDContinue goes on with the next player, EUDBreak and EUDReturn leave the loop.", "quantifier": "for all 32-bit arguments, all states of the eight lists of triggers, all sets of wanted players, all bodies that terminate and keep the loop variable", "why_tests_cant": "the answer is computed by a jump table over a self-modified next pointer for all 2^32 arguments, and the body may change which players are in the game while the loop runs", "anchors": ["src/eudplib/eudlib/utilf/pexist.py:18-44", "src/eudplib/eudlib/utilf/pexist.py:100-114"]}
{"id": "C63", "title": "EUDLoopPlayer chooses exactly the players of the map that meet its filters", "statement": "EUDLoopPlayer(ptype, force, race) goes over exactly the players among the first eight whose type, force and race in the map are those given, where None or an empty string means any, and a force may be written 0 to 3 or as Force1 to Force4 (18 to 21). If no player meets the filters, an exception is raised.", "quantifier": "for all maps and all filters", "why_tests_cant": "it ranges over every assignment of types, races and forces to the eight players and every combination of filters", "anchors": ["src/eudplib/eudlib/utilf/pexist.py:70-101", "src/eudplib/core/mapdata/playerinfo.py:13-68"]}
{"id": "C64", "title": "EUDPlayerLoop makes each player in the game the current player in turn and gives the current player back", "statement": "Between EUDPlayerLoop()() and EUDEndPlayerLoop() the body runs once for each of the eight players that is in the game when its turn comes, in order, with that player as the current player, whatever the body did to the current player before. After the loop, also when it is left with EUDBreak, the current player is what it was before the loop, whatever it was and however it had been set; EUDContinue goes on with the next player.", "quantifier": "for all current players, all states of the cache of the current player, all states of the eight lists of triggers, all bodies that terminate and change the current player only by the functions of the library", "why_tests_cant": "the old current player is read through a cache that the game can bypass, and the body may change the current player and the players in the game while the loop runs", "anchors": ["src/eudplib/eudlib/utilf/pexist.py:119-147", "src/eudplib/memio/modcurpl.py:18-75"]}
{"id": "C65", "title": "f_getgametick returns the tick of the present moment, never an old cached one", "statement": "f_getgametick() returns the value that the dword 0x57F23C has when it is called, whatever the cache holds. This is so for calls in any number with any changes of memory between them that leave the variables of the library alone. A call leaves the tick as it is; it leaves the current player as it is when the cached current player is right; it changes nothing but its own dwords, the result and the dwords of the readers.", "quantifier": "for all ticks, all cached ticks, all memory contents, all histories of calls with arbitrary changes of the memory between them", "why_tests_cant": "the function trusts a condition that it rewrites itself; whether the cache can be stale depends on the whole history of calls and ticks", "anchors": ["src/eudplib/eudlib/utilf/gametick.py:14-26", "src/eudplib/memio/dwepdio.py:46-49"]}
