{
 "claims": [
  {
   "property": "C01",
   "status": "proved",
   "theorems": [
    "Eud.Alloc.C01_no_overlap"
   ],
   "note": "For every list of occupancy maps and every fuel: if the placement returns, no dword is used by two objects."
  },
  {
   "property": "C02",
   "status": "partial",
   "theorems": [
    "Eud.Alloc.C02_bounds_partial",
    "Eud.Alloc.C02_terminates_partial",
    "Eud.Alloc.C02_succeeds_partial",
    "Eud.Alloc.C02_counterexample"
   ],
   "note": "Termination and bounds hold; the unconditional claim is false (out-of-bounds read for a dense payload, C02_counterexample); success proved when the last object ends in a free dword."
  },
  {
   "property": "C03",
   "status": "partial",
   "theorems": [
    "Eud.Alloc.C03_dry_run_exact_partial",
    "Eud.Alloc.C03_real_write",
    "Eud.Alloc.C03_payload_bytes_partial",
    "Eud.Alloc.C03_counterexample"
   ],
   "note": "Holds for aligned write sequences; false for misaligned whole-dword writes (C03_counterexample)."
  },
  {
   "property": "C04",
   "status": "partial",
   "theorems": [
    "Eud.Alloc.C04_relocation_partial",
    "Eud.Alloc.C04_counterexample"
   ],
   "note": "Holds for factors 1 and 4; WritePack silently loses other factors (C04_counterexample)."
  },
  {
   "property": "C05",
   "status": "partial",
   "theorems": [
    "Eud.Expr.C05_arith_partial",
    "Eud.Expr.C05_division_partial",
    "Eud.Expr.C05_epd",
    "Eud.Expr.C05_neg_partial",
    "Eud.Expr.C05_counterexample"
   ],
   "note": "Every sum, difference, product, floor division, remainder and EPD of an expression over an object or forward, over any number of operations and for every load address, provided the scaled place of the object fits in 32 signed bits. The property without this is false: unary minus on an object cannot be evaluated, and a forward set to a constant of 2^30 loses it (C05_counterexample)."
  },
  {
   "property": "C06",
   "status": "partial",
   "theorems": [
    "Eud.Expr.C06_arith_partial",
    "Eud.Expr.C06_bitwise_partial",
    "Eud.Expr.C06_floordiv_partial",
    "Eud.Expr.C06_counterexample"
   ],
   "note": "All operators of RlocInt on the operand classes for which they are right, for every load address; C06_counterexample proves the operands for which the code is wrong."
  },
  {
   "property": "C07",
   "status": "proved",
   "theorems": [
    "Eud.Expr.C07_forward"
   ],
   "note": "All histories of settings and resets of any number of forwards."
  },
  {
   "property": "C08",
   "status": "proved",
   "theorems": [
    "Eud.Scope.C08_label",
    "Eud.Scope.C08_successor",
    "Eud.Scope.C08_explicit",
    "Eud.Scope.C08_accepted"
   ],
   "note": "All histories of push/pop of trigger scopes, RawTriggers and labels."
  },
  {
   "property": "C09",
   "status": "proved",
   "theorems": [
    "Eud.Blocks.C09_nesting",
    "Eud.Blocks.C09_lookup",
    "Eud.Blocks.C09_counterexample"
   ],
   "note": "All histories whose exceptions are not caught; the counterexample shows the stale lookup after a refused, caught pop."
  },
  {
   "property": "C10",
   "status": "partial",
   "theorems": [
    "Eud.Map.C10_roundtrip_partial",
    "Eud.Map.C10_sections_partial",
    "Eud.Map.C10_access",
    "Eud.Map.C10_counterexample"
   ],
   "note": "Proved for all section maps; partial because the contents of ISOM are replaced when saving (counterexample)."
  },
  {
   "property": "C11",
   "status": "partial",
   "theorems": [
    "Eud.Map.C11_ids_partial",
    "Eud.Map.C11_counterexample",
    "Eud.Map.C11_counterexample_offset"
   ],
   "note": "All histories for strings that are not empty, on tables from maps without string offsets out of range; both excluded cases are false (counterexamples)."
  },
  {
   "property": "C12",
   "status": "proved",
   "theorems": [
    "Eud.Map.C12_load",
    "Eud.Map.C12_save"
   ],
   "note": "All tables reachable by loading and any history, both entry sizes."
  },
  {
   "property": "C13",
   "status": "proved",
   "theorems": [
    "Eud.Map.C13_key",
    "Eud.Map.C13_key_meaning",
    "Eud.Map.C13_slots",
    "Eud.Map.C13_full",
    "Eud.Map.C13_constructor"
   ],
   "note": "All histories over any initial section. Packing and unpacking of the 20 bytes is not modelled."
  },
  {
   "property": "C14",
   "status": "proved",
   "theorems": [
    "Eud.Map.C14_read_written",
    "Eud.Map.C14_written_read"
   ],
   "note": ""
  },
  {
   "property": "C15",
   "status": "partial",
   "theorems": [
    "Eud.LineTable.C15_lines_partial",
    "Eud.LineTable.C15_constant_partial",
    "Eud.LineTable.C15_counterexample",
    "Eud.LineTable.C15_counterexample_long"
   ],
   "note": "Rewritten 3.11 line tables decode to the mapped line of the following instruction; the off-by-one and instructions over 8 code units are counterexamples to the full statement."
  },
  {
   "property": "C16",
   "status": "partial",
   "theorems": [
    "Eud.SC.C16_negate_partial",
    "Eud.SC.C16_negatable",
    "Eud.SC.C16_counterexample_wrap",
    "Eud.SC.C16_counterexample_mask",
    "Eud.SC.C16_counterexample_disabled",
    "Eud.SC.C16_eudnot",
    "Eud.SC.C16_eudnot_var"
   ],
   "note": "Negated conditions are complementary in every game state, outside the three counterexample families; EUDNot of other conditions (through a boolean) and of variables is exact."
  },
  {
   "property": "C17",
   "status": "proved",
   "theorems": [
    "Eud.SC.C17_inplace",
    "Eud.SC.C17_abs"
   ],
   "note": "All in-place operations with a constant on one dword (=, +=, -=, saturating subtract, |=, &=, ^=, ~, unary minus, iabs), as the emitted trigger executed by the machine, for every old value and every constant."
  },
  {
   "property": "C18",
   "status": "partial",
   "theorems": [
    "Eud.SC.C17_inplace",
    "Eud.SC.C18_lshift0_counterexample"
   ],
   "note": "In-place shifts are proved for every old value, left shift by 1..32 and right shift by 0..32. The claim is false for a left shift by 0: the emitted trigger would need 65 actions and does not fit (counterexample theorem)."
  },
  {
   "property": "C19",
   "status": "partial",
   "theorems": [
    "Eud.SC.C19_seqcompute_partial",
    "Eud.SC.C19_variables",
    "Eud.SC.C19_vproc",
    "Eud.SC.C19_setvariables",
    "Eud.SC.C19_nonseq",
    "Eud.SC.C19_setvariables_swap",
    "Eud.SC.C19_nonseq_order",
    "Eud.SC.ExNonSeq.run"
   ],
   "note": "SeqCompute for every list of assignments that fits the layout, VProc for every list of actions and variables in one trigger; SetVariables and NonSeqCompute (any order it chooses) are simultaneous when no destination occurs twice and no source is a destination. Without that the property is false: SetVariables([a,b],[b,a]) does not swap (C19_setvariables_swap), NonSeqCompute reorders assignments to one destination (C19_nonseq_order), SeqCompute with a destination of EPD 0 (C19_counterexample)."
  },
  {
   "property": "C20",
   "status": "proved",
   "theorems": [
    "Eud.SC.C20_eud_mul",
    "Eud.SC.C20_const",
    "Eud.SC.C20_call",
    "Eud.SC.C20_number",
    "Eud.SC.mulFn_wp",
    "Eud.SC.ExMulDivFn.run"
   ],
   "note": "Variable times variable on the trigger machine, also as a call of the function; variable times any constant as a call, with every special case of the table (-1, 0, 1, powers of two through the shared self-adding variable) and the general body; a program in memory. The product of two constants is computed by Python."
  },
  {
   "property": "C21",
   "status": "proved",
   "theorems": [
    "Eud.SC.C21_div",
    "Eud.SC.C21_const",
    "Eud.SC.C21_const_pow",
    "Eud.SC.C21_const_rem",
    "Eud.SC.C21_call",
    "Eud.SC.C21_number",
    "Eud.SC.C21_number_quot",
    "Eud.SC.C21_number_rem",
    "Eud.SC.ExMulDivFn.run"
   ],
   "note": "Division by a variable (including 0), also as a call with constant or variable dividend; division, quotient and remainder by every constant as calls (0, 1, powers of two, others); a program in memory. Two constants are divided by Python."
  },
  {
   "property": "C22",
   "status": "partial",
   "theorems": [
    "Eud.SC.C53_and",
    "Eud.SC.C53_or",
    "Eud.SC.C53_xor",
    "Eud.SC.C22_nand",
    "Eud.SC.C22_nor",
    "Eud.SC.C53_invert",
    "Eud.SC.C22_bitsplit",
    "Eud.SC.C22_lshift",
    "Eud.SC.C22_exp2",
    "Eud.SC.C22_rshift",
    "Eud.SC.C53_counterexample_xor_self",
    "Eud.SC.C22_lshift_const",
    "Eud.SC.C22_shl_const",
    "Eud.SC.C22_shr_const"
   ],
   "note": "Every function of bitwise.py between variables, for all operands and all shift amounts, and shifts by every constant up to 32. The full statement is false for x ^ x (counterexample); constant shift amounts above 32 are not covered."
  },
  {
   "property": "C23",
   "status": "partial",
   "theorems": [
    "Eud.SC.C23_const",
    "Eud.SC.C23_var",
    "Eud.SC.C23_light",
    "Eud.SC.C23_counterexample",
    "Eud.SC.C23_counterexample_light"
   ],
   "note": "Exact for constants 0..2^32-1, for variables, and for the two guarded out-of-range directions; the other out-of-range constants give wrong answers (counterexamples proved)."
  },
  {
   "property": "C24",
   "status": "proved",
   "theorems": [
    "Eud.SC.C24_branch",
    "Eud.SC.C25_structured"
   ],
   "note": "EUDBranch in chunks of 16 conditions with self-restoring next pointers; if/else through the structured layer"
  },
  {
   "property": "C25",
   "status": "proved",
   "theorems": [
    "Eud.SC.C25_structured",
    "Eud.SC.C25_loopN",
    "Eud.SC.C25_range"
   ],
   "note": "Nested while/if with break, continue and return as emitted; EUDLoopN runs the body n times, EUDLoopRange for start..end-1."
  },
  {
   "property": "C26",
   "status": "partial",
   "theorems": [
    "Eud.SC.C26_search",
    "Eud.SC.C26_chain",
    "Eud.SC.C26_pair",
    "Eud.SC.C26_jump",
    "Eud.SC.C26_const",
    "Eud.SC.jumpBuffer_entry",
    "Eud.SC.C26_counterexample_const",
    "Eud.SC.C26_jump_acts"
   ],
   "note": "All four shapes emitted for a dword at a fixed address are proved to select the right case for every value, any number of cases: binary search, chain with lazily restored pointer (over repeated executions), one-bit pair, jump table (including the bytes of the table). A constant selector outside the mask selects the wrong case (counterexample). Extra actions in the first trigger run exactly when the selected value agrees with the labels on their common bits. Missing: EPDSwitch on a variable address, which goes through CurrentPlayer."
  },
  {
   "property": "C27",
   "status": "proved",
   "theorems": [
    "Eud.SC.C27_or",
    "Eud.SC.C27_and",
    "Eud.SC.C27_andor"
   ],
   "note": "EUDSCOr / EUDSCAnd chains with any parts (code, constant, negated); EUDAnd / EUDOr too."
  },
  {
   "property": "C28",
   "status": "partial",
   "theorems": [
    "Eud.SC.C28_history",
    "Eud.SC.C28_at_most_once",
    "Eud.SC.C28_first",
    "Eud.SC.C28_later",
    "Eud.SC.C28_not_yet",
    "Eud.SC.C28_enter",
    "Eud.SC.C28_once_block",
    "Eud.SC.C28_conditional_block",
    "Eud.SC.C28_trigger_block",
    "Eud.SC.C28_trigger_first",
    "Eud.SC.C28_trigger_not_yet",
    "Eud.SC.C28_trigger_later",
    "Eud.SC.ExTriggerOnce.C28_counterexample_extended",
    "Eud.SC.ExOnceNil.C28_counterexample_empty",
    "Eud.SC.ExOnceBreak.C28_counterexample_break"
   ],
   "note": "Holds for EUDExecuteOnce()() whose body runs to its end, for EUDExecuteOnce()(non-empty conditions) and for plain triggers, over every history.  False, with counterexamples, for extended triggers (more than 16 conditions or 64 actions), for an empty list of conditions and for bodies left by a jump."
  },
  {
   "property": "C29",
   "status": "proved",
   "theorems": [
    "Eud.SC.C29_trigger",
    "Eud.SC.C29_extended"
   ],
   "note": ""
  },
  {
   "property": "C30",
   "status": "partial",
   "theorems": [
    "Eud.SC.C30_listed",
    "Eud.SC.C30_unlisted",
    "Eud.SC.C30_counterexample"
   ],
   "note": "Proved for current players below 8 and any list of players; for other values of the current player the code sets it to 0, shown by the counterexample."
  },
  {
   "property": "C31",
   "status": "partial",
   "theorems": [
    "Eud.SC.C31_call",
    "Eud.SC.C31_entry",
    "Eud.SC.C31_exit",
    "Eud.SC.C31_does",
    "Eud.SC.C31_call_nonseq",
    "Eud.SC.C31_pointer",
    "Eud.SC.C31_pointer_direct",
    "Eud.SC.C31_direct",
    "Eud.SC.C31_direct_after_pointer",
    "Eud.SC.ExFnPtr.run",
    "Eud.SC.ExNonSeq.run"
   ],
   "note": "direct calls with any argument passing and up to 64 results; calls through function pointers; both in any order for functions without results. The full property is false: after a call through a pointer, a direct call of the same function returns to the caller of the pointer and its results are not stored (C31_direct_after_pointer; a program in memory: ExFnPtr.run)."
  },
  {
   "property": "C32",
   "status": "partial",
   "theorems": [
    "Eud.SC.C32_epd_code",
    "Eud.SC.C32_epd",
    "Eud.SC.C32_dword",
    "Eud.SC.C32_mask",
    "Eud.SC.C32_field",
    "Eud.SC.C32_pointer",
    "Eud.SC.C32_counterexample_current_player",
    "Eud.SC.ExRead.run",
    "Eud.SC.C32_dwepdread",
    "Eud.SC.C32_readgen",
    "Eud.SC.ExMemRead.run",
    "Eud.SC.C32_dwepdread_cp",
    "Eud.SC.C32_readgen_cp",
    "Eud.SC.C32_cp_code",
    "Eud.SC.C32_cp",
    "Eud.SC.ExMemReadCp.run",
    "Eud.SC.C32_sub",
    "Eud.SC.C32_bool",
    "Eud.SC.C32_bit",
    "Eud.SC.ExSubRead.run",
    "Eud.SC.ExFlagRead.run",
    "Eud.SC.C32_ptr",
    "Eud.SC.C32_dwread",
    "Eud.SC.C32_readgen_empty",
    "Eud.SC.ExDwPtr.run"
   ],
   "note": "Reads at an EPD through the shared readers (f_dwread_epd, f_epdread_epd, f_maskread_epd with a consecutive mask, byte/word reads with constant sub-offset), f_dwepdread_epd, functions made by f_readgen_epd (with and without _check_empty), the _cp forms with constant and variable offset, f_bread_epd/f_wread_epd with a variable sub-offset below 4 (a word may lie in two dwords), _boolread_epd and _bitread_epd: value, restored current player and frame for all memory contents. Proved wrong: reading the current player itself; _boolread_epd with an offset above 3 gives an old result and leaves the current player changed. Pointer forms: f_bread/f_wread/f_dwread of any pointer in a variable, aligned or not (f_dwread in a program in memory). Partial because the two wrong cases are left out."
  },
  {
   "property": "C33",
   "status": "proved",
   "theorems": [
    "Eud.SC.C33_shared",
    "Eud.SC.C33_total",
    "Eud.SC.ExRead.run"
   ],
   "note": "Any history of requests before and after; decreasing and increasing chains; insertions for consecutive masks never fail."
  },
  {
   "property": "C34",
   "status": "partial",
   "theorems": [
    "Eud.SC.C34_action",
    "Eud.SC.C34_setdw",
    "Eud.SC.C34_bytes",
    "Eud.SC.C34_bit",
    "Eud.SC.C34_bytes_const",
    "Eud.SC.C34_counterexample_same",
    "Eud.SC.ExByteWrite.run",
    "Eud.SC.C34_word",
    "Eud.SC.ExWordWrite.run",
    "Eud.SC.C34_bwrite",
    "Eud.SC.C34_wwrite",
    "Eud.SC.C34_dwwrite",
    "Eud.SC.C34_cp_zero",
    "Eud.SC.C34_cp",
    "Eud.SC.C34_cp_var",
    "Eud.SC.C34_cp_bytes",
    "Eud.SC.C34_cp_bytes_const",
    "Eud.SC.C34_counterexample_word3",
    "Eud.SC.C34_cp_bvar",
    "Eud.SC.C34_counterexample_cp_spill",
    "Eud.SC.C34_cp_wvar",
    "Eud.SC.ExCpWrite.run"
   ],
   "note": "Proved: f_dwwrite/f_dwadd/f_dwsubtract_epd for constant and variable arguments, actions with variable player/value/mask, f_bwrite/badd/bsubtract_epd and f_wadd/wsubtract_epd with variable and constant offsets, f_wwrite_epd with variable offset (at offset 3 the word lies in two dwords), _bitwrite_epd with variable offset; frame: no other cell changes. Counterexample: f_dwwrite_epd(v, v). Pointer forms: f_bwrite/f_wwrite/f_dwwrite through any pointer in a variable, aligned or not. The forms at the current player (f_dwwrite_cp, f_dwadd_cp, f_dwsubtract_cp, f_maskwrite_cp, f_bwrite_cp, f_wwrite_cp, with constants or variables) are proved, and run in memory; two cases are wrong and proved so: f_wwrite_cp with the constant offset 3 writes one byte only, and f_bwrite_cp or f_wwrite_cp with a variable offset and a value that does not fit adds to the bytes above."
  },
  {
   "property": "C35",
   "status": "proved",
   "theorems": [
    "Eud.SC.C35_op",
    "Eud.SC.C35_history",
    "Eud.SC.C35_get",
    "Eud.SC.ExCurPl.run",
    "Eud.SC.ExCurPl.runGame"
   ],
   "note": "Set/add with constants and variables, the game changing the current player at any point, f_getcurpl with any shuffled bit order. f_setcurpl(..., set_modifier=False) is not modelled."
  },
  {
   "property": "C36",
   "status": "proved",
   "theorems": [
    "Eud.SC.C36_repmovsd",
    "Eud.SC.movsd_copy",
    "Eud.SC.movsd_other",
    "Eud.SC.ExRepMov.run",
    "Eud.SC.C36_memcpy",
    "Eud.SC.C36_memcpy_bytes",
    "Eud.SC.cpyB_spec",
    "Eud.SC.cpyB_other",
    "Eud.SC.C36_memcmp",
    "Eud.SC.C36_strcmp",
    "Eud.SC.cmpB_zero",
    "Eud.SC.cmpB_first",
    "Eud.SC.byte_diff",
    "Eud.SC.C36_strcpy",
    "Eud.SC.ExByteRw.run",
    "Eud.SC.C36_strlen_epd",
    "Eud.SC.C36_strlen",
    "Eud.SC.StrLen.unique",
    "Eud.SC.StrLen.lt",
    "Eud.SC.ExStrLen.run",
    "Eud.SC.C36_strnstr",
    "Eud.SC.ExByteStream.run"
   ],
   "note": "f_repmovsd_epd for all counts, contents, sources and destinations (overlap included); f_memcpy, f_memcmp, f_strcmp, f_strcpy, f_strlen_epd, f_strlen and f_strnstr as calls for all lengths, contents and alignments; programs in memory with f_repmovsd_epd, f_memcpy, f_strlen and f_strnstr"
  },
  {
   "property": "C37",
   "status": "proved",
   "theorems": [
    "Eud.SC.C37_step",
    "Eud.SC.C37_history",
    "Eud.SC.byteAt_put",
    "Eud.SC.putByte_ne",
    "Eud.SC.bread_does",
    "Eud.SC.bwrite_does",
    "Eud.SC.bwriteC_does",
    "Eud.SC.ExByteRw.run",
    "Eud.SC.C37_stream_step",
    "Eud.SC.C37_stream_history",
    "Eud.SC.C37_copyto_writer",
    "Eud.SC.ExByteStream.run",
    "Eud.SC.CpW.C37_cpwriter_step",
    "Eud.SC.CpW.C37_cpwriter_history",
    "Eud.SC.CpW.C37_cpwriter_bytes",
    "Eud.SC.CpW.C37_cpwriter_spill",
    "Eud.SC.ExCpWriter.run"
   ],
   "note": "histories of any length of reads, writes (constant and variable), seeks (constant, variable, EPD) and copies of positions of any number of readers, writers and streams, with programs in memory; CPByteWriter: histories of writes, flushes and moves of the current player, and any number of bytes then a flush. Proved besides: copyto(writer) is wrong; CPByteWriter does not cut the first byte of a dword to eight bits; flushing an empty buffer zeroes the dword of the current player."
  },
  {
   "property": "C38",
   "status": "proved",
   "theorems": [
    "Eud.SC.C38_queue",
    "Eud.SC.C38_empty"
   ],
   "note": "Any history of append, popleft, clear, length and unrelated user steps agrees with a bounded list that drops its oldest element when full. popleft on an empty queue is outside the claim; the iteration protocol is not modelled."
  },
  {
   "property": "C39",
   "status": "partial",
   "theorems": [
    "Eud.SC.C39_deque_partial",
    "Eud.SC.C39_counterexample"
   ],
   "note": "Histories agree with a bounded list as long as no append follows an appendleft on a full deque before the ends are back in step; C39_counterexample shows the code breaks the claim there. Iteration is not modelled."
  },
  {
   "property": "C40",
   "status": "proved",
   "theorems": [
    "Eud.SC.C40_stack",
    "Eud.SC.stkStep",
    "Eud.SC.Stks.init",
    "Eud.SC.mixV",
    "Eud.SC.mixA",
    "Eud.SC.ExStack.run"
   ],
   "note": "Any history of constructor, push, pop and empty on any number of stacks of any capacity, that stays within capacity, together with other assignments of the program; example: a program with a stack in memory, for all pushed values."
  },
  {
   "property": "C41",
   "status": "proved",
   "theorems": [
    "Eud.SC.C41_pool",
    "Eud.SC.poolStep",
    "Eud.SC.Pool.alloc_does",
    "Eud.SC.Pool.free_does",
    "Eud.SC.Pool.init",
    "Eud.SC.PoolOk.nodup",
    "Eud.SC.ExPool.run",
    "Eud.SC.ExPool.safe"
   ],
   "note": "Histories of alloc, free, field reads and writes and other computations for pools of any size and number of fields; the specification lets the pool choose any object that is not live. Constructors and destructors are code of the user and enter as the other operations. ExPool.run is a program in memory that allocates two objects, writes and reads fields and frees one. When the pool is full the code still runs the constructor on object 0 (not part of the claim)."
  },
  {
   "property": "C42",
   "status": "partial",
   "theorems": [
    "Eud.SC.C42_array",
    "Eud.SC.iset_does",
    "Eud.SC.ExArr.run",
    "Eud.SC.C42_varray",
    "Eud.SC.VSh.get_code",
    "Eud.SC.VSh.set_code",
    "Eud.SC.VSh.same_code",
    "Eud.SC.ExVArr.run"
   ],
   "note": "EUDArray: every history of reads, writes, additions and subtractions through constant and variable arrays, indices and values (also one variable in several roles) equals independent elements; concrete program in memory. EUDVArray: every history of reads and writes through constant and variable arrays, indices and values, including index and value in one variable, likewise, with a concrete program in memory. Not yet: the other in-place item operations of both, EUDVArray with more than one of array, index and value in one variable except index = value."
  },
  {
   "property": "C43",
   "status": "partial",
   "theorems": [
    "Eud.SC.C43_towards_zero",
    "Eud.SC.C43_floor",
    "Eud.SC.C43_euclid",
    "Eud.SC.C43_towards_zero_const",
    "Eud.SC.C43_floor_const",
    "Eud.SC.C43_euclid_const",
    "Eud.SC.C43_identity",
    "Eud.SC.C43_counterexample_const"
   ],
   "note": "For all dividends and all nonzero divisors the generated code of the three functions computes the documented quotient and remainder (variable divisors as two's complement, constant divisors as the python integer). A constant divisor of 2^31 or more is not read as two's complement (counterexample). The case of two python integers (float division at compile time) is not modelled."
  },
  {
   "property": "C44",
   "status": "partial",
   "theorems": [
    "Eud.SC.C44_pow",
    "Eud.SC.C44_diverges"
   ],
   "note": "Proved for exponents below 2^31 with any base. For larger exponents the claim is false: the function never ends (C44_diverges).."
  },
  {
   "property": "C45",
   "status": "proved",
   "theorems": [
    "Eud.SC.C45_sqrt"
   ],
   "note": "The body of the function, for every argument, on top of the proved multiplication and binary search."
  },
  {
   "property": "C46",
   "status": "partial",
   "theorems": [
    "Eud.SC.C46_max",
    "Eud.SC.C46_min",
    "Eud.SC.C46_max_const",
    "Eud.SC.C46_min_const",
    "Eud.SC.C46_counterexample_max_eq",
    "Eud.SC.C46_counterexample_max_wrap",
    "Eud.SC.C46_counterexample_min_eq"
   ],
   "note": "Proved for all conditions and different integers as bounds (EUDBinaryMax: if probes do not exceed 32 bits), and for other bounds under the stated conditions on the first probe. False in general: equal bounds, and bounds near 2^32 for EUDBinaryMax (counterexamples)."
  },
  {
   "property": "C47",
   "status": "partial",
   "theorems": [
    "Eud.SC.C47_patches",
    "Eud.SC.C47_restored",
    "Eud.SC.C47_long_block",
    "Eud.SC.ExPatch.run"
   ],
   "note": "Any history of f_dwpatch_epd, f_blockpatch_epd (at most 256 dwords) and f_unpatchall interleaved with user assignments, run by the emitted triggers, restores every patched dword to what it held before its first patch, provided the history is shorter than the 8192 records the pools hold and sources of block patches are not themselves targets. The statement as written is false for longer blocks (C47_long_block: dwords from 256 on are never patched) and block patches leave the source block exchanged. Missing: the pointer form f_blockpatch via f_div, block patches of overlapping blocks."
  },
  {
   "property": "C48",
   "status": "proved",
   "theorems": [
    "Eud.SC.C48_ops",
    "Eud.SC.C48_alloc"
   ],
   "note": "Operations touch one bit; any number of booleans get different bits with their initial values."
  },
  {
   "property": "C49",
   "status": "partial",
   "theorems": [
    "Eud.Inline.C49_all",
    "Eud.Inline.C49_players",
    "Eud.Inline.C49_bytes_partial",
    "Eud.Inline.C49_single_partial",
    "Eud.Inline.C49_counterexample",
    "Eud.Inline.C49_counterexample_empty",
    "Eud.Inline.C49_counterexample_order"
   ],
   "note": "Default rate: every player runs the same triggers in the same order, for every section (full). Lower rates: the players found from the trigger's bytes are those it applies to, and each runs it once, except preserved all-player triggers, which run twice. The dispatch from a TRIG trigger to its code is taken as given."
  },
  {
   "property": "C50",
   "status": "proved",
   "theorems": [
    "Eud.Flatten.C50_flatten"
   ],
   "note": "Iterables raising TypeError midway are not modelled."
  },
  {
   "property": "C51",
   "status": "proved",
   "theorems": [
    "Eud.SC.C51_variable_buffer"
   ],
   "note": "Stated on the dwords written by EUDVarBuffer.WritePayload."
  },
  {
   "property": "C52",
   "status": "proved",
   "theorems": [
    "Eud.SC.C52_trigger_image"
   ],
   "note": "Stated on the dwords written by _write_trigger; conditions Deaths/DeathsX/Always/Never and actions SetDeaths/SetDeathsX."
  },
  {
   "property": "C53",
   "status": "partial",
   "theorems": [
    "Eud.SC.C53_add",
    "Eud.SC.C53_sub",
    "Eud.SC.C53_sub_const",
    "Eud.SC.C53_sub_temp",
    "Eud.SC.C53_rsub_const",
    "Eud.SC.C53_rsub_temp",
    "Eud.SC.C53_neg",
    "Eud.SC.C53_invert",
    "Eud.SC.C53_ior",
    "Eud.SC.C53_iand",
    "Eud.SC.C53_and",
    "Eud.SC.C53_or",
    "Eud.SC.C53_iinvert",
    "Eud.SC.C53_ixor",
    "Eud.SC.C53_xor",
    "Eud.SC.C53_isub",
    "Eud.SC.C53_counterexample_xor_self",
    "Eud.SC.C53_counterexample_isub_self"
   ],
   "note": "All operators, all values. The full claim is false when both operands of ^ or -= are the same variable (counterexamples). The choice of form by reference counting is not modelled; every form is proved."
  },
  {
   "property": "C54",
   "status": "proved",
   "theorems": [
    "Eud.SC.C54_epd",
    "Eud.SC.C54_inplace",
    "Eud.SC.C54_addr",
    "Eud.SC.C54_same",
    "Eud.SC.C54_counterexample",
    "Eud.SC.epdTrg_code",
    "Eud.SC.ExPool.run"
   ],
   "note": "Both the in-place form and the form through the shared trigger. C54_counterexample: below the table of deaths the number differs from that of the constant, though it addresses the same dword."
  },
  {
   "property": "C55",
   "status": "proved",
   "theorems": [
    "Eud.SC.C55_break",
    "Eud.SC.C55_break2",
    "Eud.SC.C55_parts",
    "Eud.SC.ExDwBreak.run"
   ],
   "note": "For all dwords, placements and repeated calls: the invariant (modifiers SetTo, upper bits of two masked results zero) holds at the start and is kept by each call, so calls can follow each other. The six results are stored by NonSeqCompute in order (eudv.py:882-892). ExDwBreak.run calls both functions in a concrete memory for every x."
  },
  {
   "property": "C56",
   "status": "proved",
   "theorems": [
    "Eud.SC.Rnd.C56_history",
    "Eud.SC.ExRandom.run"
   ],
   "note": "For every list of operations, every seed and all destinations outside the generator, the code of f_srand, f_getseed, f_rand and f_dwrand (with the call of the multiplication function for 1103515245 and its own calling convention) refines the state machine (seed, memory of the program) given by ROp.spec. Non-vacuity: ExRandom.run has the whole program f_srand(x); f_rand(); f_dwrand(); f_getseed() in memory, for all x. f_randomize, which draws bits from the game, is not modelled."
  },
  {
   "property": "C57",
   "status": "proved",
   "theorems": [
    "Eud.SC.DecPr.C57_adddw",
    "Eud.SC.HexPr.C57_addptr",
    "Eud.SC.StrPr.C57_addstr",
    "Eud.SC.ExPrint.run"
   ],
   "note": "For all arguments and all memories in which the destination bytes are writable and outside the triggers of the program: the code of f_dbstr_adddw (the nested divisions by 10 through the division function, the writes, the patched count), f_dbstr_addptr and f_dbstr_addstr (the loop left through a patched next pointer), each with its calling convention, with EUDByteReader/EUDByteWriter as proved for C37. The numeral is Nat.repr, the digits come from a table, the string is the list of bytes before the first zero; putBytes is the specification of the written memory. Non-vacuity: ExPrint.run has the program o << f_dbstr_adddw(x, n); o << f_dbstr_addptr(o, n); o << f_dbstr_addstr(o, y) with all its functions in memory, for all n, x, y and strings that fit; the divisions by 10 and 16 share their result variables with the division by 4. The literal printing of ObfuscatedBytes is not modelled."
  },
  {
   "property": "C58",
   "status": "proved",
   "theorems": [
    "Eud.SC.PrintCfg.C58_print",
    "Eud.SC.C58_data",
    "Eud.SC.LitPr.sub_spec",
    "Eud.SC.StrPr.subE_spec",
    "Eud.SC.C58_short",
    "Eud.SC.C58_long",
    "Eud.SC.ExPrint.runL"
   ],
   "note": "C58_print: every destination (constant or variable), every list of literals, decimal numbers, hexadecimal numbers and strings, with or without EOS: the concatenated texts are written, the result is dst plus the length, nothing else changes, and the state for the next call is restored. C58_data: every sequence of literals entered in the shared data keeps each of them backwards and encoded at its place. sub_spec: the loop over an encoded literal for every key, every admissible count and every length. C58_short: a count exists up to 32768 bytes; C58_long: for literals of 46342 bytes or more the range of random.randrange is empty and the call raises. Objects of f.fmt() and unknown types (an error while building) are not modelled. Example in memory with two literals that share data: ExPrint.runL."
  },
  {
   "property": "C59",
   "status": "proved",
   "theorems": [
    "Eud.SC.C59_walk",
    "Eud.SC.C59_list",
    "Eud.SC.C59_unit",
    "Eud.SC.C59_sprite",
    "Eud.SC.unit_read",
    "Eud.SC.ExListLoop.run",
    "Eud.SC.ExSpriteLoop.run"
   ],
   "note": "C59_walk: the loop for any function that reads a node pointer and its EPD, by induction on the list, for every invariant and every body, with EUDBreak, EUDContinue and EUDReturn. C59_list: EUDLoopList with and without break_offset, on top of f_dwepdread_epd. C59_unit: EUDLoopUnit on top of f_cunitepdread_epd; unit_read: the bit tests give pointer and EPD of each of the 1700 units. C59_sprite: EUDLoopSprite goes over the lists of all 256 rows; EUDBreak in its body does not leave the loop but goes on with the next row. Examples in memory: three bullets and three units, and three sprites in two rows, are counted and their pointers added up. EUDLoopPlayerUnit is C61; EUDLoopNewUnit is not modelled."
  },
  {
   "property": "C60",
   "status": "proved",
   "theorems": [
    "Eud.SC.C60_unit2",
    "Eud.SC.cDead_spec",
    "Eud.SC.ExLoopUnit2.run"
   ],
   "note": "C60_unit2: for every body and every assertion kept both by the body for a unit that is there and by passing over a unit that is not. The fields that steer the loop are set at its start, so nothing is assumed about them. Example in memory: three of 1700 units are there; they are counted and their pointers added up by a body that also spoils the loop variable."
  },
  {
   "property": "C61",
   "status": "proved",
   "theorems": [
    "Eud.SC.C61_player",
    "Eud.SC.callG_code",
    "Eud.SC.ExPlayerUnit.run"
   ],
   "note": "C61_player: for every list of units of a player and every body that keeps the units after the next pointer. The hand-written call of the read function (CallGRel, callG_code) is the SeqCompute of the same assignments in one trigger; the order of its independent actions differs from the source. The player is a constant or a variable whose EPD has been computed into one. Example in memory: three units are counted and their pointers added up by a body that clears both loop variables."
  },
  {
   "property": "C62",
   "status": "proved",
   "theorems": [
    "Eud.SC.C62_exist",
    "Eud.SC.C62_loop",
    "Eud.SC.pex_code",
    "Eud.SC.ExPlayerExist.run"
   ],
   "note": "C62_exist: the call of the function, for every argument. C62_loop: the loop, for every call with that effect. pex_code: the jump table, the eight cases and the default. EUDPlayerLoop is C64. Example in memory: the players 1, 3 and 6 that have triggers are counted, for every state of the lists of triggers."
  },
  {
   "property": "C63",
   "status": "partial",
   "theorems": [
    "Eud.SC.C63_pick_partial",
    "Eud.SC.C63_raise_partial",
    "Eud.SC.C63_force0"
   ],
   "note": "The statement is false for force=0: encode_force accepts 0 for the first force, but `not force` holds for 0, so that the filter is ignored (C63_force0). C63_pick_partial (the players) and C63_raise_partial (the exception) are the statement for all other filters, for maps with forces 0 to 3. Only integers are modelled as forces."
  },
  {
   "property": "C64",
   "status": "proved",
   "theorems": [
    "Eud.SC.C64_loop",
    "Eud.SC.C64_get",
    "Eud.SC.ExPlayerLoop.run"
   ],
   "note": "C64_loop: the loop, for every call of f_playerexist with the effect of C62_exist and every call of f_getcurpl with the effect of C64_get; the body may end in any way but has to keep the cache invariant of C35, the loop variable and the variable that holds the old current player. If the body returns from the function, the current player is not given back. Example in memory: the players in the game are counted by a body that changes the current player, for every current player and every state of the lists of triggers."
  },
  {
   "property": "C65",
   "status": "proved",
   "theorems": [
    "Eud.SC.C65_tick",
    "Eud.SC.C65_history",
    "Eud.SC.ExGameTick.run"
   ],
   "note": "C65_tick: one call, from the invariant that the condition compares with the cached tick and the reader is at rest. C65_history: any number of calls; between them any functions may change the memory except the cached tick, the condition, the modifier of the current player cache and the sum of the readers. The read is that of C32_epd. Example in memory: the emitted function with the table of readers, for every tick and every cached tick."
  }
 ]
}