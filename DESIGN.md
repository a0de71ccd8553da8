# Formal model of eudplib in Lean 4

This directory holds a machine-checked model of the eudplib sources in `/repo`
(read as text, never executed) and proofs of the properties listed in
`properties.jsonl`. `MANIFEST.json` maps each property to its theorems.

## 1. What eudplib is, for the purpose of the model

eudplib is a compiler. User code calls Python functions; these create *triggers*
(2408-byte records with up to 16 conditions and 64 actions) which are placed in a
*payload*, relocated when the game loads the map, and then executed by the game's
trigger engine. The triggers modify each other while running: variables are
triggers, a call patches the return pointer of the callee, a branch patches its
own successor. So the model has three kinds of parts.

1. **Compile-time code** (Python / Rust functions that run when the map is
   built): allocator, address expressions, relocation tables, string and property
   tables, map sections, block nesting, trigger scopes, line tables. These are
   modelled as Lean functions on ordinary data; exceptions are values
   (`Option` / `Except`).
2. **The trigger machine** (the game engine): memory is a function from 32-bit
   byte addresses to 32-bit dwords; a step fetches the trigger at the program
   counter *from memory*, decodes its conditions and actions from their dwords,
   executes them and follows the `nextptr` found in memory afterwards. Nothing
   about self-modification is assumed: it is a consequence of the semantics.
3. **Emitted programs**: for each library function, the triggers it emits, with
   labels (`Forward()`) as universally quantified addresses. Theorems run the
   machine on a memory into which the triggers are loaded.

Arithmetic routines with long straight-line code (shifts, reads, multiplication by
constants, ...) are modelled as lists of condition/action triggers with a
straight-line semantics; a general theorem shows the machine executes a chained
list of loaded triggers exactly as this semantics says.

## 2. Trusted base

* Lean 4.33.0 kernel; theorems may depend on `propext`, `Classical.choice`,
  `Quot.sound` only (section 6 records the check). No axioms of our own, no
  `sorry`, no `native_decide`, no `bv_decide`.
* That the Lean definitions transcribe the cited lines of `/repo`. Every
  definition cites file and lines and names its simplifications.
* The semantics of the game's trigger engine (not part of `/repo`): the facts the
  library is written against, i.e.
  * `SetDeaths`/`SetMemory` `SetTo`/`Add`/`Subtract` on the dword at
    `0x58A364 + 4*player + 48*unit` (mod 2^32); `Add` wraps, `Subtract` stops at 0;
  * the EUDX form (marker `SC`) reads and writes only the bits of the mask;
  * `Deaths` comparisons `AtLeast`/`AtMost`/`Exactly` are unsigned;
  * player 13 means "the current player", stored at `0x6509B0`;
  * a condition / action of type 0 ends the list; a trigger's successor is read
    from its `nextptr` field after its actions ran.

## 3. Layout of the Lean project

`lean/Verif.lean` imports everything. Each module has *model* (definitions with
citations of `/repo`), *specification* (independent of the model's helpers),
*lemmas* and *theorems*. Theorem names of properties start with the property id,
e.g. `C01_no_overlap`. Where the code does not satisfy the property, the negation
is proved for a concrete input (`..._counterexample`) and the part that does hold
is proved with its hypotheses spelled out. Non-trivial instances are `example`s
beside the theorems for compile-time code; for emitted code they are whole
programs in memory (`Verif/Ex/*`), see 3.4.

### 3.1 Compile-time code (`Alloc`, `Build`, `Map`)

| module | code |
|---|---|
| `Alloc/StackObjects` | placement of objects with interleaved free dwords (`stack_objects`, Rust) |
| `Alloc/Writer`, `WriterProofs` | dry-run writer and payload buffer, as interpreters of one list of writes |
| `Alloc/Payload` | payload buffer with relocation tables, and the relocation loop |
| `Alloc/Expr`, `ConstExpr` | `RlocInt`, `ConstExpr`, `Forward` |
| `Build/Scope` | trigger scopes, `NextTrigger`, `RawTrigger` successor rule |
| `Build/Blocks` | block stack of the control structures |
| `Build/Flatten` | `FlattenList` |
| `Build/LineTable` | rewriting of 3.10/3.11 line tables |
| `Build/Inline` | inlining of map triggers |
| `Map/Bytes`, `Chk`, `Tbl`, `Uprp` | integers as bytes, CHK sections, string tables, unit properties |

### 3.2 The machine and its reasoning layers (`Machine`)

From the bottom up; each layer is proved from the one below, nothing is assumed.

1. `Basic`: memory (`Nat → BitVec 32` at dword addresses), decoding of a trigger
   from its dwords, `step`, `Reaches`. `Image`: the dwords written for a trigger
   and for a variable buffer; they decode to what was specified (C51, C52).
2. `Sym`, `Prog`: triggers with *holes* (dwords that the program itself rewrites)
   and programs made of them; a step of a loaded trigger, and that the program
   stays loaded.
3. `Var`, `VarOps`, `SeqCompute`, `SeqVars`, `InPlace`, `VMask`: variables as
   triggers, batches of assignments, in-place operations.
4. `View`: a `Layout` is a program with its book-keeping dwords (queued next
   pointers, destinations, branch pointers); `Layout.view` hides them;
   `Layout.Runs s t s' t'` says that from *every* memory holding the program with
   view `s`, the machine reaches view `s'` at `t'`.
5. `Struct`: statements (`Stmt`: assignments, triggers, if, loops with
   break/continue/return, primitives), their meaning `Exec` on views, and
   `Code L r b k st e x`: "the triggers of `L` from entry `e` to exit `x` are
   those emitted for `st`". `C25_structured`: whatever `Exec` says, the machine
   does. `Func`, `Call`: functions, calls and results. `Wp`: `Does L st s Q`, the
   rules used to verify library functions. `Raw`, `Mul`, `Redir`, `Track`, `Queue`,
   `PVar`: code that patches its own actions, next pointers or conditions, and
   variables whose destination and modifier stay visible.
6. `Emit`, `EmitP`, `EmitG`, `Pin`, `StructEx`: a decidable check (`laidB`) that
   concrete blocks at concrete addresses form a well-formed layout, so that the
   examples are closed programs.

### 3.3 Library functions (`Lib`)

Each file models functions of `/repo` as statements or blocks with labels as
universally quantified addresses, and proves what they do for every operand.
`Compare`, `Logic`, `Switch`, `Loops`, `Once`, `Trigger`, `PTrigger` (control
structures); `Ops`, `Shift`, `SelfAdd`, `ConstMulDiv`, `MulDivFn`, `FnPtr`, `NonSeq`, `MulCall`, `Div`, `SDiv`,
`Pow`, `BinSearch`, `Random` (arithmetic); `CurPl`, `ReadTable`, `Read`, `MemBase`,
`MemRead`, `MemReadCp`, `SwitchAct`, `SubRead`, `FlagRead`, `DwBreak`, `MemWrite`, `ByteWrite`, `WordWrite`, `PtrMem`, `DwPtr`, `CpWrite`, `RepMov`, `ByteRw`,
`ByteSeek`, `ByteHist`, `ByteBlock`, `ByteStream`, `CpWriter`, `StrLen`, `StrStr`, `Print`, `PrintAll`, `PrintList`, `ReadEmpty`, `ListLoop`, `LoopUnit2`, `PlayerUnit`, `PlayerExist`, `PlayerLoop`, `GameTick` (memory);
`EpdVar` (`EPD` of a variable); `Ring`, `Stack`, `Pool`, `Arr`, `VArr`
(collections); `Patch`, `PatchFun`, `PatchBlk`, `PatchHist` (`mempatch.py`).

### 3.4 Examples in memory (`Ex`)

For each group of library theorems a closed program (blocks at literal addresses,
symbolic initial values of variables) whose hypotheses are discharged by
computation, with a theorem `run` about the machine started in that memory. They
show that the hypotheses of the general theorems can be met, and that the
`Code`/`CallOk`/... side conditions fit the triggers that are emitted.

### 3.5 Simplifications common to the emitted code

* Labels are addresses; which object gets which address is the allocator's matter
  (C01, C04), the theorems hold for all addresses meeting the disjointness facts.
* A `SeqCompute` batch is modelled as the code compiles it (chunks of triggers);
  the decision *which* form an operator uses by counting references in CPython is
  not modelled, every form is proved instead.
* Conditions and actions other than `Deaths(X)`/`SetDeaths(X)`/`Always`/`Never`
  are outside the machine: triggers containing them are not covered.
* One player's run of the trigger list is modelled; game state changing *between*
  triggers is not (it does not change inside one run).
* Triggers have the preserved flag; the once-flag is modelled where C28 needs it.

## 4. Per property

Status, theorems and what is missing are kept in `MANIFEST.json`; this table is generated from it.

| id | status | how | covered / missing |
|---|---|---|---|
| C01 | proved | invariant relating the conflict table to the occupied dwords | For every list of occupancy maps and every fuel: if the placement returns, no dword is used by two objects. |
| C02 | partial | measure of the remaining candidates; bounds from the table size | Termination and bounds hold; the unconditional claim is false (out-of-bounds read for a dense payload, C02_counterexample); success proved when the last object ends in a free dword. |
| C03 | partial | two interpreters of one list of writes, induction | Holds for aligned write sequences; false for misaligned whole-dword writes (C03_counterexample). |
| C04 | partial | induction on the write history | Holds for factors 1 and 4; WritePack silently loses other factors (C04_counterexample). |
| C05 | partial | expressions as trees; evaluation at a load address | Every sum, difference, product, floor division, remainder and EPD of an expression over an object or forward, over any number of operations and for every load address, provided the scaled place of the object fits in 32 signed bits. The property without this is false: unary minus on an object cannot be evaluated, and a forward set to a constant of 2^30 loses it (C05_counterexample). |
| C06 | partial | BitVec / Int algebra | All operators of RlocInt on the operand classes for which they are right, for every load address; C06_counterexample proves the operands for which the code is wrong. |
| C07 | proved | state machine over histories | All histories of settings and resets of any number of forwards. |
| C08 | proved | state machine of scopes, links compared with a specification on lists | All histories of push/pop of trigger scopes, RawTriggers and labels. |
| C09 | proved | state machine of the block stack, grammar of nested blocks | All histories whose exceptions are not caught; the counterexample shows the stale lookup after a refused, caught pop. |
| C10 | partial | reader and writer on byte lists | Proved for all section maps; partial because the contents of ISOM are replaced when saving (counterexample). |
| C11 | partial | table with ids over histories | All histories for strings that are not empty, on tables from maps without string offsets out of range; both excluded cases are false (counterexamples). |
| C12 | proved | writer/reader round trip | All tables reachable by loading and any history, both entry sizes. |
| C13 | proved | slot table over histories | All histories over any initial section. Packing and unpacking of the 20 bytes is not modelled. |
| C14 | proved | round trip |  |
| C15 | partial | encoder against a decoder written from the format | Rewritten 3.11 line tables decode to the mapped line of the following instruction; the off-by-one and instructions over 8 code units are counterexamples to the full statement. |
| C16 | partial | truth of decoded conditions in a memory | Negated conditions are complementary in every game state, outside the three counterexample families; EUDNot of other conditions (through a boolean) and of variables is exact. |
| C17 | proved | emitted trigger on the machine | All in-place operations with a constant on one dword (=, +=, -=, saturating subtract, \\|=, &=, ^=, ~, unary minus, iabs), as the emitted trigger executed by the machine, for every old value and every constant. |
| C18 | partial | emitted trigger on the machine | In-place shifts are proved for every old value, left shift by 1..32 and right shift by 0..32. The claim is false for a left shift by 0: the emitted trigger would need 65 actions and does not fit (counterexample theorem). |
| C19 | partial | refinement to sequential assignment | SeqCompute for every list of assignments that fits the layout, VProc for every list of actions and variables in one trigger; SetVariables and NonSeqCompute (any order it chooses) are simultaneous when no destination occurs twice and no source is a destination. Without that the property is false: SetVariables([a,b],[b,a]) does not swap (C19_setvariables_swap), NonSeqCompute reorders assignments to one destination (C19_nonseq_order), SeqCompute with a destination of EPD 0 (C19_counterexample). |
| C20 | proved | loop invariant on emitted code | Variable times variable on the trigger machine, also as a call of the function; variable times any constant as a call, with every special case of the table (-1, 0, 1, powers of two through the shared self-adding variable) and the general body; a program in memory. The product of two constants is computed by Python. |
| C21 | proved | loop invariant on emitted code | Division by a variable (including 0), also as a call with constant or variable dividend; division, quotient and remainder by every constant as calls (0, 1, powers of two, others); a program in memory. Two constants are divided by Python. |
| C22 | partial | emitted code, bit extensionality | Every function of bitwise.py between variables, for all operands and all shift amounts, and shifts by every constant up to 32. The full statement is false for x ^ x (counterexample); constant shift amounts above 32 are not covered. |
| C23 | partial | condition construction, case analysis | Exact for constants 0..2^32-1, for variables, and for the two guarded out-of-range directions; the other out-of-range constants give wrong answers (counterexamples proved). |
| C24 | proved | machine steps, restoration of next pointers | EUDBranch in chunks of 16 conditions with self-restoring next pointers; if/else through the structured layer |
| C25 | proved | structured layer over the machine | Nested while/if with break, continue and return as emitted; EUDLoopN runs the body n times, EUDLoopRange for start..end-1. |
| C26 | partial | induction on the cases | All four shapes emitted for a dword at a fixed address are proved to select the right case for every value, any number of cases: binary search, chain with lazily restored pointer (over repeated executions), one-bit pair, jump table (including the bytes of the table). A constant selector outside the mask selects the wrong case (counterexample). Extra actions in the first trigger run exactly when the selected value agrees with the labels on their common bits. Missing: EPDSwitch on a variable address, which goes through CurrentPlayer. |
| C27 | proved | induction on the parts | EUDSCOr / EUDSCAnd chains with any parts (code, constant, negated); EUDAnd / EUDOr too. |
| C28 | partial | histories of executions | Holds for EUDExecuteOnce()() whose body runs to its end, for EUDExecuteOnce()(non-empty conditions) and for plain triggers, over every history.  False, with counterexamples, for extended triggers (more than 16 conditions or 64 actions), for an empty list of conditions and for bodies left by a jump. |
| C29 | proved | induction on the slices |  |
| C30 | partial | emitted code | Proved for current players below 8 and any list of players; for other values of the current player the code sets it to 0, shown by the counterexample. |
| C31 | partial | call/return patching on the machine | direct calls with any argument passing and up to 64 results; calls through function pointers; both in any order for functions without results. The full property is false: after a call through a pointer, a direct call of the same function returns to the caller of the pointer and its results are not stored (C31_direct_after_pointer; a program in memory: ExFnPtr.run). |
| C32 | partial | reader chains, induction on bits | Reads at an EPD through the shared readers (f_dwread_epd, f_epdread_epd, f_maskread_epd with a consecutive mask, byte/word reads with constant sub-offset), f_dwepdread_epd, functions made by f_readgen_epd (with and without _check_empty), the _cp forms with constant and variable offset, f_bread_epd/f_wread_epd with a variable sub-offset below 4 (a word may lie in two dwords), _boolread_epd and _bitread_epd: value, restored current player and frame for all memory contents. Proved wrong: reading the current player itself; _boolread_epd with an offset above 3 gives an old result and leaves the current player changed. Pointer forms: f_bread/f_wread/f_dwread of any pointer in a variable, aligned or not (f_dwread in a program in memory). Partial because the two wrong cases are left out. |
| C33 | proved | table of shared readers over histories | Any history of requests before and after; decreasing and increasing chains; insertions for consecutive masks never fail. |
| C34 | partial | emitted code with frame | Proved: f_dwwrite/f_dwadd/f_dwsubtract_epd for constant and variable arguments, actions with variable player/value/mask, f_bwrite/badd/bsubtract_epd and f_wadd/wsubtract_epd with variable and constant offsets, f_wwrite_epd with variable offset (at offset 3 the word lies in two dwords), _bitwrite_epd with variable offset; frame: no other cell changes. Counterexample: f_dwwrite_epd(v, v). Pointer forms: f_bwrite/f_wwrite/f_dwwrite through any pointer in a variable, aligned or not. The forms at the current player (f_dwwrite_cp, f_dwadd_cp, f_dwsubtract_cp, f_maskwrite_cp, f_bwrite_cp, f_wwrite_cp, with constants or variables) are proved, and run in memory; two cases are wrong and proved so: f_wwrite_cp with the constant offset 3 writes one byte only, and f_bwrite_cp or f_wwrite_cp with a variable offset and a value that does not fit adds to the bytes above. |
| C35 | proved | invariant over histories | Set/add with constants and variables, the game changing the current player at any point, f_getcurpl with any shuffled bit order. f_setcurpl(..., set_modifier=False) is not modelled. |
| C36 | proved | loop invariant on emitted code | f_repmovsd_epd for all counts, contents, sources and destinations (overlap included); f_memcpy, f_memcmp, f_strcmp, f_strcpy, f_strlen_epd, f_strlen and f_strnstr as calls for all lengths, contents and alignments; programs in memory with f_repmovsd_epd, f_memcpy, f_strlen and f_strnstr |
| C37 | proved | per byte refinement, histories | histories of any length of reads, writes (constant and variable), seeks (constant, variable, EPD) and copies of positions of any number of readers, writers and streams, with programs in memory; CPByteWriter: histories of writes, flushes and moves of the current player, and any number of bytes then a flush. Proved besides: copyto(writer) is wrong; CPByteWriter does not cut the first byte of a dword to eight bits; flushing an empty buffer zeroes the dword of the current player. |
| C38 | proved | refinement to lists over histories | Any history of append, popleft, clear, length and unrelated user steps agrees with a bounded list that drops its oldest element when full. popleft on an empty queue is outside the claim; the iteration protocol is not modelled. |
| C39 | partial | refinement to lists over histories | Histories agree with a bounded list as long as no append follows an appendleft on a full deque before the ends are back in step; C39_counterexample shows the code breaks the claim there. Iteration is not modelled. |
| C40 | proved | refinement to lists over histories | Any history of constructor, push, pop and empty on any number of stacks of any capacity, that stays within capacity, together with other assignments of the program; example: a program with a stack in memory, for all pushed values. |
| C41 | proved | refinement to a set of live objects over histories | Histories of alloc, free, field reads and writes and other computations for pools of any size and number of fields; the specification lets the pool choose any object that is not live. Constructors and destructors are code of the user and enter as the other operations. ExPool.run is a program in memory that allocates two objects, writes and reads fields and frees one. When the pool is full the code still runs the constructor on object 0 (not part of the claim). |
| C42 | partial | refinement to independent elements over histories | EUDArray: every history of reads, writes, additions and subtractions through constant and variable arrays, indices and values (also one variable in several roles) equals independent elements; concrete program in memory. EUDVArray: every history of reads and writes through constant and variable arrays, indices and values, including index and value in one variable, likewise, with a concrete program in memory. Not yet: the other in-place item operations of both, EUDVArray with more than one of array, index and value in one variable except index = value. |
| C43 | partial | emitted code on top of C21 | For all dividends and all nonzero divisors the generated code of the three functions computes the documented quotient and remainder (variable divisors as two's complement, constant divisors as the python integer). A constant divisor of 2^31 or more is not read as two's complement (counterexample). The case of two python integers (float division at compile time) is not modelled. |
| C44 | partial | loop invariant; infinite run | Proved for exponents below 2^31 with any base. For larger exponents the claim is false: the function never ends (C44_diverges).. |
| C45 | proved | on top of C46 | The body of the function, for every argument, on top of the proved multiplication and binary search. |
| C46 | partial | loop over bits | Proved for all conditions and different integers as bounds (EUDBinaryMax: if probes do not exceed 32 bits), and for other bounds under the stated conditions on the first probe. False in general: equal bounds, and bounds near 2^32 for EUDBinaryMax (counterexamples). |
| C47 | partial | record stack over histories | Any history of f_dwpatch_epd, f_blockpatch_epd (at most 256 dwords) and f_unpatchall interleaved with user assignments, run by the emitted triggers, restores every patched dword to what it held before its first patch, provided the history is shorter than the 8192 records the pools hold and sources of block patches are not themselves targets. The statement as written is false for longer blocks (C47_long_block: dwords from 256 on are never patched) and block patches leave the source block exchanged. Missing: the pointer form f_blockpatch via f_div, block patches of overlapping blocks. |
| C48 | proved | bit extensionality, allocation histories | Operations touch one bit; any number of booleans get different bits with their initial values. |
| C49 | partial | functions on trigger sections | Default rate: every player runs the same triggers in the same order, for every section (full). Lower rates: the players found from the trigger's bytes are those it applies to, and each runs it once, except preserved all-player triggers, which run twice. The dispatch from a TRIG trigger to its code is taken as given. |
| C50 | proved | structural induction | Iterables raising TypeError midway are not modelled. |
| C51 | proved | dwords of a buffer decoded by the machine | Stated on the dwords written by EUDVarBuffer.WritePayload. |
| C52 | proved | dwords of a trigger decoded by the machine | Stated on the dwords written by _write_trigger; conditions Deaths/DeathsX/Always/Never and actions SetDeaths/SetDeathsX. |
| C53 | partial | emitted code | All operators, all values. The full claim is false when both operands of ^ or -= are the same variable (counterexamples). The choice of form by reference counting is not modelled; every form is proved. |
| C54 | proved | emitted code | Both the in-place form and the form through the shared trigger. C54_counterexample: below the table of deaths the number differs from that of the constant, though it addresses the same dword. |
| C55 | proved |  | For all dwords, placements and repeated calls: the invariant (modifiers SetTo, upper bits of two masked results zero) holds at the start and is kept by each call, so calls can follow each other. The six results are stored by NonSeqCompute in order (eudv.py:882-892). ExDwBreak.run calls both functions in a concrete memory for every x. |
| C56 | proved |  | For every list of operations, every seed and all destinations outside the generator, the code of f_srand, f_getseed, f_rand and f_dwrand (with the call of the multiplication function for 1103515245 and its own calling convention) refines the state machine (seed, memory of the program) given by ROp.spec. Non-vacuity: ExRandom.run has the whole program f_srand(x); f_rand(); f_dwrand(); f_getseed() in memory, for all x. f_randomize, which draws bits from the game, is not modelled. |
| C57 | proved |  | For all arguments and all memories in which the destination bytes are writable and outside the triggers of the program: the code of f_dbstr_adddw (the nested divisions by 10 through the division function, the writes, the patched count), f_dbstr_addptr and f_dbstr_addstr (the loop left through a patched next pointer), each with its calling convention, with EUDByteReader/EUDByteWriter as proved for C37. The numeral is Nat.repr, the digits come from a table, the string is the list of bytes before the first zero; putBytes is the specification of the written memory. Non-vacuity: ExPrint.run has the program o << f_dbstr_adddw(x, n); o << f_dbstr_addptr(o, n); o << f_dbstr_addstr(o, y) with all its functions in memory, for all n, x, y and strings that fit; the divisions by 10 and 16 share their result variables with the division by 4. The literal printing of ObfuscatedBytes is not modelled. |
| C58 | proved |  | C58_print: every destination (constant or variable), every list of literals, decimal numbers, hexadecimal numbers and strings, with or without EOS: the concatenated texts are written, the result is dst plus the length, nothing else changes, and the state for the next call is restored. C58_data: every sequence of literals entered in the shared data keeps each of them backwards and encoded at its place. sub_spec: the loop over an encoded literal for every key, every admissible count and every length. C58_short: a count exists up to 32768 bytes; C58_long: for literals of 46342 bytes or more the range of random.randrange is empty and the call raises. Objects of f.fmt() and unknown types (an error while building) are not modelled. Example in memory with two literals that share data: ExPrint.runL. |
| C59 | proved |  | C59_walk: the loop for any function that reads a node pointer and its EPD, by induction on the list, for every invariant and every body, with EUDBreak, EUDContinue and EUDReturn. C59_list: EUDLoopList with and without break_offset, on top of f_dwepdread_epd. C59_unit: EUDLoopUnit on top of f_cunitepdread_epd; unit_read: the bit tests give pointer and EPD of each of the 1700 units. C59_sprite: EUDLoopSprite goes over the lists of all 256 rows; EUDBreak in its body does not leave the loop but goes on with the next row. Examples in memory: three bullets and three units, and three sprites in two rows, are counted and their pointers added up. EUDLoopPlayerUnit is C61; EUDLoopNewUnit is not modelled. |
| C60 | proved |  | C60_unit2: for every body and every assertion kept both by the body for a unit that is there and by passing over a unit that is not. The fields that steer the loop are set at its start, so nothing is assumed about them. Example in memory: three of 1700 units are there; they are counted and their pointers added up by a body that also spoils the loop variable. |
| C61 | proved |  | C61_player: for every list of units of a player and every body that keeps the units after the next pointer. The hand-written call of the read function (CallGRel, callG_code) is the SeqCompute of the same assignments in one trigger; the order of its independent actions differs from the source. The player is a constant or a variable whose EPD has been computed into one. Example in memory: three units are counted and their pointers added up by a body that clears both loop variables. |
| C62 | proved |  | C62_exist: the call of the function, for every argument. C62_loop: the loop, for every call with that effect. pex_code: the jump table, the eight cases and the default. EUDPlayerLoop is C64. Example in memory: the players 1, 3 and 6 that have triggers are counted, for every state of the lists of triggers. |
| C63 | partial |  | The statement is false for force=0: encode_force accepts 0 for the first force, but `not force` holds for 0, so that the filter is ignored (C63_force0). C63_pick_partial (the players) and C63_raise_partial (the exception) are the statement for all other filters, for maps with forces 0 to 3. Only integers are modelled as forces. |
| C64 | proved |  | C64_loop: the loop, for every call of f_playerexist with the effect of C62_exist and every call of f_getcurpl with the effect of C64_get; the body may end in any way but has to keep the cache invariant of C35, the loop variable and the variable that holds the old current player. If the body returns from the function, the current player is not given back. Example in memory: the players in the game are counted by a body that changes the current player, for every current player and every state of the lists of triggers. |
| C65 | proved |  | C65_tick: one call, from the invariant that the condition compares with the cached tick and the reader is at rest. C65_history: any number of calls; between them any functions may change the memory except the cached tick, the condition, the modifier of the current player cache and the sum of the readers. The read is that of C32_epd. Example in memory: the emitted function with the table of readers, for every tick and every cached tick. |

## 5. Not expressible / not modelled

* The epScript C++ parser and its generated Python, MPQ reading/writing, file I/O,
  localisation, plugin loading, Python interpreter behaviour (reference counts,
  frames), `freeze`/`vectorreloc` obfuscation.
* Game engine behaviour other than the trigger primitives of section 2 (units,
  locations, sounds, string rendering, screen messages).
* `scdata`, `eudlib/locf`, `unitgroup`, `wireframe` and other tables of game
  constants: their claims are about the game, not about the code.
* Trigger execution by several players in one frame is modelled only as
  "whichever player runs" (current player is a dword).

## 6. Axioms used

Checked with `#print axioms` on all theorems of `MANIFEST.json`
(`2026-11-17`): every theorem depends on a subset of `propext`, `Classical.choice`,
`Quot.sound`. There is no `axiom`, `sorry`, `native_decide` or `bv_decide` in the
project; `decide +kernel` evaluates in the kernel and adds no axiom.

## 7. Testing the theorems

`seeded/LOG.jsonl` has one line per seeded bug: the definition edited in a scratch
copy, the edit, the claim it breaks, the theorems that stopped proving and, if
none did, what was tightened.
