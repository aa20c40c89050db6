# Formal model of sysprog21/shecc in Lean 4

## Layout

* `lean/Verif/Spec/` – specifications, written from the architecture manuals, the ELF format and the C language and independent
  of the compiler's code: instruction decoders and machines for RV32IM and ARMv7-A, C arithmetic, ELF reader, graph notions
  (paths, dominance, liveness), semantics of statements, types, preprocessing, ...
* `lean/Verif/Model/` – the model of the code, function by function; each definition cites the file and lines it models and
  names its simplifications.
* `lean/Verif/Lemmas/` – helper lemmas.
* `lean/Verif/Props/` – the property theorems, with `example`s that show that their hypotheses are met by non-trivial cases, and
  negation witnesses (theorems ending in `_wrong`, `_witness`, ...) where the code violates the full property.
* `seeded/LOG.jsonl` – wrong programs against which the theorems were tested.

## Conventions of the model

* C `int` is `BitVec 32`; arithmetic wraps (shecc is built and self-hosted with wrapping ints, and the generated code wraps).
  Where the code stops with `error(...)`/`abort()`, or runs into undefined behaviour, the model returns a distinct outcome
  (`none`, `Except.error`, ...).
* Pointers into lists and arrays become indices; linked lists become `List`s; mutation becomes returning the new state; loops
  become structural recursion, well-founded recursion, or recursion on fuel *with a theorem that the fuel suffices*.
* Fixed array sizes that the code does not check (`MAX_TYPES`, operand stack, work lists, ...) are unbounded in the model unless a
  property is about them.
* A theorem with suffix `_partial` proves its property under a restriction; its comment states the full property and what is
  missing. In nearly all cases the full property is *false* of the code, and a witness beside it shows that.

## Properties: what is modelled and how it is proved

| id | property | status | modelled | method |
|----|----------|--------|----------|--------|
| C01 | RV32 register-form instruction words are faithful | proved | `rv_encode_*` and wrappers (`Model/Riscv`) | round trip with an independent RV32 decoder; bit extensionality; `iff` for the range checks |
| C02 | RV32 I-type immediates are exact or rejected | proved | `rv_encode_*` and wrappers (`Model/Riscv`) | round trip with an independent RV32 decoder; bit extensionality; `iff` for the range checks |
| C03 | RV32 store offsets are exact or rejected | proved | `rv_encode_*` and wrappers (`Model/Riscv`) | round trip with an independent RV32 decoder; bit extensionality; `iff` for the range checks |
| C04 | RV32 conditional branches reach the intended target or are rejected | proved | `rv_encode_*` and wrappers (`Model/Riscv`) | round trip with an independent RV32 decoder; bit extensionality; `iff` for the range checks |
| C05 | RV32 jump offsets are exact within the jal range | proved | `rv_encode_*` and wrappers (`Model/Riscv`) | round trip with an independent RV32 decoder; bit extensionality; `iff` for the range checks |
| C06 | A lui/addi pair materialises exactly the requested 32-bit value | proved | `rv_hi`, `rv_lo` (`Model/Riscv`) | execution of the two decoded words on the RV32 machine |
| C07 | ARM register-form data-processing words are faithful | proved | `src/arm.c` (`Model/Arm`) | round trip with an independent ARM decoder; negation witnesses |
| C08 | ARM modified immediates denote the requested value or are rejected | proved | `src/arm.c` (`Model/Arm`) | round trip with an independent ARM decoder; negation witnesses |
| C09 | A movw/movt pair materialises exactly the requested 32-bit value | proved | `src/arm.c` (`Model/Arm`) | round trip with an independent ARM decoder; negation witnesses |
| C10 | ARM load/store offsets are exact in the 12-bit range | proved | `src/arm.c` (`Model/Arm`) | round trip with an independent ARM decoder; negation witnesses |
| C11 | ARM branches reach the intended target | proved | `src/arm.c` (`Model/Arm`) | round trip with an independent ARM decoder; negation witnesses |
| C12 | RISC-V software division and modulo are C division and modulo | proved | software division and multiplication of `src/riscv-codegen.c` (`Model/RiscvCodegen`) | execution of the emitted words on the RV32 machine; loop invariant over the 32 rounds |
| C13 | RISC-V software multiplication is 32-bit multiplication | proved | software division and multiplication of `src/riscv-codegen.c` (`Model/RiscvCodegen`) | execution of the emitted words on the RV32 machine; loop invariant over the 32 rounds |
| C14 | ARM software division and modulo are C division and modulo | partial | software division of `src/arm-codegen.c` (`Model/ArmCodegen`) | execution of the emitted words on the ARM machine (flags, stack); loop invariant; witness for equal registers |
| C15 | RISC-V arithmetic, comparison and bitwise IR operations compute the C result | proved | `emit_ph2_ir` of both back ends | execution of the decoded words on the machine models |
| C16 | ARM arithmetic, comparison and bitwise IR operations compute the C result | proved | `emit_ph2_ir` of both back ends | execution of the decoded words on the machine models |
| C17 | Constant loads are exact on both back ends | proved | `emit_ph2_ir` of both back ends | execution of the decoded words on the machine models |
| C18 | RISC-V: predicted instruction size equals emitted size | proved | `update_elf_offset` and `emit_ph2_ir` | case analysis over all opcodes and operands |
| C19 | ARM: predicted instruction size equals emitted size | partial | `update_elf_offset` and `emit_ph2_ir` | case analysis over all opcodes and operands |
| C20 | Every jump and call lands on the first instruction of its target block | partial | `cfg_flatten`, `code_generate` (`Model/Layout`) | induction over instruction and block lists |
| C21 | A compiled conditional branch takes the right edge | proved | `emit_ph2_ir` of both back ends | execution of the decoded words on the machine models |
| C22 | Peephole fusion preserves program meaning | partial | `src/peephole.c` (`Model/Peephole`) | semantics of the IR on an abstract machine (`Spec/IrMachine`); equality outside the dropped register; witnesses |
| C23 | Integers in the output file are little-endian and recoverable | proved | `src/elf.c` (`Model/Elf`) | byte-list model; independent ELF reader (`Spec/ElfFile`, `Spec/Segment`) |
| C24 | ELF header and section table describe the file that is written | proved | `src/elf.c` (`Model/Elf`) | byte-list model; independent ELF reader (`Spec/ElfFile`, `Spec/Segment`) |
| C25 | String literals are found at the address the code uses | partial | `src/elf.c` (`Model/Elf`) | byte-list model; independent ELF reader (`Spec/ElfFile`, `Spec/Segment`) |
| C26 | The function table is a map from names to first-registered entries | proved | hash map and function table of `src/globals.c` (`Model/Globals`) | refinement to a finite map over all operation sequences |
| C27 | Hash bucket indices are always in range | proved | hash map and function table of `src/globals.c` (`Model/Globals`) | refinement to a finite map over all operation sequences |
| C28 | Function registration is idempotent and find_func agrees with it | proved | hash map and function table of `src/globals.c` (`Model/Globals`) | refinement to a finite map over all operation sequences |
| C29 | Arena allocations never overlap and stay inside their block | proved | arena, source buffer, alias list, scopes of `src/globals.c` (`Model/Globals`) | invariants over all operation sequences |
| C30 | The source buffer stores exactly what was pushed | proved | arena, source buffer, alias list, scopes of `src/globals.c` (`Model/Globals`) | invariants over all operation sequences |
| C31 | #define / #undef lookups follow the recorded history | proved | arena, source buffer, alias list, scopes of `src/globals.c` (`Model/Globals`) | invariants over all operation sequences |
| C32 | Variable lookup respects lexical scope | proved | arena, source buffer, alias list, scopes of `src/globals.c` (`Model/Globals`) | invariants over all operation sequences |
| C33 | String length and comparison match C | proved | strings and number formatting of `lib/c.c` (`Model/LibcStr`) | byte-memory model, loop invariants; C text of a number as specification (`Spec/CText`) |
| C34 | String and memory copies copy exactly what C says | proved | strings and number formatting of `lib/c.c` (`Model/LibcStr`) | byte-memory model, loop invariants; C text of a number as specification (`Spec/CText`) |
| C35 | %d prints the decimal representation of every int | proved | strings and number formatting of `lib/c.c` (`Model/LibcStr`) | byte-memory model, loop invariants; C text of a number as specification (`Spec/CText`) |
| C36 | %x and %o print the hexadecimal/octal representation of every int | proved | strings and number formatting of `lib/c.c` (`Model/LibcStr`) | byte-memory model, loop invariants; C text of a number as specification (`Spec/CText`) |
| C37 | Width and zero padding produce a field of at least the requested width | proved | strings and number formatting of `lib/c.c` (`Model/LibcStr`) | byte-memory model, loop invariants; C text of a number as specification (`Spec/CText`) |
| C38 | snprintf never writes past the size it was given | partial | strings and number formatting of `lib/c.c` (`Model/LibcStr`) | byte-memory model, loop invariants; C text of a number as specification (`Spec/CText`) |
| C39 | malloc returns memory that is large enough and not in use | partial | `malloc`, `free`, `calloc`, `__free_all` (`Model/LibcHeap`) | state machine over all histories, heap invariant; negation witness |
| C40 | Double frees are detected until the block is reused | proved | `malloc`, `free`, `calloc`, `__free_all` (`Model/LibcHeap`) | state machine over all histories, heap invariant; negation witness |
| C41 | calloc returns zeroed memory | proved | `malloc`, `free`, `calloc`, `__free_all` (`Model/LibcHeap`) | state machine over all histories, heap invariant; negation witness |
| C42 | fgets reads at most n-1 characters and stops after a newline | proved | `fgets`, `fgetc` (`Model/LibcHeap`) | induction over the stream |
| C43 | The lexer recovers the tokens that were written | partial | `src/lexer.c` (`Model/Lexer`) | round trip from written tokens (`Spec/CLex`); negation witnesses |
| C44 | Whitespace between operators is significant | partial | `src/lexer.c` (`Model/Lexer`) | round trip from written tokens (`Spec/CLex`); negation witnesses |
| C45 | String literal escapes denote the right characters | partial | `src/lexer.c` (`Model/Lexer`) | round trip from written tokens (`Spec/CLex`); negation witnesses |
| C46 | Comments never affect the token stream | partial | `src/lexer.c` (`Model/Lexer`) | round trip from written tokens (`Spec/CLex`); negation witnesses |
| C47 | Numeric literals have their C value | proved | literals, `read_expr` operator stack, `#if` conditions, constant initialisers (`Model/Parser`) | grammar and values of `Spec/CExpr`; induction over expressions; negation witnesses |
| C48 | Infix expressions are grouped by C precedence and left associativity | partial | literals, `read_expr` operator stack, `#if` conditions, constant initialisers (`Model/Parser`) | grammar and values of `Spec/CExpr`; induction over expressions; negation witnesses |
| C49 | #if conditions have their C value | partial | literals, `read_expr` operator stack, `#if` conditions, constant initialisers (`Model/Parser`) | grammar and values of `Spec/CExpr`; induction over expressions; negation witnesses |
| C50 | Constant folding agrees with run-time evaluation | partial | `const_folding` (`Model/ConstFold`) | agreement with the run-time meaning; execution of instruction lists before and after; witnesses |
| C51 | Every reachable block is laid out exactly once, in reverse post-order | proved | traversals, `build_rpo`, `build_idom`, `build_r_idom`, `build_df` (`Model/Cfg`) | depth-first-search invariants, fixpoint argument with explicit iteration bound, path-based definitions of dominance (`Spec/CGraph`) |
| C52 | Immediate dominators are correct | proved | traversals, `build_rpo`, `build_idom`, `build_r_idom`, `build_df` (`Model/Cfg`) | depth-first-search invariants, fixpoint argument with explicit iteration bound, path-based definitions of dominance (`Spec/CGraph`) |
| C53 | Liveness analysis is exact | partial | `liveness_analysis` (`Model/Live`) | path-based definition of liveness (`Spec/CLive`); fixpoint with explicit bound |
| C54 | Common subexpression elimination preserves meaning | partial | `cse` (`Model/Cse`) | execution of the instruction list before and after; witnesses |
| C55 | Dead code elimination keeps everything with an observable effect | proved | `dce_*` (`Model/Dce`) | least closed set (`Spec/CDce`); worklist invariant; path effects |
| C56 | No two live variables share a register and no variable is in two registers | proved | `src/reg-alloc.c` (`Model/RegAlloc`) | register-file invariant over all instruction sequences; forward simulation of a block by the allocated block, memory with frame and globals; witnesses |
| C57 | Register allocation of a block preserves its meaning | partial | `src/reg-alloc.c` (`Model/RegAlloc`) | register-file invariant over all instruction sequences; forward simulation of a block by the allocated block, memory with frame and globals; witnesses |
| C58 | Stack objects are word aligned and large enough | proved | `src/reg-alloc.c` (`Model/RegAlloc`) | register-file invariant over all instruction sequences; forward simulation of a block by the allocated block, memory with frame and globals; witnesses |
| C59 | The embedded libc is the libc source | proved | `Model/Driver`, `Model/Inliner`: tools/inliner.c as a program: the buffer of 65536 bytes, the files, `main` | C string literal meaning (`Spec/CDriver`); induction over the lines; one write after another is the write of both (`write_seq`), so the program refines `loadFrom`; size by recursion over the lines |
| C60 | Command-line options are position independent | proved | `tools/inliner.c`, `main` (`Model/Driver`) | C string literal meaning (`Spec/CDriver`); fold over the arguments |
| C61 | Emitted code refines the register-allocated IR | partial | both back ends end to end | forward simulation of the IR machine by the instruction-set machine over whole programs, any number of steps |
| C62 | Start-up and exit | partial | `code_generate` start-up, exit and `__syscall` code | execution on the machine models from the loader's state |
| C63 | __syscall | partial | `code_generate` start-up, exit and `__syscall` code | execution on the machine models from the loader's state |
| C64 | printf-family text | proved | `__format`, `__format_to_buf` (`Model/LibcStr`) | specification of conversion (`Spec/CPrintf`); induction over the format |
| C65 | malloc is best fit | proved | `malloc`, `free`, `calloc`, `__free_all` (`Model/LibcHeap`) | state machine over all histories, heap invariant; negation witness |
| C66 | All heap memory is released at exit | proved | `malloc`, `free`, `calloc`, `__free_all` (`Model/LibcHeap`) | state machine over all histories, heap invariant; negation witness |
| C67 | Constant initialisers of globals have their C value | partial | literals, `read_expr` operator stack, `#if` conditions, constant initialisers (`Model/Parser`) | grammar and values of `Spec/CExpr`; induction over expressions; negation witnesses |
| C68 | Dominance frontiers are exact | partial | traversals, `build_rpo`, `build_idom`, `build_r_idom`, `build_df` (`Model/Cfg`) | depth-first-search invariants, fixpoint argument with explicit iteration bound, path-based definitions of dominance (`Spec/CGraph`) |
| C69 | Use of an object-like macro equals its value | partial | aliases in the lexer, `read_preproc_directive` (`Model/Preproc`) | text-level specification (`Spec/CPreproc`) |
| C70 | Conditional groups select exactly one part | partial | aliases in the lexer, `read_preproc_directive` (`Model/Preproc`) | text-level specification (`Spec/CPreproc`) |
| C71 | SSA construction preserves executions | partial | `ssa_build` (`Model/SsaBuild`) | path-wise simulation for uninterpreted instruction semantics; renaming stack invariants over the dominator tree; dominance-frontier argument for φ placement |
| C72 | SSA form is valid | proved | `ssa_build` (`Model/SsaBuild`) | path-wise simulation for uninterpreted instruction semantics; renaming stack invariants over the dominator tree; dominance-frontier argument for φ placement |
| C73 | Control statements are translated faithfully | partial | `read_body_statement`, `read_expr`, logical operators, `?:`, loops, `switch` (`Model/Stmt`) | big-step semantics of statements with uninterpreted actions (`Spec/CStmt`); forward and backward simulation by runs of the emitted graph; induction over statements and derivations |
| C74 | Logical operators and ?: evaluate only what is needed | partial | `read_body_statement`, `read_expr`, logical operators, `?:`, loops, `switch` (`Model/Stmt`) | big-step semantics of statements with uninterpreted actions (`Spec/CStmt`); forward and backward simulation by runs of the emitted graph; induction over statements and derivations |
| C75 | The control-flow graph records every edge at both ends | partial | `read_body_statement`, `read_expr`, logical operators, `?:`, loops, `switch` (`Model/Stmt`) | big-step semantics of statements with uninterpreted actions (`Spec/CStmt`); forward and backward simulation by runs of the emitted graph; induction over statements and derivations |
| C76 | sizeof and member offsets follow the declarations | partial | type declarations (`Model/Types`) | declarative types and sizes (`Spec/CTypes`); invariant between type table and environment over all declaration sequences |
| C77 | Members of a structure do not overlap | partial | type declarations (`Model/Types`) | declarative types and sizes (`Spec/CTypes`); invariant between type table and environment over all declaration sequences |
| C78 | Enumeration constants have the values of C | proved | type declarations (`Model/Types`) | declarative types and sizes (`Spec/CTypes`); invariant between type table and environment over all declaration sequences |
| C79 | Expressions have the value C gives them | partial | `read_expr`, `read_expr_operand`, `read_lvalue`, `read_func_parameters`, `read_body_assignment` on tokens (`Model/ExprGen`) | relation between token sequences and typed expressions (`Spec/CSyntax`), evaluation relation (`Spec/CEval`); the emitted first-phase code is run on an arbitrary machine; mutual induction over the derivation of the written expression; witnesses on a concrete machine |
| C80 | Assignments change what C says they change | partial | `read_expr`, `read_expr_operand`, `read_lvalue`, `read_func_parameters`, `read_body_assignment` on tokens (`Model/ExprGen`) | relation between token sequences and typed expressions (`Spec/CSyntax`), evaluation relation (`Spec/CEval`); the emitted first-phase code is run on an arbitrary machine; mutual induction over the derivation of the written expression; witnesses on a concrete machine |
| C81 | String literals are placed in order, terminated, and referred to by their own address | proved | `read_expr`, `read_expr_operand`, `read_lvalue`, `read_func_parameters`, `read_body_assignment` on tokens (`Model/ExprGen`) | relation between token sequences and typed expressions (`Spec/CSyntax`), evaluation relation (`Spec/CEval`); the emitted first-phase code is run on an arbitrary machine; mutual induction over the derivation of the written expression; witnesses on a concrete machine |
| C82 | Register allocation preserves the meaning of a function | partial | the loop over blocks, jumps and implicit returns of `reg_alloc` (`Model/RegAlloc`: `allocBlocks`, `wantJump`, `implicitReturns`) on top of the block model of C57 | `Spec/RaFn` gives big-step execution of a function in SSA form; induction over it, with C57 for each block; the peephole pass is handled by a weakest precondition over the allocator's code, insensitive to registers not used later (`Wp.peep`); that the allocator gave a frame word to every variable before it is needed is a static invariant of the allocator (`Lemmas/RaKept`): a variable that is needed later has a frame word or sits in a register marked for storing; by induction over the layout, in which every block follows some predecessor |
| C83 | Calls between functions, to any depth | partial | the output of the allocator for every function, placed by `cfg_flatten`, on the machine of the second-phase instructions (C19/C62) | `Spec/SsaProgram`: big-step semantics of a program of several functions with frames and hidden stack; induction over the depth of calls, using C82 for each function; the frame conditions (what a callee may change) are part of the invariant |
| C84 | Global variables are laid out apart and initialised | proved | the handling of the global block in `reg_alloc` and of global declarations in the parser (`Model/GlobalInit`) | `Spec/CGlobals`; induction over the declarations: closed form of the emitted code, offsets and frame size, then execution |
| C85 | From the loader to exit: the compiled program does what the source does | partial | everything from SSA form (after the optimisation passes), through register allocation and the peephole pass, to the image | composition of C84, C83, the layout lemmas and C62 |
| C86 | The analyses give register allocation what it relies on | partial | `build_rpo`, `build_reversed_rpo`, `bb_solve_locals`, `update_consumed`, `liveness_analysis` (`Model/Cfg`, `Model/Live`), connected to the allocator's input in `Spec/RaSource` | `Spec/RaSource` says what a function in SSA form is (variables are read only where assigned on every path) independently of the analyses; the fixed point of the liveness loop, the maximality of recorded uses and the depth-first order give each condition of C82 (`Lemmas/RaSource2`) |
| C87 | SSA form takes the same branches | partial | `ssa_build` as in C71 | `Spec/SsaExec` executes a graph over any names, following branches; executions are cut into blocks (`Lemmas/ExecBlocks`); C71 is used with a machine whose world also records the operands of branches, along the path taken so far: equal records mean equal branches, so by induction both executions follow the same path |
| C88 | From C statements to SSA form | partial | the translation of statements (C73) followed by `ssa_build` (C71) | composition of C73 and C87; that branches stand only at the end of blocks and which blocks exist are further invariants of the translation (`Post.tail`, `Post.fresh`) |
| C89 | Function-like macros expand as the text C prescribes | partial | function-like macros in expressions: `#define`, the scan for arguments, the jumps of the lexer, `read_expr_operand` (`Model/Macro`) | `Spec/CMacro` defines textual substitution; the reader is shown to produce the tree of the substituted text by induction over expressions, with the tokens actually lexed (`Spells`) as the invariant across jumps |
| C90 | Standard output, files and exit do what C prescribes | partial | `printf`, `sprintf`, `snprintf`, `exit`, `abort`, `fopen`, `fclose`, `fputc`, `fgetc` (`Model/LibcIo`) on top of `__format_to_buf` (C64) and the heap (C66) | `Spec/CFiles` specifies the system calls; induction over the bytes written and read |
| C91 | Included files are put in place of their #include lines | partial | `load_source_file` (`Model/Source`) on top of `fgets` (C42) | `Spec/CSource` defines the text of a tree of files; induction over its derivation, and over the pieces into which `fgets` cuts long lines |
| C92 | The compiled program makes every system call of its source, even if it never ends | partial | as C85: register allocation, peephole pass, layout and code generation on functions in SSA form | `Spec/SsaReach` gives executions up to a call in the middle of a block of some active function; a weakest precondition for reaching a call (`Lemmas/RaStop`), a block up to a call in its middle (`Lemmas/RaStop2`), induction over the depth of active functions, and composition with C84, C62 and C63 |
| C93 | Dead code elimination does not change what a function does | partial | `dce_insn`, `dce_sweep` (`Model/Dce`, `Model/DceFn`) after the reversed order, post-dominators and reverse frontiers of `Model/Cfg` | `Lemmas/PostDom`: with frontiers closed under marking, all paths from a removed branch meet at its nearest useful post-dominator without passing a useful block; then simulation of executions (`RaFn.Exec`, `RaFn.Reach`) over states that differ in lost variables |
| C94 | Constant folding does not change what a function does | partial | `foldBlocks` (`Model/ConstFold`) and executions `RaFn.Exec`, `RaFn.Reach` | invariants of C50 on pairs of instructions; induction over executions with the path so far: constants assigned on it have their recorded value |
| C95 | A program's executable does what its statements say | partial | `CProg.Call`/`Exits`: whole programs executed over statement trees with byte memory and answered calls; `Optimize.optFn`: the interleaved loop of `optimize` (src/ssa.c:1536-1552); `CProg.Compiled`: the data of all passes of one function | simulation from named to numbered variables (`Lemmas/Link*`), then composition of C88, C98, C93, C83, C85; induction over the call depth |
| C96 | Function bodies are read as C reads them and mean what C says | partial | `Model/Body`: `read_body_statement`, `read_code_block`, `read_func_body`, declarations, scopes, `&&`/`||`, `?:`, prefix `++`/`--` (src/parser.c:522-581, 1019-1236, 1780-1861, 2375-3162), yielding the statement trees of `Model/Stmt`; `Spec/CBody`: written bodies and their execution | induction over the derivation of the written body: the parser's recursion is followed token by token (`Lemmas/Body1-5`), each tree simulates the execution; monotonicity in the recursion bound (`Lemmas/Fuel`) gives uniqueness |
| C97 | A program's executable does what its text says | partial | `Spec/CBodyProg`: whole programs executed as written | C96 for each function composed with C95, induction over the call depth |
| C98 | Folding and common subexpression elimination together preserve a function | partial | `Optimize.optFn`, `Cse.cse`, `ConstFold.const_folding`: the interleaved loop of `optimize` (src/ssa.c:1526-1552); `Spec/CCse`: executions up to a point, first and repeated reads | invariant of the loop relating the instructions before and after block by block (`Lemmas/CseFn1`, `CseFn2`): kept, folded, or an addition and a read that became a copy; then simulation of executions up to the sums no longer computed |
| C99 | A program is read as it is written | partial | `Model/Top`: `read_inner_var_decl`, `read_parameter_list_decl`, `read_global_decl`, `read_global_assignment`, `read_global_statement`, `parse_internal` (src/parser.c:522-604, 2079-2349, 3144-3392), on top of `Model/Body` and `Model/Types`; `Spec/CUnit`: programs as written and what is in scope where | induction over the derivation of the written program with the relation between declarations and tables (`Lemmas/Top1-3`); monotonicity in the recursion bound (`Lemmas/TopFuel`) gives uniqueness; C96 for bodies, C76 for types, C49 for initial values |
| C100 | From the text of a program to the exit of its executable | partial | `Top.kind`, `Top.Globals`: the storage of the global variables in the tables (src/reg-alloc.c:248-277); `Spec/CWhole`: execution of a whole program | C99 gives the trees, the initial values and the storage; then C97's composition of C96 with C95, and C84 |
| C101 | Errors are reported where they are | partial | `Model/Diag`: `error` (src/globals.c:957-990) and `#error` (src/parser.c:432-443) over the contents of the source buffer; `Spec/CDiag`: the line and column of a position | direct, by induction over the two loops; the failures are proved in general (overruns, next line) and for a text |
| C102 | Reading a program ends | partial | `lex_token_internal` (Model/Lexer), the loops that skip tokens (Model/Skip), and the parser of Model/ExprGen, Model/Body and Model/Top with its recursive calls as a parameter (Model/Calls).  A parser whose calls at depth n are answered by arbitrary functions S is `runs n S`; that the models are `runs n failing` is proved (`C102_models`), so Model/Calls is not trusted. | Token counts: every function leaves fewer tokens than it was given, with ranks below ten between functions called on the same tokens, by induction on the depth for two arbitrary S and S' (Lemmas/Ends, Lemmas/TopEnds).  Lexer: induction on the length of the text (Lemmas/LexEnds).  Skipping loops: induction on the sequence of tokens (`Spec/CEnds.Scan`); that they do not end, by induction on the number of turns. |
| C103 | The control-flow graph of a function is well formed | partial | `Model/Stmt`: the blocks and edges made by the parser (`bb_create`, `bb_connect`) for statements, `&&`, `||`, `?:`; `Spec/CFlow`: which statements have an end that can be reached | induction over the statement trees with a relation between the state before and after (`Lemmas/StmtShape`, `StmtShape2`): where edges may lead, which blocks get code, and that edges start only at blocks that can be reached if the current block can, for an arbitrary set closed under edges (`StmtWays`, `StmtWays2`: every block entered has a way on; `StmtOut`: and a way to the exit, tracking the blocks whose edges are still missing); the failure is proved for all graphs from invariants of `build_idom` |
| C104 | Names that the compiler makes up never clash | proved | `Model/Names`: `gen_name`, `gen_label` on the model of `sprintf`; the requests of a run as a list | C64 gives the text of each request; induction over the requests; decimal numerals are injective |
| C105 | The compiler's tables are allocated and released without touching dead memory | partial | `Model/Release`: the heap as a map from addresses to objects, reads, writes and `free` of absent objects undefined; `global_init`, `global_release`, `add_block`, `arena_*`, `hashmap_*`, `add_func`, `source_*`; allocator and contents of fresh memory arbitrary | invariant: the heap holds exactly the objects of the lists behind the globals (`Lemmas/Release`), kept by each operation; release peels the list off from the front; the chains of the map refine `Model/Globals` |
| C106 | The lists of uses stay intact while expressions are eliminated | partial | `Model/UseChain`: elements of the lists, heads and tails of the variables; access to a released element or through null undefined; `use_chain_add_tail`, `use_chain_delete`, `use_chain_build`, `cse` with its loop on linked instructions; addresses arbitrary | invariant: doubly linked lists, disjoint for different variables (`Lemmas/UseChain`), and blocks in which a set of additions has been replaced (`Lemmas/CseInsn`); induction over the list walked and over the calls; refinement of `Model/Cse` |

No property of the list is out of reach of a model in principle; what each partial theorem leaves out is said in its comment and in
`MANIFEST.json`.

## Trusted base

1. Lean 4.33.0's kernel. Nothing rests on compiled evaluation: closed facts are proved by `decide` or `rfl`, evaluated by the
   kernel. Mathlib is available but only core Lean and the modules imported at the top of the files are used.
2. Axioms. No axiom is declared in the project. Per theorem of `MANIFEST.json` (from `#print axioms`):

   * no axioms: `C31_redefinition_resurfaces`, `C31_redefinition_ignored`, `C34_memcpy_overlap_witness`, `C41_overflow_witness`, `C60_undocumented`, `C102_stops`.
   * propext: `C50_host_trap`, `C50_dead_division_crashes`, `C70_nested_in_skipped`, `C70_nested_then_else`, `C70_unterminated`, `C73_return_increment_wrong`, `C73_condition_increment_wrong`, `C73_for_increment_wrong`, `C73_empty_switch_wrong`, `C73_dead_code_aborts`, `C74_operand_increment_wrong`, `C76_alias`, `C76_name_space`, `C76_undeclared`, `C89_define`, `MacroEx.C89_rest_joins_call`, `MacroEx.C89_rest_joins_call_sub`, `MacroEx.C89_brackets_in_argument`, `MacroEx.C89_nested_call`, `MacroEx.C89_parameter_named_like_argument`, `Io.C90_old_tail_kept`, `Io.C90_missing_file`, `Source.C91_missing`, `C106_same_operand_wrong`.
   * Quot.sound, propext: `C01_rtype`, `C02_nop`, `C05_jal_out_of_range_silently_wrong`, `C07_dp_reg`, `C07_shift_mul`, `C07_reglist`, `C11_branch_target`, `C16_assign`, `C18_rv_size`, `C19_arm_size_partial`, `C19_arm_self_assign_wrong`, `C20_arm_self_move_wrong`, `C22_same_operand_wrong`, `C22_live_intermediate_wrong`, `C22_creates_self_move`, `C26_get`, `C26_contains`, `C26_replace_fails`, `C29_overflow`, `C29_reset_not_zeroed`, `C30_source`, `C32_scope`, `C32_unique`, `C33_order_ascii`, `C33_order_riscv_witness`, `C37_length`, `C38_witness`, `C39_witness`, `C48_shift_wrong`, `C48_value_stack_overflow`, `C50_values`, `C50_fold_preserves_partial`, `C50_address_taken_wrong`, `C53_endless_loop_missed`, `C54_cse_preserves_partial`, `C54_replaced_where_dominated`, `C54_store_between_wrong`, `C54_other_read_wrong`, `C55_kept_iff_needed`, `C55_redirect_nearest_useful`, `C55_edges_after_removal`, `C55_removal_preserves_partial`, `C56_registers_empty_between_blocks`, `C57_second_operand_spares_first`, `RaWitness.C57_high_pressure_witness`, `RaWitness.C57_indirect_witness`, `RaWitness.C57_assign_witness`, `RaWitness.C57_call_witness`, `RaWitness.C57_func_write_witness`, `C62_gp_constant`, `C67_mod_wrong`, `C67_bit_ops_refused`, `C68_unreachable_pred_crashes`, `C70_groups_partial`, `C70_unnested_partial`, `C78_enum`, `C94_example`, `C98_no_store`, `CseEx.C98_example`, `C102_models`, `C106_lists`, `C106_built`, `C106_only_element_wrong`.
   * Classical.choice, Quot.sound, propext: `C02_itype_reject`, `C02_itype`, `C02_shift`, `C03_store_reject`, `C03_store`, `C04_branch_reject`, `C04_branch`, `C05_jal`, `C06_lui_addi`, `C07_conditions`, `C08_modified_imm`, `C08_add_negative`, `C08_negative_truncated`, `C09_movw_movt`, `C10_transfer`, `C10_out_of_range_silently_wrong`, `C11_branch`, `C12_softdiv`, `C12_softdiv_zero`, `C13_softmul`, `C14_softdiv_partial`, `C14_softdiv_zero`, `C14_mod_same`, `C14_same_register_wrong`, `C15_binary`, `C15_unary`, `C15_assign`, `C16_binary`, `C16_unary`, `C17_rv_constant`, `C17_rv_address`, `C17_rv_data_address`, `C17_arm_constant`, `C17_arm_address`, `C17_arm_data_address`, `C20_rv_layout`, `C20_arm_layout`, `C21_rv_branch`, `C21_arm_branch`, `C22_fusion_partial`, `C22_block_partial`, `C23_write_int`, `C24_elf`, `C24_add_symbol`, `C25_rv_literal`, `C25_arm_literal`, `C27_index`, `C27_round_up`, `C28_find_func`, `C28_stable`, `C29_arena`, `C29_zeroed`, `C31_find`, `C31_conforms`, `C33_strlen`, `C33_strcmp`, `C33_strncmp`, `C34_strcpy`, `C34_strncpy`, `C34_memcpy`, `C35_decimal`, `C35_div_ten`, `C36_hex_octal`, `C37_octal`, `C37_hex`, `C37_decimal`, `C38_snprintf_partial`, `C39_malloc_partial`, `C40_double_free`, `C40_twice`, `C41_calloc`, `C42_fgets`, `C42_line`, `C43_lex_partial`, `C43_token`, `C43_leading_blank`, `C44_operators_partial`, `C44_blank_merges`, `C44_double_minus`, `C45_escapes_partial`, `C45_backslash_n`, `C45_backslash_end`, `C46_comments_partial`, `C46_stars`, `C46_three_stars`, `C46_after_divide`, `C46_crlf`, `C47_literal`, `C47_buffer_too_small`, `C48_grouping_partial`, `C48_stack_bound`, `C49_condition_partial`, `C49_drops`, `C49_minus_plus_wrong`, `C49_unsupported`, `C49_line_end`, `C51_layout`, `C52_idom`, `C52_post_dominators`, `C53_liveness_exact_partial`, `C53_liveness_exact_on_partial`, `C53_liveness_sound`, `C55_way_out_partial`, `C53_compiled_way_out_partial`, `C53_compiled_exact_partial`, `CProgExample.fLiveness`, `C55_marking_terminates`, `C55_removed_branch_can_loop_forever`, `C56_no_variable_in_two_registers`, `C57_block_partial`, `C57_block_branch_partial`, `C57_block_return_partial`, `C57_block_return_void_partial`, `C57_six_variables_suffice`, `C58_align_size`, `C58_frame_areas_disjoint`, `C58_frame_start`, `C59_inlined_text`, `C59_escaped_text`, `C59_characters`, `C59_bounds`, `C59_tool`, `C59_library`, `C59_arguments`, `C60_command_line`, `C60_position_independent`, `C61_rv_refines`, `C61_rv_block_instrs`, `C61_arm_refines`, `C61_arm_block_instrs`, `C62_rv_entry`, `C62_rv_main`, `C62_rv_exit`, `C62_rv_execution`, `C62_arm_entry`, `C62_arm_exit`, `C62_arm_main`, `C62_arm_execution`, `C63_rv_syscall`, `C63_arm_syscall`, `C64_format`, `C65_best_fit`, `C65_total`, `C66_free_all`, `C67_initializer_partial`, `C68_dominance_frontier_partial`, `C69_macro_use_partial`, `C69_other_values`, `C71_renaming_preserves_executions_partial`, `C71_reassigned_local_wrong`, `C72_construction_succeeds`, `C72_single_assignment`, `C72_definitions_dominate`, `C73_body_translated_partial`, `C73_divergence_translated_partial`, `C73_exit_iff_partial`, `C73_for_continue_wrong`, `C74_expression_partial`, `C74_and_stops_partial`, `C74_and_goes_on_partial`, `C74_or_stops_partial`, `C74_ternary_partial`, `C74_nested_ternary_wrong`, `C75_edges_recorded_partial`, `C76_sizeof_partial`, `C76_member_partial`, `C77_members_apart_partial`, `C79_expression_partial`, `C79_deref_plus`, `C79_element_plus`, `C79_times_element_plus`, `C79_pointer_plus_product`, `C79_pointer_pointer_plus`, `C79_element_element`, `C79_deref_array`, `C79_address_of_array`, `C79_pointer_minus`, `C79_minus_parenthesis`, `C79_member_sum`, `C79_constant_hides`, `C80_assignment_partial`, `C80_element_of_pointer`, `C80_pointer_pointer`, `C80_character`, `C80_function_pointer`, `C81_strings`, `C82_function_partial`, `C83_program_partial`, `C84_globals`, `C85_rv_partial`, `C85_arm_partial`, `C86_analyses_partial`, `C86_allocated_partial`, `C86_analyses_terminate`, `C87_ssa_executions_partial`, `C87_ssa_divergence_partial`, `C88_body_to_ssa_partial`, `C88_divergence_to_ssa_partial`, `C88_exit_iff_partial`, `C89_macro_text_partial`, `C89_call_takes_rest`, `Io.C90_printf_partial`, `Io.C90_printf_overflow`, `Io.C90_write_file`, `Io.C90_new_file_partial`, `Io.C90_read_file`, `Io.C90_round_trip`, `Io.C90_fputc`, `Io.C90_exit`, `Io.C90_abort`, `Source.C91_source_partial`, `Source.C91_no_directory`, `Source.C91_no_final_newline`, `Source.C91_self_include`, `Source.C91_nul`, `C92_function_partial`, `C92_program_partial`, `C92_rv_partial`, `C92_arm_partial`, `C93_dce_partial`, `C93_example`, `C93_endless_wrong`, `C94_fold_partial`, `C95_function_partial`, `C95_calls_partial`, `C95_exits_partial`, `C95_rv_partial`, `C95_arm_partial`, `CProgExample.C95_example_rv`, `CProgExample.C95_example_arm`, `C96_body_partial`, `BodyExample.C96_example`, `BodyExample.C96_example_values`, `C97_calls_partial`, `C97_exits_partial`, `C97_rv_partial`, `C97_arm_partial`, `CProgExample.C97_example_rv`, `CProgExample.C97_example_arm`, `C98_optimize_partial`, `C99_program_partial`, `C99_text_partial`, `TopExample.C99_example`, `TopExample.C99_rejected_wrong`, `TopExample.C99_accepted_wrong`, `C100_exits_partial`, `C100_rv_partial`, `C100_arm_partial`, `C100_storage_partial`, `CProgExample.C100_example_rv`, `CProgExample.C100_example_arm`, `CProgExample.C100_storage_example`, `C101_error_shown_partial`, `C101_long_line_overruns`, `C101_line_end_wrong`, `C101_directive_wrong`, `C101_last_line_overruns`, `DiagExample.C101_example`, `DiagExample.C101_example_wrong`, `C102_token`, `C102_text`, `C102_skip_found`, `C102_skip_not_found`, `C102_if_wrong`, `C102_ternary_wrong`, `C102_define_wrong`, `C102_parser`, `C102_program`, `C102_unit_partial`, `C103_graph_partial`, `C103_ends_partial`, `C103_ways_partial`, `C103_forks_partial`, `C103_exit_reachable_partial`, `C103_reachable_partial`, `C103_linked_partial`, `C103_ssa_partial`, `C103_unreachable_predecessor`, `C103_dead_loops`, `C104_names`, `C105_allocate`, `C105_functions`, `C105_release_partial`, `C105_unset_next`, `C105_unset_next_witness`, `C106_walks_partial`, `C106_instructions_partial`.

3. The specifications in `Verif/Spec`: that they say what the manuals, the ELF format and the C language say.
4. The transcription of the code into `Verif/Model`. The code was read, not run; the citations in the comments allow checking it.
5. Outside: the C compiler that builds shecc, the operating system's loader and system calls beyond what `Spec/System` states, and
   the hardware.

## What is modelled and what is not

Per source file, the functions with a model (module in parentheses, by the citations in the model) and those without. A function
listed as modelled may be modelled with simplifications, which the comment of its definition states.

* `lib/c.c` – modelled: `strlen` (LibcStr), `strcmp` (LibcStr), `strncmp` (LibcStr), `strcpy` (LibcStr), `strncpy` (LibcStr), `memcpy` (LibcStr), `__str_base10` (LibcStr), `__str_base8` (LibcStr), `__str_base16` (LibcStr), `__format` (LibcStr), `__format_to_buf` (LibcStr), `printf` (LibcIo), `sprintf` (LibcIo), `snprintf` (LibcIo), `exit` (LibcIo), `abort` (LibcIo), `fopen` (LibcIo), `fclose` (LibcIo), `fgetc` (LibcHeap, LibcIo), `fgets` (LibcHeap), `fputc` (LibcIo), `__align_up` (LibcHeap), `malloc` (LibcHeap), `calloc` (LibcHeap), `__free_all` (LibcHeap), `free` (LibcHeap). Not modelled: `chunk_set_freed`, `chunk_clear_freed`, `__rfree`. Not modelled: one-line wrappers around system calls.
* `src/arm-codegen.c` – modelled: `update_elf_offset` (ArmCodegen), `cfg_flatten` (Layout), `emit` (ArmCodegen), `emit_ph2_ir` (ArmCodegen), `code_generate` (ArmCodegen, Layout).
* `src/arm.c` – modelled: all.
* `src/elf.c` – modelled: `elf_write_section_str` (Elf), `elf_write_data_str` (Elf), `elf_write_header_byte` (Elf), `elf_write_section_byte` (Elf), `e_extract_byte` (Elf), `elf_write_int` (Elf), `elf_write_header_int` (Elf), `elf_write_section_int` (Elf), `elf_write_code_int` (Elf), `elf_generate_header` (Elf), `elf_generate_sections` (Elf), `elf_align` (Elf), `elf_add_symbol` (Elf), `elf_generate` (Driver, Elf, LibcIo). Not modelled: `elf_write_symbol_int`.
* `src/globals.c` – modelled: `arena_block_create` (Globals, Release), `arena_init` (Globals, Release), `arena_alloc` (Globals, Release), `arena_reset` (Globals), `arena_free` (Release), `hashmap_hash_index` (Globals), `round_up_pow2` (Globals), `hashmap_create` (Globals, Release), `hashmap_node_new` (Release), `hashmap_put` (Globals, Release), `hashmap_get` (Globals, Release), `hashmap_contains` (Globals), `hashmap_free` (Release), `find_type` (Types), `add_global_ir` (in part: Types), `add_block` (Release), `add_alias` (Globals), `find_alias` (Globals), `remove_alias` (Globals), `add_macro` (Macro), `find_macro` (Macro), `remove_macro` (Macro), `find_macro_param_src_idx` (Macro), `add_func` (Globals, Release, Top), `add_type` (Top, Types), `add_named_type` (Top, Types), `add_constant` (Top, Types), `find_constant` (Top, Types), `find_func` (Globals, Top, Types), `find_member` (Types), `find_local_var` (Body, Globals, Types), `find_global_var` (Body, Globals, Types), `find_var` (Body, Globals, Types), `size_var` (Types), `add_fn` (Release, Stmt), `bb_create` (Stmt), `bb_connect` (Stmt), `bb_disconnect` (DceFn), `add_insn` (Stmt), `create_source` (Globals, Release), `source_expand` (Globals, Release), `source_push` (Globals, Release), `source_release` (Release), `global_init` (Elf, Layout, Release), `global_release` (Release), `error` (Diag). Not modelled: `add_ph1_ir`, `add_existed_ph2_ir`, `add_ph2_ir`, `set_var_liveout`, `add_label`, `find_label_offset`, `add_symbol`, `print_indent`, `dump_ph1_ir`. Not modelled: printing (`dump_*`), the release of memory at exit, and one-line list appends (`add_label`, `add_ph1_ir`, ...), which the models of their callers inline.
* `src/lexer.c` – modelled: `is_whitespace` (Lexer), `is_linebreak` (Lexer), `is_newline` (Lexer), `is_alnum` (Lexer), `is_digit` (Lexer), `is_hex` (Lexer), `is_numeric` (Lexer, Macro), `skip_whitespace` (Lexer, Macro), `read_char` (Lexer), `lex_token_internal` (Lexer, Macro, Preproc), `lex_token` (Lexer, Macro), `skip_macro_body` (Macro, Skip). Not modelled: `peek_char`, `lex_accept_internal`, `lex_accept`, `lex_peek`, `lex_ident_internal`, `lex_ident`, `lex_expect_internal`, `lex_expect`. The `lex_accept`/`lex_peek`/`lex_expect` wrappers are inlined: the parser models take syntax trees or token lists.
* `src/main.c` – modelled: `main` (Driver).
* `src/parser.c` – modelled: `gen_name` (Names), `gen_label` (Names), `require_var` (Body), `write_symbol` (Elf), `get_size` (ExprGen), `get_operator_prio` (Parser), `get_unary_operator_prio` (Parser), `get_operator` (Parser), `read_numeric_constant` (Parser), `read_constant_expr_operand` (Parser), `read_constant_infix_expr` (Parser), `read_constant_expr` (Parser), `cppd_control_flow_skip_lines` (Preproc, Skip), `check_def` (Preproc), `read_defined_macro` (Preproc), `read_preproc_directive` (Diag, Macro, Preproc, Skip), `read_inner_var_decl` (Body, Calls, Top, Types), `read_full_var_decl` (Body, Calls, Top, Types), `read_partial_var_decl` (Body, Top, Types), `read_parameter_list_decl` (Calls, Top, Types), `read_literal_param` (Body, Elf, ExprGen), `read_numeric_param` (ExprGen, Parser), `read_char_param` (ExprGen), `read_func_parameters` (Calls, ExprGen), `read_func_call` (Body, Calls, ExprGen), `read_indirect_call` (ExprGen), `read_expr_operand` (Calls, ExprGen, Macro, Skip, Stmt, Types), `is_logical` (ExprGen, Macro), `read_expr` (Body, Calls, ExprGen, Macro, Parser, Stmt), `read_lvalue` (Calls, ExprGen), `read_logical` (Body, Stmt), `finalize_logical` (Body, Stmt), `read_ternary_operation` (Body, Calls, Stmt), `read_body_assignment` (Body, Calls, ExprGen), `read_primary_constant` (Calls, Top), `eval_expression_imm` (Parser, Top), `eval_ternary_imm` (Calls, Skip, Top), `read_global_assignment` (Calls, GlobalInit, Parser, Top), `perform_side_effect` (Stmt), `read_body_statement` (Body, Calls, Macro, Skip, Stmt), `read_code_block` (Body, Calls, Stmt), `read_func_body` (Body, Calls, Stmt, Top), `read_global_decl` (Calls, GlobalInit, Top), `read_global_statement` (Calls, Top, Types), `parse_internal` (Calls, GlobalInit, Release, Top, Types), `load_source_file` (Source, Top). Not modelled: `opstack_push`, `opstack_pop`, `parse`. The parser models take syntax trees or token lists, and are split by concern: constants and operator grouping (`Parser`), control flow (`Stmt`), types (`Types`), directives (`Preproc`), values of expressions and assignments (`ExprGen`).
* `src/peephole.c` – modelled: `is_fusible_insn` (Peephole), `insn_fusion` (Peephole), `peephole` (Peephole).
* `src/reg-alloc.c` – modelled: `align_size` (RegAlloc), `refresh` (RegAlloc), `bb_add_ph2_ir` (RegAlloc), `spill_var` (RegAlloc), `find_in_regs` (RegAlloc), `load_var` (RegAlloc), `prepare_operand` (RegAlloc), `prepare_dest` (RegAlloc), `spill_alive` (RegAlloc), `spill_live_out` (RegAlloc), `extend_liveness` (RegAlloc), `reg_alloc` (GlobalInit, Peephole, RegAlloc, Ssa, Top). Not modelled: `check_live_out`, `dump_ph2_ir`.
* `src/riscv-codegen.c` – modelled: `update_elf_offset` (RiscvCodegen), `cfg_flatten` (Layout), `emit` (RiscvCodegen), `emit_ph2_ir` (RiscvCodegen), `code_generate` (Layout, RiscvCodegen).
* `src/riscv.c` – modelled: all.
* `src/ssa.c` – modelled: `bb_forward_traversal` (Cfg), `bb_backward_traversal` (Cfg), `bb_index_rpo` (Cfg), `bb_reverse_index` (Cfg), `bb_build_rpo` (Cfg), `build_rpo` (Cfg), `intersect` (Cfg), `build_idom` (Cfg), `dom_connect` (SsaBuild), `bb_build_dom` (SsaBuild), `build_dom` (Cfg, SsaBuild), `bb_build_df` (Cfg), `build_df` (Cfg), `reverse_intersect` (Cfg), `build_r_idom` (Cfg), `build_rdf` (Cfg), `use_chain_add_tail` (Release, UseChain), `use_chain_delete` (UseChain), `use_chain_build` (UseChain), `var_check_killed` (Live, SsaBuild), `bb_add_killed_var` (Live, SsaBuild), `var_add_killed_bb` (SsaBuild), `fn_add_global` (SsaBuild), `bb_solve_globals` (SsaBuild), `solve_globals` (SsaBuild), `var_check_in_scope` (SsaBuild), `insert_phi_insn` (SsaBuild), `solve_phi_insertion` (SsaBuild), `new_name` (SsaBuild), `get_stack_top_subscript_var` (SsaBuild), `rename_var` (SsaBuild), `pop_name` (SsaBuild), `append_phi_operand` (SsaBuild), `bb_solve_phi_params` (SsaBuild), `solve_phi_params` (SsaBuild), `append_unwound_phi_insn` (SsaBuild), `bb_unwind_phi` (SsaBuild), `unwind_phi` (SsaBuild), `ssa_build` (SsaBuild), `cse` (Cse, UseChain), `mark_const` (ConstFold), `eval_const_arithmetic` (ConstFold), `const_folding` (ConstFold), `dce_init_mark` (Dce), `dce_insn` (Dce), `dce_sweep` (Dce, DceFn), `optimize` (ConstFold, Dce, Optimize, UseChain), `build_reversed_rpo` (Cfg), `add_live_gen` (Live), `update_consumed` (Live), `bb_solve_locals` (Live, RegAlloc), `add_live_in` (Live), `compute_live_in` (Live), `merge_live_in` (Live), `recompute_live_out` (Live), `liveness_analysis` (Live). Not modelled: `rdom_connect`, `bb_build_rdom`, `build_rdom`, `bb_build_rdf`, `bb_dump_connection`, `get_insn_op`, `bb_dump`, `dump_cfg`, `dom_dump`, `dump_dom`, `bb_index_reversed_rpo`, `bb_reverse_reversed_index`, `bb_build_reversed_rpo`, `bb_reset_live_kill_idx`. Not modelled: dumps; `rdom`/`rdf` tree construction beyond the reverse dominators (used by DCE, which is modelled over them), use chains (modelled as the list of uses).
* `tools/inliner.c` – modelled: `write_char` (Inliner), `write_str` (Inliner), `write_line` (Driver, Inliner), `load_from` (Driver, Inliner), `save_to` (Inliner), `main` (Inliner).
