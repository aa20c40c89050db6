{"id": "C01", "title": "RV32 register-form instruction words are faithful", "statement": "Every R-type word the RISC-V back end writes decodes, under the RV32IM manual's field layout, to exactly the operation and the three registers that were requested.", "quantifier": "every R-type operation in the instruction table and every triple of registers x0..x31", "why_tests_cant": "13 operations x 32^3 register triples; tests only run the few register assignments the allocator happens to choose", "anchors": ["src/riscv.c: rv_encode_R, rv_op, __add.. __mod"]}
{"id": "C02", "title": "RV32 I-type immediates are exact or rejected", "statement": "An I-type word is produced iff the immediate is in [-2048, 2047], and then it decodes to the same rd, rs1 and the same (sign-extended) immediate; otherwise compilation stops with an error.", "quantifier": "every I-type op, all register pairs, every 32-bit immediate", "why_tests_cant": "2^32 immediates; boundary and sign cases are rarely hit by compiled programs", "anchors": ["src/riscv.c: rv_encode_I, __addi, __lw, __lb, __jalr"]}
{"id": "C03", "title": "RV32 store offsets are exact or rejected", "statement": "A store word is produced iff its offset is in [-2048, 2047], and then it decodes to the same base, data register and offset, with the split immediate reassembled; otherwise compilation stops.", "quantifier": "every S-type op, all register pairs, every 32-bit offset", "why_tests_cant": "split-immediate bugs show up only for particular bit patterns of the offset", "anchors": ["src/riscv.c: rv_encode_S, rv_extract_bits, __sb, __sw"]}
{"id": "C04", "title": "RV32 conditional branches reach the intended target or are rejected", "statement": "For every even offset in [-4096, 4094] the emitted branch decodes to the same comparison, registers and offset; any offset outside [-4096, 4095] stops compilation.", "quantifier": "every B-type op, all register pairs, every 32-bit offset", "why_tests_cant": "the B-type immediate is scrambled over four fields; tests exercise a handful of distances", "anchors": ["src/riscv.c: rv_encode_B"]}
{"id": "C05", "title": "RV32 jump offsets are exact within the jal range", "statement": "For every even offset in [-2^20, 2^20-2] the emitted jal decodes to the same link register and offset. (The encoder has no range check: out-of-range offsets are silently mis-encoded.)", "quantifier": "every link register and every offset in range; a witness outside the range", "why_tests_cant": "tests never produce a 1 MiB function", "anchors": ["src/riscv.c: rv_encode_J, __jal"]}
{"id": "C06", "title": "A lui/addi pair materialises exactly the requested 32-bit value", "statement": "Executing the emitted lui+addi (hi/lo split) pair leaves exactly the requested 32-bit value in the destination register, whatever it held before.", "quantifier": "every 32-bit constant, every destination register other than x0, every prior machine state", "why_tests_cant": "the carry correction in the hi part matters for half of 2^32 constants", "anchors": ["src/riscv.c: rv_hi, rv_lo, rv_encode_U, __lui, __addi", "src/riscv-codegen.c: emit_ph2_ir OP_load_constant"]}
{"id": "C07", "title": "ARM register-form data-processing words are faithful", "statement": "Every ARM data-processing register word decodes, under the ARMv7-A field layout, to the requested condition, operation, flag-setting bit and registers.", "quantifier": "all conditions, operations used by the back end, and register triples r0..r15", "why_tests_cant": "finite but large table; only a few registers are used by tests", "anchors": ["src/arm.c: arm_encode, __mov, __add_r, __sub_r, __and_r, __or_r, __eor_r, __mvn_r, __mov_r, __cmp_r"]}
{"id": "C08", "title": "ARM modified immediates denote the requested value or are rejected", "statement": "For every non-negative 32-bit immediate, the emitted word either decodes (8-bit value rotated right by twice the 4-bit field) to exactly that immediate, or compilation stops with an error; negative immediates outside the add/sub case are not representable and are silently truncated to 8 bits.", "quantifier": "every 32-bit immediate", "why_tests_cant": "2^31 immediates; the rotation search loop has data-dependent length", "anchors": ["src/arm.c: __mov, __mov_i, __add_i, __cmp_i, __rsb_i"]}
{"id": "C09", "title": "A movw/movt pair materialises exactly the requested 32-bit value", "statement": "Executing the emitted movw+movt pair leaves exactly the requested 32-bit value in the destination register.", "quantifier": "every 32-bit constant, every destination register r0..r14, every prior state", "why_tests_cant": "2^32 constants, split immediates", "anchors": ["src/arm.c: __movw, __movt, arm_extract_bits"]}
{"id": "C10", "title": "ARM load/store offsets are exact in the 12-bit range", "statement": "For offsets in [-4095, 4095] a word/byte load/store decodes to the same direction, size, base, data register and signed offset; larger magnitudes are silently truncated.", "quantifier": "all register pairs and every offset in range; a witness outside", "why_tests_cant": "large frames are rare in tests", "anchors": ["src/arm.c: arm_transfer, __lw, __lb, __sw, __sb"]}
{"id": "C11", "title": "ARM branches reach the intended target", "statement": "For every multiple-of-4 offset within +-32 MiB the emitted b/bl decodes to that PC-relative target and condition.", "quantifier": "every condition and every aligned offset in range", "why_tests_cant": "tests only produce small offsets", "anchors": ["src/arm.c: __b, __bl"]}
{"id": "C12", "title": "RISC-V software division and modulo are C division and modulo", "statement": "On the RISC-V target without the M extension, executing the emitted sequence for a/b (a%b) always terminates and leaves in the destination register the C quotient (remainder) truncated toward zero, with wrap-around for INT_MIN/-1; a/0 gives 0 and a%0 gives a; no other program-visible register changes.", "quantifier": "all 2^64 operand pairs, all destination/source register assignments the allocator can make (a0..a7, possibly equal), every prior machine state", "why_tests_cant": "loop counts depend on operands; 2^64 inputs", "anchors": ["src/riscv-codegen.c: emit_ph2_ir OP_div OP_mod"]}
{"id": "C13", "title": "RISC-V software multiplication is 32-bit multiplication", "statement": "On the RISC-V target without the M extension the emitted sequence for a*b always terminates and leaves the low 32 bits of the product in the destination register; no other program-visible register changes.", "quantifier": "all 2^64 operand pairs and register assignments", "why_tests_cant": "2^64 inputs", "anchors": ["src/riscv-codegen.c: emit_ph2_ir OP_mul"]}
{"id": "C14", "title": "ARM software division and modulo are C division and modulo", "statement": "On the ARM target without hardware divide, executing the emitted sequence for a/b (a%b) terminates and leaves the C quotient (remainder) in the destination register, leaves the other registers r0..r7 and the stack pointer unchanged. (False when both operands are in the same register: x/x for negative x yields -1.)", "quantifier": "all 2^64 operand pairs and all register assignments r0..r7", "why_tests_cant": "2^64 inputs x register assignments; the same-register case is easily missed", "anchors": ["src/arm-codegen.c: emit_ph2_ir OP_div OP_mod"]}
{"id": "C15", "title": "RISC-V arithmetic, comparison and bitwise IR operations compute the C result", "statement": "Executing the words emitted for each arithmetic, shift, comparison, bitwise and logical-not IR instruction leaves in the destination register the C result on 32-bit ints (comparisons give 0/1) and changes no other program-visible register.", "quantifier": "every such IR opcode, all register assignments (including destination equal to a source), all operand values", "why_tests_cant": "all 2^64 operand values and aliasing patterns", "anchors": ["src/riscv-codegen.c: emit_ph2_ir"]}
{"id": "C16", "title": "ARM arithmetic, comparison and bitwise IR operations compute the C result", "statement": "Same as the RISC-V claim for the ARM back end.", "quantifier": "every such IR opcode, all register assignments, all operand values", "why_tests_cant": "all 2^64 operand values and aliasing patterns", "anchors": ["src/arm-codegen.c: emit_ph2_ir, arm_get_cond"]}
{"id": "C17", "title": "Constant loads are exact on both back ends", "statement": "Executing the words emitted for a constant-load IR instruction leaves exactly the 32-bit constant in the destination register.", "quantifier": "every 32-bit constant, every destination register, both back ends", "why_tests_cant": "2^32 constants, several encodings by magnitude", "anchors": ["src/arm-codegen.c: emit_ph2_ir OP_load_constant", "src/riscv-codegen.c: emit_ph2_ir OP_load_constant"]}
{"id": "C18", "title": "RISC-V: predicted instruction size equals emitted size", "statement": "For every second-phase IR instruction accepted by the sizing pass, the number of bytes the emitter writes is exactly the number of bytes reserved for it.", "quantifier": "every opcode, all operand fields, both settings of the +m option", "why_tests_cant": "any mismatch silently shifts all later branch targets; depends on immediate ranges", "anchors": ["src/riscv-codegen.c: update_elf_offset, emit_ph2_ir"]}
{"id": "C19", "title": "ARM: predicted instruction size equals emitted size", "statement": "For every second-phase IR instruction accepted by the sizing pass, the number of bytes emitted equals the number reserved. (False for a self-move: 0 reserved, 4 emitted.)", "quantifier": "every opcode, all operand fields, both settings of the +m option", "why_tests_cant": "any mismatch silently shifts all later branch targets", "anchors": ["src/arm-codegen.c: update_elf_offset, emit_ph2_ir"]}
{"id": "C20", "title": "Every jump and call lands on the first instruction of its target block", "statement": "For every program, the code position recorded for each basic block during flattening is the position at which the emitter writes that block's first instruction; so each jump, call, branch and function address, once decoded, designates the start of the intended block, and the data section starts where string addresses assume it does.", "quantifier": "every list of functions, blocks and instructions (any number, any sizes)", "why_tests_cant": "global property over the whole program; depends on accumulated sizes", "anchors": ["src/arm-codegen.c: cfg_flatten, code_generate, emit_ph2_ir", "src/riscv-codegen.c: cfg_flatten, code_generate, emit_ph2_ir", "src/elf.c"]}
{"id": "C21", "title": "A compiled conditional branch takes the right edge", "statement": "Executing the words emitted for a conditional branch transfers control to the then-block when the condition register is non-zero and to the else-block when it is zero, whatever the block order. (The ARM detached form assumes that one of the two successors is the next block.)", "quantifier": "every condition value, every placement of the two target blocks, both back ends", "why_tests_cant": "depends on the layout order of blocks over all control-flow graphs", "anchors": ["src/arm-codegen.c: cfg_flatten, emit_ph2_ir OP_branch", "src/riscv-codegen.c: emit_ph2_ir OP_branch"]}
{"id": "C22", "title": "Peephole fusion preserves program meaning", "statement": "Replacing a pair of adjacent IR instructions by the fused one leaves every register and memory cell with the same value, except possibly the intermediate register that no longer gets written; so it preserves meaning whenever that register is dead. (The pass does not check deadness.)", "quantifier": "every pair of adjacent second-phase IR instructions and every machine state; whole blocks", "why_tests_cant": "all instruction pairs x register aliasing x values", "anchors": ["src/peephole.c: insn_fusion, is_fusible_insn, peephole"]}
{"id": "C23", "title": "Integers in the output file are little-endian and recoverable", "statement": "Writing an int into an output section appends exactly four bytes, from which a little-endian reader recovers the int, and changes nothing before the write position.", "quantifier": "every 32-bit value and write position", "why_tests_cant": "2^32 values; sign extension of char matters", "anchors": ["src/elf.c: elf_write_int, e_extract_byte"]}
{"id": "C24", "title": "ELF header and section table describe the file that is written", "statement": "In every output file: the ELF and program headers occupy the first 0x54 bytes; the section-header offset in the header is where the section headers are; each section's offset and size delimit exactly its bytes; section names resolve correctly; the loadable segment covers exactly code and data; the entry address is the load address of the first code byte.", "quantifier": "all code and data contents of any size", "why_tests_cant": "must hold for every program size; tests look only at whether a few binaries run", "anchors": ["src/elf.c: elf_generate_header, elf_generate_sections, elf_align, elf_generate"]}
{"id": "C25", "title": "String literals are found at the address the code uses", "statement": "The run-time address loaded for a string literal is the address at which the loader places the first byte of that literal, and the literal's bytes there are NUL terminated.", "quantifier": "every program: any code size, any sequence of literals", "why_tests_cant": "depends on total code size and data layout", "anchors": ["src/parser.c: write_symbol, read_literal_param", "src/elf.c: elf_write_data_str, elf_generate_header", "src/arm-codegen.c: code_generate", "src/riscv-codegen.c: code_generate"]}
{"id": "C26", "title": "The function table is a map from names to first-registered entries", "statement": "After any sequence of insertions, looking up a name returns the value of the first insertion with that name and NULL if there was none, regardless of hash collisions. (The documented 'replace' behaviour does not hold.)", "quantifier": "every insertion history, every key and bucket count", "why_tests_cant": "collisions depend on FNV values of arbitrary names", "anchors": ["src/globals.c: hashmap_put, hashmap_get, hashmap_contains, hashmap_create"]}
{"id": "C27", "title": "Hash bucket indices are always in range", "statement": "For every key and every table size that is a power of two, the computed bucket index lies in [0, size); table sizes are rounded up to the least power of two not below the requested size.", "quantifier": "every key string, every size from 1 to 2^30", "why_tests_cant": "unbounded key space, signed overflow corner (hash = INT_MIN)", "anchors": ["src/globals.c: hashmap_hash_index, round_up_pow2, hashmap_create"]}
{"id": "C28", "title": "Function registration is idempotent and find_func agrees with it", "statement": "Registering functions in any order and repetition yields one stable entry per name; find_func returns it; re-registration only resets the frame size.", "quantifier": "every registration history", "why_tests_cant": "histories with forward declarations and collisions", "anchors": ["src/globals.c: add_func, find_func"]}
{"id": "C29", "title": "Arena allocations never overlap and stay inside their block", "statement": "Every pointer handed out by an arena designates size bytes inside one live block, disjoint from every other allocation made since initialisation, and the memory is zero when handed out.", "quantifier": "every sequence of allocation sizes", "why_tests_cant": "unbounded histories; block-switching boundary cases", "anchors": ["src/globals.c: arena_init, arena_alloc, arena_block_create"]}
{"id": "C30", "title": "The source buffer stores exactly what was pushed", "statement": "After any sequence of pushes the buffer contains exactly those characters in order, size equals the number of pushes and never exceeds capacity.", "quantifier": "every push sequence and positive initial capacity", "why_tests_cant": "growth happens only after 512 KiB", "anchors": ["src/globals.c: create_source, source_expand, source_push"]}
{"id": "C31", "title": "#define / #undef lookups follow the recorded history", "statement": "After any history of #define and #undef, the replacement found for a name is the one given by the earliest definition not yet consumed by an #undef of that name, and none if all have been; other names are unaffected. (C requires #undef to remove the name and redefinition to win; both fail when a name is defined twice.)", "quantifier": "every history of define/undef/lookup", "why_tests_cant": "histories of arbitrary length", "anchors": ["src/globals.c: add_alias, find_alias, remove_alias, add_macro, find_macro, remove_macro"]}
{"id": "C32", "title": "Variable lookup respects lexical scope", "statement": "A name resolves to the declaration in the innermost enclosing block that declares it, then to a parameter, then to a global, then to nothing.", "quantifier": "every nesting of blocks and every declaration set", "why_tests_cant": "unbounded nesting", "anchors": ["src/globals.c: find_local_var, find_global_var, find_var"]}
{"id": "C33", "title": "String length and comparison match C", "statement": "strlen returns the index of the first NUL; strcmp/strncmp return zero iff the (first n characters of the) strings are equal, and otherwise the sign of the first difference.", "quantifier": "all NUL-terminated strings, all n", "why_tests_cant": "unbounded strings", "anchors": ["lib/c.c: strlen, strcmp, strncmp"]}
{"id": "C34", "title": "String and memory copies copy exactly what C says", "statement": "strcpy writes the string and its NUL and nothing else; strncpy writes exactly n bytes (padded with NULs); memcpy writes exactly count bytes equal to the source; everything else in memory is unchanged.", "quantifier": "all memories, non-overlapping regions, all lengths", "why_tests_cant": "unbounded sizes", "anchors": ["lib/c.c: strcpy, strncpy, memcpy"]}
{"id": "C35", "title": "%d prints the decimal representation of every int", "statement": "For every 32-bit value the division-free conversion yields exactly the canonical decimal representation with leading '-' when negative.", "quantifier": "all 2^32 values", "why_tests_cant": "2^32 values; approximate division trick", "anchors": ["lib/c.c: __str_base10, __format"]}
{"id": "C36", "title": "%x and %o print the hexadecimal/octal representation of every int", "statement": "For every 32-bit value the conversion yields the canonical hexadecimal (octal) digits of its unsigned value.", "quantifier": "all 2^32 values", "why_tests_cant": "2^32 values, arithmetic right shifts of negatives", "anchors": ["lib/c.c: __str_base16, __str_base8, __format"]}
{"id": "C37", "title": "Width and zero padding produce a field of at least the requested width", "statement": "The formatted field has length max(width, natural length) and consists of padding followed by the digits (sign / prefix first when zero padded).", "quantifier": "all values, widths, bases and flags", "why_tests_cant": "cross product of flags, widths and values", "anchors": ["lib/c.c: __format"]}
{"id": "C38", "title": "snprintf never writes past the size it was given", "statement": "snprintf(buf, n, ...) writes only buf[0..n-1] and NUL-terminates when n > 0. (False: integer conversions ignore n.)", "quantifier": "all formats, arguments and n", "why_tests_cant": "all formats and sizes; overflow is silent", "anchors": ["lib/c.c: __format_to_buf, snprintf"]}
{"id": "C39", "title": "malloc returns memory that is large enough and not in use", "statement": "For every history of malloc/free, each non-NULL pointer returned designates size bytes inside a mapped chunk that do not overlap any other live allocation or allocator header. (False: chunk reuse compares the request with the chunk size including its header.)", "quantifier": "every history of malloc and free", "why_tests_cant": "unbounded histories; overrun is silent", "anchors": ["lib/c.c: malloc, free, __align_up"]}
{"id": "C40", "title": "Double frees are detected until the block is reused", "statement": "After free(p), a further free(p) before p's chunk is handed out again aborts the program; freeing a live pointer never aborts.", "quantifier": "every history of malloc and free", "why_tests_cant": "unbounded histories", "anchors": ["lib/c.c: free, chunk_set_freed, chunk_clear_freed, malloc"]}
{"id": "C41", "title": "calloc returns zeroed memory", "statement": "Every byte of the n*size bytes returned by calloc is zero, even when the chunk is recycled; no byte outside is written.", "quantifier": "all n, size without overflow, every prior heap content", "why_tests_cant": "depends on prior contents and on size modulo 4", "anchors": ["lib/c.c: calloc"]}
{"id": "C42", "title": "fgets reads at most n-1 characters and stops after a newline", "statement": "fgets stores the characters of the stream up to and including the first newline, the end of file or n-1 characters, then a NUL, and returns NULL iff the stream was at its end.", "quantifier": "all streams and n", "why_tests_cant": "unbounded streams", "anchors": ["lib/c.c: fgets, fgetc"]}
{"id": "C43", "title": "The lexer recovers the tokens that were written", "statement": "Lexing the text obtained by writing tokens separated so that neighbours cannot merge yields the same tokens, in order, then end of file.", "quantifier": "every token list", "why_tests_cant": "infinitely many sources", "anchors": ["src/lexer.c: lex_token_internal, read_char, skip_whitespace"]}
{"id": "C44", "title": "Whitespace between operators is significant", "statement": "Two operator characters separated by a space are lexed as two tokens. (False for several operators: '- -', '- >', '/ *', '* =', '<< =' ... merge.)", "quantifier": "every pair of operator tokens", "why_tests_cant": "the exceptional pairs are rare in tests", "anchors": ["src/lexer.c: lex_token_internal"]}
{"id": "C45", "title": "String literal escapes denote the right characters", "statement": "Lexing the escaped spelling of a string yields that string. (False for strings containing a backslash.)", "quantifier": "every string of printable and escapable characters", "why_tests_cant": "infinitely many strings", "anchors": ["src/lexer.c: lex_token_internal (T_string)"]}
{"id": "C46", "title": "Comments never affect the token stream", "statement": "Inserting a well-formed comment between two tokens does not change the tokens that follow.", "quantifier": "every comment text and surrounding source", "why_tests_cant": "infinitely many comments, e.g. runs of asterisks", "anchors": ["src/lexer.c: lex_token_internal"]}
{"id": "C47", "title": "Numeric literals have their C value", "statement": "Decimal, octal and hexadecimal literals evaluate to their mathematical value modulo 2^32, identically in declarations, expressions and preprocessor conditions.", "quantifier": "every digit string", "why_tests_cant": "infinitely many literals", "anchors": ["src/parser.c: read_numeric_constant, read_numeric_param"]}
{"id": "C48", "title": "Infix expressions are grouped by C precedence and left associativity", "statement": "The tree built for a sequence of operands and non-logical binary operators is the one prescribed by the operator table, with left associativity. (The shift operators have the wrong priority.)", "quantifier": "every operand/operator sequence", "why_tests_cant": "infinitely many expressions", "anchors": ["src/parser.c: read_expr, get_operator_prio"]}
{"id": "C49", "title": "#if conditions have their C value", "statement": "A #if condition evaluates to the value C assigns to it. (False for chains such as 1 + 2 + 3: operators are dropped.)", "quantifier": "every constant expression", "why_tests_cant": "infinitely many expressions", "anchors": ["src/parser.c: read_constant_infix_expr, read_constant_expr_operand"]}
{"id": "C50", "title": "Constant folding agrees with run-time evaluation", "statement": "When the compiler folds an arithmetic instruction, the constant it stores is the value the target would compute; division by zero is not folded. (False: a constant division by zero, or INT_MIN/-1, is evaluated by the compiler itself.)", "quantifier": "all operand pairs", "why_tests_cant": "2^64 operand pairs", "anchors": ["src/ssa.c: eval_const_arithmetic, mark_const"]}
{"id": "C51", "title": "Every reachable block is laid out exactly once, in reverse post-order", "statement": "The block list used by every later pass contains each block reachable from the entry exactly once, entry first, and no unreachable block, and is ordered by reverse post-order of a depth-first search.", "quantifier": "every control-flow graph", "why_tests_cant": "all graphs, including irreducible ones", "anchors": ["src/ssa.c: bb_forward_traversal, bb_index_rpo, bb_reverse_index, bb_build_rpo, build_rpo"]}
{"id": "C52", "title": "Immediate dominators are correct", "statement": "For every reachable block other than the entry, the computed immediate dominator is its closest strict dominator.", "quantifier": "every control-flow graph", "why_tests_cant": "all graphs", "anchors": ["src/ssa.c: build_idom, intersect"]}
{"id": "C53", "title": "Liveness analysis is exact", "statement": "A variable is reported live at the end of a block iff some path from there reaches a use of it before any redefinition; the analysis always terminates.", "quantifier": "every control-flow graph and every gen/kill assignment (blocks that can reach the exit)", "why_tests_cant": "all graphs with loops", "anchors": ["src/ssa.c: recompute_live_out, compute_live_in, merge_live_in, bb_solve_locals, liveness_analysis"]}
{"id": "C54", "title": "Common subexpression elimination preserves meaning", "statement": "Replacing a repeated array read by the earlier value does not change the value read. (False when the element is written in between.)", "quantifier": "every instruction sequence", "why_tests_cant": "all interleavings of reads and writes", "anchors": ["src/ssa.c: cse"]}
{"id": "C55", "title": "Dead code elimination keeps everything with an observable effect", "statement": "Every store, call, return, address-taking, and every instruction whose result a kept instruction uses (and every branch it is control dependent on) is kept.", "quantifier": "every function", "why_tests_cant": "all functions", "anchors": ["src/ssa.c: dce_init_mark, dce_insn, dce_sweep"]}
{"id": "C56", "title": "No two live variables share a register and no variable is in two registers", "statement": "At every point of register allocation each register holds at most one variable and no variable is recorded in two registers (outside argument passing).", "quantifier": "every instruction sequence", "why_tests_cant": "all register-pressure patterns", "anchors": ["src/reg-alloc.c: prepare_operand, prepare_dest, spill_var, load_var, refresh"]}
{"id": "C57", "title": "Register allocation of a block preserves its meaning", "statement": "Executing the allocated instructions of a straight-line block computes, for every operand, the value the source instructions would. (False under high pressure: loading the second operand may evict the first.)", "quantifier": "every straight-line block and every initial value", "why_tests_cant": "all register-pressure patterns", "anchors": ["src/reg-alloc.c: reg_alloc, prepare_operand, prepare_dest, spill_alive, spill_live_out"]}
{"id": "C58", "title": "Stack objects are word aligned and large enough", "statement": "The space reserved for an object is a multiple of four bytes, at least as large as the object, and less than four bytes larger (minimum 4); distinct locals get disjoint frame areas.", "quantifier": "every object size below 2^31-4, every sequence of declarations", "why_tests_cant": "all sizes", "anchors": ["src/reg-alloc.c: align_size, reg_alloc OP_allocat"]}
{"id": "C59", "title": "The embedded libc is the libc source", "statement": "The C text that the generated inliner output feeds to the compiler equals the library source line by line, for lines without backslashes and shorter than the line buffer.", "quantifier": "every library source", "why_tests_cant": "all line contents", "anchors": ["tools/inliner.c: write_line, load_from, save_to, main"]}
{"id": "C60", "title": "Command-line options are position independent", "statement": "Each option has its documented effect wherever it appears; the last output and input names win; without an input file compilation is refused.", "quantifier": "every argument vector", "why_tests_cant": "all argument orders", "anchors": ["src/main.c: main"]}
{"id": "C61", "title": "Emitted code refines the register-allocated IR", "statement": "For every program that the compiler translates, every execution of the register-allocated IR (arithmetic, memory, branches, calls, returns, indirect calls) is matched by the machine executing the emitted code: same registers, stack pointer, memory and control flow.", "quantifier": "every program, every IR execution, every machine state", "why_tests_cant": "all programs and executions of unbounded length", "anchors": ["src/riscv-codegen.c: emit_ph2_ir, cfg_flatten, code_generate", "src/arm-codegen.c: emit_ph2_ir, cfg_flatten, code_generate"]}
{"id": "C62", "title": "Start-up and exit", "statement": "A compiled executable allocates the global frame, runs the global initialisers, calls main with argc and argv as left by the loader, and when main returns v performs exit(v).", "quantifier": "every program, every initial machine state, every execution", "why_tests_cant": "all programs and stack contents", "anchors": ["src/riscv-codegen.c: code_generate", "src/arm-codegen.c: code_generate"]}
{"id": "C63", "title": "__syscall", "statement": "Calling __syscall(n, a1..a6) performs system call n with exactly those arguments, returns its result to the caller, and preserves the stack.", "quantifier": "every call in every program, every operating system behaviour", "why_tests_cant": "all arguments and OS answers", "anchors": ["src/riscv-codegen.c: code_generate (syscall stub)", "src/arm-codegen.c: code_generate (syscall stub)"]}
{"id": "C64", "title": "printf-family text", "statement": "sprintf/snprintf produce exactly the text that the format describes (literals, %%, %s, %c, %d, %o, %x, #, 0 and field width), followed by a NUL, return its length and write nothing else, whenever the text fits.", "quantifier": "all formats built from these conversions, all arguments, all memories", "why_tests_cant": "unbounded formats, arguments and widths", "anchors": ["lib/c.c: __format_to_buf, __format, __str_base10, __str_base8, __str_base16"]}
{"id": "C65", "title": "malloc is best fit", "statement": "If a freed chunk is at least as large as the request, malloc returns a smallest such chunk and maps nothing; otherwise it maps the least number of pages that holds block and header. malloc always returns.", "quantifier": "every history of malloc and free, every size", "why_tests_cant": "unbounded histories", "anchors": ["lib/c.c: malloc, __align_up"]}
{"id": "C66", "title": "All heap memory is released at exit", "statement": "At exit every mapped chunk is unmapped exactly once with its full length, live or freed, except the two list heads.", "quantifier": "every history of malloc and free", "why_tests_cant": "unbounded histories", "anchors": ["lib/c.c: __free_all"]}
{"id": "C67", "title": "Constant initialisers of globals have their C value", "statement": "Whenever the compiler accepts a constant initialiser made of operands and binary operators, the value it stores is the value C gives the expression. (False for % with a negative left operand and a power of two, and for shifts mixed with looser operators.)", "quantifier": "every operand and operator sequence", "why_tests_cant": "The set of initialisers is infinite; grouping and evaluation interact.", "anchors": ["src/parser.c: read_global_assignment, eval_expression_imm, get_operator_prio, read_primary_constant"]}
{"id": "C68", "title": "Dominance frontiers are exact", "statement": "The frontier recorded for a block x contains exactly the reachable blocks b that have a predecessor dominated by x while x does not strictly dominate b; computing it never crashes. (False: a reachable block with an unreachable predecessor, as produced by a for loop whose body always leaves it, makes the walk dereference a null pointer.)", "quantifier": "every control-flow graph", "why_tests_cant": "all graphs", "anchors": ["src/ssa.c: bb_build_df, build_df, bb_build_rdf", "src/parser.c: read_body_statement (for)"]}
{"id": "C69", "title": "Use of an object-like macro equals its value", "statement": "Wherever the name of an object-like macro is used, the compiler reads the same token as if the macro's value had been written there.", "quantifier": "every macro name, value and following text", "why_tests_cant": "all names, values and contexts", "anchors": ["src/lexer.c: lex_token_internal, is_numeric", "src/parser.c: read_preproc_directive"]}
{"id": "C70", "title": "Conditional groups select exactly one part", "statement": "Of every #if/#ifdef/#ifndef group exactly the part after the first true condition, or otherwise the #else part, is compiled, including its macro definitions.", "quantifier": "every source text, nesting and set of definitions", "why_tests_cant": "all nestings and conditions", "anchors": ["src/parser.c: read_preproc_directive, cppd_control_flow_skip_lines, check_def"]}
{"id": "C71", "title": "SSA construction preserves executions", "statement": "Renaming variables into SSA form, with phi functions inserted and then turned into copies, does not change what a function does: along every path through its control-flow graph it performs the same memory accesses, input, output and branches, and returns the same value.", "quantifier": "every function with a well-formed control-flow graph, every execution path of any length, every initial memory and arguments, any semantics of the instructions", "why_tests_cant": "all control-flow graphs, nestings of loops and paths", "anchors": ["src/ssa.c: ssa_build, build_dom, solve_globals, solve_phi_insertion, solve_phi_params, unwind_phi"]}
{"id": "C72", "title": "SSA form is valid", "statement": "For functions whose variables are declared before use the construction succeeds; afterwards every local name is assigned at most once, every use is of a name assigned earlier in the block or in a dominating block (or of a parameter), and each phi has an operand for exactly the predecessors of its block.", "quantifier": "every function with a well-formed control-flow graph of any size", "why_tests_cant": "all control-flow graphs and placements of assignments", "anchors": ["src/ssa.c: new_name, rename_var, bb_solve_phi_params, insert_phi_insn, solve_phi_insertion"]}
{"id": "C73", "title": "Control statements are translated faithfully", "statement": "The control-flow graph built for a function body executes exactly the body: if the statements (if, else, while, do, for, switch with fall-through, break, continue, return, blocks) end in some state, execution of the graph from its entry reaches the exit block in that state; if they run forever, so does the graph; and the graph reaches the exit only in states the body ends in.", "quantifier": "all function bodies, nested to any depth, all initial states, all meanings of the straight-line instructions, all numbers of loop iterations", "why_tests_cant": "Tests run a few programs on a few inputs; statement nesting, jumps out of nested statements and iteration counts are unbounded.", "anchors": ["src/parser.c:read_body_statement", "src/parser.c:read_code_block", "src/parser.c:read_func_body", "src/globals.c:bb_connect"]}
{"id": "C74", "title": "Logical operators and ?: evaluate only what is needed", "statement": "In a && b the right operand is evaluated only if the left one is not zero, in a || b only if it is zero, mixed chains respect the precedence of && over ||, the value is 0 or 1; c ? a : b evaluates c and then exactly one of a and b, whose value it has.", "quantifier": "all expressions with operators nested to any depth, all chains of && and || of any length, all states", "why_tests_cant": "Chains and nestings are unbounded, and an operand evaluated needlessly shows only when it has effects or fails.", "anchors": ["src/parser.c:read_expr", "src/parser.c:read_logical", "src/parser.c:finalize_logical", "src/parser.c:read_ternary_operation"]}
{"id": "C75", "title": "The control-flow graph records every edge at both ends", "statement": "In the graph built for a function body a block is among another's successors exactly if that one is among its predecessors, and the exit block is empty and has no successors.", "quantifier": "all function bodies", "why_tests_cant": "The later analyses (dominance, liveness, SSA) rely on it for every graph; a missing or stale predecessor shows only in particular programs.", "anchors": ["src/globals.c:bb_connect", "src/parser.c:read_body_statement", "src/parser.c:read_expr"]}
{"id": "C76", "title": "sizeof and member offsets follow the declarations", "statement": "After any sequence of struct, typedef struct, typedef enum and typedef declarations, sizeof of a type (with any number of asterisks) and the storage reserved for a variable or member are the size of the declared type (char and _Bool 1, int, enum and pointers 4, arrays length times element, structures the sum of the members), and looking up a member of a structure - by tag or by type name, also when it was declared before its members - gives its type and the sum of the sizes of the members before it as offset; nothing else is found.", "quantifier": "all sequences of declarations, all member lists, nesting of structures and pointer levels", "why_tests_cant": "Declarations refer to each other (forward declarations, self reference, nesting) in unboundedly many ways; each lookup depends on all declarations before it.", "anchors": ["src/parser.c:read_global_statement", "src/parser.c:read_inner_var_decl", "src/globals.c:find_type", "src/globals.c:size_var", "src/globals.c:find_member"]}
{"id": "C77", "title": "Members of a structure do not overlap", "statement": "Every member of a complete structure type lies within the storage of the structure, and the bytes of two different members are disjoint.", "quantifier": "all sequences of declarations, all pairs of members", "why_tests_cant": "An overlap corrupts one member by a store to another one, for particular declarations only.", "anchors": ["src/parser.c:read_global_statement", "src/globals.c:size_var", "src/globals.c:find_member"]}
{"id": "C78", "title": "Enumeration constants have the values of C", "statement": "In an enum the first constant is 0 unless a value is given, each later one is one more than the one before unless a value is given; declaring an enum leaves earlier constants unchanged.", "quantifier": "all lists of enumerators of any length, with any values", "why_tests_cant": "Lists of enumerators are unbounded.", "anchors": ["src/parser.c:read_global_statement", "src/globals.c:add_constant", "src/globals.c:find_constant"]}
{"id": "C79", "title": "Expressions have the value C gives them", "statement": "For a supported expression, the tokens are consumed to the end and the code emitted for it computes the value C assigns to it, with the same calls and memory accesses in order, leaving every existing variable unchanged: precedence, member offsets, scaling of indices by element sizes, pointer addition, dereference, address-of, sizeof, literals, calls with arguments.", "quantifier": "all type declarations, scopes, expressions of any size and nesting, values of variables, memory contents and behaviours of called functions", "why_tests_cant": "Expressions, types and states are unbounded; a test fixes one program and one state.", "anchors": ["src/parser.c:read_expr", "src/parser.c:read_expr_operand", "src/parser.c:read_lvalue", "src/parser.c:read_func_parameters", "src/parser.c:read_numeric_param"]}
{"id": "C80", "title": "Assignments change what C says they change", "statement": "Simple assignment, compound assignment, ++ and -- as statements write the object the left side designates, with the size of its type, the value C gives, and change no other variable or memory.", "quantifier": "all type declarations, scopes, left and right sides of any size and nesting, and all states", "why_tests_cant": "Left sides, expressions and states are unbounded.", "anchors": ["src/parser.c:read_body_assignment", "src/parser.c:read_lvalue"]}
{"id": "C81", "title": "String literals are placed in order, terminated, and referred to by their own address", "statement": "The string literals of an expression are appended to the constant data in the order they are written, each followed by a zero byte, and each literal's value is the address at which it was put.", "quantifier": "all expressions with any number of literals of any length, and all previous constant data", "why_tests_cant": "The number and lengths of literals are unbounded.", "anchors": ["src/parser.c:read_literal_param", "src/parser.c:write_symbol"]}
{"id": "C82", "title": "Register allocation preserves the meaning of a function", "statement": "Whatever a function in SSA form returns, and whatever it does to memory, its allocated code, laid out in the program, does the same: it arrives at a return instruction with the same value, the same visible memory, and its frame in place.", "quantifier": "all functions (any control flow with loops, any number of blocks, instructions and variables), all arguments, all memories and all executions of any length", "why_tests_cant": "Functions and their executions are unbounded; values must be in the right frame words along every path.", "anchors": ["src/reg-alloc.c:reg_alloc"]}
{"id": "C83", "title": "Calls between functions, to any depth", "statement": "In a compiled program, a call of any function, made with its arguments in the argument registers, comes back to the caller with the value the source function returns and with the memory the source leaves: functions may call each other and themselves to any depth and make system calls, pass pointers to their local arrays, and read and write global variables. The stack pointer, the global pointer and the caller's frame are as they were.", "quantifier": "every program whose functions register allocation is claimed for, every function in it, every argument list, every memory, every depth of calls, every stack position with room", "why_tests_cant": "call depth, arguments and memory contents are unbounded; the claim is an induction over the whole call tree with an invariant about what every frame may touch", "anchors": ["src/reg-alloc.c:reg_alloc", "src/riscv-codegen.c:emit_ph2_ir", "src/arm-codegen.c:emit_ph2_ir", "src/parser.c:read_func_parameters"]}
{"id": "C84", "title": "Global variables are laid out apart and initialised", "statement": "Every global variable of a program gets its own words of the global frame; the code of the global block, run with the global pointer at that frame, leaves every variable declared with a constant initialiser with that value, every array variable pointing at its own elements, and every other byte of memory unchanged.", "quantifier": "every list of global declarations (scalars, pointers, arrays, structures, with or without initialiser) whose total size is below half the address space, every initial memory and register contents, every position of the frame", "why_tests_cant": "the number and the sizes of the declarations are unbounded, and overlap between any two of them would show only in programs that use both", "anchors": ["src/reg-alloc.c:reg_alloc", "src/parser.c:read_global_decl", "src/parser.c:read_global_assignment", "src/reg-alloc.c:spill_var"]}
{"id": "C85", "title": "From the loader to exit: the compiled program does what the source does", "statement": "The image made from a program, started by the loader, initialises the globals, calls main with argc and argv from the stack, and ends in the exit system call with the value that the source program's main returns, memory outside the stack being what the source program leaves.", "quantifier": "every whole program whose functions register allocation is claimed for and every execution of it that returns from main, both targets, every initial memory and stack position, every behaviour of the operating system", "why_tests_cant": "composition of start-up code, global initialisation, block layout, instruction selection, peephole pass and register allocation for programs and executions of any size", "anchors": ["src/reg-alloc.c:reg_alloc", "src/peephole.c:peephole", "src/riscv-codegen.c:code_generate", "src/arm-codegen.c:code_generate", "src/riscv-codegen.c:cfg_flatten", "src/arm-codegen.c:cfg_flatten"]}
{"id": "C86", "title": "The analyses give register allocation what it relies on", "statement": "For every function in SSA form, the block order, the sets of live and assigned variables and the recorded last use of every variable, as computed before register allocation, are those that register allocation needs to keep every variable's value until its last use: whatever is read later is live or has a later last use, everything live at the end of a block has a value there, and blocks are laid out after a predecessor. The analyses come to an end on every control-flow graph.", "quantifier": "every function in SSA form: any control-flow graph whose blocks reach the exit, any instructions, any number of variables of which few are pending at a time", "why_tests_cant": "a wrong live set or last use makes the allocator drop a value only in particular combinations of paths and instructions; graphs and variables are unbounded", "anchors": ["src/ssa.c:liveness_analysis", "src/ssa.c:bb_solve_locals", "src/ssa.c:update_consumed", "src/ssa.c:build_rpo", "src/ssa.c:build_reversed_rpo", "src/reg-alloc.c:reg_alloc"]}
{"id": "C87", "title": "SSA form takes the same branches", "statement": "A function in SSA form, executed from its entry following the outcomes of its own branches, reaches the start of a block with some memory, input and output exactly if the function before the conversion does, and runs on for ever exactly if that does.", "quantifier": "every function with a well-formed control-flow graph, every execution of any length, every meaning of the instructions", "why_tests_cant": "the paths a function takes depend on values that renaming carries from block to block; paths and values are unbounded, and termination is not observable by testing", "anchors": ["src/ssa.c:ssa_build", "src/ssa.c:bb_solve_phi_params", "src/ssa.c:unwind_phi", "src/ssa.c:append_unwound_phi_insn"]}
{"id": "C88", "title": "From C statements to SSA form", "statement": "If a function body, executed as C prescribes, ends, then its translation into a control-flow graph, converted to SSA form, gets from its entry to its exit with the same memory, input and output; if the body runs on for ever so does the translation; and a body without undefined behaviour ends with given memory and output whenever the translation does.", "quantifier": "every body made of the control statements and expressions with control flow, every execution of any length, every meaning of the instructions", "why_tests_cant": "composition of the translation of nested statements with the SSA construction, for bodies and executions of any size", "anchors": ["src/parser.c:read_body_statement", "src/parser.c:read_code_block", "src/parser.c:read_logical", "src/parser.c:read_ternary_operation", "src/ssa.c:ssa_build"]}
{"id": "C89", "title": "Function-like macros expand as the text C prescribes", "statement": "An expression that calls function-like macros is compiled to the same expression as the text obtained by replacing each call by the macro's body with the arguments in place of the parameters. (The compiler re-reads the source instead: what follows a call in the same expression becomes part of the call, arguments are read as whole expressions, brackets in arguments are not understood, and an argument named like the parameter is re-read for ever.)", "quantifier": "every source text, every set of macro definitions, every expression of any size, any number of calls, arguments and parameters", "why_tests_cant": "the reader jumps between positions of the source and returns at line ends; equality with textual substitution must hold for every body, argument and surrounding expression", "anchors": ["src/parser.c:read_expr_operand", "src/parser.c:read_preproc_directive", "src/lexer.c:lex_token", "src/globals.c:find_macro", "src/globals.c:find_macro_param_src_idx"]}
{"id": "C90", "title": "Standard output, files and exit do what C prescribes", "statement": "printf writes exactly the formatted text to standard output and returns its length; bytes written with fputc to a file opened with mode \"wb\" are exactly the file's contents after fclose and are read back by fgetc, 0 to 255 each, then -1; fopen returns NULL for a missing file; exit unmaps every block and ends the process with the low byte of the code; abort prints its message and ends with status 255. (False of texts of 200 and more characters, of old files that are longer, and of missing files: see the witnesses.)", "quantifier": "every format and arguments, every sequence of bytes, every state of the file system, every history of the heap", "why_tests_cant": "contents, lengths and histories are unbounded; what stays behind the bytes written or behind the buffer is not looked at by tests", "anchors": ["lib/c.c:printf", "lib/c.c:sprintf", "lib/c.c:snprintf", "lib/c.c:exit", "lib/c.c:abort", "lib/c.c:fopen", "lib/c.c:fclose", "lib/c.c:fputc", "lib/c.c:fgetc", "src/elf.c:elf_generate"]}
{"id": "C91", "title": "Included files are put in place of their #include lines", "statement": "The text given to the parser is the source file with every line #include \"name\" replaced by the text of the file of that name in the same directory, recursively, appended to the text of the library; a missing file aborts. (False of source files named without a directory, of an #include on a last line without newline, of NULs; a file that includes itself is read without end.)", "quantifier": "every tree of files of any size and depth, lines of any length, any earlier contents of memory", "why_tests_cant": "nesting, file sizes and the splitting of long lines are unbounded; the uninitialised first character depends on what was on the stack", "anchors": ["src/parser.c:load_source_file", "src/parser.c:parse"]}
{"id": "C92", "title": "The compiled program makes every system call of its source, even if it never ends", "statement": "If the source of a program, after initialising its globals and calling main with argc and argv, gets to a system call (directly or through any depth of calls, after any number of earlier system calls), then the executable gets to a system call with the same number, the same arguments and the same visible memory. Nothing is assumed about what follows: the system call need not return (exit), and neither need the active functions (endless loops and recursion).", "quantifier": "every program accepted by register allocation's conditions, every operating system, every depth of calls, any number of earlier system calls, both targets", "why_tests_cant": "programs that do not end have no final result to compare, and the number of system calls before any point is unbounded", "anchors": ["src/reg-alloc.c:reg_alloc", "src/peephole.c:peephole", "src/riscv-codegen.c:cfg_flatten", "src/arm-codegen.c:cfg_flatten", "src/riscv-codegen.c:code_generate", "src/arm-codegen.c:code_generate", "lib/c.c:exit"]}
{"id": "C93", "title": "Dead code elimination does not change what a function does", "statement": "Removing the instructions and branches that dead code elimination finds useless leaves a function that, from the same start, returns the same value and leaves the same memory, and that makes every call the original function made, with the same arguments and in the same memory, whether or not it ends.", "quantifier": "every function in SSA form from whose blocks the exit can be reached, every meaning of the called functions, every initial memory and argument values, any number of loop iterations", "why_tests_cant": "removed branches change the control flow graph; that control joins again without having done anything holds or fails per graph, and executions are unbounded", "anchors": ["src/ssa.c:optimize", "src/ssa.c:dce_init_mark", "src/ssa.c:dce_insn", "src/ssa.c:dce_sweep", "src/ssa.c:build_r_idom", "src/ssa.c:bb_build_rdf", "src/globals.c:bb_disconnect"]}
{"id": "C94", "title": "Constant folding does not change what a function does", "statement": "After constant folding a function, started in the same state, returns the same value and leaves the same memory, and makes every call it made before with the same arguments and in the same memory, whether or not it ends.", "quantifier": "every function in SSA form in which variables are assigned before they are used on every path, every meaning of the called functions, every initial memory and variable values, any number of loop iterations", "why_tests_cant": "executions go round loops any number of times and through calls with arbitrary effects", "anchors": ["src/ssa.c:optimize", "src/ssa.c:mark_const", "src/ssa.c:eval_const_arithmetic", "src/ssa.c:const_folding"]}
{"id": "C95", "title": "A program's executable does what its statements say", "statement": "If a program, executed statement by statement as C prescribes (global initialisers, then main, with calls, loops, switch, &&, ||, ?:, assignments and memory accesses), ends with main returning r and memory m, then the RISC-V or ARM executable compiled from it, started by the loader, reaches the exit system call with status r and with memory m outside the stack.", "quantifier": "every program of any number of functions within the part of the language modelled, every initial memory, every behaviour of the operating system, any recursion depth the stack allows and any number of loop iterations", "why_tests_cant": "it composes every pass of the compiler, for all programs and all executions; no suite of programs covers the combinations of control flow, renaming, folding, elimination and register allocation", "anchors": ["src/main.c:main", "src/parser.c:read_body_statement", "src/parser.c:read_expr", "src/ssa.c:ssa_build", "src/ssa.c:optimize", "src/reg-alloc.c:reg_alloc", "src/peephole.c:peephole", "src/riscv-codegen.c:cfg_flatten", "src/arm-codegen.c:cfg_flatten", "src/riscv-codegen.c:code_generate", "src/arm-codegen.c:code_generate"]}
{"id": "C96", "title": "Function bodies are read as C reads them and mean what C says", "statement": "The text of a function body (declarations with scopes and initial values, assignments, calls, if/else, while, do, for, switch, break, continue, return, blocks, expressions with &&, || and ?:) is read to its closing brace in exactly one way, every name refers to its innermost declaration, and executing what was read has the same outcome and the same effects on memory and every variable as executing the body as C prescribes.", "quantifier": "every function body in the grammar, of any length and nesting depth, every type environment, every machine and meaning of called functions, every initial state, every terminating execution", "why_tests_cant": "bodies nest and shadow without bound and executions go round loops any number of times; tests see only a few shapes", "anchors": ["src/parser.c:read_body_statement", "src/parser.c:read_code_block", "src/parser.c:read_func_body", "src/parser.c:read_expr", "src/parser.c:read_body_assignment", "src/parser.c:read_inner_var_decl", "src/parser.c:read_func_call", "src/globals.c:find_local_var", "src/globals.c:find_var"]}
{"id": "C97", "title": "A program's executable does what its text says", "statement": "If the bodies of a program's functions, given as tokens and executed as C prescribes (scopes, types, expressions, statements, calls), end with main returning r and memory m, then the RISC-V or ARM executable compiled from that text, started by the loader, reaches the exit system call with status r and with memory m outside the stack.", "quantifier": "every program of any number of functions whose bodies are in the grammar of C96 and whose functions meet the conditions of C95, every initial memory, every behaviour of the operating system, any recursion depth the stack allows and any number of loop iterations", "why_tests_cant": "it composes the parser with every later pass, for all texts and all executions", "anchors": ["src/main.c:main", "src/parser.c:read_body_statement", "src/parser.c:read_expr", "src/parser.c:read_func_body", "src/ssa.c:ssa_build", "src/ssa.c:optimize", "src/reg-alloc.c:reg_alloc", "src/peephole.c:peephole", "src/riscv-codegen.c:code_generate", "src/arm-codegen.c:code_generate"]}
{"id": "C98", "title": "Folding and common subexpression elimination together preserve a function", "statement": "After the loop of optimize that folds constants and replaces repeated reads p[i] by the value read first, a function returns the same value, leaves the same memory and makes the same calls with the same arguments in the same memory, provided a repeated read would give the value read first (nothing stored in between).", "quantifier": "every function in SSA form, every dominator tree that build_idom computes, every initial state, every meaning of calls, any number of loop iterations", "why_tests_cant": "the two transformations run interleaved over all blocks and change what the later ones see; every execution of every function is concerned", "anchors": ["src/ssa.c:optimize", "src/ssa.c:cse", "src/ssa.c:const_folding"]}
{"id": "C99", "title": "A program is read as it is written", "statement": "The text of a program - a sequence of declarations of types, global variables with initial values, functions without and with a body - is accepted, and what the compiler goes on with is that program: the types and enumeration constants declared, the functions declared and no others, each global variable in order with the value of its initial expression, and for each function body a sequence of statements that does what the body does as written, with each name meaning the declaration C says it means there.", "quantifier": "for all programs of the grammar (any number and order of declarations, any bodies and initial expressions), all layouts of the text, all states and executions of the bodies", "why_tests_cant": "Programs are unbounded in the number and nesting of declarations, statements and expressions; a test fixes one text.", "anchors": ["src/parser.c:read_global_statement", "src/parser.c:read_global_decl", "src/parser.c:read_global_assignment", "src/parser.c:read_inner_var_decl", "src/parser.c:read_parameter_list_decl", "src/parser.c:parse_internal", "src/parser.c:read_func_body"]}
{"id": "C100", "title": "From the text of a program to the exit of its executable", "statement": "If the text of a program, executed as C prescribes from the initialisation of its global variables on, ends with main returning r, then the executable image made of that text, loaded and started, reaches the exit system call with r, having left the same memory outside the stack; each global variable has storage of its own that is large enough for its type.", "quantifier": "for all programs of the grammar with their functions and global variables, all executions that end, all initial memories and behaviours of system calls, on both targets", "why_tests_cant": "The claim composes every pass of the compiler; tests run a finite number of programs on a finite number of inputs.", "anchors": ["src/main.c:main", "src/parser.c:parse_internal", "src/reg-alloc.c:reg_alloc", "src/ssa.c:ssa_build", "src/arm-codegen.c:code_generate", "src/riscv-codegen.c:code_generate"]}
{"id": "C101", "title": "Errors are reported where they are", "statement": "When the compiler rejects a program, it prints the message, the position in the text, the line that contains this position, and a mark under its column. (False at the end of a line, in particular for every #error, where the next line is shown; and lines too long for the buffer, or a last line without newline, overrun it.)", "quantifier": "every source text, every position in it and every message", "why_tests_cant": "there are infinitely many texts and positions; tests look at a few short lines", "anchors": ["src/globals.c:error", "src/parser.c:read_preproc_directive"]}
{"id": "C102", "title": "Reading a program ends", "statement": "For every source text, the front end stops: every token it reads, except the end of the text, takes at least one character, so the text is read to its end or to an error after at most as many tokens as it has characters; and for every sequence of tokens the parser stops, with the program or with an error, its calls nesting at most ten times as deep as there are tokens, and four more. Loops that skip to a token they look for (#endif, the colon or semicolon of ?: in a global initialiser, the end of a macro argument or definition) stop at the first such token. They never stop if there is none: an #if without #endif, a global initialiser with ?: and no semicolon, or a macro definition in the last line without a newline makes the compiler run forever.", "quantifier": "all source texts without an active macro, all sequences of tokens, all positions in a text and all stopping conditions of the skipping loops, all numbers of turns", "why_tests_cant": "Tests run the compiler on some texts and wait for some time; that it stops on every text, however deeply nested or cut off wherever, is a statement about all texts, and that a loop never stops is one about all numbers of turns.", "anchors": ["src/lexer.c: lex_token_internal, skip_macro_body", "src/parser.c: parse_internal, read_global_statement, read_body_statement, read_expr, eval_ternary_imm, cppd_control_flow_skip_lines, read_preproc_directive"]}
{"id": "C103", "title": "The control-flow graph of a function is well formed", "statement": "For every function body within the supported statements, the control-flow graph the parser builds has no edge into the entry, edges only between blocks that were created, and each edge recorded at both of its ends; the exit is empty, has no successor, and is reached by plain edges only, never by a branch; a branch or return is the last instruction of its block, no plain edge leaves a block with a branch, and the plain edge of a block with a return leads to the exit; every block that can be reached, other than the exit, has a plain edge or two edges and a branch at its end that chooses between them, never both kinds; and from every block that can be reached the exit can be reached, also from the blocks of loops that do not end. If moreover the condition of every do loop and the increment of every for loop can be reached (at the end of the body or by continue), then every block from which an edge leads can be reached from the entry, so that the later passes find an immediate dominator for every predecessor they look at and SSA construction ends with a result. Otherwise the compiler follows a null pointer: for do { return 1; } while (x); and for (;; x = 1) return 1; it crashes.", "quantifier": "all function bodies made of the supported statements, nested to any depth; all graphs with a reachable block that has an unreachable predecessor", "why_tests_cant": "Tests look at the graphs of some functions; blocks, edges and dead code combine in unboundedly many ways, and a single edge recorded at one end only, or coming from a block that cannot be reached, crashes or corrupts a later pass.", "anchors": ["src/parser.c: read_body_statement, read_code_block, read_func_body, read_logical, finalize_logical, read_ternary_operation", "src/globals.c: bb_create, bb_connect", "src/ssa.c: bb_build_df, build_idom"]}
{"id": "C104", "title": "Names that the compiler makes up never clash", "statement": "The names generated for temporaries and labels are pairwise different over a whole run, fit the buffers that hold names, and are never spelled like an identifier or keyword of the source, so no generated object is mistaken for another or for one of the program's.", "quantifier": "every history of up to 2^31 requests, every memory contents at each request", "why_tests_cant": "a clash depends on how many names were generated before", "anchors": ["src/parser.c: gen_name, gen_label", "lib/c.c: sprintf"]}
{"id": "C105", "title": "The compiler's tables are allocated and released without touching dead memory", "statement": "Whatever scopes, functions, instructions, basic blocks and code bytes a run adds and wherever the allocator places them, no read, write or free touches memory that is not allocated; a name looked up in the table of functions gives the one living object registered for it and NULL if there is none; at the end every object of the tables has been freed exactly once and only the objects that no function releases are left.", "quantifier": "every history of allocations, every allocator (addresses may be reused), every contents of fresh memory", "why_tests_cant": "use after free and double free depend on the history and on the allocator; most runs survive them", "anchors": ["src/globals.c: global_init, global_release, arena_alloc, arena_free, hashmap_put, hashmap_free, add_func, add_block, source_push, source_release"]}
{"id": "C106", "title": "The lists of uses stay intact while expressions are eliminated", "statement": "After the lists of uses are built, the list of every variable holds exactly the instructions that use it, in program order, and can be followed in both directions. However often common subexpression elimination walks such a list and releases elements of it, it never follows a null pointer or a released element, always comes to the end of the list, replaces exactly the additions with the same two operands that pass its tests (the instructions of every block become what the elimination of a list of instructions prescribes, correctly linked), and leaves every list intact and complete for the instructions that remain.", "quantifier": "every program (instructions and operands), every choice of addresses by the allocator, every sequence of walks with any outcome of the tests", "why_tests_cant": "an element is released in the step after it was found, while other lists hold neighbours of it; whether this goes wrong depends on the shape of all lists and on the history of earlier walks", "anchors": ["src/ssa.c: use_chain_add_tail, use_chain_delete, use_chain_build, cse, optimize"]}
