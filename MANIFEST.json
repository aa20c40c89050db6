{
 "claims": [
  {
   "property": "C01",
   "status": "proved",
   "theorems": [
    "Shecc.Props.C01_rtype"
   ],
   "note": ""
  },
  {
   "property": "C02",
   "status": "proved",
   "theorems": [
    "Shecc.Props.C02_itype_reject",
    "Shecc.Props.C02_itype",
    "Shecc.Props.C02_shift",
    "Shecc.Props.C02_nop"
   ],
   "note": ""
  },
  {
   "property": "C03",
   "status": "proved",
   "theorems": [
    "Shecc.Props.C03_store_reject",
    "Shecc.Props.C03_store"
   ],
   "note": ""
  },
  {
   "property": "C04",
   "status": "proved",
   "theorems": [
    "Shecc.Props.C04_branch_reject",
    "Shecc.Props.C04_branch"
   ],
   "note": ""
  },
  {
   "property": "C05",
   "status": "proved",
   "theorems": [
    "Shecc.Props.C05_jal",
    "Shecc.Props.C05_jal_out_of_range_silently_wrong"
   ],
   "note": "The encoder has no range check: the second theorem shows that out-of-range offsets are silently mis-encoded. C61 shows offsets in compiled programs are in range."
  },
  {
   "property": "C06",
   "status": "proved",
   "theorems": [
    "Shecc.Props.C06_lui_addi"
   ],
   "note": ""
  },
  {
   "property": "C07",
   "status": "proved",
   "theorems": [
    "Shecc.Props.C07_dp_reg",
    "Shecc.Props.C07_shift_mul",
    "Shecc.Props.C07_reglist",
    "Shecc.Props.C07_conditions"
   ],
   "note": ""
  },
  {
   "property": "C08",
   "status": "proved",
   "theorems": [
    "Shecc.Props.C08_modified_imm",
    "Shecc.Props.C08_add_negative",
    "Shecc.Props.C08_negative_truncated"
   ],
   "note": ""
  },
  {
   "property": "C09",
   "status": "proved",
   "theorems": [
    "Shecc.Props.C09_movw_movt"
   ],
   "note": ""
  },
  {
   "property": "C10",
   "status": "proved",
   "theorems": [
    "Shecc.Props.C10_transfer",
    "Shecc.Props.C10_out_of_range_silently_wrong"
   ],
   "note": ""
  },
  {
   "property": "C11",
   "status": "proved",
   "theorems": [
    "Shecc.Props.C11_branch",
    "Shecc.Props.C11_branch_target"
   ],
   "note": ""
  },
  {
   "property": "C12",
   "status": "proved",
   "theorems": [
    "Shecc.Props.C12_softdiv",
    "Shecc.Props.C12_softdiv_zero"
   ],
   "note": ""
  },
  {
   "property": "C13",
   "status": "proved",
   "theorems": [
    "Shecc.Props.C13_softmul"
   ],
   "note": ""
  },
  {
   "property": "C14",
   "status": "partial",
   "theorems": [
    "Shecc.Props.C14_softdiv_partial",
    "Shecc.Props.C14_softdiv_zero",
    "Shecc.Props.C14_mod_same",
    "Shecc.Props.C14_same_register_wrong"
   ],
   "note": "Proved for different operand registers, and for the remainder also for equal ones; the quotient with equal operand registers is wrong (C14_same_register_wrong)."
  },
  {
   "property": "C15",
   "status": "proved",
   "theorems": [
    "Shecc.Props.C15_binary",
    "Shecc.Props.C15_unary",
    "Shecc.Props.C15_assign"
   ],
   "note": ""
  },
  {
   "property": "C16",
   "status": "proved",
   "theorems": [
    "Shecc.Props.C16_binary",
    "Shecc.Props.C16_unary",
    "Shecc.Props.C16_assign"
   ],
   "note": "Software division is C14."
  },
  {
   "property": "C17",
   "status": "proved",
   "theorems": [
    "Shecc.Props.C17_rv_constant",
    "Shecc.Props.C17_rv_address",
    "Shecc.Props.C17_rv_data_address",
    "Shecc.Props.C17_arm_constant",
    "Shecc.Props.C17_arm_address",
    "Shecc.Props.C17_arm_data_address"
   ],
   "note": "ARM stack addresses: non-negative offsets, which is all the sizing pass accepts."
  },
  {
   "property": "C18",
   "status": "proved",
   "theorems": [
    "Shecc.Props.C18_rv_size"
   ],
   "note": ""
  },
  {
   "property": "C19",
   "status": "partial",
   "theorems": [
    "Shecc.Props.C19_arm_size_partial",
    "Shecc.Props.C19_arm_self_assign_wrong"
   ],
   "note": "Every instruction except a move of a register to itself, for which the sizes differ (second theorem)."
  },
  {
   "property": "C20",
   "status": "partial",
   "theorems": [
    "Shecc.Props.C20_rv_layout",
    "Shecc.Props.C20_arm_layout",
    "Shecc.Props.C20_arm_self_move_wrong"
   ],
   "note": "RISC-V: every program. ARM: every program without self-moves; the last theorem shows that the condition is needed."
  },
  {
   "property": "C21",
   "status": "proved",
   "theorems": [
    "Shecc.Props.C21_rv_branch",
    "Shecc.Props.C21_arm_branch"
   ],
   "note": ""
  },
  {
   "property": "C22",
   "status": "partial",
   "theorems": [
    "Shecc.Props.C22_fusion_partial",
    "Shecc.Props.C22_block_partial",
    "Shecc.Props.C22_same_operand_wrong",
    "Shecc.Props.C22_live_intermediate_wrong",
    "Shecc.Props.C22_creates_self_move"
   ],
   "note": "Proved unless both operands of the second instruction are the intermediate register, for which the fusion is wrong (C22_same_operand_wrong)."
  },
  {
   "property": "C23",
   "status": "proved",
   "theorems": [
    "Shecc.Props.C23_write_int"
   ],
   "note": ""
  },
  {
   "property": "C24",
   "status": "proved",
   "theorems": [
    "Shecc.Props.C24_elf",
    "Shecc.Props.C24_add_symbol"
   ],
   "note": ""
  },
  {
   "property": "C25",
   "status": "partial",
   "theorems": [
    "Shecc.Props.C25_rv_literal",
    "Shecc.Props.C25_arm_literal"
   ],
   "note": "RISC-V: every program; ARM: programs satisfying Prog.ArmOk (otherwise elf_data_start is wrong, see C20)."
  },
  {
   "property": "C26",
   "status": "proved",
   "theorems": [
    "Shecc.Props.C26_get",
    "Shecc.Props.C26_contains",
    "Shecc.Props.C26_replace_fails"
   ],
   "note": "C26_replace_fails: the documented replace behaviour of hashmap_put is false."
  },
  {
   "property": "C27",
   "status": "proved",
   "theorems": [
    "Shecc.Props.C27_index",
    "Shecc.Props.C27_round_up"
   ],
   "note": ""
  },
  {
   "property": "C28",
   "status": "proved",
   "theorems": [
    "Shecc.Props.C28_find_func",
    "Shecc.Props.C28_stable"
   ],
   "note": ""
  },
  {
   "property": "C29",
   "status": "proved",
   "theorems": [
    "Shecc.Props.C29_arena",
    "Shecc.Props.C29_zeroed",
    "Shecc.Props.C29_overflow",
    "Shecc.Props.C29_reset_not_zeroed"
   ],
   "note": "Allocation sizes below 2^30; C29_overflow shows the int overflow beyond, C29_reset_not_zeroed that arena_reset (unused in the compiler) does not clear memory."
  },
  {
   "property": "C30",
   "status": "proved",
   "theorems": [
    "Shecc.Props.C30_source"
   ],
   "note": ""
  },
  {
   "property": "C31",
   "status": "proved",
   "theorems": [
    "Shecc.Props.C31_find",
    "Shecc.Props.C31_conforms",
    "Shecc.Props.C31_redefinition_resurfaces",
    "Shecc.Props.C31_redefinition_ignored"
   ],
   "note": ""
  },
  {
   "property": "C32",
   "status": "proved",
   "theorems": [
    "Shecc.Props.C32_scope",
    "Shecc.Props.C32_unique"
   ],
   "note": ""
  },
  {
   "property": "C33",
   "status": "proved",
   "theorems": [
    "Shecc.Props.C33_strlen",
    "Shecc.Props.C33_strcmp",
    "Shecc.Props.C33_strncmp",
    "Shecc.Props.C33_order_ascii",
    "Shecc.Props.C33_order_riscv_witness"
   ],
   "note": "Order is that of the target char type: unsigned on ARM, signed on RISC-V (witness)."
  },
  {
   "property": "C34",
   "status": "proved",
   "theorems": [
    "Shecc.Props.C34_strcpy",
    "Shecc.Props.C34_strncpy",
    "Shecc.Props.C34_memcpy",
    "Shecc.Props.C34_memcpy_overlap_witness"
   ],
   "note": ""
  },
  {
   "property": "C35",
   "status": "proved",
   "theorems": [
    "Shecc.Props.C35_decimal",
    "Shecc.Props.C35_div_ten"
   ],
   "note": ""
  },
  {
   "property": "C36",
   "status": "proved",
   "theorems": [
    "Shecc.Props.C36_hex_octal"
   ],
   "note": ""
  },
  {
   "property": "C37",
   "status": "proved",
   "theorems": [
    "Shecc.Props.C37_octal",
    "Shecc.Props.C37_hex",
    "Shecc.Props.C37_decimal",
    "Shecc.Props.C37_length"
   ],
   "note": ""
  },
  {
   "property": "C38",
   "status": "partial",
   "theorems": [
    "Shecc.Props.C38_snprintf_partial",
    "Shecc.Props.C38_witness"
   ],
   "note": "The bound holds for formats without integer conversions; C38_witness shows it is exceeded with %d."
  },
  {
   "property": "C39",
   "status": "partial",
   "theorems": [
    "Shecc.Props.C39_malloc_partial",
    "Shecc.Props.C39_witness"
   ],
   "note": "Proved for live sizes n with 1 <= n mod 4096 <= 4084; C39_witness: free(malloc(1)); malloc(4096) overruns its mapping by 12 bytes."
  },
  {
   "property": "C40",
   "status": "proved",
   "theorems": [
    "Shecc.Props.C40_double_free",
    "Shecc.Props.C40_twice"
   ],
   "note": "Chunks never unmapped between calls."
  },
  {
   "property": "C41",
   "status": "proved",
   "theorems": [
    "Shecc.Props.C41_calloc",
    "Shecc.Props.C41_overflow_witness"
   ],
   "note": ""
  },
  {
   "property": "C42",
   "status": "proved",
   "theorems": [
    "Shecc.Props.C42_fgets",
    "Shecc.Props.C42_line"
   ],
   "note": "n >= 2 (for n <= 1 NULL is never returned)."
  },
  {
   "property": "C43",
   "status": "partial",
   "theorems": [
    "Shecc.Props.C43_lex_partial",
    "Shecc.Props.C43_token",
    "Shecc.Props.C43_leading_blank"
   ],
   "note": "Whole-text theorem over all token lists and separators. Missing: strings with backslashes, comments with an odd number of stars before the close, blank-blind operators, text beginning with a blank (refutations proved: C43_leading_blank, C44_*, C45_*, C46_*)."
  },
  {
   "property": "C44",
   "status": "partial",
   "theorems": [
    "Shecc.Props.C44_operators_partial",
    "Shecc.Props.C44_blank_merges",
    "Shecc.Props.C44_double_minus"
   ],
   "note": "Proved for every pair of operators outside the merging ones; the merging pairs are proved to merge, so the full claim is false."
  },
  {
   "property": "C45",
   "status": "partial",
   "theorems": [
    "Shecc.Props.C45_escapes_partial",
    "Shecc.Props.C45_backslash_n",
    "Shecc.Props.C45_backslash_end"
   ],
   "note": "Proved for all strings without a backslash and all characters; refuted for strings with a backslash."
  },
  {
   "property": "C46",
   "status": "partial",
   "theorems": [
    "Shecc.Props.C46_comments_partial",
    "Shecc.Props.C46_stars",
    "Shecc.Props.C46_three_stars",
    "Shecc.Props.C46_after_divide",
    "Shecc.Props.C46_crlf"
   ],
   "note": "Comments are transparent when they end in an even number of stars (exact characterisation C46_stars) and do not follow a blank-blind operator; refuted otherwise."
  },
  {
   "property": "C47",
   "status": "proved",
   "theorems": [
    "Shecc.Props.C47_literal",
    "Shecc.Props.C47_buffer_too_small"
   ],
   "note": "All valid literals, both readers. The second theorem records that the 10-byte buffer of read_primary_constant is too small for some int literals (memory safety, outside the model)."
  },
  {
   "property": "C48",
   "status": "partial",
   "theorems": [
    "Shecc.Props.C48_grouping_partial",
    "Shecc.Props.C48_shift_wrong",
    "Shecc.Props.C48_stack_bound",
    "Shecc.Props.C48_value_stack_overflow"
   ],
   "note": "Exact C grouping (and uniqueness) for all sequences in which shifts are mixed with arithmetic only; refuted for shifts next to looser operators. Logical operators of read_expr are not modelled."
  },
  {
   "property": "C49",
   "status": "partial",
   "theorems": [
    "Shecc.Props.C49_condition_partial",
    "Shecc.Props.C49_drops",
    "Shecc.Props.C49_minus_plus_wrong",
    "Shecc.Props.C49_unsupported",
    "Shecc.Props.C49_line_end"
   ],
   "note": "Proved for conditions with strictly tightening operators; C49_drops characterises what happens otherwise, so the full claim is false."
  },
  {
   "property": "C50",
   "status": "partial",
   "theorems": [
    "Shecc.Props.C50_values",
    "Shecc.Props.C50_host_trap",
    "Shecc.Props.C50_fold_preserves_partial",
    "Shecc.Props.C50_dead_division_crashes",
    "Shecc.Props.C50_address_taken_wrong"
   ],
   "note": "Folding preserves every execution of every SSA function (any path, any machine) when the compiler itself does not trap and no address-taken local is assigned directly; both exceptions are refuted by witnesses (1/0 in dead code crashes the compiler; a store through a pointer to a constant local is ignored)."
  },
  {
   "property": "C51",
   "status": "proved",
   "theorems": [
    "Shecc.Props.C51_layout"
   ],
   "note": "every finite graph; Dfs is the textbook relation of Spec/CGraph"
  },
  {
   "property": "C52",
   "status": "proved",
   "theorems": [
    "Shecc.Props.C52_idom",
    "Shecc.Props.C52_post_dominators"
   ],
   "note": "including termination within |blocks|+2 passes, irreducible graphs, unreachable predecessors; post-dominators by the same algorithm"
  },
  {
   "property": "C53",
   "status": "partial",
   "theorems": [
    "Shecc.Props.C53_liveness_exact_partial",
    "Shecc.Props.C53_liveness_exact_on_partial",
    "Shecc.Props.C53_liveness_sound",
    "Shecc.Props.C53_endless_loop_missed",
    "Shecc.Props.C55_way_out_partial",
    "Shecc.Props.C53_compiled_way_out_partial",
    "Shecc.Props.C53_compiled_exact_partial",
    "Shecc.Props.CProgExample.fLiveness"
   ],
   "note": "live_out is exactly the set of locals live at the block's end for every CFG all of whose blocks reach the exit, and the fixpoint loop terminates with an explicit bound; without that hypothesis soundness (nothing dead is reported) still holds, and C53_endless_loop_missed shows that a block trapped in an endless loop loses live variables. For functions that went through the passes (Compiled of C95, including Joined of C93) the hypothesis is proved: C103 gives it for the parser's graph and C55_way_out_partial says that dead code elimination keeps it, so liveness is exact for them; fLiveness: a recursive function."
  },
  {
   "property": "C54",
   "status": "partial",
   "theorems": [
    "Shecc.Props.C54_cse_preserves_partial",
    "Shecc.Props.C54_replaced_where_dominated",
    "Shecc.Props.C54_store_between_wrong",
    "Shecc.Props.C54_other_read_wrong"
   ],
   "note": "Preservation proved for every path and machine when each replaced read is preceded by the first read with no store, call or reassignment since, uses the address just computed and has the same size. The full claim is false: stores in between are ignored, and the read following the addition need not use it (both refuted by witnesses)."
  },
  {
   "property": "C55",
   "status": "proved",
   "theorems": [
    "Shecc.Props.C55_kept_iff_needed",
    "Shecc.Props.C55_marking_terminates",
    "Shecc.Props.C55_redirect_nearest_useful",
    "Shecc.Props.C55_edges_after_removal",
    "Shecc.Props.C55_removal_preserves_partial",
    "Shecc.Props.C55_removed_branch_can_loop_forever"
   ],
   "note": "The kept instructions are exactly the least set containing those with effects and closed under data and control dependence, for every function; removing the rest preserves every path's effects (_partial: paths are those of the original graph). The claim does not extend to the removed branches' edges: C55_removed_branch_can_loop_forever shows a function compiled to an endless loop."
  },
  {
   "property": "C56",
   "status": "proved",
   "theorems": [
    "Shecc.Props.C56_no_variable_in_two_registers",
    "Shecc.Props.C56_registers_empty_between_blocks"
   ],
   "note": "For every instruction sequence, block and starting state."
  },
  {
   "property": "C57",
   "status": "partial",
   "theorems": [
    "Shecc.Props.C57_block_partial",
    "Shecc.Props.C57_block_branch_partial",
    "Shecc.Props.C57_block_return_partial",
    "Shecc.Props.C57_block_return_void_partial",
    "Shecc.Props.C57_six_variables_suffice",
    "Shecc.Props.C57_second_operand_spares_first",
    "Shecc.Props.RaWitness.C57_high_pressure_witness",
    "Shecc.Props.RaWitness.C57_indirect_witness",
    "Shecc.Props.RaWitness.C57_assign_witness",
    "Shecc.Props.RaWitness.C57_call_witness",
    "Shecc.Props.RaWitness.C57_func_write_witness"
   ],
   "note": "Running the allocated code of a block, from any state that corresponds to the source state, ends in a state that corresponds to the source's final state and goes to the source's next block: for every block in which the allocator's choices do not clash (source-level sufficient condition: at most six pending variables) and that contains no indirect call or function address. The unrestricted statement is false of the code; the witnesses are blocks it translates wrongly (operand evicted by the other operand; register reused after an indirect call; assignment under pressure; call without arguments of a function with parameters; function address stored over a cached global)."
  },
  {
   "property": "C58",
   "status": "proved",
   "theorems": [
    "Shecc.Props.C58_align_size",
    "Shecc.Props.C58_frame_areas_disjoint",
    "Shecc.Props.C58_frame_start"
   ],
   "note": "Sizes and pairwise disjointness of all frame areas for every function and declaration sequence; offsets assumed to fit an int."
  },
  {
   "property": "C59",
   "status": "proved",
   "theorems": [
    "Shecc.Props.C59_inlined_text",
    "Shecc.Props.C59_escaped_text",
    "Shecc.Props.C59_characters",
    "Shecc.Props.C59_bounds",
    "Shecc.Props.C59_tool",
    "Shecc.Props.C59_library",
    "Shecc.Props.C59_arguments"
   ],
   "note": "For every source without backslashes and with lines of at most 198 characters, the text passed to source_push is the source line by line; with \\n escapes (as lib/c.c has) those become newline characters; for any line lengths no character other than line breaks is lost. The meaning of a C string literal is specified separately. C59_tool and C59_library: the program as a whole, with its unchecked 64 KiB buffer: the output file is prologue, statements and end exactly if it fits. Files contain no NUL. C59_bounds shows both restrictions are needed."
  },
  {
   "property": "C60",
   "status": "proved",
   "theorems": [
    "Shecc.Props.C60_command_line",
    "Shecc.Props.C60_position_independent",
    "Shecc.Props.C60_undocumented"
   ],
   "note": "For every list of documented items in any order and number. C60_undocumented: a trailing -o is accepted, an unknown option is taken for the input file."
  },
  {
   "property": "C61",
   "status": "partial",
   "theorems": [
    "Shecc.Props.C61_rv_refines",
    "Shecc.Props.C61_rv_block_instrs",
    "Shecc.Props.C61_arm_refines",
    "Shecc.Props.C61_arm_block_instrs"
   ],
   "note": "RISC-V: every program. ARM: programs satisfying Prog.ArmOk (no self-moves, conditional branches end their block and one successor follows); without hardware divide no division with equal operand registers."
  },
  {
   "property": "C62",
   "status": "partial",
   "theorems": [
    "Shecc.Props.C62_rv_entry",
    "Shecc.Props.C62_rv_main",
    "Shecc.Props.C62_rv_exit",
    "Shecc.Props.C62_rv_execution",
    "Shecc.Props.C62_gp_constant",
    "Shecc.Props.C62_arm_entry",
    "Shecc.Props.C62_arm_exit",
    "Shecc.Props.C62_arm_main",
    "Shecc.Props.C62_arm_execution"
   ],
   "note": "RISC-V: every program. ARM: programs satisfying Prog.ArmOk."
  },
  {
   "property": "C63",
   "status": "partial",
   "theorems": [
    "Shecc.Props.C63_rv_syscall",
    "Shecc.Props.C63_arm_syscall"
   ],
   "note": "RISC-V: every program. ARM: programs satisfying Prog.ArmOk."
  },
  {
   "property": "C64",
   "status": "proved",
   "theorems": [
    "Shecc.Props.C64_format"
   ],
   "note": ""
  },
  {
   "property": "C65",
   "status": "proved",
   "theorems": [
    "Shecc.Props.C65_best_fit",
    "Shecc.Props.C65_total"
   ],
   "note": ""
  },
  {
   "property": "C66",
   "status": "proved",
   "theorems": [
    "Shecc.Props.C66_free_all"
   ],
   "note": ""
  },
  {
   "property": "C67",
   "status": "partial",
   "theorems": [
    "Shecc.Props.C67_initializer_partial",
    "Shecc.Props.C67_mod_wrong",
    "Shecc.Props.C67_bit_ops_refused"
   ],
   "note": "No % (refuted for negative operands), no shift mixed with looser operators, no ternary."
  },
  {
   "property": "C68",
   "status": "partial",
   "theorems": [
    "Shecc.Props.C68_dominance_frontier_partial",
    "Shecc.Props.C68_unreachable_pred_crashes"
   ],
   "note": "exact when reachable blocks have only reachable predecessors; otherwise the code crashes (witness: for (i = 0; i < n; i++) { break; } leaves the increment block unreachable but connected)"
  },
  {
   "property": "C69",
   "status": "partial",
   "theorems": [
    "Shecc.Props.C69_macro_use_partial",
    "Shecc.Props.C69_other_values"
   ],
   "note": "Proved for every macro name, every number (decimal, octal, 0x) and every string that contains a character other than hex digits, and any following text; C69_other_values shows the claim is false for identifiers, strings of digits, negative numbers and values in brackets."
  },
  {
   "property": "C70",
   "status": "partial",
   "theorems": [
    "Shecc.Props.C70_groups_partial",
    "Shecc.Props.C70_unnested_partial",
    "Shecc.Props.C70_nested_in_skipped",
    "Shecc.Props.C70_nested_then_else",
    "Shecc.Props.C70_unterminated"
   ],
   "note": "Proved for every text at any depth whose nested groups occur only in processed, last parts of their group; refuted for other nestings. An unterminated skipped part makes the compiler loop (C70_unterminated). Skipped characters are assumed to lex without error."
  },
  {
   "property": "C71",
   "status": "partial",
   "theorems": [
    "Shecc.Props.C71_renaming_preserves_executions_partial",
    "Shecc.Props.C71_reassigned_local_wrong"
   ],
   "note": "Proved for every graph, path and instruction semantics when local variables that live in memory (address taken, arrays) are initialised once; C71_reassigned_local_wrong shows that a local reassigned after its address was taken is miscompiled. Well-scopedness of the source (Fn.Scoped) is assumed."
  },
  {
   "property": "C72",
   "status": "proved",
   "theorems": [
    "Shecc.Props.C72_construction_succeeds",
    "Shecc.Props.C72_single_assignment",
    "Shecc.Props.C72_definitions_dominate"
   ],
   "note": "For every graph whose reachable blocks have reachable predecessors (otherwise build_df crashes, see C68). The fixed array sizes of the compiler are not modelled."
  },
  {
   "property": "C73",
   "status": "partial",
   "theorems": [
    "Shecc.Props.C73_body_translated_partial",
    "Shecc.Props.C73_divergence_translated_partial",
    "Shecc.Props.C73_exit_iff_partial",
    "Shecc.Props.C73_return_increment_wrong",
    "Shecc.Props.C73_condition_increment_wrong",
    "Shecc.Props.C73_for_increment_wrong",
    "Shecc.Props.C73_for_continue_wrong",
    "Shecc.Props.C73_empty_switch_wrong",
    "Shecc.Props.C73_dead_code_aborts"
   ],
   "note": "Forward and backward simulation for all bodies within Stmts.Ok: pending postfix ++/-- only in straight expression statements, the increment of a for without control flow (and not empty if the body continues without completing), a switch with at least one label. Outside, the compiler is wrong: witnesses for return x++, if (x++), for with && in the increment, for without increment left by continue only, empty switch, and control statements after a return (abort)."
  },
  {
   "property": "C74",
   "status": "partial",
   "theorems": [
    "Shecc.Props.C74_expression_partial",
    "Shecc.Props.C74_and_stops_partial",
    "Shecc.Props.C74_and_goes_on_partial",
    "Shecc.Props.C74_or_stops_partial",
    "Shecc.Props.C74_ternary_partial",
    "Shecc.Props.C74_operand_increment_wrong",
    "Shecc.Props.C74_nested_ternary_wrong"
   ],
   "note": "For expressions without postfix ++/-- whose ?: has last operands without control flow. Outside, the compiler is wrong: x && z++ always increments, c ? (a && b) : d gets stuck (witnesses)."
  },
  {
   "property": "C75",
   "status": "partial",
   "theorems": [
    "Shecc.Props.C75_edges_recorded_partial"
   ],
   "note": "For bodies within Stmts.Ok."
  },
  {
   "property": "C76",
   "status": "partial",
   "theorems": [
    "Shecc.Props.C76_sizeof_partial",
    "Shecc.Props.C76_member_partial",
    "Shecc.Props.C76_alias",
    "Shecc.Props.C76_name_space",
    "Shecc.Props.C76_undeclared"
   ],
   "note": "For every program whose names used both as tag and as type name denote the same structure (Apart) and with no type name declared as another name of a structure type name (NoStructAlias). Outside, the compiler is wrong: typedef of a structure alias loses its members, tag and type name share one name space, sizeof (struct s *) needs s declared (witnesses). Sizes are unbounded naturals; MAX_TYPES and MAX_FIELDS are not modelled."
  },
  {
   "property": "C77",
   "status": "partial",
   "theorems": [
    "Shecc.Props.C77_members_apart_partial"
   ],
   "note": "Under the same conditions as C76."
  },
  {
   "property": "C78",
   "status": "proved",
   "theorems": [
    "Shecc.Props.C78_enum"
   ],
   "note": ""
  },
  {
   "property": "C79",
   "status": "partial",
   "theorems": [
    "Shecc.Props.C79_expression_partial",
    "Shecc.Props.C79_deref_plus",
    "Shecc.Props.C79_element_plus",
    "Shecc.Props.C79_times_element_plus",
    "Shecc.Props.C79_pointer_plus_product",
    "Shecc.Props.C79_pointer_pointer_plus",
    "Shecc.Props.C79_element_element",
    "Shecc.Props.C79_deref_array",
    "Shecc.Props.C79_address_of_array",
    "Shecc.Props.C79_pointer_minus",
    "Shecc.Props.C79_minus_parenthesis",
    "Shecc.Props.C79_member_sum",
    "Shecc.Props.C79_constant_hides"
   ],
   "note": "For the expressions of Spec/CSyntax: its restrictions marked R exclude what the compiler translates wrongly (witnesses). Logical operators and ?: are C73; ++ and -- inside expressions, macro calls and function names as values are not modelled."
  },
  {
   "property": "C80",
   "status": "partial",
   "theorems": [
    "Shecc.Props.C80_assignment_partial",
    "Shecc.Props.C80_element_of_pointer",
    "Shecc.Props.C80_pointer_pointer",
    "Shecc.Props.C80_character",
    "Shecc.Props.C80_function_pointer"
   ],
   "note": "Same restrictions; assignments to character variables, _Bool, function pointers and compound assignment to elements of what a pointer points to are wrong in the compiler (witnesses)."
  },
  {
   "property": "C81",
   "status": "proved",
   "theorems": [
    "Shecc.Props.C81_strings"
   ],
   "note": "For the expressions of Spec/CSyntax."
  },
  {
   "property": "C82",
   "status": "partial",
   "theorems": [
    "Shecc.Props.C82_function_partial"
   ],
   "note": "For functions whose blocks each satisfy the conditions of C57 (at most six pending variables, no indirect call, no function address), whose layout lists every block after some predecessor and numbers them consecutively, whose live-out sets contain what the successors need (variables joined by phi copies may be live before they have a value), and which are not variadic. A non-void function that reaches its end without a return has no execution in the specification. The code in the program may be the allocator's or what the peephole pass makes of it; in the latter case the pass must not merge instructions whose intermediate register is used later (C22)."
  },
  {
   "property": "C83",
   "status": "partial",
   "theorems": [
    "Shecc.Props.C83_program_partial"
   ],
   "note": "Functions must meet the conditions of C82; executions that return; a system call must have one result for all hidden memory contents."
  },
  {
   "property": "C84",
   "status": "proved",
   "theorems": [
    "Shecc.Props.C84_globals"
   ],
   "note": "For declarations as the parser hands them over (initialisers already evaluated)."
  },
  {
   "property": "C85",
   "status": "partial",
   "theorems": [
    "Shecc.Props.C85_rv_partial",
    "Shecc.Props.C85_arm_partial"
   ],
   "note": "Same conditions as C83; only executions that return from main (not exit() inside). The peephole pass is between allocator and code generation, as in the compiler; it must not merge instructions whose intermediate register is used later (C22)."
  },
  {
   "property": "C86",
   "status": "partial",
   "theorems": [
    "Shecc.Props.C86_analyses_partial",
    "Shecc.Props.C86_allocated_partial",
    "Shecc.Props.C86_analyses_terminate"
   ],
   "note": "For functions whose blocks all reach the exit (otherwise liveness is wrong, C53) and whose control flow has not changed since build_rpo (dead-code elimination may remove branches later), with the conditions of C57 on pending variables (Moderate)."
  },
  {
   "property": "C87",
   "status": "partial",
   "theorems": [
    "Shecc.Props.C87_ssa_executions_partial",
    "Shecc.Props.C87_ssa_divergence_partial"
   ],
   "note": "As C71: a local variable that lives in memory must be initialised once (C71_reassigned_local_wrong); otherwise complete, both directions and divergence."
  },
  {
   "property": "C88",
   "status": "partial",
   "theorems": [
    "Shecc.Props.C88_body_to_ssa_partial",
    "Shecc.Props.C88_divergence_to_ssa_partial",
    "Shecc.Props.C88_exit_iff_partial"
   ],
   "note": "Bodies within Stmts.Ok (outside it the translation is wrong, see C73 and C74) and the condition of C71 on locals in memory."
  },
  {
   "property": "C89",
   "status": "partial",
   "theorems": [
    "Shecc.Props.C89_macro_text_partial",
    "Shecc.Props.C89_call_takes_rest",
    "Shecc.Props.C89_define",
    "Shecc.Props.MacroEx.C89_rest_joins_call",
    "Shecc.Props.MacroEx.C89_rest_joins_call_sub",
    "Shecc.Props.MacroEx.C89_brackets_in_argument",
    "Shecc.Props.MacroEx.C89_nested_call",
    "Shecc.Props.MacroEx.C89_parameter_named_like_argument"
   ],
   "note": "Textual substitution holds for calls that are the last operand of their expression or bracket, with bracketed bodies and parameters and arguments without brackets that do not name a parameter; outside that the compiler differs from C (witnesses: 2*SQ(3)+1 is 2*(9+1); SQ((3)) leaves a bracket; SQ(x) with parameter x never ends; nested macros rejected). C89_call_takes_rest says exactly what a call means in any position. Variadic macros and macros as statements are not modelled; line ends inside an expression are not covered."
  },
  {
   "property": "C90",
   "status": "partial",
   "theorems": [
    "Shecc.Props.Io.C90_printf_partial",
    "Shecc.Props.Io.C90_printf_overflow",
    "Shecc.Props.Io.C90_write_file",
    "Shecc.Props.Io.C90_new_file_partial",
    "Shecc.Props.Io.C90_old_tail_kept",
    "Shecc.Props.Io.C90_read_file",
    "Shecc.Props.Io.C90_round_trip",
    "Shecc.Props.Io.C90_missing_file",
    "Shecc.Props.Io.C90_fputc",
    "Shecc.Props.Io.C90_exit",
    "Shecc.Props.Io.C90_abort"
   ],
   "note": "printf for texts below 200 characters (longer ones are stored behind the buffer, for every format: C90_printf_overflow); files that are new or not longer than what is written (C90_write_file says exactly what a longer file contains afterwards, C90_old_tail_kept); fopen never returns NULL for a missing file (C90_missing_file). exit, abort, fputc, fgetc, round trip: complete. Short writes and errors of the operating system other than missing and closed files are not modelled."
  },
  {
   "property": "C91",
   "status": "partial",
   "theorems": [
    "Shecc.Props.Source.C91_source_partial",
    "Shecc.Props.Source.C91_missing",
    "Shecc.Props.Source.C91_no_directory",
    "Shecc.Props.Source.C91_no_final_newline",
    "Shecc.Props.Source.C91_self_include",
    "Shecc.Props.Source.C91_nul"
   ],
   "note": "Under the conditions of CSource.Included (a directory in the name, newline after the directive, no NUL, paths below 256 and total text below 524288 bytes); witnesses show what goes wrong outside them."
  },
  {
   "property": "C92",
   "status": "partial",
   "theorems": [
    "Shecc.Props.C92_function_partial",
    "Shecc.Props.C92_program_partial",
    "Shecc.Props.C92_rv_partial",
    "Shecc.Props.C92_arm_partial"
   ],
   "note": "Source means the SSA form after the optimisation passes; functions must meet the conditions of C82, C83 and C85. Nothing is assumed about what follows the system call, so endless and exiting programs are included (SsaReachExample: an endless program)."
  },
  {
   "property": "C93",
   "status": "partial",
   "theorems": [
    "Shecc.Props.C93_dce_partial",
    "Shecc.Props.C93_example",
    "Shecc.Props.C93_endless_wrong"
   ],
   "note": "Two conditions: a removed branch has a useful block before the exit on its chain of post-dominators (Joined; without it the block is left without successors, C55_removed_branch_can_loop_forever), and every block reaches the exit (C93_endless_wrong: otherwise the pass removes a branch that matters and follows a null pointer). The work-list overflow beyond 2047 entries in the second loop is not modelled."
  },
  {
   "property": "C94",
   "status": "partial",
   "theorems": [
    "Shecc.Props.C94_fold_partial",
    "Shecc.Props.C94_example"
   ],
   "note": "Like C50, but about executions with branches decided by values, memory of bytes and calls (the executions that C93, C82 and C85 start from). Partial: the pass itself must not divide by zero (C50_dead_division_crashes); addresses of scalar locals are outside this semantics (C50_address_taken_wrong)."
  },
  {
   "property": "C95",
   "status": "partial",
   "theorems": [
    "Shecc.Props.C95_function_partial",
    "Shecc.Props.C95_calls_partial",
    "Shecc.Props.C95_exits_partial",
    "Shecc.Props.C95_rv_partial",
    "Shecc.Props.C95_arm_partial",
    "Shecc.Props.CProgExample.C95_example_rv",
    "Shecc.Props.CProgExample.C95_example_arm"
   ],
   "note": "Composes C73/C88 (statements to SSA), C98 (constant folding and common subexpression elimination), C93, C83 and C85. Partial: only executions that end (C92 covers the others from SSA form on); the conditions of those theorems on the functions (CProg.Compiled, Whole; graph, SSA shape, single assignment, definition before use, the calling sequences dead-code elimination needs and that every loop has a way to the exit are proved from C103 and C71, not assumed), among them that a repeated p[i] would read the value read first (C98), only addresses of globals taken. CProgExample: a recursive program of two functions and a global meets all hypotheses, from its statements to the exit status, on both targets."
  },
  {
   "property": "C96",
   "status": "partial",
   "theorems": [
    "Shecc.Props.C96_body_partial",
    "Shecc.Props.BodyExample.C96_example",
    "Shecc.Props.BodyExample.C96_example_values"
   ],
   "note": "For the grammar of Spec/CBody and Spec/CSyntax (restrictions beyond C are marked R there: they exclude what the compiler is known to get wrong, e.g. a default that is not last, declarations behind a label, for without increment with continue). ?: as an assigned, returned or first initial value; prefix ++ and -- as statements and increments. Missing: ?: elsewhere, pointers to functions, macros, local variables whose address is taken, executions that do not end. BodyValues: a body with ?:, && in an assignment and ++s. BodyExample: a loop with continue, switch, && and scopes, read from its text, for every number of turns."
  },
  {
   "property": "C97",
   "status": "partial",
   "theorems": [
    "Shecc.Props.C97_calls_partial",
    "Shecc.Props.C97_exits_partial",
    "Shecc.Props.C97_rv_partial",
    "Shecc.Props.C97_arm_partial",
    "Shecc.Props.CProgExample.C97_example_rv",
    "Shecc.Props.CProgExample.C97_example_arm"
   ],
   "note": "Composes C96 with C95: partial as these are. The example is the recursive program of C95, now from its text on, with the trees computed by the parser model."
  },
  {
   "property": "C98",
   "status": "partial",
   "theorems": [
    "Shecc.Props.C98_optimize_partial",
    "Shecc.Props.C98_no_store",
    "Shecc.Props.CseEx.C98_example"
   ],
   "note": "About the loop of optimize as it is (cse first, then const_folding, instruction by instruction, blocks in order), for executions with memory of bytes, branches and calls. Partial: a repeated p[i] must give the value read first and have the usual shape (Unchanged; C98_no_store: so it is when nothing is stored in between; the compiler does not check this, C54_store_between_wrong and C54_other_read_wrong), and the conditions of C94. The example: if (p[i]) return x + p[i]; in two blocks."
  },
  {
   "property": "C99",
   "status": "partial",
   "theorems": [
    "Shecc.Props.C99_program_partial",
    "Shecc.Props.C99_text_partial",
    "Shecc.Props.TopExample.C99_example",
    "Shecc.Props.TopExample.C99_rejected_wrong",
    "Shecc.Props.TopExample.C99_accepted_wrong"
   ],
   "note": "For the grammar of Spec/CUnit (restrictions beyond C are marked R there), with C96 for the bodies, C76 for the types and C49/C67 for initial values. C99_text_partial: from the characters on (C43). Not true of all programs: C99_rejected_wrong shows C programs that are not accepted ((void), global struct s g, comma at the end of an enumeration, nested ?: in an initial value, global pointer to a function), C99_accepted_wrong a text that is no C program but is accepted. Missing besides: as C96; a type name that is also another structure's tag, other names for structure type names (C76)."
  },
  {
   "property": "C100",
   "status": "partial",
   "theorems": [
    "Shecc.Props.C100_exits_partial",
    "Shecc.Props.C100_rv_partial",
    "Shecc.Props.C100_arm_partial",
    "Shecc.Props.C100_storage_partial",
    "Shecc.Props.CProgExample.C100_example_rv",
    "Shecc.Props.CProgExample.C100_example_arm",
    "Shecc.Props.CProgExample.C100_storage_example"
   ],
   "note": "Composes C99 with C95 and C84, partial as these are: only executions that end; the functions in the tables go through the passes under the conditions of C95 (Compiled). The example: a recursive program of two functions and a global variable, from its text on, exits with 5050 on both targets."
  },
  {
   "property": "C101",
   "status": "partial",
   "theorems": [
    "Shecc.Props.C101_error_shown_partial",
    "Shecc.Props.C101_long_line_overruns",
    "Shecc.Props.C101_line_end_wrong",
    "Shecc.Props.C101_directive_wrong",
    "Shecc.Props.C101_last_line_overruns",
    "Shecc.Props.DiagExample.C101_example",
    "Shecc.Props.DiagExample.C101_example_wrong"
   ],
   "note": "Proved for every position inside a line with length + column + 21 <= 512. Not true otherwise: longer lines and a last line without newline overrun diagnostic[512]; at the end of a line, so for every #error, the next line is shown. Missing: which position the lexer has at a given error; abort."
  },
  {
   "property": "C102",
   "status": "partial",
   "theorems": [
    "Shecc.Props.C102_token",
    "Shecc.Props.C102_text",
    "Shecc.Props.C102_skip_found",
    "Shecc.Props.C102_skip_not_found",
    "Shecc.Props.C102_stops",
    "Shecc.Props.C102_if_wrong",
    "Shecc.Props.C102_ternary_wrong",
    "Shecc.Props.C102_define_wrong",
    "Shecc.Props.C102_models",
    "Shecc.Props.C102_parser",
    "Shecc.Props.C102_program",
    "Shecc.Props.C102_unit_partial"
   ],
   "note": "The lexer and the parser end for all texts and token sequences (within Model/Lexer, Model/ExprGen, Model/Body, Model/Top): the parser is proved independent of what calls at depth 10 * tokens + 4 would answer, which a parser that does not end could not be. False as it stands, with witnesses, for texts cut off inside #if, inside ?: of a global initialiser and behind the last macro definition: those loops never end. Not covered: expansion of function-like macros (a macro that contains itself), the constructs the parser models leave out."
  },
  {
   "property": "C103",
   "status": "partial",
   "theorems": [
    "Shecc.Props.C103_graph_partial",
    "Shecc.Props.C103_ends_partial",
    "Shecc.Props.C103_ways_partial",
    "Shecc.Props.C103_forks_partial",
    "Shecc.Props.C103_exit_reachable_partial",
    "Shecc.Props.C103_reachable_partial",
    "Shecc.Props.C103_linked_partial",
    "Shecc.Props.C103_ssa_partial",
    "Shecc.Props.C103_unreachable_predecessor",
    "Shecc.Props.C103_dead_loops"
   ],
   "note": "For bodies within Stmts.Ok (C73) and, for reachability from the entry, Stmts.Flows of Spec/CFlow. Without Flows it is false: C103_unreachable_predecessor shows for every graph with such a predecessor that SSA construction gives no result (null pointer), C103_dead_loops shows two C functions for which this happens. Used by C95, C97, C100, which no longer assume well-formed graphs."
  },
  {
   "property": "C104",
   "status": "proved",
   "theorems": [
    "Shecc.Props.C104_names"
   ],
   "note": "gen_name and gen_label on the sprintf of shecc's own library (C64); each caller copies the text out of the buffer at once.  Memory may hold anything at each request except that the two format strings are in place."
  },
  {
   "property": "C105",
   "status": "partial",
   "theorems": [
    "Shecc.Props.C105_allocate",
    "Shecc.Props.C105_functions",
    "Shecc.Props.C105_release_partial",
    "Shecc.Props.C105_unset_next",
    "Shecc.Props.C105_unset_next_witness"
   ],
   "note": "C105_allocate holds for any contents of fresh memory.  C105_functions: the pointer structure of the table of functions behaves as C26 and C28 say, whatever else is allocated.  The release is right only if memory from malloc reads as zero: add_block does not set next of the new scope and global_release follows it (C105_unset_next).  malloc and calloc succeed; objects are kept with their pointers only."
  },
  {
   "property": "C106",
   "status": "partial",
   "theorems": [
    "Shecc.Props.C106_lists",
    "Shecc.Props.C106_walks_partial",
    "Shecc.Props.C106_built",
    "Shecc.Props.C106_instructions_partial",
    "Shecc.Props.C106_only_element_wrong",
    "Shecc.Props.C106_same_operand_wrong"
   ],
   "note": "C106_instructions_partial: on the doubly linked lists of uses and of instructions, cse does to every block exactly what Model/Cse (of which C54 and C98 speak) does to lists of instructions, without undefined behaviour, and keeps all that the next call needs; C106_built: building the lists establishes it. Partial: for additions with two different operands, which all additions of C programs before a read have. With equal operands an element is released twice (C106_same_operand_wrong; only for texts like c[c] that are no C). C106_only_element_wrong: releasing the only element of a list would go through the null pointer; the pass never does so. calloc succeeds; belong_to and the operands of additions do not change."
  }
 ]
}