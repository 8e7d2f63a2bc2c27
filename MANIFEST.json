{
 "claims": [
  {
   "property": "C01",
   "status": "proved",
   "theorems": [
    "Verif.C01_copy_bits"
   ],
   "note": ""
  },
  {
   "property": "C02",
   "status": "proved",
   "theorems": [
    "Verif.C02_bit_predicates"
   ],
   "note": ""
  },
  {
   "property": "C03",
   "status": "proved",
   "theorems": [
    "Verif.C03_field_edits",
    "Verif.C03_edits_commute"
   ],
   "note": ""
  },
  {
   "property": "C04",
   "status": "proved",
   "theorems": [
    "Verif.C04_immediate"
   ],
   "note": ""
  },
  {
   "property": "C05",
   "status": "proved",
   "theorems": [
    "Verif.C05_queue_is_fifo"
   ],
   "note": ""
  },
  {
   "property": "C06",
   "status": "proved",
   "theorems": [
    "Verif.C06_empty_accurate"
   ],
   "note": ""
  },
  {
   "property": "C07",
   "status": "proved",
   "theorems": [
    "Verif.C07_get_bytes"
   ],
   "note": ""
  },
  {
   "property": "C08",
   "status": "partial",
   "theorems": [
    "Verif.C08_fifo_all_sizes_partial",
    "Verif.C08_refuted",
    "Verif.C08_straddle_exact",
    "Verif.C08_after_straddle",
    "Verif.C08_exact",
    "Verif.C08_contents",
    "Verif.C08_distinguishes"
   ],
   "note": "False of the code for every word size not dividing 32 (C08_refuted); holds for the sizes dividing 32. For every size C08_exact gives all values handed back, C08_contents the words, and C08_distinguishes which contents have the same words."
  },
  {
   "property": "C09",
   "status": "proved",
   "theorems": [
    "Verif.C09_successive_packing"
   ],
   "note": ""
  },
  {
   "property": "C10",
   "status": "proved",
   "theorems": [
    "Verif.C10_order_is_permutation",
    "Verif.C10_no_packets",
    "Verif.logOk_exact",
    "Verif.C10_log_too_big"
   ],
   "note": "The floating-point logarithm is a parameter; only 0 <= n and 4^n <= p is assumed of it."
  },
  {
   "property": "C11",
   "status": "proved",
   "theorems": [
    "Verif.C11_burst_separation"
   ],
   "note": ""
  },
  {
   "property": "C12",
   "status": "proved",
   "theorems": [
    "Verif.C12_interleave",
    "Verif.C12_groups_are_data",
    "Verif.C12_empty_order"
   ],
   "note": ""
  },
  {
   "property": "C13",
   "status": "partial",
   "theorems": [
    "Verif.C13_roundtrip_partial",
    "Verif.C13_incomplete_round",
    "Verif.C13_refuted",
    "Verif.C13_single_refuted"
   ],
   "note": "False of the code for a single packet and for an incomplete last round (refutations); holds for at least two packets and whole rounds."
  },
  {
   "property": "C14",
   "status": "proved",
   "theorems": [
    "Verif.C14_losses",
    "Verif.C14_rejections"
   ],
   "note": "Read in rounds of the last surviving packet; patterns outside the hypothesis raise (C14_rejections)."
  },
  {
   "property": "C15",
   "status": "partial",
   "theorems": [
    "Verif.C15_prediction_partial",
    "Verif.C15_exact",
    "Verif.C15_rejections",
    "Verif.C15_no_progress",
    "Verif.C15_refuted",
    "Verif.C15_order_refuted"
   ],
   "note": "False of the code at word ends and for unordered loss lists; C15_exact gives the exact prediction."
  },
  {
   "property": "C16",
   "status": "proved",
   "theorems": [
    "Verif.C16_blaum",
    "Verif.C16_rejections"
   ],
   "note": "The rounded square root is an arbitrary parameter."
  },
  {
   "property": "C17",
   "status": "proved",
   "theorems": [
    "Verif.C17_all_bits"
   ],
   "note": ""
  },
  {
   "property": "C18",
   "status": "proved",
   "theorems": [
    "Verif.C18_all_bits_tuples",
    "Verif.C18_disjoint"
   ],
   "note": "Ranges reaching bit 31 inclusive of the end are rejected by the code; the theorem covers that branch."
  },
  {
   "property": "C19",
   "status": "proved",
   "theorems": [
    "Verif.C19_random_bits",
    "Verif.C19_no_error",
    "Verif.C19_empty_range"
   ],
   "note": ""
  },
  {
   "property": "C20",
   "status": "partial",
   "theorems": [
    "Verif.C20_all_combinations_partial",
    "Verif.C20_exact",
    "Verif.C20_refuted"
   ],
   "note": "False of the code for every amount of three or more bits (C20_refuted); holds up to two bits. C20_exact says which words are listed for every amount: the combinations of the first, second, fourth, eighth, ... chosen position."
  },
  {
   "property": "C21",
   "status": "proved",
   "theorems": [
    "Verif.C21_distribute",
    "Verif.C21_exact"
   ],
   "note": ""
  },
  {
   "property": "C22",
   "status": "proved",
   "theorems": [
    "Verif.C22_corrupt_program",
    "Verif.C22_corrupt_instruction",
    "Verif.cpLoop_fuel",
    "Verif.C22_instruction_no_error",
    "Verif.C22_instruction_budget",
    "Verif.C22_reaches",
    "Verif.C22_addresses",
    "Verif.C22_addresses_case"
   ],
   "note": "Statements about every run that returns; the floating-point product is a parameter."
  },
  {
   "property": "C23",
   "status": "partial",
   "theorems": [
    "Verif.C23_refuted",
    "Verif.C117_ends_iff"
   ],
   "note": "False of the code: the guard never fires. What happens instead is exact: nothing is ever raised, and the call can return exactly when enough instructions are within reach."
  },
  {
   "property": "C24",
   "status": "proved",
   "theorems": [
    "Verif.C24_packet_loss",
    "Verif.C24_keeps_candidates",
    "Verif.C24_rejections",
    "Verif.C24_duplicates"
   ],
   "note": "Relative to the predicted bits (C15). Candidates may repeat (C24_duplicates)."
  },
  {
   "property": "C25",
   "status": "proved",
   "theorems": [
    "Verif.C25_save_load",
    "Verif.C25_keys_distinct",
    "Verif.C25_rejections",
    "Verif.C25_overflow",
    "Verif.C25_last_counts",
    "Verif.C25_last_counts_case"
   ],
   "note": "The JSON text itself is external; decimal keys are modelled."
  },
  {
   "property": "C26",
   "status": "proved",
   "theorems": [
    "Verif.C26_read_written"
   ],
   "note": ""
  },
  {
   "property": "C27",
   "status": "proved",
   "theorems": [
    "Verif.C27_truncated",
    "Verif.C27_crash",
    "Verif.C27_foreign"
   ],
   "note": ""
  },
  {
   "property": "C28",
   "status": "proved",
   "theorems": [
    "Verif.C28_write_iff"
   ],
   "note": ""
  },
  {
   "property": "C29",
   "status": "proved",
   "theorems": [
    "Verif.C29_union"
   ],
   "note": "Floats are exact rationals."
  },
  {
   "property": "C30",
   "status": "proved",
   "theorems": [
    "Verif.C30_probabilities"
   ],
   "note": "Floats are exact rationals."
  },
  {
   "property": "C31",
   "status": "proved",
   "theorems": [
    "Verif.C31_prefix_free",
    "Verif.C31_empty",
    "Verif.C31_single"
   ],
   "note": "heapq is external: popping takes the least entry."
  },
  {
   "property": "C32",
   "status": "proved",
   "theorems": [
    "Verif.C32_minimal",
    "Verif.C32_unknown_symbol"
   ],
   "note": ""
  },
  {
   "property": "C33",
   "status": "proved",
   "theorems": [
    "Verif.C33_multiset"
   ],
   "note": ""
  },
  {
   "property": "C34",
   "status": "proved",
   "theorems": [
    "Verif.C34_frequencies"
   ],
   "note": ""
  },
  {
   "property": "C35",
   "status": "proved",
   "theorems": [
    "Verif.C35_counts",
    "Verif.C35_accumulates"
   ],
   "note": "What Capstone answers about an instruction is an arbitrary field of the instruction."
  },
  {
   "property": "C36",
   "status": "proved",
   "theorems": [
    "Verif.C36_distances",
    "Verif.C36_exists",
    "Verif.C36_attained",
    "Verif.C36_order",
    "Verif.C36_untracked"
   ],
   "note": "Floats are exact rationals."
  },
  {
   "property": "C37",
   "status": "proved",
   "theorems": [
    "Verif.C37_addresses"
   ],
   "note": ""
  },
  {
   "property": "C40",
   "status": "proved",
   "theorems": [
    "Verif.C40_prune",
    "Verif.C40_idempotent"
   ],
   "note": ""
  },
  {
   "property": "C41",
   "status": "proved",
   "theorems": [
    "Verif.C41_terminates",
    "Verif.C41_recovery",
    "Verif.C41_complete_recovery_crashes"
   ],
   "note": "The scoring of a pass is an arbitrary function that keeps the candidates (proved of the real one under C74/C39). Termination includes ending with an exception; C41_complete_recovery_crashes shows when that is certain."
  },
  {
   "property": "C43",
   "status": "partial",
   "theorems": [
    "Verif.C43_report_partial",
    "Verif.C43_categories",
    "Verif.C43_crash",
    "Verif.C43_refuted",
    "Verif.C43_same_encoding",
    "Verif.C43_depths",
    "Verif.C43_depths_distinct"
   ],
   "note": "False of the code for a fully recovered program (division by zero); proved whenever some address still has several candidates."
  },
  {
   "property": "C77",
   "status": "proved",
   "theorems": [
    "Verif.C77_spaces"
   ],
   "note": ""
  },
  {
   "property": "C38",
   "status": "proved",
   "theorems": [
    "Verif.C38_evidence",
    "Verif.C38_errors",
    "Verif.C38_push_pop",
    "Verif.okProg_meets"
   ],
   "note": "For a program that contains its originals and whose functions lie inside it; floats are exact rationals."
  },
  {
   "property": "C39",
   "status": "proved",
   "theorems": [
    "Verif.C39_scores",
    "Verif.C39_final",
    "Verif.C39_refuted_later_pass",
    "Verif.C39_refuted_no_functions"
   ],
   "note": "Precondition: the functions handed over are those of the program. Outside the claim: once an original is discarded a later pass can raise (C39_refuted_later_pass), and a missing function table raises KeyError (C39_refuted_no_functions)."
  },
  {
   "property": "C42",
   "status": "partial",
   "theorems": [
    "Verif.C42_original_kept_partial",
    "Verif.C42_refuted_push",
    "Verif.C42_refuted_registers",
    "Verif.safe_one",
    "Verif.C42_pass_exact",
    "Verif.C42_exact",
    "Verif.C42_run_exact"
   ],
   "note": "False for push/pop and when a candidate uses a proper part of the original registers; otherwise proved for any number of passes. C42_pass_exact says exactly which candidates a pass discards on every program that contains its originals, and C42_exact when the original is among them; C42_run_exact says exactly what a whole run leaves, how many passes it takes and when it has kept every original."
  },
  {
   "property": "C44",
   "status": "proved",
   "theorems": [
    "Verif.C44_exact"
   ],
   "note": "All tables of required counts, all variables, with or without forward checking."
  },
  {
   "property": "C45",
   "status": "proved",
   "theorems": [
    "Verif.C45_sound"
   ],
   "note": "Completions take values from the domains; the domains hold each value once."
  },
  {
   "property": "C46",
   "status": "partial",
   "theorems": [
    "Verif.C46_hides_hopeless_partial",
    "Verif.C46_no_failure_partial",
    "Verif.C46_single_field",
    "Verif.C46_refuted",
    "Verif.C46_fails_in_general",
    "Verif.C46_exact",
    "Verif.C46_raises_iff",
    "Verif.C46_raises_case"
   ],
   "note": "The hiding is sound in every call that does not raise. \"Never fails\" is false: a value exceeding two counts is hidden twice and the second hideValue raises ValueError (C46_refuted; in general C46_fails_in_general). It never fails when no value exceeds more than one count, in particular for the condition and opcode constraints. Exactly when it raises and what it leaves is C46_exact and C46_raises_iff."
  },
  {
   "property": "C47",
   "status": "proved",
   "theorems": [
    "Verif.C47_original_is_solution",
    "Verif.C47_variables"
   ],
   "note": "Addresses of the original program are distinct and are those of the candidate program."
  },
  {
   "property": "C48",
   "status": "proved",
   "theorems": [
    "Verif.C48_enumerator",
    "Verif.C48_queue",
    "Verif.C48_stable",
    "Verif.C48_missing"
   ],
   "note": "Assumed: distinct addresses; a candidate printed like the original answers like it; registers are among storages. Undefined originals are skipped by the code and may lose their candidate. The queue builder is covered up to 2^32 candidates per address."
  },
  {
   "property": "C49",
   "status": "partial",
   "theorems": [
    "Verif.C49_refuted_enumerator",
    "Verif.C49_refuted_queue",
    "Verif.C49_refuted_straddle",
    "Verif.C49_indexes_identify_partial",
    "Verif.C49_queue_identifies_partial",
    "Verif.C49_queue_contents",
    "Verif.C49_queue_exact"
   ],
   "note": "False as stated for both encodings (three witnesses). Proved: the sequence of indexes used identifies the program, and the queue does when all numbers of candidates are powers of two and the indexes fit in 32 bits. C49_queue_exact says for all programs exactly when two originals get the same queue."
  },
  {
   "property": "C50",
   "status": "partial",
   "theorems": [
    "Verif.C50_size",
    "Verif.C50_size_real",
    "Verif.C50_count_partial",
    "Verif.C50_count_refuted",
    "Verif.C50_count_overshoots",
    "Verif.C50_after_depth",
    "Verif.C50_count_exact"
   ],
   "note": "The size is proved, on exact reals. The count is false (a sum over lengths instead of a product): proved only when all addresses have equally many candidates; what it is for every program is C50_count_exact. After the depth has been asked for, the size raises TypeError and the count is None (C50_after_depth)."
  },
  {
   "property": "C78",
   "status": "partial",
   "theorems": [
    "Verif.C78_depth_partial",
    "Verif.C78_refuted",
    "Verif.C78_again",
    "Verif.C78_errors",
    "Verif.C78_errors_case",
    "Verif.C78_exact",
    "Verif.C78_exact_case"
   ],
   "note": "Proved when no candidate encodes to zero, encodings at an address differ and different scores differ by at least 1e-9. False with a zero encoding (C78_refuted). What the depth is for every program is C78_exact."
  },
  {
   "property": "C51",
   "status": "proved",
   "theorems": [
    "Verif.C51_bytes",
    "Verif.C51_involution",
    "Verif.C51_rejections",
    "Verif.C51_text"
   ],
   "note": "Texts of exactly eight hexadecimal digits."
  },
  {
   "property": "C52",
   "status": "proved",
   "theorems": [
    "Verif.C52_target"
   ],
   "note": ""
  },
  {
   "property": "C53",
   "status": "proved",
   "theorems": [
    "Verif.C53_register_list",
    "Verif.C53_extends"
   ],
   "note": ""
  },
  {
   "property": "C54",
   "status": "partial",
   "theorems": [
    "Verif.C54_nodup",
    "Verif.C54_read_or_written",
    "Verif.C54_split",
    "Verif.C54_stack_partial",
    "Verif.C54_push_refuted",
    "Verif.C54_operands_partial",
    "Verif.C54_r0_refuted",
    "Verif.C54_unknown_base",
    "Verif.C54_exact",
    "Verif.C54_missing_exact",
    "Verif.C54_split_exact"
   ],
   "note": "No repetition and the split into reads and writes are proved. False: push does not write the stack pointer; R0 as memory base or index is not listed."
  },
  {
   "property": "C55",
   "status": "proved",
   "theorems": [
    "Verif.C55_stable",
    "Verif.C55_used",
    "Verif.C55_written",
    "Verif.C55_read",
    "Verif.C55_branch_pc"
   ],
   "note": "Callers do not mutate the returned lists. C55_branch_pc records that a branch writes the program counter without using it."
  },
  {
   "property": "C56",
   "status": "proved",
   "theorems": [
    "Verif.C56_branch_to"
   ],
   "note": "The target is the first immediate operand, as Capstone reports it."
  },
  {
   "property": "C79",
   "status": "proved",
   "theorems": [
    "Verif.C79_bytes"
   ],
   "note": ""
  },
  {
   "property": "C80",
   "status": "partial",
   "theorems": [
    "Verif.C80_fields",
    "Verif.C80_used",
    "Verif.C80_load_store_partial",
    "Verif.C80_written_refuted",
    "Verif.C80_read_refuted",
    "Verif.C80_read_fails",
    "Verif.C80_swi_never",
    "Verif.C80_read_multiple"
   ],
   "note": "Fields and registers used are proved exactly for all encodings. The split into read and written holds for single loads and stores and most data processing; multiple transfers raise TypeError, branches and moves ValueError."
  },
  {
   "property": "C81",
   "status": "partial",
   "theorems": [
    "Verif.C81_partial",
    "Verif.C81_written_refuted",
    "Verif.C81_exact",
    "Verif.C81_nodup_iff"
   ],
   "note": "The lists are given exactly, with the exact condition for a repetition. False with a register list and another written register: everything is listed twice."
  },
  {
   "property": "C68",
   "status": "proved",
   "theorems": [
    "Verif.C68_map",
    "Verif.C68_roundtrip",
    "Verif.C68_flatten",
    "Verif.C68_agree",
    "Verif.C68_bounds"
   ],
   "note": "Distinct addresses assumed where the map is involved; an example shows that instructions are lost otherwise."
  },
  {
   "property": "C69",
   "status": "proved",
   "theorems": [
    "Verif.C69_progress",
    "Verif.C69_final"
   ],
   "note": "For every total, start, bar length and non-negative printing distance."
  },
  {
   "property": "C70",
   "status": "proved",
   "theorems": [
    "Verif.C70_period"
   ],
   "note": ""
  },
  {
   "property": "C73",
   "status": "partial",
   "theorems": [
    "Verif.C73_control_flow",
    "Verif.C73_counting",
    "Verif.C73_distance_partial",
    "Verif.C73_distance_exact",
    "Verif.C73_distance_unreported",
    "Verif.C73_distance_overreported"
   ],
   "note": "Full for the control-flow and the three counting rules. False of the distance rule: changes to ignored candidates are not reported, and a second run may report a change though nothing differs."
  },
  {
   "property": "C74",
   "status": "proved",
   "theorems": [
    "Verif.C73_control_flow",
    "Verif.C73_counting",
    "Verif.C74_distance",
    "Verif.C74_recuperator"
   ],
   "note": ""
  },
  {
   "property": "C89",
   "status": "partial",
   "theorems": [
    "Verif.C89_excluded",
    "Verif.C89_original_excluded"
   ],
   "note": "The exact exclusions are proved. False of the code: the original instruction can be excluded, and with it all candidates of an address (C89_original_excluded)."
  },
  {
   "property": "C90",
   "status": "proved",
   "theorems": [
    "Verif.C90_removed",
    "Verif.C90_found"
   ],
   "note": "The last candidate of an address is kept by the code whether it fits or not; this is part of the property."
  },
  {
   "property": "C91",
   "status": "partial",
   "theorems": [
    "Verif.C91_control_flow",
    "Verif.C91_counting",
    "Verif.C91_counting_missing",
    "Verif.C91_sole_not_settled",
    "Verif.C91_registers",
    "Verif.C91_conditions",
    "Verif.C91_opcodes",
    "Verif.C91_control_flow_alone",
    "Verif.C91_counting_fails",
    "Verif.C91_absent"
   ],
   "note": "The formulas are proved exactly. False of the code in one point: a sole remaining candidate is not counted as settled if an excluded candidate comes first (C91_sole_not_settled). Conditions from 0 to 15; numbers are rationals."
  },
  {
   "property": "C92",
   "status": "proved",
   "theorems": [
    "Verif.C92_condition"
   ],
   "note": "What the disassembler reports is an assumption of the theorem."
  },
  {
   "property": "C75",
   "status": "proved",
   "theorems": [
    "Verif.C75_injective",
    "Verif.C75_covers",
    "Verif.C75_listings",
    "Verif.C75_lines",
    "Verif.C75_low_listing"
   ],
   "note": ""
  },
  {
   "property": "C76",
   "status": "partial",
   "theorems": [
    "Verif.C76_whole_partial",
    "Verif.C76_refuted_one",
    "Verif.C76_refuted_more",
    "Verif.C76_empty"
   ],
   "note": "Holds for lengths that are positive multiples of four; for every other length it is false, and the failure is proved: remainder 1 visits packet 0 twice, remainder 2 or 3 raises TypeError, length 0 raises IndexError."
  },
  {
   "property": "C67",
   "status": "proved",
   "theorems": [
    "Verif.C67_listing",
    "Verif.C67_no_section",
    "Verif.C67_prefix"
   ],
   "note": "Listings are function tables followed by sections in any number; creation of instructions is a parameter."
  },
  {
   "property": "C82",
   "status": "proved",
   "theorems": [
    "Verif.C82_functions_partition",
    "Verif.C82_groups",
    "Verif.C82_instructions"
   ],
   "note": "Characters are ASCII for white space and words."
  },
  {
   "property": "C71",
   "status": "partial",
   "theorems": [
    "Verif.C71_exact",
    "Verif.C71_swap_partial",
    "Verif.C71_rejects",
    "Verif.C71_convention_refuted",
    "Verif.C71_first_kept"
   ],
   "note": "The exact effect is proved; listed bits are counted from the other end than documented and the first listed position is never cleared."
  },
  {
   "property": "C72",
   "status": "partial",
   "theorems": [
    "Verif.C72_shift_partial",
    "Verif.C72_refuted",
    "Verif.C72_exact",
    "Verif.C72_overlap_case"
   ],
   "note": "Holds from the second group on; refuted for the first. Exactly what is removed, overlapping groups included, is C72_exact: groups that overlap take the bits that follow them as well (C72_overlap_case)."
  },
  {
   "property": "C57",
   "status": "proved",
   "theorems": [
    "Verif.dominator_tree",
    "Verif.dominator_tree_unreachable",
    "Verif.idom_is_unique"
   ],
   "note": "Lengauer-Tarjan as written: search, semidominators (compared by depth), links, buckets, second pass and tree. For graphs where a reachable block other than the root has an unreachable predecessor, RuntimeError is proved. The blocks are as newly made; the recursion limit of Python is not modelled."
  },
  {
   "property": "C58",
   "status": "proved",
   "theorems": [
    "Verif.dominance_frontier",
    "Verif.dominance_frontier_early"
   ],
   "note": "From the graph, through the dominator tree. A block that cannot be reached gets the root if it leads to it."
  },
  {
   "property": "C59",
   "status": "proved",
   "theorems": [
    "Verif.phi_placement",
    "Verif.phi_placement_early",
    "Verif.iterated_end",
    "Verif.phi_on_iterated_frontier"
   ],
   "note": "Placement for given frontiers, and composed with the two earlier constructions: iterated dominance frontier of the writing blocks, for registers some block reads before writing."
  },
  {
   "property": "C60",
   "status": "proved",
   "theorems": [
    "Verif.rename_once",
    "Verif.ssa_names_once"
   ],
   "note": "For every renaming that ends without an exception; composed with dominators, frontiers and placement. Renaming can raise IndexError (ssa_rollback_error)."
  },
  {
   "property": "C61",
   "status": "partial",
   "theorems": [
    "Verif.ssa_read_wrong",
    "Verif.ssa_rollback_error",
    "Verif.ssa_reads_local_partial",
    "Verif.ssa_reads_merge_partial",
    "Verif.ssa_reads_first_branch_partial"
   ],
   "note": "False of the code: the indices are rolled back for the wrong block and from the wrong end of the stack (ssa_read_wrong, ssa_rollback_error). Proved: for every read whose value comes from its own block (an earlier instruction or a merge function of it), and on the way from the root that takes first branches of the dominator tree. Exactly which name a read carries is C107."
  },
  {
   "property": "C107",
   "status": "proved",
   "theorems": [
    "Verif.ssa_reads_exact",
    "Verif.merge_params_exact",
    "Verif.ssa_walk"
   ],
   "note": "For programs in which no instruction object occurs twice in the reachable blocks, when building raises nothing. C61 and C88 ask for more and are false."
  },
  {
   "property": "C62",
   "status": "proved",
   "theorems": [
    "Verif.value_graph_exact"
   ],
   "note": "Nodes, edges, and that nothing is raised."
  },
  {
   "property": "C83",
   "status": "proved",
   "theorems": [
    "Verif.dead_phi_removal"
   ],
   "note": ""
  },
  {
   "property": "C87",
   "status": "proved",
   "theorems": [
    "Verif.ssa_merges_exact"
   ],
   "note": "For graphs in which every predecessor of a reachable block can be reached and end blocks have no successors, when building raises nothing."
  },
  {
   "property": "C88",
   "status": "partial",
   "theorems": [
    "Verif.merge_params_count",
    "Verif.merge_params_first_branch_partial",
    "Verif.merge_params_wrong"
   ],
   "note": "Number and register of the parameters proved in general. False of the code: beyond the first branch the parameters can name a definition that does not reach (merge_params_wrong). Which definition they name is proved for edges from blocks on the way from the root that takes first branches of the dominator tree; exactly which one in general is C107."
  },
  {
   "property": "C63",
   "status": "proved",
   "theorems": [
    "Verif.cfg_partition",
    "Verif.cfg_partition_errors"
   ],
   "note": "Includes that building raises nothing, and the index error when more instructions are asked for than there are."
  },
  {
   "property": "C64",
   "status": "partial",
   "theorems": [
    "Verif.cfg_branch_inside",
    "Verif.cfg_branch_partial",
    "Verif.C64_exact"
   ],
   "note": "False of the code: a branch that starts a conditional group is followed in its block by instructions with the same condition (cfg_branch_inside). Proved: a branch is first in its block, and alone in it when it is set apart; C64_exact says exactly when it is followed by another instruction."
  },
  {
   "property": "C65",
   "status": "partial",
   "theorems": [
    "Verif.cfg_forward_lost",
    "Verif.cfg_backward_partial",
    "Verif.C65_forward",
    "Verif.C65_moved_refuted"
   ],
   "note": "False of the code: pending jumps are stored under the branch instead of the target, so forward jumps leave no edge (cfg_forward_lost), in no program unless the target is the next instruction of the same group (C65_forward). The edge of a jump back can leave from another block, cut off from that of the jump later (C65_moved_refuted). Proved: backward jumps of branches that are set apart; for the others see C105_covered_partial."
  },
  {
   "property": "C66",
   "status": "proved",
   "theorems": [
    "Verif.cfg_remove_conditionals",
    "Verif.cfg_build_remove"
   ],
   "note": "Every graph without repeated nodes or edges; exact edges and reachability."
  },
  {
   "property": "C84",
   "status": "proved",
   "theorems": [
    "Verif.cfg_straight"
   ],
   "note": ""
  },
  {
   "property": "C85",
   "status": "proved",
   "theorems": [
    "Verif.C85_evidence"
   ],
   "note": "Whenever scoring returns; floats are exact rationals. When it does return is C38."
  },
  {
   "property": "C86",
   "status": "partial",
   "theorems": [
    "Verif.C86_score_partial",
    "Verif.C86_refuted",
    "Verif.pushProg_meets"
   ],
   "note": "False for pushes and pops that do not branch: their evidence is stored as popu and read as pupo, and the missing register evidence counts as zero, so they score zero unless condition or opcode is certain. Proved for all others."
  },
  {
   "property": "C93",
   "status": "proved",
   "theorems": [
    "Verif.C93_run_sound"
   ],
   "note": "Whenever the run completes; no assumption about the disassembler or the corruptor except that addresses are distinct."
  },
  {
   "property": "C94",
   "status": "partial",
   "theorems": [
    "Verif.C94_run_partial",
    "Verif.exRun_meets",
    "Verif.C94_recovered_refuted",
    "Verif.C94_lost_refuted",
    "Verif.C94_exact",
    "Verif.C94_files"
   ],
   "note": "Proved when the evidence does not speak against an original (no push or pop that does not branch, no candidate using only some of its registers, see C42). False otherwise (C94_lost_refuted: the original is discarded and the final file is cut short). A program that is recovered completely has no final file (C94_recovered_refuted). C94_files says of every run which files it leaves. C94_exact replaces the assumption by the exact one: a run completes only if no stage of the rule of C42 loses an original, and then it ends as claimed."
  },
  {
   "property": "C95",
   "status": "partial",
   "theorems": [
    "Verif.C95_random_saved_partial",
    "Verif.C95_packet_saved_partial",
    "Verif.C95_rejections",
    "Verif.C95_default_refuted",
    "Verif.C95_path_set_later_refuted"
   ],
   "note": "Proved for random corruptors with a path and packet corruptors made with one. False for a random corruptor as made by default (it raises after it has changed the program, C95_default_refuted) and for a packet corruptor whose path is set later, as the main program does (nothing is saved, C95_path_set_later_refuted)."
  },
  {
   "property": "C96",
   "status": "partial",
   "theorems": [
    "Verif.C96_packets",
    "Verif.C96_random",
    "Verif.C96_replay",
    "Verif.C96_main_partial",
    "Verif.C96_main_exact",
    "Verif.C96_small_refuted",
    "Verif.longListing_meets",
    "Verif.plainDec_meets",
    "Verif.plainDec_stages"
   ],
   "note": "Main program: proved for listings of at least 97 instructions where the evidence does not speak against an original, and exactly for those where no stage of the rule of a pass loses an original (C96_main_exact, see C94); with fewer there is no packet 3 and it raises before anything is written (C96_small_refuted)."
  },
  {
   "property": "C97",
   "status": "partial",
   "theorems": [
    "Verif.C97_trials_partial",
    "Verif.C97_total_refuted",
    "Verif.C97_large_untried",
    "Verif.C97_more_refuted",
    "Verif.C97_registers_refuted",
    "Verif.C97_case_rejected",
    "Verif.C97_case_accepted",
    "Verif.C97_mock",
    "Verif.C97_part_missing"
   ],
   "note": "Proved for changers that never report more to change: it ends, and its calls and the table are described exactly. False otherwise: it need not end (C97_more_refuted), the table loses one at every accepted change (C97_total_refuted), positions are compared with part numbers, so parts with large numbers are never tried and a part may be replaced by itself or a less frequent one (C97_large_untried, C97_case_accepted), and changing registers always raises when there is something to try (C97_registers_refuted)."
  },
  {
   "property": "C98",
   "status": "partial",
   "theorems": [
    "Verif.C98_stored_partial",
    "Verif.C98_exact",
    "Verif.C98_half_kept_refuted",
    "Verif.C98_short_refuted",
    "Verif.C98_length_refuted"
   ],
   "note": "False of the code: one bit of each pair of a lost packet is kept, as are the pairs at the end of a word and the first pair (C98_half_kept_refuted, C98_exact); programs of fewer than 20 words raise IndexError and those whose length leaves remainder 2 or 3 by four raise TypeError. C98_exact says exactly which bits are cleared."
  },
  {
   "property": "C99",
   "status": "partial",
   "theorems": [
    "Verif.C99_storages_partial",
    "Verif.C99_stable",
    "Verif.C99_jump",
    "Verif.C99_store_refuted",
    "Verif.strExample_meets",
    "Verif.C99_one_register_refuted",
    "Verif.C99_push_pop",
    "Verif.C99_encodings"
   ],
   "note": "False of stores: memory is looked for in the text before the first comma, where a store has its register, so a store is reported to read memory and not to write it (C99_store_refuted); pushes and pops of one register have no comma and touch no memory (C99_one_register_refuted). Everything else holds; the storages are described exactly by the text."
  },
  {
   "property": "C100",
   "status": "proved",
   "theorems": [
    "Verif.C100_undefined",
    "Verif.C100_darm"
   ],
   "note": "C100_darm is the same for the DARM wrapper, where even whether it is a push cannot be asked."
  },
  {
   "property": "C101",
   "status": "partial",
   "theorems": [
    "Verif.C101_over_refuted",
    "Verif.C101_past_refuted",
    "Verif.C101_edges_partial",
    "Verif.C101_over"
   ],
   "note": "False of the code: the instruction before a branch keeps being the current block, so it is linked to the one after the branch although the branch is always taken (C101_over_refuted; in every program, C101_over), and a jump back to a guarded instruction leads past its conditional node (C101_past_refuted). C101_edges_partial lists the kinds of edges there are, for every program."
  },
  {
   "property": "C102",
   "status": "partial",
   "theorems": [
    "Verif.C102_write_partial",
    "Verif.C102_digraph",
    "Verif.C102_graph",
    "Verif.C102_cfg",
    "Verif.C102_build",
    "Verif.C102_names",
    "Verif.C102_error",
    "Verif.C102_hyphen_refuted",
    "Verif.C102_same_text_refuted",
    "Verif.C102_name_refuted"
   ],
   "note": "False of the code: edges are told apart by the texts of their ends joined by a hyphen, so texts with hyphens and nodes with the same text lose edges (C102_hyphen_refuted, C102_same_text_refuted); an attribute called like a parameter of pydot raises TypeError. C102_write_partial says for every graph which edges are drawn; with different texts without hyphens everything is drawn (C102_digraph, C102_graph), and so it is for every control flow graph, although their texts have hyphens (C102_cfg, C102_build)."
  },
  {
   "property": "C103",
   "status": "partial",
   "theorems": [
    "Verif.C103_read_back_partial",
    "Verif.C103_labelled",
    "Verif.C103_exact",
    "Verif.C103_error",
    "Verif.C103_weight_refuted",
    "Verif.C103_cfg"
   ],
   "note": "False of the code: weights are lost unless they are asked for, and then edges without a label get their weight as label (C103_weight_refuted). C103_read_back_partial says exactly what comes back. pydot is taken to hand back the nodes, edges and attributes it was given."
  },
  {
   "property": "C104",
   "status": "partial",
   "theorems": [
    "Verif.C104_hypergraph_partial",
    "Verif.C104_error",
    "Verif.C104_errors",
    "Verif.C104_unknown_node",
    "Verif.C104_read_refuted",
    "Verif.C104_name_refuted",
    "Verif.C104_colors"
   ],
   "note": "False of the code: read makes a digraph of it (C104_read_refuted), and when a hyperedge has the name of a node read_hypergraph raises (C104_name_refuted). With different names read_hypergraph gives everything back."
  },
  {
   "property": "C105",
   "status": "partial",
   "theorems": [
    "Verif.C105_end_refuted",
    "Verif.C105_return_refuted",
    "Verif.C105_covered_partial",
    "Verif.C105_end",
    "Verif.C105_return"
   ],
   "note": "False of the code: a condition of the last group that does not hold leads nowhere (C105_end_refuted; in every program, C105_end), calls of a known place or that open a group do not come back (C105_return_refuted; exactly when, C105_return), and jumps forward have no edge (C65). C105_covered_partial and cfg_straight (C84) are the transfers that are there."
  },
  {
   "property": "C106",
   "status": "proved",
   "theorems": [
    "Verif.C106_graph",
    "Verif.C106_ends",
    "Verif.C106_blocks"
   ],
   "note": "For every program for which building returns, which is every one with enough instructions (C63)."
  },
  {
   "property": "C108",
   "status": "proved",
   "theorems": [
    "Verif.C108_report",
    "Verif.C108_single",
    "Verif.C108_empty",
    "Verif.C108_case"
   ],
   "note": ""
  },
  {
   "property": "C109",
   "status": "partial",
   "theorems": [
    "Verif.C109_refuted",
    "Verif.C109_improver_partial",
    "Verif.C109_no_registers",
    "Verif.C109_case_same"
   ],
   "note": "False of the code: the script ends in an AttributeError when there is a register to try (C109_refuted), and otherwise prints the first size again (C109_case_same). C109_improver_partial says exactly which of the two, and that the printed sizes are the least ones."
  },
  {
   "property": "C110",
   "status": "proved",
   "theorems": [
    "Verif.C110_listed",
    "Verif.C110_stops",
    "Verif.C110_results",
    "Verif.C110_case",
    "Verif.C110_case_stops"
   ],
   "note": ""
  },
  {
   "property": "C111",
   "status": "proved",
   "theorems": [
    "Verif.C111_bars",
    "Verif.C111_totals",
    "Verif.C111_lines",
    "Verif.C111_case"
   ],
   "note": "matplotlib is external: a chart is the list of its bars."
  },
  {
   "property": "C112",
   "status": "partial",
   "theorems": [
    "Verif.C112_refuted",
    "Verif.C112_exact",
    "Verif.C112_built_partial",
    "Verif.C112_trace_case",
    "Verif.C112_built_case"
   ],
   "note": "False of the code: leaving a block rolls back the last block it dominates, which has already rolled itself back if it dominates nothing, so the names of a storage can run out (C112_refuted). C112_exact says exactly when building succeeds and which exception is raised otherwise, from the order of definitions, uses and rollbacks. C112_built_partial: nothing is raised when no block with a merge function both dominates nothing and comes last below its immediate dominator. The limit on the depth of recursion is not modelled."
  },
  {
   "property": "C113",
   "status": "partial",
   "theorems": [
    "Verif.C113_exact",
    "Verif.C113_mean_partial",
    "Verif.C113_refuted",
    "Verif.C113_case",
    "Verif.C113_errors",
    "Verif.C113_errors_case"
   ],
   "note": "False of candidates that write several storages: only the storage written last is considered (C113_refuted). C113_exact says exactly what is given to every candidate; C113_mean_partial is the claim for programs whose candidates write at most one storage. Distances of 2^63-1 and more are left out."
  },
  {
   "property": "C114",
   "status": "proved",
   "theorems": [
    "Verif.C114_ordered",
    "Verif.C114_case"
   ],
   "note": "Stated of the end of the script, after the passes."
  },
  {
   "property": "C115",
   "status": "partial",
   "theorems": [
    "Verif.C115_runtime_refuted",
    "Verif.C115_index_refuted",
    "Verif.C115_exact",
    "Verif.C115_values",
    "Verif.C115_straight_partial",
    "Verif.C115_straight_case",
    "Verif.C115_empty",
    "Verif.C115_case"
   ],
   "note": "False of the code: RuntimeError when a block that can be reached has a predecessor that cannot (C115_runtime_refuted), and IndexError when the names of a storage run out (C115_index_refuted). C115_exact says exactly when each of these happens; C115_values says what the graph holds whenever it is given; C115_straight_partial: nothing is raised for a program without branches, whatever its conditions. The limit on the depth of recursion is not modelled."
  },
  {
   "property": "C116",
   "status": "proved",
   "theorems": [
    "Verif.C116_number",
    "Verif.C116_sections",
    "Verif.C116_instructions",
    "Verif.C116_functions",
    "Verif.C116_functions_case",
    "Verif.C116_text",
    "Verif.C116_case",
    "Verif.C116_text_case"
   ],
   "note": "Lines are given as the file iterator gives them, never empty; texts are ASCII."
  },
  {
   "property": "C117",
   "status": "proved",
   "theorems": [
    "Verif.C117_ends_iff",
    "Verif.C117_never_stuck",
    "Verif.C117_stuck",
    "Verif.C117_case"
   ],
   "note": "The floating-point product is a parameter; the statement is about possibility, no probabilities are modelled."
  },
  {
   "property": "C118",
   "status": "proved",
   "theorems": [
    "Verif.C118_share",
    "Verif.C118_case"
   ],
   "note": "A helper that the passes do not call. What a candidate answers is a parameter."
  },
  {
   "property": "C119",
   "status": "partial",
   "theorems": [
    "Verif.C119_exact",
    "Verif.C119_probabilities_partial",
    "Verif.C119_negative_refuted",
    "Verif.C119_union_refuted",
    "Verif.C119_case"
   ],
   "note": "A helper that the passes do not call. False as described: negative distances are instructions after the address (C119_negative_refuted), and the scores are averaged instead of added (C119_union_refuted). What it gives is C119_exact; every number is positive and at most the largest score."
  },
  {
   "property": "C120",
   "status": "proved",
   "theorems": [
    "Verif.C120_total",
    "Verif.C120_shape"
   ],
   "note": "Numbers are exact rationals; rounding is outside the model. Division is that of Python 3."
  },
  {
   "property": "C121",
   "status": "proved",
   "theorems": [
    "Verif.C121_order",
    "Verif.C121_case"
   ],
   "note": "As long as no original is lost. If one is lost, it is lost in both orders; what else happens then is not compared."
  },
  {
   "property": "C122",
   "status": "proved",
   "theorems": [
    "Verif.C122_again",
    "Verif.C121_case"
   ],
   "note": "For programs whose originals can be decoded and use no register twice."
  },
  {
   "property": "C123",
   "status": "partial",
   "theorems": [
    "Verif.C123_more_losses_partial",
    "Verif.C123_refuted",
    "Verif.C123_goes"
   ],
   "note": "False of the code when the longer list starts with a packet that comes later in the order: the prediction stops with the first listed packet. Proved when the first packet of the longer list comes no later than that of the shorter."
  },
  {
   "property": "C124",
   "status": "proved",
   "theorems": [
    "Verif.C124_successive",
    "Verif.C124_case"
   ],
   "note": "For group sizes dividing 32."
  },
  {
   "property": "C125",
   "status": "proved",
   "theorems": [
    "Verif.C125_rewrite",
    "Verif.C125_case"
   ],
   "note": ""
  },
  {
   "property": "C126",
   "status": "proved",
   "theorems": [
    "Verif.C126_where",
    "Verif.C126_report",
    "Verif.C126_case"
   ],
   "note": "Depths are exact rationals."
  },
  {
   "property": "C127",
   "status": "proved",
   "theorems": [
    "Verif.C127_relocation",
    "Verif.C127_case"
   ],
   "note": "The original program is given by its counters; probabilities are exact rationals."
  },
  {
   "property": "C128",
   "status": "proved",
   "theorems": [
    "Verif.C128_programs",
    "Verif.C128_bounds",
    "Verif.C128_texts",
    "Verif.C128_case"
   ],
   "note": ""
  },
  {
   "property": "C129",
   "status": "proved",
   "theorems": [
    "Verif.C129_names",
    "Verif.C129_case"
   ],
   "note": "Candidates are the answers they give; probabilities are exact rationals."
  },
  {
   "property": "C130",
   "status": "proved",
   "theorems": [
    "Verif.C130_load_again",
    "Verif.C130_same_file",
    "Verif.C130_case"
   ],
   "note": "JSON text is taken as the object json.load gives for it, with pairs in file order; keys are decimal digits."
  },
  {
   "property": "C131",
   "status": "proved",
   "theorems": [
    "Verif.C131_readable",
    "Verif.C131_meaning",
    "Verif.C131_rewrite",
    "Verif.C131_same_file",
    "Verif.C131_case"
   ],
   "note": ""
  },
  {
   "property": "C132",
   "status": "proved",
   "theorems": [
    "Verif.C132_fewer",
    "Verif.C132_coarser",
    "Verif.C132_repeated",
    "Verif.C132_case"
   ],
   "note": ""
  },
  {
   "property": "C133",
   "status": "proved",
   "theorems": [
    "Verif.C133_graph",
    "Verif.C133_values",
    "Verif.C133_branch_to",
    "Verif.C133_case"
   ],
   "note": "What Capstone says of an encoding is given. The storages are asked for before the SSA form is built, which only matters to which of two exceptions is raised."
  },
  {
   "property": "C134",
   "status": "partial",
   "theorems": [
    "Verif.C134_moved_partial",
    "Verif.C134_refuted",
    "Verif.C134_case"
   ],
   "note": "False of the code in one point: the immediate of an instruction such as add pc, pc, #4 is taken for an address. Proved for all programs in which no such immediate is an address of the program."
  },
  {
   "property": "C135",
   "status": "proved",
   "theorems": [
    "Verif.C135_frame",
    "Verif.C135_appended",
    "Verif.C135_functions",
    "Verif.C135_case",
    "Verif.C135_functions_case"
   ],
   "note": ""
  },
  {
   "property": "C136",
   "status": "proved",
   "theorems": [
    "Verif.C136_aligned_burst",
    "Verif.C136_burst",
    "Verif.C136_deinterleaved",
    "Verif.C136_one_per_word",
    "Verif.C136_case"
   ],
   "note": "For c*4^m packets, for which the code computes the logarithm m; with other numbers of packets the rows of smaller squares stand between the others."
  },
  {
   "property": "C137",
   "status": "proved",
   "theorems": [
    "Verif.C137_candidates",
    "Verif.C137_case"
   ],
   "note": "The first bit is there because the code attributes a lost last bit of an instruction to the next one (see C15)."
  },
  {
   "property": "C138",
   "status": "proved",
   "theorems": [
    "Verif.C138_final",
    "Verif.C138_removal",
    "Verif.C138_scored",
    "Verif.C138_case",
    "Verif.C138_scored_case"
   ],
   "note": ""
  },
  {
   "property": "C139",
   "status": "proved",
   "theorems": [
    "Verif.C139_exact",
    "Verif.C139_rearranged",
    "Verif.C139_candidates",
    "Verif.C139_original",
    "Verif.C139_lost_address",
    "Verif.C139_case"
   ],
   "note": "The search over choices is done by the package constraint and is not modelled; accepted means that the three constraints answer true."
  },
  {
   "property": "C140",
   "status": "partial",
   "theorems": [
    "Verif.C140_size_partial",
    "Verif.C140_zero",
    "Verif.C140_recovery",
    "Verif.C140_refuted",
    "Verif.C140_case"
   ],
   "note": "True of the size (over the reals). False of the count: it adds powers for each number of candidates, so one more candidate can lower it from 8 to 7 (C140_refuted; C50_count_exact says what it is). Repeated candidates of an address count separately."
  },
  {
   "property": "C141",
   "status": "proved",
   "theorems": [
    "Verif.C141_tree",
    "Verif.C141_more_edges",
    "Verif.C141_order",
    "Verif.C141_merge",
    "Verif.C141_case",
    "Verif.C141_case_order"
   ],
   "note": ""
  },
  {
   "property": "C142",
   "status": "proved",
   "theorems": [
    "Verif.C142_any_candidate",
    "Verif.C142_any_candidate_tuples",
    "Verif.C142_split",
    "Verif.C142_compose",
    "Verif.C142_order",
    "Verif.C142_more",
    "Verif.C142_case"
   ],
   "note": "Ranges of several tuples must not reach past bit 31, as the code demands (C18)."
  },
  {
   "property": "C143",
   "status": "proved",
   "theorems": [
    "Verif.C143_programs",
    "Verif.C143_texts",
    "Verif.C143_powers",
    "Verif.C143_equality",
    "Verif.C143_equality_texts",
    "Verif.C143_case",
    "Verif.C143_equality_case"
   ],
   "note": "Logarithms are over the reals."
  },
  {
   "property": "C144",
   "status": "proved",
   "theorems": [
    "Verif.C144_packet",
    "Verif.C144_all_packets",
    "Verif.C144_one_bit",
    "Verif.C144_lost",
    "Verif.C144_case"
   ],
   "note": "The losses are those for which deinterleaving does not raise (C14)."
  },
  {
   "property": "C145",
   "status": "partial",
   "theorems": [
    "Verif.C145_counts_partial",
    "Verif.C145_case",
    "Verif.C145_refuted"
   ],
   "note": "True of the evidence from counting conditions, opcodes and registers. False of the score: the evidence from neighbours is a share of the candidates there, and one more candidate of the same condition raises it (C145_refuted)."
  },
  {
   "property": "C146",
   "status": "proved",
   "theorems": [
    "Verif.C146_blocks",
    "Verif.C146_merge",
    "Verif.C146_names",
    "Verif.C146_case"
   ],
   "note": ""
  },
  {
   "property": "C147",
   "status": "proved",
   "theorems": [
    "Verif.C147_difference",
    "Verif.C147_uncorrupted",
    "Verif.C147_fewer",
    "Verif.C147_parts",
    "Verif.C147_case"
   ],
   "note": "What Capstone answers about an instruction is an arbitrary field of the instruction."
  },
  {
   "property": "C148",
   "status": "proved",
   "theorems": [
    "Verif.C148_again",
    "Verif.C148_order",
    "Verif.C148_more",
    "Verif.C148_case"
   ],
   "note": "Positions are below bit 32 of their word. Which positions are cleared is C71."
  },
  {
   "property": "C149",
   "status": "proved",
   "theorems": [
    "Verif.C149_stages",
    "Verif.C149_bounds",
    "Verif.C149_mono",
    "Verif.C149_case"
   ],
   "note": "Floats are exact rationals."
  },
  {
   "property": "C150",
   "status": "proved",
   "theorems": [
    "Verif.C150_either",
    "Verif.C150_both",
    "Verif.C150_program",
    "Verif.C150_case"
   ],
   "note": "The losses are those for which deinterleaving does not raise (C14), with the same last packet that arrives, which fixes how much is read."
  },
  {
   "property": "C151",
   "status": "proved",
   "theorems": [
    "Verif.C151_bit",
    "Verif.C151_one_bit",
    "Verif.C151_words",
    "Verif.C151_case"
   ],
   "note": "The losses are those for which deinterleaving does not raise (C14)."
  },
  {
   "property": "C152",
   "status": "partial",
   "theorems": [
    "Verif.C152_only_original_partial",
    "Verif.C152_common",
    "Verif.C152_refuted",
    "Verif.C152_case"
   ],
   "note": "False of the code for the first bit of a word after the first: the lost last bit of a word is guessed in the first bit of the next. Proved for all other bits, for the first word, and when no lost packet carries the last bit of a word; the common candidates are characterised exactly."
  },
  {
   "property": "C153",
   "status": "proved",
   "theorems": [
    "Verif.C153_read",
    "Verif.C153_candidates",
    "Verif.C153_case"
   ],
   "note": "Reading: the losses are those for which deinterleaving does not raise (C14). Candidates: the order is given, since an empty order is replaced by one that is built."
  },
  {
   "property": "C154",
   "status": "proved",
   "theorems": [
    "Verif.C154_places",
    "Verif.C154_local",
    "Verif.C154_case"
   ],
   "note": ""
  },
  {
   "property": "C155",
   "status": "partial",
   "theorems": [
    "Verif.C155_read_partial",
    "Verif.C155_refuted",
    "Verif.C155_case"
   ],
   "note": "False of the code when the last bit of a word is one and is lost: it is read as zero but never changed in a candidate. Proved exactly: the word that is read is a candidate exactly when this is not the case."
  },
  {
   "property": "C156",
   "status": "partial",
   "theorems": [
    "Verif.C156_received_partial",
    "Verif.C156_any_candidate",
    "Verif.C156_refuted",
    "Verif.C156_case"
   ],
   "note": "The first sentence is proved as stated. The second is false of the code when the last bit of a word is one and is lost, and proved of all other words."
  },
  {
   "property": "C157",
   "status": "partial",
   "theorems": [
    "Verif.C157_lost_bits_partial",
    "Verif.C157_count",
    "Verif.C157_refuted",
    "Verif.C157_case"
   ],
   "note": "False of the code when the last bit of a word is lost. Proved when no lost packet carries the last bit of a word and the first listed packet comes first in the order; the count is exact for all losses in terms of the bits that are guessed."
  }
 ]
}