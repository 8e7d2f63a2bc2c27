{"id": "C01", "title": "Bit-range copy is exact", "statement": "Copying a bit range from one word to another puts each source bit at its shifted destination position and leaves every other destination bit as it was; the call is rejected exactly when the source or destination range does not lie inside a 32-bit word.", "quantifier": "for every source word, destination word, source range and destination offset (including negative or reversed ranges)", "why_tests_cant": "There are 2^64 word pairs times thousands of ranges; the tests exercise a handful.", "anchors": ["semantic_codec/architecture/bits.py:Bits.copy_bits", "semantic_codec/architecture/bits.py:Bits.check_range"]}
{"id": "C02", "title": "Bit predicates mean what they say", "statement": "set(h,l) has exactly the bits l..h set; are_on(v,h,l) is true exactly when at least one bit in l..h of v is set; is_on(v,k) is true exactly when bit k of v is set; on(k) has exactly bit k set.", "quantifier": "for every value and every bit range", "why_tests_cant": "Values and ranges are unbounded; tests check a few constants.", "anchors": ["semantic_codec/architecture/bits.py:Bits.set", "semantic_codec/architecture/bits.py:Bits.are_on", "semantic_codec/architecture/bits.py:Bits.is_on", "semantic_codec/architecture/bits.py:Bits.on"]}
{"id": "C03", "title": "Instruction field editors change one field only", "statement": "Setting the condition, opcode, rn, rd, rs or rm field of an instruction word stores exactly the low bits of the given value in that field, keeps every other bit, and edits of different fields commute while the last edit of the same field wins.", "quantifier": "for every 32-bit instruction and every field value, and every sequence of edits", "why_tests_cant": "Unbounded sequences of edits over 2^32 words.", "anchors": ["semantic_codec/architecture/instruction_modifier.py:InstructionModifier"]}
{"id": "C04", "title": "Immediate editor respects the addressing form", "statement": "Modifying the immediate writes the low 12 bits for load/store-immediate encodings and the low 8 bits for all others, and changes no other bit; in particular the bits that select the form are never changed, so the edit is repeatable.", "quantifier": "for every instruction word and every immediate value", "why_tests_cant": "All 2^32 words times all values.", "anchors": ["semantic_codec/architecture/instruction_modifier.py:InstructionModifier.modify_immediate"]}
{"id": "C05", "title": "Bit queue is a first-in first-out queue", "statement": "When the word size divides 32, any interleaving of enqueues and dequeues that never dequeues from an empty queue succeeds and hands back exactly the enqueued bit groups in the order they were put in, whatever bit offsets are used on either side, and touches no other bit of the destination.", "quantifier": "for every word size in {1,2,4,8,16,32} and every finite history of operations", "why_tests_cant": "Histories are unbounded and queue state depends on alignment across 32-bit boundaries.", "anchors": ["semantic_codec/architecture/bits.py:BitQueue.enqueue", "semantic_codec/architecture/bits.py:BitQueue.dequeue"]}
{"id": "C06", "title": "Bit queue emptiness test is accurate", "statement": "After any history of operations that never underflows, empty() answers true exactly when the number of enqueues equals the number of dequeues.", "quantifier": "for every word size dividing 32 and every finite history", "why_tests_cant": "Needs an invariant over all histories, including those that drain and refill across word boundaries.", "anchors": ["semantic_codec/architecture/bits.py:BitQueue.empty"]}
{"id": "C07", "title": "Bit queue serialisation", "statement": "After any sequence of enqueues the words returned by get_bytes, read least significant bit first, are exactly the concatenation of the enqueued groups followed only by zero bits, with fewer than 33 padding bits.", "quantifier": "for every word size dividing 32 and every sequence of enqueued groups", "why_tests_cant": "Unbounded sequences.", "anchors": ["semantic_codec/architecture/bits.py:BitQueue.get_bytes"]}
{"id": "C08", "title": "Bit queue works for every advertised word size", "statement": "For every word size from 1 to 32 (the class advertises words of various sizes) what is dequeued is what was enqueued, in order.", "quantifier": "for every word size 1..32 and every finite history", "why_tests_cant": "The existing test for word size 7 passes by luck: a group straddling a word boundary happens to be read back with the same wrong rule.", "anchors": ["semantic_codec/architecture/bits.py:BitQueue"]}
{"id": "C09", "title": "Successive packing lays every index out once", "statement": "The successive-packing array of order m is a 2^m by 2^m square in which every number 0..4^m-1 occurs exactly once.", "quantifier": "for every order m", "why_tests_cant": "Sizes grow as 4^m; tests look at m<=3.", "anchors": ["semantic_codec/interleaver/interleaver2d.py:sucesive_packing"]}
{"id": "C10", "title": "Interleaving order is a permutation of the packets", "statement": "The flat interleaving order built for a positive whole number of packets lists every packet index 0..packets-1 exactly once.", "quantifier": "for every positive packet count", "why_tests_cant": "Every packet count decomposes differently into square blocks.", "anchors": ["semantic_codec/interleaver/interleaver2d.py:build_2d_interleave_sp"]}
{"id": "C11", "title": "Successive packing separates bursts", "statement": "Packets whose numbers fall into the same aligned group of 4^k are placed at cells whose row and column both agree modulo 2^(m-k); two different packets of such a group are therefore at least 2^(m-k) rows or columns apart.", "quantifier": "for every order m, every k<=m and every pair of packets", "why_tests_cant": "Quantifies over all sizes and pairs; it is the reason the interleaver exists.", "anchors": ["semantic_codec/interleaver/interleaver2d.py:sucesive_packing"]}
{"id": "C12", "title": "Interleaving distributes the data round-robin", "statement": "Interleaving cuts the data into fixed-size bit groups and hands group i to the (i mod packets)-th packet of the order, each packet holding its groups in increasing order; no group is dropped or duplicated.", "quantifier": "for every data sequence, every duplicate-free order and every group size dividing 32", "why_tests_cant": "All data and all orders.", "anchors": ["semantic_codec/interleaver/interleaver2d.py:interleave"]}
{"id": "C13", "title": "Deinterleaving undoes interleaving", "statement": "Deinterleaving the packets produced by interleaving, with no packet lost, gives the data back bit for bit and reports no error.", "quantifier": "for every data sequence, every order with at least one packet and every group size dividing 32", "why_tests_cant": "The existing tests pass only because the bits dropped at the tail of their data are zero.", "anchors": ["semantic_codec/interleaver/interleaver2d.py:interleave", "semantic_codec/interleaver/interleaver2d.py:deinterleave"]}
{"id": "C14", "title": "Deinterleaving with losses damages only the lost groups", "statement": "With any set of packets lost, each group carried by a surviving packet is returned at its original position, each group of a lost packet reads as zero, and the error list consists of exactly the (word, bit) positions of the lost groups.", "quantifier": "for every data sequence, order, group size dividing 32 and every set of lost packets that leaves a survivor in a position other than the first", "why_tests_cant": "Exponentially many loss patterns times all data.", "anchors": ["semantic_codec/interleaver/interleaver2d.py:deinterleave"]}
{"id": "C15", "title": "Loss prediction agrees with real losses", "statement": "The bit positions predicted for a set of lost packets are exactly the bit positions whose value deinterleaving loses when those packets are missing.", "quantifier": "for every packet count, group size dividing 32, data size, order and nonempty list of lost packets", "why_tests_cant": "All loss lists; the error is at word boundaries and depends on the order in which the lost packets are listed.", "anchors": ["semantic_codec/corruption/corruption.py:predict_corruption", "semantic_codec/interleaver/interleaver2d.py:deinterleave"]}
{"id": "C16", "title": "Lattice interleaving matrix is well formed", "statement": "The lattice interleaving matrix has the requested size, its entries name packets 0..m-1 only, and horizontally adjacent cells always belong to different packets when there is more than one packet; missing dimensions, an empty message or a message smaller than half a packet are rejected.", "quantifier": "for every message size, packet size and pair of dimensions", "why_tests_cant": "Unbounded dimensions.", "anchors": ["semantic_codec/interleaver/interleaver2d.py:build_2d_interleave_matrix_blaum"]}
{"id": "C17", "title": "Exhaustive range corruption is exhaustive", "statement": "Corrupting the bit range [lo,hi) of an instruction lists the instruction first and then, without repetition, exactly all words that agree with it outside the range.", "quantifier": "for every instruction and every range", "why_tests_cant": "The list has 2^(hi-lo) members and there are 2^32 instructions.", "anchors": ["semantic_codec/corruption/corruption.py:corrupt_all_bits"]}
{"id": "C18", "title": "Exhaustive multi-range corruption is exhaustive", "statement": "Corrupting several disjoint bit ranges lists, without repetition, exactly all words that agree with the instruction outside the ranges; with overlapping ranges the same set is listed but with repetitions; the length is 2 to the total number of bits; ranges reaching past bit 31 are rejected.", "quantifier": "for every instruction and every list of ranges", "why_tests_cant": "All lists of ranges.", "anchors": ["semantic_codec/corruption/corruption.py:corrupt_all_bits_tuples"]}
{"id": "C19", "title": "Random bit corruption stays inside its field", "statement": "Whatever the random draws, random corruption lists the original first, never repeats a word, returns at most 2^amount words and changes only bits of the requested range.", "quantifier": "for every instruction, range, amount and every outcome of the random generator", "why_tests_cant": "Universally quantified over random draws.", "anchors": ["semantic_codec/corruption/corruption.py:corrupt_bits", "semantic_codec/corruption/corruption.py:corrupt_conditional", "semantic_codec/corruption/corruption.py:corrupt_registers", "semantic_codec/corruption/corruption.py:corrupt_opcode"]}
{"id": "C20", "title": "Random bit corruption flips the requested number of bits", "statement": "Random corruption of amount bits yields all 2^amount combinations of the chosen bits.", "quantifier": "for every instruction, range and amount up to the range size and every outcome of the random generator", "why_tests_cant": "Tests only assert an upper bound on the number of results.", "anchors": ["semantic_codec/corruption/corruption.py:corrupt_bits"]}
{"id": "C21", "title": "Random distribution never exceeds the budget", "statement": "Distributing an amount over bins returns one non-negative entry per bin whose total never exceeds the amount, whatever the random draws.", "quantifier": "for every amount, bin count and outcome of the random generator", "why_tests_cant": "Universally quantified over random draws.", "anchors": ["semantic_codec/corruption/corruption.py:distribute_random_amount"]}
{"id": "C22", "title": "Random program corruption keeps the original program", "statement": "Whenever random program corruption returns, every address is still present, its first candidate is still the original instruction, added candidates differ from it only in the enabled fields and do not repeat, and exactly the requested number of addresses has been corrupted.", "quantifier": "for every program with one instruction per address, every percentage, every choice of enabled fields and every outcome of the random generator", "why_tests_cant": "Universally quantified over programs and random draws.", "anchors": ["semantic_codec/corruption/corruption.py:corrupt_program", "semantic_codec/corruption/corruption.py:corrupt_instruction"]}
{"id": "C23", "title": "Impossible percentages are rejected", "statement": "Asking for an error percentage below 0 or above 100 raises an error.", "quantifier": "for every percentage outside 0..100", "why_tests_cant": "The guard is a chained comparison that can never be true; no test passes a bad percentage.", "anchors": ["semantic_codec/corruption/corruption.py:corrupt_program"]}
{"id": "C24", "title": "Packet-loss corruption is complete and precise", "statement": "After packet-loss corruption every address is still present; the candidates of an address are, sorted by encoding, exactly the words obtained from its previous candidates by changing the predicted lost bits of that word; addresses with no predicted loss keep their candidates; the true instruction is therefore always among the candidates.", "quantifier": "for every program, packet size, group size and list of lost packets", "why_tests_cant": "All programs and loss lists.", "anchors": ["semantic_codec/corruption/corruptors.py:PacketCorruptor.corrupt"]}
{"id": "C25", "title": "Saving and loading a corrupted program is lossless", "statement": "Loading the file written for a corrupted program gives the same addresses in the same order with the same encodings in the same order, each with its address set.", "quantifier": "for every corrupted program", "why_tests_cant": "All programs; involves the decimal text form of every address.", "anchors": ["semantic_codec/corruption/corruption.py:save_corrupted_program_to_json", "semantic_codec/corruption/corruption.py:load_corrupted_program_from_json"]}
{"id": "C26", "title": "Binary solution files can be read back", "statement": "Reading a written solution gives, for every address, the candidates up to and including the original instruction, and the original program.", "quantifier": "for every corrupted program whose every address contains its original and whose values fit 32 bits", "why_tests_cant": "All programs; byte-level format.", "anchors": ["semantic_codec/solution/solution_io.py:SolutionWriter.write_binary", "semantic_codec/solution/solution_io.py:SolutionReader.read"]}
{"id": "C27", "title": "Truncated or foreign solution files are rejected", "statement": "Every strict prefix of a solution file, such as one left by a crash while writing, and every file whose first eight bytes are not the magic number is rejected by the reader with an error; no partial program is ever returned.", "quantifier": "for every solution file and every crash point, and for every byte string with another header", "why_tests_cant": "All byte strings and all crash points.", "anchors": ["semantic_codec/solution/solution_io.py:SolutionReader.read"]}
{"id": "C28", "title": "Writing fails loudly when the original is missing", "statement": "Writing a solution succeeds exactly when every address knows its original, contains it among its candidates, and all numbers fit in 32 bits; otherwise an error is raised.", "quantifier": "for every corrupted program and original program", "why_tests_cant": "All programs.", "anchors": ["semantic_codec/solution/solution_io.py:SolutionWriter.write_binary"]}
{"id": "C29", "title": "Union of independent events is computed exactly", "statement": "The probability of the union of independent events equals one minus the product of the complements; an empty list of events is rejected.", "quantifier": "for every non-empty list of probabilities (indeed of arbitrary numbers)", "why_tests_cant": "The code enumerates all 2^n-1 non-empty subsets with an explicit stack; tests cover n<=4.", "anchors": ["semantic_codec/probability/probabilities.py:indep_events_union"]}
{"id": "C30", "title": "Combined probabilities are probabilities", "statement": "For events with probability between 0 and 1, union and intersection lie between 0 and 1, do not depend on the order of the events, the union is at least every event and the intersection at most every event.", "quantifier": "for every non-empty list of probabilities in [0,1]", "why_tests_cant": "All lists.", "anchors": ["semantic_codec/probability/probabilities.py:indep_events_union", "semantic_codec/probability/probabilities.py:indep_intersection"]}
{"id": "C31", "title": "Huffman codes are prefix free", "statement": "Huffman encoding assigns exactly one code to every symbol and no code is a prefix of another, so that every encoded message decodes to itself (with at least two symbols).", "quantifier": "for every frequency table", "why_tests_cant": "All tables and all messages.", "anchors": ["semantic_codec/compressor/huffman.py:encode"]}
{"id": "C32", "title": "Huffman size is minimal", "statement": "No prefix-free binary code for the same symbols has a smaller total size than the reported Huffman size, and the produced code achieves it.", "quantifier": "for every frequency table and every competing prefix-free code", "why_tests_cant": "Quantifies over all competing codes.", "anchors": ["semantic_codec/compressor/huffman.py:encode", "semantic_codec/compressor/huffman.py:huffman_size"]}
{"id": "C33", "title": "Huffman sizes ignore the tie-breaking", "statement": "The reported size depends only on the multiset of frequencies, not on symbol names or the order of the table.", "quantifier": "for every pair of tables with the same multiset of frequencies", "why_tests_cant": "All tables and orders.", "anchors": ["semantic_codec/compressor/huffman.py:huffman_size"]}
{"id": "C34", "title": "Frequency tables count exactly", "statement": "The frequency of a part is the number of times it occurs over the whole program, and the instructions recorded for a part are exactly the instructions containing it, in program order and without repetition.", "quantifier": "for every program and every kind of part", "why_tests_cant": "All programs.", "anchors": ["semantic_codec/compressor/huffman.py:InstructionPartFrequencyCounter.freq_info"]}
{"id": "C35", "title": "Original metadata counts are exact", "statement": "After collecting a program the condition, opcode and register counters hold exactly the number of occurrences over the defined instructions, and condition and opcode counters both total the number of defined instructions.", "quantifier": "for every program", "why_tests_cant": "All programs.", "anchors": ["semantic_codec/metadata/metadata_collector.py:MetadataCollector.collect"]}
{"id": "C36", "title": "Register distances are consistent", "statement": "After collecting a program, a register has distance statistics exactly when it is read after a write, and then min <= mean <= max < program length - 1, where a distance is the number of defined instructions strictly between a write and the next read, and min, mean and max are those of all such distances.", "quantifier": "for every program", "why_tests_cant": "All programs; requires a loop invariant over the collector state.", "anchors": ["semantic_codec/metadata/metadata_collector.py:MetadataCollector.collect"]}
{"id": "C37", "title": "Corrupted metadata counts addresses", "statement": "The corrupted-program counters hold, for each condition, opcode and register, exactly the number of addresses having at least one defined candidate with it.", "quantifier": "for every corrupted program", "why_tests_cant": "All programs.", "anchors": ["semantic_codec/metadata/metadata_collector.py:CorruptedProgramMetadataCollector.collect"]}
{"id": "C38", "title": "Field evidence is a probability", "statement": "While every address still contains its original instruction, the condition, opcode and register evidence computed for any candidate lies between 0 and 1, and is strictly positive for original instructions.", "quantifier": "for every corrupted program and matching original program", "why_tests_cant": "Counting argument over all programs.", "anchors": ["semantic_codec/metadata/recuperator.py:ProbabilisticRecuperator._compute_conditional", "semantic_codec/metadata/recuperator.py:ProbabilisticRecuperator._compute_opcode", "semantic_codec/metadata/recuperator.py:ProbabilisticRecuperator._compute_registers"]}
{"id": "C39", "title": "Scores never leave [0,1]", "statement": "While every address still contains its original instruction, a scoring pass never raises the invalid-probability error and leaves every candidate with a score between 0 and 1.", "quantifier": "for every corrupted program, context and score function of the recovery step", "why_tests_cant": "All programs.", "anchors": ["semantic_codec/metadata/recuperator.py:probabilistic_rules", "semantic_codec/metadata/recuperator.py:probabilistic_rules_remove_step"]}
{"id": "C40", "title": "Pruning one address keeps exactly the best candidates", "statement": "Pruning an address keeps, in order, exactly the candidates with score one if there is any, and otherwise exactly those with a non-zero score; it reports the number removed and pruning again removes nothing.", "quantifier": "for every candidate list with scores in [0,1]", "why_tests_cant": "All lists and scores; two interacting in-place deletion loops.", "anchors": ["recover_program.py:remove_bad_candidates_at_addr"]}
{"id": "C41", "title": "Recovery terminates", "statement": "The recovery loop stops after at most one more pass than there are candidates, whatever scores each pass assigns.", "quantifier": "for every program and every sequence of scoring passes", "why_tests_cant": "Termination over all executions.", "anchors": ["recover_program.py:run_recovery"]}
{"id": "C42", "title": "Recovery never discards the original instruction", "statement": "If every address contains its original instruction before a recovery pass, it still does afterwards.", "quantifier": "for every corrupted program whose originals are defined instructions", "why_tests_cant": "The failing inputs (push/pop, or a wrong candidate using a subset of the registers) do not appear in the tests.", "anchors": ["recover_program.py:run_recovery", "semantic_codec/metadata/recuperator.py:ProbabilisticRecuperator"]}
{"id": "C43", "title": "Recovery report adds up", "statement": "In the recovery report the numbers of recovered, tied and losing addresses add up to the number of corrupted addresses, and a report is produced for every outcome.", "quantifier": "for every recovered program and original program", "why_tests_cant": "All programs, including fully recovered ones.", "anchors": ["recover_program.py:print_report"]}
{"id": "C44", "title": "Count constraint decides complete programs exactly", "statement": "On a complete assignment the field-sum constraint answers true exactly when each counted field value occurs exactly as often as required.", "quantifier": "for every candidate assignment and every table of required counts", "why_tests_cant": "All assignments.", "anchors": ["semantic_codec/solution/solution_builders.py:ExactFieldSumConstraint"]}
{"id": "C45", "title": "Count constraint prunes soundly", "statement": "Whenever the constraint rejects a partial assignment, no completion of it satisfies the constraint.", "quantifier": "for every partial assignment and every completion", "why_tests_cant": "All completions.", "anchors": ["semantic_codec/solution/solution_builders.py:ExactFieldSumConstraint"]}
{"id": "C46", "title": "Forward checking hides only hopeless values", "statement": "Forward checking hides a value of an unassigned variable only if no completion using that value satisfies the constraint, and never fails.", "quantifier": "for every partial assignment and domain", "why_tests_cant": "All domains; the failing case needs a candidate exceeding two counts at once.", "anchors": ["semantic_codec/solution/solution_builders.py:ExactFieldSumConstraint"]}
{"id": "C47", "title": "The true program is a solution of the built problem", "statement": "The constraint problem built for an original program is satisfied by choosing the original instruction at every address.", "quantifier": "for every original program and every candidate program containing it", "why_tests_cant": "All programs.", "anchors": ["semantic_codec/solution/solution_builders.py:ProblemBuilder"]}
{"id": "C48", "title": "Forward-constraint construction never loses the original", "statement": "If every address contains its original instruction, building a solution visits every address once, never removes the original of an address still to be visited, and never reports an impossible program.", "quantifier": "for every corrupted program and original program", "why_tests_cant": "Invariant over the whole construction, including re-sorting.", "anchors": ["semantic_codec/solution/solution_builders.py:AbstractForwardConstraintSolutionBuilder.build"]}
{"id": "C49", "title": "A solution identifies the program", "statement": "Two different choices of candidates are never encoded as the same solution (neither by the enumerator number nor by the bit-queue encoding).", "quantifier": "for every pair of choices", "why_tests_cant": "All pairs.", "anchors": ["semantic_codec/solution/solution_builders.py:ForwardConstraintSolutionEnumerator", "semantic_codec/solution/solution_builders.py:ForwardConstraintSolutionBuilder"]}
{"id": "C50", "title": "Solution-space measures are correct", "statement": "The reported solution size is the base-2 logarithm of the number of candidate combinations, and the reported solution count is that number.", "quantifier": "for every corrupted program with no empty address", "why_tests_cant": "All programs.", "anchors": ["semantic_codec/solution/solution_quality.py:SolutionQuality"]}
{"id": "C51", "title": "Endianness reversal is an involution and its two forms agree", "statement": "Reversing the byte order of a 32-bit word twice gives the word back, it is the same permutation of bytes as reversing the eight-digit hexadecimal text, and values outside 32 bits are rejected.", "quantifier": "for every 32-bit word and every eight-digit hexadecimal text", "why_tests_cant": "All 2^32 words.", "anchors": ["semantic_codec/architecture/instruction.py:Instruction.reverse_endianess"]}
{"id": "C52", "title": "Branch targets follow the ARM definition", "statement": "The branch target computed from an encoding is address + 8 + 4 * signed 24-bit offset, modulo 2^32.", "quantifier": "for every encoding and every address", "why_tests_cant": "All 2^32 encodings times all addresses.", "anchors": ["semantic_codec/architecture/instruction.py:Instruction.jumping_address"]}
{"id": "C53", "title": "Register lists are decoded completely", "statement": "The register list of a 16-bit mask contains exactly the registers whose bit is set, in increasing order.", "quantifier": "for every mask", "why_tests_cant": "All masks, with bits above 15 ignored.", "anchors": ["semantic_codec/architecture/instruction.py:Instruction._get_register_list"]}
{"id": "C54", "title": "Register usage splits into reads and writes", "statement": "Registers used are listed without repetition; each is read or written; push and pop read and update the stack pointer; and every register operand, including memory base and index registers, is listed.", "quantifier": "for every decoded instruction", "why_tests_cant": "All operand lists; register R0 as memory base is the failing case.", "anchors": ["semantic_codec/architecture/capstone_instruction.py:CAPSInstruction.registers_used", "semantic_codec/architecture/capstone_instruction.py:CAPSInstruction.registers_written", "semantic_codec/architecture/capstone_instruction.py:CAPSInstruction.registers_read"]}
{"id": "C55", "title": "Storage queries are stable", "statement": "Asking an instruction for its storages used, written or read any number of times in any order always gives the same answers, never an empty list of used storages, and the memory and no-register markers appear exactly when they should.", "quantifier": "for every instruction and every sequence of queries", "why_tests_cant": "All query sequences over cached mutable lists.", "anchors": ["semantic_codec/architecture/instruction.py:Instruction.storages_used", "semantic_codec/architecture/instruction.py:Instruction.storages_written", "semantic_codec/architecture/instruction.py:Instruction.storages_read"]}
{"id": "C56", "title": "Branch resolution finds the target", "statement": "Resolving a branch returns an instruction of the program located at the branch target if there is one, and nothing otherwise; a cached target is found again only if it is still in the list.", "quantifier": "for every program and branch", "why_tests_cant": "All programs.", "anchors": ["semantic_codec/architecture/instruction.py:Instruction.branch_to"]}
{"id": "C57", "title": "Dominator computation is correct", "statement": "After building the dominator tree, the immediate dominator of every reachable block other than the root is its closest strict dominator: it lies on every path from the root to the block and every other strict dominator dominates it.", "quantifier": "for every flow graph in which predecessors of reachable blocks are reachable", "why_tests_cant": "All graphs and all paths.", "anchors": ["semantic_codec/static_analysis/dominators.py:build_dominator_tree"]}
{"id": "C58", "title": "Dominance frontiers are exact", "statement": "The dominance frontier of a block consists of exactly the blocks that have a predecessor dominated by it but are not strictly dominated by it.", "quantifier": "for every flow graph in which predecessors of reachable blocks are reachable", "why_tests_cant": "All graphs.", "anchors": ["semantic_codec/static_analysis/ssa.py:build_dominance_frontier"]}
{"id": "C59", "title": "Merge functions are placed on the iterated frontier", "statement": "A merge function for a register is placed exactly at the blocks, other than the end block, of the iterated dominance frontier of the blocks writing it, at most once per block, when the register is global.", "quantifier": "for every flow graph and every register", "why_tests_cant": "All graphs; worklist fixpoint.", "anchors": ["semantic_codec/static_analysis/ssa.py:place_phi_nodes"]}
{"id": "C60", "title": "Every SSA name is assigned once", "statement": "After renaming, no SSA name is written by two different writes, counting merge functions as writes.", "quantifier": "for every program in which each block is visited once", "why_tests_cant": "All programs and dominator trees.", "anchors": ["semantic_codec/static_analysis/ssa.py:SSAFormBuilder._rename_vars"]}
{"id": "C61", "title": "SSA reads see the reaching definition", "statement": "After renaming, a read of a register carries the name given by the last write on the dominator-tree path to the read.", "quantifier": "for every dominator tree with any instructions", "why_tests_cant": "Fails only with a block having two dominated children; tests have none that check it.", "anchors": ["semantic_codec/static_analysis/ssa.py:SSAFormBuilder._rename_node"]}
{"id": "C62", "title": "Value dependency graph is exact", "statement": "The value dependency graph has an edge from a to b exactly when some instruction reads SSA name a and writes SSA name b, or a merge function reading a writes b.", "quantifier": "for every renamed program", "why_tests_cant": "All programs.", "anchors": ["semantic_codec/static_analysis/ssa.py:SSAFormBuilder._build_value_dependency_graph"]}
{"id": "C63", "title": "Control-flow graph partitions the instructions", "statement": "In the built control-flow graph every defined instruction belongs to exactly one block, blocks keep program order, and the root and end blocks hold no instruction.", "quantifier": "for every instruction list", "why_tests_cant": "All programs.", "anchors": ["semantic_codec/static_analysis/cfg.py:ARMControlFlowGraph.build"]}
{"id": "C64", "title": "A branch ends its block", "statement": "In the built control-flow graph a branch instruction is always the last instruction of its block.", "quantifier": "for every instruction list", "why_tests_cant": "Needs a conditional branch followed by an instruction with the same condition.", "anchors": ["semantic_codec/static_analysis/cfg.py:ARMControlFlowGraph.build"]}
{"id": "C65", "title": "Resolvable jumps become edges", "statement": "For every branch whose target is an instruction of the program, the control-flow graph has an edge from the block of the branch to the block starting with the target.", "quantifier": "for every instruction list", "why_tests_cant": "Forward jumps are the failing case; tests only count nodes of a few programs.", "anchors": ["semantic_codec/static_analysis/cfg.py:ARMControlFlowGraph._branch_instruction"]}
{"id": "C66", "title": "Removing conditional nodes preserves reachability", "statement": "Removing the artificial conditional nodes from a control-flow graph keeps, among the remaining blocks, exactly the same reachability.", "quantifier": "for every graph", "why_tests_cant": "All graphs, including chains and cycles of conditional nodes.", "anchors": ["semantic_codec/static_analysis/cfg.py:ARMControlFlowGraph.remove_conditionals"]}
{"id": "C67", "title": "Function listings are read completely", "statement": "Reading a function listing yields every instruction line once, in file order, and attributes it to the last function header seen before it.", "quantifier": "for every well-formed listing", "why_tests_cant": "All files.", "anchors": ["semantic_codec/architecture/disassembler_readers.py:ElfioTextDisassembleReader.read"]}
{"id": "C68", "title": "Program representations convert without loss", "statement": "Converting an instruction list to an address map and back, or flattening a function table, keeps every instruction, orders instructions by address, and the flattened list and map agree.", "quantifier": "for every instruction list with distinct addresses and every function table", "why_tests_cant": "All programs.", "anchors": ["semantic_codec/metadata/probabilistic_rules/rules.py:from_instruction_list_to_dict", "semantic_codec/metadata/probabilistic_rules/rules.py:from_functions_to_list_and_addr"]}
{"id": "C69", "title": "Progress bar ends once", "statement": "Over any sequence of progress calls the bar never divides by zero, never goes past its total, and prints its final line at most once.", "quantifier": "for every total and every finite sequence of calls", "why_tests_cant": "All call histories.", "anchors": ["semantic_codec/report/print_progress.py:TextProgressBar"]}
{"id": "C70", "title": "Mock quality function has period three", "statement": "The mock quality-of-service function answers true exactly on every third call.", "quantifier": "for every number of calls", "why_tests_cant": "All histories.", "anchors": ["semantic_codec/distributed/qos_functions.py:MockQoSFunction"]}
{"id": "C71", "title": "Swap compression keeps the size and clears only listed bits", "statement": "Swap compression returns as many bytes as it was given, changes only bits at listed positions, and only from one to zero.", "quantifier": "for every data and every list of positions", "why_tests_cant": "All data.", "anchors": ["semantic_codec/compressor/shiftcompressor.py:SwapCompressor"]}
{"id": "C72", "title": "Shift compression removes every listed group", "statement": "Shift compression removes from the data every listed group of bits and nothing else.", "quantifier": "for every data and every list of positions", "why_tests_cant": "The first listed group is never removed; tests compare sizes only.", "anchors": ["semantic_codec/compressor/shiftcompressor.py:ShiftCompressor"]}
{"id": "C73", "title": "Rules report change accurately", "statement": "A scoring rule reports a change exactly when some candidate score for that rule changed, and running it again immediately reports no change.", "quantifier": "for every program and every rule that depends only on the instructions", "why_tests_cant": "All programs.", "anchors": ["semantic_codec/metadata/probabilistic_rules/rules.py:Rule"]}
{"id": "C74", "title": "Rules never change the candidate set", "statement": "Running any scoring rule leaves the candidates of every address unchanged, in the same order.", "quantifier": "for every program", "why_tests_cant": "All programs.", "anchors": ["semantic_codec/metadata/probabilistic_rules/rules.py", "semantic_codec/metadata/probabilistic_rules/counting_rules.py", "semantic_codec/metadata/probabilistic_rules/distance_rule.py"]}
{"id": "C75", "title": "Mixed-radix address numbering is injective", "statement": "Both address numberings give different numbers to different in-range coordinate triples, and the high-in-high numbering covers every number below 8192.", "quantifier": "for every pair of in-range coordinates", "why_tests_cant": "Injectivity over all pairs.", "anchors": ["address_sorting.py"]}
{"id": "C76", "title": "Stored packets cover the program", "statement": "Splitting a stored program into packets hands the interleaver an order that visits every position of a packet exactly once, whatever the length of the program.", "quantifier": "for every program length", "why_tests_cant": "Tests use one program whose length happens to be a multiple of the packet count.", "anchors": ["store_packets.py"]}
{"id": "C77", "title": "The instruction space list is exact", "statement": "After collection, the list the collector keeps of the used part of the encoding space contains the encoding of every defined instruction exactly once and nothing else, from highest to lowest.", "quantifier": "for every program", "why_tests_cant": "Ordering and absence of repetition over all programs.", "anchors": ["semantic_codec/metadata/metadata_collector.py:MetadataCollector.collect"]}
{"id": "C78", "title": "Highest depth is the worst rank of an original", "statement": "The highest depth reported for a program is the largest, over the defined original instructions, of the place of the original when the candidates of its address are tried from the best score down (smaller encodings first among equal scores), divided by the number of candidates.", "quantifier": "for every program whose addresses contain their originals", "why_tests_cant": "Sorting and ranking over all candidate lists and scores.", "anchors": ["semantic_codec/solution/solution_quality.py:SolutionQuality.highest_depth"]}
{"id": "C79", "title": "Instructions are built from 32-bit encodings only", "statement": "Building an instruction from an integer hands the disassembler the four bytes of the word, least significant first, and raises OverflowError for every integer outside 32 bits.", "quantifier": "for every integer", "why_tests_cant": "All integers.", "anchors": ["semantic_codec/architecture/capstone_instruction.py:CAPSInstruction.__init__"]}
{"id": "C80", "title": "The older ARM decoder reports fields and registers", "statement": "The older ARM decoder reads the register fields from the bits the ARM manual names, and for every encoding its registers read and written together are its registers used.", "quantifier": "for every 32-bit encoding", "why_tests_cant": "All encodings; whole instruction classes fail.", "anchors": ["semantic_codec/architecture/arm_instruction.py:ARMInstruction"]}
{"id": "C81", "title": "The DARM decoder lists registers once", "statement": "The DARM-based decoder lists every register written once, and its registers used are those written followed by those read.", "quantifier": "for every answer of the DARM library", "why_tests_cant": "A list extended with itself shows only for combinations of fields.", "anchors": ["semantic_codec/architecture/darm_instruction.py:DARMInstruction"]}
{"id": "C82", "title": "Functions and instructions of a text listing agree", "statement": "For every disassembly text file, reading the functions and reading the instructions give the same instructions in the same order: those of the functions, one function after the other, are all the instructions of the file, with those before the first header in a first unnamed function, and one further function per header line in order. If one of the two reads fails, so does the other.", "quantifier": "all files (lists of lines), all header and instruction lines", "why_tests_cant": "Concerns every file, including malformed ones; tests read a few.", "anchors": ["semantic_codec/architecture/disassembler_readers.py"]}
{"id": "C83", "title": "Only dead merge functions are removed", "statement": "After renaming, the merge functions removed as dead are exactly those whose register is written again (with a larger index) by an instruction of the block while neither that instruction nor an earlier one of the block reads them; the others, and the names of all instructions, stay as they are.", "quantifier": "for every renamed program and every block", "why_tests_cant": "All combinations of reads and writes in a block.", "anchors": ["semantic_codec/static_analysis/ssa.py:SSAFormBuilder._remove_dead_phi"]}
{"id": "C84", "title": "Straight-line flow is covered by the control-flow graph", "statement": "In the built control-flow graph, of two consecutive defined instructions the first of which is not a branch, the second follows the first: both are consecutive in one block, or there is an edge, possibly over one conditional node, from the block ending with the first to the block starting with the second.", "quantifier": "for every instruction list and every pair of consecutive defined instructions", "why_tests_cant": "All programs; later jumps split blocks and move edges that earlier steps created.", "anchors": ["semantic_codec/static_analysis/cfg.py:ARMControlFlowGraph.build", "semantic_codec/static_analysis/cfg.py:ARMControlFlowGraph._split_node"]}
{"id": "C85", "title": "The evidence of a candidate is the documented statistic", "statement": "Whenever scoring a program returns, every defined candidate has exactly this evidence. Condition and opcode: the number of defined originals with that condition or opcode over the number of addresses with such a candidate. Registers (ordinary instructions): the minimum of one and the same ratios of its registers. Push and pop: the greatest of 0.7 for a matching instruction at the other end of the function, 0.65 for a pop and a branch further up in it, and 0.9999 for fitting register lists or else one over the number of candidates. Branch: 0.67 inside the current function, 0.7 for the start of a function, 0.001 outside the program, 0.002 otherwise. Register distance and neighbour evidence: the product and the weighted shares given in the specification. Ignored candidates and evidence of other kinds stay as they were.", "quantifier": "for every original, every table of functions, every corrupted program and every candidate", "why_tests_cant": "The tests compare a few numbers for one program; the formulas range over all programs, candidates and function tables.", "anchors": ["semantic_codec/metadata/recuperator.py:ProbabilisticRecuperator._compute_registers", "semantic_codec/metadata/recuperator.py:ProbabilisticRecuperator._compute_push_pop", "semantic_codec/metadata/recuperator.py:ProbabilisticRecuperator._compute_branch_address", "semantic_codec/metadata/recuperator.py:ProbabilisticRecuperator._compute_register_distance", "semantic_codec/metadata/recuperator.py:ProbabilisticRecuperator._compute_proper_cfg"]}
{"id": "C86", "title": "The removal score is the product of the evidence of its kind", "statement": "After scoring, a candidate with some evidence equal to zero scores zero, one whose condition, opcode or registers are certain scores one, and any other scores the product of its condition, opcode and neighbour evidence and of the evidence of its kind: the branch evidence for branches, the push and pop evidence for pushes and pops, register and distance evidence for the rest. Ignored candidates score zero.", "quantifier": "for every program that contains its originals and every candidate", "why_tests_cant": "All combinations of evidence over all programs.", "anchors": ["semantic_codec/metadata/recuperator.py:probabilistic_rules_remove_step"]}
{"id": "C87", "title": "The SSA form has exactly the merge functions it needs", "statement": "When the SSA form of a program is built, a block has a merge function for a register exactly when some block reads the register before writing it, the block is not an end block, it lies in the iterated dominance frontier of the blocks writing the register, and it does not itself write the register before reading it; and it has at most one for each register.", "quantifier": "for every flow graph, every assignment of instructions to blocks and every register", "why_tests_cant": "All graphs and all combinations of reads and writes; the result depends on dominators, frontiers, renaming and removal together.", "anchors": ["semantic_codec/static_analysis/ssa.py:SSAFormBuilder.build", "semantic_codec/static_analysis/ssa.py:SSAFormBuilder._remove_dead_phi"]}
{"id": "C88", "title": "A merge function has one parameter for each incoming edge", "statement": "When the SSA form of a program is built, a merge function of a block has exactly one parameter for each edge into the block from a block that can be reached; all of them name its register, and the one for an edge names the definition of the register that holds at the end of the block the edge leaves.", "quantifier": "for every flow graph, every assignment of instructions to blocks and every merge function", "why_tests_cant": "All graphs; the wrong parameters appear only beyond the first branch of the dominator tree.", "anchors": ["semantic_codec/static_analysis/ssa.py:SSAFormBuilder._rename_node"]}
{"id": "C89", "title": "Which candidates the repeated deprecated recovery excludes", "statement": "When the deprecated recuperator runs more than one pass and ends, it keeps the addresses, and the candidates apart from their being excluded; an address with a single candidate is left alone; at every other address the candidates excluded in the end include those excluded before and are exactly those that have a score that is not positive; and when the metadata is that of the original program, the original instruction is never excluded.", "quantifier": "for every program of candidates, every metadata and every number of passes greater than one", "why_tests_cant": "The scores of later addresses and passes depend on the exclusions made before, so the number of histories is unbounded.", "anchors": ["semantic_codec/metadata/recuperator.py:Recuperator._recover"]}
{"id": "C90", "title": "Forward construction removes exactly the candidates that can no longer be right", "statement": "When the enumeration of forward constraints has finished, the candidates left of an address are its last one and those others whose condition, opcode and registers occur in an original instruction not visited before it (all candidates as long as no defined original was visited); addresses are visited from few candidates to many; and a construction that ends without an exception has found the original instruction among the candidates of every address it had to decide.", "quantifier": "for every original program, every program of candidates containing it and the metadata collected from it; the last part for every builder and every metadata", "why_tests_cant": "What is available depends on all addresses visited before; the claim is about every program.", "anchors": ["semantic_codec/solution/solution_builders.py:AbstractForwardConstraintSolutionBuilder.build", "semantic_codec/solution/solution_builders.py:AbstractForwardConstraintSolutionBuilder._remove_invalid_instructions", "semantic_codec/solution/solution_builders.py:AbstractForwardConstraintSolutionBuilder._find_address_correct_index"]}
{"id": "C91", "title": "The scores the deprecated rules give", "statement": "The deprecated control-flow rule gives every candidate that is not excluded a small constant, plus for each neighbouring address seven tenths of the share of candidates there with the same condition, less six tenths of the share of previous candidates that set the flags if it is always executed, plus a thousandth for a branch to an address of the program; excluded candidates get zero. A deprecated counting rule gives every candidate that is not excluded the mean over its values of (number of originals with the value not yet settled) / (number of open candidates with it), computed when the rule is first asked; it fails with KeyError exactly when a settled candidate has an uncounted value. An address with one candidate left that is not excluded counts as settled.", "quantifier": "for every program of candidates, every metadata, every address and every pass", "why_tests_cant": "All programs and all combinations of exclusions; sums over the whole program.", "anchors": ["semantic_codec/metadata/probabilistic_rules/rules.py:ControlFlowBehavior.recover", "semantic_codec/metadata/probabilistic_rules/counting_rules.py:CountingRule.recover", "semantic_codec/metadata/probabilistic_rules/counting_rules.py:CountingRule._compute_remaining_candidate_probability"]}
{"id": "C92", "title": "The condition of an instruction", "statement": "The condition reported for an instruction the disassembler understands is the number in the four highest bits of its encoding; the older decoder gives the same bits in place. For an instruction without a disassembly the query raises AttributeError.", "quantifier": "for every 32-bit encoding, given that the disassembler numbers conditions from one in the order of the encoding", "why_tests_cant": "All encodings.", "anchors": ["semantic_codec/architecture/capstone_instruction.py:CAPSInstruction.conditional_field", "semantic_codec/architecture/arm_instruction.py:ARMInstruction.conditional_field"]}
{"id": "C93", "title": "A completed recovery run leaves two readable solutions", "statement": "When a whole recovery run completes, it has written an initial and a final solution file. Each can be read back and lists the addresses of the corrupted program in their order; at every address the original read is the instruction of the given functions, the candidates are candidates of the corrupted program at that address, and the original is the last of them and occurs only there. At least one address still has several candidates.", "quantifier": "for every set of functions with distinct addresses, every corruptor, every behaviour of the disassembler and any number of passes", "why_tests_cant": "All programs, corruptions and disassemblies through scoring, pruning, forward enumeration and file writing together.", "anchors": ["recover_program.py:run_recovery", "semantic_codec/solution/solution_io.py:SolutionWriter.write_binary", "semantic_codec/solution/solution_io.py:SolutionReader.read"]}
{"id": "C94", "title": "A recovery run ends, keeps every original and can only fail in a report", "statement": "On a program whose functions are consecutive instructions and whose corrupted form contains every original, the run ends. The original of every address is among the candidates at the end and in the files, and the only possible exception is the division by zero of a report when no address has several candidates. If the corrupted program has no address with several candidates no file is written; otherwise the initial solution is always written and readable.", "quantifier": "for all functions, corruptors and disassemblies meeting the stated conditions and any sufficient number of turns", "why_tests_cant": "Termination and survival of every original through an unbounded number of passes, for all programs.", "anchors": ["recover_program.py:run_recovery", "recover_program.py:print_report", "semantic_codec/metadata/recuperator.py:ProbabilisticRecuperator.recover", "semantic_codec/solution/solution_builders.py:ForwardConstraintSolutionEnumerator"]}
{"id": "C95", "title": "A saved corruption can be replayed", "statement": "A corruptor that has a path and is told to save stores the program it returns; a corruptor that loads from that path then returns the same program, whatever program is passed to it, changes neither the program passed nor the file, and no other file is touched. A corruptor that cannot save, and a loader without a path or without the file, raises and leaves the disk alone.", "quantifier": "for all programs of 32-bit words at distinct addresses, all draws, packet layouts, paths and contents of the disk", "why_tests_cant": "All corruptions and programs; that nothing else changes; the order in which saving and the in-place change happen.", "anchors": ["semantic_codec/corruption/corruptors.py:Corruptor._save_corrupted_program", "semantic_codec/corruption/corruptors.py:JSONCorruptor.corrupt", "semantic_codec/corruption/corruptors.py:RandomCorruptor.corrupt", "semantic_codec/corruption/corruptors.py:PacketCorruptor.corrupt", "semantic_codec/corruption/corruption.py:save_corrupted_program_to_json"]}
{"id": "C96", "title": "Every corruptor's result can be recovered, and the main program leaves a solution", "statement": "For functions read from a listing, what the packet-loss corruptor, the random corruptor or a replayed corruption returns has the same addresses in the same order, contains every original and fits the solution files. The main program with its settings (one packet for 32 instructions, packet 3 lost) corrupts some address, gives no address more than 1024 candidates, ends, leaves a readable initial solution and, unless a report divides by zero, a readable final one that keeps every original.", "quantifier": "for all listings, all draws, packet layouts and losses, all disassemblies meeting the stated conditions", "why_tests_cant": "All listings of any length, through interleaving, loss prediction, corruption, scoring, pruning and writing.", "anchors": ["recover_program.py:__main__", "recover_program.py:run_recovery", "semantic_codec/corruption/corruptors.py:PacketCorruptor.corrupt", "semantic_codec/corruption/corruption.py:corrupt_program"]}
{"id": "C97", "title": "Making frequent parts more frequent ends, tries the documented replacements and keeps the counts", "statement": "Changing the parts of a program visits the parts from the least frequent to the most frequent, each with its instructions in order. For each instruction it tries the more frequent parts, the most frequent first, asks the quality-of-service function about each changed instruction and stops at the first that is accepted. It ends, and the frequency table stays the frequency of the changed program.", "quantifier": "for all programs, frequency tables, changers and quality-of-service functions, including those whose answer depends on the calls before", "why_tests_cant": "All tables and all answers; that it ends; the order of unbounded many calls.", "anchors": ["semantic_codec/compressor/huffman.py:InstructionPartFrequencyChanger._change_parts", "semantic_codec/compressor/huffman.py:InstructionPartFrequencyChanger.change_registers", "semantic_codec/architecture/instruction_modifier.py:InstructionModifier.modify_register"]}
{"id": "C98", "title": "Storing packets writes the program and the program without the lost packets", "statement": "The packet storing script writes two files. The plain one is the program as little-endian words. The compressed one has the same length and is the program with exactly the bits cleared that are carried by the lost packets, the first fifth of the packets.", "quantifier": "for all programs of 32-bit words", "why_tests_cant": "All programs of all lengths and all bits of the files; the tests only store one program.", "anchors": ["store_packets.py"]}
{"id": "C99", "title": "The DARM wrapper reports the storages of an instruction", "statement": "For an instruction decoded by DARM the storages written, read and used are its registers, memory when it stores or loads, and the program counter when it branches; its flags are reported as modified exactly when it sets them or compares; the jump target follows the ARM definition; no answer depends on what was asked before.", "quantifier": "for all answers of the DARM library and all sequences of queries", "why_tests_cant": "All texts and register combinations; any order of queries. The tests of memory only look at loads, pushes and pops of many registers.", "anchors": ["semantic_codec/architecture/darm_instruction.py:DARMInstruction._writes_to_memory", "semantic_codec/architecture/darm_instruction.py:DARMInstruction._read_from_memory", "semantic_codec/architecture/darm_instruction.py:DARMInstruction.is_branch", "semantic_codec/architecture/darm_instruction.py:DARMInstruction.modifies_flags", "semantic_codec/architecture/darm_instruction.py:DARMInstruction.jumping_address", "semantic_codec/architecture/instruction.py:Instruction.storages_written"]}
{"id": "C100", "title": "An encoding that cannot be disassembled answers no query", "statement": "An encoding that Capstone cannot disassemble is neither a push nor a pop. Asking for its condition, its registers, its storages, whether it branches or where to raises AttributeError, every time, and changes nothing.", "quantifier": "for all encodings that cannot be disassembled and all queries", "why_tests_cant": "All queries on all such encodings; tests only ask whether an instruction is undefined.", "anchors": ["semantic_codec/architecture/capstone_instruction.py:CAPSInstruction.registers_used", "semantic_codec/architecture/capstone_instruction.py:CAPSInstruction.is_branch", "semantic_codec/architecture/instruction.py:Instruction.storages_used"]}
{"id": "C101", "title": "Every edge of the control-flow graph is a possible transfer of control", "statement": "Every edge of the built control-flow graph leads from the last instruction of a block to an instruction that can be executed next: the following one, the target of a branch, or, over a conditional node, the instruction it guards when the condition holds and the next group when it does not.", "quantifier": "for every instruction list and every edge of its graph", "why_tests_cant": "All programs: later branches split blocks and move edges, and blocks keep growing after their edges were made. The tests only count the nodes of a few programs.", "anchors": ["semantic_codec/static_analysis/cfg.py:ARMControlFlowGraph.build", "semantic_codec/static_analysis/cfg.py:ARMControlFlowGraph._branch_instruction", "semantic_codec/static_analysis/cfg.py:ARMControlFlowGraph._branch_conditional", "semantic_codec/static_analysis/cfg.py:ARMControlFlowGraph._split_node"]}
{"id": "C102", "title": "Drawing a graph loses no node and no edge", "statement": "The drawing of a graph in the Dot language has one node for each node, in order, under its text and with its attributes, and one edge for each edge (for a graph without directions, one for the two directions), with its attributes and label and, if asked for, its weight.", "quantifier": "for every graph or digraph, every text of its nodes, every labelling and weighting", "why_tests_cant": "All graphs and all texts of nodes: edges are told apart by the joined texts of their ends. The tests only print drawings.", "anchors": ["libs/dot/dotio.py:write", "semantic_codec/static_analysis/cfg.py:CFGBlock.__str__"]}
{"id": "C103", "title": "Reading the drawing of a graph gives the graph back", "statement": "Reading what was written for a graph gives a graph of the same kind with the same nodes (by text), the same edges, and the same attributes, labels and weights.", "quantifier": "for every graph or digraph, with and without weights", "why_tests_cant": "All graphs, labels, weights and attributes; labels, weights and attributes share one dictionary.", "anchors": ["libs/dot/dotio.py:write", "libs/dot/dotio.py:read"]}
{"id": "C104", "title": "Reading the drawing of a hypergraph gives the hypergraph back", "statement": "Reading what was written for a hypergraph gives a hypergraph with the same nodes, hyperedges and links, whether it was colored or not.", "quantifier": "for every hypergraph", "why_tests_cant": "All hypergraphs, numbers of hyperedges and names.", "anchors": ["libs/dot/dotio.py:write_hypergraph", "libs/dot/dotio.py:read_hypergraph", "libs/dot/dotio.py:read"]}
{"id": "C105", "title": "No possible transfer of control is missing from the control-flow graph", "statement": "The control-flow graph has an edge for every transfer of control: from the start to the first instruction, from an instruction to the next one, from a branch to its target, from a call to the instruction after it, from a condition that does not hold to what comes after the instructions it guards (the end if they are the last ones), and from the last instruction to the end.", "quantifier": "for every instruction list and every transfer of control", "why_tests_cant": "All programs: which edges there are depends on all later branches. The tests only count the nodes of a few programs.", "anchors": ["semantic_codec/static_analysis/cfg.py:ARMControlFlowGraph.build", "semantic_codec/static_analysis/cfg.py:ARMControlFlowGraph._branch_instruction", "semantic_codec/static_analysis/cfg.py:ARMControlFlowGraph._branch_conditional", "semantic_codec/static_analysis/cfg.py:ARMControlFlowGraph._split_node"]}
{"id": "C106", "title": "The control-flow graph is determined by the instructions", "statement": "Which blocks, conditional nodes and unknown nodes the control-flow graph has, and which of them are linked, is determined by the sequence of defined instructions, their conditions, and the kinds and targets of the branches among them: blocks start at the instructions that open a group, at branches, and at targets of branches that do not come before them; there is one conditional node for each group under a condition and one unknown node for each branch to an unknown place; no two nodes begin or end with the same instruction; two nodes are linked exactly as the order of the instructions says.", "quantifier": "for every instruction list, every node and every pair of nodes of its graph", "why_tests_cant": "An exact description of the result for all programs; the graph is built step by step, and earlier blocks and edges are changed by later branches.", "anchors": ["semantic_codec/static_analysis/cfg.py:ARMControlFlowGraph.build", "semantic_codec/static_analysis/cfg.py:ARMControlFlowGraph._branch_instruction", "semantic_codec/static_analysis/cfg.py:ARMControlFlowGraph._branch_conditional", "semantic_codec/static_analysis/cfg.py:ARMControlFlowGraph._split_node"]}
{"id": "C107", "title": "Which definition a read or a merge parameter of the SSA form names", "statement": "When the SSA form of a program is built without an exception, the blocks reachable from the root are walked along the dominator tree, each once and before the blocks it dominates, and every read of a register carries exactly one name of it: that of the definition (merge function kept, or instruction) met last in the walk before the read, or index 0 if there is none. The parameter of a merge function for an edge is the name given last in the walk up to the end of the block the edge leaves.", "quantifier": "for every flow graph, every assignment of instructions to blocks, every read and every edge into a block with a merge function", "why_tests_cant": "An exact description of all names for all programs; the stacks of indices are shared by the whole walk and rolled back in between, so a name depends on all blocks visited before.", "anchors": ["semantic_codec/static_analysis/ssa.py:SSAFormBuilder.build", "semantic_codec/static_analysis/ssa.py:SSAFormBuilder._rename_vars", "semantic_codec/static_analysis/ssa.py:SSAFormBuilder._rename_node", "semantic_codec/static_analysis/ssa.py:SSAFormBuilder._new_name"]}
{"id": "C108", "title": "The Huffman report on a text", "statement": "huffman_test on a text that is not empty prints one row for every different symbol of the text, with the number of its occurrences and its code, the shorter codes first; the codes are prefix free; the printed message size is the number of bits of the text in that code, no prefix-free code needs fewer, and a text with two different symbols can be read back from its bits. A text of one symbol is given size 0, and the empty text raises an IndexError.", "quantifier": "for every text", "why_tests_cant": "Optimality is a statement about all prefix-free codes, and unique decoding about all messages. The repository has no test of the report.", "anchors": ["semantic_codec/compressor/huffman.py:huffman_test", "semantic_codec/compressor/huffman.py:encode"]}
{"id": "C109", "title": "The Huffman improver reports a smaller register size", "statement": "The script that tries to improve the frequency of symbols prints the least sizes in which the registers, the opcodes and the conditions of the program can be coded, and then the size of the registers after the changes, which is smaller when a change was accepted.", "quantifier": "for every program", "why_tests_cant": "The script is not tested; what it prints depends on the frequencies of all the registers of the program.", "anchors": ["huffman_improver.py", "semantic_codec/compressor/huffman.py:InstructionPartFrequencyCounter.count", "semantic_codec/compressor/huffman.py:InstructionPartFrequencyChanger.change_registers", "semantic_codec/compressor/huffman.py:huffman_size"]}
{"id": "C110", "title": "What comparing disassembled programs prints", "statement": "For every file that the results mark as equal, the comparison prints each line that differs from the line of the same number in the first file, with its number, all but the first of them. A file has the result of the last line about it. A result line without exactly one colon raises a ValueError, a file without a result a KeyError, and a marked file longer than the first file an IndexError after its common lines.", "quantifier": "for every list of results and every list of files", "why_tests_cant": "The script is not tested; all files and all positions of the differences are meant.", "anchors": ["comparefiles.py"]}
{"id": "C111", "title": "What the metrics script prints and draws", "statement": "The bars of the charts are the number of uses of the storages 0 to 17, and the number of defined instructions with each of the conditions 0 to 14 and the opcodes 0 to 199; they total the number of defined instructions exactly when no instruction has another condition or opcode. The printed lines are the different encodings of the program from the largest to the smallest, each with the difference to the one before it, and the differences total the distance from the largest to the smallest.", "quantifier": "for every program", "why_tests_cant": "The script is not tested; the counts and gaps depend on the whole program.", "anchors": ["collect_metrics.py:collect_and_print", "semantic_codec/metadata/metadata_collector.py:MetadataCollector.collect"]}
{"id": "C112", "title": "The SSA form of every control flow graph can be built", "statement": "Building the SSA form of a control flow graph whose blocks can all be reached, over instructions that read and write the twenty known storages, ends without an exception.", "quantifier": "for every rooted control flow graph, every placement of instructions in its blocks and every reading and writing of storages", "why_tests_cant": "Whether a name is left for a storage depends on all the definitions and rollbacks along the whole walk of the dominator tree; tests build a few fixed graphs.", "anchors": ["semantic_codec/static_analysis/ssa.py:SSAFormBuilder.build", "semantic_codec/static_analysis/ssa.py:SSAFormBuilder._rename_node", "semantic_codec/static_analysis/ssa.py:SSAFormBuilder._new_name"]}
{"id": "C113", "title": "The distance rule gives the mean of the best shares of what a candidate reads", "statement": "For a candidate that is not ignored and uses storages, the score stored by the distance rule is the mean (at most 1) over the storages it reads of the best share that any earlier candidate, at a distance known from the metadata, has in writing that storage; an ignored candidate is given 0, one that uses nothing a small constant, and one with nothing at the known distances keeps its score. The only exceptions are KeyError for an unknown address and IndexError for a storage that does not exist.", "quantifier": "for every program, every collected metadata, every address and every candidate", "why_tests_cant": "The score depends on all earlier candidates in a range of addresses and on the order of what they write; tests check a handful of small programs.", "anchors": ["semantic_codec/metadata/probabilistic_rules/distance_rule.py:RegisterReadDistance.recover", "semantic_codec/metadata/probabilistic_rules/rules.py:Rule.candidate_count"]}
{"id": "C114", "title": "A finished recovery leaves candidates in the order of their likelihood", "statement": "When a recovery runs to the end, the candidates left at every address are some of those that were left before the last step, with the same evidence, and where several are left they are in the order of the product of their evidence, the most likely first.", "quantifier": "for every original program, every program of scored candidates and every disassembler", "why_tests_cant": "The order is the effect of three sorts and a pruning over all addresses; tests do not run the script.", "anchors": ["recover_program.py:run_recovery", "recover_program.py:print_report", "semantic_codec/metadata/recuperator.py:probabilistic_rules"]}
{"id": "C115", "title": "A program can be analysed from its instructions to the graph of its values", "statement": "Building the control flow graph of a list of instructions, removing its conditional nodes and building the SSA form gives a graph of values, without an exception; in that graph no name is given to two definitions, every read names the definition that reaches it, and there is an edge from one value to another exactly when the second is computed from the first.", "quantifier": "for every list of instructions that is not empty, with any conditions, branches and targets, and whatever the instructions read and write", "why_tests_cant": "Three analyses are chained and whether the last one raises depends on the shape of the graph the first one made; the test suite runs the chain on two files.", "anchors": ["semantic_codec/static_analysis/cfg.py:ARMControlFlowGraph.build", "semantic_codec/static_analysis/cfg.py:ARMControlFlowGraph.remove_conditionals", "semantic_codec/static_analysis/ssa.py:SSAFormBuilder.build", "tests/test_valueDependencySSABuilder.py:_build_ssa"]}
{"id": "C116", "title": "Listings are read or rejected as a whole, line by line", "statement": "Reading a listing with sections fails exactly when a line is malformed for the section it is in: a line before any section raises AttributeError; a line of the function table without exactly one semicolon, or with an address that is not a hexadecimal number, raises ValueError; a line of code with a semicolon whose first or second field is not a hexadecimal number raises ValueError, and a line without one is left out; otherwise the exception is that of making the instruction. Reading a text listing fails exactly when a line that starts with a space has no colon or no space after it (IndexError), or an address or bytes that are not hexadecimal (ValueError), or gives no instruction. In both the exception is that of the first malformed line. If nothing fails, every line of code with two numbers gives one instruction, in order, and no other line does; and there is one function for every address of a function table, in order of first appearance, with the last name given to it, that holds the instructions of the code belonging to it: code belongs to the entry that the address of code last referred to, there or before.", "quantifier": "for every file, whatever its lines, and whatever making an instruction raises", "why_tests_cant": "The tests read a few well-formed files; the claim is about every file, well formed or not, and about which of several malformed lines decides.", "anchors": ["semantic_codec/architecture/disassembler_readers.py:ElfioTextDisassembleReader.read", "semantic_codec/architecture/disassembler_readers.py:TextDisassembleReader.read_functions", "semantic_codec/architecture/disassembler_readers.py:TextDisassembleReader.read_instructions", "semantic_codec/architecture/instruction.py:Instruction.reverse_endianess"]}
{"id": "C117", "title": "Random corruption can end exactly when enough instructions are within reach", "statement": "Corrupting a program at random can return exactly when the number of instructions to corrupt is at most the number of words with a single instruction among those counted in fours from the least address up to the size of the program; instructions beyond a gap that lie further away never count. When that holds and at most 32 errors are allowed for an instruction, no sequence of draws leads to a state from which it can no longer return; when more than 32 are allowed, some draws do.", "quantifier": "for every program with a least address below 2^63, every percentage and error limit, and every sequence of random draws", "why_tests_cant": "Whether a loop that draws random numbers can end is a statement about all sequences of draws; tests run it with one seed on a program without gaps.", "anchors": ["semantic_codec/corruption/corruption.py:corrupt_program", "semantic_codec/corruption/corruption.py:corrupt_bits"]}
{"id": "C118", "title": "The share of candidates of a kind is a probability", "statement": "For an address with candidates, the probability that its instruction is of a given kind is the number of candidates of the kind that are not ignored divided by the number that are not ignored; it lies between 0 and 1, is 0 exactly when no such candidate is of the kind, and 1 exactly when there is one and all are. An address without candidates raises KeyError.", "quantifier": "for every program, address and kind", "why_tests_cant": "It is about all combinations of ignored candidates and kinds, among them the one where everything is ignored; no test calls it.", "anchors": ["semantic_codec/metadata/recuperator.py:ProbabilisticRecuperator._prob_of_a"]}
{"id": "C119", "title": "Evidence from a range of neighbours", "statement": "The evidence taken from the instructions within a range of distances is, for each distance of the range that has candidates with a positive score answering the question, the probability that one of them is the right one; negative distances are instructions before the address.", "quantifier": "for every program, address, range and question", "why_tests_cant": "The direction and the end of the range depend on the signs of both distances, and the mean differs from the union only when several candidates qualify; no test calls it.", "anchors": ["semantic_codec/metadata/recuperator.py:ProbabilisticRecuperator._instruction_range_probs"]}
{"id": "C120", "title": "The uniform distribution has total probability one", "statement": "The density returned for an interval, times its length, is one. So it is positive exactly when the ends are in order, does not change when the interval is shifted, changes its sign when the ends are swapped, and determines the length. Equal ends, and nothing else, raise ZeroDivisionError.", "quantifier": "for every pair of ends", "why_tests_cant": "It is about all pairs of ends, among them swapped and equal ones; no test calls it.", "anchors": ["semantic_codec/probability/probabilities.py:uniform"]}
{"id": "C121", "title": "The order of the candidates does not matter to the recovery", "statement": "Listing the candidates of each address in another order, or with other scores from before, does not change the outcome of the recovery loop as long as no original is lost: it takes equally many passes and leaves the same candidates at every address, or raises the same exception. Whether an original is lost does not depend on the order either.", "quantifier": "for every program that can be scored and every reordering of its candidates", "why_tests_cant": "Candidates are removed from the list that is being walked, scores are compared with those of earlier candidates, and there are as many orders as permutations at every address.", "anchors": ["recover_program.py:run_recovery", "recover_program.py:remove_bad_candidates_at_addr"]}
{"id": "C122", "title": "Recovering again changes nothing", "statement": "When a recovery loop has ended with every original still there, running it again on what it left takes a single pass and leaves the same candidates at every address.", "quantifier": "for every program that can be scored", "why_tests_cant": "The evidence of the earlier passes is still stored in the candidates, and the counts change whenever something is discarded; no test runs a recovery twice.", "anchors": ["recover_program.py:run_recovery", "semantic_codec/metadata/recuperator.py:ProbabilisticRecuperator.recuperate"]}
{"id": "C123", "title": "Losing more packets never takes a candidate away", "statement": "If the packets lost in one transmission are among those lost in another, every word that is a candidate at an address after corrupting for the first is a candidate at that address after corrupting for the second.", "quantifier": "for all programs, orders, group sizes dividing 32 and lists of lost packets", "why_tests_cant": "It compares two runs on every program and pair of lists; the loop that predicts the errors stops with the packet that is listed first, so only certain lists show a difference.", "anchors": ["semantic_codec/corruption/corruptors.py:PacketCorruptor.corrupt", "semantic_codec/corruption/corruption.py:predict_corruption"]}
{"id": "C124", "title": "Losing packets one after the other is losing them at once", "statement": "Corrupting a program for some lost packets and the result for others leaves the same addresses and, at every address, the same words as corrupting the program once for all of them, when each list starts with its packet that comes first in the order.", "quantifier": "for all programs, orders, group sizes dividing 32 and pairs of lists of lost packets", "why_tests_cant": "The number of candidates doubles with every lost bit, and the statement relates three runs for every program and pair of lists.", "anchors": ["semantic_codec/corruption/corruptors.py:PacketCorruptor.corrupt"]}
{"id": "C125", "title": "Writing a solution that was read gives the same file", "statement": "A solution file that was written can be read, and writing the program read with the originals read gives the same bytes again.", "quantifier": "for all programs with distinct addresses that can be written, whatever follows in the file", "why_tests_cant": "Writing keeps only the candidates up to the original and reading takes the last one as the original; whether the two agree depends on all candidate lists.", "anchors": ["semantic_codec/solution/solution_io.py:SolutionWriter.write_binary", "semantic_codec/solution/solution_io.py:SolutionReader.read"]}
{"id": "C126", "title": "The worst place and the measures that are printed", "statement": "Evaluating a solution prints the address of the first original whose depth is the highest, and for every number of candidates the address of the first with so many whose depth is the highest among these, with this depth. The report of a solution prints how many addresses have so many candidates, the size and the count; after the depth has been asked for it raises TypeError when it comes to the size, unless the program is empty.", "quantifier": "for all programs with candidates and all originals with distinct addresses", "why_tests_cant": "Ties, missing originals and undefined instructions in every combination; the output is only printed.", "anchors": ["semantic_codec/solution/solution_quality.py:SolutionQuality.evaluate", "semantic_codec/solution/solution_quality.py:SolutionQuality.report"]}
{"id": "C127", "title": "Where the program is loaded does not matter", "statement": "If every address of a program, every function and every jump target is moved by the same distance, the recovery runs exactly as before: the same number of passes or the same exception, and the same candidates left at the corresponding addresses with the same evidence and scores.", "quantifier": "for all distances, programs, candidates, functions and original programs", "why_tests_cant": "It compares two complete runs for every program and every distance; the evidence is computed from ranges of addresses, differences and comparisons of addresses in many places.", "anchors": ["semantic_codec/metadata/recuperator.py:ProbabilisticRecuperator", "recover_program.py:run_recovery"]}
{"id": "C128", "title": "Coding programs together never saves bits, and bounds of the size", "statement": "The Huffman size reported for a program made of two programs is at least the sum of the sizes reported for each; a program whose parts have at most 2^b different values needs at most b bits for each part, and at least one bit for each part when two of them differ. The same holds for texts.", "quantifier": "for all programs and texts", "why_tests_cant": "It relates the sizes of three programs for every pair of programs, and the size is a minimum over all codes.", "anchors": ["semantic_codec/compressor/huffman.py:huffman_size", "semantic_codec/compressor/huffman.py:freq_info"]}
{"id": "C129", "title": "Names of conditions, opcodes and registers do not matter to the recovery", "statement": "If conditions, opcodes and registers are renamed alike in the original program and in all candidates, different ones to different ones, keeping the condition always, the registers sp, lr, pc and cpsr and the tracked registers among themselves, the recovery runs exactly as before: the same passes or exception, and the same candidates left with the same evidence and scores.", "quantifier": "for all renamings, programs, candidates and functions", "why_tests_cant": "It compares two complete runs for every program and every renaming.", "anchors": ["semantic_codec/metadata/recuperator.py:ProbabilisticRecuperator", "semantic_codec/metadata/metadata_collector.py:MetadataCollector", "recover_program.py:run_recovery"]}
{"id": "C130", "title": "Saving a program that was loaded", "statement": "Loading a corrupted program from JSON data, saving it and loading it again gives the same program. The saved data are the loaded data exactly when no address in them is written with a leading zero and no address is written twice.", "quantifier": "for all JSON objects of decimal keys and lists of encodings that can be loaded", "why_tests_cant": "It ranges over every file that can be loaded, not only those the program itself has written.", "anchors": ["semantic_codec/corruption/corruption.py:save_corrupted_program_to_json", "semantic_codec/corruption/corruption.py:load_corrupted_program_from_json"]}
{"id": "C131", "title": "Exactly which bytes are a solution file, and writing what was read", "statement": "Bytes can be read as a solution exactly when they are the magic word, a count and that many entries of an address, a count and that many words, possibly followed by other bytes. At each address the last entry with words counts, its last word is the original, and addresses come in the order in which they first have words. What was read can always be written, and reading and writing once more changes nothing. The bytes are the same again exactly when nothing follows the entries, every address has one entry, and every entry has words of which the last occurs once.", "quantifier": "for all sequences of bytes", "why_tests_cant": "It covers every sequence of bytes, including files the writer never produces.", "anchors": ["semantic_codec/solution/solution_io.py:SolutionReader.read", "semantic_codec/solution/solution_io.py:SolutionWriter.write_binary"]}
{"id": "C132", "title": "The Huffman sizes of related programs", "statement": "A program made of some of the instructions of another, in any order, is never reported to need more bits. When some parts are no longer told apart, the reported size does not grow. A program repeated k times is reported with k times the size.", "quantifier": "for all programs, kinds of parts, ways of joining parts and numbers of repetitions", "why_tests_cant": "It compares the optimal codes of infinitely many pairs of programs.", "anchors": ["semantic_codec/compressor/huffman.py:huffman_size", "semantic_codec/compressor/huffman.py:freq_info"]}
{"id": "C133", "title": "Which decoded programs can be analysed, and what the analysis is told", "statement": "The control flow graph of decoded instructions is built exactly when every defined instruction is a branch by name, a push, or has only known registers in its memory operands; KeyError is raised otherwise. The graph is that of the conditions, the branches and, for each branch, the first instruction at its immediate operand. The graph of the values is built from these and the storages each instruction reads and writes, and raises KeyError when a memory operand has an unknown register.", "quantifier": "for every list of decoded and undefined instructions", "why_tests_cant": "It covers every program; branches, undefined words and unknown registers combine in unboundedly many ways.", "anchors": ["semantic_codec/static_analysis/cfg.py:ARMControlFlowGraph.build", "semantic_codec/architecture/capstone_instruction.py:CAPSInstruction", "semantic_codec/architecture/instruction.py:Instruction.branch_to"]}
{"id": "C134", "title": "Where decoded instructions are loaded does not matter to their analysis", "statement": "A program loaded at another place, the targets of its branches having moved along, has the same control flow graph and the same graph of values.", "quantifier": "for every list of decoded instructions and every distance", "why_tests_cant": "It compares two complete analyses for every program and every distance.", "anchors": ["semantic_codec/static_analysis/cfg.py:ARMControlFlowGraph.build", "semantic_codec/architecture/capstone_instruction.py:CAPSInstruction.jumping_address", "semantic_codec/static_analysis/ssa.py:SSAFormBuilder.build"]}
{"id": "C135", "title": "What the recovery uses of the original program and of the function table", "statement": "Recovery depends on the original program only through the frequencies of the conditions, opcodes and registers that occur in defined candidates and the shortest and longest write-to-read distances of the registers they read: two originals that agree on these give the same run. Appending to the original instructions unrelated to every candidate changes nothing. Of the function table only the functions starting at addresses of the program matter, and whether a function starts where a candidate branch jumps to.", "quantifier": "for all original programs, function tables, addresses and candidates, and any number of passes", "why_tests_cant": "It compares complete runs for all pairs of programs and tables; a test can only show that some chosen difference has no effect.", "anchors": ["semantic_codec/metadata/recuperator.py:ProbabilisticRecuperator._recover", "semantic_codec/metadata/metadata_collector.py:MetadataCollector.collect", "recover_program.py:run_recovery"]}
{"id": "C136", "title": "A burst of lost packets damages bits that are far apart", "statement": "Data sent in c*4^m packets in the successive-packing order: when only packets of one aligned group of 4^k are lost, the lost groups of bits of the data are at least 2^(m-k) groups apart, also among the errors deinterleaving reports; a burst of up to 4^k consecutive packets beginning anywhere damages at most two of any 2^(m-k) consecutive groups; and when 2^(m-k) groups fill an instruction every instruction loses at most one group.", "quantifier": "for all c, m, k, bit group sizes, data of any length and sets of lost packets in the burst", "why_tests_cant": "It is the purpose of the interleaver and concerns every size of packing, every burst and data of any length.", "anchors": ["semantic_codec/interleaver/interleaver2d.py:build_2d_interleave_sp", "semantic_codec/interleaver/interleaver2d.py:interleave", "semantic_codec/interleaver/interleaver2d.py:deinterleave"]}
{"id": "C137", "title": "Candidates after a burst of lost packets", "statement": "When the packet corruptor builds its own order for c*4^m packets and only packets of one aligned group of 4^k are lost, where 2^(m-k) groups of bits fill an instruction, every candidate of an address differs from a previous one at most in one group of bits, the same for the whole address, and in the first bit of the instruction.", "quantifier": "for all programs, c, m, k, group sizes and lost packets of the burst", "why_tests_cant": "It composes packing, loss prediction and candidate generation for every size and every program.", "anchors": ["semantic_codec/corruption/corruptors.py:PacketCorruptor.corrupt", "semantic_codec/corruption/corruption.py:predict_corruption", "semantic_codec/interleaver/interleaver2d.py:build_2d_interleave_sp"]}
{"id": "C138", "title": "Better evidence never gives a lower score", "statement": "Take two candidates judged by the same rules (both branches, both push/pop, or both neither) with probabilities as evidence of the same kinds, each piece of the first at most that of the second. Then the final score of the first is at most that of the second, and the score that decides removal is at most that of the second when the second is a defined instruction; in a scored program this holds for any two candidates, at the same or at different addresses.", "quantifier": "for all candidates, all evidence in [0,1], all programs and collected counters covered by their candidates", "why_tests_cant": "The score has shortcuts (a certain piece gives 1, an impossible one gives 0) beside a product; that they never invert an order concerns every pair of evidence.", "anchors": ["semantic_codec/metadata/recuperator.py:probabilistic_rules", "semantic_codec/metadata/recuperator.py:probabilistic_rules_remove_step", "semantic_codec/architecture/instruction.py:Instruction.score"]}
{"id": "C139", "title": "Exactly which programs the constraint problem accepts", "statement": "A complete choice of one instruction for each address that has candidates is accepted by the built problem exactly when each condition, opcode and storage occurs in it as often as in the original; so every rearrangement of a solution over the addresses is accepted, other candidates do not matter, two originals have the same solutions exactly when they have these statistics in common, and when fewer addresses have candidates than the original has defined instructions nothing is accepted.", "quantifier": "for all originals, all corrupted programs and all complete choices", "why_tests_cant": "It describes the whole set of solutions for every program, including choices nobody would write as a test.", "anchors": ["semantic_codec/solution/solution_builders.py:ProblemBuilder.build", "semantic_codec/solution/solution_builders.py:ExactFieldSumConstraint", "semantic_codec/metadata/collector.py:MetadataCollector.collect"]}
{"id": "C140", "title": "More candidates never make the reported solution space smaller", "statement": "When one program has at each address at most as many candidates as another, the size and the count reported for it are at most those of the other; the size is zero exactly when every address has one candidate; a finished recovery never reports a larger size than there was before, the same size only if no address lost a candidate, and never size zero. (False for the count.)", "quantifier": "for all programs whose addresses have candidates, and all recoveries that keep the originals", "why_tests_cant": "It compares all pairs of programs, and the measure before and after every recovery.", "anchors": ["semantic_codec/solution/solution_quality.py:SolutionQuality.solution_size", "semantic_codec/solution/solution_quality.py:SolutionQuality.solution_count", "semantic_codec/metadata/recuperator.py:ProbabilisticRecuperator"]}
{"id": "C141", "title": "The dominator tree answers dominance, and how the trees of related graphs compare", "statement": "One gets from a block down the dominator tree to a block that can be reached exactly when the first is on every path from the root to the second; everything that can be reached is below the root, and two blocks above the same block are one above the other. More edges in the control flow graph never add a dominator. The order in which the blocks and edges are listed changes neither the immediate dominators, nor the edges of the tree, nor the frontiers, nor which blocks get a merge function of which register.", "quantifier": "for all finite control flow graphs with consistent edges whose reachable blocks have reachable predecessors, all pairs of graphs where one has the edges of the other, all orders of listing, all instructions", "why_tests_cant": "It compares all pairs of graphs and quantifies over all paths, of which there are infinitely many in a loop.", "anchors": ["semantic_codec/static_analysis/dominators.py:build_dominator_tree", "semantic_codec/static_analysis/ssa.py:build_dominance_frontier", "semantic_codec/static_analysis/ssa.py:place_phi_nodes"]}
{"id": "C142", "title": "Exhaustive corruption composes and does not tell the original", "statement": "Corrupting any of the listed words in the same ranges lists the same words, so apart from their order the candidates do not tell which of them was the instruction. A range corrupted in two parts, the second in every result of the first, gives the words of the whole range, each once; corrupting some ranges and then others in every result gives the words of corrupting all at once, so the order of corruptions does not matter, nor does the order of the ranges; more ranges never lose a word.", "quantifier": "for all words, all ranges of bits, all lists of ranges inside the allowed bits, all orders", "why_tests_cant": "It relates the results of all sequences of corruptions of all words.", "anchors": ["semantic_codec/corruption/corruption.py:corrupt_all_bits", "semantic_codec/corruption/corruption.py:corrupt_all_bits_tuples"]}
{"id": "C143", "title": "The Huffman size reported is within one bit for each part of the information of the program", "statement": "The size reported for a program (or a text) is at least its information, the sum over its parts of the logarithm to base two of the inverse of the share of the part, and exceeds it by less than one bit for each part. It is exactly the information when, and only when, all shares are powers of one half.", "quantifier": "for all programs and ways of taking them apart that give some part, and all texts that are not empty", "why_tests_cant": "It bounds the result for all distributions of parts by a real-valued function; tests compare with single numbers.", "anchors": ["semantic_codec/compressor/huffman.py:huffman_size", "semantic_codec/compressor/huffman.py:freq_info", "semantic_codec/compressor/huffman.py:encode"]}
{"id": "C144", "title": "Which bits of the program a packet carries, and what is gone with it", "statement": "For two programs of the same length, a packet carries the same bits of both exactly when they agree on the groups of bits whose number, modulo the number of packets, is the place of the packet in the order. So different programs differ in some packet, also when the last round of packets is not complete; changing one bit changes exactly one packet; and programs that agree on what the packets that arrive carry are read back as the same bits with the same errors.", "quantifier": "for all pairs of programs of the same length, all orders of packets without repetition, all group sizes dividing 32, all patterns of losses that can be read back", "why_tests_cant": "It compares all pairs of programs and all losses.", "anchors": ["semantic_codec/interleaver/interleaver2d.py:interleave", "semantic_codec/interleaver/interleaver2d.py:deinterleave"]}
{"id": "C145", "title": "More candidates never strengthen the evidence of a candidate", "statement": "When every candidate of a corrupted program is a candidate of another at the same address, the evidence from counting conditions, opcodes and registers, and the score, that a candidate gets in the second is never larger than in the first. (False for the score: the evidence from neighbours can grow.)", "quantifier": "for all original programs, function tables and pairs of corrupted programs over the same addresses that can be scored", "why_tests_cant": "It compares the scoring of all pairs of programs of which one is more corrupted.", "anchors": ["semantic_codec/metadata/recuperator.py:ProbabilisticRecuperator._compute_conditional", "semantic_codec/metadata/recuperator.py:ProbabilisticRecuperator._compute_opcode", "semantic_codec/metadata/recuperator.py:ProbabilisticRecuperator._compute_registers", "semantic_codec/metadata/recuperator.py:ProbabilisticRecuperator._compute_proper_cfg"]}
{"id": "C146", "title": "The names of blocks and registers do not matter to the merge functions", "statement": "When the blocks of a flow graph and the registers of its instructions are called otherwise, and the blocks and edges are listed in any order, the dominator tree, the dominance frontiers and the merge functions are those of the original graph under the new names.", "quantifier": "for all rooted flow graphs in which every predecessor of a block that can be reached can be reached, all bijections of block names and of register names, and all instructions", "why_tests_cant": "It compares the results on all pairs of graphs that differ by a bijection of names.", "anchors": ["semantic_codec/static_analysis/dominators.py:build_dominator_tree", "semantic_codec/static_analysis/ssa.py:build_dominance_frontier", "semantic_codec/static_analysis/ssa.py:place_phi_nodes"]}
{"id": "C147", "title": "How the statistics of a program, its corruptions and their parts compare", "statement": "When the original instruction is a candidate of every address, the counter of a condition, opcode or register over the corrupted program is its counter over the original plus the number of addresses where only a wrong candidate has it; without corruption the two are equal. Taking candidates away never raises a counter, the order of addresses and candidates does not matter, the counters of a program in two parts are the sums of those of the parts, and none exceeds the number of addresses.", "quantifier": "for all programs, all corrupted programs over the same addresses, and all conditions, opcodes and registers; an instruction lists a register once", "why_tests_cant": "It relates the results of two collectors on all pairs of programs.", "anchors": ["semantic_codec/metadata/metadata_collector.py:MetadataCollector.collect", "semantic_codec/metadata/metadata_collector.py:CorruptedProgramMetadataCollector.collect"]}
{"id": "C148", "title": "Compressing again, in another order and with more positions", "statement": "Swap compression of what swap compression returned, with the same positions, returns the same bytes. When every position is listed once, the order of the positions does not matter to swap and shift compression, and listing more positions never leaves a bit set that was cleared with fewer.", "quantifier": "for all lists of 32-bit words, all lists of positions and all positive shifts", "why_tests_cant": "It compares the results of all pairs of calls.", "anchors": ["semantic_codec/compressor/shiftcompressor.py:SwapCompressor.compress", "semantic_codec/compressor/shiftcompressor.py:ShiftCompressor.compress"]}
{"id": "C149", "title": "Probabilities can be combined in stages, and bounds of the result", "statement": "The union of independent events is the union of the unions of any two parts of the list, and one minus the intersection of the opposite events; the same for intersections. For probabilities the union is at most the sum and at least the intersection, it is 1 exactly when an event is certain and 0 exactly when all are impossible, the intersection is 0 exactly when an event is impossible and 1 exactly when all are certain, and likelier events never have a less likely union or intersection.", "quantifier": "for all non-empty lists of numbers (bounds: of probabilities) of any length", "why_tests_cant": "The enumeration of subsets grows exponentially with the list; tests cover a few short lists.", "anchors": ["semantic_codec/probability/probabilities.py:indep_events_union", "semantic_codec/probability/probabilities.py:indep_intersection"]}
{"id": "C150", "title": "What is read from two receptions of the same packets", "statement": "When the packets of a program are received twice with different losses, a reception of the packets that arrived in one or the other reads, bit by bit, the one or the other, and reports the errors that both report; a reception of the packets that arrived in both reads the one and the other and reports the errors of either. When every packet arrives in one of the two and the packets are all equally full, the two together are the program and no position is reported in both.", "quantifier": "for all programs, orders of packets, group sizes dividing 32 and losses with the same last packet that arrives", "why_tests_cant": "It relates the results of three calls for all pairs of losses.", "anchors": ["semantic_codec/interleaver/interleaver2d.py:interleave", "semantic_codec/interleaver/interleaver2d.py:deinterleave"]}
{"id": "C151", "title": "A bit of the program shows in no other place of what is read", "statement": "When two programs of the same length are sent in the same order and lose the same packets, the same errors are reported, as many words are read, and what is read differs exactly in the bits in which the programs differ, as far as the packet that carries the bit arrives and the bit lies in a round that is read. In particular programs that differ in one bit are read with a difference in no other bit.", "quantifier": "for all pairs of programs of the same length, orders of packets, group sizes dividing 32 and losses", "why_tests_cant": "It compares the results for all pairs of programs, bit by bit.", "anchors": ["semantic_codec/interleaver/interleaver2d.py:interleave", "semantic_codec/interleaver/interleaver2d.py:deinterleave"]}
{"id": "C152", "title": "The candidates that two receptions of the same program have in common", "statement": "When a program with one instruction at every address is corrupted for two losses that have no packet in common, the original is the only candidate at an address that both have.", "quantifier": "for all programs, orders of packets, group sizes dividing 32 and pairs of losses", "why_tests_cant": "It intersects the candidates of two calls for all pairs of losses.", "anchors": ["semantic_codec/corruption/corruptors.py:PacketCorruptor.corrupt", "semantic_codec/corruption/corruption.py:predict_corruption"]}
{"id": "C153", "title": "The names of the packets do not matter", "statement": "When a program is sent in two orders with as many packets and the packets in the same places of the orders are lost, the same words are read and the same errors are reported. The errors predicted of a loss, and the candidates made for it, are the same when the packets are given other names, different ones for different packets.", "quantifier": "for all programs, pairs of orders, group sizes dividing 32, losses and injective renamings", "why_tests_cant": "It compares the results for all namings of the packets.", "anchors": ["semantic_codec/interleaver/interleaver2d.py:deinterleave", "semantic_codec/corruption/corruption.py:predict_corruption", "semantic_codec/corruption/corruptors.py:PacketCorruptor.corrupt"]}
{"id": "C154", "title": "Packet-loss corruption sees the addresses only through their order", "statement": "When two programs have the same instructions in the same order of addresses, whatever the addresses are and in whatever order the dictionaries list them, the loss of the same packets makes the same candidates for an address of the one and the address in its place in the other. The candidates for an address do not depend on the instructions at other addresses.", "quantifier": "for all programs, monotone changes of addresses, listings of the dictionary, orders of packets, group sizes dividing 32 and losses", "why_tests_cant": "It compares the results for all pairs of programs that differ in their addresses only.", "anchors": ["semantic_codec/corruption/corruptors.py:PacketCorruptor.corrupt"]}
{"id": "C155", "title": "What is read after a loss is among the candidates made for the loss", "statement": "When packets are lost, every word that is read from the packets that arrive, with zeros in the place of what is lost, is among the candidates that packet-loss corruption makes for the address of the word.", "quantifier": "for all programs, orders of packets that are equally full, group sizes dividing 32 and losses without the last packet", "why_tests_cant": "It relates deinterleaving and corruption for all programs and losses.", "anchors": ["semantic_codec/interleaver/interleaver2d.py:deinterleave", "semantic_codec/corruption/corruptors.py:PacketCorruptor.corrupt"]}
{"id": "C156", "title": "The candidates made from what is received are those made from the original", "statement": "Packet-loss corruption of a program whose words are replaced by any of their candidates makes the same candidates. So the receiver of a program, who has only the words that are read, with zeros in the place of what is lost, gets by packet-loss corruption of these words the candidates that corruption of the original gives.", "quantifier": "for all programs, orders of packets that are equally full, group sizes dividing 32 and losses without the last packet", "why_tests_cant": "It relates deinterleaving and two corruptions for all programs and losses.", "anchors": ["semantic_codec/corruption/corruptors.py:PacketCorruptor.corrupt", "semantic_codec/interleaver/interleaver2d.py:deinterleave"]}
{"id": "C157", "title": "How many different candidates a loss makes", "statement": "At an address with one instruction, packet-loss corruption makes as many different candidates as the bits of the word that are lost have values: two for one lost bit, four for two, and so on.", "quantifier": "for all programs, orders of packets, group sizes dividing 32 and losses", "why_tests_cant": "It counts the results for all programs and losses.", "anchors": ["semantic_codec/corruption/corruptors.py:PacketCorruptor.corrupt"]}
