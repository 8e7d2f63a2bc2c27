# Formal model of semantic-recovery: design

`/repo` is read as text only; nothing of it is built, run or changed.
`/verif/lean` is a Lake project with a Lean 4 model of the Python code, small
independent specifications, and machine checked proofs of the properties in
`properties.jsonl`.

## Layout

| path | contents |
|---|---|
| `lean/Verif/Model/` | executable model, one file per Python module, every definition cites file and lines |
| `lean/Verif/Spec/` | small specifications that do not mention the model |
| `lean/Verif/Proof/` | helper lemmas |
| `lean/Verif/Props/` | the property theorems, `Cnn_...` or, for graphs, a descriptive name, with a concrete case beside each |
| `MANIFEST.json` | property -> status, theorems, note |
| `seeded/LOG.jsonl` | deliberate edits of the model, and which theorems noticed |

Two statuses occur. *proved*: the property as worded in `properties.jsonl`,
under the hypotheses listed in the table below. *partial*: the property as
worded is false of the code, or only part of it is proved. In the first case the
negation is proved with a concrete witness (`..._refuted...`) and the part that
holds is proved under a name ending in `_partial`, or as an exact description of
what the code does.

## Trusted base

* The Lean 4.33.0 kernel (the proofs are replayed by `vcheck`).
* The axioms `propext`, `Quot.sound` and `Classical.choice` of Lean. No other
  axiom is declared or used; no `sorry`, no `native_decide`, no `bv_decide`, no
  `implemented_by`, no `unsafe`. The table "Axioms" below lists each property
  theorem with the axioms it depends on.
* Mathlib, only as checked by the kernel.
* The reading of the Python source: that the definitions in `Model/` say what the
  cited lines do. This is not checked by a machine. The conventions are stated
  next, and each model file opens with its own simplifications.
* The specifications in `Spec/` and the statements in `Props/`: that they say
  what `properties.jsonl` says in words.

## Conventions of the model

* Python exceptions are values: a function that can raise returns
  `Py a = Except Err a`; the constructor of `Err` is the exception class. State
  left behind by an exception is not modelled except for files being written
  (C27) where it matters.
* Python integers that are never negative in the code are `Nat`, others `Int`.
* Python floats are exact rationals (`Rat`), or exact reals for logarithms;
  rounding is outside the model. Where only the result of a rounded operation
  matters (number of instructions to corrupt, order of the packing, square root)
  it is a parameter about which nothing, or only what is listed, is assumed.
* Loops with an unknown number of turns take fuel; `none` means "still running".
  Theorems either produce fuel that suffices (termination) or speak about every
  run that has ended.
* Mutable objects become explicit state that is passed and returned. Object
  identity, where the code relies on it, becomes an index or an explicit value.
* `random` is a list of raw draws consumed by the model; theorems quantify over
  the list. A run that has consumed all draws returns `none` (has not finished).
* `dict` is an association list in insertion order.
* External packages are parameters or small definitions of their documented
  effect: Capstone and darm (what they answer about an encoding is arbitrary
  data), `numpy` arrays (lists), `heapq` (popping takes the least entry),
  `pygraph.digraph` (nodes and edges in insertion order, `AdditionError` for
  repetitions and missing ends), `python-constraint` (`Domain.hideValue` is
  `list.remove`), `json` (objects with decimal keys), `struct` (little endian
  bytes, `struct.error` out of range), `bitarray` (bits of a byte from the
  highest).

## What is modelled

| Python file | lines modelled | model file |
|---|---|---|
| `semantic_codec/architecture/bits.py` | all | `Bits`, `BitQueue` |
| `semantic_codec/architecture/instruction_modifier.py` | all field editors, `modify_register` (darm a parameter) | `Modifier` |
| `semantic_codec/architecture/instruction.py` | all but the abstract methods | `Instruction`, Recuperator (`_add_score`) |
| `semantic_codec/architecture/capstone_instruction.py` | all but `encodings_to_inst` (which always raises TypeError: it calls the constructor without an address) | `Instruction` |
| `semantic_codec/architecture/arm_instruction.py` | all | `ArmInstruction` |
| `semantic_codec/architecture/darm_instruction.py` | 43-159 | `ArmInstruction`, `DarmInstruction` |
| `semantic_codec/architecture/arm_constants.py` | the constants in use | in the files that use them |
| `semantic_codec/architecture/disassembler_readers.py` | 46-143 | `Readers` |
| `semantic_codec/architecture/functions.py` | all | `Rules` |
| `semantic_codec/interleaver/interleaver2d.py` | all | `Packing`, `Interleave`, `Blaum` |
| `semantic_codec/corruption/corruption.py` | all | `Json`, `Corruption`, `Predict` |
| `semantic_codec/corruption/corruptors.py` | all | `PacketCorruptor`, `Corruptors` |
| `semantic_codec/compressor/huffman.py` | 20-168 | `Huffman`, `FreqChange`, `HuffmanScripts` |
| `semantic_codec/compressor/shiftcompressor.py` | all | `Compressor` |
| `semantic_codec/probability/probabilities.py` | all | `Probability` |
| `semantic_codec/metadata/metadata_collector.py` | all | `Metadata` |
| `semantic_codec/metadata/probabilistic_rules/*.py` | all rules that do something | `Rules` |
| `semantic_codec/metadata/recuperator.py` | `Recuperator`, `ProbabilisticRecuperator` as it runs, and `_instruction_range_probs` and `_prob_of_a`, which are not called (`_pmf_register_distance` has an empty body) | `Rules`, `Recuperator`, `Neighbours` |
| `semantic_codec/metadata/probabilistic_model.py` | the constants in use | `Rules`, `Recuperator` |
| `semantic_codec/solution/solution_builders.py` | 27-260 | `Constraint`, `ForwardBuilder` |
| `semantic_codec/solution/solution_io.py` | all | `SolutionIO` |
| `semantic_codec/solution/solution_quality.py` | all, the text of the printed lines aside | `SolutionQuality`, `QualityReport` |
| `semantic_codec/static_analysis/cfg.py` | all but printing | `Cfg`, `DecodedProgram` |
| `semantic_codec/static_analysis/dominators.py` | all | `Dominators` |
| `semantic_codec/static_analysis/ssa.py` | all | `Frontier`, `Ssa`, `DecodedProgram` |
| `semantic_codec/report/print_progress.py` | all but decoration of the text | `Report` |
| `semantic_codec/distributed/qos_functions.py` | all | `Report` |
| `recover_program.py` | all | `Recovery`, `RunRecovery`, `Corruptors` |
| `store_packets.py` | 43-72 | `StorePackets`, `StoreScript`, `Predict` |
| `address_sorting.py` | 1-31 | `StorePackets` |
| `libs/dot/dotio.py` | 37-259, up to what is handed to pydot | `Dot` |
| `huffman_improver.py` | 22-40, the program being any | `HuffmanScripts` |
| `comparefiles.py` | all, the files being any | `CompareScript` |
| `collect_metrics.py` | 12-47, up to the bars of the charts | `MetricsScript` |

Not modelled: drawing (pydot, custom printers of blocks,
`ploteample.py`, `print_hammand_graph.py`), command-line scripts without logic of
their own (`capstonetest.py`, argument parsing), the network client
`distributed/modifier.py`, empty classes (`freq_increase.py`, `rle_improver.py`,
`common_substr_creator.py`, `value_dependency.py`), log and progress text,
Capstone and darm themselves, Python's recursion limit and memory limits.

## Per property: what is modelled, how it is proved

| id | property | status | file | method | notes |
|---|---|---|---|---|---|
| C01 | Bit-range copy is exact | proved | `Props/Bits` | bit extensionality (`Nat.testBit`) |  |
| C02 | Bit predicates mean what they say | proved | `Props/Bits` | bit extensionality (`Nat.testBit`) |  |
| C03 | Instruction field editors change one field only | proved | `Props/Bits` | from C01; sequences of edits by induction on the list |  |
| C04 | Immediate editor respects the addressing form | proved | `Props/Bits` | from C01; sequences of edits by induction on the list |  |
| C05 | Bit queue is a first-in first-out queue | proved | `Props/Bits` | refinement of the queue to a list of bit groups; invariant by induction on the history |  |
| C06 | Bit queue emptiness test is accurate | proved | `Props/Bits` | refinement of the queue to a list of bit groups; invariant by induction on the history |  |
| C07 | Bit queue serialisation | proved | `Props/Bits` | refinement of the queue to a list of bit groups; invariant by induction on the history |  |
| C08 | Bit queue works for every advertised word size | partial | `Props/Bits`, `Props/Straddle`, `Props/QueueExact` | refinement of the queue to a list of bit groups; invariant by induction on the history | False of the code for every word size not dividing 32 (C08_refuted); holds for the sizes dividing 32. For every size C08_exact gives all values handed back, C08_contents the words, and C08_distinguishes which contents have the same words. |
| C09 | Successive packing lays every index out once | proved | `Props/Packing` | induction on the order: cell contents in closed form |  |
| C10 | Interleaving order is a permutation of the packets | proved | `Props/Packing` | strong induction on the number of packets; the logarithm is a parameter with `4^n <= p` | The floating-point logarithm is a parameter; only 0 <= n and 4^n <= p is assumed of it. |
| C100 | An encoding that cannot be disassembled answers no query | proved | `Props/DarmInstruction` | case analysis | C100_darm is the same for the DARM wrapper, where even whether it is a push cannot be asked. |
| C101 | Every edge of the control-flow graph is a possible transfer of control | partial | `Props/CfgEdges` | loop invariant: every edge is of a listed kind; kept by new blocks, splits and growing blocks | False of the code: the instruction before a branch keeps being the current block, so it is linked to the one after the branch although the branch is always taken (C101_over_refuted; in every program, C101_over), and a jump back to a guarded instruction leads past its conditional node (C101_past_refuted). C101_edges_partial lists the kinds of edges there are, for every program. |
| C102 | Drawing a graph loses no node and no edge | partial | `Props/Dot`, `Props/Tight3` | induction over the edges with the keys seen; texts of blocks start with their number | False of the code: edges are told apart by the texts of their ends joined by a hyphen, so texts with hyphens and nodes with the same text lose edges (C102_hyphen_refuted, C102_same_text_refuted); an attribute called like a parameter of pydot raises TypeError. C102_write_partial says for every graph which edges are drawn; with different texts without hyphens everything is drawn (C102_digraph, C102_graph), and so it is for every control flow graph, although their texts have hyphens (C102_cfg, C102_build). |
| C103 | Reading the drawing of a graph gives the graph back | partial | `Props/Dot`, `Props/Tight3` | induction over the drawn nodes and edges | False of the code: weights are lost unless they are asked for, and then edges without a label get their weight as label (C103_weight_refuted). C103_read_back_partial says exactly what comes back. pydot is taken to hand back the nodes, edges and attributes it was given. |
| C104 | Reading the drawing of a hypergraph gives the hypergraph back | partial | `Props/Dot`, `Props/Tight3`, `Props/DotColors` | induction over the drawn nodes and edges | False of the code: read makes a digraph of it (C104_read_refuted), and when a hyperedge has the name of a node read_hypergraph raises (C104_name_refuted). With different names read_hypergraph gives everything back. |
| C105 | No possible transfer of control is missing from the control-flow graph | partial | `Props/CfgExact` | a picture of the graph of a sequence, by beginnings and ends of nodes; loop invariant: the graph is as the picture of the instructions so far says; the picture changes with one more instruction as the graph does | False of the code: a condition of the last group that does not hold leads nowhere (C105_end_refuted; in every program, C105_end), calls of a known place or that open a group do not come back (C105_return_refuted; exactly when, C105_return), and jumps forward have no edge (C65). C105_covered_partial and cfg_straight (C84) are the transfers that are there. |
| C106 | The control-flow graph is determined by the instructions | proved | `Props/CfgExact` | a picture of the graph of a sequence, by beginnings and ends of nodes; loop invariant: the graph is as the picture of the instructions so far says; the picture changes with one more instruction as the graph does | For every program for which building returns, which is every one with enough instructions (C63). |
| C107 | Which definition a read or a merge parameter of the SSA form names | proved | `Props/SsaExact` | the index on top of the stack of a register, if there is one, is always the last one given, since the rollback takes from the other end; so the indices count the definitions along the preorder walk of the dominator tree; dead merge functions are never the last definition before a read | For programs in which no instruction object occurs twice in the reachable blocks, when building raises nothing. C61 and C88 ask for more and are false. |
| C108 | The Huffman report on a text | proved | `Props/HuffmanScripts` | the table counts the text; the size of a table of counts is the number of bits of the message; C31, C32 |  |
| C109 | The Huffman improver reports a smaller register size | partial | `Props/HuffmanScripts` | C34, C32 and C97 put together | False of the code: the script ends in an AttributeError when there is a register to try (C109_refuted), and otherwise prints the first size again (C109_case_same). C109_improver_partial says exactly which of the two, and that the printed sizes are the least ones. |
| C11 | Successive packing separates bursts | proved | `Props/Packing` | induction on the order: cell contents in closed form |  |
| C110 | What comparing disassembled programs prints | proved | `Props/CompareScript` | induction on the lines, then on the files |  |
| C111 | What the metrics script prints and draws | proved | `Props/MetricsScript` | C35 and C77; induction on the printed lines | matplotlib is external: a chart is the list of its bars. |
| C112 | The SSA form of every control flow graph can be built | partial | `Props/SsaTrace` | renaming is simulated by the number of names of every storage; the numbers are counts of steps; induction on the walk of the dominator tree | False of the code: leaving a block rolls back the last block it dominates, which has already rolled itself back if it dominates nothing, so the names of a storage can run out (C112_refuted). C112_exact says exactly when building succeeds and which exception is raised otherwise, from the order of definitions, uses and rollbacks. C112_built_partial: nothing is raised when no block with a merge function both dominates nothing and comes last below its immediate dominator. The limit on the depth of recursion is not modelled. |
| C113 | The distance rule gives the mean of the best shares of what a candidate reads | partial | `Props/Distance` | the scores of the storages only grow, so the loop is a maximum over all earlier candidates; induction on the way back | False of candidates that write several storages: only the storage written last is considered (C113_refuted). C113_exact says exactly what is given to every candidate; C113_mean_partial is the claim for programs whose candidates write at most one storage. Distances of 2^63-1 and more are left out. |
| C114 | A finished recovery leaves candidates in the order of their likelihood | proved | `Props/Tight4` | every report sorts, the builder only removes; the lists are followed address by address | Stated of the end of the script, after the passes. |
| C115 | A program can be analysed from its instructions to the graph of its values | partial | `Props/Pipeline` | compose the theorems on the graph, its reduction and the SSA form; without branches every block is met by its neighbour and by what meets the neighbour, so the last child never dominates nothing | False of the code: RuntimeError when a block that can be reached has a predecessor that cannot (C115_runtime_refuted), and IndexError when the names of a storage run out (C115_index_refuted). C115_exact says exactly when each of these happens; C115_values says what the graph holds whenever it is given; C115_straight_partial: nothing is raised for a program without branches, whatever its conditions. The limit on the depth of recursion is not modelled. |
| C116 | Listings are read or rejected as a whole, line by line | proved | `Props/ReaderErrors` | every text step is inverted: splitting, stripping, digits; the fold fails at its first failing step | Lines are given as the file iterator gives them, never empty; texts are ASCII. |
| C117 | Random corruption can end exactly when enough instructions are within reach | proved | `Props/CorruptEnds` | counting the addresses left to hit; every unfinished choice of bits can be completed | The floating-point product is a parameter; the statement is about possibility, no probabilities are modelled. |
| C118 | The share of candidates of a kind is a probability | proved | `Props/Neighbours` | counting the candidates | A helper that the passes do not call. What a candidate answers is a parameter. |
| C119 | Evidence from a range of neighbours | partial | `Props/Neighbours` | the loop as a filter over the distances; a mean lies below the largest | A helper that the passes do not call. False as described: negative distances are instructions after the address (C119_negative_refuted), and the scores are averaged instead of added (C119_union_refuted). What it gives is C119_exact; every number is positive and at most the largest score. |
| C12 | Interleaving distributes the data round-robin | proved | `Props/Interleave` | loop invariants over queues, through C05 |  |
| C120 | The uniform distribution has total probability one | proved | `Props/Uniform` | closed form of the sum | Numbers are exact rationals; rounding is outside the model. Division is that of Python 3. |
| C121 | The order of the candidates does not matter to the recovery | proved | `Props/RunAgain` | C42 exactly: the stages of the passes depend on the candidates as sets only | As long as no original is lost. If one is lost, it is lost in both orders; what else happens then is not compared. |
| C122 | Recovering again changes nothing | proved | `Props/RunAgain` | C42 exactly: the last stage is a fixed point | For programs whose originals can be decoded and use no register twice. |
| C123 | Losing more packets never takes a candidate away | partial | `Props/LossCompose` | C15 and C24 give the words from the lost bits; sets of bits compose | False of the code when the longer list starts with a packet that comes later in the order: the prediction stops with the first listed packet. Proved when the first packet of the longer list comes no later than that of the shorter. |
| C124 | Losing packets one after the other is losing them at once | proved | `Props/LossCompose` | C15 and C24 give the words from the lost bits; sets of bits compose | For group sizes dividing 32. |
| C125 | Writing a solution that was read gives the same file | proved | `Props/Rewrite` | C26 and C28, applied twice |  |
| C126 | The worst place and the measures that are printed | proved | `Props/QualityReport` | fold invariant: the first largest element so far | Depths are exact rationals. |
| C127 | Where the program is loaded does not matter | proved | `Props/Relocate` | every function of the scoring, the report and the pruning commutes with the move; induction over the loop | The original program is given by its counters; probabilities are exact rationals. |
| C128 | Coding programs together never saves bits, and bounds of the size | proved | `Props/HuffmanBounds` | optimality (C32): the code of the whole is a code for each part; explicit codes of equal length |  |
| C129 | Names of conditions, opcodes and registers do not matter to the recovery | proved | `Props/Rename` | the exact counts and distances (C35, C36, C37) do not change under renaming; then every function of the scoring commutes with it | Candidates are the answers they give; probabilities are exact rationals. |
| C13 | Deinterleaving undoes interleaving | partial | `Props/Interleave` | loop invariants over queues, through C05 | False of the code for a single packet and for an incomplete last round (refutations); holds for at least two packets and whole rounds. |
| C130 | Saving a program that was loaded | proved | `Props/Resave` | a loaded program has distinct addresses and instructions at their address, so C25 applies; decimal digits without leading zero are determined by their value | JSON text is taken as the object json.load gives for it, with pairs in file order; keys are decimal digits. |
| C131 | Exactly which bytes are a solution file, and writing what was read | proved | `Props/ReadableFiles` | induction over the entries: four bytes determine their number, reading is a fold over the entries, and the fold is the meaning |  |
| C132 | The Huffman sizes of related programs | proved | `Props/HuffmanRelated` | from minimality (C32): a code of one program gives a code of the other |  |
| C133 | Which decoded programs can be analysed, and what the analysis is told | proved | `Props/DecodedProgram` | case distinction on what is asked of an instruction; induction over operands and positions; the graph itself by C115 | What Capstone says of an encoding is given. The storages are asked for before the SSA form is built, which only matters to which of two exceptions is raised. |
| C134 | Where decoded instructions are loaded does not matter to their analysis | partial | `Props/DecodedMoved` | every answer of an instruction is the same or moves along; the first position with an address is unique | False of the code in one point: the immediate of an instruction such as add pc, pc, #4 is taken for an address. Proved for all programs in which no such immediate is an address of the program. |
| C135 | What the recovery uses of the original program and of the function table | proved | `Props/RecoveryFrame` | congruence of every evidence in the lookups it makes; the candidates of a pass are among those before, so the agreement is kept by the loop |  |
| C136 | A burst of lost packets damages bits that are far apart | proved | `Props/Burst` | closed form of the order for c squares of one size; the column of a packet decides the number of its groups modulo 2^(m-k) | For c*4^m packets, for which the code computes the logarithm m; with other numbers of packets the rows of smaller squares stand between the others. |
| C137 | Candidates after a burst of lost packets | proved | `Props/BurstRecovery` | C15, C24 and C136 composed | The first bit is there because the code attributes a lost last bit of an instruction to the next one (see C15). |
| C138 | Better evidence never gives a lower score | proved | `Props/ScoreOrder` | monotone factors in [0,1]; the two shortcuts are monotone too |  |
| C139 | Exactly which programs the constraint problem accepts | proved | `Props/ProblemExact` | C44 for each constraint and C35 for its table; the counts are invariant under permutation | The search over choices is done by the package constraint and is not modelled; accepted means that the three constraints answer true. |
| C14 | Deinterleaving with losses damages only the lost groups | proved | `Props/Interleave` | loop invariants over queues, through C05 | Read in rounds of the last surviving packet; patterns outside the hypothesis raise (C14_rejections). |
| C140 | More candidates never make the reported solution space smaller | partial | `Props/SpaceOrder` | products of positive numbers are monotone and strictly so; the recovery keeps a subset at each address (C41, C42) | True of the size (over the reals). False of the count: it adds powers for each number of candidates, so one more candidate can lower it from 8 to 7 (C140_refuted; C50_count_exact says what it is). Repeated candidates of an address count separately. |
| C141 | The dominator tree answers dominance, and how the trees of related graphs compare | proved | `Props/DomRelated` | the closure of immediate dominators is dominance, by induction on the length of a path; the rest compares the specifications of C57, C58 and C59 of two graphs |  |
| C142 | Exhaustive corruption composes and does not tell the original | proved | `Props/CorruptCompose` | agreeing outside a set of bits is an equivalence, and the composition of two is agreeing outside the union; with C17 and C18 | Ranges of several tuples must not reach past bit 31, as the code demands (C18). |
| C143 | The Huffman size reported is within one bit for each part of the information of the program | proved | `Props/Entropy`, `Props/EntropyExact` | Kraft inequality of prefix-free codes with log x ≤ x - 1 for the lower bound; the lengths rounded up meet it, and merging is no dearer (C32) for the upper | Logarithms are over the reals. |
| C144 | Which bits of the program a packet carries, and what is gone with it | proved | `Props/PacketBits` | C12 and C14 for two programs; lists of groups of equal length are determined by their concatenation | The losses are those for which deinterleaving does not raise (C14). |
| C145 | More candidates never strengthen the evidence of a candidate | partial | `Props/MoreCandidates` | C85 of both programs; the number of addresses with a property grows with the candidates; the score by a counterexample | True of the evidence from counting conditions, opcodes and registers. False of the score: the evidence from neighbours is a share of the candidates there, and one more candidate of the same condition raises it (C145_refuted). |
| C146 | The names of blocks and registers do not matter to the merge functions | proved | `Props/DomRename` | paths, dominance, frontiers and iterated frontiers commute with a bijection of names; the rest compares the specifications of C57, C58 and C59 of the two graphs |  |
| C147 | How the statistics of a program, its corruptions and their parts compare | proved | `Props/CountRelated` | C35 and C37 say what the counters are; the addresses with a property split into those whose original has it and the others | What Capstone answers about an instruction is an arbitrary field of the instruction. |
| C148 | Compressing again, in another order and with more positions | proved | `Props/CompressRelated` | the bits of the bytes of bits are the bits; clearing twice is clearing once; sorting forgets the order of different keys; the rest from C71 | Positions are below bit 32 of their word. Which positions are cleared is C71. |
| C149 | Probabilities can be combined in stages, and bounds of the result | proved | `Props/UnionStages` | from the closed form of C29 and C30, by induction on the list | Floats are exact rationals. |
| C15 | Loss prediction agrees with real losses | partial | `Props/Predict` | loop invariant gives the exact output; compared with C14 | False of the code at word ends and for unordered loss lists; C15_exact gives the exact prediction. |
| C150 | What is read from two receptions of the same packets | proved | `Props/TwoReceptions` | C14 says what is read from each; groups and zeros are joined group by group | The losses are those for which deinterleaving does not raise (C14), with the same last packet that arrives, which fixes how much is read. |
| C151 | A bit of the program shows in no other place of what is read | proved | `Props/ReadLocal` | the bits of what C14 says is read, one by one | The losses are those for which deinterleaving does not raise (C14). |
| C152 | The candidates that two receptions of the same program have in common | partial | `Props/TwoLosses` | a bit guessed for both losses is lost in both or lies next to a boundary of words | False of the code for the first bit of a word after the first: the lost last bit of a word is guessed in the first bit of the next. Proved for all other bits, for the first word, and when no lost packet carries the last bit of a word; the common candidates are characterised exactly. |
| C153 | The names of the packets do not matter | proved | `Props/PacketNames` | C14 says that only the places of the lost packets count; positions in a renamed order | Reading: the losses are those for which deinterleaving does not raise (C14). Candidates: the order is given, since an empty order is replaced by one that is built. |
| C154 | Packet-loss corruption sees the addresses only through their order | proved | `Props/LossPlaces` | C24 counts words in the sorted list of addresses; a monotone image of a sorted list is sorted |  |
| C155 | What is read after a loss is among the candidates made for the loss | partial | `Props/ReadCandidate` | C14 and C15 give the same lost bits; they are compared bit by bit | False of the code when the last bit of a word is one and is lost: it is read as zero but never changed in a candidate. Proved exactly: the word that is read is a candidate exactly when this is not the case. |
| C156 | The candidates made from what is received are those made from the original | partial | `Props/ReceivedCandidates` | agreement outside the lost bits is an equivalence; the rest from C155 | The first sentence is proved as stated. The second is false of the code when the last bit of a word is one and is lost, and proved of all other words. |
| C157 | How many different candidates a loss makes | partial | `Props/CandidateCount` | the words that agree outside a set of bits are counted by induction on the set | False of the code when the last bit of a word is lost. Proved when no lost packet carries the last bit of a word and the first listed packet comes first in the order; the count is exact for all losses in terms of the bits that are guessed. |
| C16 | Lattice interleaving matrix is well formed | proved | `Props/Blaum` | arithmetic on the lattice with truncated remainder | The rounded square root is an arbitrary parameter. |
| C17 | Exhaustive range corruption is exhaustive | proved | `Props/Corruption` | set equality and `Nodup` of the enumeration loops; draws as a list |  |
| C18 | Exhaustive multi-range corruption is exhaustive | proved | `Props/Corruption` | set equality and `Nodup` of the enumeration loops; draws as a list | Ranges reaching bit 31 inclusive of the end are rejected by the code; the theorem covers that branch. |
| C19 | Random bit corruption stays inside its field | proved | `Props/Corruption` | set equality and `Nodup` of the enumeration loops; draws as a list |  |
| C20 | Random bit corruption flips the requested number of bits | partial | `Props/Corruption` | set equality and `Nodup` of the enumeration loops; draws as a list | False of the code for every amount of three or more bits (C20_refuted); holds up to two bits. C20_exact says which words are listed for every amount: the combinations of the first, second, fourth, eighth, ... chosen position. |
| C21 | Random distribution never exceeds the budget | proved | `Props/Corruption` | invariants over the list of draws |  |
| C22 | Random program corruption keeps the original program | proved | `Props/Corruption`, `Proof/CorruptProgram`, `Props/CorruptInstruction`, `Props/Tight4` | invariants over the list of draws | Statements about every run that returns; the floating-point product is a parameter. |
| C23 | Impossible percentages are rejected | partial | `Props/Corruption`, `Props/CorruptEnds` | invariants over the list of draws | False of the code: the guard never fires. What happens instead is exact: nothing is ever raised, and the call can return exactly when enough instructions are within reach. |
| C24 | Packet-loss corruption is complete and precise | proved | `Props/PacketCorruptor` | grouping loop invariant plus C18 | Relative to the predicted bits (C15). Candidates may repeat (C24_duplicates). |
| C25 | Saving and loading a corrupted program is lossless | proved | `Props/Json`, `Props/Tight2` | decimal round trip of the keys | The JSON text itself is external; decimal keys are modelled. |
| C26 | Binary solution files can be read back | proved | `Props/SolutionIO` | codec lemmas, prefix argument |  |
| C27 | Truncated or foreign solution files are rejected | proved | `Props/SolutionIO` | codec lemmas, prefix argument |  |
| C28 | Writing fails loudly when the original is missing | proved | `Props/SolutionIO` | codec lemmas, prefix argument |  |
| C29 | Union of independent events is computed exactly | proved | `Props/Probability` | invariant of the stack of combinations, over `Rat` | Floats are exact rationals. |
| C30 | Combined probabilities are probabilities | proved | `Props/Probability` | invariant of the stack of combinations, over `Rat` | Floats are exact rationals. |
| C31 | Huffman codes are prefix free | proved | `Props/Huffman` | forest invariants; exchange argument against every prefix-free code | heapq is external: popping takes the least entry. |
| C32 | Huffman size is minimal | proved | `Props/Huffman` | forest invariants; exchange argument against every prefix-free code |  |
| C33 | Huffman sizes ignore the tie-breaking | proved | `Props/Huffman` | forest invariants; exchange argument against every prefix-free code |  |
| C34 | Frequency tables count exactly | proved | `Props/Huffman` | fold invariants |  |
| C35 | Original metadata counts are exact | proved | `Props/Metadata` | fold invariants over the collector state | What Capstone answers about an instruction is an arbitrary field of the instruction. |
| C36 | Register distances are consistent | proved | `Props/Metadata` | fold invariants over the collector state | Floats are exact rationals. |
| C37 | Corrupted metadata counts addresses | proved | `Props/Metadata` | fold invariants over the collector state |  |
| C38 | Field evidence is a probability | proved | `Props/Recuperator`, `Props/Tight3` | counting argument: originals with a field are at most the addresses with a candidate having it | For a program that contains its originals and whose functions lie inside it; floats are exact rationals. |
| C39 | Scores never leave [0,1] | proved | `Props/Recuperator` | counting argument: originals with a field are at most the addresses with a candidate having it | Precondition: the functions handed over are those of the program. Outside the claim: once an original is discarded a later pass can raise (C39_refuted_later_pass), and a missing function table raises KeyError (C39_refuted_no_functions). |
| C40 | Pruning one address keeps exactly the best candidates | proved | `Props/Recovery` | list induction; the number of candidates decreases |  |
| C41 | Recovery terminates | proved | `Props/Recovery`, `Props/Recuperator` | list induction; the number of candidates decreases | The scoring of a pass is an arbitrary function that keeps the candidates (proved of the real one under C74/C39). Termination includes ending with an exception; C41_complete_recovery_crashes shows when that is certain. |
| C42 | Recovery never discards the original instruction | partial | `Props/Recuperator`, `Props/PassExact`, `Props/RunExact` | counting argument: originals with a field are at most the addresses with a candidate having it | False for push/pop and when a candidate uses a proper part of the original registers; otherwise proved for any number of passes. C42_pass_exact says exactly which candidates a pass discards on every program that contains its originals, and C42_exact when the original is among them; C42_run_exact says exactly what a whole run leaves, how many passes it takes and when it has kept every original. |
| C43 | Recovery report adds up | partial | `Props/Recovery` | list induction over addresses | False of the code for a fully recovered program (division by zero); proved whenever some address still has several candidates. |
| C44 | Count constraint decides complete programs exactly | proved | `Props/Constraint` | counting of assigned values | All tables of required counts, all variables, with or without forward checking. |
| C45 | Count constraint prunes soundly | proved | `Props/Constraint` | counting of assigned values | Completions take values from the domains; the domains hold each value once. |
| C46 | Forward checking hides only hopeless values | partial | `Props/Constraint`, `Props/ConstraintExact` | counting of assigned values | The hiding is sound in every call that does not raise. "Never fails" is false: a value exceeding two counts is hidden twice and the second hideValue raises ValueError (C46_refuted; in general C46_fails_in_general). It never fails when no value exceeds more than one count, in particular for the condition and opcode constraints. Exactly when it raises and what it leaves is C46_exact and C46_raises_iff. |
| C47 | The true program is a solution of the built problem | proved | `Props/Constraint`, `Props/Tight` | counting of assigned values | Addresses of the original program are distinct and are those of the candidate program. |
| C48 | Forward-constraint construction never loses the original | proved | `Props/ForwardBuilder`, `Props/Tight`, `Props/Tight2` | invariant: remaining counters cover the remaining originals | Assumed: distinct addresses; a candidate printed like the original answers like it; registers are among storages. Undefined originals are skipped by the code and may lose their candidate. The queue builder is covered up to 2^32 candidates per address. |
| C49 | A solution identifies the program | partial | `Props/ForwardBuilder`, `Props/QueueExact` | mixed-radix argument for powers of two | False as stated for both encodings (three witnesses). Proved: the sequence of indexes used identifies the program, and the queue does when all numbers of candidates are powers of two and the indexes fit in 32 bits. C49_queue_exact says for all programs exactly when two originals get the same queue. |
| C50 | Solution-space measures are correct | partial | `Props/SolutionQuality`, `Props/Tight7` | sums of logarithms; rank in a sorted list | The size is proved, on exact reals. The count is false (a sum over lengths instead of a product): proved only when all addresses have equally many candidates; what it is for every program is C50_count_exact. After the depth has been asked for, the size raises TypeError and the count is None (C50_after_depth). |
| C51 | Endianness reversal is an involution and its two forms agree | proved | `Props/Instruction` | arithmetic on words | Texts of exactly eight hexadecimal digits. |
| C52 | Branch targets follow the ARM definition | proved | `Props/Instruction` | arithmetic on words |  |
| C53 | Register lists are decoded completely | proved | `Props/Instruction` | arithmetic on words |  |
| C54 | Register usage splits into reads and writes | partial | `Props/Instruction`, `Props/UsageExact` | list lemmas over the operands; cache invariant | No repetition and the split into reads and writes are proved. False: push does not write the stack pointer; R0 as memory base or index is not listed. |
| C55 | Storage queries are stable | proved | `Props/Instruction` | list lemmas over the operands; cache invariant | Callers do not mutate the returned lists. C55_branch_pc records that a branch writes the program counter without using it. |
| C56 | Branch resolution finds the target | proved | `Props/Instruction` | list lemmas over the operands; cache invariant | The target is the first immediate operand, as Capstone reports it. |
| C57 | Dominator computation is correct | proved | `Props/Dominators` | Lengauer-Tarjan: depth-first tree invariants, semidominator theorem, evaluation with path compression replaced by the ancestor walk of the code, second pass | Lengauer-Tarjan as written: search, semidominators (compared by depth), links, buckets, second pass and tree. For graphs where a reachable block other than the root has an unreachable predecessor, RuntimeError is proved. The blocks are as newly made; the recursion limit of Python is not modelled. |
| C58 | Dominance frontiers are exact | proved | `Props/Frontier` | through C57; closure of the work list | From the graph, through the dominator tree. A block that cannot be reached gets the root if it leads to it. |
| C59 | Merge functions are placed on the iterated frontier | proved | `Props/Frontier` | through C57; closure of the work list | Placement for given frontiers, and composed with the two earlier constructions: iterated dominance frontier of the writing blocks, for registers some block reads before writing. |
| C60 | Every SSA name is assigned once | proved | `Props/Ssa` | induction on the dominator tree with a counter invariant | For every renaming that ends without an exception; composed with dominators, frontiers and placement. Renaming can raise IndexError (ssa_rollback_error). |
| C61 | SSA reads see the reaching definition | partial | `Props/Ssa` | induction on the dominator tree with a counter invariant | False of the code: the indices are rolled back for the wrong block and from the wrong end of the stack (ssa_read_wrong, ssa_rollback_error). Proved: for every read whose value comes from its own block (an earlier instruction or a merge function of it), and on the way from the root that takes first branches of the dominator tree. Exactly which name a read carries is C107. |
| C62 | Value dependency graph is exact | proved | `Props/Ssa` | induction on the dominator tree with a counter invariant | Nodes, edges, and that nothing is raised. |
| C63 | Control-flow graph partitions the instructions | proved | `Props/Cfg` | invariants of the list of blocks while building | Includes that building raises nothing, and the index error when more instructions are asked for than there are. |
| C64 | A branch ends its block | partial | `Props/Cfg`, `Props/CfgExact` | invariants of the list of blocks while building | False of the code: a branch that starts a conditional group is followed in its block by instructions with the same condition (cfg_branch_inside). Proved: a branch is first in its block, and alone in it when it is set apart; C64_exact says exactly when it is followed by another instruction. |
| C65 | Resolvable jumps become edges | partial | `Props/Cfg`, `Props/CfgEdges`, `Props/CfgExact` | invariants of the list of blocks while building | False of the code: pending jumps are stored under the branch instead of the target, so forward jumps leave no edge (cfg_forward_lost), in no program unless the target is the next instruction of the same group (C65_forward). The edge of a jump back can leave from another block, cut off from that of the jump later (C65_moved_refuted). Proved: backward jumps of branches that are set apart; for the others see C105_covered_partial. |
| C66 | Removing conditional nodes preserves reachability | proved | `Props/Cfg` | one-node contraction preserves reachability; induction | Every graph without repeated nodes or edges; exact edges and reachability. |
| C67 | Function listings are read completely | proved | `Props/Readers`, `Props/Tight` | induction on the lines | Listings are function tables followed by sections in any number; creation of instructions is a parameter. |
| C68 | Program representations convert without loss | proved | `Props/Rules` | sorting and fold lemmas | Distinct addresses assumed where the map is involved; an example shows that instructions are lost otherwise. |
| C69 | Progress bar ends once | proved | `Props/Report` | state machine invariants over histories | For every total, start, bar length and non-negative printing distance. |
| C70 | Mock quality function has period three | proved | `Props/Report` | state machine invariants over histories |  |
| C71 | Swap compression keeps the size and clears only listed bits | partial | `Props/Compressor` | exact bit list of the output | The exact effect is proved; listed bits are counted from the other end than documented and the first listed position is never cleared. |
| C72 | Shift compression removes every listed group | partial | `Props/Compressor`, `Props/ShiftExact` | exact bit list of the output | Holds from the second group on; refuted for the first. Exactly what is removed, overlapping groups included, is C72_exact: groups that overlap take the bits that follow them as well (C72_overlap_case). |
| C73 | Rules report change accurately | partial | `Props/Rules`, `Props/Tight2` | frame lemmas per rule | Full for the control-flow and the three counting rules. False of the distance rule: changes to ignored candidates are not reported, and a second run may report a change though nothing differs. |
| C74 | Rules never change the candidate set | proved | `Props/Rules` | frame lemmas per rule |  |
| C75 | Mixed-radix address numbering is injective | proved | `Props/StorePackets` | division with remainder |  |
| C76 | Stored packets cover the program | partial | `Props/StorePackets` | case analysis of the length modulo four through C10 | Holds for lengths that are positive multiples of four; for every other length it is false, and the failure is proved: remainder 1 visits packet 0 twice, remainder 2 or 3 raises TypeError, length 0 raises IndexError. |
| C77 | The instruction space list is exact | proved | `Props/Metadata` | fold invariants over the collector state |  |
| C78 | Highest depth is the worst rank of an original | partial | `Props/SolutionQuality`, `Props/Tight4`, `Props/Tight5` | sums of logarithms; rank in a sorted list | Proved when no candidate encodes to zero, encodings at an address differ and different scores differ by at least 1e-9. False with a zero encoding (C78_refuted). What the depth is for every program is C78_exact. |
| C79 | Instructions are built from 32-bit encodings only | proved | `Props/ArmInstruction` | arithmetic on words |  |
| C80 | The older ARM decoder reports fields and registers | partial | `Props/ArmInstruction` | bit fields; case analysis on the type bits | Fields and registers used are proved exactly for all encodings. The split into read and written holds for single loads and stores and most data processing; multiple transfers raise TypeError, branches and moves ValueError. |
| C81 | The DARM decoder lists registers once | partial | `Props/ArmInstruction`, `Props/Tight7` | bit fields; case analysis on the type bits | The lists are given exactly, with the exact condition for a repetition. False with a register list and another written register: everything is listed twice. |
| C82 | Functions and instructions of a text listing agree | proved | `Props/Readers` | induction on the lines | Characters are ASCII for white space and words. |
| C83 | Only dead merge functions are removed | proved | `Props/Ssa` | induction on the dominator tree with a counter invariant |  |
| C84 | Straight-line flow is covered by the control-flow graph | proved | `Props/Cfg` | invariants of the list of blocks while building |  |
| C85 | The evidence of a candidate is the documented statistic | proved | `Props/Evidence` | inversion of the scoring loop; each kind of evidence against its own specification | Whenever scoring returns; floats are exact rationals. When it does return is C38. |
| C86 | The removal score is the product of the evidence of its kind | partial | `Props/Evidence` | inversion of the scoring loop; each kind of evidence against its own specification | False for pushes and pops that do not branch: their evidence is stored as popu and read as pupo, and the missing register evidence counts as zero, so they score zero unless condition or opcode is certain. Proved for all others. |
| C87 | The SSA form has exactly the merge functions it needs | proved | `Props/SsaMerge` | induction on the dominator tree with a counter invariant | For graphs in which every predecessor of a reachable block can be reached and end blocks have no successors, when building raises nothing. |
| C88 | A merge function has one parameter for each incoming edge | partial | `Props/SsaMerge` | induction on the dominator tree with a counter invariant | Number and register of the parameters proved in general. False of the code: beyond the first branch the parameters can name a definition that does not reach (merge_params_wrong). Which definition they name is proved for edges from blocks on the way from the root that takes first branches of the dominator tree; exactly which one in general is C107. |
| C89 | Which candidates the repeated deprecated recovery excludes | partial | `Props/OldRecuperator` | each turn changes one address; induction over turns and passes | The exact exclusions are proved. False of the code: the original instruction can be excluded, and with it all candidates of an address (C89_original_excluded). |
| C90 | Forward construction removes exactly the candidates that can no longer be right | proved | `Props/ForwardExact` | the remaining counters are exactly the counts over the originals not visited; invariant over the log | The last candidate of an address is kept by the code whether it fits or not; this is part of the property. |
| C91 | The scores the deprecated rules give | partial | `Props/RuleValues`, `Props/Tight`, `Props/Tight6` | fold invariants for the counts, closed forms of the sums | The formulas are proved exactly. False of the code in one point: a sole remaining candidate is not counted as settled if an excluded candidate comes first (C91_sole_not_settled). Conditions from 0 to 15; numbers are rationals. |
| C92 | The condition of an instruction | proved | `Props/ArmInstruction` | bit fields; case analysis on the type bits | What the disassembler reports is an assumption of the theorem. |
| C93 | A completed recovery run leaves two readable solutions | proved | `Props/RunRecovery` | each stage keeps candidates a part of those before; the invariant of C42 through the loop, C48 for the enumeration, C26 and C28 for the files | Whenever the run completes; no assumption about the disassembler or the corruptor except that addresses are distinct. |
| C94 | A recovery run ends, keeps every original and can only fail in a report | partial | `Props/RunRecovery`, `Props/RunStages`, `Props/RunFiles` | each stage keeps candidates a part of those before; the invariant of C42 through the loop, C48 for the enumeration, C26 and C28 for the files | Proved when the evidence does not speak against an original (no push or pop that does not branch, no candidate using only some of its registers, see C42). False otherwise (C94_lost_refuted: the original is discarded and the final file is cut short). A program that is recovered completely has no final file (C94_recovered_refuted). C94_files says of every run which files it leaves. C94_exact replaces the assumption by the exact one: a run completes only if no stage of the rule of C42 loses an original, and then it ends as claimed. |
| C95 | A saved corruption can be replayed | partial | `Props/Corruptors` | C22, C24 and C25 compose; a single lost packet hits a word at most five times, so C94 applies | Proved for random corruptors with a path and packet corruptors made with one. False for a random corruptor as made by default (it raises after it has changed the program, C95_default_refuted) and for a packet corruptor whose path is set later, as the main program does (nothing is saved, C95_path_set_later_refuted). |
| C96 | Every corruptor's result can be recovered, and the main program leaves a solution | partial | `Props/MainProgram`, `Props/MainStages` | C22, C24 and C25 compose; a single lost packet hits a word at most five times, so C94 applies | Main program: proved for listings of at least 97 instructions where the evidence does not speak against an original, and exactly for those where no stage of the rule of a pass loses an original (C96_main_exact, see C94); with fewer there is no packet 3 and it raises before anything is written (C96_small_refuted). |
| C97 | Making frequent parts more frequent ends, tries the documented replacements and keeps the counts | partial | `Props/FreqChange`, `Props/Tight` | induction on the nested loops; each trial is described by the calls it adds | Proved for changers that never report more to change: it ends, and its calls and the table are described exactly. False otherwise: it need not end (C97_more_refuted), the table loses one at every accepted change (C97_total_refuted), positions are compared with part numbers, so parts with large numbers are never tried and a part may be replaced by itself or a less frequent one (C97_large_untried, C97_case_accepted), and changing registers always raises when there is something to try (C97_registers_refuted). |
| C98 | Storing packets writes the program and the program without the lost packets | partial | `Props/StoreScript` | C71 and C76 compose; the predicted positions in closed form by induction on the rounds | False of the code: one bit of each pair of a lost packet is kept, as are the pairs at the end of a word and the first pair (C98_half_kept_refuted, C98_exact); programs of fewer than 20 words raise IndexError and those whose length leaves remainder 2 or 3 by four raise TypeError. C98_exact says exactly which bits are cleared. |
| C99 | The DARM wrapper reports the storages of an instruction | partial | `Props/DarmInstruction`, `Props/Tight` | the split of the text by induction; cache invariant by induction on the queries | False of stores: memory is looked for in the text before the first comma, where a store has its register, so a store is reported to read memory and not to write it (C99_store_refuted); pushes and pops of one register have no comma and touch no memory (C99_one_register_refuted). Everything else holds; the storages are described exactly by the text. |

## Where the code and the property disagree

Each line is proved, by the theorem named.

* C08: word sizes that do not divide 32 lose bits (`C08_refuted`); the queue
  counts whole words.  What is stored and handed back instead: `C08_contents`,
  `C08_exact`.
* C13: with an incomplete last round, or with a single packet,
  deinterleaving returns other data (`C13_refuted`, `C13_single_refuted`,
  `C13_incomplete_round`).
* C15: the last bit of a word is predicted as the first bit of the next one
  (`C15_refuted`), and the prediction stops with the first listed packet, so that
  the last round is missed when that packet is late in the order
  (`C15_order_refuted`); `C15_exact` says what is predicted.
* C18: a range `(l, 32)` is rejected although its end is exclusive, so that bit 31
  can never be corrupted this way.
* C20: for three or more bits not all combinations are made (`C20_refuted`): the
  inner loop doubles `j` and uses it both as a mask and as an index, so only the
  chosen bits number 1, 2, 4, ... are ever flipped (`C20_exact`: exactly those words are
  made).
* C23: the guard `0 > x > 100` is satisfied by no number; a negative percentage
  corrupts one instruction, and asking for more addresses than there are never
  returns (`C23_refuted`).
* C24: candidates can repeat (`C24_duplicates`): instructions have no `__eq__`,
  so `not in` compares identities.
* C39: after an original has been discarded a later pass can raise
  (`C39_refuted_later_pass`); without a function table the pass raises
  `KeyError` (`C39_refuted_no_functions`).
* C41: when everything has been recovered the loop ends with the
  ZeroDivisionError of C43 (`C41_complete_recovery_crashes`).
* C42: an original push can be given score zero and be discarded
  (`C42_refuted_push`); a wrong candidate that uses only some of the registers of
  the original can be taken as certain, and the original is discarded
  (`C42_refuted_registers`).  Exactly when: `C42_exact` for a
  pass, `C42_run_exact` for a whole run.
* C43: the report divides by the number of unrecovered addresses
  (`C43_crash`, `C43_refuted`).
* C46: a value exceeding two counts is hidden twice and the second
  `hideValue` raises `ValueError` (`C46_refuted`, `C46_fails_in_general`).
* C49: number and queue encodings are not injective (`C49_refuted_enumerator`,
  `C49_refuted_queue`, `C49_refuted_straddle`).  Which originals share a queue:
  `C49_queue_exact`.
* C50: the count adds where it should multiply (`C50_count_refuted`); after the
  depth has been asked for the size raises (`C50_after_depth`).
* C54: push is not reported to write the stack pointer (`C54_push_refuted`); R0
  as memory base or index is taken for "no register" (`C54_r0_refuted`, exactly what is missing:
  `C54_missing_exact`).
* C55: a branch writes the program counter without using it
  (`C55_branch_pc`).
* C57: a reachable block with an unreachable predecessor makes the dominator
  computation raise `RuntimeError` (`dominator_tree_unreachable`).
* C61: after a block the indices of the wrong block are rolled back, from the
  wrong end of the stack (`ssa_read_wrong`); this can end in `IndexError`
  (`ssa_rollback_error`).
* C88: for the same reason parameters of merge functions can name a definition
  that does not reach the edge (`merge_params_wrong`).
* C64: a conditional branch that opens a group of instructions with the same
  condition is not last in its block (`cfg_branch_inside`).
* C65: pending jumps are stored under the branch instead of the target: forward
  jumps leave no edge (`cfg_forward_lost`).  A block is cut with its outgoing edges left to
  the lower part, so the edge of a jump back can leave from a block the jump is not in
  (`C65_moved_refuted`).
* C71: bits are counted from the highest of each byte, elsewhere in the package
  from the lowest
  (`C71_convention_refuted`) and the first listed position is never cleared
  (`C71_first_kept`).
* C72: the first listed group is not removed (`C72_refuted`). Groups that overlap remove
  bits after them as well (`C72_exact`, `C72_overlap_case`).
* C73: the distance rule does not report changes of ignored candidates and may
  report a change though nothing differs.
* C76: lengths that are not positive multiples of four visit a packet twice or
  raise (`C76_refuted_one`, `C76_refuted_more`).
* C78: a candidate with encoding zero is skipped (`C78_refuted`).
* C80: multiple transfers raise `TypeError`; branches and moves raise
  `ValueError`; the type test for software interrupts never succeeds
  (`C80_written_refuted`, `C80_read_refuted`, `C80_read_fails`,
  `C80_swi_never`).
* C81: with a register list and another written register everything is listed
  twice (`C81_written_refuted`).
* C85: for a pop the *written* registers of the push at the start of the function
  are compared with those the pop writes, so fitting lists are hardly ever seen
  (the evidence is specified as the code computes it). If the first address of the
  window has no writer of a read register, the search stops and the register counts
  as unwritten.
* C86: push and pop evidence is stored under `popu` and read under `pupo`; in the
  removal step their missing register evidence counts as zero
  (`C86_refuted`).
* C36 was reworded while proving: the distances count the defined instructions
  strictly between a write and the next read.
* C82: `TextDisassembleReader.read` returns instructions and functions in the
  opposite order of `ElfioTextDisassembleReader.read`; the property is about the
  methods that return one of the two.
* C89: the deprecated recuperator with two passes can exclude the original
  instruction, and every candidate of an address with it: an instruction that is
  always executed and follows one that sets the flags gets a negative score
  (`C89_original_excluded`).
* C90: the last candidate of an address is never removed, even if it does not fit
  (the removal loop keeps one candidate in the order of the list).
* C91: an address where only one candidate is left that is not excluded is settled for
  the counting rules only if that candidate is the first of the list; otherwise it
  neither reduces the counts nor is counted as open (`C91_sole_not_settled`).
* C94: a program that is recovered completely makes the report divide by zero, so its
  final solution is never written (`C94_recovered_refuted`); when an original was
  discarded (C42) the final file is left cut short and cannot be read
  (`C94_lost_refuted`).  Exactly which runs can complete: `C94_exact`.
* C95: a random corruptor is told to save by default but has no path, so it raises,
  after it has changed the program in place (`C95_default_refuted`). A packet corruptor
  decides when it is made whether it saves; the main program sets the path later and
  saves nothing (`C95_path_set_later_refuted`), so its other mode, which loads that file,
  has nothing to load.
* C96: the main program loses packet 3, which listings of 96 instructions or fewer do not
  have; it then raises ValueError (`C96_small_refuted`).  On larger listings it completes only
  if no stage of the recovery loses an original (`C96_main_exact`).
* C97: changing registers calls `swap23`, which no class defines, so it raises
  AttributeError at the first register it would try (`C97_registers_refuted`). With
  another changer: one that reports more to change is called with the original
  instruction again and never ends (`C97_more_refuted`); the new part is never counted up,
  so the table loses one at every accepted change (`C97_total_refuted`); the position in
  the list is compared with the number of the part, so parts with large numbers are never
  tried and a part may be replaced by itself (`C97_large_untried`, `C97_case_accepted`).
* C98: the script that stores packets clears one bit, not two, at the start of each pair of
  a lost packet, none in the last two positions of a word and not the first pair
  (`C98_exact`, `C98_half_kept_refuted`). Programs of fewer than 20 words raise IndexError
  (`C98_short_refuted`); lengths with remainder 2 or 3 by four raise TypeError
  (`C98_length_refuted`).
* C99: the DARM wrapper looks for written memory before the first comma of the text, so
  `str r0, [r1]` reads memory and does not write it (`C99_store_refuted`). A push or pop of
  one register touches no memory (`C99_one_register_refuted`).
* C101: the control-flow graph has edges that no execution takes: from the instruction before
  a branch to the one after it (`C101_over_refuted`, `C101_over`), and from a jump back to a
  guarded instruction past its condition (`C101_past_refuted`).
* C109: for the same reason the improver script (`huffman_improver.py`) never reports a smaller
  size: it ends in an AttributeError or prints the first size again (`C109_refuted`,
  `C109_improver_partial`); a program without registers raises an IndexError
  (`C109_no_registers`).
* C105: and it misses transfers of control: to the end when the condition of the last group
  does not hold (`C105_end_refuted`, `C105_end`), and back from calls of known places or that
  open a group (`C105_return_refuted`, `C105_return`).
* C102: edges are drawn once per text of their ends joined by a hyphen: texts with hyphens
  or nodes with the same text, such as two instructions that read the same, lose edges
  (`C102_hyphen_refuted`, `C102_same_text_refuted`).
* C103: weights are not read back unless they were asked for, and then they become labels
  (`C103_weight_refuted`).
* C104: `read` never makes a hypergraph (`C104_read_refuted`); a hyperedge with the name of a
  node makes `read_hypergraph` raise KeyError (`C104_name_refuted`).
* C112: the rollback at the end of `_rename_node` uses the loop variable of the loop over the
  dominated blocks, so it rolls back the last of them again; a block that leads only to
  itself then raises IndexError (`C112_refuted`).
* C113: the better score of a storage is taken over after the loop over the storages written
  (distance_rule.py line 118), so of several storages written only the last is considered
  (`C113_refuted`).
* C115: code after an unconditional branch that nothing leads to stays in the graph, and when
  it leads to code that can be reached the dominator computation raises RuntimeError
  (`C115_runtime_refuted`); a branch to itself followed by a conditional instruction raises
  IndexError (`C115_index_refuted`).
* C119: `_instruction_range_probs` describes negative distances as instructions before;
  they are those after (`C119_negative_refuted`). Its comment adds the probabilities of
  exclusive events, its code takes their mean (`C119_union_refuted`).
* C123: the prediction stops with the packet that is listed first, so a list that starts with
  a later packet loses candidates that a shorter list has (`C123_refuted`).
* C126: `report` after `highest_depth` raises TypeError: `evaluate` stores the `None` returned by
  `_count_solutions` (`C126_report`).
* C134: `jumping_address` takes the first immediate operand of every instruction that writes the
  program counter for an address; for `add pc, pc, #4` it is not one, so the control flow graph
  depends on where the program is loaded (`C134_refuted`).
* C140: one more candidate at an address can lower the reported count (`C140_refuted`).
* C145: one more candidate at a neighbouring address can raise the score of a candidate
  (`C145_refuted`).
* C152: the lost last bit of a word is guessed in the first bit of the next word, so two losses
  without a common packet can have a wrong candidate in common (`C152_refuted`).
* C155: the last bit of a word is never changed in a candidate, so the word read after its loss
  need not be a candidate (`C155_refuted`).
* C156: of a word whose last bit is one and is lost, the candidates made from what is received do
  not contain the original (`C156_refuted`).
* C157: the loss of the last bit of a word makes no candidates for it (`C157_refuted`).

## Testing the theorems

Every model file was edited on purpose in a scratch copy (wrong boundary, missed
case, swapped argument, dropped update) and the project rebuilt.
`seeded/LOG.jsonl` has one line per attempt: the definition, the edit, the claim
that the edit breaks, the theorems that no longer check (those whose own proof
fails and the property theorems that depend on them), and the theorems that were
tightened because of it. Separately, each statement was read for uses of model
helpers that would let a wrong helper go unnoticed; the statements that used any
were rewritten in terms of `Spec/` or plain lists, bits and numbers.

## Axioms

P = `propext`, Q = `Quot.sound`, C = `Classical.choice`.

| theorem | axioms |
|---|---|
| `Verif.C01_copy_bits` | P Q C |
| `Verif.C02_bit_predicates` | P Q C |
| `Verif.C03_field_edits` | P Q C |
| `Verif.C03_edits_commute` | P Q C |
| `Verif.C04_immediate` | P Q C |
| `Verif.C05_queue_is_fifo` | P Q C |
| `Verif.C06_empty_accurate` | P Q C |
| `Verif.C07_get_bytes` | P Q C |
| `Verif.C08_fifo_all_sizes_partial` | P Q C |
| `Verif.C08_refuted` | P |
| `Verif.C08_straddle_exact` | P Q C |
| `Verif.C08_after_straddle` | P Q C |
| `Verif.C08_exact` | P Q C |
| `Verif.C08_contents` | P Q C |
| `Verif.C08_distinguishes` | P Q C |
| `Verif.C09_successive_packing` | P Q C |
| `Verif.C10_order_is_permutation` | P Q C |
| `Verif.C10_no_packets` | P Q C |
| `Verif.logOk_exact` | P Q C |
| `Verif.C10_log_too_big` | P Q C |
| `Verif.C11_burst_separation` | P Q C |
| `Verif.C12_interleave` | P Q C |
| `Verif.C12_groups_are_data` | P Q C |
| `Verif.C12_empty_order` | P Q C |
| `Verif.C13_roundtrip_partial` | P Q C |
| `Verif.C13_incomplete_round` | P Q C |
| `Verif.C13_refuted` | P |
| `Verif.C13_single_refuted` | P Q C |
| `Verif.C14_losses` | P Q C |
| `Verif.C14_rejections` | P Q C |
| `Verif.C15_prediction_partial` | P Q C |
| `Verif.C15_exact` | P Q C |
| `Verif.C15_rejections` | P Q |
| `Verif.C15_no_progress` | P Q |
| `Verif.C15_refuted` | P Q |
| `Verif.C15_order_refuted` | P Q |
| `Verif.C16_blaum` | P Q C |
| `Verif.C16_rejections` | P Q C |
| `Verif.C17_all_bits` | P Q C |
| `Verif.C18_all_bits_tuples` | P Q C |
| `Verif.C18_disjoint` | P Q C |
| `Verif.C19_random_bits` | P Q C |
| `Verif.C19_no_error` | P Q C |
| `Verif.C19_empty_range` | P Q |
| `Verif.C20_all_combinations_partial` | P Q C |
| `Verif.C20_exact` | P Q C |
| `Verif.C20_refuted` | P Q C |
| `Verif.C21_distribute` | P Q C |
| `Verif.C21_exact` | P Q C |
| `Verif.C22_corrupt_program` | P Q C |
| `Verif.C22_corrupt_instruction` | P Q C |
| `Verif.cpLoop_fuel` | P Q C |
| `Verif.C22_instruction_no_error` | P Q C |
| `Verif.C22_instruction_budget` | P Q C |
| `Verif.C22_reaches` | P Q C |
| `Verif.C22_addresses` | P Q |
| `Verif.C22_addresses_case` | P Q C |
| `Verif.C23_refuted` | P Q C |
| `Verif.C117_ends_iff` | P Q C |
| `Verif.C24_packet_loss` | P Q C |
| `Verif.C24_keeps_candidates` | P Q C |
| `Verif.C24_rejections` | P Q C |
| `Verif.C24_duplicates` | P Q C |
| `Verif.C25_save_load` | P Q C |
| `Verif.C25_keys_distinct` | P Q C |
| `Verif.C25_rejections` | P Q |
| `Verif.C25_overflow` | P Q C |
| `Verif.C25_last_counts` | P Q |
| `Verif.C25_last_counts_case` | P |
| `Verif.C26_read_written` | P Q C |
| `Verif.C27_truncated` | P Q C |
| `Verif.C27_crash` | P Q C |
| `Verif.C27_foreign` | P Q C |
| `Verif.C28_write_iff` | P Q C |
| `Verif.C29_union` | P Q C |
| `Verif.C30_probabilities` | P Q C |
| `Verif.C31_prefix_free` | P Q C |
| `Verif.C31_empty` | P Q |
| `Verif.C31_single` | P Q |
| `Verif.C32_minimal` | P Q C |
| `Verif.C32_unknown_symbol` | P Q |
| `Verif.C33_multiset` | P Q C |
| `Verif.C34_frequencies` | P Q C |
| `Verif.C35_counts` | P Q C |
| `Verif.C35_accumulates` | P Q C |
| `Verif.C36_distances` | P Q C |
| `Verif.C36_exists` | P Q C |
| `Verif.C36_attained` | P Q C |
| `Verif.C36_order` | P Q C |
| `Verif.C36_untracked` | P Q C |
| `Verif.C37_addresses` | P Q C |
| `Verif.C40_prune` | P Q C |
| `Verif.C40_idempotent` | P Q C |
| `Verif.C41_terminates` | P Q C |
| `Verif.C41_recovery` | P Q C |
| `Verif.C41_complete_recovery_crashes` | P Q C |
| `Verif.C43_report_partial` | P Q C |
| `Verif.C43_categories` | P Q C |
| `Verif.C43_crash` | P Q C |
| `Verif.C43_refuted` | P Q C |
| `Verif.C43_same_encoding` | P Q C |
| `Verif.C43_depths` | P Q C |
| `Verif.C43_depths_distinct` | P Q C |
| `Verif.C77_spaces` | P Q C |
| `Verif.C38_evidence` | P Q C |
| `Verif.C38_errors` | P Q C |
| `Verif.C38_push_pop` | P Q C |
| `Verif.okProg_meets` | P Q |
| `Verif.C39_scores` | P Q C |
| `Verif.C39_final` | P Q C |
| `Verif.C39_refuted_later_pass` | P Q C |
| `Verif.C39_refuted_no_functions` | P Q C |
| `Verif.C42_original_kept_partial` | P Q C |
| `Verif.C42_refuted_push` | P Q C |
| `Verif.C42_refuted_registers` | P Q C |
| `Verif.safe_one` | P Q C |
| `Verif.C42_pass_exact` | P Q C |
| `Verif.C42_exact` | P Q C |
| `Verif.C42_run_exact` | P Q C |
| `Verif.C44_exact` | P Q C |
| `Verif.C45_sound` | P Q C |
| `Verif.C46_hides_hopeless_partial` | P Q C |
| `Verif.C46_no_failure_partial` | P Q C |
| `Verif.C46_single_field` | P Q C |
| `Verif.C46_refuted` | P |
| `Verif.C46_fails_in_general` | P Q C |
| `Verif.C46_exact` | P Q C |
| `Verif.C46_raises_iff` | P Q C |
| `Verif.C46_raises_case` | P Q C |
| `Verif.C47_original_is_solution` | P Q C |
| `Verif.C47_variables` | P |
| `Verif.C48_enumerator` | P Q C |
| `Verif.C48_queue` | P Q C |
| `Verif.C48_stable` | P Q C |
| `Verif.C48_missing` | P Q C |
| `Verif.C49_refuted_enumerator` | P Q C |
| `Verif.C49_refuted_queue` | P Q C |
| `Verif.C49_refuted_straddle` | P Q C |
| `Verif.C49_indexes_identify_partial` | P Q C |
| `Verif.C49_queue_identifies_partial` | P Q C |
| `Verif.C49_queue_contents` | P Q C |
| `Verif.C49_queue_exact` | P Q C |
| `Verif.C50_size` | P Q C |
| `Verif.C50_size_real` | P Q C |
| `Verif.C50_count_partial` | P Q |
| `Verif.C50_count_refuted` | P Q C |
| `Verif.C50_count_overshoots` | P Q C |
| `Verif.C50_after_depth` | P Q C |
| `Verif.C50_count_exact` | P Q C |
| `Verif.C78_depth_partial` | P Q C |
| `Verif.C78_refuted` | P Q C |
| `Verif.C78_again` | P Q C |
| `Verif.C78_errors` | P Q C |
| `Verif.C78_errors_case` | P Q C |
| `Verif.C78_exact` | P Q C |
| `Verif.C78_exact_case` | P Q C |
| `Verif.C51_bytes` | P Q |
| `Verif.C51_involution` | P Q |
| `Verif.C51_rejections` | P |
| `Verif.C51_text` | P Q C |
| `Verif.C52_target` | P Q C |
| `Verif.C53_register_list` | P Q C |
| `Verif.C53_extends` | P Q C |
| `Verif.C54_nodup` | P Q |
| `Verif.C54_read_or_written` | P Q C |
| `Verif.C54_split` | P Q C |
| `Verif.C54_stack_partial` | P Q C |
| `Verif.C54_push_refuted` | P Q C |
| `Verif.C54_operands_partial` | P Q C |
| `Verif.C54_r0_refuted` | P Q C |
| `Verif.C54_unknown_base` | P Q |
| `Verif.C54_exact` | P Q C |
| `Verif.C54_missing_exact` | P Q C |
| `Verif.C54_split_exact` | P Q C |
| `Verif.C55_stable` | P Q |
| `Verif.C55_used` | P Q C |
| `Verif.C55_written` | P Q C |
| `Verif.C55_read` | P Q |
| `Verif.C55_branch_pc` | P Q C |
| `Verif.C56_branch_to` | P Q |
| `Verif.C79_bytes` | P Q |
| `Verif.C80_fields` | P Q C |
| `Verif.C80_used` | P Q C |
| `Verif.C80_load_store_partial` | P Q C |
| `Verif.C80_written_refuted` | P Q C |
| `Verif.C80_read_refuted` | P Q C |
| `Verif.C80_read_fails` | P Q C |
| `Verif.C80_swi_never` | P Q C |
| `Verif.C80_read_multiple` | P Q C |
| `Verif.C81_partial` | P Q C |
| `Verif.C81_written_refuted` | P Q C |
| `Verif.C81_exact` | P Q C |
| `Verif.C81_nodup_iff` | P Q C |
| `Verif.C68_map` | P Q |
| `Verif.C68_roundtrip` | P Q C |
| `Verif.C68_flatten` | P Q C |
| `Verif.C68_agree` | P Q C |
| `Verif.C68_bounds` | P Q |
| `Verif.C69_progress` | P Q C |
| `Verif.C69_final` | P Q C |
| `Verif.C70_period` | P Q |
| `Verif.C73_control_flow` | P Q C |
| `Verif.C73_counting` | P Q C |
| `Verif.C73_distance_partial` | P Q C |
| `Verif.C73_distance_exact` | P Q C |
| `Verif.C73_distance_unreported` | P Q C |
| `Verif.C73_distance_overreported` | P Q C |
| `Verif.C74_distance` | P Q C |
| `Verif.C74_recuperator` | P Q C |
| `Verif.C89_excluded` | P Q C |
| `Verif.C89_original_excluded` | P Q C |
| `Verif.C90_removed` | P Q C |
| `Verif.C90_found` | P Q C |
| `Verif.C91_control_flow` | P Q C |
| `Verif.C91_counting` | P Q C |
| `Verif.C91_counting_missing` | P Q C |
| `Verif.C91_sole_not_settled` | P Q C |
| `Verif.C91_registers` | P Q C |
| `Verif.C91_conditions` | P Q C |
| `Verif.C91_opcodes` | P Q C |
| `Verif.C91_control_flow_alone` | P Q C |
| `Verif.C91_counting_fails` | P Q C |
| `Verif.C91_absent` | P Q C |
| `Verif.C92_condition` | P Q C |
| `Verif.C75_injective` | P Q C |
| `Verif.C75_covers` | P Q |
| `Verif.C75_listings` | P Q C |
| `Verif.C75_lines` | P Q C |
| `Verif.C75_low_listing` | P Q C |
| `Verif.C76_whole_partial` | P Q C |
| `Verif.C76_refuted_one` | P Q C |
| `Verif.C76_refuted_more` | P Q C |
| `Verif.C76_empty` | P Q C |
| `Verif.C67_listing` | P Q C |
| `Verif.C67_no_section` | P Q C |
| `Verif.C67_prefix` | P Q C |
| `Verif.C82_functions_partition` | P Q C |
| `Verif.C82_groups` | P Q C |
| `Verif.C82_instructions` | P Q |
| `Verif.C71_exact` | P Q C |
| `Verif.C71_swap_partial` | P Q C |
| `Verif.C71_rejects` | P Q |
| `Verif.C71_convention_refuted` | P |
| `Verif.C71_first_kept` | P Q C |
| `Verif.C72_shift_partial` | P Q C |
| `Verif.C72_refuted` | P Q C |
| `Verif.C72_exact` | P Q C |
| `Verif.C72_overlap_case` | P Q |
| `Verif.dominator_tree` | P Q C |
| `Verif.dominator_tree_unreachable` | P Q C |
| `Verif.idom_is_unique` | P Q C |
| `Verif.dominance_frontier` | P Q C |
| `Verif.dominance_frontier_early` | P Q |
| `Verif.phi_placement` | P Q C |
| `Verif.phi_placement_early` | P Q |
| `Verif.iterated_end` | none |
| `Verif.phi_on_iterated_frontier` | P Q C |
| `Verif.rename_once` | P Q C |
| `Verif.ssa_names_once` | P Q C |
| `Verif.ssa_read_wrong` | P Q |
| `Verif.ssa_rollback_error` | P Q |
| `Verif.ssa_reads_local_partial` | P Q C |
| `Verif.ssa_reads_merge_partial` | P Q C |
| `Verif.ssa_reads_first_branch_partial` | P Q C |
| `Verif.ssa_reads_exact` | P Q C |
| `Verif.merge_params_exact` | P Q C |
| `Verif.ssa_walk` | P Q C |
| `Verif.value_graph_exact` | P Q |
| `Verif.dead_phi_removal` | P Q |
| `Verif.ssa_merges_exact` | P Q C |
| `Verif.merge_params_count` | P Q C |
| `Verif.merge_params_first_branch_partial` | P Q C |
| `Verif.merge_params_wrong` | P Q |
| `Verif.cfg_partition` | P Q C |
| `Verif.cfg_partition_errors` | P Q C |
| `Verif.cfg_branch_inside` | P Q |
| `Verif.cfg_branch_partial` | P Q C |
| `Verif.C64_exact` | P Q C |
| `Verif.cfg_forward_lost` | P Q |
| `Verif.cfg_backward_partial` | P Q C |
| `Verif.C65_forward` | P Q C |
| `Verif.C65_moved_refuted` | P Q |
| `Verif.cfg_remove_conditionals` | P Q C |
| `Verif.cfg_build_remove` | P Q C |
| `Verif.cfg_straight` | P Q C |
| `Verif.C85_evidence` | P Q C |
| `Verif.C86_score_partial` | P Q C |
| `Verif.C86_refuted` | P Q C |
| `Verif.pushProg_meets` | P Q |
| `Verif.C93_run_sound` | P Q C |
| `Verif.C94_run_partial` | P Q C |
| `Verif.exRun_meets` | P Q |
| `Verif.C94_recovered_refuted` | P Q C |
| `Verif.C94_lost_refuted` | P Q C |
| `Verif.C94_exact` | P Q C |
| `Verif.C94_files` | P Q C |
| `Verif.C95_random_saved_partial` | P Q C |
| `Verif.C95_packet_saved_partial` | P Q C |
| `Verif.C95_rejections` | P Q C |
| `Verif.C95_default_refuted` | P Q C |
| `Verif.C95_path_set_later_refuted` | P Q C |
| `Verif.C96_packets` | P Q C |
| `Verif.C96_random` | P Q C |
| `Verif.C96_replay` | P Q |
| `Verif.C96_main_partial` | P Q C |
| `Verif.C96_main_exact` | P Q C |
| `Verif.C96_small_refuted` | P Q C |
| `Verif.longListing_meets` | P Q C |
| `Verif.plainDec_meets` | P |
| `Verif.plainDec_stages` | P Q C |
| `Verif.C97_trials_partial` | P Q C |
| `Verif.C97_total_refuted` | P Q C |
| `Verif.C97_large_untried` | P Q |
| `Verif.C97_more_refuted` | P Q |
| `Verif.C97_registers_refuted` | P Q C |
| `Verif.C97_case_rejected` | P |
| `Verif.C97_case_accepted` | P |
| `Verif.C97_mock` | P Q |
| `Verif.C97_part_missing` | P |
| `Verif.C98_stored_partial` | P Q C |
| `Verif.C98_exact` | P Q C |
| `Verif.C98_half_kept_refuted` | P Q C |
| `Verif.C98_short_refuted` | P Q C |
| `Verif.C98_length_refuted` | P Q C |
| `Verif.C99_storages_partial` | P Q C |
| `Verif.C99_stable` | P Q |
| `Verif.C99_jump` | P Q C |
| `Verif.C99_store_refuted` | P Q C |
| `Verif.strExample_meets` | P Q C |
| `Verif.C99_one_register_refuted` | P |
| `Verif.C99_push_pop` | P Q C |
| `Verif.C99_encodings` | none |
| `Verif.C100_undefined` | P |
| `Verif.C100_darm` | P Q C |
| `Verif.C101_over_refuted` | P Q |
| `Verif.C101_past_refuted` | P Q |
| `Verif.C101_edges_partial` | P Q C |
| `Verif.C101_over` | P Q C |
| `Verif.C102_write_partial` | P Q |
| `Verif.C102_digraph` | P Q C |
| `Verif.C102_graph` | P Q C |
| `Verif.C102_cfg` | P Q C |
| `Verif.C102_build` | P Q C |
| `Verif.C102_names` | P Q C |
| `Verif.C102_error` | P Q |
| `Verif.C102_hyphen_refuted` | P |
| `Verif.C102_same_text_refuted` | P |
| `Verif.C102_name_refuted` | P |
| `Verif.C103_read_back_partial` | P Q C |
| `Verif.C103_labelled` | P Q C |
| `Verif.C103_exact` | P Q C |
| `Verif.C103_error` | P |
| `Verif.C103_weight_refuted` | P |
| `Verif.C103_cfg` | P Q C |
| `Verif.C104_hypergraph_partial` | P Q |
| `Verif.C104_error` | P |
| `Verif.C104_errors` | P |
| `Verif.C104_unknown_node` | P |
| `Verif.C104_read_refuted` | P Q C |
| `Verif.C104_name_refuted` | P |
| `Verif.C104_colors` | P Q |
| `Verif.C105_end_refuted` | P Q |
| `Verif.C105_return_refuted` | P Q |
| `Verif.C105_covered_partial` | P Q C |
| `Verif.C105_end` | P Q C |
| `Verif.C105_return` | P Q C |
| `Verif.C106_graph` | P Q C |
| `Verif.C106_ends` | P Q C |
| `Verif.C106_blocks` | P Q C |
| `Verif.C108_report` | P Q C |
| `Verif.C108_single` | P Q |
| `Verif.C108_empty` | P Q |
| `Verif.C108_case` | none |
| `Verif.C109_refuted` | P Q |
| `Verif.C109_improver_partial` | P Q C |
| `Verif.C109_no_registers` | P Q C |
| `Verif.C109_case_same` | P Q |
| `Verif.C110_listed` | P Q |
| `Verif.C110_stops` | P Q |
| `Verif.C110_results` | P Q C |
| `Verif.C110_case` | P Q C |
| `Verif.C110_case_stops` | P Q C |
| `Verif.C111_bars` | P Q C |
| `Verif.C111_totals` | P Q C |
| `Verif.C111_lines` | P Q C |
| `Verif.C111_case` | P Q C |
| `Verif.C112_refuted` | P Q C |
| `Verif.C112_exact` | P Q C |
| `Verif.C112_built_partial` | P Q C |
| `Verif.C112_trace_case` | P Q C |
| `Verif.C112_built_case` | P Q C |
| `Verif.C113_exact` | P Q C |
| `Verif.C113_mean_partial` | P Q C |
| `Verif.C113_refuted` | P Q C |
| `Verif.C113_case` | P Q C |
| `Verif.C113_errors` | P Q C |
| `Verif.C113_errors_case` | P Q C |
| `Verif.C114_ordered` | P Q C |
| `Verif.C114_case` | P Q C |
| `Verif.C115_runtime_refuted` | P Q |
| `Verif.C115_index_refuted` | P Q |
| `Verif.C115_exact` | P Q C |
| `Verif.C115_values` | P Q C |
| `Verif.C115_straight_partial` | P Q C |
| `Verif.C115_straight_case` | P Q |
| `Verif.C115_empty` | P Q |
| `Verif.C115_case` | P Q |
| `Verif.C116_number` | P Q |
| `Verif.C116_sections` | P Q C |
| `Verif.C116_instructions` | P Q C |
| `Verif.C116_functions` | P Q C |
| `Verif.C116_functions_case` | P Q C |
| `Verif.C116_text` | P Q C |
| `Verif.C116_case` | P Q C |
| `Verif.C116_text_case` | P Q C |
| `Verif.C117_never_stuck` | P Q C |
| `Verif.C117_stuck` | P Q C |
| `Verif.C117_case` | P Q C |
| `Verif.C118_share` | P Q C |
| `Verif.C118_case` | P Q C |
| `Verif.C119_exact` | P Q C |
| `Verif.C119_probabilities_partial` | P Q C |
| `Verif.C119_negative_refuted` | P Q C |
| `Verif.C119_union_refuted` | P Q C |
| `Verif.C119_case` | P Q C |
| `Verif.C120_total` | P Q C |
| `Verif.C120_shape` | P Q C |
| `Verif.C121_order` | P Q C |
| `Verif.C121_case` | P Q C |
| `Verif.C122_again` | P Q C |
| `Verif.C123_more_losses_partial` | P Q C |
| `Verif.C123_refuted` | P Q C |
| `Verif.C123_goes` | P Q C |
| `Verif.C124_successive` | P Q C |
| `Verif.C124_case` | P Q C |
| `Verif.C125_rewrite` | P Q C |
| `Verif.C125_case` | P |
| `Verif.C126_where` | P Q C |
| `Verif.C126_report` | P Q C |
| `Verif.C126_case` | P Q C |
| `Verif.C127_relocation` | P Q C |
| `Verif.C127_case` | P Q C |
| `Verif.C128_programs` | P Q C |
| `Verif.C128_bounds` | P Q C |
| `Verif.C128_texts` | P Q C |
| `Verif.C128_case` | none |
| `Verif.C129_names` | P Q C |
| `Verif.C129_case` | P Q C |
| `Verif.C130_load_again` | P Q C |
| `Verif.C130_same_file` | P Q C |
| `Verif.C130_case` | P Q C |
| `Verif.C131_readable` | P Q C |
| `Verif.C131_meaning` | P Q C |
| `Verif.C131_rewrite` | P Q C |
| `Verif.C131_same_file` | P Q C |
| `Verif.C131_case` | P |
| `Verif.C132_fewer` | P Q C |
| `Verif.C132_coarser` | P Q C |
| `Verif.C132_repeated` | P Q C |
| `Verif.C132_case` | P Q |
| `Verif.C133_graph` | P Q C |
| `Verif.C133_values` | P Q C |
| `Verif.C133_branch_to` | P Q |
| `Verif.C133_case` | P Q C |
| `Verif.C134_moved_partial` | P Q C |
| `Verif.C134_refuted` | P Q C |
| `Verif.C134_case` | P Q C |
| `Verif.C135_frame` | P Q C |
| `Verif.C135_appended` | P Q C |
| `Verif.C135_functions` | P Q C |
| `Verif.C135_case` | P Q C |
| `Verif.C135_functions_case` | P Q C |
| `Verif.C136_aligned_burst` | P Q C |
| `Verif.C136_burst` | P Q C |
| `Verif.C136_deinterleaved` | P Q C |
| `Verif.C136_one_per_word` | P Q C |
| `Verif.C136_case` | P Q C |
| `Verif.C137_candidates` | P Q C |
| `Verif.C137_case` | P Q C |
| `Verif.C138_final` | P Q C |
| `Verif.C138_removal` | P Q C |
| `Verif.C138_scored` | P Q C |
| `Verif.C138_case` | P Q C |
| `Verif.C138_scored_case` | P Q C |
| `Verif.C139_exact` | P Q C |
| `Verif.C139_rearranged` | P Q C |
| `Verif.C139_candidates` | P Q C |
| `Verif.C139_original` | P Q C |
| `Verif.C139_lost_address` | P Q C |
| `Verif.C139_case` | P Q C |
| `Verif.C140_size_partial` | P Q C |
| `Verif.C140_zero` | P Q C |
| `Verif.C140_recovery` | P Q C |
| `Verif.C140_refuted` | P Q C |
| `Verif.C140_case` | P Q C |
| `Verif.C141_tree` | P Q C |
| `Verif.C141_more_edges` | P Q C |
| `Verif.C141_order` | P Q C |
| `Verif.C141_merge` | P Q C |
| `Verif.C141_case` | P Q C |
| `Verif.C141_case_order` | P Q C |
| `Verif.C142_any_candidate` | P Q C |
| `Verif.C142_any_candidate_tuples` | P Q C |
| `Verif.C142_split` | P Q C |
| `Verif.C142_compose` | P Q C |
| `Verif.C142_order` | P Q C |
| `Verif.C142_more` | P Q C |
| `Verif.C142_case` | P Q |
| `Verif.C143_programs` | P Q C |
| `Verif.C143_texts` | P Q C |
| `Verif.C143_powers` | P Q C |
| `Verif.C143_equality` | P Q C |
| `Verif.C143_equality_texts` | P Q C |
| `Verif.C143_case` | P Q C |
| `Verif.C143_equality_case` | P Q C |
| `Verif.C144_packet` | P Q C |
| `Verif.C144_all_packets` | P Q C |
| `Verif.C144_one_bit` | P Q C |
| `Verif.C144_lost` | P Q C |
| `Verif.C144_case` | P |
| `Verif.C145_counts_partial` | P Q C |
| `Verif.C145_case` | P Q C |
| `Verif.C145_refuted` | P Q C |
| `Verif.C146_blocks` | P Q C |
| `Verif.C146_merge` | P Q C |
| `Verif.C146_names` | P Q |
| `Verif.C146_case` | P Q C |
| `Verif.C147_difference` | P Q C |
| `Verif.C147_uncorrupted` | P Q C |
| `Verif.C147_fewer` | P Q C |
| `Verif.C147_parts` | P Q C |
| `Verif.C147_case` | P Q C |
| `Verif.C148_again` | P Q C |
| `Verif.C148_order` | P Q C |
| `Verif.C148_more` | P Q C |
| `Verif.C148_case` | P |
| `Verif.C149_stages` | P Q C |
| `Verif.C149_bounds` | P Q C |
| `Verif.C149_mono` | P Q C |
| `Verif.C149_case` | P Q C |
| `Verif.C150_either` | P Q C |
| `Verif.C150_both` | P Q C |
| `Verif.C150_program` | P Q C |
| `Verif.C150_case` | P Q |
| `Verif.C151_bit` | P Q C |
| `Verif.C151_one_bit` | P Q C |
| `Verif.C151_words` | P Q C |
| `Verif.C151_case` | P Q |
| `Verif.C152_only_original_partial` | P Q C |
| `Verif.C152_common` | P Q C |
| `Verif.C152_refuted` | P Q C |
| `Verif.C152_case` | P Q C |
| `Verif.C153_read` | P Q C |
| `Verif.C153_candidates` | P Q C |
| `Verif.C153_case` | P Q |
| `Verif.C154_places` | P Q C |
| `Verif.C154_local` | P Q C |
| `Verif.C154_case` | P Q C |
| `Verif.C155_read_partial` | P Q C |
| `Verif.C155_refuted` | P Q C |
| `Verif.C155_case` | P Q C |
| `Verif.C156_received_partial` | P Q C |
| `Verif.C156_any_candidate` | P Q C |
| `Verif.C156_refuted` | P Q C |
| `Verif.C156_case` | P Q C |
| `Verif.C157_lost_bits_partial` | P Q C |
| `Verif.C157_count` | P Q C |
| `Verif.C157_refuted` | P Q C |
| `Verif.C157_case` | P Q C |
