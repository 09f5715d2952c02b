{"id": "C01", "title": "optimize_rewrites preserves verdicts", "statement": "Running the optimize_rewrites command never changes the verdict of any specification: at every time step of every trace that is long enough to decide it, the rewritten formula has the same truth value as the formula the user wrote.", "quantifier": "all MLTL formulas (any size, any intervals, binary connectives), all traces, all times", "why_tests_cant": "The rule set matches on operator pairs and on arithmetic relations between four interval bounds; a finite test suite covers a few bound combinations while a wrong rule can hide in one inequality.", "anchors": ["compiler/c2po/rewrite.py:optimize_rewrites"]}
{"id": "C02", "title": "to_bnf preserves verdicts", "statement": "The to_bnf command never changes the verdict of any specification.", "quantifier": "all MLTL formulas, all traces, all times", "why_tests_cant": "Needs every nesting of every operator over every trace.", "anchors": ["compiler/c2po/transform.py:to_bnf"]}
{"id": "C03", "title": "to_bnf output is in Boolean Normal Form", "statement": "After to_bnf a future-time specification contains only negation, conjunction and until operators (plus atoms and constants).", "quantifier": "all future-time MLTL formulas", "why_tests_cant": "Shape claim over unboundedly nested formulas; includes connectives the implementer may have forgotten.", "anchors": ["compiler/c2po/transform.py:to_bnf"]}
{"id": "C04", "title": "to_nnf preserves verdicts", "statement": "The to_nnf command never changes the verdict of any specification.", "quantifier": "all MLTL formulas, all traces, all times", "why_tests_cant": "Negation is pushed through an unbounded number of levels; each operator has its own dual.", "anchors": ["compiler/c2po/transform.py:to_nnf", "compiler/c2po/cpt.py:preorder"]}
{"id": "C05", "title": "to_nnf output is in Negative Normal Form", "statement": "After to_nnf negation is applied only to literals and no implication or exclusive-or remains.", "quantifier": "all future-time MLTL formulas", "why_tests_cant": "Depends on the traversal order revisiting freshly created nodes, for every shape of formula.", "anchors": ["compiler/c2po/transform.py:to_nnf", "compiler/c2po/cpt.py:preorder"]}
{"id": "C06", "title": "remove_extended_operators preserves verdicts", "statement": "Replacing xor, ->, F, G, O, H by core operators never changes the verdict of any specification, future or past time.", "quantifier": "all MLTL formulas (future and past), all traces, all times", "why_tests_cant": "The monitor executes only the rewritten formula, so one wrong dual would corrupt every monitor built from that operator.", "anchors": ["compiler/c2po/transform.py:remove_extended_operators"]}
{"id": "C07", "title": "remove_extended_operators leaves only operators the monitor implements", "statement": "After remove_extended_operators no xor, implication, F, G, O or H remains and every operator has at most two operands, so the assembler guards hold.", "quantifier": "all programs", "why_tests_cant": "Shape claim over unboundedly nested and arbitrarily wide formulas.", "anchors": ["compiler/c2po/transform.py:remove_extended_operators", "compiler/c2po/cpt.py:has_no_extended_operators", "compiler/c2po/cpt.py:is_only_binary_operators"]}
{"id": "C08", "title": "remove_release_operators preserves verdicts and removes R", "statement": "The remove_release_operators command never changes a verdict and no release operator remains afterwards.", "quantifier": "all MLTL formulas, all traces, all times", "why_tests_cant": "Unbounded nesting and traces.", "anchors": ["compiler/c2po/transform.py:remove_release_operators"]}
{"id": "C09", "title": "multi_operators_to_binary preserves values and bounds arity", "statement": "Converting n-ary &&, ||, + and * to binary form keeps the value of every expression and leaves no operator with more than two operands.", "quantifier": "all expressions with operands of any number, all valuations/traces", "why_tests_cant": "Arity is unbounded; the loop has off-by-one risks at both ends.", "anchors": ["compiler/c2po/transform.py:multi_operators_to_binary"]}
{"id": "C10", "title": "flatten_multi_operators preserves values", "statement": "Flattening nested n-ary operators keeps the value of every expression and the left-to-right order of leaf operands.", "quantifier": "all expressions, all valuations/traces", "why_tests_cant": "Arity and nesting are unbounded and a running arity limit interacts with position.", "anchors": ["compiler/c2po/transform.py:flatten_multi_operators"]}
{"id": "C11", "title": "sort_operands_by_pd preserves values", "statement": "Reordering operands of commutative operators by propagation delay keeps every verdict, is a permutation of the operands, and yields non-decreasing delays.", "quantifier": "all expressions, all traces", "why_tests_cant": "Needs every operand list.", "anchors": ["compiler/c2po/transform.py:sort_operands_by_pd", "compiler/c2po/cpt.py:is_commutative_operator"]}
{"id": "C12", "title": "Temporal unrolling preserves verdicts", "statement": "Unrolling F, G and U to point-interval operators keeps the verdict of every specification.", "quantifier": "all F/G/U formulas, all intervals, all traces, all times", "why_tests_cant": "Interval lengths are unbounded.", "anchors": ["compiler/c2po/cpt.py:unroll_temporal_operators"]}
{"id": "C13", "title": "Interval decomposition preserves verdicts and yields power-of-two intervals", "statement": "decompose_intervals keeps every verdict and every remaining F/G/U interval is a point or has the form [0, 2^n-1].", "quantifier": "all F/G/U formulas, all intervals, all traces, all times", "why_tests_cant": "The greedy split loop must terminate with the exact total for every length.", "anchors": ["compiler/c2po/cpt.py:decompose_intervals"]}
{"id": "C14", "title": "Propagation delays bound the input window", "statement": "The verdict of a specification at time i depends only on the inputs at times i+bpd through i+wpd, where bpd and wpd are the best/worst-case propagation delays the compiler reports.", "quantifier": "all formulas, all pairs of traces, all times", "why_tests_cant": "Quantifies over pairs of infinite traces.", "anchors": ["compiler/c2po/cpt.py:Operator", "compiler/c2po/cpt.py:TemporalOperator"]}
{"id": "C15", "title": "Finite-trace semantics agrees once the trace covers the worst-case delay", "statement": "On a finite trace longer than i+wpd the documented finite-trace MLTL semantics and the unbounded-trace semantics give the same verdict at i.", "quantifier": "all future-time formulas, all finite traces longer than i+wpd", "why_tests_cant": "Quantifies over all traces and all formulas.", "anchors": ["docs/Preliminaries/mltl.md", "compiler/c2po/cpt.py:TemporalOperator"]}
{"id": "C16", "title": "Common sub-expression elimination preserves verdicts", "statement": "optimize_cse never changes the verdict of any specification, and afterwards no two distinct nodes of the same specification set denote the same expression text.", "quantifier": "all programs (expression DAGs with arbitrary sharing), all traces", "why_tests_cant": "Works in place on a shared graph while it is being traversed; correctness depends on an invariant over the traversal.", "anchors": ["compiler/c2po/cse.py:optimize_cse", "compiler/c2po/cpt.py:Expression.replace", "compiler/c2po/cpt.py:postorder"]}
{"id": "C17", "title": "Expression keys are unambiguous", "statement": "Two expressions have the same textual key (used by CSE and by the rewriter to test syntactic equality) only if they are the same expression.", "quantifier": "all pairs of expressions", "why_tests_cant": "Quantifies over all pairs of terms; ambiguity appears only for particular nestings.", "anchors": ["compiler/c2po/cpt.py:to_prefix_str", "compiler/c2po/cpt.py:to_infix_str"]}
{"id": "C18", "title": "Queue regions are disjoint and exactly fill the reported total", "statement": "compute_scq_sizes assigns every formula, temporal-engine node and atomic a queue region; the regions are pairwise disjoint, contiguous from slot 0, and their union has exactly the reported total size.", "quantifier": "all programs", "why_tests_cant": "Pairwise disjointness over arbitrarily many nodes.", "anchors": ["compiler/c2po/scq.py:compute_scq_sizes", "compiler/c2po/assemble.py:gen_ft_scq_instructions"]}
{"id": "C19", "title": "Queue sizes are never negative and cover the sibling delay", "statement": "Every non-constant node gets a queue of at least max(sibling worst-case delay - own best-case delay, 0) + 1 slots.", "quantifier": "all programs", "why_tests_cant": "Depends on every sibling set in the graph.", "anchors": ["compiler/c2po/scq.py:compute_scq_sizes", "compiler/c2po/cpt.py:Expression.get_siblings"]}
{"id": "C20", "title": "Atomic identifiers are distinct", "statement": "compute_atomics gives two different atomic propositions two different identifiers.", "quantifier": "all programs, with and without booleanizer, all signal mappings", "why_tests_cant": "Depends on all combinations of mapped and unmapped signals.", "anchors": ["compiler/c2po/atomics.py:compute_atomics"]}
{"id": "C21", "title": "Generated bounds are large enough for the generated program", "statement": "The array bounds written by the compiler cover every index used by the generated instructions (signals, atomics, instructions, queue slots, temporal operators).", "quantifier": "all programs and signal mappings", "why_tests_cant": "An index that exceeds its bound appears only for particular mappings; the consequence is memory corruption in the monitor.", "anchors": ["compiler/c2po/assemble.py:compute_bounds"]}
{"id": "C22", "title": "Operands are computed before they are used", "statement": "In the emitted assembly every instruction that refers to another instruction's result (other than previous-value instructions) appears after it, so a single in-order pass sees up-to-date operands.", "quantifier": "all programs", "why_tests_cant": "Graph property over arbitrary sharing.", "anchors": ["compiler/c2po/assemble.py:gen_assembly", "compiler/c2po/cpt.py:postorder"]}
{"id": "C23", "title": "Instruction identifiers are unique and equal their position", "statement": "Each emitted booleanizer and temporal-logic instruction has its own identifier (memory cell / queue), no two instructions share one.", "quantifier": "all programs, including definitions used from both future- and past-time specifications", "why_tests_cant": "Depends on sharing patterns between specification sets.", "anchors": ["compiler/c2po/assemble.py:gen_assembly", "compiler/c2po/assemble.py:gen_bz_instruction"]}
{"id": "C24", "title": "Instruction encoding round-trips through the monitor's decoder", "statement": "For every instruction the compiler packs, the monitor's binary decoder recovers exactly the same opcode, operands and identifiers.", "quantifier": "all instructions with 32-bit fields", "why_tests_cant": "2^32-sized operand domains, several field layouts.", "anchors": ["compiler/c2po/assemble.py:pack_tl_instruction", "compiler/c2po/assemble.py:pack_bz_instruction", "monitors/c/src/instructions/mltl.c:r2u2_mltl_set_from_binary", "monitors/c/src/instructions/booleanizer.c:r2u2_bz_set_from_binary"]}
{"id": "C25", "title": "Binary framing is self-delimiting", "statement": "The monitor's length-prefixed scan of a specification binary visits exactly the instructions the compiler emitted, in order, and stops at the terminator.", "quantifier": "all instruction sequences", "why_tests_cant": "Arbitrary lengths and payload bytes (including zero bytes) must not confuse the scan.", "anchors": ["compiler/c2po/assemble.py:assemble", "monitors/c/src/internals/process_binary.c:r2u2_process_binary"]}
{"id": "C26", "title": "Queue configuration precedes temporal configuration", "statement": "In the emitted configuration block all queue-size records come before all temporal-bound records and each group keeps its order.", "quantifier": "all programs", "why_tests_cant": "The reordering loop mutates the list it scans.", "anchors": ["compiler/c2po/assemble.py:gen_assembly"]}
{"id": "C27", "title": "Contracts are tracked by the right three formulas", "statement": "An assume-guarantee contract A => G yields three verdict streams: active = A, valid = (A -> G), verified = (A && G), with the three formula numbers reserved for it, in place of the contract.", "quantifier": "all programs and contracts, all traces", "why_tests_cant": "All programs with any number of contracts in any position.", "anchors": ["compiler/c2po/desugar.py:resolve_contracts", "compiler/c2po/cpt.py:Program.replace_spec"]}
{"id": "C28", "title": "Set aggregations mean what they say", "statement": "foreach/forsome/forexactly/foratleast/foratmost over a set are unrolled to an expression that is true exactly when all/some/exactly n/at least n/at most n members satisfy the body.", "quantifier": "all sets, bodies, counts and valuations", "why_tests_cant": "Set sizes are unbounded.", "anchors": ["compiler/c2po/desugar.py:unroll_set_aggregation", "compiler/c2po/cpt.py:rename"]}
{"id": "C29", "title": "Array comparisons are element-wise", "statement": "Comparing two arrays with == is true exactly when all elements are equal, and != exactly when some element differs.", "quantifier": "all array lengths and contents", "why_tests_cant": "Array lengths are unbounded.", "anchors": ["compiler/c2po/desugar.py:unroll_array_accesses"]}
{"id": "C30", "title": "Definition expansion is substitution", "statement": "Expanding DEFINE names (and references to other specifications) yields a specification with the same value as evaluating each name to the value of its definition, for arbitrarily nested definitions.", "quantifier": "all programs with acyclic definitions, all valuations", "why_tests_cant": "Definition chains of unbounded depth, with in-place sharing.", "anchors": ["compiler/c2po/desugar.py:expand_definitions"]}
{"id": "C31", "title": "Well-typed programs have ordered intervals, Boolean operands and unmixed tense", "statement": "If type_check accepts a program then every temporal interval has lb <= ub, every logical/temporal operand is Boolean, and no specification mixes future- and past-time operators.", "quantifier": "all programs", "why_tests_cant": "Quantifies over all terms.", "anchors": ["compiler/c2po/type_check.py:type_check_expr"]}
{"id": "C32", "title": "Symbols are declared once", "statement": "type_check rejects any program that declares the same symbol twice.", "quantifier": "all programs", "why_tests_cant": "All combinations of sections.", "anchors": ["compiler/c2po/type_check.py:type_check", "compiler/c2po/type_check.py:type_check_section"]}
{"id": "C33", "title": "Commands run only when their guards hold", "statement": "A command's function is executed only in states where each of its guard conditions and each condition those depend on holds; a composite command stops at the first failing step and reports it.", "quantifier": "all command sequences and program states", "why_tests_cant": "All histories of console commands.", "anchors": ["compiler/c2po/command.py:Command.check_guards", "compiler/c2po/command.py:CompositeCommand.execute", "compiler/c2po/main.py"]}
{"id": "C34", "title": "push/pop restores the saved state", "statement": "After push, any sequence of commands with balanced push/pop, and pop, the console is back in the saved program and context.", "quantifier": "all command histories", "why_tests_cant": "All histories.", "anchors": ["compiler/c2po/main.py", "compiler/c2po/cpt.py:deepcopy_program_with_context"]}
{"id": "C35", "title": "Signal mapping assigns each declared signal the mapped index", "statement": "parse_map accepts a file only if it is well formed, and afterwards every signal present in the mapping carries exactly its mapped index while all missing signals are reported.", "quantifier": "all mapping files and programs", "why_tests_cant": "All files.", "anchors": ["compiler/c2po/map.py", "compiler/c2po/cpt.py:assign_signal_ids"]}
{"id": "C36", "title": "Worst-case execution time estimate is an upper-bound sum", "statement": "The reported worst-case execution time equals the sum over all computed operators of their per-operator latencies scaled by the clock, and is monotone in each latency.", "quantifier": "all programs and latency tables", "why_tests_cant": "All programs.", "anchors": ["compiler/c2po/wcet.py"]}
{"id": "C37", "title": "Bit-parallel C code computes MLTL semantics", "statement": "The code generated by the sabre back-end computes, for each word-aligned block, exactly the truth values of the formula at each bit position.", "quantifier": "all supported formulas, all word sizes, all traces", "why_tests_cant": "Bit positions crossing word boundaries for every shift amount.", "anchors": ["compiler/c2po/sabre.py"]}
{"id": "C38", "title": "QF_BV satisfiability encoding is exact", "statement": "The bit-vector encoding of a formula is satisfiable (at the first time step) exactly when some trace satisfies the formula.", "quantifier": "all F/G/U/Boolean formulas, all intervals", "why_tests_cant": "Quantifies over all formulas and over all traces on both sides of the equivalence.", "anchors": ["compiler/c2po/sat.py:to_qf_bv_smtlib2", "compiler/c2po/cpt.py:decompose_intervals"]}
{"id": "C39", "title": "QF_UFLIA satisfiability encoding is exact", "statement": "The quantifier-free uninterpreted-function encoding of a formula is satisfiable exactly when some trace satisfies the formula.", "quantifier": "all F/G/U/Boolean formulas", "why_tests_cant": "Quantifies over all formulas and traces.", "anchors": ["compiler/c2po/sat.py:to_qf_uflia_smtlib2"]}
{"id": "C40", "title": "UFLIA satisfiability encoding is exact", "statement": "The quantified uninterpreted-function encoding of a formula is satisfiable exactly when some trace satisfies the formula.", "quantifier": "all formulas, including conjunctions of many specifications", "why_tests_cant": "Quantifies over all formulas and traces.", "anchors": ["compiler/c2po/sat.py:to_uflia_smtlib2"]}
{"id": "C41", "title": "Equality-saturation rules are sound", "statement": "Every rewrite rule handed to the e-graph engine relates two formulas with the same verdict on every trace, so whatever formula is extracted has the original verdicts.", "quantifier": "all rules, all instantiations, all rewrite sequences, all traces", "why_tests_cant": "Rules are applied to saturation in arbitrary order; any unsound instance contaminates the whole e-graph.", "anchors": ["compiler/c2po/egglog/rewrites/temporal.egg", "compiler/c2po/egglog/rewrites/const_folding.egg", "compiler/c2po/egglog/rewrites/multi_arity.egg"]}
{"id": "C42", "title": "E-graph export and import round-trips", "statement": "Converting a formula to the e-graph engine's syntax and parsing it back yields the same formula.", "quantifier": "all formulas", "why_tests_cant": "All terms.", "anchors": ["compiler/c2po/eqsat.py:to_egglog", "compiler/c2po/parse_egglog_output.py"]}
{"id": "C43", "title": "Equivalence checker verdicts are justified", "statement": "check_equiv reports equivalence only if every adjacent pair of specifications was shown equivalent, and non-equivalence only if some pair was shown different.", "quantifier": "all specification lists and all solver answers (sat/unsat/unknown/failure)", "why_tests_cant": "All combinations of solver answers.", "anchors": ["compiler/c2po/sat.py:check_equiv"]}
{"id": "C44", "title": "Shared connection queues deliver each verdict in order", "statement": "A reader of a monitor queue sees, for each time step it asks for, the truth value written for that time step, provided writers write in increasing time order and at most the queue's capacity of distinct entries is outstanding.", "quantifier": "all write/read schedules", "why_tests_cant": "All interleavings of writes with aggregation and reads.", "anchors": ["monitors/c/src/memory/shared_connection_queue.c"]}
{"id": "C45", "title": "Temporal engine verdicts equal the MLTL semantics", "statement": "Every verdict the monitor's temporal-logic engine emits for an operator at time i equals the operator's truth value at time i on the input streams.", "quantifier": "all operand streams, all intervals, all schedules of operand arrival", "why_tests_cant": "Operands arrive aggregated and with arbitrary delay.", "anchors": ["monitors/c/src/engines/mltl.c:r2u2_mltl_update"]}
{"id": "C46", "title": "Verdicts are emitted within the worst-case delay", "statement": "The verdict for time i has been emitted once operand data up to time i+ub (plus operand delay) is available.", "quantifier": "all operand streams and schedules", "why_tests_cant": "Liveness over all schedules.", "anchors": ["monitors/c/src/engines/mltl.c:r2u2_mltl_update", "compiler/c2po/cpt.py:TemporalOperator"]}
{"id": "C47", "title": "Verdict words pack and unpack losslessly", "statement": "A verdict's truth and 31-bit time stamp are recovered exactly from its 32-bit representation and no valid verdict below the maximal time collides with the empty marker.", "quantifier": "all time stamps below 2^31 - 1 and both truth values", "why_tests_cant": "2^32 values.", "anchors": ["monitors/c/src/internals/types.h"]}
{"id": "C48", "title": "Traversal visits every reachable node once, children first", "statement": "postorder yields each node reachable from the start exactly once, and every node after all of its children.", "quantifier": "all expression graphs (acyclic, arbitrary sharing)", "why_tests_cant": "All graphs.", "anchors": ["compiler/c2po/cpt.py:postorder"]}
{"id": "C49", "title": "Booleanizer code computes the expression value", "statement": "Executing the emitted booleanizer instructions in order leaves in each atomic's cell the value of the corresponding non-temporal expression on the current inputs (and the previous step's value for prev).", "quantifier": "all supported arithmetic/relational/bitwise expressions over machine integers, all input histories", "why_tests_cant": "All expressions and input histories.", "anchors": ["compiler/c2po/assemble.py:gen_bz_instruction", "monitors/c/src/engines/booleanizer.c:r2u2_bz_update"]}
{"id": "C50", "title": "MLTL-STD export re-parses to the same formula", "statement": "The MLTL standard text exported for a program parses back to formulas with the same structure.", "quantifier": "all exportable programs", "why_tests_cant": "All terms; operator spelling and precedence matter only for particular nestings.", "anchors": ["compiler/c2po/cpt.py:to_mltl_std", "compiler/c2po/parse_mltl.py"]}
{"id": "C51", "title": "Parsing a new program starts from a clean symbol table", "statement": "No user symbol of a previously parsed program remains visible after a new program is parsed.", "quantifier": "all histories of parse commands", "why_tests_cant": "All histories.", "anchors": ["compiler/c2po/cpt.py:Context.clear", "compiler/c2po/parse_c2po.py"]}
{"id": "C52", "title": "optimize_rewrites never increases latency", "statement": "After optimize_rewrites the worst-case propagation delay of a specification is at most what it was before, so optimizing never delays a verdict.", "quantifier": "every specification (formula tree of any size and interval bounds)", "why_tests_cant": "it ranges over all formulas and interval combinations; a test covers finitely many", "anchors": ["compiler/c2po/rewrite.py:optimize_rewrites", "compiler/c2po/cpt.py:TemporalOperator"]}
{"id": "C53", "title": "Generated code mirrors the expression graph", "statement": "Every node of the type-checked, desugared program that an engine computes has exactly one instruction, with the node's operator, reading the cells or queues of the node's operands; its queue is configured with the computed size and, for temporal operators, the interval; there are no other instructions.", "quantifier": "all programs whose future- and past-time specifications share no node", "why_tests_cant": "Code generation indexes dictionaries filled during a traversal of an arbitrary shared graph.", "anchors": ["compiler/c2po/assemble.py:gen_assembly", "compiler/c2po/assemble.py:gen_bz_instruction", "compiler/c2po/assemble.py:gen_ft_instruction", "compiler/c2po/assemble.py:gen_pt_instruction"]}
{"id": "C54", "title": "Atomic nodes are inserted exactly between the temporal and the booleanizer parts", "statement": "compute_atomics ends; afterwards every operand of a temporal or logical operator is a boolean constant, an atomic with an identifier or itself computed by the temporal engine; leaving out the inserted atomics, every specification is unchanged; and the result meets the requirements of the code generator.", "quantifier": "all acyclic typed programs with any sharing", "why_tests_cant": "Depends on the shape and sharing of the graph and on rewriting it during the traversal.", "anchors": ["compiler/c2po/atomics.py:compute_atomics", "compiler/c2po/cpt.py:postorder"]}
{"id": "C55", "title": "A compiled specification is monitored correctly end to end", "statement": "The byte string the compiler writes for a program, loaded and configured by the monitor with the generated array bounds, never reads or writes outside those arrays, finishes every time step, and reports for each specification exactly its MLTL verdicts, each no later than the specification's worst-case delay and no earlier than its best-case delay.", "quantifier": "all program graphs, all traces of atomics of any length below 2^31, all queue-slot settings for which queues have room", "why_tests_cant": "It composes queue sizing, code generation, encoding, loading, configuration and the fixpoint engine over unbounded programs and traces.", "anchors": ["compiler/c2po/scq.py:compute_scq_sizes", "compiler/c2po/assemble.py:gen_assembly", "compiler/c2po/assemble.py:pack_instruction", "monitors/c/src/internals/process_binary.c:r2u2_process_binary", "monitors/c/src/engines/mltl.c:r2u2_mltl_instruction_dispatch", "monitors/c/src/engines/engines.c:r2u2_instruction_dispatch"]}
{"id": "C56", "title": "Desugaring preserves meaning", "statement": "The expression the compiler goes on with after desugaring a specification (function calls, structures, member and array accesses, enumeration members, set aggregations, array comparisons) contains only operators over literals and signals, and at every time, for every valuation of the signals, has the value of the expression the user wrote.", "quantifier": "all well-sorted source expressions, declarations, traces and times", "why_tests_cant": "Expressions nest these constructs arbitrarily; sets and arrays are unbounded.", "anchors": ["compiler/c2po/desugar.py:desugar", "compiler/c2po/cpt.py:rename", "compiler/c2po/cpt.py:is_desugared"]}
{"id": "C57", "title": "ILP extraction yields an equivalent formula", "statement": "Whenever the integer program set up for an e-graph has a solution, reading off the active nodes from the root class ends, even if classes refer to each other in cycles, and gives a formula that has the original formula's verdicts, has well-formed intervals, and uses no derived operators (->, G, F) when these are not to be supported.", "quantifier": "all formulas, all e-graphs that represent only terms equated with the formula, all solutions of the constraints, all rule selections", "why_tests_cant": "E-graphs are unbounded and cyclic; the solver may return any feasible solution.", "anchors": ["compiler/c2po/egraph.py:EGraph", "compiler/c2po/egraph.py:build_repr_map_", "compiler/c2po/egraph.py:build_expr_", "compiler/c2po/eqsat.py:optimize_eqsat"]}
{"id": "C58", "title": "Queues stay large enough after equality saturation", "statement": "After formulas have been replaced by what equality saturation extracted for them, every operand of every operator of the program still gets a queue with enough slots for the delay between it and the operands next to it.", "quantifier": "all programs, all extracted formulas, both extraction methods, all sharing of atomics within and between formulas", "why_tests_cant": "Sharing and nesting are unbounded; the size of a queue depends on parent links kept as a side effect of every replacement.", "anchors": ["compiler/c2po/parse_egglog_output.py:parse", "compiler/c2po/egraph.py:build_expr_", "compiler/c2po/cpt.py:replace", "compiler/c2po/cpt.py:get_siblings", "compiler/c2po/scq.py:compute_scq_sizes"]}
{"id": "C59", "title": "The parser accepts exactly the documented language", "statement": "A specification file is accepted exactly when its text is a program of the C2PO grammar, and the program the compiler goes on with is the one the grammar assigns to the text: operators bind in the documented order and group to the left, blanks, line breaks and comments do not matter, names declared as inputs earlier are signals, enumeration members without a value are numbered in order. No text has two readings.", "quantifier": "all texts, all mission times", "why_tests_cant": "Texts and nestings are unbounded; the precedence of every pair of operators in every context matters, and rejection must hold for every text outside the language.", "anchors": ["compiler/c2po/parse_c2po.py:C2POLexer", "compiler/c2po/parse_c2po.py:C2POParser", "compiler/c2po/parse_c2po.py:parse_c2po", "compiler/docs/user/language.md"]}
{"id": "C61", "title": "Specifications are numbered in the order of the text", "statement": "The specifications of an accepted file, over all its specification sections, have the numbers 0, 1, 2, ... in the order of the text, a contract taking three, so that no two share a number.", "quantifier": "all accepted texts", "why_tests_cant": "Any number of sections, formulas and contracts in any order.", "anchors": ["compiler/c2po/parse_c2po.py:C2POParser.spec", "compiler/c2po/parse_c2po.py:fresh_label"]}
{"id": "C60", "title": "A written program is read back", "statement": "The file write_c2po writes for a parsed program is accepted by the parser and gives the same program: the same declarations, expressions, labels and numbers, whatever mission time the second run has.", "quantifier": "all accepted programs and all mission times", "why_tests_cant": "Any nesting of operators: whether the printed parentheses and blanks bring back every tree, and no two trees print alike, is a claim about all programs.", "anchors": ["compiler/c2po/serialize.py:write_c2po", "compiler/c2po/cpt.py:to_infix_str", "compiler/c2po/cpt.py:Program.__str__", "compiler/c2po/parse_c2po.py:C2POParser"]}
{"id": "C62", "title": "Transformations in place on shared nodes keep every specification's meaning", "statement": "The compiler transforms one graph in which several specifications share sub-expressions, replacing nodes while it walks over them. Whatever is shared, when a transformation command ends, every specification is still in its set, with its label and number, its formula has the verdicts it had at every time of every trace, and the graph is still acyclic.", "quantifier": "all graphs with any sharing within and between the two specification sets, all specifications, all traces and times", "why_tests_cant": "Which nodes are shared, and so which replaced nodes are met again by the running traversal, varies without bound; a test sees one sharing pattern.", "anchors": ["compiler/c2po/transform.py:to_bnf", "compiler/c2po/transform.py:to_nnf", "compiler/c2po/transform.py:multi_operators_to_binary", "compiler/c2po/transform.py:flatten_multi_operators", "compiler/c2po/transform.py:remove_extended_operators", "compiler/c2po/transform.py:remove_release_operators", "compiler/c2po/rewrite.py:optimize_rewrites", "compiler/c2po/cpt.py:Expression.replace", "compiler/c2po/cpt.py:postorder", "compiler/c2po/cpt.py:preorder"]}
{"id": "C63", "title": "The chosen passes together keep every specification of a program with shared nodes", "statement": "For every combination of --rewrite, --extops and --cse, running the compiler's passes in the order the command line tool runs them on a program whose formulas may share nodes leaves both specification sets with the same specifications in the same order, with their labels and numbers, each with the verdicts it had, and no reachable node is an operator the monitor does not execute or has more than two operands.", "quantifier": "all programs (any number of specifications, any formulas, any sharing of nodes within and between the two sets), all option combinations, all traces and times", "why_tests_cant": "Passes rewrite a shared graph in place while traversing it, and leave dead nodes and stale parent links behind that later passes meet; only particular sharing patterns and orders can be tested.", "anchors": ["compiler/c2po/main.py:cli", "compiler/c2po/rewrite.py:optimize_rewrites", "compiler/c2po/transform.py:remove_extended_operators", "compiler/c2po/transform.py:multi_operators_to_binary", "compiler/c2po/cse.py:optimize_cse", "compiler/c2po/cpt.py:Expression.replace"]}
{"id": "C64", "title": "A compiled program, loaded and run, reports the verdicts of the formulas that were written", "statement": "If the command line tool compiles a program of formulas over Boolean signals to a binary and bounds, then the monitor built with those bounds loads the binary, never accesses an array out of bounds, and at every step of every run every verdict it reports under the number of a specification is the verdict of the formula the user wrote for it; future-time verdicts come as soon as the formula's horizon has passed, past-time ones at once.", "quantifier": "all programs (any number of specifications, any sharing of nodes), all combinations of --rewrite, --extops and --cse, all input traces, all run lengths", "why_tests_cant": "It composes every compiler pass, queue sizing, instruction encoding, bounds generation, loading and the monitor's incremental algorithms; tests can sample programs and traces but not all compositions of them.", "anchors": ["compiler/c2po/main.py:cli", "compiler/c2po/assemble.py:assemble", "compiler/c2po/assemble.py:write_bounds_c", "monitors/c/src/r2u2.c:r2u2_init", "monitors/c/src/engines/mltl.c:r2u2_mltl_instruction_dispatch"]}
{"id": "C65", "title": "From the text of a program to the verdicts of the monitor", "statement": "If the text of a program over Boolean signals is accepted and compiled, then the monitor, loaded with the binary, reports under the number of each specification in the text exactly what the text says about the inputs: a formula's own truth at each time, and for a contract whether it is active, valid and verified; with every definition, aggregation, structure member and array element read as the language defines them, and within the number of steps the formula looks ahead.", "quantifier": "all program texts, all options, all ways the formulas share nodes in memory, all input traces, all run lengths", "why_tests_cant": "The composition of lexer, parser, type checker, desugaring, optimisation, assembly, loading and monitoring has to agree with one meaning for every text and every trace; examples can only sample both.", "anchors": ["compiler/c2po/main.py:compile", "compiler/c2po/parse.py:parse_c2po", "compiler/c2po/type_check.py:type_check", "compiler/c2po/passes.py:expand_definitions", "compiler/c2po/passes.py:resolve_contracts", "compiler/c2po/assemble.py:assemble", "monitors/c/src/r2u2.c:r2u2_step"]}
{"id": "C66", "title": "The Rust monitor reports right verdicts, never panics, and every step ends", "statement": "A Rust monitor that has loaded a specification binary goes through any number of calls of monitor_step without panicking, each call returns, and the verdicts read with get_output_buffer after each call are, for every specification, exactly its truth values in order of time, within the worst-case delay and not before they are determined.", "quantifier": "all programs of instructions whose queues have room, all input traces, all run lengths below 2^32", "why_tests_cant": "It must hold for every program, every trace and every length of run; queue wrap-around, aggregation of equal verdicts and saturating arithmetic show only on particular histories.", "anchors": ["monitors/rust/r2u2_core/src/lib.rs:monitor_step", "monitors/rust/r2u2_core/src/lib.rs:get_output_buffer", "monitors/rust/r2u2_core/src/engines/mltl.rs:mltl_update", "monitors/rust/r2u2_core/src/memory/scq.rs:scq_write", "monitors/rust/r2u2_core/src/memory/scq.rs:scq_read"]}
{"id": "C67", "title": "A compiled program, loaded by the Rust monitor and run, reports the verdicts of the formulas that were written", "statement": "If the command line tool compiles a program of formulas over Boolean signals to a binary and bounds, then get_monitor of a Rust monitor built with those bounds loads it, no call of monitor_step panics, and every verdict in the output buffer under the number of a specification is the verdict of the formula the user wrote for it, in time.", "quantifier": "all programs, all combinations of --rewrite, --extops and --cse, all input traces, all run lengths, all array sizes at least those written", "why_tests_cant": "It composes every compiler pass, queue sizing, encoding, bounds generation, the Rust loader and the Rust engine; tests can sample programs and traces but not all compositions of them.", "anchors": ["compiler/c2po/main.py:cli", "compiler/c2po/assemble.py:compute_bounds", "monitors/rust/r2u2_core/src/lib.rs:get_monitor", "monitors/rust/r2u2_core/src/internals/process_binary.rs:process_binary_file", "monitors/rust/r2u2_core/src/instructions/mltl.rs:mltl_configure_instruction_dispatch"]}
{"id": "C68", "title": "Updating the specification of a Rust monitor", "statement": "After update_binary_file a Rust monitor behaves as a new monitor made from the new file: it monitors the new specification and nothing else.", "quantifier": "all monitors in any state, all specification binaries", "why_tests_cant": "It ranges over every specification loaded before, every history run, and every new binary.", "anchors": ["monitors/rust/r2u2_core/src/lib.rs:update_binary_file", "monitors/rust/r2u2_core/src/memory/monitor.rs:reset", "monitors/rust/r2u2_core/src/internals/process_binary.rs:process_binary_file"]}
{"id": "C69", "title": "From a program's text to the Rust monitor's verdicts", "statement": "For every specification file that compiles, the Rust monitor loaded with the written binary reports for every specification of the text exactly what the specification as written means on the inputs, within its look-ahead.", "quantifier": "all specification texts, all compiler options covered, all input traces, all time steps", "why_tests_cant": "It ranges over all programs, optimisations, traces and points in time, and over what the Rust monitor's fixed-size arrays hold.", "anchors": ["compiler/c2po/main.py:cli", "monitors/rust/r2u2_core/src/lib.rs:get_monitor", "monitors/rust/r2u2_core/src/lib.rs:monitor_step"]}
{"id": "C70", "title": "The header of a trace file maps signals to columns", "statement": "parse_trace gives every signal of the program the index of the column with its name (the right-most one if there are several) and fails, reporting them, if signals are missing.", "quantifier": "all trace files, all programs", "why_tests_cant": "It ranges over all headers, including white space, order, repeated and missing names.", "anchors": ["compiler/c2po/trace.py:parse_trace_file", "compiler/c2po/cpt.py:assign_signal_ids"]}
{"id": "C71", "title": "The C command line reports the verdicts of the program on the trace file", "statement": "Run on the compiled binary and a trace file, the C command line tool reads one time step from each line, column by column, and prints for every specification the verdicts of the specification as written on the values in the file.", "quantifier": "all specification texts, all trace files", "why_tests_cant": "It ranges over all programs and all texts of trace files: lengths, number of lines, columns, spellings, line ends.", "anchors": ["monitors/c/src/cli/csv_trace.c:r2u2_csv_load_next_signals", "monitors/c/src/cli/main.c:main", "monitors/c/src/lib.c:r2u2_load_string_signal", "monitors/c/src/engines/mltl.c:r2u2_mltl_update"]}
{"id": "C72", "title": "Event rows of a trace file stand for all times since the row before", "statement": "In a trace file, a row that begins with @T gives the values of the signals at time T and at all times since the row before. Run on such a file, the C monitor reports for every formula the verdicts of the formula on the values so held, all those for times more than the formula's worst-case delay before the last row, and none early.", "quantifier": "all programs, all trace files with event rows, all times between rows", "why_tests_cant": "It ranges over all programs and over all gaps between rows: whether values that change rarely still meet in the queues depends on every operator's delay and on the size of every queue.", "anchors": ["monitors/c/src/cli/csv_trace.c:r2u2_csv_load_next_signals", "monitors/c/src/engines/mltl.c:r2u2_mltl_instruction_dispatch", "monitors/c/src/lib.c:r2u2_step", "docs/References/formats/signal_trace_files.md"]}
{"id": "C73", "title": "The C monitor prints names and contract statuses that are right", "statement": "A C monitor built to know the names of specifications prints each verdict under the label of the specification it belongs to. For each contract a => g it prints at which times the contract is verified (a and g hold), invalid (a holds, g does not) or inactive (a does not hold), for all times whose verdicts the trace decides.", "quantifier": "all specification texts with their labels, contracts and order of sections, all traces", "why_tests_cant": "It ranges over all labels, all numbers of specifications and contracts and all orders of sections: a name is found by its place in a packed string table.", "anchors": ["compiler/c2po/assemble.py:pack_aliases", "compiler/c2po/assemble.py:compute_bounds", "monitors/c/src/internals/process_binary.c:r2u2_process_binary", "monitors/c/src/engines/aux_info.c:r2u2_aux_formula_report", "monitors/c/src/engines/aux_info.c:r2u2_aux_contract_report", "docs/Examples/agc.md"]}
{"id": "C74", "title": "The C command line computes with the numbers in the trace file", "statement": "Run on the binary of a program whose atoms compare signals, and a trace file of integers and floats, the C command line tool prints for every formula the verdicts over the comparisons computed on the numbers as written in the file, prev referring to the line before.", "quantifier": "all programs with the booleanizer, all trace files of numbers", "why_tests_cant": "It ranges over all programs, all numbers and spellings of numbers, and all lengths of traces.", "anchors": ["monitors/c/src/lib.c:r2u2_load_string_signal", "monitors/c/src/cli/csv_trace.c:r2u2_csv_load_next_signals", "monitors/c/src/cli/main.c:main", "monitors/c/src/engines/engines.c:r2u2_engine_step", "monitors/c/src/engines/booleanizer.c:r2u2_bz_update"]}
{"id": "C75", "title": "Formulas over numbers, compiled and run, have the verdicts as written", "statement": "Given a program whose formulas compare expressions over integer and float signals, if the command line tool with --booleanizer writes a binary, whatever passes its options choose, then the C monitor loads it, runs on every history of signal values on which every expression has a value, and reports for each specification only verdicts of the formula as written, where an atom holds at t if its expression, computed on the signals as named, is not 0 at t. Future-time verdicts come within the span of the formula, past-time ones at once.", "quantifier": "all desugared programs over numeric expressions, all option combinations of the passes, all histories of signal values, all times", "why_tests_cant": "It ranges over all programs, over all orders in which passes share and replace nodes before identifiers are given to atomics, and over all histories of values.", "anchors": ["compiler/c2po/main.py:main", "compiler/c2po/atomics.py:compute_atomics", "compiler/c2po/assemble.py:assemble", "monitors/c/src/internals/process_binary.c:r2u2_process_binary", "monitors/c/src/engines/booleanizer.c:r2u2_bz_update", "monitors/c/src/engines/mltl.c:r2u2_mltl_instruction_dispatch"]}
{"id": "C76", "title": "Formulas over numbers have the verdicts as written on the Rust monitor too", "statement": "Given a program whose formulas compare integer or floating-point expressions (floats up to the tolerance, as the Rust monitor does), if the command line tool with --booleanizer writes a binary, a Rust monitor with arrays of at least the sizes written with it and room for the verdicts of a step loads it; on every history of signal values on which every expression has a value no step panics, every step returns true (no overflow), and the verdicts read from the output buffer are only verdicts of the formulas as written, in time.", "quantifier": "all desugared programs over numeric expressions, all option combinations of the passes, all monitors with large enough arrays, all histories of signal values, all times", "why_tests_cant": "It ranges over all programs and histories, and over two independently written booleanizers that must agree on every instruction and operand.", "anchors": ["monitors/rust/r2u2_core/src/lib.rs:get_monitor", "monitors/rust/r2u2_core/src/lib.rs:monitor_step", "monitors/rust/r2u2_core/src/engines/booleanizer.rs:bz_update", "monitors/rust/r2u2_core/src/engines/mod.rs:r2u2_engine_step", "monitors/rust/r2u2_core/src/internals/process_binary.rs:process_binary_file", "compiler/c2po/main.py:main"]}
{"id": "C77", "title": "Integer arithmetic in the Rust monitor saturates and says so; its comparisons of floats are consistent", "statement": "An arithmetic instruction on integers gives the exact result if it fits 32 bits, and otherwise the nearest 32-bit integer with the overflow flag set; a step returns false exactly if an overflow occurred in it; no operands make the monitor panic. Of a < b, a == b, a > b on floats exactly one holds, and !=, >=, <= are the opposites of ==, <, >.", "quantifier": "all instructions, all 32-bit operands, all states of the monitor", "why_tests_cant": "The boundary cases are a handful among 2^64 pairs of operands for every instruction, and whether a flag survives depends on the instructions after it.", "anchors": ["monitors/rust/r2u2_core/src/engines/booleanizer.rs:integer_add", "monitors/rust/r2u2_core/src/engines/booleanizer.rs:integer_multiply", "monitors/rust/r2u2_core/src/engines/booleanizer.rs:integer_divide", "monitors/rust/r2u2_core/src/engines/booleanizer.rs:integer_mod", "monitors/rust/r2u2_core/src/engines/booleanizer.rs:integer_power", "monitors/rust/r2u2_core/src/engines/booleanizer.rs:float_greater_than", "monitors/rust/r2u2_core/src/lib.rs:monitor_step"]}
{"id": "C78", "title": "The Rust command line tool prints right and complete verdicts for a binary and a trace", "statement": "r2u2_cli run on the binary of a specification file and a CSV trace prints, one per line and in the order of the steps, exactly the verdicts of the monitor on the values written in the trace: each printed verdict is right by the semantics of the logic over the values of the expressions, every specification with only past operators is answered at every record, and every other specification within its delay. A field is read as the number it denotes, for integer and for floating-point signals.", "quantifier": "all specification files in the fragment, all traces, all lengths", "why_tests_cant": "The text passes through a buffer that keeps old values, two number parsers, the booleanizer and queues whose state depends on the whole trace; no finite set of traces covers their combinations.", "anchors": ["monitors/rust/r2u2_cli/src/main.rs:main", "monitors/rust/r2u2_core/src/lib.rs:load_string_signal", "monitors/rust/r2u2_core/src/lib.rs:monitor_step", "monitors/rust/r2u2_core/src/lib.rs:get_output_buffer"]}
{"id": "C79", "title": "The Rust command line tool prints names and contract statuses that are right", "statement": "r2u2_cli run --enable-aux prints each verdict under the label of the specification it belongs to. Unless --disable-contracts is given it prints, after the verdicts of each record, for each contract a => g at which times the contract is verified (a and g hold), invalid (a holds, g does not) or inactive (a does not hold), for all times whose verdicts the trace decides. Apart from labels and statuses the output is the one printed without these options.", "quantifier": "all specification texts with their labels, contracts and order of sections, all combinations of the two options, all traces", "why_tests_cant": "It ranges over all labels, numbers of specifications and contracts, and orders of sections, and over all traces: how many statuses one step decides depends on the whole history.", "anchors": ["compiler/c2po/assemble.py:pack_aliases", "compiler/c2po/assemble.py:compute_bounds", "monitors/rust/r2u2_core/src/internals/process_binary.rs", "monitors/rust/r2u2_core/src/lib.rs:get_contract_buffer", "monitors/rust/r2u2_cli/src/main.rs:main"]}
