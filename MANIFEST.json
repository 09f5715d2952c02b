{
 "claims": [
  {
   "property": "C01",
   "status": "partial",
   "theorems": [
    "R2U2.C01_optimize_finite_partial",
    "R2U2.C01_short_trace_disagreement",
    "R2U2.C01_optimize_str_partial",
    "R2U2.C01_optimize_str_finite_partial",
    "R2U2.C01_optimize_verdicts_partial",
    "R2U2.C01_optimize_wellformed",
    "R2U2.C01_fails_on_false_equal",
    "R2U2.C01_fails_on_third_operand",
    "R2U2.C01_fails_on_singleton"
   ],
   "note": "Proved for every formula that has no `false == e` (or `e == false`) node and whose conjunctions and disjunctions are binary. The full claim is false of the code: the three C01_fails theorems are witnesses (false == p rewritten to p, third operand dropped, one-operand and/or crashes). C01_optimize_finite_partial and C01_short_trace_disagreement settle the finite-trace reading. C01_optimize_str_partial instantiates the key with the modelled str() text, so nothing about keys is assumed there beyond atoms having distinct texts."
  },
  {
   "property": "C02",
   "status": "proved",
   "theorems": [
    "R2U2.C02_toBnf_verdicts",
    "R2U2.C02_bnf_any_schedule"
   ],
   "note": "All formulas, future and past, any schedule of the local step."
  },
  {
   "property": "C03",
   "status": "partial",
   "theorems": [
    "R2U2.C03_toBnf_shape_partial",
    "R2U2.C03_fails_on_iff"
   ],
   "note": "Holds for formulas without <->; C03_fails_on_iff shows that <-> survives."
  },
  {
   "property": "C04",
   "status": "partial",
   "theorems": [
    "R2U2.C04_toNnf_verdicts_partial",
    "R2U2.C04_fails_on_negated_xor"
   ],
   "note": "Holds for formulas without xor; C04_fails_on_negated_xor shows a negated xor changes the verdict."
  },
  {
   "property": "C05",
   "status": "partial",
   "theorems": [
    "R2U2.C05_toNnf_shape_partial",
    "R2U2.C05_fails_on_double_negation"
   ],
   "note": "Holds unless a negation sits on a negation or xor; C05_fails_on_double_negation is the witness."
  },
  {
   "property": "C06",
   "status": "proved",
   "theorems": [
    "R2U2.C06_removeExtended_verdicts",
    "R2U2.C06_ext_any_schedule"
   ],
   "note": "All formulas, any schedule."
  },
  {
   "property": "C07",
   "status": "proved",
   "theorems": [
    "R2U2.C07_removeExtended_shape"
   ],
   "note": "Shape after remove_extended_operators on any formula made binary."
  },
  {
   "property": "C08",
   "status": "proved",
   "theorems": [
    "R2U2.C08_removeRelease_verdicts",
    "R2U2.C08_release_any_schedule",
    "R2U2.C08_removeRelease_shape"
   ],
   "note": "Verdicts and shape."
  },
  {
   "property": "C09",
   "status": "proved",
   "theorems": [
    "R2U2.C09_toBinary_arity",
    "R2U2.C09_toBinary_verdicts",
    "R2U2.C09_binary_any_schedule",
    "R2U2.C09_toBinary_leaves"
   ],
   "note": "Verdicts, arity, leaf order for the Boolean n-ary operators."
  },
  {
   "property": "C10",
   "status": "proved",
   "theorems": [
    "R2U2.C10_flatten_verdicts",
    "R2U2.C10_flatten_any_schedule",
    "R2U2.C10_flatten_leaves"
   ],
   "note": "Verdicts and leaf order for the Boolean n-ary operators."
  },
  {
   "property": "C11",
   "status": "proved",
   "theorems": [
    "R2U2.C11_sort_verdicts",
    "R2U2.C11_sort_any_schedule",
    "R2U2.C11_sort_reordered",
    "R2U2.C11_sort_sorted",
    "R2U2.C11_sort_delays"
   ],
   "note": "Verdicts, permutation at every node, sortedness by worst-case delay, delays unchanged."
  },
  {
   "property": "C12",
   "status": "proved",
   "theorems": [
    "R2U2.C12_unroll_verdicts",
    "R2U2.C12_unroll_succeeds",
    "R2U2.C12_unroll_shape",
    "R2U2.C12_unroll_rejects_release"
   ],
   "note": "Verdicts and shape whenever unrolling returns; it returns on every formula without R, and refuses R."
  },
  {
   "property": "C13",
   "status": "proved",
   "theorems": [
    "R2U2.C13_decompose_verdicts",
    "R2U2.C13_decompose_shape"
   ],
   "note": "Verdicts for ordered intervals, shape for all."
  },
  {
   "property": "C14",
   "status": "partial",
   "theorems": [
    "R2U2.C14_future_window",
    "R2U2.C14_window_partial",
    "R2U2.C14_fails_on_since",
    "R2U2.C14_fails_on_nested_past"
   ],
   "note": "Holds for all future-time formulas and for past-time formulas outside isMisdelayed; witnesses show since and nested past operators report a window that is too small."
  },
  {
   "property": "C15",
   "status": "proved",
   "theorems": [
    "R2U2.C15_finite_trace",
    "R2U2.C15_transfer"
   ],
   "note": "Future-time fragment, the one the documentation gives a finite-trace semantics for."
  },
  {
   "property": "C16",
   "status": "proved",
   "theorems": [
    "R2U2.C16_cse"
   ],
   "note": "Proved on a heap model of the object graph (child lists, parent sets, in-place replace, the generator interleaved with the consumer's replacements), for any sharing within and between the two specification sets. Hypotheses: the graph is acyclic, parent sets record all parents, labels stand for one formula, symbols are lexically valid. The key is the modelled repr text (C17)."
  },
  {
   "property": "C17",
   "status": "partial",
   "theorems": [
    "R2U2.C17_repr_unambiguous",
    "R2U2.C17_str_unambiguous",
    "R2U2.C17_formula_unambiguous",
    "R2U2.C17_fails_on_singleton_set",
    "R2U2.C17_fails_on_aggregation_count",
    "R2U2.C17_str_separates"
   ],
   "note": "Proved for repr and str of every desugared expression (identifiers, literals, operators, temporal operators, atomics, function calls), each formula compared with any other. The full claim is false of the code: C17_fails_on_singleton_set (a specification set prints like its only formula) and C17_fails_on_aggregation_count (the count of forexactly/foratleast/foratmost is not printed) are witnesses."
  },
  {
   "property": "C18",
   "status": "proved",
   "theorems": [
    "R2U2.C18_regions"
   ],
   "note": "For every acyclic program graph and every non-negative scq_constant. The traversal, the size rule and the running total are modelled as in scq.py."
  },
  {
   "property": "C19",
   "status": "proved",
   "theorems": [
    "R2U2.C19_known",
    "R2U2.C19_sizes"
   ],
   "note": "For every acyclic graph whose parent sets are accurate. That this size is not enough for the monitor is a separate fact, see C45."
  },
  {
   "property": "C20",
   "status": "partial",
   "theorems": [
    "R2U2.C20_distinct",
    "R2U2.C20_signals_partial",
    "R2U2.C20_mixed_fail"
   ],
   "note": "With booleanizer: C20_distinct (identifiers are exactly 0..k-1, one per atomic node). Without: C20_signals_partial (mapped signals get their index, unmapped ones pairwise different identifiers). Missing because false of the code: C20_mixed_fail, an unmapped signal gets the identifier of a mapped one."
  },
  {
   "property": "C21",
   "status": "partial",
   "theorems": [
    "R2U2.C21_atomics_partial",
    "R2U2.C21_temporal_partial",
    "R2U2.C21_booleanizer_partial",
    "R2U2.C21_atomics_fail",
    "R2U2.C21_signals_fail"
   ],
   "note": "Temporal engine: for every compiled program, configuration and every instruction in every state stays inside queue memory, control blocks and atomic buffer sized by compute_bounds; booleanizer: cells, signals and atomics inside their arrays; with the booleanizer atomic identifiers are always covered. The claim fails without the booleanizer when the signal mapping is sparse (C21_atomics_fail) and for the signal vector when the trace has undeclared columns (C21_signals_fail). Auxiliary-output arena not covered."
  },
  {
   "property": "C22",
   "status": "proved",
   "theorems": [
    "R2U2.BProg.C22_operands"
   ],
   "note": "For every graph in the form assemble requires, with no node but boolean constants shared between the two specification sets (with such sharing identifiers collide, see C23). The order of previous-value instructions is part of the statement."
  },
  {
   "property": "C23",
   "status": "partial",
   "theorems": [
    "R2U2.BProg.C23_ids_partial",
    "R2U2.BProg.C23_shared_ids_fail"
   ],
   "note": "C23_ids_partial: holds when the future- and past-time sets share only boolean constants. C23_shared_ids_fail: the full claim is false, a definition used from both sets gives colliding cells and an unconfigured queue."
  },
  {
   "property": "C24",
   "status": "partial",
   "theorems": [
    "R2U2.C24_roundtrip_partial",
    "R2U2.C24_codes",
    "R2U2.C24_floats_fail",
    "R2U2.C24_int_constants_fail",
    "R2U2.C24_negative_constants_fail"
   ],
   "note": "C24_roundtrip_partial: every instruction whose fields fit and that carries no float constant is decoded by the monitor with the same operator, operands and constant; C24_codes: the opcode tables of assembler and monitor agree on every operator. Missing because false of the code, proved as such: C24_floats_fail (the monitor's 64-bit reassembly sign-extends the low byte group), C24_int_constants_fail (integer constants from 2^31 load as negative), C24_negative_constants_fail (negative integer constants cannot be packed)."
  },
  {
   "property": "C25",
   "status": "proved",
   "theorems": [
    "R2U2.C25_framing",
    "R2U2.C25_loaded_partial",
    "R2U2.C25_tables_partial"
   ],
   "note": "C25_framing: the loader walks the generated file frame by frame and sees exactly the emitted instructions in order, then the auxiliary text, for every instruction list; C25_loaded_partial composes it with decoding for instructions that satisfy C24."
  },
  {
   "property": "C26",
   "status": "proved",
   "theorems": [
    "R2U2.BProg.C26_order",
    "R2U2.BProg.C26_config_first",
    "R2U2.BProg.C26_aligned"
   ],
   "note": "Order for every program (C26_config_first); one size record per instruction in instruction order and one interval record per temporal operator when the sets share no nodes (C26_aligned)."
  },
  {
   "property": "C27",
   "status": "proved",
   "theorems": [
    "R2U2.C27_contracts"
   ],
   "note": "For every list of specifications in any order. Labels are modelled, verdict streams are compared by formula number."
  },
  {
   "property": "C28",
   "status": "partial",
   "theorems": [
    "R2U2.C28_aggregations_partial",
    "R2U2.C28_unrolling_ends",
    "R2U2.C28_counts",
    "R2U2.C28_capture_fails"
   ],
   "note": "C28_aggregations_partial: for all well-sorted expressions where no set of an aggregation contains an aggregation and nested aggregations bind different names; C28_counts spells out the counting aggregations; C28_unrolling_ends: non-empty sets always unroll. Without the condition on sets the claim is false (C28_capture_fails: the member's bound name is captured)."
  },
  {
   "property": "C29",
   "status": "partial",
   "theorems": [
    "R2U2.C29_arrays_partial",
    "R2U2.C29_equal",
    "R2U2.C29_ne_fails",
    "R2U2.C29_length_fails"
   ],
   "note": "C29_arrays_partial and C29_equal: all comparisons but != on arrays of the same shape, nested arrays included. False for != (C29_ne_fails: conjunction instead of disjunction) and for arrays of different lengths (C29_length_fails: prefix comparison), which the type checker lets through when a size is undeclared."
  },
  {
   "property": "C30",
   "status": "partial",
   "theorems": [
    "R2U2.C30_expand_partial",
    "R2U2.C30_alias_fails",
    "R2U2.C30_shadow_fails",
    "R2U2.C30_trees_partial"
   ],
   "note": "Proved on the object graph for programs where no definition is just another defined name and no aggregation binds a defined name: expansion ends, changes no node, and every expression becomes one without defined names, of the same sort and value; names can always be given the values of their definitions. C30_alias_fails and C30_shadow_fails show the claim is false of the excluded programs."
  },
  {
   "property": "C31",
   "status": "partial",
   "theorems": [
    "R2U2.C31_intervals",
    "R2U2.C31_operands",
    "R2U2.C31_tense_partial",
    "R2U2.C31_sorts_partial",
    "R2U2.C31_tense_fails",
    "R2U2.C31_scope_fails",
    "R2U2.C31_struct_fails",
    "R2U2.C31_configuration"
   ],
   "note": "Proved for all programs: intervals are ordered, operands of logical and temporal operators and roots of specifications are typed bool; written formulas do not mix tense; typed-bool expressions really have Boolean values under the conditions type checking leaves open. Tense is not checked through names (C31_tense_fails), aggregation variables leak (C31_scope_fails), structure calls with missing arguments are accepted (C31_struct_fails)."
  },
  {
   "property": "C32",
   "status": "partial",
   "theorems": [
    "R2U2.C32_within_partial",
    "R2U2.C32_enums_partial",
    "R2U2.C32_sections_fail",
    "R2U2.C32_members_fail"
   ],
   "note": "Proved within a section and for enumerations against everything declared earlier. Fails across sections (C32_sections_fail) and for enumeration members (C32_members_fail)."
  },
  {
   "property": "C33",
   "status": "partial",
   "theorems": [
    "R2U2.C33_guards_partial",
    "R2U2.C33_all_partial",
    "R2U2.C33_assembly",
    "R2U2.C33_reported_guard",
    "R2U2.C33_composite",
    "R2U2.C33_reported",
    "R2U2.C33_fails"
   ],
   "note": "All guards, the dependency table, check_guards, Command/CompositeCommand.execute, the console's runsource and the list of registered commands are modelled; functions of commands are arbitrary. Proved for every session: guards and direct dependencies hold at every call; for all registered commands except seven, everything needed (transitively) holds; composite commands stop at the first failing step and report it; a failure is never lost from the return code. The full statement is false of the code: check_guards does not follow dependencies transitively (C33_fails: write_mltl runs on a program that was only parsed)."
  },
  {
   "property": "C34",
   "status": "partial",
   "theorems": [
    "R2U2.C34_restored_partial",
    "R2U2.C34_known_definitions",
    "R2U2.C34_apart",
    "R2U2.C34_parse_works",
    "R2U2.C34_assemble_works",
    "R2U2.C34_rewrite_works",
    "R2U2.C34_enums_fail",
    "R2U2.C34_push_declares",
    "R2U2.C34_assembly_fails",
    "R2U2.C34_slice_fails",
    "R2U2.C34_contract_fails",
    "R2U2.C34_definitions_fail"
   ],
   "note": "Model of the object heap, programs, contexts, deepcopy of expressions/sections/programs/contexts, push, pop, parse, assemble. Proved for all histories with nested push/pop: saved states are separate from the current program and are restored (same sections, expressions, specification sets, flags, atomic numbers, tables, options), for programs whose specification sets are those of their sections and commands that change only what the program reaches (shown for parsing, code generation and in-place rewriting). False of the code, with witnesses: enumerations are not copied, the assembly list is shared and emptied by parsing, resolved contracts come back, array slices cannot be copied, push declares into the current context, and expanding definitions after push splices saved nodes into the current program."
  },
  {
   "property": "C35",
   "status": "partial",
   "theorems": [
    "R2U2.C35_mapping_partial",
    "R2U2.C35_success",
    "R2U2.C35_accepted_partial",
    "R2U2.C35_junk_fails",
    "R2U2.C35_range_fails",
    "R2U2.C35_index_fails",
    "R2U2.C35_generate_partial",
    "R2U2.C35_generate_kept"
   ],
   "note": "Map files with indices of at most two digits (single-digit lower bounds of ranges) give exactly the specified mapping, ids and missing list (C35_mapping_partial); every successful parse leaves all signals mapped and carrying the mapped index (C35_success); accepted lines start SYMBOL ':' digit (C35_accepted_partial); generate_map then parse_map is the identity (C35_generate_partial), and generate_map keeps and writes a mapping all signals already have (C35_generate_kept). Disproved in general: trailing junk accepted, ranges from 10 up mapped as one name, a[100]:5 raises (C35_*_fails). Texts are ASCII; file reading not modelled."
  },
  {
   "property": "C36",
   "status": "partial",
   "theorems": [
    "R2U2.C36_cpu_partial",
    "R2U2.C36_listed",
    "R2U2.C36_monotone",
    "R2U2.C36_bound",
    "R2U2.C36_rounding_fails",
    "R2U2.C36_missing_fails",
    "R2U2.C36_fpga",
    "R2U2.C36_fpga_init",
    "R2U2.C36_fpga_sizes_fail"
   ],
   "note": "For compiled programs the software estimate is the sum over the computed nodes of the (rounded down) latency/clock (C36_cpu_partial), within one unit per instruction of the exact quotient (C36_bound) and monotone in the table (C36_monotone). Disproved: per-instruction truncation can give 0 (C36_rounding_fails); a missing table entry makes the total 0 (C36_missing_fails); the hardware estimate ignores clock and queue sizes (C36_fpga_sizes_fail). Float rounding not modelled."
  },
  {
   "property": "C37",
   "status": "partial",
   "theorems": [
    "R2U2.Sabre.C37_output_partial",
    "R2U2.Sabre.C37_true_fails",
    "R2U2.Sabre.C37_iff_fails",
    "R2U2.Sabre.C37_until_fails",
    "R2U2.Sabre.C37_signals_fail",
    "R2U2.Sabre.C37_leftover_fails"
   ],
   "note": "Proved for every formula of Supported (conjunction, disjunction, negation, implication, xor, false, F, G, and U whose upper bound gives the same power of two as its length; the part of a window beyond a power of two below a word or a multiple of it), every word size, input, initial contents and every result of undefined operations: C37_output_partial. Violations proved with witnesses: the constant true, <->, U with a lower bound, signal numbers beyond the number of signals, and a leftover larger than a word. Release and past time have no code."
  },
  {
   "property": "C38",
   "status": "proved",
   "theorems": [
    "R2U2.C38_exact",
    "R2U2.C38_unsupported",
    "R2U2.C38_strict",
    "R2U2.C38_strict_fails",
    "R2U2.C38_check_sat"
   ],
   "note": "C38_exact: for every supported formula (constants, Boolean signals, !, n-ary && and ||, <->, F, G, U; ordered bounds) the QF_BV script exists and is satisfiable, in the SMT-LIB meaning of its terms, exactly when some trace satisfies the formula; C38_unsupported: for all other formulas no script is written; C38_check_sat: check_sat's answers under a correct solver; C38_strict: exact characterisation of strict mode, which differs from the documented finite-trace semantics (C38_strict_fails). Not modelled: integer terms, symbolic bounds, script text."
  },
  {
   "property": "C39",
   "status": "partial",
   "theorems": [
    "R2U2.C39_short_partial",
    "R2U2.C39_fails",
    "R2U2.C39_sound_partial",
    "R2U2.C39_strict"
   ],
   "note": "The non-strict script asserts the formula over a trace of length wpd instead of wpd+1: C39_fails (a single signal is reported unsatisfiable; !F[1,1] true satisfiable). C39_short_partial says exactly when the script is satisfiable. C39_strict is exact for strict mode."
  },
  {
   "property": "C40",
   "status": "partial",
   "theorems": [
    "R2U2.C40_exact_partial",
    "R2U2.C40_fails",
    "R2U2.C40_strict_partial",
    "R2U2.C40_strict_fails"
   ],
   "note": "C40_exact_partial for formulas whose && and || have two operands and without Boolean ==; C40_fails shows that both are needed (the trace length only counts the first two operands). C40_strict_partial: strict mode is the documented finite-trace semantics except F over [0,0] and [1,1] (C40_strict_fails)."
  },
  {
   "property": "C41",
   "status": "proved",
   "theorems": [
    "R2U2.C41_rules",
    "R2U2.C41_extracted",
    "R2U2.C41_disordered_fails"
   ],
   "note": "All rules of the five .egg files, any selection of files; any number of rule, merge and congruence steps. Rules need 0<=lb<=ub (C41_disordered_fails), which the compiler guarantees for the formulas it exports. The hypothesis that the extracted term is not a bare variable is C42_root_fails. egglog itself is represented by the closure EqG of the rules under congruence, not by its implementation."
  },
  {
   "property": "C42",
   "status": "partial",
   "theorems": [
    "R2U2.C42_round_trip_partial",
    "R2U2.C42_injective",
    "R2U2.C42_exported",
    "R2U2.C42_root_fails",
    "R2U2.C42_root_rejected"
   ],
   "note": "Exact round trip for every exportable formula other than a single atom (C42_round_trip_partial); the exportable formulas are characterised (C42_exported); export is injective. A formula that is, or is simplified to, a single atom comes back as the signal named aN, or is lost (C42_root_fails, C42_root_rejected)."
  },
  {
   "property": "C43",
   "status": "partial",
   "theorems": [
    "R2U2.C43_equiv_partial",
    "R2U2.C43_not_equiv",
    "R2U2.C43_fails",
    "R2U2.C43_bv",
    "R2U2.C43_qf_fails"
   ],
   "note": "C43_equiv_partial (every adjacent pair of formulas was answered unsat when the check succeeds and prints equivalent) and C43_not_equiv hold for every encoding and solver; C43_bv composes them with C38 for a correct solver: printed equivalence means semantic equivalence of all formulas. C43_fails: a contract between formulas, or an encoding failure, leaves `equivalent` printed; C43_qf_fails: with QF_UFLIA any two signals are found equivalent."
  },
  {
   "property": "C44",
   "status": "proved",
   "theorems": [
    "R2U2.C44_queue",
    "R2U2.C44_capacity_needed"
   ],
   "note": "Any schedule of writes and reads that keeps within the capacity; C44_capacity_needed shows that the capacity hypothesis is necessary."
  },
  {
   "property": "C45",
   "status": "partial",
   "theorems": [
    "R2U2.C45_verdicts_partial",
    "R2U2.C45_meaning_exists",
    "R2U2.C45_ends_partial",
    "R2U2.C45_sizes_fail",
    "R2U2.C45_since_fails",
    "R2U2.C45_trigger_fails",
    "R2U2.C45_past_sizes_fail",
    "R2U2.C45_ahead_fails",
    "R2U2.C45_constants_fail"
   ],
   "note": "Programs of future-time operators, once and historically whose queues have room: every report is right on every trace, and every time step ends. Fails as stated: the compiler's queue lengths are too small for bursts (C45_sizes_fail) and for nested past-time operators (C45_past_sizes_fail), since and trigger are wrong (C45_since_fails, C45_trigger_fails), constants make the step loop forever, alone (C45_constants_fail) or beside a past-time operand known ahead of time (C45_ahead_fails)."
  },
  {
   "property": "C46",
   "status": "partial",
   "theorems": [
    "R2U2.C46_verdicts_partial"
   ],
   "note": "Same programs as C45: answered within W, never before B (which is negative for once and historically)."
  },
  {
   "property": "C47",
   "status": "proved",
   "theorems": [
    "R2U2.C47_round_trip",
    "R2U2.C47_set",
    "R2U2.C47_marker"
   ],
   "note": "Word packing of verdicts with times below 2^31: round trip, setters, and the only collision with the empty marker is (true, 2^31-1)."
  },
  {
   "property": "C48",
   "status": "proved",
   "theorems": [
    "R2U2.C48_postorder"
   ],
   "note": "For every acyclic heap and list of start nodes; termination included. Set aggregations' Bind nodes are not modelled (they are gone after desugaring)."
  },
  {
   "property": "C49",
   "status": "partial",
   "theorems": [
    "R2U2.C49_value_unique",
    "R2U2.C49_booleanizer_partial",
    "R2U2.C49_nested_prev_fails"
   ],
   "note": "On every history of signal values the compiled, encoded and loaded booleanizer code puts the specified value of every atomic's expression into the atomic at every step. Missing: values that C leaves undefined (overflow, division by zero), and prev directly applied to prev, for which the claim is false (C49_nested_prev_fails). Floating-point operations are parameters."
  },
  {
   "property": "C50",
   "status": "partial",
   "theorems": [
    "R2U2.Mltl.C50_roundtrip_partial",
    "R2U2.Mltl.C50_exact",
    "R2U2.Mltl.C50_same",
    "R2U2.Mltl.C50_verdicts",
    "R2U2.Mltl.C50_grammar",
    "R2U2.Mltl.C50_unambiguous",
    "R2U2.Mltl.C50_xor_fails",
    "R2U2.Mltl.C50_mixed_fails",
    "R2U2.Mltl.C50_grouping_fails",
    "R2U2.Mltl.C50_contracts_fail"
   ],
   "note": "C50_exact says for every program exactly when its exported text is read back (the format can express all formulas in one tense) and that the formulas read are then the ones written, atoms by number, operands grouped to the left; C50_same: literally the same if no operator has more than two operands (as after multi_operators_to_binary); C50_verdicts: same verdicts on every trace otherwise. Failures proved: xor is exported but cannot be read, future- and past-time formulas in one program cannot be read, n-ary operators come back grouped, contracts are dropped. C50_grammar: the reader accepts a text exactly when every line is in the stratified grammar of Spec/Mltl (the precedence and associativity of the operators spelt out) and builds that grammar's formulas; C50_unambiguous: no line has two readings."
  },
  {
   "property": "C51",
   "status": "partial",
   "theorems": [
    "R2U2.C51_symbols_partial",
    "R2U2.C51_fresh_partial",
    "R2U2.C51_enum_twice",
    "R2U2.C51_enum_visible"
   ],
   "note": "Context.clear and get_symbols; proved: after parsing only enumerations remain visible, and after any history of parsing and type checking programs without enumerations the verdict on a new program is that of a fresh console. False with enumerations (C51_enum_twice, C51_enum_visible): Context.clear keeps them. Simplification: after a rejected program the context is arbitrary up to enumerations and options."
  },
  {
   "property": "C52",
   "status": "proved",
   "theorems": [
    "R2U2.C52_optimize_latency"
   ],
   "note": "For formulas on which optimize_rewrites is sound (see C01)."
  },
  {
   "property": "C53",
   "status": "proved",
   "theorems": [
    "R2U2.BProg.C53_code"
   ],
   "note": "Under Ready, Separate and Covered, all shown satisfied by an example whose assembly is computed in the kernel."
  },
  {
   "property": "C54",
   "status": "proved",
   "theorems": [
    "R2U2.C54_total",
    "R2U2.C54_meaning",
    "R2U2.C54_ready"
   ],
   "note": "C54_total (ends), C54_meaning (unchanged up to the inserted atomics), C54_ready (result is Ready, Covered and Separate as the code-generation theorems require)."
  },
  {
   "property": "C55",
   "status": "partial",
   "theorems": [
    "R2U2.C55_signals_partial",
    "R2U2.C55_end_to_end_partial",
    "R2U2.C55_enough_slots",
    "R2U2.C55_enough_slots_future"
   ],
   "note": "C55_end_to_end_partial: for every program graph of future-time operators, once and historically meeting Ready/Separate/Covered/Monitorable the encoded bytes load, configure within the generated bounds and answer every formula with its MLTL value within any valid delay bound (the recorded delays are one), on every trace shorter than 2^31 less the largest distance a past-time operator sees ahead. C55_enough_slots: numbers of extra slots with which the room condition always holds. Missing: general since and trigger, constant-decided operators and undersized queues, for which the claim is false (C45_constants_fail, C45_ahead_fails, C45_sizes_fail, C45_past_sizes_fail, C45_since_fails, C45_trigger_fails). C55_signals_partial extends it to programs with the booleanizer: from signal values to verdicts."
  },
  {
   "property": "C56",
   "status": "partial",
   "theorems": [
    "R2U2.C56_desugar_partial",
    "R2U2.C56_check",
    "R2U2.C56_strict",
    "R2U2.C56_deep_index_fails",
    "R2U2.C56_slice_fails"
   ],
   "note": "C56_desugar_partial: the composition of all eight tree passes, for well-sorted expressions without array comparisons (C29), with the conditions of C28, picking elements from written-out arrays only, on runs that report no error. False without them: C56_deep_index_fails (element of a member of an element is miscompiled), C56_slice_fails (out-of-bounds slice reported but compiled)."
  },
  {
   "property": "C57",
   "status": "proved",
   "theorems": [
    "R2U2.C57_extraction",
    "R2U2.C57_ilp_graph"
   ],
   "note": "Any feasible 0/1 solution, cyclic e-graphs included. The solver, and optimality of its solution, are not modelled. C57_ilp_graph: the node the ILP extraction builds in the program graph stands for the extracted term, with the delays of its operators."
  },
  {
   "property": "C58",
   "status": "partial",
   "theorems": [
    "R2U2.C58_greedy_fails",
    "R2U2.C58_ilp_fails",
    "R2U2.C58_greedy_partial"
   ],
   "note": "False in general: greedy import forgets the operators of earlier formulas (C58_greedy_fails), ILP import forgets earlier occurrences within one formula (C58_ilp_fails). Proved: greedy import, operators of the formula imported last (C58_greedy_partial)."
  },
  {
   "property": "C59",
   "status": "partial",
   "theorems": [
    "R2U2.C2po.C59_exact",
    "R2U2.C2po.C59_unambiguous",
    "R2U2.C2po.C59_unambiguous_expr",
    "R2U2.C2po.C59_tokens_partial",
    "R2U2.C2po.C59_lines",
    "R2U2.C2po.C59_comment",
    "R2U2.C2po.C59_prev_fails",
    "R2U2.C2po.C59_minus_fails",
    "R2U2.C2po.C59_illegal_fails",
    "R2U2.C2po.C59_empty_array_fails"
   ],
   "note": "C59_exact: the parser accepts a text iff its tokens are a program of the grammar of Spec/Grammar (stated without the stack, precedences as side conditions on operands), and returns exactly that program; C59_unambiguous(_expr): one meaning per text. C59_tokens_partial: tokens spelled as in Spec/Lexical and separated by blanks are read one by one, except identifiers that start with prev; C59_lines, C59_comment: line breaks separate tokens, comments do not matter. Failures proved: an identifier starting with prev is rejected, x-1 is rejected while x - 1 is accepted, characters of no token are skipped and the text accepted, {} raises an exception."
  },
  {
   "property": "C61",
   "status": "proved",
   "theorems": [
    "R2U2.C2po.C61_numbers",
    "R2U2.C2po.C61_distinct",
    "R2U2.C2po.C61_labels_fail"
   ],
   "note": "C61_numbers: the numbers of all specifications in text order are 0, 1, ..., three per contract; C61_distinct. C61_labels_fail: the generated name of an unlabelled specification can coincide with a user's label."
  },
  {
   "property": "C60",
   "status": "partial",
   "theorems": [
    "R2U2.C2po.C60_roundtrip_partial",
    "R2U2.C2po.C60_injective_partial",
    "R2U2.C2po.C60_enum_fails",
    "R2U2.C2po.C60_count_fails",
    "R2U2.C2po.C60_sqrt_fails",
    "R2U2.C2po.C60_call_fails",
    "R2U2.C2po.C60_label_fails"
   ],
   "note": "Proved for every parsed program without enumerations, counted aggregations, sqrt/abs of operands without parentheses of their own, calls without arguments, numbers in scientific notation and labels of the form __x__. The _fails theorems show enumerations, counted aggregations, sqrt of a name and calls without arguments coming back unreadable, and a label __x__ changed."
  },
  {
   "property": "C62",
   "status": "partial",
   "theorems": [
    "R2U2.C62_to_bnf_ends",
    "R2U2.C62_to_nnf_ends",
    "R2U2.C62_to_binary_ends",
    "R2U2.C62_flatten_ends",
    "R2U2.C62_remove_extended_ends",
    "R2U2.C62_remove_release_ends",
    "R2U2.C62_optimize_ends",
    "R2U2.C62_to_bnf",
    "R2U2.C62_to_nnf_partial",
    "R2U2.C62_to_binary_partial",
    "R2U2.C62_flatten_partial",
    "R2U2.C62_remove_extended_partial",
    "R2U2.C62_remove_release",
    "R2U2.C62_optimize_rewrites_partial"
   ],
   "note": "C62_to_bnf and C62_remove_release hold for every graph. to_nnf is proved for specifications without exclusive or, optimize_rewrites under the hypotheses of C01, the binary/flatten/extended passes for atoms whose sums and products are already short enough. C62_*_ends: every pass ends on every program, however its nodes are shared (optimize_rewrites: when &&, || and == have two operands)."
  },
  {
   "property": "C63",
   "status": "partial",
   "theorems": [
    "R2U2.C63_compile_total_partial",
    "R2U2.C63_compile_partial",
    "R2U2.C63_to_bnf_shape",
    "R2U2.C63_remove_release_shape",
    "R2U2.C63_to_binary_shape",
    "R2U2.C63_remove_extended_shape"
   ],
   "note": "C63_compile_total_partial: for all graphs and all option combinations the passes end, and then both sets hold the same specifications in order, same labels and numbers, equivalent formulas, and no reachable node is an extended operator or has more than two operands. Missing: equality saturation is not in the chain; --rewrite needs the conditions under which optimize_rewrites is right (C01); sums and products inside atoms have at most two operands. C63_*_shape: the graph-level shape each single pass leaves behind."
  },
  {
   "property": "C64",
   "status": "partial",
   "theorems": [
    "R2U2.C64_compile_and_run_partial"
   ],
   "note": "C64_compile_and_run_partial: whenever the tool writes a binary for a desugared program over Boolean signals, with any of --rewrite, --extops, --cse, the monitor with the generated bounds loads it, stays within its arrays and reports only right verdicts of the formulas as written, each in time. Missing: the booleanizer, equality saturation, and what is known to go wrong (Fit: == between truth values, written-out since and trigger, constants as operands; undersized queues; signal maps with gaps)."
  },
  {
   "property": "C65",
   "status": "partial",
   "theorems": [
    "R2U2.C65_text_to_verdicts_partial"
   ],
   "note": "C65_text_to_verdicts_partial: for every text that parses, type-checks, desugars and compiles, and every run, the monitor reports for every specification of the text (three numbers per contract) its meaning on the inputs, in time; numbers are shown distinct from the text. Missing: comparisons of arrays, expressions outside C56, non-Boolean signals, how the parser's trees become the shared graph (any graph holding the formulas will do), and what C64 leaves out. C30_trees_partial ties tree expansion to expansion on the graph."
  },
  {
   "property": "C66",
   "status": "partial",
   "theorems": [
    "R2U2.C66_rust_verdicts_partial"
   ],
   "note": "C66_rust_verdicts_partial: for every loaded program of future-time operators, once and historically, in queues with room, every run of the Rust monitor of fewer than 2^32 steps ends without a panic and reports exactly the right verdicts in time. Missing: general since and trigger, the Rust booleanizer (atomics are given), output buffers smaller than the number of verdicts a step can have, times near 2^32. Proved by a simulation between the Rust data structures and the queue-level monitor."
  },
  {
   "property": "C67",
   "status": "partial",
   "theorems": [
    "R2U2.C67_rust_compile_and_run_partial",
    "R2U2.C67_outputs_fail"
   ],
   "note": "C67_rust_compile_and_run_partial: C64 with the Rust monitor: loading, configuration and run, for every array size at least that written and an output buffer with room for one more verdict per specification than the steps it looks. C67_outputs_fail: the size the compiler writes for the output buffer (twice the number of formulas) is too small for x && (y U[0,5] z): the monitor panics. Missing otherwise: as in C64."
  },
  {
   "property": "C68",
   "status": "partial",
   "theorems": [
    "R2U2.C68_update_partial",
    "R2U2.C68_update_keeps",
    "R2U2.C68_update_fails"
   ],
   "note": "C68_update_fails: after update_binary_file the old instructions are still in the table (reset sets the booleanizer's count twice and never the temporal one, monitor.rs:87-94): the monitor panics or goes on reporting the old specification. C68_update_keeps: this is so for every monitor and file. C68_update_partial: on a monitor without instructions the update gives what get_monitor gives."
  },
  {
   "property": "C69",
   "status": "partial",
   "theorems": [
    "R2U2.C69_text_to_rust_partial"
   ],
   "note": "C69_text_to_rust_partial: C65 for the Rust monitor, with arrays no smaller than the written bounds and an output buffer with room for one step's verdicts (C67_outputs_fail: the written size is not enough). Missing: as C65 and C67."
  },
  {
   "property": "C70",
   "status": "partial",
   "theorems": [
    "R2U2.C70_header_partial",
    "R2U2.C70_twice_fails",
    "R2U2.C70_missing_fails",
    "R2U2.C70_no_header"
   ],
   "note": "C70_header_partial: distinct names, any white space around them. C70_twice_fails: with a repeated name the command fails instead of taking the right-most column (the warning reads an option that does not exist, trace.py:53). C70_missing_fails: missing signals are not reported for the same reason (trace.py:64) and the incomplete mapping is kept. C70_no_header: without header the command succeeds and maps nothing."
  },
  {
   "property": "C71",
   "status": "partial",
   "theorems": [
    "R2U2.C71_command_line_partial",
    "R2U2.C71_readable",
    "R2U2.C71_line_end_fails",
    "R2U2.C71_spaces_fail",
    "R2U2.C71_empty_field_fails",
    "R2U2.C71_blank_line_fails",
    "R2U2.C71_columns_fail",
    "R2U2.C71_long_line_fails"
   ],
   "note": "C71_command_line_partial: from the texts of program and trace to the printed text, for rows of equally many non-empty fields (0 is false, all others true) that fit the buffer. C71_readable: the printed text determines the verdicts. Fails: C71_line_end_fails (0 before a carriage return is true), C71_spaces_fail (' 0' and '0.0' are true), C71_empty_field_fails (empty fields shift columns), C71_blank_line_fails (a blank line is a time step), C71_columns_fail (unused columns are stored out of bounds), C71_long_line_fails. Missing: the booleanizer, what C65 leaves out; rows with @ are in C72."
  },
  {
   "property": "C72",
   "status": "partial",
   "theorems": [
    "R2U2.C72_verdicts_partial",
    "R2U2.C72_ends_partial",
    "R2U2.C72_event_file_partial",
    "R2U2.C72_enough_slots",
    "R2U2.C72_event_rows_fails",
    "R2U2.C72_same_times"
   ],
   "note": "C72_event_file_partial: from compiled program and trace file to printed text; C72_verdicts_partial and C72_ends_partial are the queue-level statements. Asks for future-time F and G and for queues with slots for all times between the earliest and the latest verdict of an operand: C72_enough_slots shows that a large enough scq_constant gives them. C72_event_rows_fails: with the queue sizes the compiler computes, x <-> ((F[1,2] x) <-> y) gets a wrong verdict on event rows that it does not get on the same values row by row. C72_same_times: on every binary, trace files with the same values at the same times give the same text, whichever rows have their times written. Missing: general until and release, past-time operators, rows whose times do not increase, what C55 leaves out."
  },
  {
   "property": "C73",
   "status": "partial",
   "theorems": [
    "R2U2.C73_same_times",
    "R2U2.C73_names_partial",
    "R2U2.C73_last_contract_fails",
    "R2U2.C73_text_partial",
    "R2U2.C73_only_contract_fails",
    "R2U2.C73_past_first_fails",
    "R2U2.C73_long_label_fails",
    "R2U2.C73_names_numbers_partial",
    "R2U2.C73_numbers_partial"
   ],
   "note": "Proved from the assembled bytes (C73_names_partial) from the text of a program (C73_text_partial), and for compiled programs over numeric expressions (C73_names_numbers_partial, C73_numbers_partial): every verdict is printed with its label, statuses of contracts are right and complete. The code violates the property in three ways, each proved: with the limits the compiler writes the last contract is never reported (C73_last_contract_fails, for all programs; C73_only_contract_fails, a run), a PTSPEC section before an FTSPEC section swaps names (C73_past_first_fails), a label of more than 50 characters removes all names (C73_long_label_fails). C73_same_times: on every binary, the output does not depend on which rows have their times written."
  },
  {
   "property": "C74",
   "status": "partial",
   "theorems": [
    "R2U2.C74_command_line_partial",
    "R2U2.C74_without",
    "R2U2.C74_text_fails",
    "R2U2.C74_exponent_fails",
    "R2U2.C74_large_fails",
    "R2U2.C74_point_fails",
    "R2U2.C74_whole_fails",
    "R2U2.C74_true_fails",
    "R2U2.C74_compiled_partial"
   ],
   "note": "C74_command_line_partial: from the assembled program and the text of a trace to the printed text; integers in decimal, floats (as read by sscanf, a parameter) with a decimal point. C74_compiled_partial: the same from the formulas as written, for what the compiler writes (with C75). C74_without: programs without booleanizer instructions run as in C71. Fails: C74_text_fails (a text that is no number repeats the value of the line before), C74_exponent_fails, C74_large_fails, C74_point_fails (an integer written 7.0), C74_whole_fails (a float written 1 or 1e3 is stored as an integer), C74_true_fails (true is true without the booleanizer, false with it). Missing: the step from the text of the program to the desugared formulas (C65 is without booleanizer), what C49, C55 and C75 leave out."
  },
  {
   "property": "C75",
   "status": "partial",
   "theorems": [
    "R2U2.C75_compile_and_run_numbers_partial"
   ],
   "note": "C75_compile_and_run_numbers_partial: whenever the tool with --booleanizer writes a binary for a desugared program over numeric expressions, with any of --rewrite, --extops, --cse, the monitor loads it, stays within its arrays, and reports only right verdicts of the formulas as written over the values of the expressions as written, each in time. Example: two future-time and one past-time specification over x > 5 and prev(0, x) < y, for every history of integers. Missing: equality saturation, what Fit leaves out (as in C64), what BzAtoms leaves out (negative integer literals, floats the C loader truncates, prev of prev), and that the type checker's types reach every node of the graph (TypedAs is a hypothesis)."
  },
  {
   "property": "C76",
   "status": "partial",
   "theorems": [
    "R2U2.C76_rust_signals_partial",
    "R2U2.C76_rust_numbers_partial",
    "R2U2.C76_rust_floats_partial"
   ],
   "note": "C76_rust_numbers_partial: C75 with the Rust monitor, its loader, its booleanizer and its temporal engine, on the operations both monitors compute alike; C76_rust_floats_partial: with comparisons of floats and integer powers and roots as the Rust monitor computes them; C76_rust_signals_partial: for assembled programs. Missing: as in C75 and C67; != between floats (for operands that are not numbers it is not the negation of ==)."
  },
  {
   "property": "C77",
   "status": "partial",
   "theorems": [
    "R2U2.C77_saturates_partial",
    "R2U2.C77_words",
    "R2U2.C77_roots_and_zero",
    "R2U2.C77_remainder_fails",
    "R2U2.C77_power_fails",
    "R2U2.C77_overflow_lost_fails",
    "R2U2.C77_comparisons",
    "R2U2.C77_monitors_differ_fails"
   ],
   "note": "C77_saturates_partial: add, subtract, multiply, divide, remainder, negation, absolute value and powers of nonnegative numbers write the nearest 32-bit integer to the exact result and set the flag exactly if they had to; C77_words: the cells always hold 32-bit integers; C77_roots_and_zero: roots and divisors 0; C77_comparisons: comparisons of floats form a consistent order up to the tolerance. Failures: C77_remainder_fails (-2^31 % -1 panics), C77_power_fails (overflowing powers of negative numbers get the wrong sign), C77_overflow_lost_fails (a later instruction clears the flag, so the step returns true), C77_monitors_differ_fails (C and Rust disagree on floats within the tolerance; in C > and <= hold together)."
  },
  {
   "property": "C78",
   "status": "partial",
   "theorems": [
    "R2U2.C78_same_times",
    "R2U2.C78_rust_command_line_partial",
    "R2U2.C78_rust_command_line_signals_partial",
    "R2U2.C78_overflow_drops_fails",
    "R2U2.C78_rust_text_to_lines_partial",
    "R2U2.C78_rust_event_rows_partial",
    "R2U2.C78_rust_event_file_partial",
    "R2U2.C78_event_rows_fails",
    "R2U2.C78_event_outputs_fails",
    "R2U2.C78_counting_stamps",
    "R2U2.C78_stamp_alone_fails",
    "R2U2.C78_repeated_stamp_fails"
   ],
   "note": "C78_rust_command_line_partial: from a compiled program over numeric expressions and the records of a trace to the printed text; C78_rust_command_line_signals_partial: the same for programs over Boolean signals, without the booleanizer; C78_rust_text_to_lines_partial: the latter from the text of the program. Fails: C78_overflow_drops_fails (a step with an arithmetic overflow prints a notice in place of all its verdicts, also of specifications without arithmetic). C78_counting_stamps: on every binary and trace, time stamps that count the records change nothing. Fails: C78_stamp_alone_fails (a time stamp with no space after it is not read as one: @15 is the value 5 of signal 0, for every binary and trace), C78_repeated_stamp_fails (a record with the time stamp of the record before is dropped without a notice). C78_rust_event_file_partial: records with times that skip moments, for assembled programs over Boolean signals without past-time operators, until and release but F and G, with extra queue slots and room in the output buffer (C78_rust_event_rows_partial: the same for the monitor). Fails: C78_event_rows_fails (with the queue sizes the compiler computes, a record that covers three moments makes the tool print a wrong verdict). C78_event_outputs_fails (with the output buffer the compiler computes, a record that covers five moments makes the tool panic). C78_same_times: on every binary, the output does not depend on which records have their times written. Names and contracts: C79. Missing: time stamps that skip moments with the booleanizer, the CSV library; what C76, C69 and C67 leave out."
  },
  {
   "property": "C79",
   "status": "partial",
   "theorems": [
    "R2U2.C79_same_times",
    "R2U2.C79_rust_names_partial",
    "R2U2.C79_without_names",
    "R2U2.C79_long_label_fails",
    "R2U2.C79_rust_text_partial",
    "R2U2.C79_status_room_fails",
    "R2U2.C79_past_first_fails",
    "R2U2.C79_rust_numbers_partial",
    "R2U2.C79_counting_stamps"
   ],
   "note": "C79_rust_names_partial: for every binary with names and every trace, the output with any of the options is the output of C78 with labels and statuses added; C79_rust_text_partial: from the text of a program over Boolean signals, what the statuses say of each contract is right and complete; C79_rust_numbers_partial: the same for compiled programs over numeric expressions; C79_without_names: binaries without names; C79_counting_stamps: time stamps that count the records change nothing. Fails: C79_status_room_fails (with the bounds the compiler writes, two statuses per contract, a step that decides three makes the tool panic), C79_past_first_fails (a PTSPEC section before an FTSPEC section swaps names), C79_long_label_fails (a label of more than 50 characters makes the tool panic on every trace). Missing: what C78 leaves out. C79_same_times: on every binary, the output does not depend on which records have their times written."
  }
 ]
}
