# Which lines of /repo are modelled

Generated by `tools/coverage.py` from the citations in `lean/Verif/Model` and `lean/Verif/Spec`.
A line counts as modelled when a definition cites a range that contains it; the comment of the
definition says what it simplifies.

## compiler/c2po/assemble.py (1335 lines)

Cited by Assembly.lean, Backend.lean, Binary.lean, Bounds.lean, Command.lean, Compile.lean, CompileBz.lean, Console.lean, Names.lean, RustBounds.lean, RustNames.lean, Wcet.lean: lines 11, 30-71, 84-118, 161-165, 167-182, 196-207, 209-223, 300-400, 402-832, 834-1076, 1078-1334.

Functions without a citation: `check_sizes`, `EngineTag.__str__`, `BZOperator.is_constant`, `BZOperator.is_load`, `BZOperator.__str__`, `ATRelOp.__str__`, `ATFilter.__str__`, `FTOperator.is_temporal`, `FTOperator.is_load`, `FTOperator.__str__`, `PTOperator.is_temporal`, `PTOperator.is_load`, `PTOperator.__str__`, `CGType.__str__`, `AliasType.__str__`.

## compiler/c2po/egglog/rewrites/associative.egg (11 lines)

Cited by Egg.lean: lines 1-11.

## compiler/c2po/atomics.py (83 lines)

Cited by Backend.lean, Command.lean, CompileBz.lean: lines 4-74, 76.

## monitors/c/src/engines/aux_info.c (34 lines)

Cited by Names.lean: lines 5-15, 20-30.

## monitors/c/src/engines/aux_info.h (21 lines)

Cited by Names.lean: lines 21.

## monitors/c/src/instructions/aux_info.h (29 lines)

Cited by Names.lean: lines 21-27.

## monitors/c/src/engines/booleanizer.c (344 lines)

Cited by Binary.lean, Booleanizer.lean: lines 4-344.

## monitors/c/src/instructions/booleanizer.c (23 lines)

Cited by Binary.lean, Booleanizer.lean: lines 4-23.

## monitors/c/src/engines/booleanizer.h (12 lines)

Cited by Binary.lean: lines 6-12.

## monitors/c/src/instructions/booleanizer.h (78 lines)

Cited by Binary.lean: lines 6-57, 59-64.

## monitors/c/src/internals/bounds.h (40 lines)

Cited by Booleanizer.lean: lines 38.

## compiler/c2po/egglog/greedy/bpd.egg (126 lines)

Not modelled.

## compiler/c2po/command.py (724 lines)

Cited by Command.lean, Cpt.lean, Map.lean: lines 9-21, 23-24, 53-76, 78-100, 103-130, 178-203, 217-232, 251-277, 280-297, 299-303, 341-724.

Functions without a citation: `Command.__eq__`, `Command.parsed_options_to_str`, `Command.__str__`, `CompositeCommand.__repr__`, `CommandRegistry.register`.

## compiler/c2po/egglog/rewrites/commutative.egg (25 lines)

Cited by Egg.lean: lines 1-25.

## monitors/c/src/internals/config.h (71 lines)

Cited by Csv.lean: lines 31-34.

## compiler/c2po/egglog/const_folding.egg (86 lines)

Cited by Egg.lean: lines 1-86.

## compiler/c2po/egglog/rewrites/const_folding.egg (86 lines)

Cited by Egg.lean: lines 1-86.

## compiler/c2po/egglog/greedy/cost.egg (155 lines)

Not modelled.

## compiler/c2po/egglog/greedy/cost_extended.egg (181 lines)

Not modelled.

## compiler/c2po/cpt.py (2353 lines)

Cited by Assembly.lean, Backend.lean, Command.lean, Compile.lean, Console.lean, Cpt.lean, Desugar.lean, Expand.lean, Extract.lean, FrontEnd.lean, GraphPass.lean, Heap.lean, Map.lean, Mltl.lean, Names.lean, Parser.lean, Printable.lean, Printing.lean, Source.lean, Transform.lean, Tree.lean, TypeCheck.lean, Unroll.lean, Write.lean: lines 31-70, 87-104, 106-113, 115-128, 130-131, 148-424, 426-478, 513-855, 941-954, 956-969, 971-982, 985-993, 995-1003, 1006-1014, 1016-1022, 1053-1102, 1108-1431, 1433-1607, 1609-1641, 1643-1669, 1671-1776, 1778-1792, 1794-1942, 1944-1959, 1961-2087, 2089-2185, 2187-2240, 2243-2353.

Functions without a citation: `Node.__init__`, `Node.__str__`, `Expression.get_descendants`, `Match.__init__`, `Match.matches`, `Match.__str__`, `Match.__repr__`, `OperatorKind.is_booleanizer_operator`, `OperatorKind.is_extended_operator`, `SymbolicTemporalOperator.__init__`, `SymbolicTemporalOperator.Global`, `SymbolicTemporalOperator.Future`, `SymbolicTemporalOperator.Until`, `SymbolicTemporalOperator.Release`, `SymbolicTemporalOperator.Historical`, `SymbolicTemporalOperator.Once`, `SymbolicTemporalOperator.Since`, `SymbolicTemporalOperator.Trigger`, `is_operator`, `is_min_max_operator`, `is_temporal_operator`, `ConcreteInterval.__eq__`, `SymbolicInterval.__eq__`.

## compiler/c2po/cse.py (41 lines)

Cited by Command.lean, Heap.lean: lines 4-32, 34.

## monitors/c/src/cli/csv_trace.c (39 lines)

Cited by BzCsv.lean, Csv.lean: lines 8-39.

## monitors/c/src/cli/csv_trace.h (19 lines)

Not modelled.

## monitors/c/src/internals/debug.h (26 lines)

Not modelled.

## compiler/c2po/desugar.py (446 lines)

Cited by Command.lean, Desugar.lean, Expand.lean, FrontEnd.lean: lines 4-23, 25-425, 429-445.

## compiler/c2po/egraph.py (812 lines)

Cited by Egg.lean, Extract.lean: lines 84-92, 94-95, 245-262, 326-525, 548-568, 570-659.

Functions without a citation: `encoding_timeout_handler`, `_process_resident_set_mib`, `_raise_if_memory_over_limit`, `EncodingMemoutBudget.tick`, `EncodingMemoutBudget.check_now`, `ENode.from_json`, `ENode.__eq__`, `ENode.__hash__`, `ENode.__str__`, `EGraph.from_json`, `EGraph.get_enodes`, `EGraph.get_eclasses`, `EGraph.get_children`, `EGraph.get_parents`, `EGraph.get_siblings_with_parent`, `EGraph.extract`, `EGraph.__str__`.

## monitors/c/src/engines/engines.c (61 lines)

Cited by Arena.lean, Booleanizer.lean, BzCsv.lean, Engine.lean, Monitor.lean: lines 5-61.

## monitors/c/src/engines/engines.h (20 lines)

Not modelled.

## compiler/c2po/eqsat.py (772 lines)

Cited by Command.lean, Egg.lean, Extract.lean: lines 119-123, 134-171, 174-175, 313-771.

Functions without a citation: `find_egglog`, `run_egglog`, `write_eqsat_encoding`, `write_eqsat_encoding.write_egglog`.

## monitors/c/src/internals/errors.c (21 lines)

Not modelled.

## monitors/c/src/internals/errors.h (26 lines)

Not modelled.

## compiler/c2po/egglog/extended.egg (236 lines)

Not modelled.

## monitors/c/src/lib.c (66 lines)

Cited by Booleanizer.lean, BzCsv.lean, Csv.lean: lines 31-66.

## compiler/c2po/log.py (116 lines)

Not modelled.

Functions without a citation: `set_current_command_name`, `reset_current_command_name`, `set_log_level`, `set_quiet`, `set_suppress_warnings`, `format`, `debug`, `warning`, `error`, `internal`.

## monitors/c/src/cli/main.c (150 lines)

Cited by BzCsv.lean, Csv.lean, Names.lean, NamesBz.lean: lines 27-147.

## compiler/c2po/main.py (429 lines)

Cited by Command.lean, Compile.lean, CompileBz.lean, Console.lean, FrontEnd.lean, Pipeline.lean: lines 92-225, 250-290, 312-352.

Functions without a citation: `print_failed_guard_message`, `main_rs`.

## compiler/c2po/main_wrapper.py (43 lines)

Not modelled.

Functions without a citation: `capture_print_output`, `capture_print_output.wrapper`, `compile_and_log`.

## compiler/c2po/map.py (145 lines)

Cited by Command.lean, Map.lean: lines 5-68, 70-144.

## monitors/c/src/engines/mltl.c (656 lines)

Cited by Arena.lean, Binary.lean, Csv.lean, Monitor.lean, Names.lean, Word.lean: lines 3-12, 18-67, 77-79, 87-598, 600-656.

## monitors/c/src/instructions/mltl.c (12 lines)

Cited by Arena.lean, Binary.lean, Csv.lean, Monitor.lean, Names.lean, Word.lean: lines 3-12.

## compiler/c2po/egglog/ilp/mltl.egg (23 lines)

Cited by Egg.lean: lines 1-23.

## compiler/c2po/egglog/greedy/mltl.egg (26 lines)

Cited by Egg.lean: lines 1-23.

## monitors/c/src/engines/mltl.h (19 lines)

Cited by Binary.lean: lines 5-19.

## monitors/c/src/instructions/mltl.h (55 lines)

Cited by Binary.lean: lines 5-34, 36-41, 43-50.

## monitors/c/src/memory/monitor.c (21 lines)

Not modelled.

## monitors/c/src/memory/monitor.h (119 lines)

Cited by Arena.lean, Booleanizer.lean, Bounds.lean, Engine.lean, Monitor.lean, Names.lean: lines 15-19, 29-102.

## compiler/c2po/egglog/rewrites/multi_arity.egg (155 lines)

Cited by Egg.lean: lines 1-155.

## compiler/c2po/parse_c2po.py (735 lines)

Cited by Command.lean, Console.lean, FrontEnd.lean, Grammar.lean, Parser.lean, Printable.lean: lines 7-709, 711.

## compiler/c2po/parse_egglog_output.py (205 lines)

Cited by Egg.lean, Extract.lean: lines 8-51, 57-59, 89-142, 145-149, 161-204.

Functions without a citation: `EgglogOutputLexer.__init__`, `EgglogOutputParser.__init__`, `EgglogOutputParser.error`, `EgglogOutputParser.program`, `EgglogOutputParser.expr_list`, `EgglogOutputParser.expr_list`.

## compiler/c2po/parse_equiv.py (358 lines)

Cited by Command.lean: lines 342.

Functions without a citation: `MLTLEquivLexer.NEWLINE`, `MLTLEquivLexer.__init__`, `MLTLEquivLexer.error`, `MLTLEquivParser.__init__`, `MLTLEquivParser.error`, `MLTLEquivParser.fresh_label`, `MLTLEquivParser.program`, `MLTLEquivParser.constraint_list`, `MLTLEquivParser.constraint_list`, `MLTLEquivParser.constraint`, `MLTLEquivParser.constraint_expr`, `MLTLEquivParser.constraint_expr`, `MLTLEquivParser.constraint_expr`, `MLTLEquivParser.constraint_expr`, `MLTLEquivParser.constraint_expr`, `MLTLEquivParser.constraint_expr`, `MLTLEquivParser.constraint_expr`, `MLTLEquivParser.constraint_expr`, `MLTLEquivParser.constraint_expr`, `MLTLEquivParser.constraint_expr`, `MLTLEquivParser.constraint_expr`, `MLTLEquivParser.constraint_expr`, `MLTLEquivParser.constraint_expr`, `MLTLEquivParser.constraint_expr`, `MLTLEquivParser.constraint_expr`, `MLTLEquivParser.constraint_expr`, `MLTLEquivParser.spec_list`, `MLTLEquivParser.spec_list`, `MLTLEquivParser.spec`, `MLTLEquivParser.expr`, `MLTLEquivParser.expr`, `MLTLEquivParser.expr`, `MLTLEquivParser.expr`, `MLTLEquivParser.expr`, `MLTLEquivParser.expr`, `MLTLEquivParser.expr`, `MLTLEquivParser.expr`, `MLTLEquivParser.expr`, `MLTLEquivParser.expr`, `MLTLEquivParser.expr`, `MLTLEquivParser.expr`, `MLTLEquivParser.expr`, `MLTLEquivParser.expr`, `MLTLEquivParser.interval`, `parse_equiv`.

## compiler/c2po/parse_mltl.py (313 lines)

Cited by Command.lean, Mltl.lean: lines 7-264, 267-269, 271-280, 283-304.

## monitors/c/src/internals/process_binary.c (128 lines)

Cited by Arena.lean, Binary.lean, Booleanizer.lean, Monitor.lean, Names.lean: lines 10-55, 57-66, 68-124.

## monitors/c/src/internals/process_binary.h (13 lines)

Not modelled.

## monitors/c/src/r2u2.h (47 lines)

Not modelled.

## compiler/c2po/r2u2.py (152 lines)

Cited by Command.lean: lines 96.

Functions without a citation: `find_r2u2_executable`, `run_r2u2`.

## compiler/c2po/rewrite.py (311 lines)

Cited by Command.lean, GraphPass.lean, Rewrite.lean: lines 4-302, 304.

## compiler/c2po/sabre.py (551 lines)

Cited by Command.lean, Sabre.lean: lines 18-437, 495.

Functions without a citation: `ceildiv`, `hexlit`, `line`, `generate_sabre_code`.

## compiler/c2po/sat.py (1473 lines)

Cited by Command.lean, Smt.lean: lines 14-20, 22-24, 171-406, 408-610, 612-1001, 1096-1472.

Functions without a citation: `find_smt_solver`, `run_smt_solver`, `to_smt_type`, `to_smt`, `write_smt_encoding`, `write_smt_encoding.write_smt`.

## compiler/c2po/scq.py (82 lines)

Cited by Backend.lean, Command.lean: lines 5-65, 67.

## compiler/c2po/serialize.py (117 lines)

Cited by Command.lean, Write.lean: lines 4-11, 13-116.

## monitors/c/src/memory/shared_connection_queue.c (71 lines)

Cited by Arena.lean, Monitor.lean: lines 3-33, 35-71.

## monitors/c/src/memory/shared_connection_queue.h (75 lines)

Cited by Arena.lean, Bounds.lean, Monitor.lean: lines 12-24, 51-53.

## compiler/c2po/stats.py (155 lines)

Not modelled.

Functions without a citation: `Stats.set_spec_filename`, `Stats.reset_smt_stats`, `Stats.format`, `Stats.get_help_message`, `Stats.deepcopy`.

## compiler/c2po/egglog/temporal.egg (128 lines)

Cited by Egg.lean: lines 1-128.

## compiler/c2po/egglog/rewrites/temporal.egg (295 lines)

Cited by Egg.lean: lines 1-295.

## compiler/c2po/trace.py (212 lines)

Cited by Command.lean, Trace.lean: lines 5-68, 70-211.

## compiler/c2po/transform.py (593 lines)

Cited by Command.lean, GraphPass.lean, Transform.lean: lines 5-114, 116-592.

## compiler/c2po/type_check.py (720 lines)

Cited by Backend.lean, Booleanizer.lean, Command.lean, Compile.lean, Egg.lean, FrontEnd.lean, Names.lean, TypeCheck.lean: lines 5-579, 581-690, 692-711, 713.

## monitors/c/src/internals/types.h (93 lines)

Cited by Booleanizer.lean, Monitor.lean, Word.lean: lines 33-83, 85-90.

## compiler/c2po/types.py (141 lines)

Cited by Source.lean, TypeCheck.lean, Write.lean: lines 30-120, 126-127.

Functions without a citation: `is_bool_type`, `is_float_type`, `is_struct_type`, `is_enum_type`, `is_array_type`.

## compiler/c2po/util.py (90 lines)

Not modelled.

Functions without a citation: `check_executable`, `read_file`, `format_bytes`, `get_rusage_time`, `get_children_rusage_time`, `set_max_memory`, `set_max_memory_offset`.

## compiler/c2po/wcet.py (100 lines)

Cited by Wcet.lean: lines 5-11, 13-43, 54-100.

## compiler/c2po/egglog/greedy/wpd.egg (126 lines)

Not modelled.
