# Where the code does not have a property

Each line is a theorem, proved in the file named, with its comment.  Generated by `tools/findings.py`.

* **C01** `C01_fails_on_false_equal` (Rewrite.lean): The unrestricted C01 is false of the code: `false == p` is rewritten to `p`.
* **C01** `C01_fails_on_singleton` (Rewrite.lean): A conjunction with a single operand makes the command raise an `IndexError` instead of keeping the specification.
* **C01** `C01_fails_on_third_operand` (Rewrite.lean): The unrestricted C01 is false of the code: the third operand of a conjunction that starts with two globally operators is dropped.
* **C01** `C01_short_trace_disagreement` (Delay.lean): On traces that are too short to decide a specification the rewriter does change the documented finite-trace verdict: `G[0,1] G[0,0] p` is true on the one-step trace where `p` holds, its rewriting `G[0,1] p` is not.
* **C03** `C03_fails_on_iff` (Transform.lean): The unrestricted C03 is false of the code: `p <-> q` is not changed by `to_bnf`, and is not in Boolean Normal Form.
* **C04** `C04_fails_on_negated_xor` (Transform.lean): The unrestricted C04 is false of the code: `to_nnf` turns `!(p xor q)` into `(!p && q) && (p && !q)`, which is never true.
* **C05** `C05_fails_on_double_negation` (Transform.lean): The unrestricted C05 is false of the code: `!!(p -> q)` becomes `p -> q`, and `!!!(p && q)` becomes `!(p && q)`.
* **C12** `C12_unroll_rejects_release` (Unroll.lean): The release operator is not supported: the function raises.
* **C14** `C14_fails_on_nested_past` (Delay.lean): The unrestricted C14 is false of the code: `H[0,0]((O[3,3] p) && q)` has recorded worst-case delay `-3`, but depends on the current `q`.
* **C14** `C14_fails_on_since` (Delay.lean): The unrestricted C14 is false of the code: `p S[0,5] q` has recorded delays `0, 0`, but its verdict at time 5 depends on `q` at time 0.
* **C17** `C17_fails_on_aggregation_count` (Printing.lean): Before desugaring the key is ambiguous: the count of a set aggregation is not printed, so `foratleast(s : {x}, 1)(s)` and `foratleast(s : {x}, 2)(s)` have the same text.
* **C17** `C17_fails_on_singleton_set` (Printing.lean): The key does not separate a specification set from its only specification (the set is the traversal root, has no parents, and replacing it has no effect on any specification).
* **C20** `C20_mixed_fail` (Atomics.lean): 
* **C21** `C21_atomics_fail` (Arena.lean): C21 fails without the booleanizer when the signal mapping leaves numbers out: the atomic buffer has one place, and the monitor reads place 5 in the first instruction of its first time step.
* **C21** `C21_signals_fail` (Arena.lean): C21 fails for the signal vector when the trace has columns the specification does not declare: with one declared signal in column 5, the vector has one place and the booleanizer loads place 5.
* **C23** `C23_shared_ids_fail` (Assembly.lean): C23 fails when a definition is used from a future-time and a past-time specification: the signal, the constant, the comparison and the store all get cell 4 (so the comparison compares a cell with itself), and queue 0, which the first specification reads, is never configured.
* **C24** `C24_floats_fail` (Binary.lean): What a float constant becomes: with bit 31 of its pattern set, the monitor loads a pattern that is 2^32 smaller.
* **C24** `C24_int_constants_fail` (Binary.lean): Integer constants from 2^31 on are packed as unsigned words and loaded as negative numbers.
* **C24** `C24_negative_constants_fail` (Binary.lean): Negative integer constants cannot be packed: `assemble` raises an exception.
* **C28** `C28_capture_fails` (Desugar.lean): C28 fails for a set with an aggregation in it: the name the member binds is captured. With `a` false and the other signals true the expression is false, but what it is unrolled to is true.
* **C29** `C29_length_fails` (Desugar.lean): C29 fails for arrays of different lengths, which type checking accepts if one of the lengths is not declared (types.py:108-115): only as many elements as the left array has are compared.
* **C29** `C29_ne_fails` (Desugar.lean): C29 fails for `!=`: it becomes the conjunction, not the disjunction, of the element comparisons. With `a` false and the others true, `{a, b} != {c, d}` should hold, but the result does not.
* **C30** `C30_alias_fails` (Expand.lean): C30 is false of a definition that is just another defined name: the specification is left with the name `a` in it. The program is not circular and all its expressions are Boolean.
* **C30** `C30_shadow_fails` (Expand.lean): C30 is false of an aggregation that binds a defined name: the name in its body is replaced by the definition. Where `y` and `z` hold and `x` does not, the specification holds, and what it is expanded to does not.
* **C31** `C31_scope_fails` (TypeCheck.lean): C31 fails for names: an accepted formula uses the variable of an aggregation outside of it, where it stands for nothing. Checking an aggregation leaves its variable in the context (type_check.py:253-295). FTSPEC foreach(x : {a, b})(x) && x;
* **C31** `C31_struct_fails` (TypeCheck.lean): C31 fails for structures: a structure made of too few values is accepted (`zip` stops at the shorter list, type_check.py:216-245), and a missing member is then said to be Boolean. STRUCT P : {x, y : bool} FTSPEC P(a).y;
* **C31** `C31_tense_fails` (TypeCheck.lean): C31 fails for tense: an accepted future-time specification that uses a past-time definition. Definitions before the first specification are checked as past-time ones (cpt.py:1465, type_check.py:305-322). INPUT a : bool; DEFINE p := O[0,3] a; FTSPEC G[0,3] p;
* **C32** `C32_members_fail` (TypeCheck.lean): C32 fails for enumeration members: two enumerations may have a member in common; and names declared after an enumeration may be those of its members (`get_symbols`, cpt.py:1520-1530, has no members). ENUM E : {on : 1}; F : {on : 2}; INPUT on : bool;
* **C32** `C32_sections_fail` (TypeCheck.lean): C32 fails: a name declared in two sections is accepted, as every section starts with an empty set of names (type_check.py:704-706); the later declaration wins. INPUT a, b : bool; DEFINE a := !b; FTSPEC a: b;
* **C33** `C33_fails` (Command.lean): **C33 fails.** `write_mltl` needs a well-typed program, since computed atomics depend on a desugared program and that on a well-typed one. It is called on a program that was only parsed, whatever it does.
* **C34** `C34_assembly_fails` (Console.lean): C34 fails: the generated code is lost. The saved context has the same list of assembly as the current one (cpt.py:1584-1586), and parsing empties that list (cpt.py:1508).
* **C34** `C34_contract_fails` (Console.lean): C34 fails: a resolved contract comes back. A copied program gets its specification sets from the sections (cpt.py:1313-1338, 1425-1431), which resolving a contract does not change.
* **C34** `C34_definitions_fail` (Console.lean): C34 fails: a command between `push` and `pop` changes the saved program. `push` makes the current context refer to the definitions of the copy (cpt.py:1265-1273, 1773-1776), so expanding `d` in the current program (desugar.py:4-26) puts a saved node into it; a later pass then rewrites that node, here by exchanging its operands as sorting operands does, and after `pop` the definition is `b && a`.
* **C34** `C34_enums_fail` (Console.lean): C34 fails: enumerations are lost. `Context.deepcopy` does not copy them (cpt.py:1564-1607), although the program still has its declaration.
* **C34** `C34_slice_fails` (Console.lean): C34 fails: a program with an array slice cannot be saved; copying raises `NotImplementedError` (cpt.py:1766-1767).
* **C35** `C35_index_fails` (Map.lean): C35 fails: `a[100]:5` is well formed, and the command fails without reporting any signal as missing.
* **C35** `C35_junk_fails` (Map.lean): C35 fails: `p:1:junk` is not of the form SYMBOL ':' NUMERAL, and the command succeeds on it.
* **C35** `C35_range_fails` (Map.lean): C35 fails: `a[10..12]:0` maps three elements, and the command maps a name that no signal can have; the program's element `a[11]` is reported as missing.
* **C36** `C36_fpga_sizes_fail` (Wcet.lean): C36 fails for hardware: neither the clock nor the sizes of the queues an operator reads change the estimate, although the time of a future-time operator is meant to be its execution time multiplied by the sizes of its operands' queues (wcet.py:78-92): the size records are compared by size instead of queue, and their unused operand is added.
* **C36** `C36_missing_fails` (Wcet.lean): C36 fails: an operator that is not in the table makes the whole estimate 0, whatever the others add up to.
* **C36** `C36_rounding_fails` (Wcet.lean): C36 fails: ten instructions of latency 1 at clock 2 take 5, and the estimate is 0.
* **C37** `C37_iff_fails` (Sabre.lean): C37 fails for `a0 <-> a1`, written with the C operator `==`, which compares whole words.
* **C37** `C37_leftover_fails` (Sabre.lean): C37 fails for `F[0,24] a0` with words of 8 bits: of the 25 time steps 16 are covered by doubling, and the remaining step of 9 shifts a word by more than its width, which C does not define. If that gives ones, the code prints true although `a0` never holds.
* **C37** `C37_signals_fail` (Sabre.lean): C37 fails when a signal's number is not below the number of signals of the formula, as in `!a1`: one column is read, into `atomics[0]`, and the formula uses `atomics[1]`, which is past the end of the array.
* **C37** `C37_true_fails` (Sabre.lean): C37 fails for the constant `true`, which is written as the word 1 instead of a word of ones: the first seven of eight time steps are printed as false.
* **C37** `C37_until_fails` (Sabre.lean): C37 fails for `a0 U[3,4] a1`: the loops go by `ub + 1` instead of the length of the interval, so the code looks at times after the interval's end. With `a1` at time 5 only it prints true for time 0.
* **C38** `C38_strict_fails` (Smt.lean): C38, strict mode, fails for the documented finite-trace semantics: `p && G[0,1] p && !F[1,1] true` has a satisfiable strict script, but no finite trace satisfies it in that semantics, where `G[0,1] p` needs `p` beyond the end.
* **C39** `C39_fails` (Smt.lean): C39 fails: a signal alone is satisfiable but its script is not, and `!F[1,1] true` is unsatisfiable but its script is satisfiable.
* **C40** `C40_fails` (Smt.lean): C40 fails: only the first two operands of a conjunction count for the length of the trace. `a && b && F[5,5] c` is satisfiable, but its script, over a trace of length 1, is not. Nor does `==` count its operands: `(F[5,5] a) == true`.
* **C40** `C40_strict_fails` (Smt.lean): C40, strict mode, fails: `F[1,1] false` has no satisfying trace, finite or not, but its script is satisfied by a trace of length 1, because F over `[1,1]` is written like G.
* **C41** `C41_disordered_fails` (Egg.lean): The rules need proper intervals: on `[1,0]` the rule `G[b0,b1] false ↦ false` is wrong.
* **C42** `C42_root_fails` (Egg.lean): C42 fails for a formula that is a single atom, or is simplified to one: the result is the declared signal that happens to be *named* `aN`. Here the program has two atoms, atom 0 and atom 1, and atom 1 is a signal the user called `a0`: `F[0,0] (atom 0)` comes back as atom 1.
* **C42** `C42_root_rejected` (Egg.lean): With no signal of that name the import fails: a formula that is one atom is lost.
* **C43** `C43_fails` (Smt.lean): C43 fails: a contract between two formulas hides them from each other, and the check then succeeds and prints "equivalent" without a question to the solver; and when a pair cannot be encoded "equivalent" is printed too, although the check then does not succeed.
* **C43** `C43_qf_fails` (Smt.lean): C43 with C39 fails: with QF_UFLIA and a solver whose answers are right, any two signals are found equivalent.
* **C44** `C44_capacity_needed` (Monitor.lean): One slot too few: the reader asks for time 1 and is told what holds at time 2.
* **C45** `C45_ahead_fails` (Monitor.lean): `true & O[1,5] a`: if `a` holds at the start, the first time step never ends, however many passes are made.
* **C45** `C45_constants_fail` (Monitor.lean): A specification that is a constant (`true`, or `!true`): the return instruction finds a verdict in every pass, so the first time step never ends, however many passes are made.
* **C45** `C45_past_sizes_fail` (Monitor.lean): Nested past-time operators know verdicts ahead of time, which `compute_scq_sizes` does not reckon with: `H[0,5] a` turns false at 1 and is then known up to time 6, so `O[0,3] H[0,5] a` is known to be true up to 3 and false up to 6 in one step; the verdict for 3 is overwritten before it is used. With `a` at 0 only and `c` always, the monitor reports false for times 2 and 3, where the formula holds.
* **C45** `C45_since_fails` (Monitor.lean): Since: a later failure of the left operand does not clear the edge. With `b` at 0 and `a` at 2 only, the monitor reports true at time 2, where `a S[0,3] b` fails: `a` was false at 1.
* **C45** `C45_sizes_fail` (Monitor.lean): The queue of the inner conjunction has one slot, but the inner conjunction produces two verdicts in one time step; the first is overwritten before it was read for time 2. The monitor reports false for time 2, where the formula holds.
* **C45** `C45_trigger_fails` (Monitor.lean): Trigger, likewise: with `b` false at 0 only and `a` false at 2 only, the monitor reports false at time 2, where `a T[0,3] b` holds: `a` held at 1.
* **C49** `C49_nested_prev_fails` (Booleanizer.lean): C49 fails for `prev` applied to `prev`: the inner one is updated before the outer one copies it, so the outer one is one step behind instead of two. With `x` = 7, 0, ... the atomic is true at time 1; it should be false.
* **C50** `C50_contracts_fail` (Mltl.lean): C50 fails for contracts: they are not exported.
* **C50** `C50_grouping_fails` (Mltl.lean): C50 fails for operators with more than two operands: what is read has the same verdicts, but not the same structure.
* **C50** `C50_mixed_fails` (Mltl.lean): C50 fails for programs with formulas of both tenses: they are exported to one text, but no section holds both.
* **C50** `C50_xor_fails` (Mltl.lean): C50 fails for exclusive or: it is exported, but the text is no formula of the format.
* **C51** `C51_enum_twice` (Console.lean): C51 fails: a program with an enumeration is accepted, and when it is parsed again, rejected: its enumeration is still declared. `Context.clear` keeps `enums` (cpt.py:1494-1518).
* **C51** `C51_enum_visible` (Console.lean): C51 fails: a program that uses an enumeration without declaring it is rejected in a fresh console, and accepted after a program that declared it.
* **C56** `C56_deep_index_fails` (Desugar.lean): C56 fails for an element of a member of an element: array accesses are resolved once, before the member access below them, whose only child is then taken for the elements of the array. The expression should be `a`; it is compiled to `c`.
* **C56** `C56_slice_fails` (Desugar.lean): C56 fails for a slice that is out of bounds: an error is reported, but the run goes on and compiles the expression as if the set had one member. With `c` true it then holds.
* **C58** `C58_greedy_fails` (Egg.lean): C58 fails with greedy extraction when two formulas share an atomic: importing the second formula makes the atomic forget the operators of the first. Here both formulas come back unchanged. Before, the queue of `a0` has the eleven slots it needs beside `a1 U[0,10] a2`; after, `a0` and an until with worst-case delay 10 are still operands of one `&&` of the program, but the queue of `a0` has one slot.
* **C58** `C58_ilp_fails` (Egg.lean): C58 fails with ILP extraction within a single formula: each occurrence of an atom clears the parents that earlier occurrences recorded. `(a0 && (a1 U[0,10] a2)) || !a0` is rebuilt as it was, but the queue of `a0` shrinks from eleven slots to one.
* **C59** `C59_empty_array_fails` (Grammar.lean): An array without elements, which the grammar has a rule for, is never accepted.
* **C59** `C59_illegal_fails` (Grammar.lean): Characters that belong to no token are skipped; the text is accepted as if they were not there.
* **C59** `C59_minus_fails` (Grammar.lean): A minus sign followed by a digit is part of the number: of the same tokens with and without a blank after the minus, one is accepted and the other is not.
* **C59** `C59_prev_fails` (Grammar.lean): An identifier may start with `prev` according to the documentation. It is read as the operator and another identifier, and the program is rejected, whatever type and whatever mission time.
* **C60** `C60_call_fails` (Write.lean): A call without arguments is written as `)`.
* **C60** `C60_count_fails` (Write.lean): `forexactly` loses its number.
* **C60** `C60_enum_fails` (Write.lean): An enumeration is written with `:=` and a comma after the last member: it cannot be read.
* **C60** `C60_label_fails` (Write.lean): A label of the user that looks like an internal one is lost: the specification comes back under another name.
* **C60** `C60_sqrt_fails` (Write.lean): The square root of a name is written without the parentheses the parser asks for.
* **C61** `C61_labels_fail` (Grammar.lean): The name of a specification with no label can be the label of another one: labels do not identify specifications.
* **C67** `C67_outputs_fail` (RustCompile.lean): The output buffer of the Rust monitor is written to at an index given by the number of verdicts so far. The compiler gives it twice as many elements as there are formulas; here one formula has six verdicts in one time step, and the monitor panics. With six elements it goes on.
* **C68** `C68_update_fails` (RustUpdate.lean): Updating from the specification `x` to the specification `y`: with arrays of exactly the sizes needed for either, the monitor panics; with larger arrays it goes on to report `x` as well, under the same number. A new monitor reports `y`, as it should.
* **C70** `C70_missing_fails` (Trace.lean): C70 fails: the signals that are missing are not reported, and the incomplete mapping is kept.
* **C70** `C70_twice_fails` (Trace.lean): C70 fails: a name that occurs twice is said to get its right-most column; the command fails instead, and maps nothing.
* **C71** `C71_blank_line_fails` (Csv.lean): A blank line, for example at the end of the file, is a time step with the values of the line before.
* **C71** `C71_columns_fail` (Csv.lean): A column the program does not use is stored outside the array of atomics when the monitor is built with the bounds written for the program.
* **C71** `C71_empty_field_fails` (Csv.lean): An empty field is skipped, and the fields after it shift by one column: the value of `y` is taken for `x`.
* **C71** `C71_line_end_fails` (Csv.lean): A file with the line ends of Windows: the last signal is `0`, and read as true.
* **C71** `C71_long_line_fails` (Csv.lean): A line that does not fit the buffer counts as several: with the smallest buffer C allows, the end of a long header is a time step.
* **C71** `C71_spaces_fail` (Csv.lean): Spaces around a value, and other spellings of zero: `0` is read as true.
* **C72** `C72_event_rows_fails` (Event.lean): C72 fails with the queue sizes the compiler computes: the same trace with a row for each time step, and with one event row for the last three. The formula is true at time 1, as the first run says; the second run says it is false.
* **C73** `C73_last_contract_fails` (Names.lean): The monitor is built with the limits the compiler writes for the program. Then everything is printed except what is about the last contract: of it, nothing ever is; a program with a single contract is told nothing of it.
* **C73** `C73_long_label_fails` (Names.lean): A label of more than 50 characters: no specification of the program has a name in the binary.
* **C73** `C73_only_contract_fails` (Names.lean): Built with the limits the compiler writes for the program, it tells nothing of the contract: a case of `C73_last_contract_fails`.
* **C73** `C73_past_first_fails` (Names.lean): With a PTSPEC section before an FTSPEC section the names are wrong: in the program `PTSPEC p: x; FTSPEC f: y;` the verdicts on `p` (number 0) are printed under the name `f`, and those on `f` (number 1) under the name `p`. The assembler lists the names with their numbers, future-time specifications first; the monitor takes the place in the list for the number.
* **C74** `C74_exponent_fails` (BzCsv.lean): Of a number in scientific notation, or with a separator, only the first digits are read.
* **C74** `C74_large_fails` (BzCsv.lean): A number that does not fit 32 bits is undefined behaviour.
* **C74** `C74_point_fails` (BzCsv.lean): An integer written with a decimal point is stored as a double and read as an integer.
* **C74** `C74_text_fails` (BzCsv.lean): A text that is not a number is taken for the value of the line before.
* **C74** `C74_true_fails` (BzCsv.lean): The same boolean value is read in two ways: `true` is true without the booleanizer, false with it.
* **C74** `C74_whole_fails` (BzCsv.lean): A float written without a decimal point, though a number C and the specification language know, is stored as an integer and read as a double.
* **C77** `C77_monitors_differ_fails` (RustArith.lean): The two monitors compare floats differently, and in C the comparisons contradict each other: of two numbers half the tolerance apart, the larger is `>` and `==` and `<=` the smaller in C, not `>` in Rust; two numbers exactly the tolerance apart are `==` in Rust only.
* **C77** `C77_overflow_lost_fails` (RustArith.lean): The result of a step does not say whether there was an overflow in it: the flag is that of the last arithmetic instruction. Here `2000000000 + 2000000000` overflows and is cut off, and `1 + 1` after it clears the flag.
* **C77** `C77_power_fails` (RustArith.lean): C77 fails for powers of negative numbers: `(-3)²⁰` is too large, and -2³¹ is written; `(-2)³³` is too small, and 2³¹ - 1 is written.
* **C77** `C77_remainder_fails` (RustArith.lean): C77 fails for `-2³¹ % -1`: the remainder is 0, the monitor panics.
* **C78** `C78_event_outputs_fails` (RustEvent.lean): C78 with times fails with an output buffer of the size the compiler computes, twice the number of formulas: with a record for each time step the tool prints the verdicts; with one record for the last five the tool panics, as three verdicts come at once. With room for three it prints the same.
* **C78** `C78_event_rows_fails` (RustEvent.lean): C78 with times fails with the queue sizes the compiler computes: the same trace with a record for each time step, and with one record for the last three. The formula is true at time 1, as the first run says; the second says that it is false.
* **C78** `C78_overflow_drops_fails` (RustCli.lean): The verdicts are not all printed: when the sum in the first specification overflows, the tool prints a notice in place of all the verdicts of that step, so the verdict of the other specification at moment 1, which uses no arithmetic, is lost.
* **C78** `C78_repeated_stamp_fails` (RustStamps.lean): A record whose time stamp is that of the record before is dropped: nothing is printed for it, and no error.
* **C78** `C78_stamp_alone_fails` (RustStamps.lean): A time stamp with no space after it is not read as one, and is no error: on every binary, and anywhere in a trace, `@15` is the value 5 of signal 0, and in general the `@` and the character after it are skipped.
* **C79** `C79_long_label_fails` (RustNames.lean): A label of more than 50 characters: the assembler writes a binary without names and without the zero that stands for them, and the tool panics on it before it reads the trace.
* **C79** `C79_past_first_fails` (RustNames.lean): With a PTSPEC section before an FTSPEC section the names are wrong: in the program `PTSPEC p: x; FTSPEC f: y;` the verdicts on `p` (number 0) are printed under the name `f`, and those on `f` (number 1) under the name `p`.
* **C79** `C79_status_room_fails` (RustNames.lean): The monitor is built with room for two statuses per contract, which one step can exceed: with the bounds the compiler writes, `c: x => F[0,3] y` and a trace of four records, the tool panics where without `--enable-aux` and with `--disable-contracts` it prints all the verdicts.

Also seen while reading, not stated as theorems:

* A comment at the end of a formula's line in an MLTL file swallows the newline (`\#.*\n` is ignored as a whole, parse_mltl.py:16), so the formula runs into the next line.
* The size `compute_scq_sizes` computes goes below zero for a negative `scq_constant`.
* Aliases longer than the text buffer of the monitor's auxiliary arena are cut off; the alias of the last contract is not written.
* `unsafe_assemble` has no guard for extended operators, although code generation has no code for them.
* A Boolean constant below a booleanizer operator makes `gen_assembly` raise.
* `bpd` and `wpd` of the ancestors of a rewritten node are only updated by later traversals.
* The Rust monitor's `clock_reset` at time stamp 2^32 - 1 clears the queue memory only, not the control blocks.
* `load_bool_signal` of the Rust monitor compares with the number of booleanizer instructions.
* A comment in the Rust booleanizer says that 0^0 is 0 with `checked_pow`; it is 1.
* The Rust command line tool panics on the field `@5` and reads a stamp followed by two spaces as a stamp and a malformed value.
* Event rows whose times do not increase give no verdict and no notice (C monitor and Rust tool).
* Contracts with the same label in different sections overwrite each other.
* An operator over the future in a DEFINE before any FTSPEC is rejected.
* A signal with the name of an aggregation variable is shadowed by it.
* The warning that the header of a trace file is ignored is never given in `parse_trace`.
