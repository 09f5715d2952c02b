# Formal model of R2U2 / C2PO

This directory holds a Lean 4 model of the C2PO specification compiler
(`/repo/compiler/c2po`, Python) and of the parts of the C monitor
(`/repo/monitors/c/src`) that give the compiler's output its meaning, with
kernel-checked theorems about them.

## Layout

* `lean/Verif/Spec/`  - small specifications, independent of the code: the MLTL
  semantics of `docs/Preliminaries/mltl.md`, shapes, what a binary means, what a
  source expression means.
* `lean/Verif/Model/` - the model, function by function, every definition
  citing the file and lines it models and what it simplifies.
* `lean/Verif/Lemmas/` - helper lemmas.
* `lean/Verif/Props/` - one file per group of properties: the theorems named in
  `MANIFEST.json`, each with an `example` next to it whose hypotheses hold.
* `COVERAGE.md` - which lines of which file in /repo are cited (`tools/coverage.py`).
* `FINDINGS.md` - the theorems saying that the code lacks a property (`tools/findings.py`).
* `AXIOMS.md` - the axioms of every theorem in the manifest (`tools/axioms.py`).
* `seeded/LOG.jsonl` - log of mutation experiments.

## Semantics used

The documentation defines MLTL over finite traces with `|pi|` side conditions.
The monitor only emits a verdict for time `i` after it has seen the inputs that
determine it, so the primary semantics `Spec.sat` is over total traces
(`Nat -> atom -> Prop`); C15 proves that on every finite trace longer than
`i + wpd` the documented finite-trace semantics coincides with it.  On shorter
traces several optimisations of the compiler are *not* equivalences of the
documented finite-trace semantics; this is recorded as a finding.

## Plan per property

| id | modelled | proof |
|----|----------|-------|
| C01 | `optimize_rewrites` as a bottom-up pass on expression trees; local step proven verdict preserving; any schedule of local steps also | case analysis + interval arithmetic; negation witnesses for the n-ary and `false == p` cases |
| C02,C03 | `to_bnf` | structural induction; shape predicate; witness for `<->` |
| C04,C05 | `to_nnf` incl. the traversal that does not revisit a replacement | structural induction; witnesses for xor and double negation |
| C06,C07 | `remove_extended_operators` | structural induction |
| C08 | `remove_release_operators` | structural induction |
| C09,C10,C11 | n-ary passes | list induction |
| C12,C13 | `unroll_temporal_operators`, `decompose_intervals` | induction on the range / greedy loop |
| C14,C15 | `bpd`, `wpd` constructors | structural induction; witnesses for the past-time formulas |
| C16,C17 | heap model of nodes, `replace`, `postorder`, `repr` | invariant over the traversal; unambiguous printing |
| C18,C19 | `compute_scq_sizes` | loop invariant |
| C20,C21 | `compute_atomics`, `compute_bounds` | loop invariant; witness for the no-booleanizer mode |
| C22,C23,C26 | `gen_assembly` | loop invariants on emission order |
| C24,C25 | `pack_*`, C decoder and scanner | byte-level round trip |
| C27-C29, C56 | `desugar.py` on typed source trees (`Model/Source`, `Model/Desugar`), against a semantics of source expressions (`Spec/Source`) | pass-by-pass preservation of sorts and meanings; substitution lemma; witnesses for array `!=`, unequal lengths, variable capture, deep indexing, out-of-bounds slices |
| C30 | `expand_definitions` on the object graph | walk invariant; witnesses for aliases and shadowing |
| C31,C32 | `type_check.py` | induction; witness for cross-section duplicates |
| C33,C34 | `command.py` guards and registry, `main.py` console, `push`/`pop`, `deepcopy` on an object heap | decision logic, induction over histories; witnesses for non-transitive guards, uncopied enumerations, shared assembly list, contracts, slices, definitions |
| C35 | `map.py` incl. its regular expressions, `assign_signal_ids`, `generate_map` | line grammar, loop invariant; witnesses for junk, ranges, large indices |
| C36 | `wcet.py` on the generated assembly | sum over the instructions; witnesses for truncation, missing entries, hardware queue sizes |
| C37 | the C program `sabre.py` writes: arrays, loops, undefined behaviour as arbitrary values | bit-level loop invariants, induction over nodes and words; witnesses for `true`, `<->`, until, signal numbers, leftover |
| C38-C40,C43 | `sat.py` encodings as SMT-LIB terms with their meaning; `check_sat`, `check_equiv` over any solver | satisfiability of the script iff satisfiability of the formula; witnesses |
| C41,C42 | egglog rules, export/import | every rule an equivalence, closed under congruence and merging; round trip; witnesses for disordered intervals and single atoms |
| C44-C47 | C queues and temporal engine | refinement to abstract streams |
| C48 | `postorder` | stack invariant |
| C49 | booleanizer compile + execute | simulation |
| C50 | `to_mltl_std`; lexer, precedence parser of `parse_mltl.py` | lexing lemma per token, stack invariant of the parser, induction on formulas; exact condition for the round trip |
| C51 | `Context.clear` | decision logic; witness for enums |
| C52 | delays recorded by `optimize_rewrites` | structural induction |
| C53,C54 | `gen_assembly`, `compute_atomics` on object graphs | traversal invariants |
| C55 | compile, encode, decode, configure, run | composition of C14-C26, C44-C47, C49, C53, C54 |
| C59,C61 | lexer and LALR parser of `parse_c2po.py`, the parser as a stack machine driven by the precedence table | a grammar with precedence side conditions (`Spec/Grammar`); both directions by induction on derivations and on steps; spelling of tokens (`Spec/Lexical`); witnesses for `prev...`, `x-1`, illegal characters, `{}` |
| C62 | the passes of transform.py and rewrite.py on the object graph (`Model/GraphPass`): creation of nodes, replacement in place, both traversals with the consumer's edits between two yields | every rule is shown to agree with the rule on trees at the node it fires on; a congruence closure over edits (`Cong`) carries this through any interleaving of traversal and replacement |
| C63 | the pass sequence of the command line tool (`Model/Pipeline`) on the object graph | every pass keeps an invariant on what it leaves behind (which nodes are dead, live nodes refer to live nodes and know their parents, `Left`), so the next pass, including CSE, can be applied to a graph with dead nodes; at the end of a postorder pass every reachable node is visited-and-kept or new, which gives the shapes; that every pass ends is proved by potentials: the number of paths from the roots times the weight of a node for `optimize_rewrites` and `flatten`, nodes settled after one visit for the other postorder passes, and a polynomial weight of pending negations for `to_nnf` |
| C64 | the whole tool from the desugared graph to bytes and bounds (`Model/Compile`: the passes of C63, then `compute_atomics`, `compute_scq_sizes`, `unsafe_assemble`, `write_bounds_c`) followed by the monitor of C55 | every pass is shown to keep, beside verdicts, what the back end needs of a formula (tense, interval order, no constant operands, how far it looks: `Tracked`) and that the two sets share no nodes (`Lemmas/Apart`); what is left is then shown to meet every hypothesis of C55 with the spans of the formulas as delays |
| C65 | the front end (`Model/FrontEnd`: the parser of C61, `type_check`, `expand_definitions` on trees, contracts, aggregations, arrays, structures) in front of the tool of C64 | type checking keeps numbers (so C61 makes them distinct), expansion keeps meanings (C30 on trees), desugaring keeps them (C56), and a desugared formula over Boolean signals means what the temporal logic of C64 says; the theorem starts from the characters of the file and ends at the reports of the monitor |
| C66 | the Rust monitor (`Model/Rust`: queues, temporal engine, step loop, output buffer; `none` is a panic) | a simulation between the Rust control blocks and flat queue memory and the queue-level monitor of C45 with `lang := rust` (`Lemmas/RustSim`, `RustRun`); the number of reports in a step is bounded by the distance between worst-case and best-case delay, so the output buffer is not overrun; then C45 and C46 |
| C67 | the Rust loader (`process_binary_file`, `mltl_configure_instruction_dispatch`) behind the tool of C64 | the frames the Rust loader reads are those the C loader reads (C25); configuration places the queues side by side, inside the written bound (`Lemmas/RustLoad`, `RustStart`); then C66; the written size of the output buffer is refuted by a compiled program |
| C68 | `update_binary_file`, `reset` | loading only appends to the instruction table and `reset` does not empty it: proved for all monitors, with a concrete wrong run; on a monitor without instructions update and `get_monitor` agree |
| C69 | front end and C67's chain | C65 with the Rust monitor: the front-end part of C65's proof (`text_program`) composed with C67 |
| C70 | `parse_trace` (trace.py) | the loop over the header's names builds a map with the column of each name (induction), then as C35; two places that read a missing option are concrete failures |
| C71 | the C command line: `r2u2_csv_load_next_signals`, `r2u2_load_string_signal`, `main` | the text of a trace file is read back line by line and field by field (induction on rows), so the main loop is the run of C65 on the file's values; printed lines are uniquely readable; files outside the format are concrete failures |
| C72 | `@T` rows in `r2u2_csv_load_next_signals`, the passes of `r2u2_step` at a time several steps after the last (`Model/Event`) | the invariant of C45 with the time of the last row in place of one step: an operand's queue holds all changes between the earliest and the latest time the reader may ask for, if it has that many slots (`Lemmas/Event`), then as C55 and C71; a compiled program with too few slots is a concrete failure |
| C73 | `pack_aliases`, the second half of `r2u2_process_binary`, `r2u2_aux_formula_report`, `r2u2_aux_contract_report` (`Model/Names`) | the strings read back lie one after the other in the byte arena (invariant of the loading loop), so each verdict's line has the label at its number; statuses of contracts follow from the verdicts of C65 on the three formulas; wrong limits and wrong order of names are proved as failures |
| C74 | `r2u2_load_string_signal` with the booleanizer, the csv reader and `main` on its signal vector (`Model/BzCsv`) | the reader's loop is `engineRun` on the values written in the rows (induction over the rows), then C55 with signals; `%lf` is a parameter; the spellings that fail by evaluation |
| C75 | the whole back end with `--booleanizer` on the shared graph (`Model/CompileBz`), the loader, both engines | the graph the passes leave (C63) goes through `compute_atomics` (C20); every node of the result is a specification, part of a formula, an `Atomic` over an atom or part of an atom (`Lemmas/CompileBz`), which gives the hypotheses of C55 with signals; values of nodes are values of the expressions as written (`Ast.Value`) |
| C76 | the booleanizer of the Rust monitor, its part of the loader, the whole step (`Model/RustBz`) | on the operations both monitors compute alike, a simulation of the C booleanizer by the Rust one, instruction by instruction (`Lemmas/RustBz`); then C49 for the values, C66 for the temporal engine, and C75's account of the compiled graph; the comparisons of floats are covered by running the C booleanizer on numbers on which its comparisons are those of Rust (`Lemmas/RustValue`) |
| C77 | the arithmetic of the Rust booleanizer (`Model/RustBz`) | case analysis on exact results and 32-bit ranges; comparisons from the axioms of a linear order; panics, lost flags and wrong signs by evaluation |
| C78 | the command line tool of the Rust monitor on a binary and the records of a trace: reading of the fields, the signal buffer, the loop, the printed lines (`Model/RustCli`) | induction over the records: the buffer holds the values of the record, and the loop prints what C76 says the monitor reports; lost lines by evaluation; the clock of the monitor counts the steps, so that time stamps that count the records change nothing (`Lemmas/RustStamps`); time stamps that skip moments by a simulation of the C monitor of C72 on the same rows (`Model/RustEvent`, `Lemmas/RustEvent`) |
| C79 | names and contracts in the Rust monitor: reading of the auxiliary section, look-up of labels, contract statuses, the printed lines (`Model/RustNames`) | the loader reads back the tables the assembler packed; the loop prints, for the verdicts of each step, labels and statuses (`Lemmas/RustNames`); then C78 and the contract part of C73; panics and swapped names by evaluation |
| C60 | `str(program)` as written by `write_c2po` (`Model/Write`) | the text of every derivation is lexed and derived again (`Lemmas/Write`, `WriteProgram`); witnesses for what is not read back |
| C57,C58 | e-graph, ILP constraints, extraction, re-linking of the extracted graph | well-founded order from the constraints; induction on the term for the graph built from it; witnesses for lost parents |

When the code does not have a property, the full statement is kept in
`properties.jsonl`, a theorem `..._fails` gives a concrete program, trace or
history on which it is false, and a theorem `..._partial` proves the largest part
we could establish; its comment says what is missing.

## Modelled and not modelled

`COVERAGE.md` lists the cited lines per file.  In words:

* Compiler, modelled: lexer and parser of C2PO source text, operator nodes with their delays, object graph with parents
  and in-place replacement, `postorder`, printing (`repr`, `str`), deep copies,
  type checker, desugaring, all passes of `transform.py` and `rewrite.py`, CSE,
  atomics, queue sizes, code generation, binary encoding, bounds, map files,
  execution-time estimates, commands, guards and console, MLTL-STD export and
  import, SMT encodings, equality saturation rules, export, import and extraction,
  and the program that `sabre.py` writes.
* Monitor (C), modelled: binary loader, configuration of queues, queue
  read/write, the temporal engine's instructions, the booleanizer's instructions,
  the arena, one time step, packing of verdicts, the command line: reader of
  trace files with and without booleanizer, main loop, printed lines, names of
  specifications and statuses of contracts (`fgets`, `strtok` and `sscanf` of
  the C library as their manual describes them).
* Monitor (Rust), modelled: binary loader, configuration, queue read/write, the
  temporal engine, the step loop, the output buffer, resets; array indices,
  subtractions and 32-bit additions that would panic are failures; its
  booleanizer; its command line on a binary and the records of a trace; its
  names and contracts (`aux_string_specs`).  Its debug output is not.
* Not modelled: the generator of LALR tables (`sly/`; the C2PO and MLTL parsers
  are modelled as the stack machines it makes of the grammar and the precedence
  table), `parse_equiv.py`, the external programs (SMT solvers, egglog, ILP solver), the
  running of subprocesses, timeouts, memory limits, logging, statistics, file
  input and output, the CSV library of the Rust command line, floating-point arithmetic (a parameter), integer
  terms in SMT scripts.

Simplifications that matter for reading the theorems:

* Passes are proved on expression trees, as a bottom-up application of the
  modelled loop body, and for every schedule of such steps (`Reach`); CSE,
  expansion of definitions, code generation, queue sizes, atomics, push/pop and
  extraction are modelled on the object graph itself.
* Python integers are `Int`/`Nat`, C integers are reduced modulo their width
  where the code relies on it; the booleanizer's overflow and division by zero
  are excluded by hypothesis (C leaves them undefined).
* Exceptions and reported errors are `none`.
* Loops that end are given fuel, and it is proved that the fuel suffices.

## Trusted base

Lean 4.33.0's kernel; of the axioms only `propext`, `Classical.choice` and
`Quot.sound`, per theorem in `AXIOMS.md`.  No axioms are added; there is no
`sorry`, `native_decide` or `bv_decide`.  Trusted besides: that the model says what
the Python and C text says (by inspection: every definition cites its lines), and
that the statements and `Spec/` say what the English properties say.
