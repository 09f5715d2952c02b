* A comment at the end of a formula's line in an MLTL file swallows the newline (`\#.*\n` is ignored as a whole, parse_mltl.py:16), so the formula runs into the next line.
* The size `compute_scq_sizes` computes goes below zero for a negative `scq_constant`.
* Aliases longer than the text buffer of the monitor's auxiliary arena are cut off; the alias of the last contract is not written.
* `unsafe_assemble` has no guard for extended operators, although code generation has no code for them.
* A Boolean constant below a booleanizer operator makes `gen_assembly` raise.
* `bpd` and `wpd` of the ancestors of a rewritten node are only updated by later traversals.
* The Rust monitor's `clock_reset` at time stamp 2^32 - 1 clears the queue memory only, not the control blocks.
* `load_bool_signal` of the Rust monitor compares with the number of booleanizer instructions.
* A comment in the Rust booleanizer says that 0^0 is 0 with `checked_pow`; it is 1.
* The Rust command line tool panics on the field `@5` and reads a stamp followed by two spaces as a stamp and a malformed value.
* Event rows whose times do not increase give no verdict and no notice (C monitor and Rust tool).
* Contracts with the same label in different sections overwrite each other.
* An operator over the future in a DEFINE before any FTSPEC is rejected.
* A signal with the name of an aggregation variable is shadowed by it.
* The warning that the header of a trace file is ignored is never given in `parse_trace`.
