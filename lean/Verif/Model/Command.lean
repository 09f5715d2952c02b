/-
Model of guarded commands (command.py) and of the console that runs them (main.py:92-225).

A command's function is any function of the program and the context; what the guards see of a state is `GState`.
Options are part of the function: a line of input with its arguments parsed is one `Cmd`.
-/
namespace R2U2

/-- The guard conditions (command.py:53-76). -/
inductive Guard where
  | validProgram | validMapping | wellTyped | desugared | scqSizes | atomics | onlyBinary | noExtended | pureMltl
  | atomicMapping | assembled
  deriving DecidableEq, Repr

/-- `GUARD_DEPENDENCIES` (command.py:78-100). -/
def Guard.deps : Guard → List Guard
  | .validProgram => []
  | .validMapping => []
  | .wellTyped => [.validProgram]
  | .desugared => [.wellTyped]
  | .scqSizes => [.desugared]
  | .atomics => [.desugared]
  | .onlyBinary => [.desugared]
  | .noExtended => [.desugared]
  | .pureMltl => [.desugared]
  | .atomicMapping => [.validMapping, .atomics]
  | .assembled => [.validProgram, .validMapping, .desugared, .scqSizes, .atomics, .onlyBinary, .noExtended, .atomicMapping]

/-- What the guard conditions ask of the class of a node (cpt.py:2243-2353).  `sugar` stands for `Struct`,
`FunctionCall`, `ArrayExpression`, `StructAccess`, `ArrayIndex` and `SetAggregation`; `ext` marks the operators
listed in cpt.py:2317-2324. -/
inductive GClass where
  | signal (symbol : String) (sid : Int)
  | atomic
  | sugar
  | contract
  | const (bool : Bool)
  | logical (ext : Bool)
  | temporal (ext : Bool)
  | operator
  | formula
  | specSet
  | other
  deriving DecidableEq

/-- A node as the guard conditions see it: identity, class, number of children, whether its engine is the temporal
logic engine, and its queue size. -/
structure GNode where
  id : Nat
  cls : GClass
  arity : Nat := 0
  tl : Bool := false
  scq : Int := -1

/-- A program and a context as the guard conditions see them: the flags of the program, the nodes of
`program.postorder(context)`, and the used fields of the context. -/
structure GState where
  dummy : Bool := false
  typed : Bool := false
  nodes : List GNode := []
  mapping : List (String × Int) := []
  atomicIds : List (Nat × Int) := []
  bz : Bool := false
  assembly : List String := []

/-- The predicates of the guard conditions (cpt.py:2243-2353). -/
def Guard.holds (s : GState) : Guard → Bool
  | .validProgram => !s.dummy                                                     -- 2243-2244
  | .validMapping => s.nodes.all fun n =>                                         -- 2246-2254
      match n.cls with
      | .signal x i => s.mapping.lookup x == some i
      | _ => true
  | .wellTyped => !s.dummy && s.typed                                             -- 2270-2271
  | .desugared => s.nodes.all fun n => n.cls != .sugar && n.cls != .contract      -- 2273-2289
  | .scqSizes => s.nodes.all fun n =>                                             -- 2291-2298
      !(n.tl || (s.atomicIds.lookup n.id).isSome) || decide (0 ≤ n.scq)
  | .assembled => decide (0 < s.assembly.length)                                  -- 2300-2302
  | .onlyBinary => s.nodes.all fun n => n.cls == .specSet || decide (n.arity ≤ 2) -- 2304-2310
  | .noExtended => s.nodes.all fun n =>                                           -- 2312-2327
      match n.cls with
      | .logical e | .temporal e => !e
      | _ => true
  | .atomics => s.nodes.all fun n =>                                              -- 2329-2340
      match n.cls with
      | .atomic => (s.atomicIds.lookup n.id).isSome
      | .signal .. => s.bz || (s.atomicIds.lookup n.id).isSome
      | _ => true
  | .pureMltl => s.nodes.all fun n =>                                             -- 2343-2353
      match n.cls with
      | .signal .. | .logical _ | .temporal _ | .const true | .formula | .specSet => true
      | _ => false
  | .atomicMapping => s.bz || s.nodes.all fun n =>                                -- 2256-2268
      match n.cls with
      | .signal _ i => s.atomicIds.lookup n.id == some i
      | _ => true

/-- `Command.check_guards` (command.py:178-203): the first guard, or direct dependency of a guard, that fails. -/
def checkGuards (s : GState) : List Guard → Option Guard
  | [] => none
  | g :: gs =>
      if g.holds s then
        match g.deps.find? fun d => !d.holds s with
        | some d => some d
        | none => checkGuards s gs
      else some g

/-- `ReturnCode` (command.py:9-21). -/
inductive ReturnCode where
  | success | error | badArgs | fileNotFound | parseError | guardNotMet | shlexError | noStateToPop | unknownCommand
  | unknownResultType | argparseExit | assemblyError
  deriving DecidableEq, Repr

/-- `is_error` (command.py:23-24). -/
def ReturnCode.isError (r : ReturnCode) : Bool := decide (r ≠ .success)

/-- How a call of a command's function ends: with a return code, a program, `None`, or an exception. -/
inductive Outcome (P : Type) where
  | code (r : ReturnCode)
  | program (p : P)
  | nothing
  | raised

/-- What `execute` returns (command.py:217-219). -/
inductive Result (P : Type) where
  | code (r : ReturnCode)
  | program (p : P)
  | nothing
  | guard (command : String) (g : Guard)

/-- Commands and composite commands (command.py:103-130, 251-277) over programs `P` and contexts `C`. -/
inductive Cmd (P C : Type) where
  | prim (name : String) (guards : List Guard) (func : P → C → (P × C) × Outcome P)
  | comp (name : String) (cmds : List (Cmd P C))

/-- A call of the function of a command: name, guards, and the state it was called in. -/
structure Call (P C : Type) where
  name : String
  guards : List Guard
  prog : P
  ctx : C

section
variable {P C : Type} (view : P → C → GState)

def Cmd.name : Cmd P C → String
  | .prim n .. => n
  | .comp n _ => n

/-- `check_guards` of a command and of a composite command (command.py:178-203, 299-303).  An empty composite
raises `IndexError`; there is none. -/
def Cmd.failedGuard (p : P) (c : C) : Cmd P C → Option Guard
  | .prim _ gs _ => checkGuards (view p c) gs
  | .comp _ [] => none
  | .comp _ (d :: _) => Cmd.failedGuard p c d

mutual
/-- `Command.execute` and `CompositeCommand.execute` (command.py:217-232, 280-297), with the calls made. -/
def Cmd.execute (p : P) (c : C) : Cmd P C → (P × C) × Result P × List (Call P C)
  | .prim n gs f =>
      match f p c with
      | (s, .code r) => (s, .code r, [⟨n, gs, p, c⟩])
      | (s, .program q) => (s, .program q, [⟨n, gs, p, c⟩])
      | (s, .nothing) => (s, .nothing, [⟨n, gs, p, c⟩])
      | (s, .raised) => (s, .code .error, [⟨n, gs, p, c⟩])
  | .comp _ cs => Cmd.steps p c cs
/-- The loop of `CompositeCommand.execute`. -/
def Cmd.steps (p : P) (c : C) : List (Cmd P C) → (P × C) × Result P × List (Call P C)
  | [] => ((p, c), .code .success, [])
  | d :: ds =>
      match d.failedGuard view p c with
      | some g => ((p, c), .guard d.name g, [])
      | none =>
          match Cmd.execute p c d with
          | (s, .code .success, l) =>
              let (s', r, l') := Cmd.steps s.1 s.2 ds
              (s', r, l ++ l')
          | (s, r, l) => (s, r, l)
end

/-- One line of input (main.py:113-200): blank or a comment, not splittable, the name of no command, `push`, `pop`,
a command with arguments its parser refuses, or a command. -/
inductive Line (P C : Type) where
  | blank
  | unsplittable
  | unknown
  | push
  | pop
  | badArgs
  | run (cmd : Cmd P C)

/-- The console (main.py:99-111). -/
structure Console (P C : Type) where
  prog : P
  ctx : C
  code : ReturnCode := .success
  stack : List (P × C) := []

/-- `set_return_code` (main.py:202-205). -/
def Console.setCode (k : Console P C) (r : ReturnCode) : Console P C :=
  if r.isError then { k with code := r } else k

/-- `runsource` (main.py:113-200), with the calls made.  `copy` stands for `deepcopy_program_with_context`
(cpt.py:1773-1776): the changed context, and the copies. -/
def Console.step (copy : P → C → C × (P × C)) (k : Console P C) : Line P C → Console P C × List (Call P C)
  | .blank => (k, [])
  | .unsplittable => (k.setCode .shlexError, [])
  | .unknown => (k.setCode .unknownCommand, [])
  | .push => ({ k with ctx := (copy k.prog k.ctx).1, stack := (copy k.prog k.ctx).2 :: k.stack }, [])
  | .pop =>
      match k.stack with
      | [] => (k.setCode .noStateToPop, [])
      | s :: st => ({ k with prog := s.1, ctx := s.2, stack := st }, [])
  | .badArgs => (k.setCode .argparseExit, [])
  | .run d =>
      match d.failedGuard view k.prog k.ctx with
      | some _ => (k.setCode .guardNotMet, [])
      | none =>
          match d.execute view k.prog k.ctx with
          | (s, .program q, l) => ({ k with prog := q, ctx := s.2 }, l)
          | (s, .nothing, l) => ({ k with prog := s.1, ctx := s.2 }.setCode .parseError, l)
          | (s, .guard .., l) => ({ k with prog := s.1, ctx := s.2 }.setCode .guardNotMet, l)
          | (s, .code r, l) => ({ k with prog := s.1, ctx := s.2 }.setCode r, l)

/-- A session: the lines of a script (main.py:250-280). -/
def Console.session (copy : P → C → C × (P × C)) (k : Console P C) : List (Line P C) → Console P C × List (Call P C)
  | [] => (k, [])
  | x :: xs =>
      let (k, l) := k.step view copy x
      let (k, l') := k.session copy xs
      (k, l ++ l')

end

/-- The registered commands that are not composite, with their guards (command.py:341-727, type_check.py:713,
desugar.py:25-425, transform.py:116-592, rewrite.py:304, cse.py:34, atomics.py:76, scq.py:67, assemble.py:1078-1334,
map.py:70-144, trace.py:70-211, eqsat.py:313-771, sat.py:1096-1472, sabre.py:495, serialize.py:13-116, r2u2.py:96,
parse_c2po.py:711, parse_mltl.py:289, parse_equiv.py:342). -/
def registry : List (String × List Guard) := [
  ("help", []), ("set_log_level", []), ("set_debug", []), ("suppress_warnings", []), ("set_egglog_path", []),
  ("set_smt_solver_path", []), ("set_r2u2_c_path", []), ("set_r2u2_bin_path", []), ("enable_booleanizer", []),
  ("disable_booleanizer", []), ("set_mission_time", []), ("print_c2po", []), ("print_mltl", [.atomics]),
  ("print_prefix", []), ("print_stats", []), ("print_stats_format", []), ("echo", []),
  ("type_check", [.validProgram]),
  ("expand_definitions", [.wellTyped]), ("convert_function_calls_to_structs", [.wellTyped]),
  ("resolve_enum_references", [.wellTyped]), ("resolve_contracts", [.wellTyped]),
  ("unroll_set_aggregation", [.wellTyped]), ("resolve_struct_accesses", [.wellTyped]),
  ("resolve_array_accesses", [.wellTyped]), ("unroll_array_accesses", [.wellTyped]),
  ("to_bnf", [.wellTyped]), ("to_nnf", [.wellTyped]), ("multi_operators_to_binary", [.wellTyped]),
  ("flatten_multi_operators", [.wellTyped]), ("remove_extended_operators", [.wellTyped]),
  ("sort_operands_by_pd", [.wellTyped]), ("remove_release_operators", [.wellTyped]),
  ("convert_atomics_to_signals", [.wellTyped, .desugared, .atomics]),
  ("optimize_rewrites", [.desugared]), ("optimize_cse", [.desugared]), ("compute_atomics", [.desugared]),
  ("compute_scq_sizes", [.validProgram, .wellTyped, .desugared]),
  ("unsafe_assemble", [.validProgram, .validMapping, .wellTyped, .desugared, .scqSizes, .atomics, .onlyBinary,
    .atomicMapping]),
  ("write_bounds_c", [.assembled]), ("write_bounds_rust", [.assembled]),
  ("parse_map", []), ("generate_map", [.wellTyped, .desugared]),
  ("parse_trace", []), ("generate_trace", [.validMapping]),
  ("write_eqsat_encoding", [.atomics]), ("optimize_eqsat", [.atomics]),
  ("write_smt_encoding", [.desugared]), ("check_sat", [.desugared]), ("write_equiv_smt_encoding", [.desugared]),
  ("check_equiv", [.desugared]),
  ("generate_sabre_code", [.wellTyped, .desugared, .validProgram, .pureMltl]),
  ("write_c2po", []), ("write_prefix", []), ("write_mltl", [.atomics]), ("write_pickle", []),
  ("run_r2u2", [.assembled]),
  ("parse_c2po", []), ("parse_mltl", []), ("parse_equiv", [])]

end R2U2
