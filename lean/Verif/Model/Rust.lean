import Verif.Model.Monitor
/-
Model of the Rust monitor (monitors/rust/r2u2_core/src): its loader (internals/process_binary.rs, instructions/mltl.rs),
queues (memory/scq.rs), temporal engine (engines/mltl.rs, engines/mod.rs), resets (memory/monitor.rs) and interface (lib.rs).

`none` is a panic: an index outside an array, a subtraction below zero, an addition beyond 32 bits (with overflow
checks, as in a debug build; the theorems show that the ones they are about do not occur), or, in loops, running out of fuel.

Simplifications, all of this file:
* an index `queue_ref + offset` is computed without limit and compared with the length of the array, which is taken to
  be at most `2 ^ 32`;
* of the booleanizer (engines/booleanizer.rs) only its program counter and the indices the loader uses are here, and `run` takes
  the atomics of each time step as given; `Model/RustBz.lean` has the booleanizer itself and the whole step;
* the feature `aux_string_specs` (names of formulas and contracts in the output) and debug output are off;
* instructions are the records of `Model/Binary.lean`: operand types and opcodes that have no name there
  are `none`, and the code does nothing for them.  The opcodes are the same as those of the C monitor (instructions/mltl.rs:8-41).
-/
namespace R2U2
namespace Rs

/-- `r2u2_infinity` (internals/types.rs:32). -/
def maxTime : Nat := 2 ^ 32 - 1

/-- `a.saturating_add(b)` -/
def satAdd (a b : Nat) : Nat := min (a + b) maxTime

/-- `a.checked_sub(b)`, and `a - b`, which panics where that is `None`. -/
def sub? (a b : Nat) : Option Nat := if b ≤ a then some (a - b) else none

/-- `r2u2_verdict::default()` (internals/types.rs:42-49). -/
def dflt : Verdict := ⟨false, maxTime⟩

/-- The constants of internals/bounds.rs that size the arrays. -/
structure Limits where
  tl : Nat
  slots : Nat
  atomics : Nat
  bz : Nat
  outputs : Nat

/-- `SCQCtrlBlock` with its `SCQTemporalBlock` (memory/scq.rs:21-29, 46-51). -/
structure Block where
  len : Nat
  write : Nat
  read1 : Nat
  read2 : Nat
  next : Nat
  lb : Nat
  ub : Nat
  edge : Verdict
  prev : Verdict
  ref : Nat

/-- `SCQCtrlBlock::default()` (memory/scq.rs:31-43, 53-62). -/
def Block.dflt : Block := ⟨0, 0, 0, 0, 0, maxTime, maxTime, ⟨false, 0⟩, ⟨false, 0⟩, 0⟩

/-- `Monitor` (memory/monitor.rs:24-47). -/
structure Monitor where
  lim : Limits
  time : Nat
  progress : Progress
  bzMax : Nat
  table : Nat → TlRec
  max : Nat
  blocks : Nat → Block
  mem : Nat → Verdict
  atoms : Nat → Bool
  buf : Nat → Nat × Verdict
  idx : Nat

/-- `MLTLInstruction::empty_instr()` (instructions/mltl.rs:59-68). -/
def emptyInstr : TlRec := ⟨0, 0, 0, some .none, some .none, some .nop⟩

/-- `Monitor::default()` (memory/monitor.rs:49-75). -/
def Monitor.dflt (lim : Limits) : Monitor where
  lim := lim
  time := 0
  progress := .first
  bzMax := 0
  table := fun _ => emptyInstr
  max := 0
  blocks := fun _ => .dflt
  mem := fun _ => Rs.dflt
  atoms := fun _ => false
  buf := fun _ => (maxTime, Rs.dflt)
  idx := 0

namespace Monitor

/-- `control_blocks[q]` -/
def block (M : Monitor) (q : Nat) : Option Block := if q < M.lim.tl then some (M.blocks q) else none

def setBlock (M : Monitor) (q : Nat) (b : Block) : Monitor :=
  { M with blocks := fun k => if k = q then b else M.blocks k }

/-- `queue_mem[a]` -/
def slot (M : Monitor) (a : Nat) : Option Verdict := if a < M.lim.slots then some (M.mem a) else none

/-! ### Queues -/

/-- `scq_write` (memory/scq.rs:81-117). -/
def scqWrite (M : Monitor) (q : Nat) (v : Verdict) : Option Monitor :=
  (M.block q).bind fun b =>                                                        -- 87
  (if b.write = 0 then sub? b.len 1 else some (b.write - 1)).bind fun p =>         -- 88
  (M.slot (b.ref + p)).bind fun vp =>                                              -- 97
  (M.slot (b.ref + b.write)).bind fun vw =>                                        -- 99
  let w := if vp.truth = v.truth ∧ ¬ (vw.time = maxTime ∧ b.write = 0) then p else b.write   -- 97-103
  (M.slot (b.ref + w)).bind fun _ =>                                               -- 106
  if b.len = 0 then none else                                                      -- 110: `% 0`
  some { M.setBlock q { b with write := (w + 1) % b.len } with
    mem := fun a => if a = b.ref + w then v else M.mem a }                         -- 106

/-- The loop of `scq_read` (memory/scq.rs:136-158) over the queue `b` of the child: the read pointer and the result. -/
def scan (M : Monitor) (b : Block) (next : Nat) : Nat → Nat → Option (Nat × Option Verdict)
  | 0, _ => none
  | n + 1, r =>
      (M.slot (b.ref + r)).bind fun v =>
      if next ≤ v.time then some (r, some v)                                       -- 138-142
      else if b.len = 0 then none                                                  -- 145: `% 0`
      else
        let r' := (r + 1) % b.len
        if r' = b.write then                                                       -- 148
          (if r' = 0 then sub? b.len 1 else some (r' - 1)).map fun x => (x, none)  -- 153-158
        else M.scan b next n r'

/-- `scq_read` (memory/scq.rs:120-159).  The loop runs at most `length` times before the read pointer meets the write pointer. -/
def scqRead (M : Monitor) (parent child : Nat) (second : Bool) : Option (Monitor × Option Verdict) :=
  (M.block child).bind fun c =>                                                    -- 125
  (M.block parent).bind fun p =>                                                   -- 126
  let r := if second then p.read2 else p.read1                                     -- 127
  (M.slot (c.ref + r)).bind fun v =>
  if v.time = maxTime ∧ r = 0 then some (M, none)                                  -- 129-134
  else (M.scan c p.next (c.len + 1) r).map fun x =>
    (M.setBlock parent (if second then { p with read2 := x.1 } else { p with read1 := x.1 }), x.2)

/-! ### Operators -/

/-- `check_operand_data` (engines/mltl.rs:22-51). -/
def operand (M : Monitor) (i : TlRec) (second : Bool) : Option (Monitor × Option Verdict) :=
  match (if second then i.t2 else i.t1), (if second then i.v2 else i.v1) with
  | some .atomic, v =>                                                             -- 27-32
      if M.progress = .first then
        if v < M.lim.atomics then some (M, some ⟨M.atoms v, M.time⟩) else none
      else some (M, none)
  | some .direct, v =>                                                             -- 33-40
      if i.opcode = some .since ∨ i.opcode = some .trigger then
        (M.block i.mem).map fun b => (M, some ⟨decide (v ≠ 0), satAdd M.time b.ub⟩)
      else some (M, some ⟨decide (v ≠ 0), M.time⟩)
  | some .subformula, v => M.scqRead i.mem v second                                -- 41-44
  | _, _ => some (M, none)                                                         -- 45-50

/-- `push_result` (engines/mltl.rs:54-61). -/
def pushResult (M : Monitor) (i : TlRec) (v : Verdict) : Option Monitor :=
  { M with progress := M.progress.flag }.scqWrite i.mem v

end Monitor

/-- What an operator function returns: the control block and the verdict, or a panic. -/
abbrev Res := Option (Block × Option Verdict)

/-- The test that a result is new (engines/mltl.rs:404-405 and its copies). -/
def Block.isNew (q : Block) (t : Nat) : Prop := q.prev.time < t ∨ (t = 0 ∧ q.prev.truth = false)

instance (q : Block) (t : Nat) : Decidable (q.isNew t) := by unfold Block.isNew; infer_instance

/-- `until_operator` (engines/mltl.rs:253-415): `a` and `b` are the operands that are ready. -/
def untilOp (q : Block) (a b : Option Verdict) : Res :=
  -- 391-410, with the control block at this point
  let rest (q : Block) (b : Verdict) : Res :=
    if satAdd q.prev.time q.ub ≤ b.time then
      (sub? b.time q.ub).map fun t =>
        if q.isNew t then
          ({ q with next := max q.next (satAdd (satAdd t q.lb) 1), prev := ⟨true, t⟩ }, some ⟨false, t⟩)
        else (q, none)
    else some (q, none)
  match b with
  | none => some (q, none)
  | some b =>
      if b.truth then                                                              -- 366-375
        (sub? b.time q.lb).map fun t => ({ q with next := satAdd b.time 1, prev := ⟨true, t⟩ }, some ⟨true, t⟩)
      else
        match a with
        | some a =>                                                                -- 376-390
            let q := { q with next := satAdd (min a.time b.time) 1 }
            if a.truth = false then
              (sub? (min a.time b.time) q.lb).map fun t => ({ q with prev := ⟨true, t⟩ }, some ⟨false, t⟩)
            else rest q b
        | none => rest q b

/-- `release_operator` (engines/mltl.rs:418-581). -/
def releaseOp (q : Block) (a b : Option Verdict) : Res :=
  -- 557-576
  let rest (q : Block) (b : Verdict) : Res :=
    if satAdd q.prev.time q.ub ≤ b.time then
      (sub? b.time q.ub).map fun t =>
        if q.isNew t then
          ({ q with next := max q.next (satAdd (satAdd t q.lb) 1), prev := ⟨true, t⟩ }, some ⟨true, t⟩)
        else (q, none)
    else some (q, none)
  match b with
  | none => some (q, none)
  | some b =>
      if b.truth = false then                                                      -- 532-541
        (sub? b.time q.lb).map fun t => ({ q with next := satAdd b.time 1, prev := ⟨true, t⟩ }, some ⟨false, t⟩)
      else
        match a with
        | some a =>                                                                -- 542-556
            let q := { q with next := satAdd (min a.time b.time) 1 }
            if a.truth then
              (sub? (min a.time b.time) q.lb).map fun t => ({ q with prev := ⟨true, t⟩ }, some ⟨true, t⟩)
            else rest q b
        | none => rest q b

/-- The part `since_operator` and `trigger_operator` repeat (engines/mltl.rs:725-743, 748-759, 762-774; 939-957, 962-973, 976-988): where the
right operand reaches up to a new time, that time has its verdict.  `none`: the function goes on. -/
def Block.upTo (q : Block) (b : Verdict) (truth : Bool) : Option (Block × Option Verdict) :=
  if q.prev.time - q.lb ≤ b.time ∧ q.isNew (satAdd b.time q.lb) then
    some ({ q with prev := ⟨true, satAdd b.time q.lb⟩ }, some ⟨truth, satAdd b.time q.lb⟩)
  else none

/-- The last part of `since_operator` and `trigger_operator` (engines/mltl.rs:777-792, 991-1006): the left operand, true for a since and
false for a trigger, has held since the edge. -/
def Block.holding (q : Block) (truth : Bool) : Option Verdict → Res
  | some a =>
      if a.truth = truth ∧ q.prev.time - q.lb ≤ a.time ∧ q.edge.truth = true ∧
          (sub? q.prev.time q.ub = none ∨ (sub? q.prev.time q.ub).getD 0 < q.edge.time) then
        let t := min (satAdd a.time q.lb) (satAdd q.edge.time q.ub)
        if q.isNew t then
          some ({ q with next := max q.next (satAdd (t - q.ub) 1), prev := ⟨true, t⟩ }, some ⟨truth, t⟩)
        else some (q, none)
      else some (q, none)
  | none => some (q, none)

/-- `since_operator` (engines/mltl.rs:584-795). -/
def sinceOp (q : Block) (a b : Option Verdict) : Res :=
  if q.prev.truth = false ∧ q.prev.time < q.lb then                                -- 711-716
    some ({ q with prev := ⟨true, q.lb - 1⟩ }, some ⟨false, q.lb - 1⟩)
  else
    match b with
    | none => q.holding true a
    | some b =>
        if b.truth then                                                            -- 719-744
          let q := { q with edge := ⟨true, b.time⟩, next := satAdd b.time 1 }
          match q.upTo b true with
          | some r => some r
          | none => q.holding true a
        else                                                                       -- 745-776
          let start := sub? q.prev.time q.ub
          let old := q.edge.truth = false ∨ (start.isSome ∧ q.edge.time ≤ start.getD 0)
          let q := if old then { q with next := satAdd b.time 1 } else q
          match (if old then q.upTo b false else none) with                        -- 747-760
          | some r => some r
          | none =>
              if a.map (·.truth) = some false then                                 -- 761-775
                let q := { q with next := satAdd b.time 1 }
                match q.upTo b false with
                | some r => some r
                | none => q.holding true a
              else q.holding true a

/-- `trigger_operator` (engines/mltl.rs:798-1009). -/
def triggerOp (q : Block) (a b : Option Verdict) : Res :=
  if q.prev.truth = false ∧ q.prev.time < q.lb then                                -- 925-930
    some ({ q with prev := ⟨true, q.lb - 1⟩ }, some ⟨true, q.lb - 1⟩)
  else
    match b with
    | none => q.holding false a
    | some b =>
        if b.truth = false then                                                    -- 933-958
          let q := { q with edge := ⟨true, b.time⟩, next := satAdd b.time 1 }
          match q.upTo b false with
          | some r => some r
          | none => q.holding false a
        else                                                                       -- 959-990
          let start := sub? q.prev.time q.ub
          let old := q.edge.truth = false ∨ (start.isSome ∧ q.edge.time ≤ start.getD 0)
          let q := if old then { q with next := satAdd b.time 1 } else q
          match (if old then q.upTo b true else none) with                         -- 961-974
          | some r => some r
          | none =>
              if a.map (·.truth) = some true then                                  -- 975-989
                let q := { q with next := satAdd b.time 1 }
                match q.upTo b true with
                | some r => some r
                | none => q.holding false a
              else q.holding false a

/-- A verdict, and the time after it as the next desired one. -/
def Block.emit (q : Block) (v : Verdict) : Res := some ({ q with next := satAdd v.time 1 }, some v)

/-- `not_operator` (engines/mltl.rs:1012-1025). -/
def notOp (q : Block) : Option Verdict → Res
  | some a => q.emit ⟨!a.truth, a.time⟩
  | none => some (q, none)

/-- `and_operator` (engines/mltl.rs:1028-1094). -/
def andOp (q : Block) : Option Verdict → Option Verdict → Res
  | some a, some b =>
      if a.truth ∧ b.truth then q.emit ⟨true, min a.time b.time⟩                   -- 1059-1066
      else if a.truth = false ∧ b.truth = false then q.emit ⟨false, max a.time b.time⟩   -- 1067-1074
      else if a.truth = false then q.emit ⟨false, a.time⟩                          -- 1076-1083
      else if b.truth = false then q.emit ⟨false, b.time⟩                          -- 1084-1091
      else some (q, none)
  | some a, none => if a.truth = false then q.emit ⟨false, a.time⟩ else some (q, none)
  | none, some b => if b.truth = false then q.emit ⟨false, b.time⟩ else some (q, none)
  | none, none => some (q, none)

/-- `or_operator` (engines/mltl.rs:1097-1163). -/
def orOp (q : Block) : Option Verdict → Option Verdict → Res
  | some a, some b =>
      if a.truth ∧ b.truth then q.emit ⟨true, max a.time b.time⟩                   -- 1128-1135
      else if a.truth = false ∧ b.truth = false then q.emit ⟨false, min a.time b.time⟩   -- 1136-1143
      else if a.truth then q.emit ⟨true, a.time⟩                                   -- 1145-1152
      else if b.truth then q.emit ⟨true, b.time⟩                                   -- 1153-1160
      else some (q, none)
  | some a, none => if a.truth then q.emit ⟨true, a.time⟩ else some (q, none)
  | none, some b => if b.truth then q.emit ⟨true, b.time⟩ else some (q, none)
  | none, none => some (q, none)

/-- `equivalent_operator` (engines/mltl.rs:1166-1223). -/
def equivOp (q : Block) : Option Verdict → Option Verdict → Res
  | some a, some b =>
      if (a.truth ∧ b.truth) ∨ (a.truth = false ∧ b.truth = false) then q.emit ⟨true, min a.time b.time⟩
      else q.emit ⟨false, min a.time b.time⟩
  | _, _ => some (q, none)

namespace Monitor

/-- Calling an operator function on the control block of the instruction, and pushing its result (engines/mltl.rs:137-196). -/
def finish (M : Monitor) (i : TlRec) (op : Block → Res) : Option Monitor :=
  (M.block i.mem).bind fun b => (op b).bind fun x =>
  match x.2 with
  | some v => (M.setBlock i.mem x.1).pushResult i v
  | none => some (M.setBlock i.mem x.1)

def unary (M : Monitor) (i : TlRec) (op : Block → Option Verdict → Res) : Option Monitor :=
  (M.operand i false).bind fun x => x.1.finish i fun b => op b x.2

def binary (M : Monitor) (i : TlRec) (op : Block → Option Verdict → Option Verdict → Res) : Option Monitor :=
  (M.operand i false).bind fun x => (x.1.operand i true).bind fun y => y.1.finish i fun b => op b x.2 y.2

/-- The `MLTL_OP_LOAD` case (engines/mltl.rs:67-76). -/
def load (M : Monitor) (i : TlRec) : Option Monitor :=
  (M.operand i false).bind fun x =>
  match x.2 with
  | some v => (x.1.block i.mem).bind fun b => (x.1.setBlock i.mem { b with next := satAdd v.time 1 }).pushResult i v
  | none => some x.1

/-- The `MLTL_OP_RETURN` case (engines/mltl.rs:77-124). -/
def ret (M : Monitor) (i : TlRec) : Option Monitor :=
  (M.operand i false).bind fun x =>
  match x.2 with
  | some v =>
      (x.1.block i.mem).bind fun b =>
      let M := x.1.setBlock i.mem { b with next := satAdd v.time 1 }
      if M.idx < M.lim.outputs then                                                -- 87
        some { M with buf := fun k => if k = M.idx then (i.v2, v) else M.buf k, idx := M.idx + 1 }
      else none
  | none => some x.1

/-- `mltl_update` (engines/mltl.rs:64-203) on instruction `i`. -/
def update (M : Monitor) (i : TlRec) : Option Monitor :=
  match i.opcode with
  | some .load => M.load i
  | some .ret => M.ret i
  | some .until => M.binary i untilOp
  | some .release => M.binary i releaseOp
  | some .since => M.binary i sinceOp
  | some .trigger => M.binary i triggerOp
  | some .not => M.unary i notOp
  | some .and => M.binary i andOp
  | some .or => M.binary i orOp
  | some .equiv => M.binary i equivOp
  | _ => some M

/-! ### Steps -/

/-- One pass over instructions (engines/mod.rs:45-48). -/
def pass : List TlRec → Monitor → Option Monitor
  | [], M => some M
  | i :: is, M => (M.update i).bind (pass is)

/-- The instructions of the table. -/
def program (M : Monitor) : List TlRec := (List.range M.max).map M.table

/-- `clock_reset` (memory/monitor.rs:78-86). -/
def clockReset (M : Monitor) : Monitor := { M with time := 0, progress := .first, mem := fun _ => Rs.dflt }

/-- The loop of `r2u2_engine_step` (engines/mod.rs:43-74).  The time changes, and the loop ends, where a pass made no
progress; a reset at time 0 would not change it, but then the time is at its maximum. -/
def loop : Nat → Monitor → Option Monitor
  | 0, _ => none
  | n + 1, M =>
      match pass M.program M with
      | none => none
      | some M' =>
          match M'.progress with
          | .first => loop n { M' with progress := .reloop }                       -- 50-54
          | .again => loop n { M' with progress := .reloop }                       -- 55-59
          | .reloop =>                                                             -- 60-72
              if M'.time < maxTime then some { M' with time := M'.time + 1, progress := .first }
              else some M'.clockReset

/-- `monitor_step` (lib.rs:99-101; engines/mod.rs:26-76), with the atomics the caller or the booleanizer has set. -/
def step (fuel : Nat) (M : Monitor) (atoms : Nat → Bool) : Option Monitor :=
  loop fuel { M with idx := 0, atoms := atoms }

/-- `get_output_buffer` (lib.rs:296-298). -/
def outputs (M : Monitor) : List (Nat × Verdict) := (List.range M.idx).map M.buf

/-- `k` time steps, reading the output buffer after each: the monitor and everything read. -/
def run (fuel : Nat) (tr : Nat → Nat → Bool) : Nat → Monitor → Option (Monitor × List (Nat × Verdict))
  | 0, M => some (M, [])
  | k + 1, M => (run fuel tr k M).bind fun x => (x.1.step fuel (tr k)).map fun M' => (M', x.2 ++ M'.outputs)

/-- `reset` (memory/monitor.rs:87-94): the number of booleanizer instructions is set to 0 twice, that of
temporal instructions is left. -/
def reset (M : Monitor) : Monitor := { M.clockReset with bzMax := 0, blocks := fun _ => .dflt }

/-! ### Loading -/

/-- `mltl_configure_instruction_dispatch` (instructions/mltl.rs:71-96). -/
def configure (M : Monitor) (i : TlRec) : Option Monitor :=
  match i.t1 with
  | some .atomic =>                                                                -- 73-84
      (if i.mem = 0 then some 0 else (M.block (i.mem - 1)).map fun p => p.ref + p.len).bind fun ref =>
      if ref < 2 ^ 32 then
        (M.block i.mem).map fun b => M.setBlock i.mem { b with len := i.v1, ref := ref }
      else none
  | some .subformula =>                                                            -- 85-91
      (M.block i.mem).map fun b => M.setBlock i.mem { b with lb := i.v1, ub := i.v2 }
  | _ => some M                                                                    -- 92-94

/-- A booleanizer frame (internals/process_binary.rs:27-59): constants go to the value buffer, other instructions to the
table; the first value of a previous-value instruction is copied. -/
def storeBz (M : Monitor) (r : BzRec) : Option Monitor :=
  if r.opcode = some .iconst ∨ r.opcode = some .fconst then
    if r.mem < M.lim.bz then some M else none
  else if r.opcode = some .prev ∧ ¬ (r.mem < M.lim.bz ∧ r.param1 < M.lim.bz) then none
  else if M.bzMax < M.lim.bz then some { M with bzMax := M.bzMax + 1 } else none

/-- A temporal-logic frame (internals/process_binary.rs:61-66). -/
def storeTl (M : Monitor) (r : TlRec) : Option Monitor :=
  if M.max < M.lim.tl then
    some { M with table := fun k => if k = M.max then r else M.table k, max := M.max + 1 }
  else none

/-- The body of the loop (internals/process_binary.rs:22-66) at offset `o`. -/
def frame (s : List Nat) (o : Nat) (M : Monitor) : Option Monitor :=
  match s[o + 1]? with
  | none => none
  | some tag =>
      if tag = 2 ∧ s[o + 2]? = none then none                                      -- 22: the second test is out of bounds
      else if tag = 2 ∧ s[o + 2]? = some 4 then (tlRecAt s (o + 3)).bind M.configure
      else if tag = 5 then (bzRecAt s (o + 2)).bind M.storeBz
      else if tag = 4 then (tlRecAt s (o + 2)).bind M.storeTl
      else some M

/-- The loop (internals/process_binary.rs:20-68). -/
def frames : Nat → List Nat → Nat → Monitor → Option Monitor
  | 0, _, _, _ => none
  | n + 1, s, o, M =>
      match s[o]? with
      | none => none
      | some len => if len = 0 then some M else (frame s o M).bind (frames n s (o + len))

/-- The second loop (internals/process_binary.rs:80-94): the desired time of until and release starts at the lower bound. -/
def setNext : List TlRec → Monitor → Option Monitor
  | [], M => some M
  | r :: rs, M =>
      if r.opcode = some .until ∨ r.opcode = some .release then
        (M.block r.mem).bind fun b => setNext rs (M.setBlock r.mem { b with next := b.lb })
      else setNext rs M

/-- `process_binary_file` (internals/process_binary.rs:17-94). -/
def process (fuel : Nat) (s : List Nat) (M : Monitor) : Option Monitor :=
  match s[0]? with
  | none => none
  | some o => (frames fuel s o M).bind fun M' => setNext M'.program M'

/-- `update_binary_file` (lib.rs:84-87). -/
def updateBinary (fuel : Nat) (s : List Nat) (M : Monitor) : Option Monitor := process fuel s M.reset

end Monitor

/-- `get_monitor` (lib.rs:71-75). -/
def getMonitor (lim : Limits) (fuel : Nat) (s : List Nat) : Option Monitor := (Monitor.dflt lim).process fuel s

end Rs
end R2U2
