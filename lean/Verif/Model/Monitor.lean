import Verif.Model.Binary
/-
Model of the C monitor's temporal engine: shared connection queues
(monitors/c/src/memory/shared_connection_queue.c), `r2u2_mltl_update`
(monitors/c/src/engines/mltl.c) and `r2u2_engine_step` (monitors/c/src/engines/engines.c).

The Rust monitor (monitors/rust/r2u2_core/src) is the same program but for the places where a
definition below looks at `Lang`; `Model/Rust.lean` models it function by function, with its arrays, its arithmetic
and its panics.

Simplifications, all of this file:
* a verdict-timestamp word (types.h:52-61) is a pair; times are unbounded.  The packing
  into 32 bits is modelled in `Model/Word.lean`.
* every queue has its own memory; that the regions do not overlap is a property of the
  configuration (`Model/Arena.lean`).
* output (file, callback, auxiliary strings) is a list of pairs.
* subtraction stops at 0 where C wraps around: `time - lower_bound` in the until and release
  cases differs when a constant is the right operand, before time `lower_bound`.
-/
namespace R2U2

/-- A verdict-timestamp tuple (types.h:52-61). -/
structure Verdict where
  truth : Bool
  time : Nat
  deriving DecidableEq, Repr

/-- `r2u2_infinity` as a verdict (types.h:46-50): all bits set. -/
def Verdict.inf : Verdict := ⟨true, 2 ^ 31 - 1⟩

/-- A queue slot: `none` is `r2u2_infinity`. -/
abbrev Slot := Option Verdict

/-- Which of the two monitors. -/
inductive Lang where
  | c | rust
  deriving DecidableEq, Repr

/-- What an unused slot reads as: `r2u2_infinity` (types.h:46-50), or `r2u2_verdict::default()`
(internals/types.rs:44-51). -/
def Lang.inf : Lang → Verdict
  | .c => .inf
  | .rust => ⟨false, 2 ^ 32 - 1⟩

/-- `r2u2_scq_control_block_t` (shared_connection_queue.h:17-24) with the slots it points
to and its temporal block (10-15). -/
structure Ctrl where
  len : Nat
  write : Nat
  read1 : Nat
  read2 : Nat
  next : Nat
  slots : Nat → Slot
  edge : Verdict
  prev : Verdict
  lb : Nat
  ub : Nat
  lang : Lang

/-- The tests of the slot to be written, before a verdict is written over the previous one
(shared_connection_queue.c:19-20; memory/scq.rs:97). -/
def Ctrl.merges (c : Ctrl) (p : Nat) : Prop :=
  match c.lang with
  | .c => c.slots p ≠ c.slots c.write ∧ c.slots c.write ≠ none
  | .rust => ¬ (c.slots c.write = none ∧ c.write = 0)

instance (c : Ctrl) (p : Nat) : Decidable (c.merges p) := by unfold Ctrl.merges; cases c.lang <;> infer_instance

/-- `r2u2_scq_write` (shared_connection_queue.c:3-33; memory/scq.rs:77-117). -/
def Ctrl.push (c : Ctrl) (v : Verdict) : Ctrl :=
  let p := if c.write = 0 then c.len - 1 else c.write - 1                     -- 10
  let w := if ((c.slots p).getD c.lang.inf).truth = v.truth ∧ c.merges p then p else c.write  -- 18-23
  { c with
    slots := fun k => if k = w then some v else c.slots k                      -- 26
    write := (w + 1) % c.len }                                                 -- 28

/-- The `do`-`while` loop of `r2u2_scq_read` (shared_connection_queue.c:52-66; memory/scq.rs:138-153): the read
pointer and the slot found.  `none`: out of fuel. -/
def scan (inf : Verdict) (slots : Nat → Slot) (len write next : Nat) : Nat → Nat → Option (Nat × Option Verdict)
  | 0, _ => none
  | n + 1, r =>
      let s := (slots r).getD inf
      if next ≤ s.time then some (r, some s)                                   -- 54-59
      else
        let r' := (r + 1) % len                                                -- 61
        if r' = write then some (if r' = 0 then len - 1 else r' - 1, none)     -- 62-66
        else scan inf slots len write next n r'

/-- `r2u2_scq_read` (shared_connection_queue.c:35-71; memory/scq.rs:119-158) with read pointer `r` of a parent
whose desired time is `next`: the new read pointer and the result.  The loop runs at
most `len` times: after that the read pointer has met the write pointer. -/
def Ctrl.read (c : Ctrl) (r next : Nat) : Option (Nat × Option Verdict) :=
  if c.slots r = none ∧ (c.lang = .c ∨ r = 0) then some (r, none)              -- 46-50; scq.rs:129-134
  else scan c.lang.inf c.slots c.len c.write next (c.len + 1) r

/-- `r2u2_monitor_progress_state_t` (monitor.h:15-19). -/
inductive Progress where
  | first | reloop | again
  deriving DecidableEq, Repr

/-- The part of `r2u2_monitor_t` the temporal engine uses (monitor.h:29-54). -/
structure Mon where
  time : Nat
  progress : Progress
  ctrl : Nat → Ctrl
  atoms : Nat → Bool
  out : List (Nat × Verdict)

/-- An update of one control block. -/
def Mon.upd (m : Mon) (q : Nat) (f : Ctrl → Ctrl) : Mon :=
  { m with ctrl := fun k => if k = q then f (m.ctrl k) else m.ctrl k }

/-- Flagging progress (mltl.c:77-79, 139-141). -/
def Progress.flag : Progress → Progress
  | .reloop => .again
  | p => p

/-- `check_operand_data` (mltl.c:18-67): the first operand is read through `read1`, the
second through `read2`.  `none`: the read does not end. -/
def Mon.operand (m : Mon) (i : TlRec) (second : Bool) : Option (Mon × Option Verdict) :=
  match (if second then i.t2 else i.t1), (if second then i.v2 else i.v1) with
  | some .direct, v =>                                                         -- 24-39
      let t := if i.opcode = some .since ∨ i.opcode = some .trigger
        then m.time + (m.ctrl i.mem).ub else m.time
      some (m, some ⟨decide (v ≠ 0), t⟩)
  | some .atomic, v =>                                                         -- 41-52
      some (m, if m.progress = .first then some ⟨m.atoms v, m.time⟩ else none)
  | some .subformula, v =>                                                     -- 54-56
      let r := if second then (m.ctrl i.mem).read2 else (m.ctrl i.mem).read1
      ((m.ctrl v).read r (m.ctrl i.mem).next).map fun x =>
        (m.upd i.mem fun c => if second then { c with read2 := x.1 } else { c with read1 := x.1 },
          x.2)
  | _, _ => some (m, none)                                                     -- 58-65

/-- What a case of `r2u2_mltl_update` does to the instruction's own queue: the verdict
pushed, the verdict reported, and the new `next_time`, `previous` and `edge`.  No case pushes
twice, and none reads these fields after the push. -/
structure Effect where
  push : Option Verdict
  report : Option Verdict
  next : Nat
  prev : Verdict
  edge : Verdict

/-- Nothing happens. -/
def Ctrl.keep (c : Ctrl) : Effect := ⟨none, none, c.next, c.prev, c.edge⟩

/-- `push_result(v)` and `next_time = n`. -/
def Ctrl.emit (c : Ctrl) (v : Verdict) (n : Nat) : Effect := { c.keep with push := some v, next := n }

/-- `push_result(v)`, `next_time = n` and `previous = set_verdict_true(v)` (or `v`, where it is
true already): the truth bit of `previous` records that an output was produced. -/
def Ctrl.emitPrev (c : Ctrl) (v : Verdict) (n : Nat) : Effect :=
  { c.keep with push := some v, next := n, prev := ⟨true, v.time⟩ }

/-- `R2U2_MLTL_OP_LOAD` (mltl.c:106-116) after the operand was read. -/
def loadBody (c : Ctrl) : Option Verdict → Effect
  | some a => c.emit a (a.time + 1)
  | none => c.keep

/-- `R2U2_MLTL_OP_RETURN` (mltl.c:117-146) after the operand was read. -/
def retBody (c : Ctrl) : Option Verdict → Effect
  | some a => { c.keep with report := some a, next := a.time + 1 }
  | none => c.keep

/-- `R2U2_MLTL_OP_NOT` (mltl.c:460-475) after the operand was read. -/
def notBody (c : Ctrl) : Option Verdict → Effect
  | some a => c.emit ⟨!a.truth, a.time⟩ (a.time + 1)
  | none => c.keep

/-- `R2U2_MLTL_OP_UNTIL` (mltl.c:168-211) after the operands were read. -/
def untilBody (c : Ctrl) (a : Option Verdict) : Option Verdict → Effect
  | none => c.keep
  | some b =>
      if b.truth then c.emitPrev ⟨true, b.time - c.lb⟩ (b.time + 1)            -- 169-177
      else
        -- 191-207, with the value of `next_time` at this point
        let rest (next : Nat) : Effect :=
          if c.prev.time + c.ub ≤ b.time ∧
              (c.prev.time < b.time - c.ub ∨ (b.time - c.ub = 0 ∧ c.prev.truth = false)) then
            c.emitPrev ⟨false, b.time - c.ub⟩ (max next (b.time - c.ub + c.lb + 1))
          else { c.keep with next := next }
        match a with
        | some a =>                                                            -- 178-190
            if a.truth = false then
              c.emitPrev ⟨false, min a.time b.time - c.lb⟩ (min a.time b.time + 1)
            else rest (min a.time b.time + 1)
        | none => rest c.next

/-- `R2U2_MLTL_OP_RELEASE` (mltl.c:222-265) after the operands were read. -/
def releaseBody (c : Ctrl) (a : Option Verdict) : Option Verdict → Effect
  | none => c.keep
  | some b =>
      if b.truth = false then c.emitPrev ⟨false, b.time - c.lb⟩ (b.time + 1)   -- 223-231
      else
        -- 245-261
        let rest (next : Nat) : Effect :=
          if c.prev.time + c.ub ≤ b.time ∧
              (c.prev.time < b.time - c.ub ∨ (b.time - c.ub = 0 ∧ c.prev.truth = false)) then
            c.emitPrev ⟨true, b.time - c.ub⟩ (max next (b.time - c.ub + c.lb + 1))
          else { c.keep with next := next }
        match a with
        | some a =>                                                            -- 232-244
            if a.truth then
              c.emitPrev ⟨true, min a.time b.time - c.lb⟩ (min a.time b.time + 1)
            else rest (min a.time b.time + 1)
        | none => rest c.next

/-- The test that a result at time `t` is new (mltl.c:307-308 and its copies). -/
def Ctrl.isNew (c : Ctrl) (t : Nat) : Prop :=
  c.prev.time < t ∨ (t = 0 ∧ c.prev.truth = false)

instance (c : Ctrl) (t : Nat) : Decidable (c.isNew t) := by unfold Ctrl.isNew; infer_instance

/-- `R2U2_MLTL_OP_SINCE` (mltl.c:294-366) after the operands were read. -/
def sinceBody (c : Ctrl) (a : Option Verdict) (b : Option Verdict) : Effect :=
  -- 349-363, with the values of `next_time` and `edge` at this point
  let last (next : Nat) (edge : Verdict) : Effect :=
    let idle : Effect := { c.keep with next := next, edge := edge }
    match a with
    | some a =>
        if a.truth ∧ c.prev.time - c.lb ≤ a.time ∧ edge.truth ∧
            (c.prev.time - c.ub < edge.time ∨ c.prev.time < c.ub) then
          let res := min (a.time + c.lb) (edge.time + c.ub)
          if c.isNew res then
            { c.emitPrev ⟨true, res⟩ (max next (res - c.ub + 1)) with edge := edge }
          else idle
        else idle
    | none => idle
  match b with
  | none => last c.next c.edge
  | some b =>
      if b.truth then                                                          -- 295-315
        let edge : Verdict := ⟨true, b.time⟩
        if c.prev.time - c.lb ≤ b.time ∧ c.isNew (b.time + c.lb) then
          { c.emitPrev ⟨true, b.time + c.lb⟩ (b.time + 1) with edge := edge }
        else last (b.time + 1) edge
      else
        let fires := c.prev.time - c.lb ≤ b.time ∧ c.isNew (b.time + c.lb)
        if c.edge.truth = false ∨ (c.edge.time ≤ c.prev.time - c.ub ∧ c.ub ≤ c.prev.time) then
          if fires then c.emitPrev ⟨false, b.time + c.lb⟩ (b.time + 1)          -- 317-331
          else last (b.time + 1) c.edge
        else if a.map (·.truth) = some false then                              -- 332-346
          if fires then c.emitPrev ⟨false, b.time + c.lb⟩ (b.time + 1)
          else last (b.time + 1) c.edge
        else last c.next c.edge

/-- `R2U2_MLTL_OP_TRIGGER` (mltl.c:384-457) after the operands were read. -/
def triggerBody (c : Ctrl) (a : Option Verdict) (b : Option Verdict) : Effect :=
  -- 439-454
  let last (next : Nat) (edge : Verdict) : Effect :=
    let idle : Effect := { c.keep with next := next, edge := edge }
    match a with
    | some a =>
        if a.truth = false ∧ c.prev.time - c.lb ≤ a.time ∧ edge.truth ∧
            (c.prev.time - c.ub < edge.time ∨ c.prev.time < c.ub) then
          let res := min (a.time + c.lb) (edge.time + c.ub)
          if c.isNew res then
            { c.emitPrev ⟨false, res⟩ (max next (res - c.ub + 1)) with edge := edge }
          else idle
        else idle
    | none => idle
  match b with
  | none => last c.next c.edge
  | some b =>
      if b.truth = false then                                                  -- 385-405
        let edge : Verdict := ⟨true, b.time⟩
        if c.prev.time - c.lb ≤ b.time ∧ c.isNew (b.time + c.lb) then
          { c.emitPrev ⟨false, b.time + c.lb⟩ (b.time + 1) with edge := edge }
        else last (b.time + 1) edge
      else
        let fires := c.prev.time - c.lb ≤ b.time ∧ c.isNew (b.time + c.lb)
        if c.edge.truth = false ∨ (c.edge.time ≤ c.prev.time - c.ub ∧ c.ub ≤ c.prev.time) then
          if fires then c.emitPrev ⟨true, b.time + c.lb⟩ (b.time + 1)           -- 407-421
          else last (b.time + 1) c.edge
        else if a.map (·.truth) = some true then                               -- 422-436
          if fires then c.emitPrev ⟨true, b.time + c.lb⟩ (b.time + 1)
          else last (b.time + 1) c.edge
        else last c.next c.edge

/-- `R2U2_MLTL_OP_AND` (mltl.c:484-510) after the operands were read. -/
def andBody (c : Ctrl) : Option Verdict → Option Verdict → Effect
  | some a, some b =>
      if a.truth ∧ b.truth then c.emit ⟨true, min a.time b.time⟩ (min a.time b.time + 1)
      else if a.truth = false ∧ b.truth = false then
        c.emit ⟨false, max a.time b.time⟩ (max a.time b.time + 1)
      else if a.truth = false then c.emit ⟨false, a.time⟩ (a.time + 1)
      else c.emit ⟨false, b.time⟩ (b.time + 1)
  | some a, none => if a.truth = false then c.emit ⟨false, a.time⟩ (a.time + 1) else c.keep
  | none, some b => if b.truth = false then c.emit ⟨false, b.time⟩ (b.time + 1) else c.keep
  | none, none => c.keep

/-- `R2U2_MLTL_OP_OR` (mltl.c:522-548) after the operands were read. -/
def orBody (c : Ctrl) : Option Verdict → Option Verdict → Effect
  | some a, some b =>
      if a.truth ∧ b.truth then c.emit ⟨true, max a.time b.time⟩ (max a.time b.time + 1)
      else if a.truth = false ∧ b.truth = false then
        c.emit ⟨false, min a.time b.time⟩ (min a.time b.time + 1)
      else if a.truth then c.emit ⟨true, a.time⟩ (a.time + 1)
      else c.emit ⟨true, b.time⟩ (b.time + 1)
  | some a, none => if a.truth then c.emit ⟨true, a.time⟩ (a.time + 1) else c.keep
  | none, some b => if b.truth then c.emit ⟨true, b.time⟩ (b.time + 1) else c.keep
  | none, none => c.keep

/-- `R2U2_MLTL_OP_EQUIVALENT` (mltl.c:570-584) after the operands were read. -/
def equivBody (c : Ctrl) : Option Verdict → Option Verdict → Effect
  | some a, some b =>
      c.emit ⟨decide (a.truth = b.truth), min a.time b.time⟩ (min a.time b.time + 1)
  | _, _ => c.keep

/-- An effect on the instruction's own control block; a push flags progress, and so does a report
by the C monitor (mltl.c:77-79, 139-141; engines/mltl.rs:54-61, 77-123). -/
def Mon.apply (m : Mon) (i : TlRec) (e : Effect) : Mon :=
  { m with
    progress := if e.push.isSome ∨ (e.report.isSome ∧ (m.ctrl i.mem).lang = .c) then m.progress.flag else m.progress
    ctrl := fun k => if k = i.mem then
        { (match e.push with
            | some v => (m.ctrl k).push v
            | none => m.ctrl k) with next := e.next, prev := e.prev, edge := e.edge }
      else m.ctrl k
    out := match e.report with
      | some v => m.out ++ [(i.v2, v)]
      | none => m.out }

/-- A case with one operand. -/
def Mon.unary (m : Mon) (i : TlRec) (body : Ctrl → Option Verdict → Effect) : Option Mon :=
  (m.operand i false).map fun x => x.1.apply i (body (x.1.ctrl i.mem) x.2)

/-- A case with two operands: the first is read before the second. -/
def Mon.binary (m : Mon) (i : TlRec) (body : Ctrl → Option Verdict → Option Verdict → Effect) :
    Option Mon :=
  (m.operand i false).bind fun x => (x.1.operand i true).map fun y =>
    y.1.apply i (body (y.1.ctrl i.mem) x.2 y.2)

/-- The desired time of until and release starts at the lower bound (mltl.c:162-164,
216-218); the Rust monitor sets it when it loads the program only
(internals/process_binary.rs:83-88). -/
def Mon.skipToLb (m : Mon) (i : TlRec) : Mon :=
  m.upd i.mem fun c => if c.lang = .c ∧ c.next < c.lb then { c with next := c.lb } else c

/-- The start of a trace, where since and trigger have a verdict without reading (mltl.c:281,
371). -/
def Ctrl.starting (c : Ctrl) : Prop := c.prev.truth = false ∧ c.prev.time < c.lb

instance (c : Ctrl) : Decidable c.starting := by unfold Ctrl.starting; infer_instance

/-- `r2u2_mltl_update` (mltl.c:87-598) on instruction `i`.  Unimplemented and unknown
opcodes do nothing (their error code is overwritten by the caller, engines.c:23).  The Rust monitor
(`mltl_update`, engines/mltl.rs:63-216) reads the operands of since and trigger before it looks whether
it is at the start of a trace (711-716, 925-930). -/
def Mon.update (m : Mon) (i : TlRec) : Option Mon :=
  match i.opcode with
  | some .load => m.unary i loadBody
  | some .ret => m.unary i retBody
  | some .until => (m.skipToLb i).binary i untilBody
  | some .release => (m.skipToLb i).binary i releaseBody
  | some .since =>                                                             -- 278-289
      let c := m.ctrl i.mem
      match c.lang with
      | .c =>
          if c.starting then some (m.apply i (c.emitPrev ⟨false, c.lb - 1⟩ 0))
          else m.binary i sinceBody
      | .rust => m.binary i fun c a b =>
          if c.starting then c.emitPrev ⟨false, c.lb - 1⟩ c.next else sinceBody c a b
  | some .trigger =>                                                           -- 368-379
      let c := m.ctrl i.mem
      match c.lang with
      | .c =>
          if c.starting then some (m.apply i (c.emitPrev ⟨true, c.lb - 1⟩ 0))
          else m.binary i triggerBody
      | .rust => m.binary i fun c a b =>
          if c.starting then c.emitPrev ⟨true, c.lb - 1⟩ c.next else triggerBody c a b
  | some .not => m.unary i notBody
  | some .and => m.binary i andBody
  | some .or => m.binary i orBody
  | some .equiv => m.binary i equivBody
  | _ => some m

/-- One pass over the instruction table (engines.c:21-25). -/
def Mon.pass : List TlRec → Mon → Option Mon
  | [], m => some m
  | i :: is, m => (m.update i).bind (Mon.pass is)

/-- The outer loop (engines.c:20-59): passes until one made no progress, then the clock
advances.  `none`: out of fuel. -/
def Mon.loop (prog : List TlRec) : Nat → Mon → Option Mon
  | 0, _ => none
  | n + 1, m =>
      match m.pass prog with
      | none => none
      | some m' =>
          match m'.progress with
          | .first => Mon.loop prog n { m' with progress := .reloop }
          | .again => Mon.loop prog n { m' with progress := .reloop }
          | .reloop => some { m' with time := m'.time + 1, progress := .first }

/-- `r2u2_engine_step` (engines.c:7-61) for the temporal engine, after the booleanizer
(or the user) has set the atomics of this time step. -/
def Mon.step (prog : List TlRec) (fuel : Nat) (m : Mon) (atoms : Nat → Bool) : Option Mon :=
  Mon.loop prog fuel { m with atoms := atoms }

/-- `k` time steps on a trace of atomics. -/
def Mon.run (prog : List TlRec) (fuel : Nat) (tr : Nat → Nat → Bool) : Nat → Mon → Option Mon
  | 0, m => some m
  | k + 1, m => (Mon.run prog fuel tr k m).bind fun m' => m'.step prog fuel (tr k)

/-- A control block before the first step: the arrays are zero (monitor.h:57-102), slot 0 is
`r2u2_infinity` (mltl.c:631), and the desired time of an until or release is its lower
bound (process_binary.c:58-66).  In the Rust monitor all slots are `r2u2_infinity`
(memory/scq.rs:68-75). -/
def Ctrl.init (op : Option TlOp) (len lb ub : Nat) (lang : Lang := .c) : Ctrl where
  len := len
  write := 0
  read1 := 0
  read2 := 0
  next := if op = some .until ∨ op = some .release then lb else 0
  slots := fun k => if k = 0 ∨ lang = .rust then none else some ⟨false, 0⟩
  edge := ⟨false, 0⟩
  prev := ⟨false, 0⟩
  lb := lb
  ub := ub
  lang := lang

/-- The monitor before the first step, given the queue lengths and intervals the
configuration records set, by instruction. -/
def Mon.init (prog : List TlRec) (len lb ub : Nat → Nat) (lang : Lang := .c) : Mon where
  time := 0
  progress := .first
  ctrl := fun q => Ctrl.init (prog[q]?.bind TlRec.opcode) (len q) (lb q) (ub q) lang
  atoms := fun _ => false
  out := []

end R2U2
