import Verif.Model.Word
/-
Model of the monitor's memory: all queues and temporal blocks in one array of words
(`queue_mem`), placed there by configuration records.  The same code as in `Model/Monitor.lean`,
with every access to an array checked against the size of the array (`bounds.h`): `none`
means that an access is out of bounds or that a loop does not end.

Simplification: after a case of `r2u2_mltl_update` the `edge` and `previous` words are
written back whether they changed or not.
-/
namespace R2U2

/-- The array sizes (monitor.h:57-102): `R2U2_MAX_QUEUE_SLOTS +
R2U2_MAX_TEMPORAL_OPERATORS * R2U2_TEMPORAL_METADATA_SIZE`, `R2U2_MAX_TL_INSTRUCTIONS`
and `R2U2_MAX_ATOMICS`. -/
structure Limits where
  slots : Nat
  blocks : Nat
  atomics : Nat
  deriving DecidableEq, Repr

/-- `r2u2_scq_control_block_t` (shared_connection_queue.h:17-24); `off` is `queue`, as an
index of `queue_mem`. -/
structure Block where
  len : Nat
  write : Nat
  read1 : Nat
  read2 : Nat
  next : Nat
  off : Nat
  deriving DecidableEq

/-- `r2u2_monitor_t` (monitor.h:29-54), the part the temporal engine uses. -/
structure Flat where
  lim : Limits
  time : Nat
  progress : Progress
  blocks : Nat → Block
  mem : Nat → Nat
  atoms : Nat → Bool
  out : List (Nat × Verdict)

namespace Flat

/-- `queue_mem[a]` -/
def load (F : Flat) (a : Nat) : Option Nat := if a < F.lim.slots then some (F.mem a) else none

/-- `queue_mem[a] = w` -/
def store (F : Flat) (a w : Nat) : Option Flat :=
  if a < F.lim.slots then some { F with mem := fun k => if k = a then w else F.mem k } else none

/-- `control_blocks[q]` -/
def block (F : Flat) (q : Nat) : Option Block :=
  if q < F.lim.blocks then some (F.blocks q) else none

/-- `control_blocks[q] = b` (`q` checked by `block` before) -/
def setBlock (F : Flat) (q : Nat) (b : Block) : Flat :=
  { F with blocks := fun k => if k = q then b else F.blocks k }

/-- `r2u2_scq_write` (shared_connection_queue.c:3-33). -/
def push (F : Flat) (q w : Nat) : Option Flat :=
  (F.block q).bind fun b =>
    let p := if b.write = 0 then b.len - 1 else b.write - 1                    -- 10
    (F.load (b.off + p)).bind fun wp =>
    (F.load (b.off + b.write)).bind fun ww =>
      let i := if getTruth wp = getTruth w ∧ wp ≠ ww ∧ ww ≠ infWord then p else b.write  -- 18-23
      (F.store (b.off + i) w).map fun F' =>                                    -- 26
        F'.setBlock q { b with write := (i + 1) % b.len }                      -- 28

/-- The loop of `r2u2_scq_read` (shared_connection_queue.c:52-66) on the queue of block
`b`. -/
def scan (F : Flat) (b : Block) (next : Nat) : Nat → Nat → Option (Nat × Option Nat)
  | 0, _ => none
  | n + 1, r =>
      (F.load (b.off + r)).bind fun w =>
        if next ≤ getTime w then some (r, some w)                              -- 54-59
        else
          let r' := (r + 1) % b.len                                            -- 61
          if r' = b.write then some (if r' = 0 then b.len - 1 else r' - 1, none)
          else F.scan b next n r'

/-- `r2u2_scq_read` (shared_connection_queue.c:35-71). -/
def read (F : Flat) (b : Block) (r next : Nat) : Option (Nat × Option Nat) :=
  (F.load (b.off + r)).bind fun w =>
    if w = infWord then some (r, none) else F.scan b next (b.len + 1) r

/-- The opcodes that use a temporal block. -/
def isTemporal (op : Option TlOp) : Bool :=
  match op with
  | some .until | some .release | some .since | some .trigger => true
  | _ => false

/-- The control block of instruction `i` with its temporal block
(`r2u2_scq_temporal_get`, shared_connection_queue.h:51-53), as the cases of
`r2u2_mltl_update` see it. -/
def ctrlOf (F : Flat) (i : TlRec) : Option Ctrl :=
  (F.block i.mem).bind fun b =>
    if isTemporal i.opcode then
      (F.load (b.off + b.len)).bind fun e =>
      (F.load (b.off + b.len + 1)).bind fun p =>
      (F.load (b.off + b.len + 2)).bind fun lb =>
      (F.load (b.off + b.len + 3)).map fun ub =>
        ⟨b.len, b.write, b.read1, b.read2, b.next, fun _ => none, unpack e, unpack p, lb, ub, .c⟩
    else some ⟨b.len, b.write, b.read1, b.read2, b.next, fun _ => none, ⟨false, 0⟩, ⟨false, 0⟩, 0, 0, .c⟩

/-- `check_operand_data` (mltl.c:18-67). -/
def operand (F : Flat) (i : TlRec) (second : Bool) : Option (Flat × Option Nat) :=
  match (if second then i.t2 else i.t1), (if second then i.v2 else i.v1) with
  | some .direct, v =>                                                         -- 24-39
      (F.ctrlOf i).map fun c =>
        let t := if i.opcode = some .since ∨ i.opcode = some .trigger then F.time + c.ub else F.time
        (F, some (Verdict.word ⟨decide (v ≠ 0), t⟩))
  | some .atomic, v =>                                                         -- 41-52
      if F.progress = .first then
        if v < F.lim.atomics then some (F, some (Verdict.word ⟨F.atoms v, F.time⟩)) else none
      else some (F, none)
  | some .subformula, v =>                                                     -- 54-56
      (F.block i.mem).bind fun b =>
      (F.block v).bind fun c =>
        (F.read c (if second then b.read2 else b.read1) b.next).map fun x =>
          (F.setBlock i.mem (if second then { b with read2 := x.1 } else { b with read1 := x.1 }), x.2)
  | _, _ => some (F, none)                                                     -- 58-65

/-- Writing back the temporal block. -/
def writeBack (F : Flat) (i : TlRec) (e : Effect) : Option Flat :=
  (F.block i.mem).bind fun b =>
    let F1 := F.setBlock i.mem { b with next := e.next }
    if isTemporal i.opcode then
      (F1.store (b.off + b.len) e.edge.word).bind fun F2 => F2.store (b.off + b.len + 1) e.prev.word
    else some F1

/-- The push of an effect. -/
def pushed (F : Flat) (q : Nat) : Option Verdict → Option Flat
  | some v => F.push q v.word
  | none => some F

/-- An effect on memory; a push or a report flags progress (mltl.c:77-79, 139-141). -/
def apply (F : Flat) (i : TlRec) (e : Effect) : Option Flat :=
  (F.pushed i.mem e.push).bind fun (F1 : Flat) => (F1.writeBack i e).map fun (F2 : Flat) =>
      { F2 with
        progress := if e.push.isSome ∨ e.report.isSome then F2.progress.flag else F2.progress
        out := match e.report with
          | some v => F2.out ++ [(i.v2, v)]
          | none => F2.out }

/-- A case with one operand. -/
def unary (F : Flat) (i : TlRec) (body : Ctrl → Option Verdict → Effect) : Option Flat :=
  (F.operand i false).bind fun x => (x.1.ctrlOf i).bind fun c => x.1.apply i (body c (x.2.map unpack))

/-- A case with two operands. -/
def binary (F : Flat) (i : TlRec) (body : Ctrl → Option Verdict → Option Verdict → Effect) : Option Flat :=
  (F.operand i false).bind fun x => (x.1.operand i true).bind fun y => (y.1.ctrlOf i).bind fun c =>
    y.1.apply i (body c (x.2.map unpack) (y.2.map unpack))

/-- mltl.c:162-164, 216-218 -/
def skipToLb (F : Flat) (i : TlRec) : Option Flat :=
  (F.ctrlOf i).bind fun c => (F.block i.mem).map fun b =>
    if b.next < c.lb then F.setBlock i.mem { b with next := c.lb } else F

/-- `r2u2_mltl_update` (mltl.c:87-598) on instruction `i`. -/
def update (F : Flat) (i : TlRec) : Option Flat :=
  match i.opcode with
  | some .load => F.unary i loadBody
  | some .ret => F.unary i retBody
  | some .until => (F.skipToLb i).bind fun F => F.binary i untilBody
  | some .release => (F.skipToLb i).bind fun F => F.binary i releaseBody
  | some .since =>
      (F.ctrlOf i).bind fun c =>
        if c.starting then F.apply i (c.emitPrev ⟨false, c.lb - 1⟩ 0) else F.binary i sinceBody
  | some .trigger =>
      (F.ctrlOf i).bind fun c =>
        if c.starting then F.apply i (c.emitPrev ⟨true, c.lb - 1⟩ 0) else F.binary i triggerBody
  | some .not => F.unary i notBody
  | some .and => F.binary i andBody
  | some .or => F.binary i orBody
  | some .equiv => F.binary i equivBody
  | _ => some F

/-- engines.c:21-25 -/
def pass : List TlRec → Flat → Option Flat
  | [], F => some F
  | i :: is, F => (F.update i).bind (pass is)

/-- engines.c:20-59 -/
def loop (prog : List TlRec) : Nat → Flat → Option Flat
  | 0, _ => none
  | n + 1, F =>
      match F.pass prog with
      | none => none
      | some F' =>
          match F'.progress with
          | .first => loop prog n { F' with progress := .reloop }
          | .again => loop prog n { F' with progress := .reloop }
          | .reloop => some { F' with time := F'.time + 1, progress := .first }

/-- `k` time steps on a trace of atomics. -/
def run (prog : List TlRec) (fuel : Nat) (tr : Nat → Nat → Bool) : Nat → Flat → Option Flat
  | 0, F => some F
  | k + 1, F => (run prog fuel tr k F).bind fun F' => loop prog fuel { F' with atoms := tr k }

/-- `r2u2_mltl_configure_instruction_dispatch` (mltl.c:600-656). -/
def configure (F : Flat) (r : TlRec) : Option Flat :=
  match r.t1 with
  | some .atomic =>                                                            -- 605-634
      (F.block r.mem).bind fun b =>
      (if r.mem = 0 then some 0 else (F.block (r.mem - 1)).map fun p => p.off + p.len).bind fun off =>
        (F.setBlock r.mem
          { b with off := off, len := r.v1 + if r.t2 = some .atomic then 4 else 0 }).store off infWord
  | some .subformula =>                                                        -- 639-648
      (F.block r.mem).bind fun b =>
        let b' := { b with len := b.len - 4 }
        ((F.setBlock r.mem b').store (b'.off + b'.len + 2) r.v1).bind fun F' =>
          F'.store (b'.off + b'.len + 3) r.v2
  | _ => some F                                                                -- 649-652

/-- All configuration records, in order. -/
def configureAll : List TlRec → Flat → Option Flat
  | [], F => some F
  | r :: rs, F => (F.configure r).bind (configureAll rs)

/-- The loop over the instruction table after loading (process_binary.c:57-66), from
index `i`. -/
def setNext : Nat → List TlRec → Flat → Option Flat
  | _, [], F => some F
  | i, r :: rs, F =>
      (if r.opcode = some .until ∨ r.opcode = some .release then
        (F.block i).bind fun b => (F.load (b.off + b.len + 2)).map fun lb =>
          F.setBlock i { b with next := lb }
      else some F).bind (setNext (i + 1) rs)

/-- `R2U2_DEFAULT_MONITOR` (monitor.h:66-102): everything is zero. -/
def zero (lim : Limits) : Flat where
  lim := lim
  time := 0
  progress := .first
  blocks := fun _ => ⟨0, 0, 0, 0, 0, 0⟩
  mem := fun _ => 0
  atoms := fun _ => false
  out := []

/-- A monitor that has loaded a binary with these configuration records and instructions. -/
def start (lim : Limits) (configs prog : List TlRec) : Option Flat :=
  (configureAll configs (zero lim)).bind (setNext 0 prog)

/-- The verdicts reported for formula number `f`. -/
def reports (F : Flat) (f : Nat) : List Verdict := (F.out.filter fun x => x.1 = f).map (·.2)

end Flat
end R2U2
