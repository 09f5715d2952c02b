import Verif.Model.Binary
/-
What the monitor should make of an instruction, written from the instruction alone.
-/
namespace R2U2

/-- The first operand of a booleanizer instruction as an unsigned word. -/
def BzInstr.word (i : BzInstr) : Nat :=
  match i.a with
  | .int v => (v % 2 ^ 32).toNat
  | .float bits => bits % 2 ^ 32

/-- The event an instruction stands for: constants are loaded, configuration records
executed, everything else stored with its own fields. -/
def Instr.event : Instr → LoadEv
  | .bz i =>
      match i.op, i.a with
      | .iconst, .int v => .iconst i.id v
      | .fconst, .float bits => .fconst i.id bits
      | _, _ => .bz ⟨i.word, i.b, i.id, some i.op⟩
  | .tl i => .tl ⟨i.v1.toNat, i.v2.toNat, i.id, some i.t1, some i.t2, some i.op⟩
  | .cg c => .config ⟨c.instr.v1.toNat, c.instr.v2.toNat, c.instr.id,
      some c.instr.t1, some c.instr.t2, some c.instr.op⟩

def fits (n : Nat) : Prop := n < 2 ^ 32

/-- The fields fit the words of the binary.  Integer constants must be non-negative
`int32`s and floats must have bit 31 of their pattern clear: see
`C24_int_constants_fail` and `C24_floats_fail`. -/
def Instr.Fits : Instr → Prop
  | .bz i => fits i.id ∧ fits i.b ∧
      match i.a with
      | .int v => i.op ≠ .fconst ∧ (if i.op = .iconst then 0 ≤ v else -(2 ^ 31) ≤ v) ∧ v < 2 ^ 31
      | .float bits => i.op = .fconst ∧ bits < 2 ^ 64 ∧ bits % 2 ^ 32 < 2 ^ 31
  | .tl i => fits i.id ∧ 0 ≤ i.v1 ∧ i.v1 < 2 ^ 32 ∧ 0 ≤ i.v2 ∧ i.v2 < 2 ^ 32
  | .cg c => fits c.instr.id ∧ 0 ≤ c.instr.v1 ∧ c.instr.v1 < 2 ^ 32 ∧ 0 ≤ c.instr.v2 ∧ c.instr.v2 < 2 ^ 32

/-- A temporal instruction as the monitor should hold it. -/
def TlInstr.asRec (i : TlInstr) : TlRec :=
  ⟨i.v1.toNat, i.v2.toNat, i.id, some i.t1, some i.t2, some i.op⟩

/-- The temporal instruction table after loading. -/
def LoadEv.tlTable (es : List LoadEv) : List TlRec :=
  es.filterMap fun | .tl r => some r | _ => none

/-- The configuration records executed while loading. -/
def LoadEv.configs (es : List LoadEv) : List TlRec :=
  es.filterMap fun | .config r => some r | _ => none

/-- What happened to the booleanizer instructions while loading: stored or, for constants,
executed. -/
def LoadEv.bzPart (es : List LoadEv) : List LoadEv :=
  es.filter fun | .tl _ => false | .config _ => false | _ => true

/-- Instruction `i` is packed into a frame that alone loads as `ev`. -/
def LoadsAs (i : Instr) (ev : LoadEv) : Prop :=
  ∃ f, packInstr i = some f ∧ loadFrame f 0 = some [ev]

end R2U2
