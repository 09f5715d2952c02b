import Verif.Model.Assembly
/-
Model of the specification binary: packing (assemble.py:834-1076) and the monitor's
loader (monitors/c/src/internals/process_binary.c, monitors/c/src/instructions/).
Bytes are natural numbers below 256.
-/
namespace R2U2

/-! ### Packing -/

/-- `BZOperator` values (assemble.py:30-71). -/
def BzOp.code : BzOp → Nat
  | .none => 0b000000 | .iload => 0b000001 | .fload => 0b000010 | .iconst => 0b000011
  | .fconst => 0b000100 | .store => 0b000101 | .bwneg => 0b000110 | .bwand => 0b000111
  | .bwor => 0b001000 | .bwxor => 0b001001 | .ieq => 0b001010 | .feq => 0b001011
  | .ineq => 0b001100 | .fneq => 0b001101 | .igt => 0b001110 | .fgt => 0b001111
  | .igte => 0b010000 | .fgte => 0b010001 | .ilt => 0b010010 | .flt => 0b010011
  | .ilte => 0b010100 | .flte => 0b010101 | .ineg => 0b010110 | .fneg => 0b010111
  | .iadd => 0b011000 | .fadd => 0b011001 | .isub => 0b011010 | .fsub => 0b011011
  | .imul => 0b011100 | .fmul => 0b011101 | .idiv => 0b011110 | .fdiv => 0b011111
  | .mod => 0b100000 | .ipow => 0b100001 | .fpow => 0b100010 | .isqrt => 0b100011
  | .fsqrt => 0b100100 | .iabs => 0b100101 | .fabs => 0b100110 | .prev => 0b100111
  | .ts => 0b101000

/-- `FTOperator` and `PTOperator` values (assemble.py:167-182, 209-223). -/
def TlOp.code : TlOp → Nat
  | .nop => 0b11111 | .config => 0b11110 | .load => 0b11101 | .ret => 0b11100
  | .eventually => 0b11011 | .global => 0b11010 | .until => 0b11001 | .release => 0b11000
  | .not => 0b10111 | .and => 0b10110 | .or => 0b10101 | .implies => 0b10100
  | .equiv => 0b10000 | .xor => 0b10001
  | .once => 0b01011 | .hist => 0b01010 | .since => 0b01001 | .trigger => 0b01000

/-- `TLOperandType` values (assemble.py:161-165). -/
def OperandT.code : OperandT → Nat
  | .direct => 0b01 | .atomic => 0b00 | .subformula => 0b10 | .none => 0b11

/-- `k` bytes of `n`, least significant first (`ENDIAN = "<"`, assemble.py:11). -/
def leBytes : Nat → Nat → List Nat
  | 0, _ => []
  | k + 1, n => n % 256 :: leBytes k (n / 256)

/-- `struct.pack("<I", v)`; `none` is `struct.error`. -/
def packU32 (v : Int) : Option (List Nat) :=
  if 0 ≤ v ∧ v < 2 ^ 32 then some (leBytes 4 v.toNat) else none

/-- `struct.pack("<i", v)` -/
def packI32 (v : Int) : Option (List Nat) :=
  if -(2 ^ 31) ≤ v ∧ v < 2 ^ 31 then some (leBytes 4 (v % 2 ^ 32).toNat) else none

/-- The first operand of a booleanizer instruction (assemble.py:300-320): `d` for a
float, `Ixxxx` for an integer constant, `ixxxx` otherwise. -/
def packArg (o : BzOp) : BzArg → Option (List Nat)
  | .float bits => some (leBytes 8 bits)
  | .int v => (if o = .iconst then packU32 v else packI32 v).map (· ++ [0, 0, 0, 0])

/-- `pack_bz_instruction` (assemble.py:834-881). -/
def packBz (i : BzInstr) : Option (List Nat) :=
  match packArg i.op i.a, packU32 i.b, packU32 i.id with
  | some a, some b, some c => some (5 :: (a ++ b ++ c ++ [i.op.code]))
  | _, _, _ => none

/-- `pack_tl_instruction` (assemble.py:884-931). -/
def packTl (i : TlInstr) : Option (List Nat) :=
  match packU32 i.v1, packU32 i.v2, packU32 i.id with
  | some a, some b, some c => some (4 :: (a ++ b ++ c ++ [i.t1.code, i.t2.code, i.op.code]))
  | _, _, _ => none

/-- `pack_cg_instruction` (assemble.py:934-955). -/
def packCg (i : CgInstr) : Option (List Nat) := (packTl i.instr).map (2 :: ·)

/-- `Instruction` (assemble.py:400). -/
inductive Instr where
  | bz (i : BzInstr) | tl (i : TlInstr) | cg (i : CgInstr)
  deriving DecidableEq

/-- `pack_instruction` (assemble.py:958-973): the length byte counts itself. -/
def packInstr (i : Instr) : Option (List Nat) :=
  (match i with
    | .bz i => packBz i
    | .tl i => packTl i
    | .cg i => packCg i).map fun (b : List Nat) => (b.length + 1) :: b

/-- The header text (assemble.py:1040-1043), as character codes, with its NUL. -/
def headerText : List Nat :=
  "C2PO Version 4.2.0 for R2U2 V4.2.0 - BOM: <".toList.map (·.toNat) ++ [0]

/-- The frames of all instructions (assemble.py:1046-1047). -/
def packAll : List Instr → Option (List Nat)
  | [] => some []
  | i :: is =>
      match packInstr i, packAll is with
      | some b, some bs => some (b ++ bs)
      | _, _ => none

/-- `assemble` (assemble.py:1036-1059): header, frames, a zero, then `aux` (the packed
aliases, or one zero without aliases), then a zero. -/
def assembleBytes (is : List Instr) (aux : List Nat) : Option (List Nat) :=
  (packAll is).map fun b =>
    (headerText.length + 1) :: headerText ++ (b ++ (0 :: (aux ++ [0])))

/-- The instruction list `gen_assembly` returns (assemble.py:827-832). -/
def BProg.Assembly.instrs (A : BProg.Assembly) : List Instr :=
  A.bz.map .bz ++ A.ft.map .tl ++ A.pt.map .tl ++ A.cg.map .cg

/-! ### The monitor's loader -/

/-- `enum r2u2_bz_opcode` (monitors/c/src/instructions/booleanizer.h:6-57), by value. -/
def cBzOp : Nat → Option BzOp
  | 0 => some .none | 1 => some .iload | 2 => some .fload | 3 => some .iconst | 4 => some .fconst
  | 5 => some .store | 6 => some .bwneg | 7 => some .bwand | 8 => some .bwor | 9 => some .bwxor
  | 10 => some .ieq | 11 => some .feq | 12 => some .ineq | 13 => some .fneq | 14 => some .igt
  | 15 => some .fgt | 16 => some .igte | 17 => some .fgte | 18 => some .ilt | 19 => some .flt
  | 20 => some .ilte | 21 => some .flte | 22 => some .ineg | 23 => some .fneg | 24 => some .iadd
  | 25 => some .fadd | 26 => some .isub | 27 => some .fsub | 28 => some .imul | 29 => some .fmul
  | 30 => some .idiv | 31 => some .fdiv | 32 => some .mod | 33 => some .ipow | 34 => some .fpow
  | 35 => some .isqrt | 36 => some .fsqrt | 37 => some .iabs | 38 => some .fabs | 39 => some .prev
  | 40 => some .ts
  | _ => none

/-- `enum r2u2_mltl_opcode` (monitors/c/src/instructions/mltl.h:5-34), by value. -/
def cTlOp : Nat → Option TlOp
  | 31 => some .nop | 30 => some .config | 29 => some .load | 28 => some .ret
  | 27 => some .eventually | 26 => some .global | 25 => some .until | 24 => some .release
  | 23 => some .not | 22 => some .and | 21 => some .or | 20 => some .implies
  | 17 => some .xor | 16 => some .equiv
  | 11 => some .once | 10 => some .hist | 9 => some .since | 8 => some .trigger
  | _ => none

/-- `enum r2u2_mltl_operand_type` (mltl.h:36-41), by value. -/
def cOperandT : Nat → Option OperandT
  | 1 => some .direct | 0 => some .atomic | 2 => some .subformula | 3 => some .none
  | _ => none

/-- `r2u2_bz_instruction_t` (booleanizer.h:59-64). -/
structure BzRec where
  param1 : Nat
  param2 : Nat
  mem : Nat
  opcode : Option BzOp
  deriving DecidableEq

/-- `r2u2_mltl_instruction_t` (mltl.h:43-50). -/
structure TlRec where
  v1 : Nat
  v2 : Nat
  mem : Nat
  t1 : Option OperandT
  t2 : Option OperandT
  opcode : Option TlOp
  deriving DecidableEq

/-- `(uint32_t)(spec[o] + (spec[o+1] << 8) + (spec[o+2] << 16) + (spec[o+3] << 24))`;
`none`: a read outside the binary. -/
def u32At (s : List Nat) (o : Nat) : Option Nat :=
  match s[o]?, s[o+1]?, s[o+2]?, s[o+3]? with
  | some a, some b, some c, some d => some (a + b * 2 ^ 8 + c * 2 ^ 16 + d * 2 ^ 24)
  | _, _, _, _ => none

/-- Conversion of a 32-bit pattern to `int32_t`. -/
def toInt32 (n : Nat) : Int := if n < 2 ^ 31 then n else (n : Int) - 2 ^ 32

/-- `r2u2_bz_get_param1_int_from_binary` (booleanizer.c:4-6). -/
def bzIntAt (s : List Nat) (o : Nat) : Option Int := (u32At s o).map toInt32

/-- `r2u2_bz_get_param1_float_from_binary` (booleanizer.c:8-14), as a bit pattern.  The
low four bytes are added as `int`, so a set bit 31 makes their sum negative (the
shift into the sign bit is taken to wrap, as compilers do), and converting it to
`uint64_t` extends the sign. -/
def bzFloatAt (s : List Nat) (o : Nat) : Option Nat :=
  match u32At s o, u32At s (o + 4) with
  | some lo, some hi => some (((toInt32 lo) % 2 ^ 64).toNat + hi * 2 ^ 32) |>.map (· % 2 ^ 64)
  | _, _ => none

/-- `r2u2_bz_set_from_binary` (booleanizer.c:16-23). -/
def bzRecAt (s : List Nat) (o : Nat) : Option BzRec :=
  match u32At s o, u32At s (o + 8), u32At s (o + 12), s[o + 16]? with
  | some a, some b, some m, some k => some ⟨a, b, m, cBzOp k⟩
  | _, _, _, _ => none

/-- `r2u2_mltl_set_from_binary` (mltl.c:3-12). -/
def tlRecAt (s : List Nat) (o : Nat) : Option TlRec :=
  match u32At s o, u32At s (o + 4), u32At s (o + 8), s[o + 12]?, s[o + 13]?, s[o + 14]? with
  | some a, some b, some m, some t, some t', some k => some ⟨a, b, m, cOperandT t, cOperandT t', cTlOp k⟩
  | _, _, _, _, _, _ => none

/-- What the loader does with one frame (process_binary.c:18-54). -/
inductive LoadEv where
  | config (r : TlRec)                 -- 18-23: executed at once
  | iconst (mem : Nat) (v : Int)       -- 28-32: written to the value buffer
  | fconst (mem : Nat) (bits : Nat)    -- 33-37
  | bz (r : BzRec)                     -- 45-46: stored (and a previous value initialised)
  | tl (r : TlRec)                     -- 50-52: stored
  deriving DecidableEq

/-- The body of the loop (process_binary.c:16-55). -/
def loadFrame (s : List Nat) (o : Nat) : Option (List LoadEv) :=
  match s[o + 1]? with
  | none => none
  | some tag =>
      if tag = 2 ∧ s[o + 2]? = some 4 then (tlRecAt s (o + 3)).map fun r => [.config r]
      else if tag = 5 then
        match bzRecAt s (o + 2) with
        | none => none
        | some r =>
            if r.opcode = some .iconst then (bzIntAt s (o + 2)).map fun v => [.iconst r.mem v]
            else if r.opcode = some .fconst then (bzFloatAt s (o + 2)).map fun v => [.fconst r.mem v]
            else some [.bz r]
      else if tag = 4 then (tlRecAt s (o + 2)).map fun r => [.tl r]
      else some []

/-- The loop `for (; spec[offset] != 0; offset += spec[offset])` (process_binary.c:16):
the events in order and the final offset.  `none`: fuel ran out or a read outside the
binary. -/
def loadLoop : Nat → List Nat → Nat → Option (List LoadEv × Nat)
  | 0, _, _ => none
  | n + 1, s, o =>
      match s[o]? with
      | none => none
      | some len =>
          if len = 0 then some ([], o)
          else match loadFrame s o, loadLoop n s (o + len) with
            | some es, some (rest, o') => some (es ++ rest, o')
            | _, _ => none

/-- `r2u2_process_binary` up to the auxiliary strings (process_binary.c:10-55): the first
byte is the offset of the first frame. -/
def loadBinary (fuel : Nat) (s : List Nat) : Option (List LoadEv × Nat) :=
  match s[0]? with
  | none => none
  | some o => loadLoop fuel s o

end R2U2
