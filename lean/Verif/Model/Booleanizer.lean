import Verif.Model.Binary
/-
Model of the booleanizer engine (monitors/c/src/engines/booleanizer.c) and of what the loader does with its
instructions (monitors/c/src/internals/process_binary.c:26-48).
-/
namespace R2U2

/-- `r2u2_value_t` (types.h:85-90), a union of `int32_t` and `double`, as the member last written.
Simplification: reading the other member (which no type-checked program does) is `none` here. -/
inductive Cell (F : Type) where
  | int (i : Int)
  | flt (f : F)

namespace Cell
variable {F : Type}
/-- The member `i`. -/
def i : Cell F → Option Int
  | .int v => some v
  | .flt _ => none
/-- The member `f`. -/
def f : Cell F → Option F
  | .flt v => some v
  | .int _ => none
end Cell

/-- The machine's `double` arithmetic and the functions of `math.h` the engine calls.  The theorems hold
for any choice of them. -/
structure FloatOps (F : Type) where
  ofBits : Nat → F
  lt : F → F → Bool
  neg : F → F
  add : F → F → F
  sub : F → F → F
  mul : F → F → F
  div : F → F → F
  pow : F → F → F
  sqrt : F → F
  zero : F
  minusOne : F
  /-- `R2U2_FLOAT_EPSILON` (bounds.h:38) -/
  eps : F
  /-- `pow` of two integers, converted back to `int32_t`; `none` if the result does not fit -/
  ipow : Int → Int → Option Int
  /-- `sqrt` of an integer, converted back to `int32_t` -/
  isqrt : Int → Option Int

/-- The result of an operation on `int32_t`; `none` for overflow, which C leaves undefined. -/
def int32 (v : Int) : Option Int := if -(2 ^ 31) ≤ v ∧ v < 2 ^ 31 then some v else none

/-- A comparison's result. -/
def ofBool (b : Bool) : Int := if b then 1 else 0

/-- The array sizes `R2U2_MAX_BZ_INSTRUCTIONS`, `R2U2_MAX_ATOMICS`, `R2U2_MAX_SIGNALS`. -/
structure BzLimits where
  cells : Nat
  atomics : Nat
  signals : Nat

/-- `value_buffer`, `atomic_buffer` and `time_stamp` of `r2u2_monitor_t` (monitor.h:38-57). -/
structure BzMon (F : Type) where
  vals : Nat → Cell F
  atoms : Nat → Bool
  time : Nat

/-- The state of `R2U2_DEFAULT_MONITOR` (monitor.h:66-83): all zero. -/
def BzMon.zero (F : Type) : BzMon F := ⟨fun _ => .int 0, fun _ => false, 0⟩

namespace BzMon
variable {F : Type}

/-- `value_buffer[a]`; `none` outside the array. -/
def get (lim : BzLimits) (m : BzMon F) (a : Nat) : Option (Cell F) := if a < lim.cells then some (m.vals a) else none

/-- `value_buffer[a] = v`. -/
def put (lim : BzLimits) (m : BzMon F) (a : Nat) (v : Cell F) : Option (BzMon F) :=
  if a < lim.cells then some { m with vals := fun b => if b = a then v else m.vals b } else none

/-- One integer operand. -/
def int1 (lim : BzLimits) (m : BzMon F) (r : BzRec) (g : Int → Option Int) : Option (BzMon F) :=
  (m.get lim r.param1).bind fun a => a.i.bind fun a => (g a).bind fun v => m.put lim r.mem (.int v)

/-- Two integer operands. -/
def int2 (lim : BzLimits) (m : BzMon F) (r : BzRec) (g : Int → Int → Option Int) : Option (BzMon F) :=
  (m.get lim r.param1).bind fun a => a.i.bind fun a => (m.get lim r.param2).bind fun b => b.i.bind fun b =>
    (g a b).bind fun v => m.put lim r.mem (.int v)

/-- One float operand. -/
def flt1 (lim : BzLimits) (m : BzMon F) (r : BzRec) (g : F → Cell F) : Option (BzMon F) :=
  (m.get lim r.param1).bind fun a => a.f.bind fun a => m.put lim r.mem (g a)

/-- Two float operands. -/
def flt2 (lim : BzLimits) (m : BzMon F) (r : BzRec) (g : F → F → Cell F) : Option (BzMon F) :=
  (m.get lim r.param1).bind fun a => a.f.bind fun a => (m.get lim r.param2).bind fun b => b.f.bind fun b =>
    m.put lim r.mem (g a b)

/-- `f1 > f2 ? f1 - f2 < EPSILON : f2 - f1 < EPSILON` (booleanizer.c:82, 100). -/
def feq (ops : FloatOps F) (a b : F) : Bool :=
  if ops.lt b a then ops.lt (ops.sub a b) ops.eps else ops.lt (ops.sub b a) ops.eps

/-- 32-bit bitwise operations. -/
def bits2 (g : BitVec 32 → BitVec 32 → BitVec 32) (a b : Int) : Int := (g (BitVec.ofInt 32 a) (BitVec.ofInt 32 b)).toInt

/-- `r2u2_bz_update` (booleanizer.c:5-344) on the instruction `r`, with `sig` in `signal_vector`. -/
def update (ops : FloatOps F) (lim : BzLimits) (sig : Nat → Cell F) (r : BzRec) (m : BzMon F) : Option (BzMon F) :=
  match r.opcode with
  | some .iload =>                                                                          -- 15-20
      if r.param1 < lim.signals then (sig r.param1).i.bind fun v => m.put lim r.mem (.int v) else none
  | some .fload =>                                                                          -- 21-26
      if r.param1 < lim.signals then (sig r.param1).f.bind fun v => m.put lim r.mem (.flt v) else none
  | some .store =>                                                                          -- 28-32
      (m.get lim r.param1).bind fun a => a.i.bind fun a =>
        if r.param2 < lim.atomics then some { m with atoms := fun b => if b = r.param2 then decide (a ≠ 0) else m.atoms b }
        else none
  | some .bwneg => m.int1 lim r fun a => some (~~~ (BitVec.ofInt 32 a)).toInt               -- 34-41
  | some .bwand => m.int2 lim r fun a b => some (bits2 (· &&& ·) a b)                       -- 42-50
  | some .bwor => m.int2 lim r fun a b => some (bits2 (· ||| ·) a b)                        -- 51-59
  | some .bwxor => m.int2 lim r fun a b => some (bits2 (· ^^^ ·) a b)                       -- 60-68
  | some .ieq => m.int2 lim r fun a b => some (ofBool (decide (a = b)))                     -- 70-78
  | some .feq => m.flt2 lim r fun a b => .int (ofBool (feq ops a b))                        -- 79-87
  | some .ineq => m.int2 lim r fun a b => some (ofBool (decide (a ≠ b)))                    -- 88-96
  | some .fneq => m.flt2 lim r fun a b => .int (ofBool (!feq ops a b))                      -- 97-105
  | some .igt => m.int2 lim r fun a b => some (ofBool (decide (a > b)))                     -- 107-114
  | some .fgt => m.flt2 lim r fun a b => .int (ofBool (ops.lt b a))                         -- 115-123
  | some .igte => m.int2 lim r fun a b => some (ofBool (decide (a ≥ b)))                    -- 124-132
  | some .fgte => m.flt2 lim r fun a b => .int (ofBool (ops.lt (ops.sub b ops.eps) a))      -- 133-141
  | some .ilt => m.int2 lim r fun a b => some (ofBool (decide (a < b)))                     -- 142-150
  | some .flt => m.flt2 lim r fun a b => .int (ofBool (ops.lt a b))                         -- 151-159
  | some .ilte => m.int2 lim r fun a b => some (ofBool (decide (a ≤ b)))                    -- 160-168
  | some .flte => m.flt2 lim r fun a b => .int (ofBool (ops.lt a (ops.add b ops.eps)))      -- 169-177
  | some .ineg => m.int1 lim r fun a => int32 (-a)                                          -- 179-186
  | some .fneg => m.flt1 lim r fun a => .flt (ops.neg a)                                    -- 187-194
  | some .iadd => m.int2 lim r fun a b => int32 (a + b)                                     -- 195-203
  | some .fadd => m.flt2 lim r fun a b => .flt (ops.add a b)                                -- 204-212
  | some .isub => m.int2 lim r fun a b => int32 (a - b)                                     -- 213-221
  | some .fsub => m.flt2 lim r fun a b => .flt (ops.sub a b)                                -- 222-230
  | some .imul => m.int2 lim r fun a b => int32 (a * b)                                     -- 231-239
  | some .fmul => m.flt2 lim r fun a b => .flt (ops.mul a b)                                -- 240-248
  | some .idiv => m.int2 lim r fun a b => if b = 0 then none else int32 (a.tdiv b)          -- 249-257
  | some .fdiv => m.flt2 lim r fun a b => .flt (ops.div a b)                                -- 258-266
  | some .mod => m.int2 lim r fun a b =>                                                    -- 267-275
      if b = 0 then none else (int32 (a.tdiv b)).map fun _ => a.tmod b
  | some .ipow => m.int2 lim r ops.ipow                                                     -- 276-284
  | some .fpow => m.flt2 lim r fun a b => .flt (ops.pow a b)                                -- 285-293
  | some .isqrt => m.int1 lim r ops.isqrt                                                   -- 294-301
  | some .fsqrt => m.flt1 lim r fun a => .flt (ops.sqrt a)                                  -- 302-309
  | some .iabs => m.int1 lim r fun a => if a < 0 then int32 (-1 * a) else some a            -- 310-317
  | some .fabs => m.flt1 lim r fun a => .flt (if ops.lt a ops.zero then ops.mul ops.minusOne a else a)  -- 318-325
  | some .prev => (m.get lim r.param2).bind fun v => m.put lim r.mem v                      -- 326-331
  | some .ts => m.put lim r.mem (.int (if m.time > 2 ^ 31 - 1 then 2 ^ 31 - 1 else m.time))  -- 332-337
  | _ => some m                                                                             -- 12-13, 338-340

/-- The booleanizer part of `r2u2_engine_step` (engines.c:9-15). -/
def pass (ops : FloatOps F) (lim : BzLimits) (sig : Nat → Cell F) : List BzRec → BzMon F → Option (BzMon F)
  | [], m => some m
  | r :: rs, m => (m.update ops lim sig r).bind (pass ops lim sig rs)

/-- The loader's treatment of one frame (process_binary.c:26-48). -/
def load1 (ops : FloatOps F) (lim : BzLimits) (m : BzMon F) : LoadEv → Option (BzMon F)
  | .iconst a v => m.put lim a (.int v)                                                     -- 29-33
  | .fconst a b => m.put lim a (.flt (ops.ofBits b))                                        -- 34-38
  | .bz r =>
      match r.opcode with
      | some .prev => (m.get lim r.param1).bind fun v => m.put lim r.mem v                  -- 41-45
      | _ => some m
  | _ => some m

/-- Loading a sequence of frames. -/
def load (ops : FloatOps F) (lim : BzLimits) : List LoadEv → BzMon F → Option (BzMon F)
  | [], m => some m
  | e :: es, m => (m.load1 ops lim e).bind (load ops lim es)

/-- The booleanizer instruction table after loading (process_binary.c:46-48). -/
def table (es : List LoadEv) : List BzRec := es.filterMap fun | .bz r => some r | _ => none

/-- `n` time steps; before step `t` the caller stores `σ t` in `signal_vector` (lib.c:31-66), after it the clock has
advanced (engines.c:54).  The clock here does not wrap around. -/
def run (ops : FloatOps F) (lim : BzLimits) (prog : List BzRec) (σ : Nat → Nat → Cell F) : Nat → BzMon F → Option (BzMon F)
  | 0, m => some m
  | n + 1, m => (run ops lim prog σ n m).bind fun m' =>
      (pass ops lim (σ n) prog m').map fun m'' => { m'' with time := m''.time + 1 }

end BzMon
end R2U2
