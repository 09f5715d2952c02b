import Verif.Model.Rust
import Verif.Model.Booleanizer
/-
Model of the booleanizer of the Rust monitor (monitors/rust/r2u2_core/src/engines/booleanizer.rs), of what the loader does with
its instructions (internals/process_binary.rs:26-61) and of the whole step (engines/mod.rs:26-76).

`none` is a panic: an index outside an array, or `i32::MIN % -1`, which Rust checks in every build.

Simplification: the debug output is off.
-/
namespace R2U2
namespace Rs

/-- The machine's `f64` arithmetic, with `<=`, which is not the negation of `>` where one of the operands is not a number.  The
members `ipow` and `isqrt` of `FloatOps`, which are those of the C monitor, are not used in this file. -/
structure Ops (F : Type) extends FloatOps F where
  le : F → F → Bool

/-- `r2u2_int::MIN` and `r2u2_int::MAX`. -/
def imin : Int := -2 ^ 31
def imax : Int := 2 ^ 31 - 1

/-! ### The functions on integers: the result, and whether it overflowed -/

/-- `integer_negative` (engines/booleanizer.rs:540-555). -/
def intNeg (a : Int) : Int × Bool := if a = imin then (imax, true) else (-a, false)

/-- `integer_add` (565-586). -/
def intAdd (a b : Int) : Int × Bool :=
  match int32 (a + b) with
  | some n => (n, false)
  | none => if a < 0 ∧ b < 0 then (imin, true) else (imax, true)

/-- `integer_subtract` (596-617). -/
def intSub (a b : Int) : Int × Bool :=
  match int32 (a - b) with
  | some n => (n, false)
  | none => if a < 0 ∧ b > 0 then (imin, true) else (imax, true)

/-- `integer_multiply` (627-648). -/
def intMul (a b : Int) : Int × Bool :=
  match int32 (a * b) with
  | some n => (n, false)
  | none => if (a < 0 ∧ b > 0) ∨ (a > 0 ∧ b < 0) then (imin, true) else (imax, true)

/-- `i32::checked_div`: `None` for a divisor 0 and for `MIN / -1`. -/
def checkedDiv (a b : Int) : Option Int := if b = 0 then none else int32 (a.tdiv b)

/-- `integer_divide` (659-674). -/
def intDiv (a b : Int) : Int × Bool :=
  match checkedDiv a b with
  | some n => (n, false)
  | none => if b = 0 then (0, true) else if (a < 0 ∧ b > 0) ∨ (a > 0 ∧ b < 0) then (imin, true) else (imax, true)

/-- `integer_mod` (685-692); `MIN % -1` panics. -/
def intMod (a b : Int) : Option (Int × Bool) :=
  if b = 0 then some (0, true) else if a = imin ∧ b = -1 then none else some (a.tmod b, false)

/-- `integer_power` (696-709): the exponent is converted to `u32`, so a negative one becomes large; the sign of an overflow
depends on whether the base is odd. -/
def intPow (a b : Int) : Int × Bool :=
  match int32 (a ^ (b % 2 ^ 32).toNat) with
  | some n => (n, false)
  | none => if a < 0 ∧ a.tmod 2 ≠ 0 then (imin, true) else (imax, true)

/-- `integer_square_root` (720-728): `checked_isqrt` is `None` for negative numbers. -/
def intSqrt (a : Int) : Int := if a < 0 then 0 else Nat.sqrt a.toNat

/-- `integer_absolute_value` (738-750). -/
def intAbs (a : Int) : Int × Bool := if a < 0 then intNeg a else (a, false)

/-! ### The functions on floats -/

variable {F : Type}

/-- `float_absolute_value` (754-761). -/
def fabs (ops : Ops F) (a : F) : F := if ops.lt a ops.zero then ops.mul ops.minusOne a else a

/-- `float_equal` (407-413). -/
def feq (ops : Ops F) (a b : F) : Bool := ops.le (fabs ops (ops.sub a b)) ops.eps

/-- `float_not_equal` (431-437). -/
def fneq (ops : Ops F) (a b : F) : Bool := ops.lt ops.eps (fabs ops (ops.sub a b))

/-- `float_greater_than` (455-462). -/
def fgt (ops : Ops F) (a b : F) : Bool := ops.lt b a && fneq ops a b

/-- `float_greater_than_or_equal` (480-487). -/
def fgte (ops : Ops F) (a b : F) : Bool := ops.lt b a || feq ops a b

/-- `float_less_than` (505-512). -/
def flt (ops : Ops F) (a b : F) : Bool := ops.lt a b && fneq ops a b

/-- `float_less_than_or_equal` (530-537). -/
def flte (ops : Ops F) (a b : F) : Bool := ops.lt a b || feq ops a b

/-! ### The engine -/

/-- `value_buffer`, whose elements are structures with an integer and a float (internals/types.rs:51-66), `atomic_buffer`,
`overflow_error` and `time_stamp` of `Monitor` (memory/monitor.rs:24-47). -/
structure BzMon (F : Type) where
  i : Nat → Int
  f : Nat → F
  atoms : Nat → Bool
  overflow : Bool
  time : Nat

/-- `Monitor::default()` (memory/monitor.rs:49-75): all zero. -/
def BzMon.zero (z : F) : BzMon F := ⟨fun _ => 0, fun _ => z, fun _ => false, false, 0⟩

/-- `signal_buffer[k]`: a structure with an integer and a float, of which `load_int_signal` and `load_float_signal` set one
(lib.rs:144-245). -/
abbrev Signals (F : Type) := Nat → Int × F

namespace BzMon

/-- `value_buffer[a].i = v`. -/
def putI (lim : BzLimits) (m : BzMon F) (a : Nat) (v : Int) : Option (BzMon F) :=
  if a < lim.cells then some { m with i := fun b => if b = a then v else m.i b } else none

/-- `value_buffer[a].f = v`. -/
def putF (lim : BzLimits) (m : BzMon F) (a : Nat) (v : F) : Option (BzMon F) :=
  if a < lim.cells then some { m with f := fun b => if b = a then v else m.f b } else none

/-- `value_buffer[a] = value_buffer[b]`. -/
def copy (lim : BzLimits) (m : BzMon F) (a b : Nat) : Option (BzMon F) :=
  if b < lim.cells then (m.putI lim a (m.i b)).bind fun m' => m'.putF lim a (m.f b) else none

/-- One integer operand. -/
def int1 (lim : BzLimits) (m : BzMon F) (r : BzRec) (g : Int → Int) : Option (BzMon F) :=
  if r.param1 < lim.cells then m.putI lim r.mem (g (m.i r.param1)) else none

/-- Two integer operands. -/
def int2 (lim : BzLimits) (m : BzMon F) (r : BzRec) (g : Int → Int → Int) : Option (BzMon F) :=
  if r.param1 < lim.cells ∧ r.param2 < lim.cells then m.putI lim r.mem (g (m.i r.param1) (m.i r.param2)) else none

/-- `(value_buffer[..].i, overflow_error) = g(op)`. -/
def chk1 (lim : BzLimits) (m : BzMon F) (r : BzRec) (g : Int → Int × Bool) : Option (BzMon F) :=
  if r.param1 < lim.cells then
    (m.putI lim r.mem (g (m.i r.param1)).1).map fun m' => { m' with overflow := (g (m.i r.param1)).2 }
  else none

/-- `(value_buffer[..].i, overflow_error) = g(op0, op1)`. -/
def chk2 (lim : BzLimits) (m : BzMon F) (r : BzRec) (g : Int → Int → Option (Int × Bool)) : Option (BzMon F) :=
  if r.param1 < lim.cells ∧ r.param2 < lim.cells then
    (g (m.i r.param1) (m.i r.param2)).bind fun v => (m.putI lim r.mem v.1).map fun m' => { m' with overflow := v.2 }
  else none

/-- One float operand. -/
def flt1 (lim : BzLimits) (m : BzMon F) (r : BzRec) (g : F → F) : Option (BzMon F) :=
  if r.param1 < lim.cells then m.putF lim r.mem (g (m.f r.param1)) else none

/-- Two float operands. -/
def flt2 (lim : BzLimits) (m : BzMon F) (r : BzRec) (g : F → F → F) : Option (BzMon F) :=
  if r.param1 < lim.cells ∧ r.param2 < lim.cells then m.putF lim r.mem (g (m.f r.param1) (m.f r.param2)) else none

/-- A comparison of two floats. -/
def cmp (lim : BzLimits) (m : BzMon F) (r : BzRec) (g : F → F → Bool) : Option (BzMon F) :=
  if r.param1 < lim.cells ∧ r.param2 < lim.cells then m.putI lim r.mem (ofBool (g (m.f r.param1) (m.f r.param2))) else none

/-- `bz_update` (engines/booleanizer.rs:23-357) on the instruction `r`, with `sig` in `signal_buffer`.  The opcodes are the same
as those of the C monitor (instructions/booleanizer.rs:5-50). -/
def update (ops : Ops F) (lim : BzLimits) (sig : Signals F) (r : BzRec) (m : BzMon F) : Option (BzMon F) :=
  match r.opcode with
  | some .iload => if r.param1 < lim.signals then m.putI lim r.mem (sig r.param1).1 else none         -- 26-32
  | some .fload => if r.param1 < lim.signals then m.putF lim r.mem (sig r.param1).2 else none         -- 33-39
  | some .store =>                                                                                    -- 40-47
      if r.param1 < lim.cells ∧ r.param2 < lim.atomics then
        some { m with atoms := fun b => if b = r.param2 then decide (m.i r.param1 ≠ 0) else m.atoms b }
      else none
  | some .bwneg => m.int1 lim r fun a => (~~~ (BitVec.ofInt 32 a)).toInt                              -- 48-55, 360
  | some .bwand => m.int2 lim r (R2U2.BzMon.bits2 (· &&& ·))                                          -- 56-64, 368
  | some .bwor => m.int2 lim r (R2U2.BzMon.bits2 (· ||| ·))                                           -- 65-73, 376
  | some .bwxor => m.int2 lim r (R2U2.BzMon.bits2 (· ^^^ ·))                                          -- 74-82, 384
  | some .ieq => m.int2 lim r fun a b => ofBool (decide (a = b))                                      -- 83-91, 392
  | some .feq => m.cmp lim r (Rs.feq ops)                                                             -- 92-100
  | some .ineq => m.int2 lim r fun a b => ofBool (decide (a ≠ b))                                     -- 101-109, 416
  | some .fneq => m.cmp lim r (Rs.fneq ops)                                                           -- 110-118
  | some .igt => m.int2 lim r fun a b => ofBool (decide (a > b))                                      -- 119-127, 440
  | some .fgt => m.cmp lim r (Rs.fgt ops)                                                             -- 128-136
  | some .igte => m.int2 lim r fun a b => ofBool (decide (a ≥ b))                                     -- 137-145, 465
  | some .fgte => m.cmp lim r (Rs.fgte ops)                                                           -- 146-154
  | some .ilt => m.int2 lim r fun a b => ofBool (decide (a < b))                                      -- 155-163, 490
  | some .flt => m.cmp lim r (Rs.flt ops)                                                             -- 164-172
  | some .ilte => m.int2 lim r fun a b => ofBool (decide (a ≤ b))                                     -- 173-181, 515
  | some .flte => m.cmp lim r (Rs.flte ops)                                                           -- 182-190
  | some .ineg => m.chk1 lim r intNeg                                                                 -- 191-198
  | some .fneg => m.flt1 lim r ops.neg                                                                -- 199-206, 559
  | some .iadd => m.chk2 lim r fun a b => some (intAdd a b)                                           -- 207-215
  | some .fadd => m.flt2 lim r ops.add                                                                -- 216-224, 590
  | some .isub => m.chk2 lim r fun a b => some (intSub a b)                                           -- 225-233
  | some .fsub => m.flt2 lim r ops.sub                                                                -- 234-242, 621
  | some .imul => m.chk2 lim r fun a b => some (intMul a b)                                           -- 243-251
  | some .fmul => m.flt2 lim r ops.mul                                                                -- 252-260, 652
  | some .idiv => m.chk2 lim r fun a b => some (intDiv a b)                                           -- 261-269
  | some .fdiv => m.flt2 lim r ops.div                                                                -- 270-278, 678
  | some .mod => m.chk2 lim r intMod                                                                  -- 279-287
  | some .ipow => m.chk2 lim r fun a b => some (intPow a b)                                           -- 288-296
  | some .fpow => m.flt2 lim r ops.pow                                                                -- 297-305, 713
  | some .isqrt => m.int1 lim r intSqrt                                                               -- 306-313
  | some .fsqrt => m.flt1 lim r ops.sqrt                                                              -- 314-321, 732
  | some .iabs => m.chk1 lim r intAbs                                                                 -- 322-329
  | some .fabs => m.flt1 lim r (Rs.fabs ops)                                                          -- 330-337
  | some .prev => m.copy lim r.mem r.param2                                                           -- 338-345
  | some .ts => m.putI lim r.mem (if m.time > 2 ^ 31 - 1 then imax else m.time)                       -- 346-352
  | _ => some m                                                                                       -- 353-355

/-- The booleanizer part of `r2u2_engine_step` (engines/mod.rs:36-40). -/
def pass (ops : Ops F) (lim : BzLimits) (sig : Signals F) : List BzRec → BzMon F → Option (BzMon F)
  | [], m => some m
  | r :: rs, m => (m.update ops lim sig r).bind (pass ops lim sig rs)

/-- The loader's treatment of one booleanizer frame (internals/process_binary.rs:27-60), on the decoded frame: `pi` and `pf` are
`param1` read as `i32` and as `f64`. -/
def load1 (ops : Ops F) (lim : BzLimits) (r : BzRec) (pi : Int) (pf : Nat) (m : BzMon F) : Option (BzMon F) :=
  match r.opcode with
  | some .iconst => m.putI lim r.mem pi                                                               -- 31-38
  | some .fconst => m.putF lim r.mem (ops.ofBits pf)                                                  -- 39-46
  | some .prev => m.copy lim r.mem r.param1                                                           -- 49-55
  | _ => some m

end BzMon

/-- `get_param1_int_from_binary` (instructions/booleanizer.rs:62-64). -/
def paramInt (s : List Nat) (o : Nat) : Option Int := (u32At s o).map toInt32

/-- `get_param1_float_from_binary` (instructions/booleanizer.rs:65-67): the bits of the `f64`. -/
def paramFloat (s : List Nat) (o : Nat) : Option Nat :=
  (u32At s o).bind fun lo => (u32At s (o + 4)).map fun hi => lo + 2 ^ 32 * hi

/-- The booleanizer frames of the file, in the order of the loop (internals/process_binary.rs:20-70): the values the loader puts
into the buffer, and the instruction table.  `param1` is read in all three ways here, and used in one; the frame is long enough
for that. -/
def framesBz (ops : Ops F) (lim : BzLimits) : Nat → List Nat → Nat → BzMon F × List BzRec → Option (BzMon F × List BzRec)
  | 0, _, _, _ => none
  | n + 1, s, o, st =>
      match s[o]? with
      | none => none
      | some len =>
          if len = 0 then some st
          else if s[o + 1]? = some 5 then
            (bzRecAt s (o + 2)).bind fun r => (paramInt s (o + 2)).bind fun pi => (paramFloat s (o + 2)).bind fun pf =>
              (st.1.load1 ops lim r pi pf).bind fun m' =>
                framesBz ops lim n s (o + len) (m', if r.opcode = some .iconst ∨ r.opcode = some .fconst then st.2 else st.2 ++ [r])
          else framesBz ops lim n s (o + len) st

/-- The whole monitor: the booleanizer with its instruction table, and the rest. -/
structure Full (F : Type) where
  tl : Monitor
  bz : BzMon F
  prog : List BzRec

/-- The arrays the booleanizer uses (memory/monitor.rs:24-47): `value_buffer` has as many elements as the instruction table. -/
def Limits.bzLimits (lim : Limits) (signals : Nat) : BzLimits := ⟨lim.bz, lim.atomics, signals⟩

/-- `get_monitor` (lib.rs:71-75) with the booleanizer; `signals` is the size of `signal_buffer`. -/
def getFull (ops : Ops F) (lim : Limits) (signals : Nat) (fuel : Nat) (s : List Nat) : Option (Full F) :=
  (getMonitor lim fuel s).bind fun M => s[0]?.bind fun o =>
    (framesBz ops (lim.bzLimits signals) fuel s o (BzMon.zero ops.zero, [])).map fun x => ⟨M, x.1, x.2⟩

namespace Full

/-- `r2u2_engine_step` (engines/mod.rs:26-76): the monitor after it, and its result `!overflow_error`.  The clock of the booleanizer
is the clock of the monitor; it is kept in both parts. -/
def step (ops : Ops F) (lim : BzLimits) (fuel : Nat) (sig : Signals F) (S : Full F) : Option (Full F × Bool) :=
  (BzMon.pass ops lim sig S.prog S.bz).bind fun m =>
    (S.tl.step fuel m.atoms).map fun M => ({ S with tl := M, bz := { m with time := M.time } }, !m.overflow)

/-- `k` steps, reading the output buffer after each: the monitor, everything read and the results of the steps. -/
def run (ops : Ops F) (lim : BzLimits) (fuel : Nat) (σ : Nat → Signals F) : Nat → Full F →
    Option (Full F × List (Nat × Verdict) × List Bool)
  | 0, S => some (S, [], [])
  | k + 1, S => (run ops lim fuel σ k S).bind fun x => (x.1.step ops lim fuel (σ k)).map fun y =>
      (y.1, x.2.1 ++ y.1.tl.outputs, x.2.2 ++ [y.2])

end Full
end Rs
end R2U2
