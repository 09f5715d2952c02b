import Verif.Model.RustBz
import Verif.Model.Csv
/-
Model of `r2u2_cli run` (monitors/rust/r2u2_cli/src/main.rs:193-298) on a binary and a trace, and of `load_string_signal`
(monitors/rust/r2u2_core/src/lib.rs:244-276).

`none` is a panic.  The CSV reader is a library: the trace is the list of its records, without the white space around the fields
(main.rs:220).

Simplifications: `--disable-contracts` is given and `--enable-aux` is not (`Model/RustNames` has both); output goes to the terminal (main.rs:222-261 writes the same to a file); what was printed before a panic is not kept; texts are
ASCII.
-/
namespace R2U2
namespace Rs
namespace Tool
variable {F : Type}

/-- The value of digits. -/
def digits (w : List Char) : Option Nat :=
  if w = [] ∨ w.any (fun c => !Cli.isDigit c) = true then none else some (w.foldl (fun n d => n * 10 + (d.toNat - 48)) 0)

/-- `parse::<i32>()` of the standard library: an optional sign, and digits to the end. -/
def parseI32 : List Char → Option Int
  | '-' :: w => (digits w).bind fun n => int32 (-(n : Int))
  | '+' :: w => (digits w).bind fun n => int32 n
  | w => (digits w).bind fun n => int32 n

/-- `parse::<u32>()`. -/
def parseU32 : List Char → Option Nat
  | '+' :: w => (digits w).bind fun n => if n < 2 ^ 32 then some n else none
  | w => (digits w).bind fun n => if n < 2 ^ 32 then some n else none

/-- The monitor, with `signal_buffer`. -/
structure State (F : Type) where
  mon : Full F
  sig : Signals F

/-- `load_string_signal` (lib.rs:244-276).  `readF` is `parse::<f64>()`.  Without booleanizer instructions values go to the
atomics. -/
def loadString (lim : BzLimits) (readF : List Char → Option F) (st : State F) (k : Nat) (s : List Char) : Option (State F) :=
  if st.mon.prog = [] then                                                                            -- 245-246
    (parseI32 s).bind fun v =>
      if k < lim.atomics then
        some { st with mon := { st.mon with bz := { st.mon.bz with atoms := fun a => if a = k then decide (v ≠ 0) else st.mon.bz.atoms a } } }
      else none
  else if k < lim.signals then
    match parseI32 s with
    | some v =>                                                                                       -- 250-264
        some { st with sig := fun j => if j = k then (v, (readF s).getD (st.sig k).2) else st.sig j }
    | none => (readF s).map fun v => { st with sig := fun j => if j = k then ((st.sig k).1, v) else st.sig j }  -- 265-273
  else none

/-- The fields from index `k` on (main.rs:239-241, 276-278). -/
def loadFrom (lim : BzLimits) (readF : List Char → Option F) (st : State F) (k : Nat) : List (List Char) → Option (State F)
  | [] => some st
  | f :: fs => (loadString lim readF st k f).bind fun st => loadFrom lim readF st (k + 1) fs

/-- A record (main.rs:227-241, 264-278). -/
def record (lim : BzLimits) (readF : List Char → Option F) (st : State F) : List (List Char) → Option (State F)
  | [] => none                                                                                        -- 228
  | f :: fs =>
      (if f.head? = some '@' then                                                                     -- 229-235
        let e := (f.idxOf? ' ').getD 1
        let st := match parseU32 ((f.take e).drop 1) with
          | some n => { st with mon := { st.mon with tl := { st.mon.tl with time := n }, bz := { st.mon.bz with time := n } } }
          | none => st
        if e + 1 ≤ f.length then loadString lim readF st 0 (f.drop (e + 1)) else none
      else loadString lim readF st 0 f).bind fun st => loadFrom lim readF st 1 fs                     -- 236-241

/-- `println!("{}:{},{}", …)` (main.rs:286). -/
def line (x : Nat × Verdict) : List Char := natStr x.1 ++ ':' :: natStr x.2.time ++ [',', if x.2.truth then 'T' else 'F', '\n']

/-- The loop over the records (main.rs:263-297): what it prints. -/
def loop (ops : Ops F) (lim : BzLimits) (readF : List Char → Option F) (fuel : Nat) : List (List (List Char)) → State F → Option (List Char)
  | [], _ => some []
  | r :: rs, st =>
      (record lim readF st r).bind fun st => (st.mon.step ops lim fuel st.sig).bind fun x =>
        (loop ops lim readF fuel rs { st with mon := x.1 }).map fun text =>
          (if x.2 then x.1.tl.outputs.flatMap line else "Overflow occurred!!!!\n".toList) ++ text

/-- `r2u2_cli run` (main.rs:194-298) on the binary `bytes`, with a monitor of the limits `lim`. -/
def run (ops : Ops F) (readF : List Char → Option F) (lim : Limits) (signals fuel : Nat) (bytes : List Nat) (trace : List (List (List Char))) :
    Option (List Char) :=
  (getFull ops lim signals fuel bytes).bind fun S => loop ops (lim.bzLimits signals) readF fuel trace ⟨S, fun _ => (0, ops.zero)⟩

end Tool
end Rs
end R2U2
