import Verif.Model.Arena
import Verif.Model.Binary
import Verif.Spec.Binary
import Verif.Model.Bounds
import Verif.Model.Printing
/-
Model of the command line tool of the C monitor: the reader of trace files (cli/csv_trace.c), `r2u2_load_string_signal`
(lib.c:55-66) without booleanizer, and `main` (cli/main.c:27-147) on the contents of the two files.

Undefined behaviour (null pointers, indices out of bounds, conversions that overflow) is `none`.
-/
namespace R2U2
namespace Cli

/-- The characters `fgets` copies when there is room for `n`, and the rest of the file. -/
def takeLine : Nat → List Char → List Char × List Char
  | 0, s => ([], s)
  | _ + 1, [] => ([], [])
  | n + 1, c :: s => if c = '\n' then ([c], s) else (c :: (takeLine n s).1, (takeLine n s).2)

/-- `fgets(buf, size, file)`: `none` at the end of the file.  The string ends at the first zero character. -/
def fgets (size : Nat) : List Char → Option (List Char × List Char)
  | [] => none
  | s => some ((takeLine (size - 1) s).1.takeWhile (· ≠ '\x00'), (takeLine (size - 1) s).2)

/-- One call of `strtok`: leading delimiters are skipped; the token ends before the next one, which is dropped. -/
def strtok (delim : Char → Bool) (s : List Char) : Option (List Char × List Char) :=
  match s.dropWhile delim with
  | [] => none
  | c :: cs => some ((c :: cs).takeWhile (fun x => ! delim x), ((c :: cs).dropWhile (fun x => ! delim x)).drop 1)

/-- The calls of `strtok` until it returns a null pointer. -/
def tokens (delim : Char → Bool) : Nat → List Char → List (List Char)
  | 0, _ => []
  | n + 1, s =>
      match strtok delim s with
      | none => []
      | some (t, r) => t :: tokens delim n r

/-- The delimiters `",\n"` (csv_trace.c:20). -/
def isSep (c : Char) : Bool := c == ',' || c == '\n'

def isDigit (c : Char) : Bool := '0' ≤ c && c ≤ '9'

/-- `sscanf(s, "%u", …)` on a text that begins with a digit.  Texts that begin with white space or a sign are not modelled, nor are
numbers that overflow: `none`.  `some none` is a conversion that fails. -/
def scanU (s : List Char) : Option (Option Nat) :=
  match s with
  | [] => some none
  | c :: _ =>
      if isDigit c then
        let n := (s.takeWhile isDigit).foldl (fun n d => n * 10 + (d.toNat - 48)) 0
        if n < 2 ^ 32 then some (some n) else none
      else if c = '+' ∨ c = '-' ∨ c = ' ' ∨ (9 ≤ c.toNat ∧ c.toNat ≤ 13) then none
      else some none

/-- `r2u2_load_string_signal` (lib.c:55-57) without booleanizer. -/
def loadString (F : Flat) (i : Nat) (s : List Char) : Option Flat :=
  if i < F.lim.atomics then some { F with atoms := fun k => if k = i then decide (s ≠ ['0']) else F.atoms k } else none

/-- The loop over the fields from index `i` on (csv_trace.c:20, 35-36). -/
def loadFields (F : Flat) (i : Nat) : List (List Char) → Option Flat
  | [] => some F
  | f :: fs => (loadString F i f).bind fun F => loadFields F (i + 1) fs

/-- The fields of a line (csv_trace.c:20-36): a first field that begins with `@` sets the time (lines 26-34).  `some none` is
the end of the trace. -/
def loadRow (F : Flat) : List (List Char) → Option (Option Flat)
  | [] => some (some F)
  | f :: fs =>
      match f with
      | '@' :: f' =>
          (strtok (· == ' ') f').bind fun (t, r) =>
          (scanU t).bind fun
            | none => some none
            | some n => (strtok (· == ' ') r).bind fun (s, _) =>
                (loadFields { F with time := n } 0 (s :: fs)).map some
      | _ => (loadFields F 0 (f :: fs)).map some

/-- `r2u2_csv_load_next_signals` (csv_trace.c:8-39), with a buffer of `size` characters: the monitor with the signals of the next
line, and the rest of the file; `some none` is the end of the trace. -/
def loadNext (size : Nat) (F : Flat) (file : List Char) : Option (Option (Flat × List Char)) :=
  match fgets size file with
  | none => some none
  | some (line, rest) =>
      match (if F.time = 0 ∧ line.head? = some '#' then fgets size rest else some (line, rest)) with   -- 16-18
      | none => some none
      | some (line, rest) => (loadRow F (tokens isSep (line.length + 1) line)).map fun r => r.map fun F => (F, rest)

/-- The main loop (main.c:120-128); `n` bounds the number of its iterations. -/
def mainLoop (size : Nat) (prog : List TlRec) (fuel : Nat) : Nat → Flat → List Char → Option Flat
  | 0, _, _ => none
  | n + 1, F, file =>
      (loadNext size F file).bind fun
        | none => some F
        | some (F, rest) => (Flat.loop prog fuel F).bind fun F => mainLoop size prog fuel n F rest

/-- `fprintf(out, "%d:%u,%s\n", …)` (mltl.c:131): the number of the formula is printed as a signed 32-bit number. -/
def line (x : Nat × Verdict) : List Char :=
  (if x.1 < 2 ^ 31 then natStr x.1 else '-' :: natStr (2 ^ 32 - x.1)) ++
    ':' :: natStr x.2.time ++ [',', if x.2.truth then 'T' else 'F', '\n']

/-- `main` (main.c:27-147) with a specification file and a trace file: what it prints.  The monitor is built with the limits
`lim`, without names of specifications (`R2U2_AUX_STRING_SPECS`, config.h:31-34). -/
def main (size : Nat) (lim : Limits) (fuel : Nat) (spec : List Nat) (trace : List Char) : Option (List Char) :=
  (loadBinary fuel spec).bind fun (es, _) =>
  (Flat.start lim (LoadEv.configs es) (LoadEv.tlTable es)).bind fun F =>
  (mainLoop size (LoadEv.tlTable es) fuel (trace.length + 1) F trace).map fun F => F.out.flatMap line

end Cli
end R2U2
