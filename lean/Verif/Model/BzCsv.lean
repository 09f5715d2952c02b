import Verif.Model.Csv
import Verif.Model.Engine
import Verif.Model.Names
/-
Model of the command line tool of the C monitor on programs with a booleanizer: `r2u2_load_string_signal` (lib.c:55-66) into
`signal_vector`, the reader of trace files (cli/csv_trace.c) and `main` (cli/main.c:27-147).

Undefined behaviour is `none`.
-/
namespace R2U2
namespace Cli

/-- `sscanf(s, "%d", …)`: white space is skipped, a sign may follow, then digits.  `some none` is a conversion that fails; a number that does not fit 32
bits is undefined. -/
def scanD (s : List Char) : Option (Option Int) :=
  let s := s.dropWhile Aux.isSpace
  let neg := s.head? = some '-'
  let s := if neg ∨ s.head? = some '+' then s.drop 1 else s
  let w := s.takeWhile isDigit
  let n : Nat := w.foldl (fun n d => n * 10 + (d.toNat - 48)) 0
  if w = [] then some none
  else (int32 (if neg then -(n : Int) else n)).map some

/-- `signal_vector`, and the monitor of the two engines. -/
structure BzState (F : Type) where
  sig : Nat → Cell F
  bz : BzMon F
  tl : Flat

variable {F : Type}

/-- `r2u2_load_string_signal` (lib.c:58-65) with a booleanizer.  `readF` is `%lf` of `sscanf`; if a conversion fails the value stays. -/
def loadValue (lim : BzLimits) (readF : List Char → Option F) (sig : Nat → Cell F) (i : Nat) (s : List Char) : Option (Nat → Cell F) :=
  if i < lim.signals then
    if '.' ∈ s then                                                                        -- 60-61
      match readF s with
      | some v => some fun k => if k = i then .flt v else sig k
      | none => some sig
    else (scanD s).map fun                                                                  -- 62-63
      | some v => fun k => if k = i then .int v else sig k
      | none => sig
  else none

/-- The loop over the fields from index `i` on (csv_trace.c:20, 35-36). -/
def loadValues (lim : BzLimits) (readF : List Char → Option F) (sig : Nat → Cell F) (i : Nat) : List (List Char) → Option (Nat → Cell F)
  | [] => some sig
  | f :: fs => (loadValue lim readF sig i f).bind fun sig => loadValues lim readF sig (i + 1) fs

/-- The fields of a line (csv_trace.c:20-36), as `Cli.loadRow`. -/
def loadRowBz (lim : BzLimits) (readF : List Char → Option F) (S : BzState F) : List (List Char) → Option (Option (BzState F))
  | [] => some (some S)
  | f :: fs =>
      match f with
      | '@' :: f' =>
          (strtok (· == ' ') f').bind fun (t, r) =>
          (scanU t).bind fun
            | none => some none
            | some n => (strtok (· == ' ') r).bind fun (s, _) =>
                (loadValues lim readF S.sig 0 (s :: fs)).map fun sig =>
                  some { sig := sig, bz := { S.bz with time := n }, tl := { S.tl with time := n } }
      | _ => (loadValues lim readF S.sig 0 (f :: fs)).map fun sig => some { S with sig := sig }

/-- `r2u2_csv_load_next_signals` (csv_trace.c:8-39), as `Cli.loadNext`. -/
def loadNextBz (lim : BzLimits) (readF : List Char → Option F) (size : Nat) (S : BzState F) (file : List Char) :
    Option (Option (BzState F × List Char)) :=
  match fgets size file with
  | none => some none
  | some (line, rest) =>
      match (if S.tl.time = 0 ∧ line.head? = some '#' then fgets size rest else some (line, rest)) with
      | none => some none
      | some (line, rest) => (loadRowBz lim readF S (tokens isSep (line.length + 1) line)).map fun r => r.map fun S => (S, rest)

/-- `r2u2_engine_step` (engines.c:5-60). -/
def stepBz (ops : FloatOps F) (lim : BzLimits) (bprog : List BzRec) (tprog : List TlRec) (fuel : Nat) (S : BzState F) : Option (BzState F) :=
  (BzMon.pass ops lim S.sig bprog S.bz).bind fun m =>
    (Flat.loop tprog fuel { S.tl with atoms := m.atoms }).map fun T => { S with bz := { m with time := m.time + 1 }, tl := T }

/-- The main loop (main.c:120-128). -/
def mainLoopBz (ops : FloatOps F) (readF : List Char → Option F) (lim : BzLimits) (size : Nat) (bprog : List BzRec) (tprog : List TlRec)
    (fuel : Nat) : Nat → BzState F → List Char → Option (BzState F)
  | 0, _, _ => none
  | n + 1, S, file =>
      (loadNextBz lim readF size S file).bind fun
        | none => some S
        | some (S, rest) => (stepBz ops lim bprog tprog fuel S).bind fun S => mainLoopBz ops readF lim size bprog tprog fuel n S rest

/-- `main` (main.c:27-147).  Values go to the atomics if the program has no booleanizer instructions (lib.c:56). -/
def mainBz (ops : FloatOps F) (readF : List Char → Option F) (size : Nat) (lim : Limits) (blim : BzLimits) (fuel : Nat) (spec : List Nat)
    (trace : List Char) : Option (List Char) :=
  (loadBinary fuel spec).bind fun (es, _) =>
  (BzMon.load ops blim es (BzMon.zero F)).bind fun m =>
  if BzMon.table es = [] then main size lim fuel spec trace
  else
    (Flat.start lim (LoadEv.configs es) (LoadEv.tlTable es)).bind fun T =>
    (mainLoopBz ops readF blim size (BzMon.table es) (LoadEv.tlTable es) fuel (trace.length + 1) ⟨fun _ => .int 0, m, T⟩ trace).map fun S =>
      S.tl.out.flatMap line

end Cli
end R2U2
