import Verif.Model.Names
import Verif.Model.BzCsv
/-
The main program of the C monitor with a booleanizer and with the names of specifications.
-/
namespace R2U2
namespace Aux
variable {F : Type}

/-- `main` (main.c:27-147) of a monitor built with `R2U2_AUX_STRING_SPECS`, as `Cli.mainBz`. -/
def mainBz (ops : FloatOps F) (readF : List Char → Option F) (size : Nat) (lim : Limits) (blim : BzLimits) (alim : Lim) (fuel : Nat) (spec : List Nat)
    (trace : List Char) : Option (List Char) :=
  (loadBinary fuel spec).bind fun (es, stop) =>
  (BzMon.load ops blim es (BzMon.zero F)).bind fun m =>
  if BzMon.table es = [] then main size lim alim fuel spec trace
  else
    (Flat.start lim (LoadEv.configs es) (LoadEv.tlTable es)).bind fun T =>
    (load alim (spec.drop (stop + 1))).bind fun A =>
    (Cli.mainLoopBz ops readF blim size (BzMon.table es) (LoadEv.tlTable es) fuel (trace.length + 1) ⟨fun _ => .int 0, m, T⟩ trace).bind fun S =>
      A.reports S.tl.out

end Aux
end R2U2
