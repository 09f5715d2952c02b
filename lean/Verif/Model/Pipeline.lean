import Verif.Model.GraphPass
/-
Model of what the command line tool does to a desugared program before assembling it
(`cli` in `/repo/compiler/c2po/main.py`).
-/
namespace R2U2
namespace GraphPass
open Heap

/-- The options that choose passes (main.py:253-288). -/
structure CliOpts where
  rewrite : Bool
  extops : Bool
  cse : Bool

/-- The passes from `desugar` to `assemble` (main.py:317-350), without equality saturation.
`check_sat` changes nothing in the graph. -/
def compileG (o : CliOpts) (fuel ft pt : Nat) (s : Heap Lab × Nat) : Option (Heap Lab × Nat) :=
  (if o.rewrite then optimizeG fuel ft pt s else some s).bind fun s =>                             -- 332-333
  (if o.extops then some s else removeExtendedG fuel ft pt s).bind fun s =>                        -- 335-336
  (if o.cse then (optimizeCse prefixStr fuel s.1 ft pt).map (·, s.2) else some s).bind fun s =>    -- 338-339
  (toBinaryG fuel ft pt s).bind fun s =>                                                           -- 349
  removeExtendedG fuel ft pt s                                                                     -- 350

end GraphPass
end R2U2
