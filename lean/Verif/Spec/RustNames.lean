import Verif.Model.RustNames
import Verif.Spec.RustCli
import Verif.Spec.Names
/-
What `r2u2_cli run` should print of a trace, from the verdicts of the steps.
-/
namespace R2U2
namespace Rs
namespace Names

/-- The line for a verdict with `--enable-aux`: the label of the specification with the number `x.1` (nothing, if there is none), the
number in parentheses, the time, `T` or `F`. -/
def named (specs : List (String × Nat)) (x : Nat × Verdict) : List Char :=
  (match specs.find? fun s => s.2 = x.1 with
    | some s => s.1.toList
    | none => []) ++ (" (".toList ++ natStr x.1 ++ "):".toList ++ natStr x.2.time ++ (if x.2.truth then ",T\n" else ",F\n").toList)

/-- What is printed for a record whose step gave the verdicts `out`: a line for each of them, then a line for each status of a contract one
of them decides. -/
def shown (enableAux disableContracts : Bool) (specs : List (String × Nat)) (contracts : List (String × Nat × Nat × Nat)) (out : List (Nat × Verdict)) :
    List Char :=
  out.flatMap (if enableAux then named specs else Tool.printed) ++ if disableContracts then [] else out.flatMap (Aux.statusLines contracts)

/-- Names the Rust monitor can carry: identifiers, of at most 50 characters for a specification and 63 for a contract; numbers of at most
nine digits. -/
structure Labels (specs : List (String × Nat)) (contracts : List (String × Nat × Nat × Nat)) : Prop where
  idents : ∀ s ∈ specs, IsIdent s.1 ∧ s.1.length ≤ 50 ∧ s.2 < 10 ^ 9
  contracts : ∀ c ∈ contracts, IsIdent c.1 ∧ c.1.length ≤ 63 ∧ c.2.1 < 10 ^ 9 ∧ c.2.2.1 < 10 ^ 9 ∧ c.2.2.2 < 10 ^ 9

end Names
end Rs
end R2U2
