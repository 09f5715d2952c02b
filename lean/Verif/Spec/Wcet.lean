import Verif.Model.Wcet
import Verif.Spec.Assembly
/-
What an execution-time estimate should add up: one latency for every node of the program that is computed.
-/
namespace R2U2
namespace BProg
open Wcet

/-- The operator that computes node `x` in the booleanizer. -/
def bzKey (P : BProg) (x : Nat) : Key :=
  .bz <| match P.heap.lab x, P.heap.kids x with
  | .signal true _, _ => .iload
  | .signal false _, _ => .fload
  | .int _, _ => .iconst
  | .float _, _ => .fconst
  | .tau, _ => .ts
  | .atomic, _ => .store
  | .op .sub true, [_] => .ineg
  | .op .sub false, [_] => .fneg
  | .op o t, _ => (bzOperator o t).getD .none
  | _, _ => .none

/-- The operator that computes node `x` in the temporal engine. -/
def tlKey (P : BProg) (past : Bool) (x : Nat) : Key :=
  let o := match P.atomicId x, P.heap.lab x with
    | some _, _ => .load
    | none, .formula _ => .ret
    | none, l => (tlOperator past l).getD .nop
  if past then .pt o else .ft o

/-- The computed nodes, each once: those the booleanizer computes, those of the future-time and of the past-time
specifications. -/
structure Computed (P : BProg) (cells fts pts : List Nat) : Prop where
  cells : cells.Nodup ∧ ∀ x, x ∈ cells ↔ P.NeedsCell x
  fts : fts.Nodup ∧ ∀ x, x ∈ fts ↔ P.NeedsTl P.ft x
  pts : pts.Nodup ∧ ∀ x, x ∈ pts ↔ P.NeedsTl P.pt x

/-- The operators computed, with repetitions. -/
def keys (P : BProg) (cells fts pts : List Nat) : List Key :=
  cells.map P.bzKey ++ fts.map (P.tlKey false) ++ pts.map (P.tlKey true)

end BProg
end R2U2
