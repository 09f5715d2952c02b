import Verif.Model.Rust
/-
Rows with times for the Rust monitor.
-/
namespace R2U2
namespace Rs

/-- The loop of `r2u2_cli run` (monitors/rust/r2u2_cli/src/main.rs:263-288) on rows with times, at the level of the monitor: for each row, `monitor.time_stamp` is
set to the time of the row, the atomics are set, a step is executed and the output buffer is read.  `Tool.loop` models how the rows are read. -/
def Monitor.runRows (fuel : Nat) : List (Nat × (Nat → Bool)) → Monitor → Option (Monitor × List (List (Nat × Verdict)))
  | [], M => some (M, [])
  | (T, a) :: rows, M => (Monitor.step fuel { M with time := T } a).bind fun M' => (runRows fuel rows M').map fun x => (x.1, M'.outputs :: x.2)

/-- No row covers more than `d + 1` moments. -/
def Gaps (d : Nat) : Nat → List (Nat × (Nat → Bool)) → Prop
  | _, [] => True
  | e, (T, _) :: rows => T ≤ e + d ∧ Gaps d (T + 1) rows

end Rs
end R2U2
