import Verif.Lemmas.RustUpdate
import Verif.Spec.Rust
/-
C68: giving a Rust monitor another specification.
-/
namespace R2U2
open Rs

/-- C68 where the monitor has no instructions yet: after `update_binary_file` it is, in all that a run depends on (`Rs.Loaded`), the
monitor that `get_monitor` makes of the file.  Missing: monitors that have loaded a specification, where it is false
(`C68_update_fails`). -/
theorem C68_update_partial (M N : Rs.Monitor) (h0 : M.program = []) (fuel : Nat) (s : List Nat) (hN : Rs.getMonitor M.lim fuel s = some N) :
    ∃ M', M.updateBinary fuel s = some M' ∧ M'.lim = N.lim ∧ M'.time = N.time ∧ M'.progress = N.progress ∧ M'.program = N.program ∧
      M'.blocks = N.blocks ∧ M'.mem = N.mem := by
  have hB : Behind [] M.reset (Rs.Monitor.dflt M.lim) := ⟨rfl, rfl, rfl, rfl, h0, rfl, rfl⟩
  unfold Rs.getMonitor Rs.Monitor.process at hN
  unfold Rs.Monitor.updateBinary Rs.Monitor.process
  cases hs : s[0]? with
  | none => rw [hs] at hN; cases hN
  | some o =>
      rw [hs] at hN
      simp only [Option.bind_eq_some_iff] at hN ⊢
      obtain ⟨N1, h1, h2⟩ := hN
      have htl : N1.max ≤ M.lim.tl := frames_room (N := Rs.Monitor.dflt M.lim) _ _ (Nat.zero_le _) h1
      obtain ⟨M1, a1, a2⟩ := Behind.frames _ _ hB (by show 0 + N1.max ≤ M.lim.tl; omega) h1
      obtain ⟨M', b1, b2⟩ := Behind.setNext _ a2 h2
      refine ⟨M', ⟨M1, a1, ?_⟩, b2.lim, b2.time, b2.progress, b2.prog, b2.blocks, b2.mem⟩
      rw [show M1.program = N1.program from a2.prog]
      exact b1

/-- `update_binary_file` never removes an instruction: those of the specification before stay in front of the new ones. -/
theorem C68_update_keeps (M M' : Rs.Monitor) (fuel : Nat) (s : List Nat) (h : M.updateBinary fuel s = some M') :
    ∃ new, M'.program = M.program ++ new := by
  unfold Rs.Monitor.updateBinary Rs.Monitor.process at h
  split at h
  · cases h
  · rw [Option.bind_eq_some_iff] at h
    obtain ⟨M1, h1, h2⟩ := h
    obtain ⟨new, e⟩ := frames_prefix _ _ h1
    exact ⟨new, by rw [(setNext_program _ h2).1, e]; rfl⟩

/-- The binary of the specification that is signal `a`, without the header's text: `load`, `return`, and two queues of one slot. -/
def signalBytes (a : Nat) : List Nat :=
  [1, 17, 4, a, 0, 0, 0, 0, 0, 0, 0, 0, 0, 0, 0, 0, 3, 29, 17, 4, 0, 0, 0, 0, 0, 0, 0, 0, 1, 0, 0, 0, 2, 1, 28,
   18, 2, 4, 1, 0, 0, 0, 0, 0, 0, 0, 0, 0, 0, 0, 0, 3, 30, 18, 2, 4, 1, 0, 0, 0, 0, 0, 0, 0, 1, 0, 0, 0, 0, 3, 30, 0]

/-- Updating from the specification `x` to the specification `y`: with arrays of exactly the sizes needed for either, the monitor panics; with larger
arrays it goes on to report `x` as well, under the same number.  A new monitor reports `y`, as it should. -/
theorem C68_update_fails :
    ((Rs.getMonitor ⟨2, 2, 2, 0, 2⟩ 9 (signalBytes 0)).map fun _ => ()) = some () ∧
    ((Rs.getMonitor ⟨2, 2, 2, 0, 2⟩ 9 (signalBytes 1)).map fun _ => ()) = some () ∧
    (((Rs.getMonitor ⟨2, 2, 2, 0, 2⟩ 9 (signalBytes 0)).bind fun M => M.updateBinary 9 (signalBytes 1)).map fun _ => ()) = none ∧
    (((Rs.getMonitor ⟨256, 2048, 256, 256, 256⟩ 9 (signalBytes 0)).bind fun M => M.updateBinary 9 (signalBytes 1)).bind fun M =>
      M.run 9 (fun _ a => decide (a = 0)) 1).map (·.2) = some [(0, ⟨true, 0⟩)] ∧
    ((Rs.getMonitor ⟨256, 2048, 256, 256, 256⟩ 9 (signalBytes 1)).bind fun M => M.run 9 (fun _ a => decide (a = 0)) 1).map (·.2) =
      some [(0, ⟨false, 0⟩)] := by
  refine ⟨?_, ?_, ?_, ?_, ?_⟩ <;> decide +kernel

/-- A monitor that has run, but has no instructions, meets the hypotheses. -/
example : ∃ M N, (M : Rs.Monitor).program = [] ∧ M.time = 5 ∧ Rs.getMonitor M.lim 9 (signalBytes 1) = some N := by
  refine ⟨{ Rs.Monitor.dflt ⟨2, 2, 2, 0, 2⟩ with time := 5 }, _, rfl, rfl, rfl⟩

end R2U2
