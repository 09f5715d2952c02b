import Verif.Lemmas.Wcet
/-
Property theorems about execution-time estimates: C36.
-/
namespace R2U2
open BProg Wcet

/-- C36: the estimate for a program compiled with `assemble` is the sum, over the nodes the monitor computes, each once, of
the latency of the operator that computes the node divided by the clock.

Partial: each quotient is rounded down separately (`C36_rounding_fails`), and the latency table has all the operators
(`C36_missing_fails`). -/
theorem C36_cpu_partial (P : BProg) (hr : P.Ready) (hsep : P.Separate) (hcov : P.Covered) (fuel : Nat)
    (scq : Nat → Option (Int × Int)) (A : Assembly) (h : genAssembly fuel P scq = some A) (lat : Key → Nat) (clk : Nat)
    (cells fts pts : List Nat) (hc : P.Computed cells fts pts) :
    cpu (items A) (fun k => some (lat k)) clk = ((P.keys cells fts pts).map fun k => lat k / clk).sum := by
  unfold cpu
  rw [cpuLoop_eq (lat := lat) _ _ (fun _ _ => rfl), Nat.zero_add]
  exact ((keys_perm hr hsep hcov h hc).map _).sum_nat

/-- The computed nodes of a program can be listed. -/
theorem C36_listed (P : BProg) (hr : P.Ready) : ∃ cells fts pts, P.Computed cells fts pts := exists_computed hr.acyclic

/-- The example program of `Props/Assembly`: 9 booleanizer instructions and 8 temporal ones, at 10 each. -/
example : axProg.Ready ∧ axProg.Separate ∧ axProg.Covered ∧ ∃ A, genAssembly 100 axProg (fun _ => some (0, 1)) = some A ∧
    cpu (items A) (fun _ => some 10) 1 = 10 * (A.bz.length + A.ft.length + A.pt.length) ∧ A.bz.length + A.ft.length + A.pt.length = 17 :=
  ⟨axProg_ready, axProg_separate, axProg_covered, _, rfl, by decide +kernel, by decide +kernel⟩

/-- C36: the estimate grows with every latency: an increased table, with the same operators, does not lower it. -/
theorem C36_monotone (A : List Item) (clk : Nat) (table table' : Key → Option Nat)
    (h : ∀ k l, table k = some l → ∃ l', table' k = some l' ∧ l ≤ l') : cpu A table clk ≤ cpu A table' clk := by
  have key : ∀ (A : List Item) (n m : Nat), n ≤ m → cpuLoop table clk n A ≤ cpuLoop table' clk m A := by
    intro A
    induction A with
    | nil => intro n m hnm; exact hnm
    | cons i A ih =>
      intro n m hnm
      simp only [cpuLoop]
      cases i.key with
      | none => exact ih n m hnm
      | some k =>
        cases ht : table k with
        | none => simp [ht]
        | some l =>
          obtain ⟨l', hl', hle⟩ := h k l ht
          simp only [ht, hl']
          exact ih _ _ (Nat.add_le_add hnm (Nat.div_le_div_right hle))
  exact key A 0 0 (Nat.le_refl _)

example : cpu [.bz ⟨0, .iload, .int 0, 0⟩, .ft ⟨0, .load, .atomic, 0, .none, 0⟩] (fun _ => some 10) 2 = 10 ∧
    cpu [.bz ⟨0, .iload, .int 0, 0⟩, .ft ⟨0, .load, .atomic, 0, .none, 0⟩] (fun k => if k = .bz .iload then some 12 else some 10) 2 = 11 := by
  decide

/-- C36: how far the estimate is from the total latency divided by the clock: it is not above it, and the rounding loses
less than one per instruction. -/
theorem C36_bound (A : List Item) (clk : Nat) (hclk : 0 < clk) (lat : Key → Nat) :
    clk * cpu A (fun k => some (lat k)) clk ≤ ((A.filterMap Item.key).map lat).sum ∧
    ((A.filterMap Item.key).map lat).sum + (A.filterMap Item.key).length ≤
      clk * (cpu A (fun k => some (lat k)) clk + (A.filterMap Item.key).length) := by
  unfold cpu
  rw [cpuLoop_eq (lat := lat) _ _ (fun _ _ => rfl), Nat.zero_add]
  generalize A.filterMap Item.key = ks
  induction ks with
  | nil => simp
  | cons k ks ih =>
    simp only [List.map_cons, List.sum_cons, List.length_cons]
    have h1 := Nat.div_add_mod (lat k) clk
    have h2 := Nat.mod_lt (lat k) hclk
    simp only [Nat.mul_add, Nat.mul_one] at ih ⊢
    omega

/-- C36 fails: ten instructions of latency 1 at clock 2 take 5, and the estimate is 0. -/
theorem C36_rounding_fails : ∃ (A : List Item) (lat : Key → Nat) (clk : Nat),
    cpu A (fun k => some (lat k)) clk = 0 ∧ ((A.filterMap Item.key).map lat).sum / clk = 5 :=
  ⟨List.replicate 10 (.bz ⟨0, .iload, .int 0, 0⟩), fun _ => 1, 2, by decide, by decide⟩

/-- C36 fails: an operator that is not in the table makes the whole estimate 0, whatever the others add up to. -/
theorem C36_missing_fails (A B : List Item) (i : Item) (k : Key) (table : Key → Option Nat) (clk : Nat) (hi : i.key = some k)
    (hk : table k = none) : cpu (A ++ i :: B) table clk = 0 := by
  have key : ∀ (A : List Item) (n : Nat), cpuLoop table clk n (A ++ i :: B) = 0 := by
    intro A
    induction A with
    | nil => intro n; simp [cpuLoop, hi, hk]
    | cons j A ih =>
      intro n
      simp only [List.cons_append, cpuLoop]
      cases j.key with
      | none => exact ih n
      | some k' =>
        cases ht : table k' with
        | none => simp [ht]
        | some l => simp only [ht]; exact ih _
  exact key A 0

example : (Item.ft ⟨0, .load, .atomic, 0, .none, 0⟩).key = some (.ft .load) ∧
    (fun k => if k = Key.ft .load then none else some 10 : Key → Option Nat) (.ft .load) = none := ⟨rfl, rfl⟩

/-- C36: the hardware estimate for a compiled program is the sum of initialisation and execution times of the computed
nodes' operators. -/
theorem C36_fpga (P : BProg) (hr : P.Ready) (hsep : P.Separate) (hcov : P.Covered) (fuel : Nat)
    (scq : Nat → Option (Int × Int)) (A : Assembly) (h : genAssembly fuel P scq = some A) (lat : Key → Int × Int) (clk : Int)
    (cells fts pts : List Nat) (hc : P.Computed cells fts pts) :
    fpga (items A) (fun k => some (lat k)) clk = ((P.keys cells fts pts).map fun k => (lat k).1 + (lat k).2).sum := by
  unfold fpga
  rw [fpgaLoop_eq (lat := lat) ?_ _ _ (fun _ _ => rfl), Int.zero_add]
  · exact perm_sum_int ((keys_perm hr hsep hcov h hc).map _)
  · intro c hc
    simp only [List.mem_filterMap] at hc
    obtain ⟨i, hi, hic⟩ := hc
    cases i with
    | cg c' =>
      simp only at hic
      split at hic
      · cases hic
      · rename_i ht
        cases hic
        refine scq_second hr hsep h c ?_ (by simpa using ht)
        simp only [items, List.mem_append, List.mem_map] at hi
        simpa using hi
    | _ => simp at hic

/-- C36: initialisation counts once per instruction, for any list of instructions: making every operator take `d` longer to
initialise adds `d` for every instruction with an operator. -/
theorem C36_fpga_init (A : List Item) (lat : Key → Int × Int) (d clk : Int) :
    fpga A (fun k => some ((lat k).1 + d, (lat k).2)) clk =
      fpga A (fun k => some (lat k)) clk + d * (A.filterMap Item.key).length := by
  unfold fpga
  generalize A.filterMap (fun | .cg c => if c.temp then none else some c | _ => none) = scqs
  have key : ∀ (A : List Item) (n m : Int), fpgaLoop scqs (fun k => some ((lat k).1 + d, (lat k).2)) (n + m) A =
      fpgaLoop scqs (fun k => some (lat k)) n A + m + d * (A.filterMap Item.key).length := by
    intro A
    induction A with
    | nil => intro n m; simp [fpgaLoop]
    | cons i A ih =>
      intro n m
      simp only [fpgaLoop]
      cases hk : i.key with
      | none => simp only [hk, List.filterMap_cons_none hk]; exact ih n m
      | some k =>
        rw [List.filterMap_cons_some hk]
        simp only [List.length_cons, Int.natCast_add, Int.natCast_one]
        have e : n + m + fpgaTime scqs ((lat k).1 + d) (lat k).2 i = (n + fpgaTime scqs (lat k).1 (lat k).2 i) + (m + d) := by
          cases i <;> simp only [fpgaTime] <;> omega
        rw [e, ih, Int.mul_add, Int.mul_one]
        omega
  have := key A 0 0
  simpa using this

example : fpga [.bz ⟨0, .iload, .int 0, 0⟩, .ft ⟨0, .load, .atomic, 0, .none, 0⟩] (fun _ => some (5, 10)) 1 = 30 ∧
    fpga [.bz ⟨0, .iload, .int 0, 0⟩, .ft ⟨0, .load, .atomic, 0, .none, 0⟩] (fun _ => some (8, 10)) 1 = 36 := by decide

/-- C36 fails for hardware: neither the clock nor the sizes of the queues an operator reads change the estimate, although
the time of a future-time operator is meant to be its execution time multiplied by the sizes of its operands' queues
(wcet.py:78-92): the size records are compared by size instead of queue, and their unused operand is added. -/
theorem C36_fpga_sizes_fail (P : BProg) (hr : P.Ready) (hsep : P.Separate) (hcov : P.Covered) (fuel fuel' : Nat)
    (scq scq' : Nat → Option (Int × Int)) (A A' : Assembly) (h : genAssembly fuel P scq = some A)
    (h' : genAssembly fuel' P scq' = some A') (lat : Key → Int × Int) (clk clk' : Int) :
    fpga (items A) (fun k => some (lat k)) clk = fpga (items A') (fun k => some (lat k)) clk' := by
  obtain ⟨cells, fts, pts, hc⟩ := exists_computed hr.acyclic
  rw [C36_fpga P hr hsep hcov fuel scq A h lat clk cells fts pts hc,
    C36_fpga P hr hsep hcov fuel' scq' A' h' lat clk' cells fts pts hc]

example : ∃ A A', genAssembly 100 axProg (fun _ => some (0, 1)) = some A ∧ genAssembly 100 axProg (fun _ => some (0, 100)) = some A' ∧
    A ≠ A' ∧ fpga (items A) (fun _ => some (10, 10)) 1 = 340 ∧ fpga (items A') (fun _ => some (10, 10)) 50 = 340 :=
  ⟨_, _, rfl, rfl, by decide +kernel, by decide +kernel, by decide +kernel⟩

end R2U2
