import Verif.Lemmas.Load
import Verif.Props.Assembly
import Verif.Props.Atomics
import Verif.Props.Backend
/-
C21, C47: verdict words, and staying inside the monitor's arrays.
-/
namespace R2U2
open BProg

/-! ### C47 -/

/-- C47.  A verdict with a time below `2 ^ 31` fits a word, and its truth value and time are
recovered from it. -/
theorem C47_round_trip (v : Verdict) (h : v.time < 2 ^ 31) :
    v.word < 2 ^ 32 ∧ getTruth v.word = v.truth ∧ getTime v.word = v.time := by
  have e := unpack_word h
  exact ⟨word_lt h, congrArg Verdict.truth e, congrArg Verdict.time e⟩

/-- C47.  Setting the truth bit of a word changes the truth value and nothing else. -/
theorem C47_set (v : Verdict) (h : v.time < 2 ^ 31) :
    setTrue v.word = (⟨true, v.time⟩ : Verdict).word ∧ setFalse v.word = (⟨false, v.time⟩ : Verdict).word := by
  have e : ∀ w, unpack w = ⟨getTruth w, getTime w⟩ := fun _ => rfl
  have key : ∀ n, n < 2 ^ 31 → n &&& (2 ^ 31 - 1) = n := fun n hn => by
    rw [Nat.and_two_pow_sub_one_eq_mod]; exact Nat.mod_eq_of_lt hn
  have hk := key v.time h
  have g : ((2 : Nat) ^ 31) &&& (2 ^ 31 - 1) = 0 := by decide
  cases v with
  | mk b t =>
      simp only [] at h hk
      cases b
      · simp only [Verdict.word, Bool.false_eq_true, if_false, if_true, setTrue, setFalse]
        rw [hk]; exact ⟨rfl, hk⟩
      · simp only [Verdict.word, Bool.false_eq_true, if_false, if_true, setTrue, setFalse]
        refine ⟨by rw [Nat.or_assoc, Nat.or_self], ?_⟩
        rw [Nat.and_or_distrib_right, g, Nat.or_zero]

/-- C47.  The only verdict that looks like the marker of an empty slot is a true one at the last
representable time. -/
theorem C47_marker (v : Verdict) (h : v.time < 2 ^ 31) : v.word = infWord ↔ v = ⟨true, 2 ^ 31 - 1⟩ := word_inf h

example : (⟨true, 12345⟩ : Verdict).word = 2147495993 ∧ (⟨true, 2 ^ 31 - 1⟩ : Verdict).word = infWord ∧
    (⟨false, 2 ^ 31 - 1⟩ : Verdict).word ≠ infWord := by decide +kernel

/-! ### C21 -/

theorem countDistinct_le : ∀ {l m : List Nat}, m.Nodup → m ⊆ l → m.length ≤ countDistinct l
  | [], m, _, h => by
      cases m with
      | nil => exact Nat.zero_le _
      | cons a m => exact absurd (h List.mem_cons_self) (by simp)
  | a :: l, m, hn, h => by
      unfold countDistinct
      split
      · rename_i ha
        refine countDistinct_le hn fun x hx => ?_
        rcases List.mem_cons.1 (h hx) with rfl | h'
        · exact ha
        · exact h'
      · have h1 : (m.erase a).Nodup := hn.erase a
        have h2 : m.erase a ⊆ l := by
          intro x hx
          have := (hn.mem_erase_iff).1 hx
          rcases List.mem_cons.1 (h this.2) with rfl | h'
          · exact absurd rfl this.1
          · exact h'
        have h3 := countDistinct_le h1 h2
        have h4 : m.length ≤ (m.erase a).length + 1 := by
          by_cases ha : a ∈ m
          · rw [List.length_erase_of_mem ha]; omega
          · rw [List.erase_of_not_mem ha]; omega
        omega

/-- C21 for atomics: with the booleanizer, the atomic buffer has a place for every atomic identifier. -/
theorem C21_atomics_partial (h0 : Heap BNode) (n0 ft pt fuel : Nat) (hf : Fresh h0 n0 ft pt) (hft : ft < n0) (hpt : pt < n0)
    (h : Heap BNode) (a : AtomState) (hc : computeAtomics fuel true h0 ft pt n0 = some (h, a))
    (signals : Nat) (A : Assembly) :
    ∀ x i, a.ids.lookup x = some i → i < (computeBounds true signals (a.ids.map (·.2)) A).maxAtomics := by
  obtain ⟨_, h2, h3, _, _⟩ := C20_distinct h0 n0 ft pt fuel hf hft hpt h a hc
  intro x i hx
  have key : (List.range a.aid).length ≤ countDistinct (a.ids.map (·.2)) := by
    refine countDistinct_le List.nodup_range fun j hj => ?_
    obtain ⟨y, hy⟩ := h3 j (List.mem_range.1 hj)
    rw [List.mem_map]
    exact ⟨(y, j), Dict.lookup_mem hy, rfl⟩
  rw [List.length_range] at key
  exact Nat.lt_of_lt_of_le (h2 x i hx) key

theorem kid_of_set {P : BProg} {r x : Nat} (h : P.heap.Reachable [r] x) (hs : r = P.ft ∨ r = P.pt) : x = r ∨ P.heap.Reachable P.specs x := by
  induction h with
  | root hr => left; simpa using hr
  | kid hp hc ih =>
      right
      rcases ih with rfl | ih
      · refine .root ?_
        unfold specs
        rcases hs with rfl | rfl
        · exact List.mem_append_left _ hc
        · exact List.mem_append_right _ hc
      · exact .kid ih hc

/-- Queues of a compiled program have at least one slot. -/
theorem queue_pos {P : BProg} (hr : P.Ready) {k : Int} (hk : 0 ≤ k) {fuel : Nat} {s : ScqState} (hs : P.computeScq fuel k = some s)
    {x : Nat} (hx : P.NeedsTl P.ft x ∨ P.NeedsTl P.pt x) : ∃ n, P.scqSize k x = some n ∧ queueLen s.scq x = n ∧ 1 ≤ n := by
  obtain ⟨s', N, order, h1, h2, h3⟩ := computeScq_inv P hr.acyclic k hk
  have hse : s' = s := by
    unfold computeScq at hs
    have h1' := h1 N (Nat.le_refl _)
    unfold computeScq at h1'
    rw [Option.map_eq_some_iff] at hs h1'
    obtain ⟨o, ho, rfl⟩ := hs
    obtain ⟨o', ho', rfl⟩ := h1'
    rw [Heap.postorder_fuel ho ho']
  subst hse
  have hsets : ∀ r, r = P.ft ∨ r = P.pt → ∀ y, P.NeedsTl r y → y ≠ r := by
    rintro r hr' y ⟨_, hy⟩ rfl
    have hl : P.heap.lab y = .specSet := by rcases hr' with rfl | rfl; exacts [hr.ftSet, hr.ptSet]
    rcases hy with h | h
    · cases hb : P.bz with
      | true => rw [hr.atomsBz hb y h] at hl; cases hl
      | false => obtain ⟨t, s, e⟩ := hr.atomsNo hb y h; rw [e] at hl; cases hl
    · simp [engine, hl, BNode.engine] at h
  have hreach : P.heap.Reachable P.specs x := by
    rcases hx with hx | hx
    · exact (kid_of_set hx.1 (.inl rfl)).resolve_left (hsets _ (.inl rfl) x hx)
    · exact (kid_of_set hx.1 (.inr rfl)).resolve_left (hsets _ (.inr rfl) x hx)
  have hneed : P.engine x = .tl ∨ P.atomicId x ≠ none := by
    rcases hx with hx | hx <;> rcases hx.2 with h | h
    · exact .inr h
    · exact .inl h.1
    · exact .inr h
    · exact .inl h.1
  have hbc : (P.heap.lab x).isBoolConst = false := by
    have : ∀ r, P.NeedsTl r x → (P.heap.lab x).isBoolConst = false := by
      rintro r ⟨_, h | h⟩
      · cases hb : P.bz with
        | true => rw [hr.atomsBz hb x h]; rfl
        | false => obtain ⟨t, s, e⟩ := hr.atomsNo hb x h; rw [e]; rfl
      · exact h.2
    rcases hx with h | h <;> exact this _ h
  have hsome : (s'.scq x).isSome := by
    rw [h2.assigned x, scqSize_isSome, h3 x]; exact ⟨hreach, hneed⟩
  obtain ⟨⟨lo, hi⟩, hlh⟩ := Option.isSome_iff_exists.1 hsome
  obtain ⟨_, _, hsz⟩ := h2.size x lo hi hlh
  refine ⟨hi - lo, hsz, by simp [queueLen, hlh], ?_⟩
  unfold scqSize at hsz
  split at hsz
  · simp only [Option.some.injEq] at hsz; omega
  · split at hsz
    · simp at hsz
    · rw [hbc] at hsz
      simp only [Bool.false_eq_true, if_false, Option.some.injEq] at hsz
      omega

/-- C21 for the temporal engine.  Load a compiled program into a monitor whose arrays have the sizes
in the generated bounds file: configuration succeeds, and from then on no instruction - in any state
the monitor can get into, in any order - reads or writes outside the queue memory, the control blocks
or the atomic buffer.  Assumes that atomic identifiers are below their number (`C21_atomics_partial`,
`C21_atomics_fail`). -/
theorem C21_temporal_partial (P : BProg) (hr : P.Ready) (hsep : P.Separate) (hcov : P.Covered) (k : Int) (hk : 0 ≤ k)
    (fuel fuel' : Nat) (s : ScqState) (hs : P.computeScq fuel k = some s) (A : Assembly)
    (h : genAssembly fuel' P s.scq = some A) (signals : Nat) (ids : List Nat)
    (hid : ∀ x a, P.atomicId x = some a → a < (computeBounds P.bz signals ids A).maxAtomics) :
    ∃ F0, Flat.start (computeBounds P.bz signals ids A).limits (A.cg.map (·.instr.asRec)) ((A.ft ++ A.pt).map TlInstr.asRec) = some F0 ∧
      ∀ F, Flat.Reached ((A.ft ++ A.pt).map TlInstr.asRec) F0 F → ∀ r ∈ (A.ft ++ A.pt).map TlInstr.asRec,
        ∃ F', F.update r = some F' := by
  obtain ⟨q, d, T⟩ := table P hr hsep hcov fuel' s.scq A h
  obtain ⟨tb, F0, h1, h2, h3, _⟩ := T.start (C22_operands P hr hsep fuel' s.scq A h).2 (by
    intro e he
    obtain ⟨n, _, h5, h6⟩ := queue_pos hr hk hs ((T.needs e.1).1 (List.mem_map.2 ⟨e, he, rfl⟩))
    omega) P.bz signals ids (fun e _ a ha => hid e.1 a ha)
  refine ⟨F0, h1, ?_⟩
  have key : ∀ F, Flat.Reached ((A.ft ++ A.pt).map TlInstr.asRec) F0 F → Flat.Wf ((A.ft ++ A.pt).map TlInstr.asRec) F ∧
      F.lim = (computeBounds P.bz signals ids A).limits := by
    intro F hF
    induction hF with
    | start => exact ⟨h3, h2⟩
    | exec _ hm hu ih =>
        obtain ⟨w, l⟩ := ih
        obtain ⟨i, hi⟩ := List.getElem?_of_mem hm
        obtain ⟨F', e1, e2, e3⟩ := Flat.update_ok w (by rw [l]; exact tb) hi
        rw [hu] at e1
        cases e1
        exact ⟨e2, e3.trans l⟩
    | set t p at' _ ih => exact ⟨⟨ih.1.placed, ih.1.write, ih.1.read⟩, ih.2⟩
  intro F hF r hm
  obtain ⟨w, l⟩ := key F hF
  obtain ⟨i, hi⟩ := List.getElem?_of_mem hm
  obtain ⟨F', e1, _⟩ := Flat.update_ok w (by rw [l]; exact tb) hi
  exact ⟨F', e1⟩

/-- C21 for the booleanizer.  Every instruction of a compiled program writes, and reads its operands
from, cells inside the value buffer; loads signals inside the signal vector; and stores atomics inside
the atomic buffer.  Assumes that the signal mapping uses the numbers below the number of
signals (`C21_signals_fail`). -/
theorem C21_booleanizer_partial (P : BProg) (hr : P.Ready) (hsep : P.Separate) (hcov : P.Covered) (hbz : P.bz = true)
    (fuel : Nat) (scq : Nat → Option (Int × Int)) (A : Assembly) (h : genAssembly fuel P scq = some A) (signals : Nat) (ids : List Nat)
    (hid : ∀ x a, P.atomicId x = some a → a < (computeBounds P.bz signals ids A).maxAtomics)
    (hat : ∀ x, (P.heap.Reachable [P.ft] x ∨ P.heap.Reachable [P.pt] x) → P.heap.lab x = .atomic → P.atomicId x ≠ none)
    (hsig : ∀ x t n, (P.heap.Reachable [P.ft] x ∨ P.heap.Reachable [P.pt] x) → P.heap.lab x = .signal t n → 0 ≤ n ∧ n < signals) :
    ∀ i ∈ A.bz, i.id < (computeBounds P.bz signals ids A).maxBz ∧
      (∀ r ∈ i.reads, 0 ≤ r ∧ r < (computeBounds P.bz signals ids A).maxBz) ∧
      (i.op = .iload ∨ i.op = .fload → ∃ n : Int, i.a = .int n ∧ 0 ≤ n ∧ n < (computeBounds P.bz signals ids A).maxSignals) ∧
      (i.op = .store → i.b < (computeBounds P.bz signals ids A).maxAtomics) := by
  obtain ⟨_, c2, _⟩ := C23_ids_partial P hr hsep fuel scq A h
  have c3 := (C22_operands P hr hsep fuel scq A h).1
  obtain ⟨cell, queue, -, c4, -⟩ := C53_code P hr hsep hcov fuel scq A h
  intro i hi
  refine ⟨c2 i hi, ?_, ?_, ?_⟩
  · intro r hr'
    obtain ⟨pre, post, hs⟩ := List.append_of_mem hi
    have : ∃ j ∈ A.bz, (j.id : Int) = r := by
      rcases c3 pre i post hs r hr' with ⟨j, hj, e⟩ | ⟨_, j, hj, e, _⟩
      · exact ⟨j, by rw [hs]; simp [hj], e⟩
      · exact ⟨j, by rw [hs]; simp [hj], e⟩
    obtain ⟨j, hj, rfl⟩ := this
    have := c2 j hj
    simp only [computeBounds]
    omega
  all_goals
    obtain ⟨x, ⟨hx, hn⟩, hm⟩ := c4 i hi
    unfold BzMeans at hm
  · intro ho
    split at hm
    · rename_i n hl
      have := hsig x _ _ hx hl
      rw [hm]
      exact ⟨_, rfl, this.1, by simp only [computeBounds, hbz, if_true]; exact this.2⟩
    · rename_i n hl
      have := hsig x _ _ hx hl
      rw [hm]
      exact ⟨_, rfl, this.1, by simp only [computeBounds, hbz, if_true]; exact this.2⟩
    · rw [hm] at ho; simp at ho
    · rw [hm] at ho; simp at ho
    · rw [hm] at ho; simp at ho
    · rw [hm] at ho; simp at ho
    · rw [hm] at ho; simp at ho
    · rw [hm] at ho; simp at ho
    · obtain ⟨k, hk, hm⟩ := hm
      rw [hm] at ho
      rename_i o t _ _ _ _ _
      cases o <;> cases t <;> simp [bzOperator] at hk <;> subst hk <;> simp at ho
    · obtain ⟨k, hk, hm⟩ := hm
      rw [hm] at ho
      rename_i o t _ _ _ _
      cases o <;> cases t <;> simp [bzOperator] at hk <;> subst hk <;> simp at ho
    · exact hm.elim
  · intro ho
    split at hm
    · rw [hm] at ho; simp at ho
    · rw [hm] at ho; simp at ho
    · rw [hm] at ho; simp at ho
    · rw [hm] at ho; simp at ho
    · rw [hm] at ho; simp at ho
    · rename_i hl _
      obtain ⟨a, ha⟩ := Option.ne_none_iff_exists'.1 (hat x hx hl)
      rw [hm, ha]
      exact hid x a ha
    · rw [hm] at ho; simp at ho
    · rw [hm] at ho; simp at ho
    · obtain ⟨k, hk, hm⟩ := hm
      rw [hm] at ho
      rename_i o t _ _ _ _ _
      cases o <;> cases t <;> simp [bzOperator] at hk <;> subst hk <;> simp at ho
    · obtain ⟨k, hk, hm⟩ := hm
      rw [hm] at ho
      rename_i o t _ _ _ _
      cases o <;> cases t <;> simp [bzOperator] at hk <;> subst hk <;> simp at ho
    · exact hm.elim

/-- The example of Props/Assembly, with both kinds of specification: hypotheses and the bounds it gets. -/
example : axProg.Ready ∧ axProg.Separate ∧ axProg.Covered ∧
    ((axProg.computeScq 100 0).bind fun s => (genAssembly 100 axProg s.scq).map fun A =>
      computeBounds true 3 [2, 1, 0] A) = some ⟨3, 3, 9, 8, 2, 8⟩ ∧
    ((axProg.computeScq 100 0).bind fun s => (genAssembly 100 axProg s.scq).bind fun A =>
      (Flat.start (computeBounds true 3 [2, 1, 0] A).limits (A.cg.map (·.instr.asRec)) ((A.ft ++ A.pt).map TlInstr.asRec)).map
        fun F => F.lim) = some ⟨16, 8, 3⟩ :=
  ⟨axProg_ready, axProg_separate, axProg_covered, by decide +kernel, by decide +kernel⟩

example : ∀ x a, axProg.atomicId x = some a → a < (computeBounds true 3 [2, 1, 0] ⟨[], [], [], []⟩).maxAtomics := by
  intro x a
  show _ → a < 3
  rcases x with _|_|_|_|_|_|_|_|_|_|_|_|_|_|_|_|x <;> simp [axProg] <;> omega

/-- A program without the booleanizer: the formula `a`, where the signal mapping gives `a` the number 5. -/
def mapProg : BProg where
  heap := ⟨fun | 1 => .formula 0 | 2 => .signal true 5 | _ => .specSet, fun | 0 => [1] | 1 => [2] | _ => [],
    fun | 1 => [0] | 2 => [1] | _ => []⟩
  bpd := fun _ => 0
  wpd := fun _ => 0
  ft := 0
  pt := 3
  bz := false
  atomicId := fun | 2 => some 5 | _ => none

/-- C21 fails without the booleanizer when the signal mapping leaves numbers out: the atomic buffer has one
place, and the monitor reads place 5 in the first instruction of its first time step. -/
theorem C21_atomics_fail :
    (computeAtomics 40 false mapProg.heap mapProg.ft mapProg.pt 4).map (fun r => r.2.ids) = some [(2, 5)] ∧
    ((mapProg.computeScq 40 0).bind fun s => genAssembly 40 mapProg s.scq) = some
      { bz := [], ft := [⟨0, .load, .atomic, 5, .none, 0⟩, ⟨1, .ret, .subformula, 0, .direct, 0⟩], pt := [],
        cg := [⟨false, ⟨0, .config, .atomic, 1, .none, 0⟩⟩, ⟨false, ⟨1, .config, .atomic, 1, .none, 0⟩⟩] } ∧
    ∃ A F0, ((mapProg.computeScq 40 0).bind fun s => genAssembly 40 mapProg s.scq) = some A ∧
      (computeBounds false 1 [5] A).maxAtomics = 1 ∧
      Flat.start (computeBounds false 1 [5] A).limits (A.cg.map (·.instr.asRec)) ((A.ft ++ A.pt).map TlInstr.asRec) = some F0 ∧
      ∃ r ∈ (A.ft ++ A.pt).map TlInstr.asRec, ∀ at', ({ F0 with atoms := at' } : Flat).update r = none := by
  have hA : ((mapProg.computeScq 40 0).bind fun s => genAssembly 40 mapProg s.scq) = some
      { bz := [], ft := [⟨0, .load, .atomic, 5, .none, 0⟩, ⟨1, .ret, .subformula, 0, .direct, 0⟩], pt := [],
        cg := [⟨false, ⟨0, .config, .atomic, 1, .none, 0⟩⟩, ⟨false, ⟨1, .config, .atomic, 1, .none, 0⟩⟩] } := by decide +kernel
  refine ⟨by decide +kernel, hA, _, _, hA, by decide, rfl, _, List.mem_cons_self, ?_⟩
  intro at'
  rfl

/-- A program with the booleanizer: the atomic over a signal that the mapping gives the number 5. -/
def sigProg : BProg where
  heap := ⟨fun | 1 => .formula 0 | 2 => .atomic | 3 => .signal true 5 | _ => .specSet, fun | 0 => [1] | 1 => [2] | 2 => [3] | _ => [],
    fun | 1 => [0] | 2 => [1] | 3 => [2] | _ => []⟩
  bpd := fun _ => 0
  wpd := fun _ => 0
  ft := 0
  pt := 4
  bz := true
  atomicId := fun | 2 => some 0 | _ => none

/-- C21 fails for the signal vector when the trace has columns the specification does not declare: with one declared
signal in column 5, the vector has one place and the booleanizer loads place 5. -/
theorem C21_signals_fail : ∃ A, ((sigProg.computeScq 40 0).bind fun s => genAssembly 40 sigProg s.scq) = some A ∧
    (computeBounds true 1 [0] A).maxSignals = 1 ∧ (⟨0, .iload, .int 5, 0⟩ : BzInstr) ∈ A.bz := by
  have hA : ((sigProg.computeScq 40 0).bind fun s => genAssembly 40 sigProg s.scq) = some
      { bz := [⟨0, .iload, .int 5, 0⟩, ⟨1, .store, .int 0, 0⟩],
        ft := [⟨0, .load, .atomic, 0, .none, 0⟩, ⟨1, .ret, .subformula, 0, .direct, 0⟩], pt := [],
        cg := [⟨false, ⟨0, .config, .atomic, 1, .none, 0⟩⟩, ⟨false, ⟨1, .config, .atomic, 1, .none, 0⟩⟩] } := by decide +kernel
  exact ⟨_, hA, by decide, by decide⟩

end R2U2
