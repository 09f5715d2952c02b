import Verif.Lemmas.EventRun
import Verif.Lemmas.EventCsv
import Verif.Props.EndToEnd
import Verif.Props.Csv
/-
C72: trace files with event rows.
-/
namespace R2U2
open Heap BProg

/-- C72 at the level of queues: rows of values, each with the last time it stands for, are given to the monitor.  What it has reported
after the rows is what the formula means on a trace with those values at all times since the row before; all verdicts for times more than the
worst-case delay before the last row are there; and none is early. -/
theorem C72_verdicts_partial (S : Setup) (ev : S.Eventful) (tr : Nat → Nat → Bool) (V : Nat → Nat → Prop)
    (hV : S.Means tr V) (rows : List (Nat × (Nat → Bool))) (hrows : RowsSay tr 0 rows) (fuel : Nat) (m : Mon)
    (hm : Mon.runRows S.prog fuel rows (Mon.init S.prog S.len S.lb S.ub S.lang) = some m)
    (i : Nat) (r : TlRec) (hr : S.prog[i]? = some r) (ho : S.own i) (hret : r.opcode = some .ret) :
    Answers (V i) (m.reports r.v2) ∧
    (∀ s, s + S.W i < rowsEnd 0 rows → ∃ v ∈ m.reports r.v2, s ≤ v.time) ∧
    (∀ v ∈ m.reports r.v2, (v.time : Int) + S.B i < rowsEnd 0 rows) := by
  obtain ⟨h, hb, he⟩ := erows_safe ev hV fuel rows 0 _ m _ hrows (einit ev.ok ev.future tr V) (by simp) hm
  have inv := hb (rowsEnd 0 rows) (tr (rowsEnd 0 rows)) (Nat.le_refl _) (fun s h1 h2 => by rw [Nat.le_antisymm h2 h1])
  have nd := inv.node i r hr ho
  have hrep : m.reports r.v2 = h i := nd.ret hret
  have hbd := nd.bound.1
  rw [hrep]
  refine ⟨nd.ans, fun s hs => ?_, he i r hr ho⟩
  unfold endOf at hbd
  cases hv : (h i).getLast? with
  | none => rw [hv] at hbd; simp only at hbd; omega
  | some v => rw [hv] at hbd; simp only at hbd; exact ⟨v, List.mem_of_getLast? hv, by omega⟩

/-- C72: each row ends, within a number of passes that depends on the program and the last time. -/
theorem C72_ends_partial (S : Setup) (ev : S.Eventful) (all : ∀ i, i < S.prog.length → S.own i) (last : Nat) :
    ∃ bound, ∀ fuel, bound ≤ fuel → ∀ tr rows, RowsSay tr 0 rows → rowsEnd 0 rows ≤ last →
      ∃ m, Mon.runRows S.prog fuel rows (Mon.init S.prog S.len S.lb S.ub S.lang) = some m := by
  refine ⟨sumTo (fun i => ((last : Int) + S.W i - S.B i).toNat + 1) S.prog.length + 2, fun fuel hf tr rows hrows hend => ?_⟩
  obtain ⟨V, hV⟩ := exists_means ev.ok tr
  exact erows_total ev all hV hf rows 0 _ _ hrows (by omega) (einit ev.ok ev.future tr V)

/-- C72.  The instructions the compiler writes for a program are encoded as bytes, and the command line tool of the C monitor, built
with the bounds written with them, is run on the bytes and a trace file of which some rows have times: `@T` before the values "is the signal
at `T` and since the last `@`".  It prints lines `number:time,T` or `number:time,F`, and what those with the number of a formula say is what the
formula means on the values held; all verdicts for times more than the worst-case delay before the last row are there; and none
is early.

Partial: what C55 leaves out; no past-time operators, no until and release but `F` and `G`, and enough slots per queue (`C72_enough_slots`), more than
the compiler computes (`C72_event_rows_fails`); the rows' times increase and are below `2 ^ 31`; in a row with a time the first value has no spaces. -/
theorem C72_event_file_partial (P : BProg) (hr : P.Ready) (hsep : P.Separate) (hcov : P.Covered)
    (k : Int) (hk : 0 ≤ k) (ahead turn lag : Nat → Int) (hm : P.Monitorable ahead turn lag k) (hev : P.EventReady turn lag k)
    (fuel fuel' : Nat) (s : ScqState) (hs : P.computeScq fuel k = some s) (A : Assembly)
    (h : genAssembly fuel' P s.scq = some A) (signals : Nat) (ids : List Nat)
    (hid : ∀ x a, P.atomicId x = some a → a < (computeBounds P.bz signals ids A).maxAtomics)
    (aux : List Nat) (hb : ∀ i ∈ A.bz, (Instr.bz i).Fits) (hf : ∀ i ∈ A.ft, (Instr.tl i).Fits)
    (hp : ∀ i ∈ A.pt, (Instr.tl i).Fits) (hc : ∀ i ∈ A.cg, (Instr.cg i).Fits) :
    ∃ bytes, assembleBytes A.instrs aux = some bytes ∧ ∀ (last : Nat), last < 2 ^ 31 → (∀ x, P.Live x → (last : Int) < 2 ^ 31 + ahead x) →
      ∃ bound, ∀ fuel, bound ≤ fuel →
        ∀ (size w : Nat) (header : Option (List Char)) (rows : List (Option Nat × List (List Char))),
          (∀ h, header = some h → Cli.Header size h) → Cli.Events size w rows → w ≤ (computeBounds P.bz signals ids A).maxAtomics →
          Cli.extent (Cli.times 0 rows) ≤ last →
          ∃ out : List (Nat × Verdict),
            Cli.main size (computeBounds P.bz signals ids A).limits fuel bytes (Cli.eventFile header rows) = some (out.flatMap Cli.line) ∧
            ∀ x f c e, P.Live x → P.heap.lab x = .formula f → P.heap.kids x = [c] → P.Says c e →
              Answers (sat (fun t a => Cli.heldSignal (Cli.times 0 rows) t a = true) e) ((out.filter fun y => y.1 = f).map (·.2)) ∧
              (∀ s, s + (lag c).toNat < Cli.extent (Cli.times 0 rows) → ∃ v ∈ (out.filter fun y => y.1 = f).map (·.2), s ≤ v.time) ∧
              (∀ v ∈ (out.filter fun y => y.1 = f).map (·.2), (v.time : Int) + ahead c < Cli.extent (Cli.times 0 rows)) := by
  obtain ⟨q, d, T⟩ := table P hr hsep hcov fuel' s.scq A h
  have hlen : ∀ x, P.NeedsTl P.ft x ∨ P.NeedsTl P.pt x → ∃ n, P.scqSize k x = some n ∧ queueLen s.scq x = n ∧ 1 ≤ n :=
    fun x hx => queue_pos hr hk hs hx
  have hreads := (C22_operands P hr hsep fuel' s.scq A h).2
  obtain ⟨tb, F0, h1, h2, h3, h4⟩ := T.start hreads (by
    intro e he
    obtain ⟨n, _, h5, h6⟩ := hlen e.1 ((T.needs e.1).1 (List.mem_map.2 ⟨e, he, rfl⟩))
    omega) P.bz signals ids (fun e _ a ha => hid e.1 a ha)
  have ok : (P.setupOf ahead turn lag s.scq A d).Ok := setup_ok T hr hcov hk hm tb.mem hreads hlen
  have ev := setup_eventful T hr hcov hm hev ok hlen
  obtain ⟨bytes, es, stop, e1, e2, e3, e4, _⟩ := C25_tables_partial A aux hb hf hp hc
  have all : ∀ i, i < (P.setupOf ahead turn lag s.scq A d).prog.length → (P.setupOf ahead turn lag s.scq A d).own i := fun _ _ => trivial
  rw [← List.map_append] at e3
  refine ⟨bytes, e1, fun last hlast hah => ?_⟩
  obtain ⟨bound, hbound⟩ := C72_ends_partial _ ev all last
  refine ⟨max bound (A.instrs.length + 1), fun fuel hfuel size w header rows hh hrows hw hext => ?_⟩
  have hsays := Cli.heldSignal_says (Cli.times 0 rows) 0 (fun _ _ => Nat.zero_le _) hrows.order
  have hend := Cli.extent_seen (Cli.times 0 rows)
  obtain ⟨m, hm'⟩ := hbound fuel (by omega) _ _ hsays (by omega)
  obtain ⟨V, hV⟩ := exists_means ok (Cli.heldSignal (Cli.times 0 rows))
  obtain ⟨k1, k2, k3⟩ := Flat.start_keeps h1
  have hB : ∀ i, i < (P.setupOf ahead turn lag s.scq A d).prog.length →
      (rowsEnd 0 (Cli.seen (Cli.times 0 rows)) : Int) ≤ ((2 ^ 31 - 2 : Nat) : Int) + 1 + (P.setupOf ahead turn lag s.scq A d).B i := by
    intro i hi
    obtain ⟨r, hri⟩ : ∃ r, (P.setupOf ahead turn lag s.scq A d).prog[i]? = some r := ⟨_, List.getElem?_eq_some_iff.2 ⟨hi, rfl⟩⟩
    obtain ⟨f1, _, f3⟩ := T.form hr hm hri
    have hlive : P.Live (P.tgt (nodeAt d i)) := by
      by_cases hf : (P.heap.lab (nodeAt d i)).isFormula = true
      · obtain ⟨n, hl⟩ : ∃ n, P.heap.lab (nodeAt d i) = .formula n := by
          cases hl : P.heap.lab (nodeAt d i) <;> rw [hl] at hf <;> simp [BNode.isFormula] at hf; exact ⟨_, rfl⟩
        obtain ⟨c', hk', ht, _⟩ := form_formula f3 (atom_not_tl hr (by simp [engine, hl, BNode.engine])) hl
        rw [ht]
        exact (NeedsTl.live f1).kid (by rw [hk']; simp)
      · rw [tgt_self (by simpa using hf)]
        exact NeedsTl.live f1
    have := hah _ hlive
    show _ ≤ _ + 1 + ahead (P.tgt (nodeAt d i))
    omega
  obtain ⟨F, g1, g2⟩ := Flat.erows_rel ev all hV (N := 2 ^ 31 - 2) (by omega) fuel _ 0 F0 _ m _ hsays (by omega) hB
    (einit ok ev.future _ V) (Flat.small_init _ _ _ _ _) hm' h3 (by rw [h2]; exact tb) h4
  refine ⟨F.out, ?_, ?_⟩
  · simp only [Cli.main, e2 fuel (by omega), e3, e4, Option.bind_some]
    rw [h1]
    simp only [Option.bind_some]
    rw [Cli.mainLoop_eventFile _ _ hh hrows (by rw [k2]; exact hw) (by simp [k1]) k3 (by omega)]
    rw [show Flat.runRows ((A.ft ++ A.pt).map TlInstr.asRec) fuel _ F0 = some F from g1]
    rfl
  intro x f c e hx hl hkids hse
  have he : P.engine x = .tl := by simp [engine, hl, BNode.engine]
  have hneeds := needs_of hx (.inr ⟨he, by rw [hl]; rfl⟩)
  obtain ⟨j1, r, j2, j3⟩ := T.entry hr hm hneeds
  have hform : r = ⟨q c, f, q x, some .subformula, some .direct, some .ret⟩ ∧ P.Varies c := by
    have := atom_not_tl hr he
    cases j3 <;> simp_all
  obtain ⟨rfl, hv⟩ := hform
  have hout : (F.out.filter fun y => y.1 = f).map (·.2) = m.reports f := by
    unfold Mon.reports
    rw [g2.out]
  have hVc : ∀ t, V (q x) t ↔ sat (fun t a => Cli.heldSignal (Cli.times 0 rows) t a = true) e t := by
    intro t
    rw [hV (q x) _ j2 trivial t]
    have := T.sat hr hcov hm hV hse (Table.needsKid hcov hx he (by rw [hkids]; simp)) t
    rw [val_varies hv] at this
    simp only [TlRec.holds, argOf]
    exact this
  obtain ⟨hA, hL, hE⟩ := C72_verdicts_partial _ ev _ V hV _ hsays fuel m hm' (q x) _ j2 trivial rfl
  have htgt : P.tgt x = c := by simp [tgt, hl, hkids]
  rw [hend] at hL hE
  rw [hout]
  refine ⟨?_, ?_, ?_⟩
  · have hfun : V (q x) = sat (fun t a => Cli.heldSignal (Cli.times 0 rows) t a = true) e := funext fun t => propext (hVc t)
    rw [← hfun]
    exact hA
  · intro s hs'
    apply hL
    show s + (lag (P.tgt (nodeAt d (q x)))).toNat < _
    rw [j1, htgt]
    exact hs'
  · intro v hv'
    have := hE v hv'
    simp only [setupOf, j1, htgt] at this
    exact this

/-- With as many extra slots as the largest worst-case delay no queue overflows, however far apart the rows are. -/
theorem C72_enough_slots (P : BProg) (k : Int) (h0 : 0 ≤ k) (lag : Nat → Int) (hk : ∀ x, lag x ≤ k)
    (hfut : ∀ x, P.Live x → ¬ P.Past x)
    (hF : ∀ x o lb ub c cs, P.Live x → P.heap.lab x = .temp o lb ub → P.heap.kids x = c :: cs → (P.heap.lab c).isBoolConst = true) :
    P.EventReady (fun _ => 0) lag k := by
  refine ⟨hfut, hF, fun x c hx _ _ => .inr fun d _ => ?_, fun _ _ => Int.le_refl _, fun x c hx _ _ _ => ?_⟩
  · have := hk d
    unfold slots
    omega
  · have := hfut x hx
    show (0 : Int) ≤ 0 + P.soonBy x
    unfold soonBy
    split
    · omega
    · omega
    · rename_i lb ub hl; exact absurd ⟨_, _, .inl hl⟩ this
    · rename_i lb ub hl; exact absurd ⟨_, _, .inr hl⟩ this
    · omega

/-- `a <-> ((F[1,2] a) <-> b)` -/
def evProg : BProg where
  heap := ⟨fun | 1 => .formula 0 | 2 => .op .iff true | 3 => .signal true 0 | 4 => .op .iff true | 5 => .temp .U 1 2
               | 6 => .bool true | 7 => .signal true 1 | _ => .specSet,
    fun | 0 => [1] | 1 => [2] | 2 => [3, 4] | 4 => [5, 7] | 5 => [6, 3] | _ => [],
    fun | 1 => [0] | 2 => [1] | 3 => [2, 5] | 4 => [2] | 5 => [4] | 6 => [5] | 7 => [4] | _ => []⟩
  bpd := fun | 5 => 1 | _ => 0
  wpd := fun | 2 => 2 | 4 => 2 | 5 => 2 | _ => 0
  ft := 0
  pt := 9
  bz := false
  atomicId := fun | 3 => some 0 | 7 => some 1 | _ => none

theorem evProg_ready : evProg.Ready where
  acyclic
    | 0 => ⟨_, 7, rfl⟩ | 1 => ⟨_, 6, rfl⟩ | 2 => ⟨_, 5, rfl⟩ | 3 => ⟨_, 1, rfl⟩ | 4 => ⟨_, 4, rfl⟩
    | 5 => ⟨_, 3, rfl⟩ | 6 => ⟨_, 1, rfl⟩ | 7 => ⟨_, 1, rfl⟩ | 8 => ⟨_, 1, rfl⟩ | 9 => ⟨_, 1, rfl⟩
    | _ + 10 => ⟨_, 1, rfl⟩
  ftSet := rfl
  ptSet := rfl
  arity := by
    intro x _ o t
    rcases x with _|_|_|_|_|_|_|_|_|_|x <;> simp [evProg] <;> (try (intro h1 h2; subst h1 h2; simp [OpK.isLogical]))
  atomsBz := by simp [evProg]
  atomsNo := by
    intro _ x
    rcases x with _|_|_|_|_|_|_|_|_|_|x <;> simp [evProg]

theorem evProg_separate : evProg.Separate := by
  intro x h1 h2
  have a := reachable_mem (S := [0, 1, 2, 3, 4, 5, 6, 7]) (by decide) (by decide) h1
  have b := reachable_mem (S := [9]) (by decide) (by decide) h2
  simp at a b
  omega

theorem evProg_covered : evProg.Covered := by
  rintro p c -
  rcases p with _|_|_|_|_|_|_|_|_|_|p <;>
    simp [evProg, BProg.engine, BNode.engine, OpK.isLogical] <;>
    (intro h; first | (rcases h with rfl | rfl <;> simp [BNode.isBoolConst]) | (subst h; simp [BNode.isBoolConst]))

theorem evProg_monitorable : evProg.Monitorable evProg.bpd (fun _ => 0) evProg.wpd 2 where
  supported := by
    intro x _
    unfold BProg.Supported
    rcases x with _|_|_|_|_|_|_|_|_|_|x <;>
      simp [evProg, BProg.engine, BNode.engine, OpK.isLogical, Varies, BNode.isBoolConst]
  top := by
    intro x c _
    rcases x with _|_|_|_|_|_|_|_|_|_|x <;> simp [evProg, BProg.engine, BNode.engine, OpK.isLogical] <;>
      (intro h; first | (rcases h with rfl | rfl <;> simp [BNode.isFormula]) | (subst h; simp [BNode.isFormula]))
  numbers := by
    intro x y n _ _
    rcases x with _|_|_|_|_|_|_|_|_|_|x <;> simp [evProg] <;> rintro rfl <;>
      rcases y with _|_|_|_|_|_|_|_|_|_|y <;> simp
  leaf := by
    intro x
    rcases x with _|_|_|_|_|_|_|_|_|_|x <;> simp [evProg, BNode.isBoolConst]
  soon := by
    intro x c _
    rcases x with _|_|_|_|_|_|_|_|_|_|x <;> simp [evProg, BProg.engine, BNode.engine, OpK.isLogical, BNode.isFormula, soonBy] <;>
      (intro h; first | (rcases h with rfl | rfl <;> simp) | (subst h; simp))
  late := by
    intro x c _
    rcases x with _|_|_|_|_|_|_|_|_|_|x <;> simp [evProg, BProg.engine, BNode.engine, OpK.isLogical, BNode.isFormula, lateBy] <;>
      (intro h; first | (rcases h with rfl | rfl <;> simp) | (subst h; simp))
  calm := by
    intro x _; left
    rcases x with _|_|_|_|_|_|_|_|_|_|x <;> simp [evProg]
  consts := by
    intro x b c _ _ _ _ _ _
    rcases c with _|_|_|_|_|_|_|_|_|_|c <;> simp [evProg]
  room := fun x c _ _ _ => C55_enough_slots _ _ _ _ _ _ _ (by simp) (by
    intro d _
    rcases d with _|_|_|_|_|_|_|_|_|_|d <;> simp [evProg])

theorem evProg_live {x : Nat} (h : evProg.Live x) : x ∈ [0, 1, 2, 3, 4, 5, 6, 7, 9] := by
  rcases h with h | h
  · have := reachable_mem (S := [0, 1, 2, 3, 4, 5, 6, 7]) (by decide) (by decide) h; simp at this ⊢; omega
  · have := reachable_mem (S := [9]) (by decide) (by decide) h; simp at this ⊢; omega

theorem evProg_eventReady : evProg.EventReady (fun _ => 0) evProg.wpd 2 := by
  refine C72_enough_slots _ _ (by omega) _ ?_ ?_ ?_
  · intro x
    rcases x with _|_|_|_|_|_|_|_|_|_|x <;> simp [evProg]
  · rintro x - ⟨lb, ub, h⟩
    rcases x with _|_|_|_|_|_|_|_|_|_|x <;> simp [evProg] at h
  · intro x o lb ub c cs _ h hk
    rcases x with _|_|_|_|_|_|_|_|_|_|x <;> simp [evProg] at h hk
    obtain ⟨rfl, _⟩ := hk
    rfl

def evAsm : Assembly where
  bz := []
  ft := [⟨0, .load, .atomic, 0, .none, 0⟩, ⟨1, .until, .direct, 1, .subformula, 0⟩, ⟨2, .load, .atomic, 1, .none, 0⟩,
    ⟨3, .equiv, .subformula, 1, .subformula, 2⟩, ⟨4, .equiv, .subformula, 0, .subformula, 3⟩, ⟨5, .ret, .subformula, 4, .direct, 0⟩]
  pt := []
  cg := [⟨false, ⟨0, .config, .atomic, 5, .none, 0⟩⟩, ⟨false, ⟨1, .config, .atomic, 3, .atomic, 0⟩⟩,
    ⟨false, ⟨2, .config, .atomic, 5, .none, 0⟩⟩, ⟨false, ⟨3, .config, .atomic, 3, .none, 0⟩⟩,
    ⟨false, ⟨4, .config, .atomic, 3, .none, 0⟩⟩, ⟨false, ⟨5, .config, .atomic, 3, .none, 0⟩⟩,
    ⟨true, ⟨1, .config, .subformula, 1, .subformula, 2⟩⟩]

/-- The values of two signals with their times, as texts. -/
def timedBits (rows : List (Option Nat × Bool × Bool)) : List (Option Nat × List (List Char)) :=
  rows.map fun r => (r.1, [[if r.2.1 then '1' else '0'], [if r.2.2 then '1' else '0']])

/-- All the hypotheses of C72 hold of the example and every trace of its two signals with increasing times below a million, for a buffer of 8192 characters. -/
example : ∃ bytes lim, ∃ bound, ∀ fuel, bound ≤ fuel → ∀ rows : List (Option Nat × Bool × Bool),
    ((Cli.times 0 (timedBits rows)).map (·.1)).Pairwise (· < ·) → Cli.extent (Cli.times 0 (timedBits rows)) ≤ 1000000 →
    (∀ r ∈ rows, ∀ T, r.1 = some T → T < 1000000) →
      ∃ out : List (Nat × Verdict),
        Cli.main 8192 lim fuel bytes (Cli.eventFile (some " a,b".toList) (timedBits rows)) = some (out.flatMap Cli.line) ∧
        Answers (sat (fun t a => Cli.heldSignal (Cli.times 0 (timedBits rows)) t a = true)
          (.iff (.atom 0) (.iff (.untl 1 2 (.const true) (.atom 0)) (.atom 1)))) ((out.filter fun y => y.1 = 0).map (·.2)) ∧
        ∀ s, s + 2 < Cli.extent (Cli.times 0 (timedBits rows)) → ∃ v ∈ (out.filter fun y => y.1 = 0).map (·.2), s ≤ v.time := by
  have hA : ((evProg.computeScq 100 2).bind fun s => genAssembly 100 evProg s.scq) = some evAsm := by decide +kernel
  obtain ⟨s, hs, hA⟩ := Option.bind_eq_some_iff.1 hA
  obtain ⟨bytes, _, h⟩ := C72_event_file_partial evProg evProg_ready evProg_separate evProg_covered 2 (by omega) evProg.bpd (fun _ => 0)
    evProg.wpd evProg_monitorable evProg_eventReady 100 100 s hs evAsm hA 2 [0, 1]
    (by intro x a; show _ → a < 2; rcases x with _|_|_|_|_|_|_|_|_|_|x <;> simp [evProg] <;> omega)
    [] (by simp [evAsm]) (by simp [evAsm, Instr.Fits, fits]) (by simp [evAsm]) (by simp [evAsm, Instr.Fits, fits])
  obtain ⟨bound, h⟩ := h 1000000 (by omega) (by intro x _; rcases x with _|_|_|_|_|_|_|_|_|_|x <;> simp [evProg])
  refine ⟨bytes, (computeBounds false 2 [0, 1] evAsm).limits, bound, fun fuel hfuel rows hord hext hT => ?_⟩
  have hev : Cli.Events 8192 2 (timedBits rows) := by
    refine ⟨?_, ?_, ?_, ?_, ?_, hord⟩
    · intro x hx; obtain ⟨r, _, rfl⟩ := List.mem_map.1 hx; rfl
    · intro x hx f hf
      obtain ⟨⟨t, a, b⟩, _, rfl⟩ := List.mem_map.1 hx
      clear hx
      simp only [List.mem_cons, List.not_mem_nil, or_false] at hf
      rcases hf with rfl | rfl
      · cases a <;> exact ⟨by simp, by simp⟩
      · cases b <;> exact ⟨by simp, by simp⟩
    · intro x hx _ f hf
      obtain ⟨⟨t, a, b⟩, _, rfl⟩ := List.mem_map.1 hx
      simp only [List.head?_cons, Option.some.injEq] at hf
      subst hf
      cases a <;> simp
    · intro x hx _
      obtain ⟨⟨t, a, b⟩, _, rfl⟩ := List.mem_map.1 hx
      exact ⟨_, rfl, by cases a <;> simp⟩
    · intro x hx
      obtain ⟨⟨t, a, b⟩, hr, rfl⟩ := List.mem_map.1 hx
      cases t with
      | none => simp [Cli.stamp, Cli.row]
      | some T =>
        have := Cli.natStr_length_le (hT _ hr T rfl)
        simp [Cli.stamp, Cli.row]
        omega
  obtain ⟨out, d1, d2⟩ := h fuel hfuel 8192 2 (some " a,b".toList) (timedBits rows) (by rintro _ ⟨⟩; exact ⟨by decide, by decide⟩)
    hev (by decide) hext
  have := d2 1 0 2 (.iff (.atom 0) (.iff (.untl 1 2 (.const true) (.atom 0)) (.atom 1)))
    (.inl (.kid (p := 0) (.root (by simp [evProg])) (by decide))) rfl rfl
    (.iff rfl rfl (.atom rfl) (.iff rfl rfl (.untl rfl rfl (.const rfl) (.atom rfl)) (.atom rfl)))
  exact ⟨out, d1, this.1, this.2.1⟩

/-! ### Queue sizes as the compiler computes them are not enough -/

/-- `x <-> ((F[1,2] x) <-> y)` -/
def evHeap : Heap Lab where
  lab
    | 1 => .formula "a" 0 | 2 => .op .iff | 3 => .op .iff | 4 => .tmp .F 1 2 | 6 => .name "x" | 7 => .name "y" | _ => .specSet
  kids
    | 0 => [1] | 1 => [2] | 2 => [6, 3] | 3 => [4, 7] | 4 => [6] | _ => []
  pars
    | 1 => [0] | 2 => [1] | 3 => [2] | 4 => [3] | 6 => [2, 4] | 7 => [3] | _ => []

/-- `x` and `y` are the inputs 0 and 1; node 9 is the `true U[1,2] x` the compiler makes of `F[1,2] x`; no extra slots. -/
def evBack : BackEnd :=
  ⟨fun _ => false, fun n => if n = 9 then 1 else 0, fun n => if n ≤ 4 ∨ n = 9 then 2 else 0, fun s => if s = "x" then 0 else 1, fun _ => 0, 2, 0, []⟩

/-- What the command line tool prints for the compiled formula and a trace file. -/
def evRun (trace : String) : Option (List Char) :=
  (compileBinary ⟨false, false, false⟩ evBack 60 0 5 (evHeap, 8)).bind fun r => Cli.main 8192 r.2.limits 60 r.1 trace.toList

/-- C72 fails with the queue sizes the compiler computes: the same trace with a row for each time step, and with one event row for the last three.  The formula is
true at time 1, as the first run says; the second run says it is false. -/
theorem C72_event_rows_fails : evRun "1,1\n0,1\n0,0\n0,0\n0,0\n" = some "0:0,F\n0:1,T\n0:2,F\n".toList ∧
    evRun "1,1\n0,1\n@4 0,0\n" = some "0:0,F\n0:2,F\n".toList := by
  constructor <;> decide +kernel

end R2U2
