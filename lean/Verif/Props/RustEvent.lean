import Verif.Lemmas.RustEventTool
import Verif.Lemmas.EventRun
import Verif.Lemmas.RustStart
import Verif.Props.RustCli
import Verif.Props.Event
/-
C78.  Records with times in the trace of the command line tool of the Rust monitor.
-/
namespace R2U2
open Heap BProg

theorem Setup.Eventful.lang {S : Setup} (ev : S.Eventful) (l : Lang) : ({ S with lang := l } : Setup).Eventful := by
  obtain ⟨a1, a2, a3, a4, a5, a6⟩ := ev
  exact ⟨a1.lang l, a2, a3, a4, a5, a6⟩

/-- C78 at the level of the monitor: rows of values, each with the last time it stands for, are given to a loaded Rust monitor.  It does not panic, every step ends,
and what is read from the output buffer after each row is right on every trace with those values at all times since the row before; all
verdicts for times more than the worst-case delay before the last row are there; and none is early.

Missing: past-time operators, until and release but `F` and `G` (`C72_event_rows_fails`), rows that cover more moments than the output buffer has room
for, times near `2 ^ 32`. -/
theorem C78_rust_event_rows_partial (S : Setup) (ev : S.Eventful) (hl : S.lang = .rust) (all : ∀ i, i < S.prog.length → S.own i)
    (last : Nat) (hlast : last < 2 ^ 32) (hB : ∀ i, i < S.prog.length → (last : Int) < 2 ^ 32 + S.B i) :
    ∃ bound, ∀ (M : Rs.Monitor), Rs.Loaded S M → Rs.InTable S.prog M.lim → Rs.Placed S.prog.length M.lim M.blocks →
      ∀ d, Rs.reportsPerRow S d ≤ M.lim.outputs → ∀ fuel, bound ≤ fuel → ∀ (tr : Nat → Nat → Bool) (rows : List (Nat × (Nat → Bool))), RowsSay tr 0 rows → Rs.Gaps d 0 rows → rowsEnd 0 rows ≤ last →
      ∃ M' outs, M.runRows fuel rows = some (M', outs) ∧ outs.length = rows.length ∧
        ∀ V, S.Means tr V → ∀ (i : Nat) (r : TlRec), S.prog[i]? = some r → r.opcode = some .ret →
          Answers (V i) (Rs.reports outs.flatten r.v2) ∧
          (∀ s, s + S.W i < rowsEnd 0 rows → ∃ v ∈ Rs.reports outs.flatten r.v2, s ≤ v.time) ∧
          (∀ v ∈ Rs.reports outs.flatten r.v2, (v.time : Int) + S.B i < rowsEnd 0 rows) := by
  obtain ⟨bound, hb⟩ := C72_ends_partial S ev all last
  refine ⟨bound, fun M ld tb pl d cap fuel hf tr rows hrows hgaps hend => ?_⟩
  obtain ⟨m, hm⟩ := hb fuel hf tr rows hrows hend
  obtain ⟨V, hV⟩ := exists_means ev.ok tr
  obtain ⟨M', outs, h1, h2, h3⟩ := Rs.erows_sim ev all hV (lim := M.lim) tb cap (N := 2 ^ 32 - 2) (by unfold Rs.maxTime; omega) fuel rows 0 M _ m _ hrows hgaps (by omega)
    (fun i hi => by have := hB i hi; omega) (einit ev.ok ev.future tr V) (by
      intro q
      refine ⟨?_, Nat.zero_le _, Nat.zero_le _⟩
      intro k v hv
      simp only [Mon.init, Ctrl.init] at hv
      split at hv
      · cases hv
      · cases hv; exact Nat.zero_le _) (by
      intro T at'
      have := Rs.loaded_sim hl (M := { M with idx := 0, atoms := fun _ => false }) ⟨ld.time, ld.progress, ld.prog, ld.mem, ld.block, ld.interval⟩ tb pl rfl rfl
      exact this.congr rfl rfl rfl rfl rfl rfl this.progress rfl (by simp [Mon.init, Rs.Monitor.outputs])) hm
  refine ⟨M', outs, h1, h3, fun V hV i r hr hret => ?_⟩
  have := C72_verdicts_partial S ev tr V hV rows hrows fuel m hm i r hr (all i (List.getElem?_eq_some_iff.1 hr).1) hret
  have he : m.reports r.v2 = Rs.reports outs.flatten r.v2 := by
    unfold Mon.reports Rs.reports
    rw [h2]
    rfl
  rwa [he] at this

namespace BProg

/-- The verdicts the formulas of a program can have in a row that covers `d + 1` moments. -/
theorem reportsPerRow_sum (S : Setup) (dict : Dict TlInstr) (w : Nat → Nat) (hw : ∀ i, S.burst i = w (nodeAt dict i)) (d : Nat) :
    Rs.reportsPerRow S d = ((retNodes S.prog dict S.prog.length).map fun x => w x + d).sum := by
  unfold Rs.reportsPerRow
  generalize S.prog.length = n
  induction n with
  | zero => rfl
  | succ n ih =>
      simp only [sumTo, ih, retNodes, List.range_succ, List.filter_append, List.map_append, List.sum_append]
      congr 1
      have e : (Rs.isRet S n) = (S.prog[n]?.bind TlRec.opcode = some .ret) := rfl
      by_cases h : S.prog[n]?.bind TlRec.opcode = some .ret
      · rw [if_pos (e ▸ h)]; simp [h, hw]
      · rw [if_neg (e ▸ h)]; simp [h]

end BProg

set_option maxHeartbeats 800000 in
/-- C78 with times.  The instructions the compiler writes for a program over Boolean signals are encoded as bytes, and the command line tool of the Rust monitor
is run on the bytes and a trace of which some records have times: `@T` before the values "is the signal at `T` and since the last `@`".  It prints
verdicts, one per line; they are what the formulas mean on every trace `tr` with those values at all times since the record before; all verdicts
for times more than the worst-case delay before the last record are there; and none is early.

Partial: what C67 leaves out; no past-time operators, no until and release but `F` and `G`, and enough slots per queue (`C72_enough_slots`), more
than the compiler computes (`C72_event_rows_fails`); the times increase and are below `2 ^ 32`; the output buffer has room for the verdicts of the record that covers most
moments; no booleanizer. -/
theorem C78_rust_event_file_partial {F : Type} (P : BProg) (hr : P.Ready) (hsep : P.Separate) (hcov : P.Covered)
    (k : Int) (hk : 0 ≤ k) (ahead turn lag : Nat → Int) (hm : P.Monitorable ahead turn lag k) (hev : P.EventReady turn lag k)
    (fuel fuel' : Nat) (s : ScqState) (hs : P.computeScq fuel k = some s) (A : Assembly)
    (h : genAssembly fuel' P s.scq = some A) (hno : A.bz = []) (signals : Nat) (ids : List Nat)
    (hid : ∀ x a, P.atomicId x = some a → a < (computeBounds P.bz signals ids A).maxAtomics)
    (aux : List Nat) (haux : ∀ x ∈ aux, x < 256) (hf : ∀ i ∈ A.ft, (Instr.tl i).Fits)
    (hp : ∀ i ∈ A.pt, (Instr.tl i).Fits) (hc : ∀ i ∈ A.cg, (Instr.cg i).Fits)
    (lim : Rs.Limits) (hlim : Rs.Covers lim (computeBounds P.bz signals ids A)) (nsig : Nat) (gap : Nat)
    (hcap : ∀ l : List Nat, l.Nodup → (∀ x ∈ l, P.Live x ∧ (P.heap.lab x).isFormula = true) → (l.map fun x => P.burstAt ahead lag x + gap).sum ≤ lim.outputs)
    (ops : Rs.Ops F) (readF : List Char → Option F) :
    ∃ bytes, assembleBytes A.instrs aux = some bytes ∧ ∀ (last : Nat), last < 2 ^ 32 → (∀ x, P.Live x → (last : Int) < 2 ^ 32 + ahead x) →
      ∃ bound, ∀ fuel, bound ≤ fuel →
        ∀ (w : Nat) (rows : List (Option Nat × List (List Char))) (seen : List (Nat × (Nat → Bool))) (tr : Nat → Nat → Bool),
          0 < w → w ≤ lim.atomics → Rs.Tool.Timed w 0 rows seen → RowsSay tr 0 seen → Rs.Gaps gap 0 seen → rowsEnd 0 seen ≤ last →
          ∃ out : List (Nat × Verdict),
            Rs.Tool.run ops readF lim nsig fuel bytes (rows.map Rs.Tool.recordOf) = some (out.flatMap Rs.Tool.printed) ∧
            ∀ x f c e, P.Live x → P.heap.lab x = .formula f → P.heap.kids x = [c] → P.Says c e →
              Answers (sat (fun t a => tr t a = true) e) (Rs.reports out f) ∧
              (∀ s, s + (lag c).toNat < rowsEnd 0 seen → ∃ v ∈ Rs.reports out f, s ≤ v.time) ∧
              (∀ v ∈ Rs.reports out f, (v.time : Int) + ahead c < rowsEnd 0 seen) := by
  obtain ⟨q, d, T⟩ := table P hr hsep hcov fuel' s.scq A h
  have hlen : ∀ x, P.NeedsTl P.ft x ∨ P.NeedsTl P.pt x → ∃ n, P.scqSize k x = some n ∧ queueLen s.scq x = n ∧ 1 ≤ n :=
    fun x hx => queue_pos hr hk hs hx
  have hreads := (C22_operands P hr hsep fuel' s.scq A h).2
  have hlen1 : ∀ e ∈ d, 1 ≤ queueLen s.scq e.1 := by
    intro e he
    obtain ⟨n, _, h5, h6⟩ := hlen e.1 ((T.needs e.1).1 (List.mem_map.2 ⟨e, he, rfl⟩))
    omega
  obtain ⟨bytes, es, stop, e1, e2, e3, e4, e5⟩ := C25_tables_partial A aux (by rw [hno]; simp) hf hp hc
  rw [← List.map_append] at e3
  rw [hno] at e5
  obtain ⟨tb, _⟩ := T.start hreads hlen1 P.bz signals ids (fun e _ a ha => hid e.1 a ha)
  have ok : (P.setupOf ahead turn lag s.scq A d).Ok := setup_ok T hr hcov hk hm tb.mem hreads hlen
  have ev := setup_eventful T hr hcov hm hev ok hlen
  have evr := ev.lang .rust
  have all : ∀ i, i < ({ P.setupOf ahead turn lag s.scq A d with lang := .rust } : Setup).prog.length →
    ({ P.setupOf ahead turn lag s.scq A d with lang := .rust } : Setup).own i := fun _ _ => trivial
  have start : ∀ fl, A.instrs.length < fl → _ := fun fl hfl =>
    T.rust hreads hlen1 P.bz signals ids (fun e _ a ha => hid e.1 a ha) lim hlim ahead turn lag (e2 fl hfl) (Rs.BzRoom.none e5) e3 e4
  have tgtlive : ∀ i, i < (P.setupOf ahead turn lag s.scq A d).prog.length → P.Live (P.tgt (nodeAt d i)) := by
    intro i hi
    obtain ⟨r, hri⟩ : ∃ r, (P.setupOf ahead turn lag s.scq A d).prog[i]? = some r := ⟨_, List.getElem?_eq_some_iff.2 ⟨hi, rfl⟩⟩
    obtain ⟨f1, _, f3⟩ := T.form hr hm hri
    by_cases hf : (P.heap.lab (nodeAt d i)).isFormula = true
    · obtain ⟨n, hl⟩ : ∃ n, P.heap.lab (nodeAt d i) = .formula n := by
        cases hl : P.heap.lab (nodeAt d i) <;> rw [hl] at hf <;> simp [BNode.isFormula] at hf; exact ⟨_, rfl⟩
      obtain ⟨c', hk', ht, _⟩ := form_formula f3 (atom_not_tl hr (by simp [engine, hl, BNode.engine])) hl
      rw [ht]
      exact (NeedsTl.live f1).kid (by rw [hk']; simp)
    · rw [tgt_self (by simpa using hf)]
      exact NeedsTl.live f1
  have cap : Rs.reportsPerRow ({ P.setupOf ahead turn lag s.scq A d with lang := .rust } : Setup) gap ≤ lim.outputs := by
    rw [reportsPerRow_sum _ d (P.burstAt ahead lag) (fun i => rfl)]
    apply hcap
    · unfold retNodes
      refine List.Nodup.map_on ?_ (List.Nodup.filter _ List.nodup_range)
      intro i hi j hj hij
      rw [List.mem_filter, List.mem_range] at hi hj
      have hl : (P.setupOf ahead turn lag s.scq A d).prog.length = d.length := by
        show ((A.ft ++ A.pt).map TlInstr.asRec).length = _
        rw [List.length_map, T.length]
      have hl' : ({ P.setupOf ahead turn lag s.scq A d with lang := .rust } : Setup).prog.length = d.length := hl
      rw [hl'] at hi hj
      exact nodeAt_inj T.nodup hi.1 hj.1 hij
    · intro x hx
      unfold retNodes at hx
      rw [List.mem_map] at hx
      obtain ⟨i, hi, rfl⟩ := hx
      rw [List.mem_filter, List.mem_range, decide_eq_true_eq, Option.bind_eq_some_iff] at hi
      obtain ⟨_, r, hri, hop⟩ := hi
      obtain ⟨f1, _, f3⟩ := T.form hr hm hri
      refine ⟨NeedsTl.live f1, ?_⟩
      cases f3 with
      | ret c n h1 h2 => rw [h2]; rfl
      | _ => simp [binRec] at hop
  refine ⟨bytes, e1, fun last hlast hah => ?_⟩
  obtain ⟨bound, hbound⟩ := C78_rust_event_rows_partial _ evr rfl all last hlast (fun i hi => hah _ (tgtlive i hi))
  refine ⟨max bound (A.instrs.length + 1), fun fl hfl w rows seen tr h0 hw htimed hsays hgaps hend => ?_⟩
  obtain ⟨tb', M0, m1, m2, m3, m4⟩ := start fl (by omega)
  subst m3
  obtain ⟨V, hV⟩ := exists_means ok tr
  obtain ⟨M', outs, g1, g2, g3⟩ := hbound M0 m2 tb' m4 gap cap fl (by omega) tr seen hsays hgaps hend
  have hsmall : ∀ (seen : List (Nat × (Nat → Bool))) (e : Nat), RowsSay tr e seen → ∀ x ∈ seen, x.1 < rowsEnd e seen := by
    intro seen
    induction seen with
    | nil => intro e _ x hx; cases hx
    | cons y seen ih =>
      obtain ⟨T, a⟩ := y
      intro e hs x hx
      obtain ⟨s1, s2, s3⟩ := hs
      rcases List.mem_cons.1 hx with rfl | hx
      · have := rowsEnd_le seen (T + 1) s3
        simp only [rowsEnd]
        omega
      · exact ih _ s3 x hx
  have hsteps := Rs.Tool.steps_rows (ops := ops) (readF := readF) (lim := M0.lim.bzLimits nsig) h0 (by exact hw) (sig := fun _ => (0, ops.zero)) rows seen 0
    ⟨M0, Rs.BzMon.zero ops.zero, []⟩ M' outs htimed ⟨Rs.getMonitor_time m1, rfl⟩ rfl rfl (fun _ _ => rfl) (fun x hx => by
      have := hsmall seen 0 hsays x hx
      unfold Rs.maxTime
      omega) g1
  refine ⟨outs.flatten, ?_, ?_⟩
  · unfold Rs.Tool.run
    rw [Rs.Tool.getFull_plain (ops := ops) (Rs.assemble_small e1 haux) (e2 fl (by omega)) e5 m1, Option.bind_some, ← Rs.Tool.line_eq]
    exact Rs.Tool.loop_good hsteps
  intro x f c e hx hl hkids hse
  have he : P.engine x = .tl := by simp [engine, hl, BNode.engine]
  have hneeds := needs_of hx (.inr ⟨he, by rw [hl]; rfl⟩)
  obtain ⟨j1, r, j2, j3⟩ := T.entry hr hm hneeds
  have hform : r = ⟨q c, f, q x, some .subformula, some .direct, some .ret⟩ ∧ P.Varies c := by
    have := atom_not_tl hr he
    cases j3 <;> simp_all
  obtain ⟨rfl, hv⟩ := hform
  have hVc : ∀ t, V (q x) t ↔ sat (fun t a => tr t a = true) e t := by
    intro t
    rw [hV (q x) _ j2 trivial t]
    have := T.sat hr hcov hm hV hse (Table.needsKid hcov hx he (by rw [hkids]; simp)) t
    rw [val_varies hv] at this
    simp only [TlRec.holds, argOf]
    exact this
  obtain ⟨hA, hL, hE⟩ := g3 V hV (q x) _ j2 rfl
  have htgt : P.tgt x = c := by simp [tgt, hl, hkids]
  refine ⟨?_, ?_, ?_⟩
  · have hfun : V (q x) = sat (fun t a => tr t a = true) e := funext fun t => propext (hVc t)
    rw [← hfun]
    exact hA
  · intro s hs'
    apply hL
    show s + (lag (P.tgt (nodeAt d (q x)))).toNat < _
    rw [j1, htgt]
    exact hs'
  · intro v hv'
    have := hE v hv'
    simp only [setupOf, j1, htgt] at this
    exact this

/-- The times and values of the rows. -/
def evSeen : Nat → List (Option Nat × Bool × Bool) → List (Nat × (Nat → Bool))
  | _, [] => []
  | e, (t, a, b) :: rows => (t.getD e, fun i => if i = 0 then a else if i = 1 then b else false) :: evSeen (t.getD e + 1) rows

theorem evSeen_timed {tr : Nat → Nat → Bool} : ∀ (rows : List (Option Nat × Bool × Bool)) (e : Nat), RowsSay tr e (evSeen e rows) →
    Rs.Tool.Timed 2 e (timedBits rows) (evSeen e rows)
  | [], _, _ => trivial
  | (t, a, b) :: rows, e, h => by
      refine ⟨rfl, h.1, rfl, ?_, ?_, evSeen_timed rows _ h.2.2⟩
      · intro i f hf
        rcases i with _ | _ | i
        · simp only [List.getElem?_cons_zero, Option.some.injEq] at hf
          subst hf
          refine ⟨if a then 1 else 0, ?_, ?_, ?_, ?_⟩ <;> cases a <;> simp <;> decide
        · simp only [List.getElem?_cons_succ, List.getElem?_cons_zero, Option.some.injEq] at hf
          subst hf
          refine ⟨if b then 1 else 0, ?_, ?_, ?_, ?_⟩ <;> cases b <;> simp <;> decide
        · simp at hf
      · intro i hi
        show (if i = 0 then a else if i = 1 then b else false) = false
        rw [if_neg (by omega), if_neg (by omega)]

/-- All the hypotheses of C78 with times hold of `a <-> ((F[1,2] a) <-> b)` with two extra slots, an output buffer for 100 verdicts and every trace of its
two signals with increasing times below a million, at most 90 apart. -/
example : ∃ bytes lim, ∃ bound, ∀ fuel, bound ≤ fuel → ∀ (rows : List (Option Nat × Bool × Bool)) (tr : Nat → Nat → Bool),
    RowsSay tr 0 (evSeen 0 rows) → Rs.Gaps 90 0 (evSeen 0 rows) → rowsEnd 0 (evSeen 0 rows) ≤ 1000000 →
      ∃ out : List (Nat × Verdict),
        Rs.Tool.run rsNoFloats (fun _ => none) lim 0 fuel bytes ((timedBits rows).map Rs.Tool.recordOf) = some (out.flatMap Rs.Tool.printed) ∧
        Answers (sat (fun t a => tr t a = true) (.iff (.atom 0) (.iff (.untl 1 2 (.const true) (.atom 0)) (.atom 1)))) (Rs.reports out 0) ∧
        ∀ s, s + 2 < rowsEnd 0 (evSeen 0 rows) → ∃ v ∈ Rs.reports out 0, s ≤ v.time := by
  have hA : ((evProg.computeScq 100 2).bind fun s => genAssembly 100 evProg s.scq) = some evAsm := by decide +kernel
  obtain ⟨s, hs, hA⟩ := Option.bind_eq_some_iff.1 hA
  have hb : decide (0 ≤ (computeBounds false 2 [0, 1] evAsm).maxQueueSlots ∧ (computeBounds false 2 [0, 1] evAsm).maxQueueSlots ≤ 2 ^ 32 ∧
    (computeBounds false 2 [0, 1] evAsm).maxAtomics = 2) = true := by decide +kernel
  rw [decide_eq_true_eq] at hb
  obtain ⟨b1, b2, b3⟩ := hb
  obtain ⟨bytes, _, h⟩ := C78_rust_event_file_partial evProg evProg_ready evProg_separate evProg_covered 2 (by omega) evProg.bpd (fun _ => 0)
    evProg.wpd evProg_monitorable evProg_eventReady 100 100 s hs evAsm hA rfl 2 [0, 1]
    (by intro x a; show _ → a < 2; rcases x with _|_|_|_|_|_|_|_|_|_|x <;> simp [evProg] <;> omega)
    [] (by simp) (by simp [evAsm, Instr.Fits, fits]) (by simp [evAsm]) (by simp [evAsm, Instr.Fits, fits])
    { (computeBounds false 2 [0, 1] evAsm).rust 1 with outputs := 100 }
    ⟨Nat.le_refl _, Nat.le_refl _, by simp only [Bounds.rust]; show _ ≤ _; change ((computeBounds false 2 [0, 1] evAsm).maxQueueSlots) ≤ _; omega, by simp only [Bounds.rust]; omega⟩ 0 90 (by
      intro l hl hx
      have h1 : ∀ x ∈ l, x = 1 := by
        intro x hxl
        have := (hx x hxl).2
        rcases x with _|_|_|_|_|_|_|_|_|_|x <;> simp [evProg, BNode.isFormula] at this ⊢
      rcases l with _ | ⟨x, _ | ⟨y, l⟩⟩
      · simp
      · obtain rfl := h1 x (by simp)
        decide
      · obtain rfl := h1 x (by simp)
        obtain rfl := h1 y (by simp)
        simp at hl) rsNoFloats (fun _ => none)
  obtain ⟨bound, h⟩ := h 1000000 (by omega) (by intro x _; rcases x with _|_|_|_|_|_|_|_|_|_|x <;> simp [evProg])
  refine ⟨bytes, { (computeBounds false 2 [0, 1] evAsm).rust 1 with outputs := 100 }, bound, fun fuel hfuel rows tr hs hg he => ?_⟩
  obtain ⟨out, d1, d2⟩ := h fuel hfuel 2 (timedBits rows) (evSeen 0 rows) tr (by omega) (by simp only [Bounds.rust]; omega) (evSeen_timed rows 0 hs) hs hg he
  have := d2 1 0 2 (.iff (.atom 0) (.iff (.untl 1 2 (.const true) (.atom 0)) (.atom 1)))
    (.inl (.kid (p := 0) (.root (by simp [evProg])) (by decide))) rfl rfl
    (.iff rfl rfl (.atom rfl) (.iff rfl rfl (.untl rfl rfl (.const rfl) (.atom rfl)) (.atom rfl)))
  exact ⟨out, d1, this.1, this.2.1⟩

/-- What the Rust tool prints for the formula of `evHeap`, compiled with `slack` extra slots, with room for `outputs` verdicts. -/
def evRust (slack outputs : Nat) (rows : List (List String)) : Option (List Char) :=
  (compileBinary ⟨false, false, false⟩ { evBack with slack := slack } 60 0 5 (evHeap, 8)).bind fun r =>
    Rs.Tool.run rsNoFloats (fun _ => none) { r.2.rust 1 with outputs := outputs } 0 60 r.1 (rows.map fun l => l.map String.toList)

/-- C78 with times fails with the queue sizes the compiler computes: the same trace with a record for each time step, and with one record for the last three.
The formula is true at time 1, as the first run says; the second says that it is false. -/
theorem C78_event_rows_fails : evRust 0 10 [["1", "1"], ["0", "1"], ["0", "0"], ["0", "0"], ["0", "0"]] = some "0:0,F\n0:1,T\n0:2,F\n".toList ∧
    evRust 0 10 [["1", "1"], ["0", "1"], ["@4 0", "0"]] = some "0:0,F\n0:2,F\n".toList := by
  constructor <;> decide +kernel

/-- C78 with times fails with an output buffer of the size the compiler computes, twice the number of formulas: with a record for each time step the tool prints the
verdicts; with one record for the last five the tool panics, as three verdicts come at once.  With room for three it prints the same. -/
theorem C78_event_outputs_fails :
    evRust 2 2 [["0", "0"], ["0", "1"], ["0", "0"], ["0", "0"], ["0", "0"], ["0", "0"], ["0", "0"]] = some "0:0,F\n0:1,T\n0:2,F\n0:3,F\n0:4,F\n".toList ∧
    evRust 2 2 [["0", "0"], ["0", "1"], ["@6 0", "0"]] = none ∧
    evRust 2 3 [["0", "0"], ["0", "1"], ["@6 0", "0"]] = some "0:0,F\n0:1,T\n0:4,F\n".toList := by
  refine ⟨?_, ?_, ?_⟩ <;> decide +kernel

end R2U2
