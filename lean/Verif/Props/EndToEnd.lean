import Verif.Lemmas.EndToEnd
import Verif.Props.Arena
import Verif.Props.Monitor
import Verif.Props.Binary
/-
C55: compiling, encoding, loading, configuring and running together.
-/
namespace R2U2
open BProg

/-- C55 for programs of future-time operators, once and historically: the instructions the compiler writes for the graph, encoded as bytes, loaded and
configured by the monitor, answer every formula with its MLTL value, without ever touching memory outside
the generated bounds (`Flat.start` and `Flat.run` are `none` on any access out of bounds), with every time step
ending, within the worst-case delays, for example those recorded in the graph.  Missing: the general since and trigger (`C45_since_fails`, `C45_trigger_fails`),
extended operators
(which the compiler removes beforehand), constants that decide an operator (`C45_constants_fail`), queue sizes at which
verdicts are lost (`C45_sizes_fail`, `C45_past_sizes_fail`; `C55_enough_slots` gives slot numbers at which none is), and times
near `2 ^ 31`. -/
theorem C55_end_to_end_partial (P : BProg) (hr : P.Ready) (hsep : P.Separate) (hcov : P.Covered)
    (k : Int) (hk : 0 ≤ k) (ahead turn lag : Nat → Int) (hm : P.Monitorable ahead turn lag k)
    (fuel fuel' : Nat) (s : ScqState) (hs : P.computeScq fuel k = some s) (A : Assembly)
    (h : genAssembly fuel' P s.scq = some A) (signals : Nat) (ids : List Nat)
    (hid : ∀ x a, P.atomicId x = some a → a < (computeBounds P.bz signals ids A).maxAtomics)
    (aux : List Nat) (hb : ∀ i ∈ A.bz, (Instr.bz i).Fits) (hf : ∀ i ∈ A.ft, (Instr.tl i).Fits)
    (hp : ∀ i ∈ A.pt, (Instr.tl i).Fits) (hc : ∀ i ∈ A.cg, (Instr.cg i).Fits) :
    ∃ bytes es stop F0 bound, assembleBytes A.instrs aux = some bytes ∧
      (∀ fuel, A.instrs.length < fuel → loadBinary fuel bytes = some (es, stop)) ∧
      Flat.start (computeBounds P.bz signals ids A).limits (LoadEv.configs es) (LoadEv.tlTable es) = some F0 ∧
      ∀ fuel, bound ≤ fuel → ∀ (tr : Nat → Nat → Bool) (n : Nat), n < 2 ^ 31 → (∀ x, P.Live x → (n : Int) < 2 ^ 31 + ahead x) →
        ∃ F, F0.run (LoadEv.tlTable es) fuel tr n = some F ∧
          ∀ x f c e, P.Live x → P.heap.lab x = .formula f → P.heap.kids x = [c] → P.Says c e →
            Answers (sat (fun t a => tr t a = true) e) (F.reports f) ∧
            (∀ s, s + (lag c).toNat < n → ∃ v ∈ F.reports f, s ≤ v.time) ∧
            (∀ v ∈ F.reports f, (v.time : Int) + ahead c < n) := by
  obtain ⟨q, d, T⟩ := table P hr hsep hcov fuel' s.scq A h
  have hlen : ∀ x, P.NeedsTl P.ft x ∨ P.NeedsTl P.pt x → ∃ n, P.scqSize k x = some n ∧ queueLen s.scq x = n ∧ 1 ≤ n :=
    fun x hx => queue_pos hr hk hs hx
  have hreads := (C22_operands P hr hsep fuel' s.scq A h).2
  obtain ⟨tb, F0, h1, h2, h3, h4⟩ := T.start hreads (by
    intro e he
    obtain ⟨n, _, h5, h6⟩ := hlen e.1 ((T.needs e.1).1 (List.mem_map.2 ⟨e, he, rfl⟩))
    omega) P.bz signals ids (fun e _ a ha => hid e.1 a ha)
  have ok : (P.setupOf ahead turn lag s.scq A d).Ok := setup_ok T hr hcov hk hm tb.mem hreads hlen
  obtain ⟨bytes, es, stop, e1, e2, e3, e4, _⟩ := C25_tables_partial A aux hb hf hp hc
  have all : ∀ i, i < (P.setupOf ahead turn lag s.scq A d).prog.length → (P.setupOf ahead turn lag s.scq A d).own i := fun _ _ => trivial
  obtain ⟨bound, hbound⟩ := C45_ends_partial _ ok all
  rw [← List.map_append] at e3
  refine ⟨bytes, es, stop, F0, bound, e1, e2, by rw [e3, e4]; exact h1, ?_⟩
  intro fuel hfuel tr n hn hah
  rw [e3]
  obtain ⟨m, hm'⟩ := hbound fuel hfuel tr n
  have tb' : InTable (P.setupOf ahead turn lag s.scq A d).prog F0.lim := by rw [h2]; exact tb
  obtain ⟨F, g1, _, _, g4, _⟩ := Flat.run_rel ok rfl all h3 tb' h4 (N := 2 ^ 31 - 2) (by omega) fuel n m (by omega) (by
    intro i hi
    obtain ⟨r, hri⟩ : ∃ r, (P.setupOf ahead turn lag s.scq A d).prog[i]? = some r := ⟨_, List.getElem?_eq_some_iff.2 ⟨hi, rfl⟩⟩
    obtain ⟨f1, _, f3⟩ := T.form hr hm hri
    have hlive : P.Live (P.tgt (nodeAt d i)) := by
      by_cases hf : (P.heap.lab (nodeAt d i)).isFormula = true
      · obtain ⟨n, hl⟩ : ∃ n, P.heap.lab (nodeAt d i) = .formula n := by
          cases hl : P.heap.lab (nodeAt d i) <;> rw [hl] at hf <;> simp [BNode.isFormula] at hf; exact ⟨_, rfl⟩
        obtain ⟨c', hk', ht, _⟩ := form_formula f3 (atom_not_tl hr (by simp [engine, hl, BNode.engine])) hl
        rw [ht]
        exact (NeedsTl.live f1).kid (by rw [hk']; simp)
      · rw [tgt_self (by simpa using hf)]
        exact NeedsTl.live f1
    have := hah _ hlive
    show (n : Int) ≤ ((2 ^ 31 - 2 : Nat) : Int) + 1 + ahead (P.tgt (nodeAt d i))
    omega) hm'
  refine ⟨F, g1, ?_⟩
  intro x f c e hx hl hkids hsays
  have he : P.engine x = .tl := by simp [engine, hl, BNode.engine]
  have hneeds := needs_of hx (.inr ⟨he, by rw [hl]; rfl⟩)
  obtain ⟨k1, r, k2, k3⟩ := T.entry hr hm hneeds
  have hform : r = ⟨q c, f, q x, some .subformula, some .direct, some .ret⟩ ∧ P.Varies c := by
    have := atom_not_tl hr he
    cases k3 <;> simp_all
  obtain ⟨rfl, hv⟩ := hform
  obtain ⟨V, hV⟩ := exists_means ok tr
  have hout : F.reports f = m.reports f := by
    unfold Flat.reports Mon.reports
    rw [g4.out]
  have hVc : ∀ t, V (q x) t ↔ sat (fun t a => tr t a = true) e t := by
    intro t
    rw [hV (q x) _ k2 trivial t]
    have := T.sat hr hcov hm hV hsays (Table.needsKid hcov hx he (by rw [hkids]; simp)) t
    rw [val_varies hv] at this
    simp only [TlRec.holds, argOf]
    exact this
  have hA := C45_verdicts_partial _ ok tr V hV fuel n m hm' (q x) _ k2 trivial rfl
  have hL := C46_verdicts_partial _ ok tr V hV fuel n m hm' (q x) _ k2 trivial rfl
  have htgt : P.tgt x = c := by simp [tgt, hl, hkids]
  rw [hout]
  refine ⟨?_, ?_, ?_⟩
  · have hfun : V (q x) = sat (fun t a => tr t a = true) e := funext fun t => propext (hVc t)
    rw [← hfun]
    exact hA
  · intro s hs'
    apply hL.1
    show s + (lag (P.tgt (nodeAt d (q x)))).toNat < n
    rw [k1, htgt]
    exact hs'
  · intro v hv'
    have := hL.2 v hv'
    simp only [setupOf, k1, htgt] at this
    exact this

/-- With at least as many extra slots as a value can be needed after it is known no queue overflows: the largest worst-case
delay, and for past-time operators how far ahead of time their changes are known. -/
theorem C55_enough_slots (P : BProg) (ahead turn lag : Nat → Int) (k : Int) (x c : Nat) (h0 : 0 ≤ k + turn c)
    (hk : ∀ d ∈ P.heap.kids x, lag d ≤ k + turn c) : P.NoBurst ahead turn lag k x c := by
  right; left
  intro d hd
  have := hk d hd
  unfold slots
  omega

/-- In particular, for future-time programs: as many as the largest worst-case delay. -/
theorem C55_enough_slots_future (P : BProg) (k : Int) (hk0 : 0 ≤ k) (hk : ∀ x, P.wpd x ≤ k) (hbp : ∀ x, 0 ≤ P.bpd x) (x c : Nat) :
    P.NoBurst P.bpd P.bpd P.wpd k x c := by
  have := hbp c
  exact C55_enough_slots P _ _ _ k x c (by omega) (fun d _ => by have := hk d; omega)

/-- `a U[1,3] (b & !a)` and `(a U[1,3] (b & !a)) & b`, sharing the common subformula. -/
def e2eProg : BProg where
  heap := ⟨fun | 1 => .formula 0 | 2 => .temp .U 1 3 | 3 => .signal true 0 | 4 => .op .and true | 5 => .signal true 1
               | 6 => .op .neg true | 7 => .formula 1 | 8 => .op .and true | _ => .specSet,
    fun | 0 => [1, 7] | 1 => [2] | 2 => [3, 4] | 4 => [5, 6] | 6 => [3] | 7 => [8] | 8 => [2, 5] | _ => [],
    fun | 1 => [0] | 2 => [1, 8] | 3 => [2, 6] | 4 => [2] | 5 => [4, 8] | 6 => [4] | 7 => [0] | 8 => [7] | _ => []⟩
  bpd := fun | 2 => 1 | _ => 0
  wpd := fun | 2 => 3 | 8 => 3 | _ => 0
  ft := 0
  pt := 9
  bz := false
  atomicId := fun | 3 => some 0 | 5 => some 1 | _ => none

theorem e2eProg_ready : e2eProg.Ready where
  acyclic
    | 0 => ⟨_, 7, rfl⟩ | 1 => ⟨_, 6, rfl⟩ | 2 => ⟨_, 5, rfl⟩ | 3 => ⟨_, 1, rfl⟩ | 4 => ⟨_, 4, rfl⟩
    | 5 => ⟨_, 1, rfl⟩ | 6 => ⟨_, 3, rfl⟩ | 7 => ⟨_, 7, rfl⟩ | 8 => ⟨_, 6, rfl⟩ | 9 => ⟨_, 1, rfl⟩
    | _ + 10 => ⟨_, 1, rfl⟩
  ftSet := rfl
  ptSet := rfl
  arity := by
    intro x _ o t
    rcases x with _|_|_|_|_|_|_|_|_|_|x <;> simp [e2eProg] <;> (try (intro h1 h2; subst h1 h2; simp [OpK.isLogical]))
  atomsBz := by simp [e2eProg]
  atomsNo := by
    intro _ x
    rcases x with _|_|_|_|_|_|_|_|_|_|x <;> simp [e2eProg]

theorem e2eProg_reach {x : Nat} (h : e2eProg.heap.Reachable [0] x) : x ∈ [0, 1, 2, 3, 4, 5, 6, 7, 8] :=
  reachable_mem (by decide) (by decide) h

theorem e2eProg_separate : e2eProg.Separate := by
  intro x h1 h2
  have a := e2eProg_reach h1
  have b := reachable_mem (S := [9]) (by decide) (by decide) h2
  simp at a b
  omega

theorem e2eProg_covered : e2eProg.Covered := by
  rintro p c -
  rcases p with _|_|_|_|_|_|_|_|_|_|p <;>
    simp [e2eProg, BProg.engine, BNode.engine, OpK.isLogical] <;>
    (intro h; first | (rcases h with rfl | rfl <;> simp [BNode.isBoolConst]) | (subst h; simp [BNode.isBoolConst]))

theorem e2eProg_live {x : Nat} (h : e2eProg.Live x) : x ∈ [0, 1, 2, 3, 4, 5, 6, 7, 8, 9] := by
  rcases h with h | h
  · have := e2eProg_reach h; simp at this ⊢; omega
  · have := reachable_mem (S := [9]) (by decide) (by decide) h; simp at this ⊢; omega

theorem e2eProg_monitorable : e2eProg.Monitorable e2eProg.bpd e2eProg.bpd e2eProg.wpd 0 where
  supported := by
    intro x _
    unfold BProg.Supported
    rcases x with _|_|_|_|_|_|_|_|_|_|x <;>
      simp [e2eProg, BProg.engine, BNode.engine, OpK.isLogical, Varies, BNode.isBoolConst]
  top := by
    intro x c _
    rcases x with _|_|_|_|_|_|_|_|_|_|x <;> simp [e2eProg, BProg.engine, BNode.engine, OpK.isLogical] <;>
      (intro h; first | (rcases h with rfl | rfl <;> simp [BNode.isFormula]) | (subst h; simp [BNode.isFormula]))
  numbers := by
    intro x y n hx hy
    have a := e2eProg_live hx
    have b := e2eProg_live hy
    simp only [List.mem_cons, List.not_mem_nil, or_false] at a b
    rcases a with rfl|rfl|rfl|rfl|rfl|rfl|rfl|rfl|rfl|rfl <;> simp [e2eProg] <;> rintro rfl <;>
      rcases b with rfl|rfl|rfl|rfl|rfl|rfl|rfl|rfl|rfl|rfl <;> simp
  leaf := by
    intro x
    rcases x with _|_|_|_|_|_|_|_|_|_|x <;> simp [e2eProg, BNode.isBoolConst]
  soon := by
    intro x c _
    rcases x with _|_|_|_|_|_|_|_|_|_|x <;> simp [e2eProg, BProg.engine, BNode.engine, OpK.isLogical, BNode.isFormula, soonBy] <;>
      (intro h; first | (rcases h with rfl | rfl <;> simp) | (subst h; simp))
  late := by
    intro x c _
    rcases x with _|_|_|_|_|_|_|_|_|_|x <;> simp [e2eProg, BProg.engine, BNode.engine, OpK.isLogical, BNode.isFormula, lateBy] <;>
      (intro h; first | (rcases h with rfl | rfl <;> simp) | (subst h; simp))
  calm := by intro x _; left; exact Int.le_refl _
  consts := by
    intro x b c _
    rcases x with _|_|_|_|_|_|_|_|_|_|x <;>
      simp [e2eProg, BProg.engine, BNode.engine, OpK.isLogical, BNode.isBoolConst] <;>
      (intro _ h; first | (rcases h with rfl | rfl <;> simp) | (subst h; simp))
  room := by
    intro x c _
    have st : e2eProg.Steady e2eProg.bpd e2eProg.wpd 2 := .exact (by rintro ⟨lb, ub, h | h⟩ <;> cases h) (by decide)
    rcases x with _|_|_|_|_|_|_|_|_|_|x <;>
      simp [e2eProg, BProg.engine, BNode.engine, OpK.isLogical, operands, BNode.isBoolConst]
    · rintro rfl; left; exact ⟨(by rintro ⟨lb, ub, h | h⟩ <;> cases h), by decide⟩
    · rintro (rfl | rfl) <;> (right; left; decide)
    · rintro (rfl | rfl) <;> (right; left; decide)
    · rintro rfl; left; exact ⟨(by rintro ⟨lb, ub, h | h⟩ <;> cases h), by decide⟩
    · rintro rfl; left; exact ⟨(by rintro ⟨lb, ub, h | h⟩ <;> cases h), by decide⟩
    · rintro (rfl | rfl)
      · right; right; exact ⟨(fun o lb ub h => by cases h), st, by decide⟩
      · right; left; decide

def e2eAsm : Assembly where
  bz := []
  ft := [⟨0, .load, .atomic, 0, .none, 0⟩, ⟨1, .load, .atomic, 1, .none, 0⟩, ⟨2, .not, .subformula, 0, .none, 0⟩,
    ⟨3, .and, .subformula, 1, .subformula, 2⟩, ⟨4, .until, .subformula, 0, .subformula, 3⟩,
    ⟨5, .ret, .subformula, 4, .direct, 0⟩, ⟨6, .and, .subformula, 4, .subformula, 1⟩, ⟨7, .ret, .subformula, 6, .direct, 1⟩]
  pt := []
  cg := [⟨false, ⟨0, .config, .atomic, 1, .none, 0⟩⟩, ⟨false, ⟨1, .config, .atomic, 4, .none, 0⟩⟩,
    ⟨false, ⟨2, .config, .atomic, 1, .none, 0⟩⟩, ⟨false, ⟨3, .config, .atomic, 1, .none, 0⟩⟩,
    ⟨false, ⟨4, .config, .atomic, 1, .atomic, 0⟩⟩, ⟨false, ⟨5, .config, .atomic, 1, .none, 0⟩⟩,
    ⟨false, ⟨6, .config, .atomic, 1, .none, 0⟩⟩, ⟨false, ⟨7, .config, .atomic, 1, .none, 0⟩⟩,
    ⟨true, ⟨4, .config, .subformula, 1, .subformula, 3⟩⟩]

/-- The example meets the hypotheses of `C55_end_to_end_partial`. -/
example : e2eProg.Ready ∧ e2eProg.Separate ∧ e2eProg.Covered ∧ e2eProg.Monitorable e2eProg.bpd e2eProg.bpd e2eProg.wpd 0 ∧
    (∃ s A, e2eProg.computeScq 100 0 = some s ∧ genAssembly 100 e2eProg s.scq = some A ∧
      (∀ x a, e2eProg.atomicId x = some a → a < (computeBounds false 2 [0, 1] A).maxAtomics) ∧
      (∀ i ∈ A.bz, (Instr.bz i).Fits) ∧ (∀ i ∈ A.ft, (Instr.tl i).Fits) ∧
      (∀ i ∈ A.pt, (Instr.tl i).Fits) ∧ (∀ i ∈ A.cg, (Instr.cg i).Fits)) ∧
    e2eProg.Live 7 ∧ e2eProg.Says 8
      (.and [.untl 1 3 (.atom 0) (.and [.atom 1, .neg (.atom 0)]), .atom 1]) := by
  refine ⟨e2eProg_ready, e2eProg_separate, e2eProg_covered, e2eProg_monitorable, ?_, ?_, ?_⟩
  · have hA : ((e2eProg.computeScq 100 0).bind fun s => genAssembly 100 e2eProg s.scq) = some e2eAsm := by decide +kernel
    rw [Option.bind_eq_some_iff] at hA
    obtain ⟨s, hs, hA⟩ := hA
    refine ⟨s, e2eAsm, hs, hA, ?_, ?_, ?_, ?_, ?_⟩
    · intro x a
      show _ → a < 2
      rcases x with _|_|_|_|_|_|_|_|_|_|x <;> simp [e2eProg] <;> omega
    all_goals simp [e2eAsm, Instr.Fits, fits]
  · exact .inl (.kid (p := 0) (.root (by simp [e2eProg])) (by decide))
  · exact .and rfl rfl (.untl rfl rfl (.atom rfl) (.and rfl rfl (.atom rfl) (.neg rfl rfl (.atom rfl)))) (.atom rfl)

/-- What the loaded monitor reports for the two formulas in nine time steps. -/
example : ((Flat.start (computeBounds false 2 [0, 1] e2eAsm).limits (e2eAsm.cg.map (·.instr.asRec)) (e2eAsm.ft.map TlInstr.asRec)).bind
    fun F => (F.run (e2eAsm.ft.map TlInstr.asRec) 40 (fun t a => if a = 0 then t ∈ [1, 2, 5] else t ∈ [0, 3, 4, 6]) 9).map
      fun F => (F.reports 0, F.reports 1)) =
    some ([⟨true, 2⟩, ⟨true, 3⟩, ⟨true, 5⟩, ⟨false, 6⟩, ⟨false, 7⟩],
      [⟨true, 0⟩, ⟨false, 2⟩, ⟨true, 3⟩, ⟨true, 4⟩, ⟨false, 5⟩, ⟨false, 6⟩, ⟨false, 7⟩, ⟨false, 8⟩]) := by decide +kernel

/-- `a U[1,3] b` in the future-time part and `O[1,3] a | !b` in the past-time part. -/
def pastProg : BProg where
  heap := ⟨fun | 1 => .formula 0 | 2 => .temp .U 1 3 | 3 => .signal true 0 | 4 => .signal true 1
               | 6 => .formula 1 | 7 => .op .or true | 8 => .temp .S 1 3 | 9 => .bool true | 10 => .signal true 0
               | 11 => .op .neg true | 12 => .signal true 1 | _ => .specSet,
    fun | 0 => [1] | 1 => [2] | 2 => [3, 4] | 5 => [6] | 6 => [7] | 7 => [8, 11] | 8 => [9, 10] | 11 => [12] | _ => [],
    fun | 1 => [0] | 2 => [1] | 3 => [2] | 4 => [2] | 6 => [5] | 7 => [6] | 8 => [7] | 9 => [8] | 10 => [8] | 11 => [7] | 12 => [11] | _ => []⟩
  bpd := fun | 2 => 1 | 7 => -1 | 8 => -1 | _ => 0
  wpd := fun | 2 => 3 | 8 => -1 | _ => 0
  ft := 0
  pt := 5
  bz := false
  atomicId := fun | 3 => some 0 | 4 => some 1 | 10 => some 0 | 12 => some 1 | _ => none

/-- `O[1,3] a` is known up to three steps ahead of time, but its changes only one. -/
def pastAhead : Nat → Int := fun | 2 => 1 | 7 => -3 | 8 => -3 | _ => 0
def pastTurn : Nat → Int := fun | 2 => 1 | 7 => -1 | 8 => -1 | _ => 0

theorem pastProg_ready : pastProg.Ready where
  acyclic
    | 0 => ⟨_, 7, rfl⟩ | 1 => ⟨_, 6, rfl⟩ | 2 => ⟨_, 5, rfl⟩ | 3 => ⟨_, 1, rfl⟩ | 4 => ⟨_, 4, rfl⟩
    | 5 => ⟨_, 8, rfl⟩ | 6 => ⟨_, 7, rfl⟩ | 7 => ⟨_, 6, rfl⟩ | 8 => ⟨_, 5, rfl⟩ | 9 => ⟨_, 1, rfl⟩
    | 10 => ⟨_, 1, rfl⟩ | 11 => ⟨_, 2, rfl⟩ | 12 => ⟨_, 1, rfl⟩ | _ + 13 => ⟨_, 1, rfl⟩
  ftSet := rfl
  ptSet := rfl
  arity := by
    intro x _ o t
    rcases x with _|_|_|_|_|_|_|_|_|_|_|_|_|x <;> simp [pastProg] <;> (try (intro h1 h2; subst h1 h2; simp [OpK.isLogical]))
  atomsBz := by simp [pastProg]
  atomsNo := by
    intro _ x
    rcases x with _|_|_|_|_|_|_|_|_|_|_|_|_|x <;> simp [pastProg]

theorem pastProg_live {x : Nat} (h : pastProg.Live x) : x ∈ List.range 13 := by
  rcases h with h | h
  · have := reachable_mem (S := [0, 1, 2, 3, 4]) (by decide) (by decide) h; simp at this ⊢; omega
  · have := reachable_mem (S := [5, 6, 7, 8, 9, 10, 11, 12]) (by decide) (by decide) h; simp at this ⊢; omega

theorem pastProg_separate : pastProg.Separate := by
  intro x h1 h2
  have a := reachable_mem (S := [0, 1, 2, 3, 4]) (by decide) (by decide) h1
  have b := reachable_mem (S := [5, 6, 7, 8, 9, 10, 11, 12]) (by decide) (by decide) h2
  simp at a b
  omega

theorem pastProg_covered : pastProg.Covered := by
  rintro p c -
  rcases p with _|_|_|_|_|_|_|_|_|_|_|_|_|p <;>
    simp [pastProg, BProg.engine, BNode.engine, OpK.isLogical] <;>
    (intro h; first | (rcases h with rfl | rfl <;> simp [BNode.isBoolConst]) | (subst h; simp [BNode.isBoolConst]))

set_option maxHeartbeats 1000000 in
theorem pastProg_monitorable : pastProg.Monitorable pastAhead pastTurn pastProg.wpd 0 where
  supported := by
    intro x _
    unfold BProg.Supported
    rcases x with _|_|_|_|_|_|_|_|_|_|_|_|_|x <;>
      simp [pastProg, BProg.engine, BNode.engine, OpK.isLogical, Varies, BNode.isBoolConst]
  top := by
    intro x c _
    rcases x with _|_|_|_|_|_|_|_|_|_|_|_|_|x <;> simp [pastProg, BProg.engine, BNode.engine, OpK.isLogical] <;>
      (intro h; first | (rcases h with rfl | rfl <;> simp [BNode.isFormula]) | (subst h; simp [BNode.isFormula]))
  numbers := by
    intro x y n _ _
    rcases x with _|_|_|_|_|_|_|_|_|_|_|_|_|x <;> simp [pastProg] <;> rintro rfl <;>
      rcases y with _|_|_|_|_|_|_|_|_|_|_|_|_|y <;> simp
  leaf := by
    intro x
    rcases x with _|_|_|_|_|_|_|_|_|_|_|_|_|x <;> simp [pastProg, BNode.isBoolConst, pastAhead]
  soon := by
    intro x c _
    rcases x with _|_|_|_|_|_|_|_|_|_|_|_|_|x <;> simp [pastProg, BProg.engine, BNode.engine, OpK.isLogical, BNode.isFormula, soonBy] <;>
      (intro h; first | (rcases h with rfl | rfl <;> decide) | (subst h; decide))
  late := by
    intro x c _
    rcases x with _|_|_|_|_|_|_|_|_|_|_|_|_|x <;> simp [pastProg, BProg.engine, BNode.engine, OpK.isLogical, BNode.isFormula, lateBy] <;>
      (intro h; first | (rcases h with rfl | rfl <;> simp) | (subst h; simp))
  calm := by
    intro x hx
    have := pastProg_live hx
    simp at this
    by_cases h : x = 7 ∨ x = 8
    · rcases h with rfl | rfl
      · right; left; exact ⟨rfl, fun o lb ub h => (by cases h), by decide⟩
      · right; right; exact ⟨1, 3, .inl rfl, by decide⟩
    · left
      rcases x with _|_|_|_|_|_|_|_|_|x <;> first | decide | (exact Int.le_refl _) | (exact absurd h (by simp))
  consts := by
    intro x b c _
    rcases x with _|_|_|_|_|_|_|_|_|_|_|_|_|x <;>
      simp [pastProg, BProg.engine, BNode.engine, OpK.isLogical, BNode.isBoolConst]
    case succ.succ.succ.succ.succ.succ.succ.succ.zero => intro h; exact absurd ⟨1, 3, .inl rfl⟩ h
    all_goals (intro _ h; first | (rcases h with rfl | rfl <;> simp) | (subst h; simp))
  room := by
    intro x c _
    rcases x with _|_|_|_|_|_|_|_|_|_|_|_|_|x <;>
      simp [pastProg, BProg.engine, BNode.engine, OpK.isLogical, operands, BNode.isBoolConst]
    · rintro rfl; left; exact ⟨(by rintro ⟨lb, ub, h | h⟩ <;> cases h), by decide⟩
    · rintro (rfl | rfl) <;> (right; left; decide)
    · rintro rfl; left; exact ⟨(by rintro ⟨lb, ub, h | h⟩ <;> cases h), by decide⟩
    · rintro (rfl | rfl) <;> (right; left; decide)
    · rintro rfl; right; left; decide
    · rintro rfl; left; exact ⟨(by rintro ⟨lb, ub, h | h⟩ <;> cases h), by decide⟩

def pastAsm : Assembly where
  bz := []
  ft := [⟨0, .load, .atomic, 0, .none, 0⟩, ⟨1, .load, .atomic, 1, .none, 0⟩, ⟨2, .until, .subformula, 0, .subformula, 1⟩,
    ⟨3, .ret, .subformula, 2, .direct, 0⟩]
  pt := [⟨4, .load, .atomic, 0, .none, 0⟩, ⟨5, .since, .direct, 1, .subformula, 4⟩, ⟨6, .load, .atomic, 1, .none, 0⟩,
    ⟨7, .not, .subformula, 6, .none, 0⟩, ⟨8, .or, .subformula, 5, .subformula, 7⟩, ⟨9, .ret, .subformula, 8, .direct, 1⟩]
  cg := [⟨false, ⟨0, .config, .atomic, 1, .none, 0⟩⟩, ⟨false, ⟨1, .config, .atomic, 1, .none, 0⟩⟩,
    ⟨false, ⟨2, .config, .atomic, 1, .atomic, 0⟩⟩, ⟨false, ⟨3, .config, .atomic, 1, .none, 0⟩⟩,
    ⟨false, ⟨4, .config, .atomic, 1, .none, 0⟩⟩, ⟨false, ⟨5, .config, .atomic, 2, .atomic, 0⟩⟩,
    ⟨false, ⟨6, .config, .atomic, 1, .none, 0⟩⟩, ⟨false, ⟨7, .config, .atomic, 1, .none, 0⟩⟩,
    ⟨false, ⟨8, .config, .atomic, 2, .none, 0⟩⟩, ⟨false, ⟨9, .config, .atomic, 1, .none, 0⟩⟩,
    ⟨true, ⟨2, .config, .subformula, 1, .subformula, 3⟩⟩, ⟨true, ⟨5, .config, .subformula, 1, .subformula, 3⟩⟩]

/-- The second example meets the hypotheses of `C55_end_to_end_partial`, for two thousand million time steps. -/
example : pastProg.Ready ∧ pastProg.Separate ∧ pastProg.Covered ∧ 
    pastProg.Monitorable pastAhead pastTurn pastProg.wpd 0 ∧
    (∃ s A, pastProg.computeScq 100 0 = some s ∧ genAssembly 100 pastProg s.scq = some A ∧
      (∀ x a, pastProg.atomicId x = some a → a < (computeBounds false 2 [0, 1] A).maxAtomics) ∧
      (∀ i ∈ A.bz, (Instr.bz i).Fits) ∧ (∀ i ∈ A.ft, (Instr.tl i).Fits) ∧
      (∀ i ∈ A.pt, (Instr.tl i).Fits) ∧ (∀ i ∈ A.cg, (Instr.cg i).Fits)) ∧
    (∀ x, pastProg.Live x → (2000000000 : Int) < 2 ^ 31 + pastAhead x) ∧
    pastProg.Live 6 ∧ pastProg.Says 7 (.or [.since 1 3 (.const true) (.atom 0), .neg (.atom 1)]) := by
  refine ⟨pastProg_ready, pastProg_separate, pastProg_covered, pastProg_monitorable, ?_, ?_, ?_, ?_⟩
  · have hA : ((pastProg.computeScq 100 0).bind fun s => genAssembly 100 pastProg s.scq) = some pastAsm := by decide +kernel
    rw [Option.bind_eq_some_iff] at hA
    obtain ⟨s, hs, hA⟩ := hA
    refine ⟨s, pastAsm, hs, hA, ?_, ?_, ?_, ?_, ?_⟩
    · intro x a
      show _ → a < 2
      rcases x with _|_|_|_|_|_|_|_|_|_|_|_|_|x <;> simp [pastProg] <;> omega
    all_goals simp [pastAsm, Instr.Fits, fits]
  · intro x _
    rcases x with _|_|_|_|_|_|_|_|_|x <;> simp [pastAhead]
  · exact .inr (.kid (p := 5) (.root (by simp [pastProg])) (by decide))
  · exact .or rfl rfl (.since rfl rfl (.const rfl) (.atom rfl)) (.neg rfl rfl (.atom rfl))

/-- What the loaded monitor reports for its two formulas in ten time steps. -/
example : ((Flat.start (computeBounds false 2 [0, 1] pastAsm).limits (pastAsm.cg.map (·.instr.asRec))
      ((pastAsm.ft ++ pastAsm.pt).map TlInstr.asRec)).bind
    fun F => (F.run ((pastAsm.ft ++ pastAsm.pt).map TlInstr.asRec) 40 (fun t a => if a = 0 then t ∈ [1, 2, 5] else t ∈ [0, 3, 4, 6, 7, 8, 9]) 10).map
      fun F => (F.reports 0, F.reports 1)) =
    some ([⟨true, 2⟩, ⟨true, 3⟩, ⟨true, 5⟩, ⟨true, 6⟩, ⟨true, 7⟩, ⟨true, 8⟩],
      [⟨false, 0⟩, ⟨true, 1⟩, ⟨true, 4⟩, ⟨true, 5⟩, ⟨true, 6⟩, ⟨true, 8⟩, ⟨false, 9⟩]) := by decide +kernel

end R2U2
