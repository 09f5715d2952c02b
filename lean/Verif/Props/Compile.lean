import Verif.Lemmas.Compile
/-
C64: from the formulas to the verdicts of the monitor that runs the compiled binary.
-/
namespace R2U2
open Heap Expr GraphPass
variable {α : Type}

/-- C64.  A desugared program is given to the command line tool; atom `a` is the signal `nm a`.  If the tool writes
a binary, the monitor built with the bounds written with it loads it, and at every time step of every run every verdict
it reports for a specification is the verdict of the formula *the user wrote*, whatever passes the options chose;
verdicts of future-time specifications come within the number of steps the formula looks ahead, those of past-time ones at once;
and no array is accessed out of its bounds (`Flat.start` and `Flat.run` are `none` otherwise).  Types and delays
recorded in the nodes may be any.

Partial: signals are Boolean inputs (no booleanizer), no equality saturation, formulas without the constructs the
passes or the engine get wrong (`Fit`: see `C01_negated_equal_fails`, `C45_since_fails`, `C45_constants_fail`), the sets share no nodes,
signals are mapped to indices below the number of atomics the bounds allow for (`C21_atomics_fail`), and `--scq-constant` is
at least the span of the formulas (`C45_sizes_fail`). -/
theorem C64_compile_and_run_partial {nm : α → String} (hnm : Function.Injective nm) (hident : ∀ a, IsIdent (nm a))
    {o : CliOpts} {b : BackEnd} {h : Heap Lab} {n ft pt fuel : Nat} {fs ps : List (SpecOf α)}
    (hp : Program (signalAtoms nm) h n ft pt fs ps) (hx : Apart h ft pt) (hnum : ((fs ++ ps).map (·.2.1)).Nodup)
    (hfs : ∀ s ∈ fs, Fit o false s.2.2) (hps : ∀ s ∈ ps, Fit o true s.2.2)
    (hkf : ∀ s ∈ fs, span false s.2.2 ≤ b.slack) (hkp : ∀ s ∈ ps, span true s.2.2 ≤ b.slack)
    (hsid : ∀ a, 0 ≤ b.sid (nm a)) {bytes : List Nat} {bounds : Bounds}
    (hc : compileBinary o b fuel ft pt (h, n) = some (bytes, bounds)) (hat : ∀ a, b.sid (nm a) < bounds.maxAtomics) :
    ∃ es stop F0 bound, (∀ fuel, bound ≤ fuel → loadBinary fuel bytes = some (es, stop)) ∧
      Flat.start bounds.limits (LoadEv.configs es) (LoadEv.tlTable es) = some F0 ∧
      ∀ fuel, bound ≤ fuel → ∀ (inp : Nat → Nat → Bool) (T : Nat), T + b.slack < 2 ^ 31 →
        ∃ F, F0.run (LoadEv.tlTable es) fuel inp T = some F ∧
          (∀ s ∈ fs, Answers (sat (fun t a => inp t (b.sid (nm a)).toNat = true) s.2.2) (F.reports s.2.1) ∧
            ∀ t, t + span false s.2.2 < T → ∃ v ∈ F.reports s.2.1, t ≤ v.time) ∧
          (∀ s ∈ ps, Answers (sat (fun t a => inp t (b.sid (nm a)).toNat = true) s.2.2) (F.reports s.2.1) ∧
            ∀ t, t < T → ∃ v ∈ F.reports s.2.1, t ≤ v.time) := by
  simp only [compileBinary, Option.bind_eq_some_iff, Prod.exists] at hc
  obtain ⟨g, n', hc, ha⟩ := hc
  obtain ⟨fs', ps', on, hshape, _, _⟩ := compile_on (signalAtoms_plain nm) (signalAtoms_separate hnm) (signalAtoms_desugared hident) hp hx hfs hps hc
  simp only [assembleG, Option.bind_eq_some_iff, Option.map_eq_some_iff, Prod.exists, Prod.mk.injEq] at ha
  obtain ⟨hb, a, e1, sz, e2, A, e3, bytes', e4, rfl, rfl⟩ := ha
  have hac : (g.relabel (toBNode b.ty b.sid b.bits)).Acyclic := relabel_acyclic on.acyclic
  obtain ⟨rfl, i1, i2, _⟩ := C20_signals_partial _ hac ft pt n' fuel hb a e1
  have fin : ∀ {past : Bool} {as bs : List (SpecOf α)}, List.Forall₂ (Tracked past) as bs → (∀ s ∈ bs, Nowhere isExtended s.2.2 ∧ Nowhere isWide s.2.2) →
      ∀ s ∈ bs, Final past s.2.2 ∧ ¬ isConst s.2.2 := by
    intro past as bs ht hs s hm
    obtain ⟨_, _, h1⟩ := forall2_mem_left ht.flip hm
    exact ⟨⟨h1.plain, (hs s hm).1, (hs s hm).2⟩, h1.varies⟩
  have nums : ∀ {past : Bool} {as bs : List (SpecOf α)}, List.Forall₂ (Tracked past) as bs → bs.map (·.2.1) = as.map (·.2.1) := by
    intro past as bs ht
    induction ht with
    | nil => rfl
    | cons x _ ih => simp only [List.map_cons, ih, x.number]
  have L : Linked nm b g fs' ps' ⟨g.relabel (toBNode b.ty b.sid b.bits), b.bpd, b.wpd, ft, pt, false, fun x => a.ids.lookup x⟩ := {
    inj := hnm
    heap := rfl
    bz := rfl
    acyclic := on.acyclic
    future := on.future
    past := on.past
    ffin := fin on.ftrack fun s hs => hshape s (List.mem_append_left _ hs)
    pfin := fin on.ptrack fun s hs => hshape s (List.mem_append_right _ hs)
    apart := on.apart
    numbers := by rw [List.map_append, nums on.ftrack, nums on.ptrack, ← List.map_append]; exact hnum
    ids := i1
    idv := by
      intro x i c hi hl
      have hs : (g.relabel (toBNode b.ty b.sid b.bits)).lab x = .signal (b.ty x) (b.sid (nm c)) := by
        show toBNode b.ty b.sid b.bits x (g.lab x) = _
        rw [hl]; rfl
      have := i2 x i _ _ hi hs (hsid c)
      omega }
  have tspan : ∀ {past : Bool} {as bs : List (SpecOf α)}, List.Forall₂ (Tracked past) as bs → (∀ s ∈ as, span past s.2.2 ≤ b.slack) →
      ∀ s ∈ bs, span past s.2.2 ≤ b.slack := by
    intro past as bs ht hs s hm
    obtain ⟨s0, hm0, h1⟩ := forall2_mem_left ht.flip hm
    exact le_trans h1.span (hs s0 hm0)
  have hbf := tspan on.ftrack hkf
  have hbp := tspan on.ptrack hkp
  have hfits := assemble_fits e4
  have hnobz : A.bz = [] := by
    obtain ⟨_, _, _, h2, _⟩ := BProg.C53_code _ L.ready L.separate L.covered fuel sz.scq A e3
    rw [List.eq_nil_iff_forall_not_mem]
    intro i hi
    obtain ⟨x, hn, _⟩ := h2 i hi
    exact L.noCells x hn
  obtain ⟨bytes2, es, stop, F0, bound, c1, c2, c3, c4⟩ := C55_end_to_end_partial _ L.ready L.separate L.covered b.slack (Int.natCast_nonneg _) _ _ _
    (L.monitorable b.slack hbf hbp) fuel fuel sz e2 A e3 b.signals (a.ids.map (·.2)) (by
      intro x i hi
      obtain ⟨hl, t, s, hs⟩ := (L.ids x).1 ⟨i, hi⟩
      obtain ⟨c, hc⟩ := L.signal hl hs
      have h1 := L.idv x i c hi hc
      have h2 := hat c
      have h3 := hsid c
      show i < (computeBounds false b.signals (a.ids.map (·.2)) A).maxAtomics
      omega) b.aux (by rw [hnobz]; simp) hfits.1 hfits.2.1 hfits.2.2
  rw [e4] at c1
  cases c1
  refine ⟨es, stop, F0, max bound (A.instrs.length + 1), fun fl hfl => c2 fl (by omega), c3, ?_⟩
  intro fl hfl inp T hT
  obtain ⟨F, d1, d2⟩ := c4 fl (by omega) inp T (by omega) (fun x hlx => by have := L.ahead_le hbp hlx; omega)
  refine ⟨F, d1, fun s hs => ?_, fun s hs => ?_⟩
  · obtain ⟨s', hs', ht⟩ := forall2_mem_left on.ftrack hs
    obtain ⟨x, c, x1, x2, x3, x4, x5⟩ := L.spec_node (past := false) (s := s') hs'
    obtain ⟨e, y1, y2⟩ := L.says_expr s'.2.2 x4 (L.ffin s' hs').1 x5
    obtain ⟨z1, z2, _⟩ := d2 x _ c e x1 x2 x3 y1
    rw [ht.number] at z1 z2
    refine ⟨?_, fun t hlt => z2 t ?_⟩
    · have : sat (fun t a => inp t a = true) e = sat (fun t a => inp t (b.sid (nm a)).toNat = true) s.2.2 := by
        funext t
        exact propext ((y2 (fun t a => inp t a = true) t).trans (ht.equiv _ t))
      rw [← this]; exact z1
    · have h1 := ht.span
      simp only [spanAt_eq hnm x5]
      omega
  · obtain ⟨s', hs', ht⟩ := forall2_mem_left on.ptrack hs
    obtain ⟨x, c, x1, x2, x3, x4, x5⟩ := L.spec_node (past := true) (s := s') hs'
    obtain ⟨e, y1, y2⟩ := L.says_expr s'.2.2 x4 (L.pfin s' hs').1 x5
    obtain ⟨z1, z2, _⟩ := d2 x _ c e x1 x2 x3 y1
    rw [ht.number] at z1 z2
    refine ⟨?_, fun t hlt => z2 t ?_⟩
    · have : sat (fun t a => inp t a = true) e = sat (fun t a => inp t (b.sid (nm a)).toNat = true) s.2.2 := by
        funext t
        exact propext ((y2 (fun t a => inp t a = true) t).trans (ht.equiv _ t))
      rw [← this]; exact z1
    · simp only [spanAt_eq hnm x5]
      rw [show span false s'.2.2 = 0 from span_other (past := true) s'.2.2 ht.plain]
      omega


/-! ### A program that is compiled and run -/

/-- `a: G[0,2] x && F[1,3] y` and `b: !(G[0,2] x)`, which share a node, and the past-time specification `p: O[0,2] y`. -/
def crHeap : Heap Lab where
  lab
    | 1 => .formula "a" 0 | 2 => .formula "b" 1 | 3 => .op .and | 4 => .op .neg | 5 => .tmp .G 0 2 | 6 => .tmp .F 1 3 | 7 => .name "x"
    | 8 => .name "y" | 10 => .formula "p" 2 | 11 => .tmp .O 0 2 | 12 => .name "y" | _ => .specSet
  kids
    | 0 => [1, 2] | 1 => [3] | 2 => [4] | 3 => [5, 6] | 4 => [5] | 5 => [7] | 6 => [8] | 9 => [10] | 10 => [11] | 11 => [12] | _ => []
  pars
    | 1 => [0] | 2 => [0] | 3 => [1] | 4 => [2] | 5 => [3, 4] | 6 => [3] | 7 => [5] | 8 => [6] | 10 => [9] | 11 => [10] | 12 => [11] | _ => []

/-- The signals. -/
def crName (a : Bool) : String := if a then "x" else "y"

/-- Signal `x` is input 0 and `y` is input 1; three more steps in every queue. -/
def crBack : BackEnd := ⟨fun _ => false, fun _ => 0, fun _ => 0, fun s => if s = "x" then 0 else 1, fun _ => 0, 2, 3, []⟩

/-- The future-time specifications. -/
def crFs : List (SpecOf Bool) := [("a", 0, .and [.glob 0 2 (.atom true), .fut 1 3 (.atom false)]), ("b", 1, .neg (.glob 0 2 (.atom true)))]
/-- The past-time specification. -/
def crPs : List (SpecOf Bool) := [("p", 2, .once 0 2 (.atom false))]

theorem cr_nowhere {p : Expr Bool → Prop} (h1 : ¬ p (.and [.glob 0 2 (.atom true), .fut 1 3 (.atom false)])) (h2 : ¬ p (.glob 0 2 (.atom true)))
    (h3 : ¬ p (.fut 1 3 (.atom false))) (h4 : ∀ a, ¬ p (.atom a)) (h5 : ¬ p (.neg (.glob 0 2 (.atom true)))) :
    ∀ s ∈ crFs, Nowhere p s.2.2 := by
  have leaf : ∀ a, Nowhere p (.atom a) := fun a => ⟨_, h4 a, by simp [children]⟩
  have g : Nowhere p (.glob 0 2 (.atom true)) := ⟨_, h2, by simp [children, leaf]⟩
  have f : Nowhere p (.fut 1 3 (.atom false)) := ⟨_, h3, by simp [children, leaf]⟩
  intro s hs
  simp only [crFs, List.mem_cons, List.not_mem_nil, or_false] at hs
  rcases hs with rfl | rfl
  · exact ⟨_, h1, by simp [children, g, f]⟩
  · exact ⟨_, h5, by simp [children, g]⟩

theorem cr_nowhere_past {p : Expr Bool → Prop} (h1 : ¬ p (.once 0 2 (.atom false))) (h2 : ¬ p (.atom false)) : ∀ s ∈ crPs, Nowhere p s.2.2 := by
  intro s hs
  simp only [crPs, List.mem_cons, List.not_mem_nil, or_false] at hs
  subst hs
  exact ⟨_, h1, by simp only [children, List.mem_singleton]; rintro c rfl; exact ⟨_, h2, by simp [children]⟩⟩

theorem crHeap_program : Program (signalAtoms crName) crHeap 13 0 9 crFs crPs where
  below := by
    refine ⟨?_, ?_⟩
    · intro p c hc
      match p, hc with
      | 0, hc | 1, hc | 2, hc | 3, hc | 4, hc | 5, hc | 6, hc | 9, hc | 10, hc | 11, hc =>
        simp only [crHeap, List.mem_cons, List.not_mem_nil, or_false] at hc
        omega
      | 7, hc | 8, hc => simp [crHeap] at hc
      | _ + 12, hc => simp [crHeap] at hc
    · intro p hp
      match p, hp with
      | p + 13, _ => rfl
  acyclic := by
    intro x
    match x with
    | 0 | 1 | 2 | 3 | 4 | 5 | 6 | 7 | 8 | 9 | 10 | 11 | 12 => exact ⟨_, 8, rfl⟩
    | n + 13 => exact ⟨.node .specSet [], 1, rfl⟩
  parents := by
    intro p c hc
    match p, hc with
    | 0, hc | 1, hc | 2, hc | 3, hc | 4, hc | 5, hc | 6, hc | 9, hc | 10, hc | 11, hc =>
      simp only [crHeap, List.mem_cons, List.not_mem_nil, or_false] at hc
      rcases hc with rfl | rfl <;> simp [crHeap]
    | 7, hc | 8, hc => simp [crHeap] at hc
    | _ + 12, hc => simp [crHeap] at hc
  ft_lt := by decide
  pt_lt := by decide
  ne := by decide
  ft_top := rfl
  pt_top := rfl
  future := ⟨8, rfl⟩
  past := ⟨8, rfl⟩
  idents := by
    intro s hs
    simp only [crFs, crPs, List.cons_append, List.nil_append, List.mem_cons, List.not_mem_nil, or_false] at hs
    rcases hs with rfl | rfl | rfl
    · exact ident_a
    · exact ident_b
    · exact ⟨⟨'p', [], by decide, by decide, by simp⟩, by decide, by decide⟩
  labels := by simp [crFs, crPs]
  operands := by
    intro s hs
    rcases List.mem_append.1 hs with hs | hs
    · exact cr_nowhere (by simp [isEmptyOp]) (by simp [isEmptyOp]) (by simp [isEmptyOp]) (by simp [isEmptyOp]) (by simp [isEmptyOp]) s hs
    · exact cr_nowhere_past (by simp [isEmptyOp]) (by simp [isEmptyOp]) s hs

theorem crHeap_apart : Apart crHeap 0 9 := by
  intro x h1 h2
  have a1 : x ≤ 8 := by
    clear h2
    induction h1 with
    | root h => simp at h; omega
    | @kid p c _ hc ih =>
      match p, hc, ih with
      | 0, hc, _ | 1, hc, _ | 2, hc, _ | 3, hc, _ | 4, hc, _ | 5, hc, _ | 6, hc, _ =>
        simp only [crHeap, List.mem_cons, List.not_mem_nil, or_false] at hc
        omega
      | 7, hc, _ | 8, hc, _ => simp [crHeap] at hc
      | _ + 9, _, ih => omega
  have a2 : 9 ≤ x := by
    clear h1 a1
    induction h2 with
    | root h => simp at h; omega
    | @kid p c _ hc ih =>
      match p, hc, ih with
      | 9, hc, _ | 10, hc, _ | 11, hc, _ =>
        simp only [crHeap, List.mem_cons, List.not_mem_nil, or_false] at hc
        omega
      | 0, _, ih | 1, _, ih | 2, _, ih | 3, _, ih | 4, _, ih | 5, _, ih | 6, _, ih | 7, _, ih | 8, _, ih => omega
      | _ + 12, hc, _ => simp [crHeap] at hc
  omega

theorem cr_fit : (∀ s ∈ crFs, Fit ⟨true, false, true⟩ false s.2.2) ∧ ∀ s ∈ crPs, Fit ⟨true, false, true⟩ true s.2.2 := by
  refine ⟨?_, ?_⟩
  · intro s hs
    refine ⟨cr_nowhere (by simp [odd, isConst]) (by simp [odd, isConst]) (by simp [odd, isConst]) (by simp [odd]) (by simp [odd, isConst]) s hs, ?_,
      fun _ => cr_nowhere (by simp [rough]) (by simp [rough]) (by simp [rough]) (by simp [rough]) (by simp [rough]) s hs⟩
    simp only [crFs, List.mem_cons, List.not_mem_nil, or_false] at hs
    rcases hs with rfl | rfl <;> simp [isConst]
  · intro s hs
    refine ⟨cr_nowhere_past (by simp [odd, isConst]) (by simp [odd]) s hs, ?_, fun _ => cr_nowhere_past (by simp [rough]) (by simp [rough]) s hs⟩
    simp only [crPs, List.mem_cons, List.not_mem_nil, or_false] at hs
    subst hs
    simp [isConst]

/-- All the hypotheses of C64 hold of this program with rewriting and common subexpressions on, so its conclusion does. -/
example : ∃ bytes bounds, compileBinary ⟨true, false, true⟩ crBack 60 0 9 (crHeap, 13) = some (bytes, bounds) ∧
    ∃ es stop F0 bound, (∀ fuel, bound ≤ fuel → loadBinary fuel bytes = some (es, stop)) ∧
      Flat.start bounds.limits (LoadEv.configs es) (LoadEv.tlTable es) = some F0 ∧
      ∀ fuel, bound ≤ fuel → ∀ (inp : Nat → Nat → Bool) (T : Nat), T + 3 < 2 ^ 31 →
        ∃ F, F0.run (LoadEv.tlTable es) fuel inp T = some F ∧
          (∀ s ∈ crFs, Answers (sat (fun t a => inp t (crBack.sid (crName a)).toNat = true) s.2.2) (F.reports s.2.1) ∧
            ∀ t, t + span false s.2.2 < T → ∃ v ∈ F.reports s.2.1, t ≤ v.time) ∧
          (∀ s ∈ crPs, Answers (sat (fun t a => inp t (crBack.sid (crName a)).toNat = true) s.2.2) (F.reports s.2.1) ∧
            ∀ t, t < T → ∃ v ∈ F.reports s.2.1, t ≤ v.time) := by
  have hm : (compileBinary ⟨true, false, true⟩ crBack 60 0 9 (crHeap, 13)).map (fun r => r.2.maxAtomics) = some 2 := by decide +kernel
  obtain ⟨⟨bytes, bounds⟩, hr, hb⟩ := Option.map_eq_some_iff.1 hm
  refine ⟨bytes, bounds, hr, ?_⟩
  refine C64_compile_and_run_partial (nm := crName) (b := crBack) (by intro a a'; revert a a'; decide) ?_ crHeap_program crHeap_apart
    (by simp [crFs, crPs]) cr_fit.1 cr_fit.2 ?_ ?_ ?_ hr ?_
  · intro a
    cases a
    · exact ⟨⟨'y', [], by decide, by decide, by simp⟩, by decide, by decide⟩
    · exact ⟨⟨'x', [], by decide, by decide, by simp⟩, by decide, by decide⟩
  · intro s hs
    simp only [crFs, List.mem_cons, List.not_mem_nil, or_false] at hs
    rcases hs with rfl | rfl <;> simp [span, spanL, crBack]
  · intro s hs
    simp only [crPs, List.mem_cons, List.not_mem_nil, or_false] at hs
    subst hs
    simp [span, crBack]
  · intro a; cases a <;> decide
  · intro a
    dsimp only at hb
    rw [hb]
    cases a <;> decide

end R2U2
