import Verif.Lemmas.RustStart
import Verif.Props.Compile
/-
C67: from the formulas to the verdicts of the Rust monitor.
-/
namespace R2U2
open Heap Expr GraphPass
variable {α : Type}

theorem sum_sublist {β : Type} (w : β → Nat) {l l' : List β} (h : List.Sublist l l') : (l.map w).sum ≤ (l'.map w).sum := by
  induction h with
  | slnil => exact Nat.le_refl _
  | cons a _ ih => simp only [List.map_cons, List.sum_cons]; omega
  | cons_cons a _ ih => simp only [List.map_cons, List.sum_cons]; omega

theorem sum_subset {β : Type} (w : β → Nat) {l l' : List β} (hl : l.Nodup) (h : ∀ x ∈ l, x ∈ l') : (l.map w).sum ≤ (l'.map w).sum := by
  obtain ⟨m, h1, h2⟩ := List.subperm_of_subset hl h
  have := List.Perm.sum_nat (h1.map w)
  rw [← this]
  exact sum_sublist w h2

/-- `C67_rust_compile_and_run_partial`, and that the code has no instructions for the booleanizer. -/
theorem rust_plain {nm : α → String} (hnm : Function.Injective nm) (hident : ∀ a, IsIdent (nm a))
    {o : CliOpts} {b : BackEnd} {h : Heap Lab} {n ft pt fuel : Nat} {fs ps : List (SpecOf α)}
    (hp : Program (signalAtoms nm) h n ft pt fs ps) (hx : Apart h ft pt) (hnum : ((fs ++ ps).map (·.2.1)).Nodup)
    (hfs : ∀ s ∈ fs, Fit o false s.2.2) (hps : ∀ s ∈ ps, Fit o true s.2.2)
    (hkf : ∀ s ∈ fs, span false s.2.2 ≤ b.slack) (hkp : ∀ s ∈ ps, span true s.2.2 ≤ b.slack)
    (hsid : ∀ a, 0 ≤ b.sid (nm a)) {bytes : List Nat} {bounds : Bounds}
    (hc : compileBinary o b fuel ft pt (h, n) = some (bytes, bounds)) (hat : ∀ a, b.sid (nm a) < bounds.maxAtomics)
    (lim : Rs.Limits) (hlim : Rs.Covers lim bounds)
    (hcap : (fs.map fun s => span false s.2.2 + 1).sum + (ps.map fun s => span true s.2.2 + 1).sum ≤ lim.outputs) :
    (∃ A : BProg.Assembly, assembleBytes A.instrs b.aux = some bytes ∧ A.bz = []) ∧
    ∃ bound, ∀ fuel, bound ≤ fuel → ∃ M0, Rs.getMonitor lim fuel bytes = some M0 ∧
      ∀ (inp : Nat → Nat → Bool) (T : Nat), T + b.slack < 2 ^ 32 →
        ∃ M out, M0.run fuel inp T = some (M, out) ∧
          (∀ s ∈ fs, Answers (sat (fun t a => inp t (b.sid (nm a)).toNat = true) s.2.2) (Rs.reports out s.2.1) ∧
            ∀ t, t + span false s.2.2 < T → ∃ v ∈ Rs.reports out s.2.1, t ≤ v.time) ∧
          (∀ s ∈ ps, Answers (sat (fun t a => inp t (b.sid (nm a)).toNat = true) s.2.2) (Rs.reports out s.2.1) ∧
            ∀ t, t < T → ∃ v ∈ Rs.reports out s.2.1, t ≤ v.time) := by
  simp only [compileBinary, Option.bind_eq_some_iff, Prod.exists] at hc
  obtain ⟨g, n', hc, ha⟩ := hc
  obtain ⟨fs', ps', on, hshape, _, _⟩ := compile_on (signalAtoms_plain nm) (signalAtoms_separate hnm) (signalAtoms_desugared hident) hp hx hfs hps hc
  simp only [assembleG, Option.bind_eq_some_iff, Option.map_eq_some_iff, Prod.exists, Prod.mk.injEq] at ha
  obtain ⟨hb, a, e1, sz, e2, A, e3, bytes', e4, rfl, rfl⟩ := ha
  have hac : (g.relabel (toBNode b.ty b.sid b.bits)).Acyclic := relabel_acyclic on.acyclic
  obtain ⟨rfl, i1, i2, _⟩ := C20_signals_partial _ hac ft pt n' fuel hb a e1
  have fin : ∀ {past : Bool} {as bs : List (SpecOf α)}, List.Forall₂ (Tracked past) as bs → (∀ s ∈ bs, Nowhere isExtended s.2.2 ∧ Nowhere isWide s.2.2) →
      ∀ s ∈ bs, Final past s.2.2 ∧ ¬ isConst s.2.2 := by
    intro past as bs ht hs s hm
    obtain ⟨_, _, h1⟩ := forall2_mem_left ht.flip hm
    exact ⟨⟨h1.plain, (hs s hm).1, (hs s hm).2⟩, h1.varies⟩
  have nums : ∀ {past : Bool} {as bs : List (SpecOf α)}, List.Forall₂ (Tracked past) as bs → bs.map (·.2.1) = as.map (·.2.1) := by
    intro past as bs ht
    induction ht with
    | nil => rfl
    | cons x _ ih => simp only [List.map_cons, ih, x.number]
  have L : Linked nm b g fs' ps' ⟨g.relabel (toBNode b.ty b.sid b.bits), b.bpd, b.wpd, ft, pt, false, fun x => a.ids.lookup x⟩ := {
    inj := hnm
    heap := rfl
    bz := rfl
    acyclic := on.acyclic
    future := on.future
    past := on.past
    ffin := fin on.ftrack fun s hs => hshape s (List.mem_append_left _ hs)
    pfin := fin on.ptrack fun s hs => hshape s (List.mem_append_right _ hs)
    apart := on.apart
    numbers := by rw [List.map_append, nums on.ftrack, nums on.ptrack, ← List.map_append]; exact hnum
    ids := i1
    idv := by
      intro x i c hi hl
      have hs : (g.relabel (toBNode b.ty b.sid b.bits)).lab x = .signal (b.ty x) (b.sid (nm c)) := by
        show toBNode b.ty b.sid b.bits x (g.lab x) = _
        rw [hl]; rfl
      have := i2 x i _ _ hi hs (hsid c)
      omega }
  have tspan : ∀ {past : Bool} {as bs : List (SpecOf α)}, List.Forall₂ (Tracked past) as bs → (∀ s ∈ as, span past s.2.2 ≤ b.slack) →
      ∀ s ∈ bs, span past s.2.2 ≤ b.slack := by
    intro past as bs ht hs s hm
    obtain ⟨s0, hm0, h1⟩ := forall2_mem_left ht.flip hm
    exact le_trans h1.span (hs s0 hm0)
  have hbf := tspan on.ftrack hkf
  have hbp := tspan on.ptrack hkp
  have hfits := assemble_fits e4
  have hnobz : A.bz = [] := by
    obtain ⟨_, _, _, h2, _⟩ := BProg.C53_code _ L.ready L.separate L.covered fuel sz.scq A e3
    rw [List.eq_nil_iff_forall_not_mem]
    intro i hi
    obtain ⟨x, hn, _⟩ := h2 i hi
    exact L.noCells x hn
  have hmon := L.monitorable b.slack hbf hbp
  have cap : ∀ l : List Nat, l.Nodup → (∀ x ∈ l, BProg.Live ⟨g.relabel (toBNode b.ty b.sid b.bits), b.bpd, b.wpd, ft, pt, false, fun x => a.ids.lookup x⟩ x ∧
      ((g.relabel (toBNode b.ty b.sid b.bits)).lab x).isFormula = true) →
      (l.map (BProg.burstAt ⟨g.relabel (toBNode b.ty b.sid b.bits), b.bpd, b.wpd, ft, pt, false, fun x => a.ids.lookup x⟩
        (fun x => -(spanAt g nm true x : Int)) (fun x => (spanAt g nm false x : Int)))).sum ≤ lim.outputs := by
    intro l hl hlive
    have find : ∀ x ∈ l, ∃ k, (g.relabel (toBNode b.ty b.sid b.bits)).lab x = .formula k ∧
        (k, BProg.burstAt ⟨g.relabel (toBNode b.ty b.sid b.bits), b.bpd, b.wpd, ft, pt, false, fun x => a.ids.lookup x⟩
          (fun x => -(spanAt g nm true x : Int)) (fun x => (spanAt g nm false x : Int)) x) ∈
        fs'.map (fun s => (s.2.1, span false s.2.2 + 1)) ++ ps'.map (fun s => (s.2.1, span true s.2.2 + 1)) := by
      intro x hx
      obtain ⟨h1, h2⟩ := hlive x hx
      have hlab := L.lab x
      cases L.at_live h1 with
      | top h => rw [h] at hlab; rw [show (g.relabel (toBNode b.ty b.sid b.bits)).lab x = _ from hlab] at h2; cases h2
      | expr past s e g1 g2 g3 g4 => exact absurd h2 (by
          rw [show (g.relabel (toBNode b.ty b.sid b.bits)).lab x = _ from hlab]
          revert g4
          cases e <;> simp only [toAst, signalAtoms] <;> rw [denotes_node] <;> intro g4 <;> rw [← g4.1] <;> simp [toBNode, BNode.isFormula])
      | spec past s c g1 g2 g3 g4 g5 =>
          have hf : (g.relabel (toBNode b.ty b.sid b.bits)).lab x = .formula s.2.1 := by rw [show (g.relabel (toBNode b.ty b.sid b.bits)).lab x = _ from hlab, g2]; rfl
          refine ⟨s.2.1, hf, ?_⟩
          have htgt : BProg.tgt ⟨g.relabel (toBNode b.ty b.sid b.bits), b.bpd, b.wpd, ft, pt, false, fun x => a.ids.lookup x⟩ x = c := by
            unfold BProg.tgt
            rw [hf, show (g.relabel (toBNode b.ty b.sid b.bits)).kids x = [c] from g3]
          simp only [BProg.burstAt, htgt, spanAt_eq hnm g4]
          rw [List.mem_append]
          cases past with
          | false =>
              left
              have : span true s.2.2 = 0 := span_other (past := false) s.2.2 (L.ffin s g1).1.1
              rw [List.mem_map]
              exact ⟨s, g1, by rw [this]; simp⟩
          | true =>
              right
              have : span false s.2.2 = 0 := span_other (past := true) s.2.2 (L.pfin s g1).1.1
              rw [List.mem_map]
              exact ⟨s, g1, by rw [this]; simp⟩
    have bound : ∀ {past : Bool} {as bs : List (SpecOf α)}, List.Forall₂ (Tracked past) as bs →
        (bs.map fun s => span past s.2.2 + 1).sum ≤ (as.map fun s => span past s.2.2 + 1).sum := by
      intro past as bs ht
      induction ht with
      | nil => exact Nat.le_refl _
      | cons x _ ih => have := x.span; simp only [List.map_cons, List.sum_cons]; omega
    have b1 := bound on.ftrack
    have b2 := bound on.ptrack
    let num : Nat → Nat := fun x => match (g.relabel (toBNode b.ty b.sid b.bits)).lab x with | .formula k => k | _ => 0
    let w : Nat → Nat := BProg.burstAt ⟨g.relabel (toBNode b.ty b.sid b.bits), b.bpd, b.wpd, ft, pt, false, fun x => a.ids.lookup x⟩
          (fun x => -(spanAt g nm true x : Int)) (fun x => (spanAt g nm false x : Int))
    have key := sum_subset (w := fun p : Nat × Nat => p.2) (l := l.map fun x => (num x, w x))
      (l' := fs'.map (fun s => (s.2.1, span false s.2.2 + 1)) ++ ps'.map (fun s => (s.2.1, span true s.2.2 + 1)))
      (by
        refine List.Nodup.map_on ?_ hl
        intro x hx y hy hxy
        obtain ⟨k1, f1, _⟩ := find x hx
        obtain ⟨k2, f2, _⟩ := find y hy
        have : num x = num y := congrArg Prod.fst hxy
        simp only [num, f1, f2] at this
        subst this
        exact hmon.numbers x y k1 (hlive x hx).1 (hlive y hy).1 f1 f2)
      (by
        intro p hp
        rw [List.mem_map] at hp
        obtain ⟨x, hx, rfl⟩ := hp
        obtain ⟨k1, f1, f2⟩ := find x hx
        simp only [num, f1]
        exact f2)
    simp only [List.map_map, List.map_append, List.sum_append] at key
    refine le_trans key (le_trans ?_ hcap)
    exact Nat.add_le_add b1 b2
  obtain ⟨bytes2, bound, c1, c2⟩ := BProg.rust_run _ L.ready L.separate L.covered b.slack (Int.natCast_nonneg _) _ _ _
    hmon fuel fuel sz e2 A e3 b.signals (a.ids.map (·.2)) (by
      intro x i hi
      obtain ⟨hl, t, s, hs⟩ := (L.ids x).1 ⟨i, hi⟩
      obtain ⟨c, hc⟩ := L.signal hl hs
      have h1 := L.idv x i c hi hc
      have h2 := hat c
      have h3 := hsid c
      show i < (computeBounds false b.signals (a.ids.map (·.2)) A).maxAtomics
      omega) b.aux (by rw [hnobz]; simp) hfits.1 hfits.2.1 hfits.2.2 lim hlim
    (fun es he => Rs.BzRoom.none (by rw [he, hnobz]; rfl)) cap
  rw [e4] at c1
  cases c1
  refine ⟨⟨A, e4, hnobz⟩, bound, fun fl hfl => ?_⟩
  obtain ⟨M0, c3, c4⟩ := c2 fl hfl
  refine ⟨M0, c3, ?_⟩
  intro inp T hT
  obtain ⟨M, out, d1, _, d2⟩ := c4 inp T (by omega) (fun x hlx => by have := L.ahead_le hbp hlx; omega)
  refine ⟨M, out, d1, fun s hs => ?_, fun s hs => ?_⟩
  · obtain ⟨s', hs', ht⟩ := forall2_mem_left on.ftrack hs
    obtain ⟨x, c, x1, x2, x3, x4, x5⟩ := L.spec_node (past := false) (s := s') hs'
    obtain ⟨e, y1, y2⟩ := L.says_expr s'.2.2 x4 (L.ffin s' hs').1 x5
    obtain ⟨z1, z2, _⟩ := d2 x _ c e x1 x2 x3 y1
    rw [ht.number] at z1 z2
    refine ⟨?_, fun t hlt => z2 t ?_⟩
    · have : sat (fun t a => inp t a = true) e = sat (fun t a => inp t (b.sid (nm a)).toNat = true) s.2.2 := by
        funext t
        exact propext ((y2 (fun t a => inp t a = true) t).trans (ht.equiv _ t))
      rw [← this]; exact z1
    · have h1 := ht.span
      simp only [spanAt_eq hnm x5]
      omega
  · obtain ⟨s', hs', ht⟩ := forall2_mem_left on.ptrack hs
    obtain ⟨x, c, x1, x2, x3, x4, x5⟩ := L.spec_node (past := true) (s := s') hs'
    obtain ⟨e, y1, y2⟩ := L.says_expr s'.2.2 x4 (L.pfin s' hs').1 x5
    obtain ⟨z1, z2, _⟩ := d2 x _ c e x1 x2 x3 y1
    rw [ht.number] at z1 z2
    refine ⟨?_, fun t hlt => z2 t ?_⟩
    · have : sat (fun t a => inp t a = true) e = sat (fun t a => inp t (b.sid (nm a)).toNat = true) s.2.2 := by
        funext t
        exact propext ((y2 (fun t a => inp t a = true) t).trans (ht.equiv _ t))
      rw [← this]; exact z1
    · simp only [spanAt_eq hnm x5]
      rw [show span false s'.2.2 = 0 from span_other (past := true) s'.2.2 ht.plain]
      omega

/-- C67.  C64 for the Rust monitor: if the tool writes a binary, `get_monitor` of a Rust monitor whose arrays have at least the sizes written
with it, and whose output buffer has room for the verdicts a step can have - for each specification, one more than the steps it looks ahead or
back - loads it; no step of any run panics, and every verdict
read from the output buffer is the verdict of the formula the user wrote, in time.

Partial: as in C64; and the size the tool itself writes for the output buffer, twice the number of formulas, can be too small
(`C67_outputs_fail`). -/
theorem C67_rust_compile_and_run_partial {nm : α → String} (hnm : Function.Injective nm) (hident : ∀ a, IsIdent (nm a))
    {o : CliOpts} {b : BackEnd} {h : Heap Lab} {n ft pt fuel : Nat} {fs ps : List (SpecOf α)}
    (hp : Program (signalAtoms nm) h n ft pt fs ps) (hx : Apart h ft pt) (hnum : ((fs ++ ps).map (·.2.1)).Nodup)
    (hfs : ∀ s ∈ fs, Fit o false s.2.2) (hps : ∀ s ∈ ps, Fit o true s.2.2)
    (hkf : ∀ s ∈ fs, span false s.2.2 ≤ b.slack) (hkp : ∀ s ∈ ps, span true s.2.2 ≤ b.slack)
    (hsid : ∀ a, 0 ≤ b.sid (nm a)) {bytes : List Nat} {bounds : Bounds}
    (hc : compileBinary o b fuel ft pt (h, n) = some (bytes, bounds)) (hat : ∀ a, b.sid (nm a) < bounds.maxAtomics)
    (lim : Rs.Limits) (hlim : Rs.Covers lim bounds)
    (hcap : (fs.map fun s => span false s.2.2 + 1).sum + (ps.map fun s => span true s.2.2 + 1).sum ≤ lim.outputs) :
    ∃ bound, ∀ fuel, bound ≤ fuel → ∃ M0, Rs.getMonitor lim fuel bytes = some M0 ∧
      ∀ (inp : Nat → Nat → Bool) (T : Nat), T + b.slack < 2 ^ 32 →
        ∃ M out, M0.run fuel inp T = some (M, out) ∧
          (∀ s ∈ fs, Answers (sat (fun t a => inp t (b.sid (nm a)).toNat = true) s.2.2) (Rs.reports out s.2.1) ∧
            ∀ t, t + span false s.2.2 < T → ∃ v ∈ Rs.reports out s.2.1, t ≤ v.time) ∧
          (∀ s ∈ ps, Answers (sat (fun t a => inp t (b.sid (nm a)).toNat = true) s.2.2) (Rs.reports out s.2.1) ∧
            ∀ t, t < T → ∃ v ∈ Rs.reports out s.2.1, t ≤ v.time) :=
  (rust_plain hnm hident hp hx hnum hfs hps hkf hkp hsid hc hat lim hlim hcap).2

/-- All the hypotheses of C67 hold of the program of C64 and a monitor with the bounds written for it (10 verdicts a step at most). -/
example : ∃ bytes bounds, compileBinary ⟨true, false, true⟩ crBack 60 0 9 (crHeap, 13) = some (bytes, bounds) ∧
    ∃ bound, ∀ fuel, bound ≤ fuel → ∃ M0, Rs.getMonitor { bounds.rust 3 with outputs := 10 } fuel bytes = some M0 ∧
      ∀ (inp : Nat → Nat → Bool) (T : Nat), T + 3 < 2 ^ 32 →
        ∃ M out, M0.run fuel inp T = some (M, out) ∧
          (∀ s ∈ crFs, Answers (sat (fun t a => inp t (crBack.sid (crName a)).toNat = true) s.2.2) (Rs.reports out s.2.1) ∧
            ∀ t, t + span false s.2.2 < T → ∃ v ∈ Rs.reports out s.2.1, t ≤ v.time) ∧
          (∀ s ∈ crPs, Answers (sat (fun t a => inp t (crBack.sid (crName a)).toNat = true) s.2.2) (Rs.reports out s.2.1) ∧
            ∀ t, t < T → ∃ v ∈ Rs.reports out s.2.1, t ≤ v.time) := by
  have hm : (compileBinary ⟨true, false, true⟩ crBack 60 0 9 (crHeap, 13)).map (fun r => (r.2.maxAtomics, decide (0 ≤ r.2.maxQueueSlots ∧ r.2.maxQueueSlots ≤ 2 ^ 32))) =
    some (2, true) := by decide +kernel
  obtain ⟨⟨bytes, bounds⟩, hr, hb⟩ := Option.map_eq_some_iff.1 hm
  simp only [Prod.mk.injEq, decide_eq_true_eq] at hb
  obtain ⟨hb, hb1, hb2⟩ := hb
  refine ⟨bytes, bounds, hr, ?_⟩
  refine C67_rust_compile_and_run_partial (nm := crName) (b := crBack) (by intro a a'; revert a a'; decide) ?_ crHeap_program crHeap_apart
    (by simp [crFs, crPs]) ?_ ?_ ?_ ?_ ?_ hr ?_ _ ⟨Nat.le_refl _, Nat.le_refl _, ?_, ?_⟩ ?_
  · intro a
    cases a
    · exact ⟨⟨'y', [], by decide, by decide, by simp⟩, by decide, by decide⟩
    · exact ⟨⟨'x', [], by decide, by decide, by simp⟩, by decide, by decide⟩
  · intro s hs
    refine ⟨cr_nowhere (by simp [odd, isConst]) (by simp [odd, isConst]) (by simp [odd, isConst]) (by simp [odd]) (by simp [odd, isConst]) s hs, ?_,
      fun _ => cr_nowhere (by simp [rough]) (by simp [rough]) (by simp [rough]) (by simp [rough]) (by simp [rough]) s hs⟩
    simp only [crFs, List.mem_cons, List.not_mem_nil, or_false] at hs
    rcases hs with rfl | rfl <;> simp [isConst]
  · intro s hs
    refine ⟨cr_nowhere_past (by simp [odd, isConst]) (by simp [odd]) s hs, ?_, fun _ => cr_nowhere_past (by simp [rough]) (by simp [rough]) s hs⟩
    simp only [crPs, List.mem_cons, List.not_mem_nil, or_false] at hs
    subst hs
    simp [isConst]
  · intro s hs
    simp only [crFs, List.mem_cons, List.not_mem_nil, or_false] at hs
    rcases hs with rfl | rfl <;> simp [span, spanL, crBack]
  · intro s hs
    simp only [crPs, List.mem_cons, List.not_mem_nil, or_false] at hs
    subst hs
    simp [span, crBack]
  · intro a; cases a <;> decide
  · intro a
    rw [hb]
    cases a <;> decide
  · simp only [Bounds.rust]; omega
  · simp only [Bounds.rust]; omega
  · simp [crFs, crPs, span, spanL]

/-! ### The size written for the output buffer -/

/-- `x && (y U[0,5] z)`. -/
def obHeap : Heap Lab where
  lab
    | 1 => .formula "a" 0 | 2 => .op .and | 3 => .name "x" | 4 => .tmp .U 0 5 | 5 => .name "y" | 6 => .name "z" | _ => .specSet
  kids
    | 0 => [1] | 1 => [2] | 2 => [3, 4] | 4 => [5, 6] | _ => []
  pars
    | 1 => [0] | 2 => [1] | 3 => [2] | 4 => [2] | 5 => [4] | 6 => [4] | _ => []

/-- Worst-case delays as the compiler computes them; `x`, `y`, `z` are inputs 0, 1, 2. -/
def obBack : BackEnd :=
  ⟨fun _ => false, fun _ => 0, fun x => if x = 1 ∨ x = 2 ∨ x = 4 then 5 else 0, fun s => if s = "x" then 0 else if s = "y" then 1 else 2, fun _ => 0, 3, 0, []⟩

/-- `x` holds at even times, `y` always, `z` from time 5. -/
def obInp (t a : Nat) : Bool := if a = 0 then t % 2 = 0 else if a = 1 then true else decide (5 ≤ t)

/-- What the compiler writes for it. -/
def obBytes : List Nat := [45, 67, 50, 80, 79, 32, 86, 101, 114, 115, 105, 111, 110, 32, 52, 46, 50, 46, 48, 32, 102, 111, 114, 32, 82, 50,
  85, 50, 32, 86, 52, 46, 50, 46, 48, 32, 45, 32, 66, 79, 77, 58, 32, 60, 0, 17, 4, 0, 0, 0, 0, 0, 0, 0, 0, 0, 0, 0, 0,
  0, 3, 29, 17, 4, 1, 0, 0, 0, 0, 0, 0, 0, 1, 0, 0, 0, 0, 3, 29, 17, 4, 2, 0, 0, 0, 0, 0, 0, 0, 2, 0, 0, 0, 0, 3, 29,
  17, 4, 1, 0, 0, 0, 2, 0, 0, 0, 3, 0, 0, 0, 2, 2, 25, 17, 4, 0, 0, 0, 0, 3, 0, 0, 0, 4, 0, 0, 0, 2, 2, 22, 17, 4, 4, 0,
  0, 0, 0, 0, 0, 0, 5, 0, 0, 0, 2, 1, 28, 18, 2, 4, 6, 0, 0, 0, 0, 0, 0, 0, 0, 0, 0, 0, 0, 3, 30, 18, 2, 4, 1, 0, 0, 0,
  0, 0, 0, 0, 1, 0, 0, 0, 0, 3, 30, 18, 2, 4, 1, 0, 0, 0, 0, 0, 0, 0, 2, 0, 0, 0, 0, 3, 30, 18, 2, 4, 1, 0, 0, 0, 0, 0,
  0, 0, 3, 0, 0, 0, 0, 0, 30, 18, 2, 4, 1, 0, 0, 0, 0, 0, 0, 0, 4, 0, 0, 0, 0, 3, 30, 18, 2, 4, 1, 0, 0, 0, 0, 0, 0, 0,
  5, 0, 0, 0, 0, 3, 30, 18, 2, 4, 0, 0, 0, 0, 5, 0, 0, 0, 3, 0, 0, 0, 2, 2, 30, 0, 0]

/-- The bounds it writes with them. -/
def obBounds : Bounds := { maxSignals := 0, maxAtomics := 3, maxBz := 0, maxTl := 6, maxTemporal := 1, maxQueueSlots := 11 }

theorem ob_compiled : compileBinary ⟨false, false, false⟩ obBack 60 0 7 (obHeap, 8) = some (obBytes, obBounds) := by decide +kernel

/-- The output buffer of the Rust monitor is written to at an index given by the number of verdicts so far.  The compiler gives it twice as many elements as
there are formulas; here one formula has six verdicts in one time step, and the monitor panics.  With six elements it goes on. -/
theorem C67_outputs_fail : compileBinary ⟨false, false, false⟩ obBack 60 0 7 (obHeap, 8) = some (obBytes, obBounds) ∧
    ((Rs.getMonitor (obBounds.rust 1) 60 obBytes).bind fun M => M.run 60 obInp 5).map (·.2) = some [] ∧
    ((Rs.getMonitor (obBounds.rust 1) 60 obBytes).bind fun M => M.run 60 obInp 6).map (·.2) = none ∧
    ((Rs.getMonitor { obBounds.rust 1 with outputs := 6 } 60 obBytes).bind fun M => M.run 60 obInp 6).map (·.2) =
      some [(0, ⟨true, 0⟩), (0, ⟨false, 1⟩), (0, ⟨true, 2⟩), (0, ⟨false, 3⟩), (0, ⟨true, 4⟩), (0, ⟨false, 5⟩)] := by
  refine ⟨ob_compiled, ?_, ?_, ?_⟩ <;> decide +kernel

end R2U2
