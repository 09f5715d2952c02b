import Verif.Props.RustNames
/-
C79 for programs over numeric expressions: names and contract statuses printed by the command line tool of the Rust monitor.
-/
namespace R2U2
open Heap Expr GraphPass
variable {α F : Type}

/-- C79 for a compiled program over integer and floating-point signals, whose binary carries the labels and numbers of its specifications and
contracts: what is printed is, for each record, the verdicts of its step, with labels if they are asked for, and the statuses of the
contracts.  The verdicts are right and complete (C78).  A contract has three specifications: the assumption `a`, `a -> g`,
and `a && g`; its statuses say `verified` where `a` and `g` hold, `invalid` where only `a` does, `inactive` elsewhere.

Partial: as C78 and `C79_rust_names_partial`. -/
theorem C79_rust_numbers_partial {f : α → Ast} {o : CliOpts} {b : BackEnd} (hA : BzAtoms f b.sid b.bits b.signals)
    (hsep : AtomsSeparate f) (hdes : ∀ a, Desugared false (f a)) {h : Heap Lab} {n ft pt fuel : Nat} {fs ps : List (SpecOf α)}
    (hp : Program f h n ft pt fs ps) (hx : Apart h ft pt)
    (hfs : ∀ s ∈ fs, Fit o false s.2.2) (hps : ∀ s ∈ ps, Fit o true s.2.2)
    (hkf : ∀ s ∈ fs, span false s.2.2 ≤ b.slack) (hkp : ∀ s ∈ ps, span true s.2.2 ≤ b.slack)
    {ty : Ast → Bool} (hty : ∀ g n', compileG o fuel ft pt (h, n) = some (g, n') → TypedAs f ty b.ty g) (hne : Rs.NoFloatNe f ty)
    {bytes : List Nat} {bounds : Bounds} (hc : compileBinaryBz o b fuel ft pt (h, n) = some (bytes, bounds)) (hbz : Rs.Tool.UsesBz bytes)
    (lim : Rs.Limits) (hlim : Rs.Covers lim bounds) (hlb : bounds.maxBz ≤ lim.bz) (nsig : Nat) (hns : bounds.maxSignals ≤ nsig)
    (hcap : (fs.map fun s => span false s.2.2 + 1).sum + (ps.map fun s => span true s.2.2 + 1).sum ≤ lim.outputs)
    {specs : List (String × Nat)} {contracts : List (String × Nat × Nat × Nat)} (hspecs : specs = (fs ++ ps).map fun s => (s.1, s.2.1))
    (hsome : specs ≠ []) (hn : specs.map (fun x => x.2) = List.range specs.length)
    (hd : (contracts.flatMap fun c => [c.2.1, c.2.2.1, c.2.2.2]).Nodup) (hl : Rs.Names.Labels specs contracts)
    (haux : b.aux = Aux.packed (Aux.aliases specs contracts)) {alim : Rs.Names.Lim} (hlf : specs.length ≤ alim.formulas)
    (hlc : contracts.length ≤ alim.contracts) (hls : lim.outputs ≤ alim.statuses)
    (ops : Rs.Ops F) (hops : Rs.Symmetric ops) (readF : List Char → Option F) :
    ∃ bound, ∀ fuel, bound ≤ fuel → ∀ (rows : List (List (List Char))) (w : Nat) (σ : Nat → Nat → Cell F), w ≤ nsig →
      Rs.Tool.Gives ops readF w rows σ → rows.length + b.slack < 2 ^ 32 →
      (∀ t, t < rows.length → ∀ a, (∀ e, Tree.Within e (f a) → ∃ v, Ast.RsValue ops ty b.bits (fun t s => σ t (b.sid s).toNat) t e v) ∧
        ∃ i, Ast.RsValue ops ty b.bits (fun t s => σ t (b.sid s).toNat) t (f a) (.int i)) →
      ∃ outs : List (List (Nat × Verdict)),
        (∀ enableAux disableContracts, Rs.Names.run ops readF lim alim enableAux disableContracts nsig fuel bytes rows =
          some (outs.flatMap (Rs.Names.shown enableAux disableContracts specs contracts))) ∧
        ∀ π : Trace α, π = (fun t a => ∃ i, i ≠ 0 ∧ Ast.RsValue ops ty b.bits (fun t s => σ t (b.sid s).toNat) t (f a) (.int i)) →
          (∀ s ∈ fs, Answers (sat π s.2.2) (Rs.reports outs.flatten s.2.1) ∧
            ∀ t, t + span false s.2.2 < rows.length → ∃ v ∈ Rs.reports outs.flatten s.2.1, t ≤ v.time) ∧
          (∀ s ∈ ps, Answers (sat π s.2.2) (Rs.reports outs.flatten s.2.1) ∧
            ∀ t, t < rows.length → ∃ v ∈ Rs.reports outs.flatten s.2.1, t ≤ v.time) ∧
          ∀ c ∈ contracts, ∀ (l₀ l₁ l₂ : String) (a g : Expr α), (l₀, c.2.1, a) ∈ fs ++ ps → (l₁, c.2.2.1, .imp a g) ∈ fs ++ ps →
            (l₂, c.2.2.2, .and [a, g]) ∈ fs ++ ps →
            ∀ A G : Nat → Bool, (∀ t, A t = true ↔ sat π a t) → (∀ t, G t = true ↔ sat π g t) →
              Aux.Tells A G c outs.flatten (rows.length - b.slack) := by
  have hnum : ((fs ++ ps).map (·.2.1)).Nodup := by
    have e : (fs ++ ps).map (·.2.1) = specs.map (fun x => x.2) := by rw [hspecs, List.map_map]; rfl
    rw [e, hn]
    exact List.nodup_range
  obtain ⟨bound, c1⟩ := rust_steps hA hsep hdes hp hx hnum hfs hps hkf hkp hty hne (by rw [haux]; exact Aux.packed_small hl) hc hbz lim hlim hlb nsig hns
    hcap ops hops readF
  obtain ⟨is, his⟩ : ∃ is, assembleBytes is b.aux = some bytes := by
    simp only [compileBinaryBz, assembleBzG, Option.bind_eq_some_iff, Option.map_eq_some_iff] at hc
    obtain ⟨_, _, _, _, _, _, A, _, bs, hbs, e⟩ := hc
    cases e
    exact ⟨_, hbs⟩
  rw [haux] at his
  refine ⟨max bound (is.length + 1), fun fuel hfuel rows w σ hw hg hT hv => ?_⟩
  obtain ⟨S0, outs, d0, d1, d2, d3⟩ := c1 fuel (le_trans (le_max_left _ _) hfuel) rows w σ hw hg hT hv
  refine ⟨outs, fun ea dc => ?_, ?_⟩
  · rw [Rs.Names.run_eq his hl hsome hn hd lim hlf hlc hls ops readF nsig (le_trans (le_max_right _ _) hfuel) rows ea dc, d0, Option.bind_some, d1,
      Option.map_some, List.flatMap_map]
    rfl
  · rintro π rfl
    refine ⟨d2, d3, fun c hcm l₀ l₁ l₂ a g h0 h1 h2 A G hA hG => ?_⟩
    have both := fun s (hs : s ∈ fs ++ ps) => show Answers (sat _ s.2.2) (Rs.reports outs.flatten s.2.1) ∧
        ∀ t < rows.length - b.slack, ∃ v ∈ Rs.reports outs.flatten s.2.1, t ≤ v.time from by
      rcases List.mem_append.1 hs with hs | hs
      · exact ⟨(d2 s hs).1, fun t ht => (d2 s hs).2 t (by have := hkf s hs; omega)⟩
      · exact ⟨(d3 s hs).1, fun t ht => (d3 s hs).2 t (by omega)⟩
    obtain ⟨x0, y0⟩ := both _ h0
    obtain ⟨x1, y1⟩ := both _ h1
    obtain ⟨x2, y2⟩ := both _ h2
    refine tells ((List.nodup_flatMap.1 hd).1 c hcm) ?_ ?_ ?_ y0 y1 y2
    · rw [funext fun t => propext (hA t)]
      exact x0
    · refine Eq.mp (congrArg (fun P => Answers P _) (funext fun t => propext ?_)) x1
      rw [Bool.or_eq_true, Bool.not_eq_true', hG]
      simp only [sat, ← hA]
      cases A t <;> simp
    · refine Eq.mp (congrArg (fun P => Answers P _) (funext fun t => propext ?_)) x2
      rw [Bool.and_eq_true, hG, hA]
      simp [sat, satAll]

/-! ### The hypotheses hold of a contract over numbers -/

/-- The contract `c: x >= 5.0 => F[0,3] (prev(0.0, x) < y)`. -/
def rzFs : List (SpecOf Bool) := [("__c_active__", 0, .atom true), ("__c_valid__", 1, .imp (.atom true) (.fut 0 3 (.atom false))),
  ("__c_verified__", 2, .and [.atom true, .fut 0 3 (.atom false)])]

/-- It in memory: the future-time set is node 0, the empty past-time set node 14. -/
def rzHeap : Heap Lab where
  lab
    | 1 => .formula "__c_active__" 0 | 2 => .op .ge | 3 => .formula "__c_valid__" 1 | 4 => .op .imp | 5 => .op .lt
    | 6 => .formula "__c_verified__" 2 | 7 => .op .and | 8 => .tmp .F 0 3 | 9 => .name "x" | 10 => .lit (.float "5.0") | 11 => .op .prev
    | 12 => .name "y" | 13 => .lit (.float "0.0") | _ => .specSet
  kids
    | 0 => [1, 3, 6] | 1 => [2] | 2 => [9, 10] | 3 => [4] | 4 => [2, 8] | 5 => [11, 12] | 6 => [7] | 7 => [2, 8] | 8 => [5] | 11 => [13, 9] | _ => []
  pars
    | 1 => [0] | 2 => [1, 4, 7] | 3 => [0] | 4 => [3] | 5 => [8] | 6 => [0] | 7 => [6] | 8 => [4, 7] | 9 => [2, 11] | 10 => [2] | 11 => [5]
    | 12 => [5] | 13 => [11] | _ => []

def rzBack : BackEnd := { fzBack with aux := Aux.packed (Aux.aliases rnSpecs rnContracts) }

theorem rz_nowhere {p : Expr Bool → Prop} (h1 : ∀ a, ¬ p (.atom a)) (h2 : ¬ p (.fut 0 3 (.atom false)))
    (h3 : ¬ p (.imp (.atom true) (.fut 0 3 (.atom false)))) (h4 : ¬ p (.and [.atom true, .fut 0 3 (.atom false)])) :
    ∀ s ∈ rzFs, Nowhere p s.2.2 := by
  have leaf : ∀ a, Nowhere p (.atom a) := fun a => ⟨_, h1 a, by simp [children]⟩
  have f : Nowhere p (.fut 0 3 (.atom false)) := ⟨_, h2, by simp [children, leaf]⟩
  intro s hs
  simp only [rzFs, List.mem_cons, List.not_mem_nil, or_false] at hs
  rcases hs with rfl | rfl | rfl
  · exact leaf true
  · exact ⟨_, h3, by simp [children, leaf, f]⟩
  · exact ⟨_, h4, by simp [children, leaf, f]⟩

theorem rnLabels : Rs.Names.Labels rnSpecs rnContracts := by
  refine ⟨?_, ?_⟩
  · intro s hs
    simp only [rnSpecs, List.mem_cons, List.not_mem_nil, or_false] at hs
    rcases hs with rfl | rfl | rfl <;>
      exact ⟨FE.ident rfl (by decide) (by decide) (by decide) (by decide), by decide, by decide⟩
  · intro c hc
    simp only [rnContracts, List.mem_cons, List.not_mem_nil, or_false] at hc
    subst hc
    exact ⟨FE.ident rfl (by decide) (by decide) (by decide) (by decide), by decide, by decide, by decide, by decide⟩

theorem rzHeap_program : Program fzAtom rzHeap 15 0 14 rzFs [] where
  below := by
    refine ⟨?_, ?_⟩
    · intro p c hc
      match p, hc with
      | 0, hc | 1, hc | 2, hc | 3, hc | 4, hc | 5, hc | 6, hc | 7, hc | 8, hc | 11, hc =>
        simp only [rzHeap, List.mem_cons, List.not_mem_nil, or_false] at hc
        omega
      | 9, hc | 10, hc => simp [rzHeap] at hc
      | _ + 12, hc => simp [rzHeap] at hc
    · intro p hp
      match p, hp with
      | p + 15, _ => rfl
  acyclic := by
    intro x
    match x with
    | 0 | 1 | 2 | 3 | 4 | 5 | 6 | 7 | 8 | 9 | 10 | 11 | 12 | 13 | 14 => exact ⟨_, 9, rfl⟩
    | n + 15 => exact ⟨.node .specSet [], 1, rfl⟩
  parents := by
    intro p c hc
    match p, hc with
    | 0, hc =>
      simp only [rzHeap, List.mem_cons, List.not_mem_nil, or_false] at hc
      rcases hc with rfl | rfl | rfl <;> simp [rzHeap]
    | 1, hc | 3, hc | 6, hc | 8, hc =>
      simp only [rzHeap, List.mem_cons, List.not_mem_nil, or_false] at hc
      subst hc
      simp [rzHeap]
    | 2, hc | 4, hc | 5, hc | 7, hc | 11, hc =>
      simp only [rzHeap, List.mem_cons, List.not_mem_nil, or_false] at hc
      rcases hc with rfl | rfl <;> simp [rzHeap]
    | 9, hc | 10, hc => simp [rzHeap] at hc
    | _ + 12, hc => simp [rzHeap] at hc
  ft_lt := by decide
  pt_lt := by decide
  ne := by decide
  ft_top := rfl
  pt_top := rfl
  future := ⟨9, rfl⟩
  past := ⟨9, rfl⟩
  idents := by
    intro s hs
    simp only [rzFs, List.append_nil, List.mem_cons, List.not_mem_nil, or_false] at hs
    rcases hs with rfl | rfl | rfl <;> exact FE.ident rfl (by decide) (by decide) (by decide) (by decide)
  labels := by simp [rzFs]
  operands := by
    rw [List.append_nil]
    exact rz_nowhere (by simp [isEmptyOp]) (by simp [isEmptyOp]) (by simp [isEmptyOp]) (by simp [isEmptyOp])

theorem rzHeap_apart : Apart rzHeap 0 14 := by
  intro x h1 h2
  have a1 : x ≤ 13 := by
    clear h2
    induction h1 with
    | root h => simp at h; omega
    | @kid p c _ hc ih =>
      match p, hc, ih with
      | 0, hc, _ | 1, hc, _ | 2, hc, _ | 3, hc, _ | 4, hc, _ | 5, hc, _ | 6, hc, _ | 7, hc, _ | 8, hc, _ | 11, hc, _ =>
        simp only [rzHeap, List.mem_cons, List.not_mem_nil, or_false] at hc
        omega
      | 9, hc, _ | 10, hc, _ | 12, hc, _ | 13, hc, _ => simp [rzHeap] at hc
      | _ + 14, _, ih => omega
  have a2 : x = 14 := by
    clear h1 a1
    induction h2 with
    | root h => simpa using h
    | kid _ hc ih => subst ih; simp [rzHeap] at hc
  omega

theorem rz_fit : ∀ s ∈ rzFs, Fit ⟨true, false, true⟩ false s.2.2 := by
  intro s hs
  refine ⟨rz_nowhere (by simp [odd]) (by simp [odd, isConst]) (by simp [odd, isConst]) (by simp [odd, isConst]) s hs, ?_,
    fun _ => rz_nowhere (by simp [rough]) (by simp [rough]) (by simp [rough]) (by simp [rough]) s hs⟩
  simp only [rzFs, List.mem_cons, List.not_mem_nil, or_false] at hs
  rcases hs with rfl | rfl | rfl <;> simp [isConst]

open Classical in
/-- All the hypotheses of `C79_rust_numbers_partial` hold of this program and every trace; the statuses of the contract are right. -/
example : ∃ bytes bounds, compileBinaryBz ⟨true, false, true⟩ rzBack 60 0 14 (rzHeap, 15) = some (bytes, bounds) ∧
    ∃ bound, ∀ fuel, bound ≤ fuel → ∀ xs : List (Int × Int), (∀ p ∈ xs, (-(2 ^ 31) ≤ p.1 ∧ p.1 < 2 ^ 31) ∧ -(2 ^ 31) ≤ p.2 ∧ p.2 < 2 ^ 31) →
      xs.length + 3 < 2 ^ 32 →
      ∃ outs : List (List (Nat × Verdict)),
        (∀ ea dc, Rs.Names.run rsInts Rs.Tool.parseI32 { bounds.rust 3 with outputs := 9 } ⟨3, 1, 9⟩ ea dc bounds.maxSignals fuel bytes (fzRows xs) =
          some (outs.flatMap (Rs.Names.shown ea dc rnSpecs rnContracts))) ∧
        Aux.Tells (fun t => decide (fzTrace (fzIn xs) t true)) (fun t => decide (sat (fzTrace (fzIn xs)) (.fut 0 3 (.atom false)) t)) ("c", 0, 1, 2)
          outs.flatten (xs.length - 3) := by
  have hm : (compileBinaryBz ⟨true, false, true⟩ rzBack 60 0 14 (rzHeap, 15)).map
      (fun r => decide ((0 ≤ r.2.maxQueueSlots ∧ r.2.maxQueueSlots ≤ 2 ^ 32) ∧ 2 ≤ r.2.maxSignals ∧
        (loadBinary 60 r.1).map (fun x => (BzMon.table x.1).isEmpty) = some false)) = some true := by decide +kernel
  obtain ⟨⟨bytes, bounds⟩, hr, hb⟩ := Option.map_eq_some_iff.1 hm
  simp only [decide_eq_true_eq] at hb
  obtain ⟨hb, hw, hl⟩ := hb
  refine ⟨bytes, bounds, hr, ?_⟩
  obtain ⟨bound, c1⟩ := C79_rust_numbers_partial (b := rzBack) fz_atoms fz_separate.1 fz_separate.2
    rzHeap_program rzHeap_apart rz_fit (by simp) (by
      intro s hs
      simp only [rzFs, List.mem_cons, List.not_mem_nil, or_false] at hs
      rcases hs with rfl | rfl | rfl <;> simp [span, spanL, rzBack, fzBack]) (by simp) (ty := fun _ => false) (fun g n' _ x s a _ _ => rfl) fz_noNe hr
    (Rs.Tool.usesBz_of 60 hl)
    { bounds.rust 3 with outputs := 9 } ⟨Nat.le_refl _, Nat.le_refl _, by simp only [Bounds.rust]; omega, by simp only [Bounds.rust]; omega⟩
    (Nat.le_refl _) bounds.maxSignals (Nat.le_refl _) (by simp [rzFs, span, spanL]) (specs := rnSpecs) (contracts := rnContracts) rfl (by simp [rnSpecs]) rfl
    (by decide) rnLabels rfl (alim := ⟨3, 1, 9⟩) (by decide) (by decide) (Nat.le_refl _) rsInts rsInts_symmetric Rs.Tool.parseI32
  refine ⟨bound, fun fuel hf xs hxs hT => ?_⟩
  have ht : fzTrace (fzIn xs) = (fun t a => ∃ i, i ≠ 0 ∧ fzVal (fzIn xs) t (fzAtom a) (.int i)) := by
    funext t a
    obtain ⟨i, h1, h2⟩ := fz_atom (fzIn xs) t a
    refine propext ⟨fun h => ⟨i, h2.2 h, h1⟩, ?_⟩
    rintro ⟨j, hj, h3⟩
    cases h1.unique rsInts_symmetric (fz_noNe a) h3
    exact h2.1 hj
  have hlen : (fzRows xs).length = xs.length := by simp [fzRows]
  obtain ⟨outs, d1, d2⟩ := c1 fuel hf (fzRows xs) 2 (fun t k => .flt (fzIn xs t k)) hw (fz_gives hxs) (by rw [hlen]; exact hT) (by
    intro t _ a
    obtain ⟨i, h1, _⟩ := fz_atom (fzIn xs) t a
    refine ⟨?_, i, h1⟩
    intro e he
    rcases fz_within he with rfl | rfl | rfl | rfl | rfl | rfl
    · exact ⟨_, h1⟩
    · exact ⟨_, fz_x _ t⟩
    · exact ⟨_, fz_y _ t⟩
    · exact ⟨_, .float⟩
    · exact ⟨_, .float⟩
    · exact ⟨_, fz_prev _ t⟩)
  refine ⟨outs, d1, ?_⟩
  have := (d2 _ ht).2.2 ("c", 0, 1, 2) (by simp [rnContracts]) "__c_active__" "__c_valid__" "__c_verified__" (.atom true) (.fut 0 3 (.atom false))
    (by simp [rzFs]) (by simp [rzFs]) (by simp [rzFs]) (fun t => decide (fzTrace (fzIn xs) t true))
    (fun t => decide (sat (fzTrace (fzIn xs)) (.fut 0 3 (.atom false)) t)) (fun t => by simp [sat]) (fun t => by simp)
  simpa [hlen, rzBack, fzBack] using this

end R2U2
