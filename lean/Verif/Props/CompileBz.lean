import Verif.Lemmas.CompileBz
import Verif.Props.Compile
/-
C75: from formulas over comparisons of numbers to the verdicts of the monitor that runs the compiled binary.
-/
namespace R2U2
open Heap Expr GraphPass
variable {α F : Type}

/-- C75.  A desugared program is given to the command line tool with the booleanizer; atom `a` is the expression `f a` over
signals and numbers.  If the tool writes a binary, the monitor loads it.  Whatever values the signals take, as long as every
expression has a value (no division by zero, say), the monitor runs, its verdicts are those of the formulas, where an atom
holds at time `t` if the value of its expression at `t` is not 0, and they come in time: a future-time verdict at most its
span after it, a past-time one at once.

Missing, as in C64: the specifications are as `Fit` describes, and equality saturation is off.  Also missing: floating point
literals whose lower half the C binary cannot hold, negative integer literals and `prev` of `prev` (see `BzAtoms`), and the type
of a node is what the type checker gave the expression (`TypedAs`). -/
theorem C75_compile_and_run_numbers_partial {f : α → Ast} {o : CliOpts} {b : BackEnd} (hA : BzAtoms f b.sid b.bits b.signals)
    (hsep : AtomsSeparate f) (hdes : ∀ a, Desugared false (f a)) {h : Heap Lab} {n ft pt fuel : Nat} {fs ps : List (SpecOf α)}
    (hp : Program f h n ft pt fs ps) (hx : Apart h ft pt) (hnum : ((fs ++ ps).map (·.2.1)).Nodup)
    (hfs : ∀ s ∈ fs, Fit o false s.2.2) (hps : ∀ s ∈ ps, Fit o true s.2.2)
    (hkf : ∀ s ∈ fs, span false s.2.2 ≤ b.slack) (hkp : ∀ s ∈ ps, span true s.2.2 ≤ b.slack)
    {ty : Ast → Bool} (hty : ∀ g n', compileG o fuel ft pt (h, n) = some (g, n') → TypedAs f ty b.ty g)
    {bytes : List Nat} {bounds : Bounds} (hc : compileBinaryBz o b fuel ft pt (h, n) = some (bytes, bounds)) (ops : FloatOps F) :
    ∃ es stop m0 F0 bound, (∀ fuel, bound ≤ fuel → loadBinary fuel bytes = some (es, stop)) ∧
      BzMon.load ops bounds.bzLimits es (BzMon.zero F) = some m0 ∧
      Flat.start bounds.limits (LoadEv.configs es) (LoadEv.tlTable es) = some F0 ∧
      ∀ fuel, bound ≤ fuel → ∀ (σ : Nat → Nat → Cell F) (T : Nat), T + b.slack < 2 ^ 31 →
        (∀ t, t < T → ∀ a, (∀ e, Tree.Within e (f a) → ∃ v, Ast.Value ops ty b.bits (fun t s => σ t (b.sid s).toNat) t e v) ∧
          ∃ i, Ast.Value ops ty b.bits (fun t s => σ t (b.sid s).toNat) t (f a) (.int i)) →
        ∃ m F1, engineRun ops bounds.bzLimits (BzMon.table es) (LoadEv.tlTable es) fuel σ T (m0, F0) = some (m, F1) ∧
          (∀ s ∈ fs, Answers (sat (fun t a => ∃ i, i ≠ 0 ∧ Ast.Value ops ty b.bits (fun t s => σ t (b.sid s).toNat) t (f a) (.int i)) s.2.2)
              (F1.reports s.2.1) ∧
            ∀ t, t + span false s.2.2 < T → ∃ v ∈ F1.reports s.2.1, t ≤ v.time) ∧
          (∀ s ∈ ps, Answers (sat (fun t a => ∃ i, i ≠ 0 ∧ Ast.Value ops ty b.bits (fun t s => σ t (b.sid s).toNat) t (f a) (.int i)) s.2.2)
              (F1.reports s.2.1) ∧
            ∀ t, t < T → ∃ v ∈ F1.reports s.2.1, t ≤ v.time) := by
  simp only [compileBinaryBz, Option.bind_eq_some_iff, Prod.exists] at hc
  obtain ⟨g, n', hc, ha⟩ := hc
  have hpl := plain_two hA.plain
  obtain ⟨fs', ps', on, hshape, _, _⟩ := compile_on hpl hsep hdes hp hx hfs hps hc
  have hbt := compile_between hpl hsep hdes hp hfs hps hc
  have hty := hty g n' hc
  simp only [assembleBzG, Option.bind_eq_some_iff, Option.map_eq_some_iff, Prod.exists, Prod.mk.injEq] at ha
  obtain ⟨hb, a, e1, sz, e2, A, e3, bytes', e4, rfl, rfl⟩ := ha
  have fin : ∀ {past : Bool} {as bs : List (SpecOf α)}, List.Forall₂ (Tracked past) as bs → (∀ s ∈ bs, Nowhere isExtended s.2.2 ∧ Nowhere isWide s.2.2) →
      ∀ s ∈ bs, Final past s.2.2 ∧ ¬ isConst s.2.2 := by
    intro past as bs ht hs s hm
    obtain ⟨_, _, h1⟩ := forall2_mem_left ht.flip hm
    exact ⟨⟨h1.plain, (hs s hm).1, (hs s hm).2⟩, h1.varies⟩
  have nums : ∀ {past : Bool} {as bs : List (SpecOf α)}, List.Forall₂ (Tracked past) as bs → bs.map (·.2.1) = as.map (·.2.1) := by
    intro past as bs ht
    induction ht with
    | nil => rfl
    | cons x _ ih => simp only [List.map_cons, ih, x.number]
  have M : Made f b g n' ft pt fs' ps' fuel hb a := {
    plain := hA.plain
    sep := hsep
    des := hdes
    below := on.below
    acyclic := on.acyclic
    ft_lt := on.ft_lt
    pt_lt := on.pt_lt
    apart := on.apart
    future := on.future
    past := on.past
    between := hbt
    ffin := fin on.ftrack fun s hs => hshape s (List.mem_append_left _ hs)
    pfin := fin on.ptrack fun s hs => hshape s (List.mem_append_right _ hs)
    numbers := by rw [List.map_append, nums on.ftrack, nums on.ptrack, ← List.map_append]; exact hnum
    done := e1 }
  have tspan : ∀ {past : Bool} {as bs : List (SpecOf α)}, List.Forall₂ (Tracked past) as bs → (∀ s ∈ as, span past s.2.2 ≤ b.slack) →
      ∀ s ∈ bs, span past s.2.2 ≤ b.slack := by
    intro past as bs ht hs s hm
    obtain ⟨s0, hm0, h1⟩ := forall2_mem_left ht.flip hm
    exact le_trans h1.span (hs s0 hm0)
  have hbf := tspan on.ftrack hkf
  have hbp := tspan on.ptrack hkp
  have hfits := assemble_fits e4
  have L := M.link
  obtain ⟨r1, r2, r3⟩ := M.ready
  obtain ⟨bytes2, es, stop, m0, F0, bound, c1, c2, c3, c4, c5⟩ := C55_signals_partial _ r1 r3 r2 rfl b.slack (Int.natCast_nonneg _) _ _ _
    (L.monitorable b.slack hbf hbp) (M.flat hA) fuel fuel sz e2 A e3 b.signals (a.ids.map (·.2))
    (C21_atomics_partial _ n' ft pt fuel M.fresh M.ft_lt M.pt_lt hb a M.done b.signals A) (M.room hA A) b.aux (M.bzFits hA e3 e4) hfits.1 hfits.2.1 hfits.2.2 ops
  rw [e4] at c1
  cases c1
  refine ⟨es, stop, m0, F0, max bound (A.instrs.length + 1), fun fl hfl => c2 fl (by omega), c3, c4, ?_⟩
  intro fl hfl σ T hT hv
  obtain ⟨m, F1, d1, d2⟩ := c5 fl (by omega) σ T (by omega) (fun x hlx => by have := L.ahead_le hbp hlx; omega)
    (fun t ht => M.defined hty (fun c e hw => (hv t ht c).1 e hw) (fun c => (hv t ht c).2))
  refine ⟨m, F1, d1, ?_⟩
  -- the inputs of the temporal engine: what the booleanizer gave it, and after that the atoms themselves
  let π : Trace Nat := fun t i => if t < T then (Made.prog b ft pt hb a).AtomTrue ops σ t i else
    ∃ y c, (Made.prog b ft pt hb a).Live y ∧ Made.Sh f g n' hb a y (.atom c) ∧ a.ids.lookup y = some i ∧
      ∃ j, j ≠ 0 ∧ Ast.Value ops ty b.bits (fun t s => σ t (b.sid s).toNat) t (f c) (.int j)
  have hπ1 : ∀ t, t < T → ∀ i, π t i ↔ (Made.prog b ft pt hb a).AtomTrue ops σ t i := by
    intro t ht i; simp only [π, if_pos ht]
  have hπ2 : ∀ y i c, (Made.prog b ft pt hb a).Live y → Made.Sh f g n' hb a y (.atom c) → a.ids.lookup y = some i → ∀ t, π t i ↔
      ∃ j, j ≠ 0 ∧ Ast.Value ops ty b.bits (fun t s => σ t (b.sid s).toNat) t (f c) (.int j) := by
    intro y i c hy hs hi t
    by_cases ht : t < T
    · simp only [π, if_pos ht]
      exact M.atom_true hty (fun c => (hv t ht c).2) hy hs hi
    · simp only [π, if_neg ht]
      constructor
      · rintro ⟨y', c', h1, h2, h3, h4⟩
        obtain rfl : y' = y := (C20_distinct _ n' ft pt fuel M.fresh M.ft_lt M.pt_lt hb a M.done).1 y' y i h3 hi
        have := M.uniq y' _ _ h2 hs
        cases this
        exact h4
      · intro h4
        exact ⟨y, c, hy, hs, hi, h4⟩
  have d2 := d2 π hπ1
  refine ⟨fun s hs => ?_, fun s hs => ?_⟩
  · obtain ⟨s', hs', ht⟩ := forall2_mem_left on.ftrack hs
    obtain ⟨x, c, x1, x2, x3, x4, x5⟩ := L.node false s' hs'
    obtain ⟨e, y1, y2⟩ := L.says_expr s'.2.2 x4 (L.ffin s' hs').1 x5
    obtain ⟨z1, z2, _⟩ := d2 x _ c e x1 x2 x3 y1
    rw [ht.number] at z1 z2
    refine ⟨?_, fun t hlt => z2 t ?_⟩
    · have : sat π e = sat (fun t a => ∃ i, i ≠ 0 ∧ Ast.Value ops ty b.bits (fun t s => σ t (b.sid s).toNat) t (f a) (.int i)) s.2.2 := by
        funext t
        exact propext ((y2 π (fun t a => ∃ i, i ≠ 0 ∧ Ast.Value ops ty b.bits (fun t s => σ t (b.sid s).toNat) t (f a) (.int i))
          (fun y i a' h1 h2 h3 t => hπ2 y i a' h1 h2 h3 t) t).trans (ht.equiv _ t))
      rw [← this]; exact z1
    · have h1 := ht.span
      simp only [L.spanSh_eq x5]
      omega
  · obtain ⟨s', hs', ht⟩ := forall2_mem_left on.ptrack hs
    obtain ⟨x, c, x1, x2, x3, x4, x5⟩ := L.node true s' hs'
    obtain ⟨e, y1, y2⟩ := L.says_expr s'.2.2 x4 (L.pfin s' hs').1 x5
    obtain ⟨z1, z2, _⟩ := d2 x _ c e x1 x2 x3 y1
    rw [ht.number] at z1 z2
    refine ⟨?_, fun t hlt => z2 t ?_⟩
    · have : sat π e = sat (fun t a => ∃ i, i ≠ 0 ∧ Ast.Value ops ty b.bits (fun t s => σ t (b.sid s).toNat) t (f a) (.int i)) s.2.2 := by
        funext t
        exact propext ((y2 π (fun t a => ∃ i, i ≠ 0 ∧ Ast.Value ops ty b.bits (fun t s => σ t (b.sid s).toNat) t (f a) (.int i))
          (fun y i a' h1 h2 h3 t => hπ2 y i a' h1 h2 h3 t) t).trans (ht.equiv _ t))
      rw [← this]; exact z1
    · simp only [L.spanSh_eq x5]
      rw [show span false s'.2.2 = 0 from span_other (past := true) s'.2.2 ht.plain]
      omega

/-! ### A program that is compiled and run -/

/-- Signal `x`. -/
abbrev czX : Ast := .node (.name "x") []
/-- Signal `y`. -/
abbrev czY : Ast := .node (.name "y") []
/-- An integer. -/
abbrev czI (i : Int) : Ast := .node (.lit (.int i)) []

/-- `x > 5` and `prev(0, x) < y`. -/
def czAtom (a : Bool) : Ast :=
  if a then .node (.op .gt) [czX, czI 5] else .node (.op .lt) [.node (.op .prev) [czI 0, czX], czY]

/-- `a: G[0,2] (x > 5) && F[1,3] (prev(0, x) < y)` and `b: !(G[0,2] (x > 5))`, which share a node, and the past-time
specification `p: O[0,2] (prev(0, x) < y)`. -/
def czHeap : Heap Lab where
  lab
    | 1 => .formula "a" 0 | 2 => .formula "b" 1 | 3 => .op .and | 4 => .op .neg | 5 => .tmp .G 0 2 | 6 => .tmp .F 1 3 | 7 => .op .gt
    | 8 => .op .lt | 9 => .name "x" | 10 => .lit (.int 5) | 11 => .op .prev | 12 => .name "y" | 13 => .lit (.int 0) | 14 => .name "x"
    | 16 => .formula "p" 2 | 17 => .tmp .O 0 2 | 18 => .op .lt | 19 => .op .prev | 20 => .name "y" | 21 => .lit (.int 0) | 22 => .name "x"
    | _ => .specSet
  kids
    | 0 => [1, 2] | 1 => [3] | 2 => [4] | 3 => [5, 6] | 4 => [5] | 5 => [7] | 6 => [8] | 7 => [9, 10] | 8 => [11, 12] | 11 => [13, 14]
    | 15 => [16] | 16 => [17] | 17 => [18] | 18 => [19, 20] | 19 => [21, 22] | _ => []
  pars
    | 1 => [0] | 2 => [0] | 3 => [1] | 4 => [2] | 5 => [3, 4] | 6 => [3] | 7 => [5] | 8 => [6] | 9 => [7] | 10 => [7] | 11 => [8] | 12 => [8]
    | 13 => [11] | 14 => [11] | 16 => [15] | 17 => [16] | 18 => [17] | 19 => [18] | 20 => [18] | 21 => [19] | 22 => [19] | _ => []

/-- All numbers are integers; signal `x` is input 0 and `y` is input 1; three more steps in every queue. -/
def czBack : BackEnd := ⟨fun _ => true, fun _ => 0, fun _ => 0, fun s => if s = "x" then 0 else 1, fun _ => 0, 2, 3, []⟩

theorem czHeap_program : Program czAtom czHeap 23 0 15 crFs crPs where
  below := by
    refine ⟨?_, ?_⟩
    · intro p c hc
      match p, hc with
      | 0, hc | 1, hc | 2, hc | 3, hc | 4, hc | 5, hc | 6, hc | 7, hc | 8, hc | 11, hc | 15, hc | 16, hc | 17, hc | 18, hc | 19, hc =>
        simp only [czHeap, List.mem_cons, List.not_mem_nil, or_false] at hc
        omega
      | 9, hc | 10, hc | 12, hc | 13, hc | 14, hc => simp [czHeap] at hc
      | _ + 20, hc => simp [czHeap] at hc
    · intro p hp
      match p, hp with
      | p + 23, _ => rfl
  acyclic := by
    intro x
    match x with
    | 0 | 1 | 2 | 3 | 4 | 5 | 6 | 7 | 8 | 9 | 10 | 11 | 12 | 13 | 14 | 15 | 16 | 17 | 18 | 19 | 20 | 21 | 22 => exact ⟨_, 9, rfl⟩
    | n + 23 => exact ⟨.node .specSet [], 1, rfl⟩
  parents := by
    intro p c hc
    match p, hc with
    | 0, hc | 1, hc | 2, hc | 3, hc | 4, hc | 5, hc | 6, hc | 7, hc | 8, hc | 11, hc | 15, hc | 16, hc | 17, hc | 18, hc | 19, hc =>
      simp only [czHeap, List.mem_cons, List.not_mem_nil, or_false] at hc
      rcases hc with rfl | rfl <;> simp [czHeap]
    | 9, hc | 10, hc | 12, hc | 13, hc | 14, hc => simp [czHeap] at hc
    | _ + 20, hc => simp [czHeap] at hc
  ft_lt := by decide
  pt_lt := by decide
  ne := by decide
  ft_top := rfl
  pt_top := rfl
  future := ⟨9, rfl⟩
  past := ⟨9, rfl⟩
  idents := crHeap_program.idents
  labels := crHeap_program.labels
  operands := crHeap_program.operands

theorem czHeap_apart : Apart czHeap 0 15 := by
  intro x h1 h2
  have a1 : x ≤ 14 := by
    clear h2
    induction h1 with
    | root h => simp at h; omega
    | @kid p c _ hc ih =>
      match p, hc, ih with
      | 0, hc, _ | 1, hc, _ | 2, hc, _ | 3, hc, _ | 4, hc, _ | 5, hc, _ | 6, hc, _ | 7, hc, _ | 8, hc, _ | 11, hc, _ =>
        simp only [czHeap, List.mem_cons, List.not_mem_nil, or_false] at hc
        omega
      | 9, hc, _ | 10, hc, _ | 12, hc, _ | 13, hc, _ | 14, hc, _ => simp [czHeap] at hc
      | _ + 15, _, ih => omega
  have a2 : 15 ≤ x := by
    clear h1 a1
    induction h2 with
    | root h => simp at h; omega
    | @kid p c _ hc ih =>
      match p, hc, ih with
      | 15, hc, _ | 16, hc, _ | 17, hc, _ | 18, hc, _ | 19, hc, _ =>
        simp only [czHeap, List.mem_cons, List.not_mem_nil, or_false] at hc
        omega
      | 0, _, ih | 1, _, ih | 2, _, ih | 3, _, ih | 4, _, ih | 5, _, ih | 6, _, ih | 7, _, ih | 8, _, ih | 9, _, ih | 10, _, ih | 11, _, ih
      | 12, _, ih | 13, _, ih | 14, _, ih => omega
      | _ + 20, hc, _ => simp [czHeap] at hc
  omega

theorem cz_within {e : Ast} {a : Bool} (h : Tree.Within e (czAtom a)) : e = czAtom a ∨ e = czX ∨ e = czY ∨ e = czI 0 ∨ e = czI 5 ∨
    e = .node (.op .prev) [czI 0, czX] := by
  have leaf : ∀ {l : Lab}, Tree.Within e (.node l []) → e = .node l [] := by
    intro l h
    cases h with
    | self => rfl
    | kid h _ => simp at h
  have prev : Tree.Within e (.node (.op .prev) [czI 0, czX]) → e = czI 0 ∨ e = czX ∨ e = .node (.op .prev) [czI 0, czX] := by
    intro h
    cases h with
    | self => simp
    | kid hc h =>
      simp only [List.mem_cons, List.not_mem_nil, or_false] at hc
      rcases hc with rfl | rfl
      · simp [leaf h]
      · simp [leaf h]
  cases a
  · simp only [czAtom, Bool.false_eq_true, if_false] at h ⊢
    cases h with
    | self => simp
    | kid hc h =>
      simp only [List.mem_cons, List.not_mem_nil, or_false] at hc
      rcases hc with rfl | rfl
      · rcases prev h with h | h | h <;> simp [h]
      · simp [leaf h]
  · simp only [czAtom, if_true] at h ⊢
    cases h with
    | self => simp
    | kid hc h =>
      simp only [List.mem_cons, List.not_mem_nil, or_false] at hc
      rcases hc with rfl | rfl <;> simp [leaf h]

theorem cz_atoms : BzAtoms czAtom czBack.sid czBack.bits czBack.signals where
  plain := by
    have leaf : ∀ l : Lab, l.logical = false → (∀ o, l ≠ .op o) → (Tree.node l [] : Ast).All fun l k => l.logical = false ∧ bzOperands l k :=
      fun l h1 h2 => .node ⟨h1, fun o h => absurd h (h2 o)⟩ (by simp)
    have op : ∀ o : OpK, ∀ s t : Ast, (Lab.op o).logical = false → 2 ∈ o.bzArity → s.All (fun l k => l.logical = false ∧ bzOperands l k) →
        t.All (fun l k => l.logical = false ∧ bzOperands l k) → (Tree.node (.op o) [s, t] : Ast).All fun l k => l.logical = false ∧ bzOperands l k := by
      intro o s t h1 h2 h3 h4
      refine .node ⟨h1, ?_⟩ (by simp [h3, h4])
      intro o' h
      cases h
      exact h2
    have x := leaf (.name "x") rfl (by simp)
    have y := leaf (.name "y") rfl (by simp)
    have i : ∀ i, (czI i).All fun l k => l.logical = false ∧ bzOperands l k := fun i => leaf (.lit (.int i)) rfl (by simp)
    intro a
    cases a
    · exact ⟨op .lt _ _ rfl (by decide) (op .prev _ _ rfl (by decide) (i 0) x) y, by simp [czAtom]⟩
    · exact ⟨op .gt _ _ rfl (by decide) x (i 5), by simp [czAtom]⟩
  ints := by
    intro a i h
    have := cz_within h
    cases a <;> simp [czAtom] at this <;> rcases this with h | h <;> subst h <;> decide
  floats := by
    intro a i h
    have := cz_within h
    cases a <;> simp [czAtom] at this
  signals := by
    intro a s h
    have := cz_within h
    cases a <;> simp [czAtom] at this <;> rcases this with h | h <;> subst h <;> decide
  prevs := by
    intro a c d h
    have := cz_within h
    cases a <;> simp [czAtom] at this <;> obtain ⟨rfl, rfl⟩ := this <;> exact ⟨.inl ⟨_, rfl⟩, by simp [Tree.label]⟩

theorem cz_separate : AtomsSeparate czAtom ∧ ∀ a, Desugared false (czAtom a) := by
  constructor
  · intro a e h
    cases e <;> cases a <;> (try (simp [toAst, czAtom] at h; done))
    all_goals
      rename_i b
      cases b <;> first | rfl | (simp [toAst, czAtom] at h)
  · intro a
    cases a <;> simp [czAtom, Desugared, DesugaredL, ident_x, ident_y]

/-- When the atoms hold, `v t 0` and `v t 1` being the values of `x` and `y` at `t`. -/
def czTrace (v : Nat → Nat → Int) : Trace Bool := fun t a => if a then v t 0 > 5 else (if t = 0 then 0 else v (t - 1) 0) < v t 1

/-- Integer signals. -/
def czIn (v : Nat → Nat → Int) : Nat → Nat → Cell Unit := fun t i => .int (v t i)

/-- The value of a part of an atom. -/
abbrev czVal (v : Nat → Nat → Int) : Nat → Ast → Cell Unit → Prop :=
  Ast.Value noFloats (fun _ => true) czBack.bits (fun t s => czIn v t (czBack.sid s).toNat)

theorem cz_x (v : Nat → Nat → Int) (t : Nat) : czVal v t czX (.int (v t 0)) := .sigI rfl rfl
theorem cz_y (v : Nat → Nat → Int) (t : Nat) : czVal v t czY (.int (v t 1)) := .sigI rfl rfl
theorem cz_prev (v : Nat → Nat → Int) (t : Nat) : czVal v t (.node (.op .prev) [czI 0, czX]) (.int (if t = 0 then 0 else v (t - 1) 0)) := by
  cases t with
  | zero => exact .first .int
  | succ t => exact .next (cz_x v t)
theorem cz_atom (v : Nat → Nat → Int) (t : Nat) (a : Bool) : ∃ i, czVal v t (czAtom a) (.int i) ∧ (i ≠ 0 ↔ czTrace v t a) := by
  cases a
  · exact ⟨_, .int2 rfl (cz_prev v t) (cz_y v t) rfl, by simp [czTrace]⟩
  · exact ⟨_, .int2 rfl (cz_x v t) .int rfl, by simp [czTrace]⟩

/-- Integers have one value. -/
theorem cz_unique {v : Nat → Nat → Int} {t : Nat} {e : Ast} {u : Cell Unit} (h : czVal v t e u) : ∀ u', czVal v t e u' → u = u' := by
  induction h with
  | sigI h1 h2 => intro u' h'; cases h' <;> simp_all
  | sigF h1 h2 => cases h1
  | int => intro u' h'; cases h'; rfl
  | float => intro u' h'; cases h'; rfl
  | int1 h1 h2 h3 ih =>
    intro u' h'
    cases h' with
    | int1 _ q q3 => cases ih _ q; simp_all
    | flt1 q _ _ => simp at q
  | int2 h1 h2 h2' h3 ih ih' =>
    intro u' h'
    cases h' with
    | int2 _ q q' q3 => cases ih _ q; cases ih' _ q'; simp_all
    | flt2 q _ _ _ => simp at q
    | first q => simp [OpK.int2] at h3
    | next q => simp [OpK.int2] at h3
  | flt1 h1 => cases h1
  | flt2 h1 => cases h1
  | first h ih =>
    intro u' h'
    cases h' with
    | int2 _ q q' q3 => simp [OpK.int2] at q3
    | flt2 q _ _ _ => simp at q
    | first q => exact ih _ q
  | next h ih =>
    intro u' h'
    cases h' with
    | int2 _ q q' q3 => simp [OpK.int2] at q3
    | flt2 q _ _ _ => simp at q
    | next q => exact ih _ q

/-- All the hypotheses of C75 hold of this program with rewriting and common subexpressions on, and of every history of integer inputs, so its
conclusion does. -/
example : ∃ bytes bounds, compileBinaryBz ⟨true, false, true⟩ czBack 60 0 15 (czHeap, 23) = some (bytes, bounds) ∧
    ∃ es stop m0 F0 bound, (∀ fuel, bound ≤ fuel → loadBinary fuel bytes = some (es, stop)) ∧
      BzMon.load noFloats bounds.bzLimits es (BzMon.zero Unit) = some m0 ∧
      Flat.start bounds.limits (LoadEv.configs es) (LoadEv.tlTable es) = some F0 ∧
      ∀ fuel, bound ≤ fuel → ∀ (v : Nat → Nat → Int) (T : Nat), T + 3 < 2 ^ 31 →
        ∃ m F1, engineRun noFloats bounds.bzLimits (BzMon.table es) (LoadEv.tlTable es) fuel (czIn v) T (m0, F0) = some (m, F1) ∧
          (∀ s ∈ crFs, Answers (sat (czTrace v) s.2.2) (F1.reports s.2.1) ∧
            ∀ t, t + span false s.2.2 < T → ∃ v ∈ F1.reports s.2.1, t ≤ v.time) ∧
          (∀ s ∈ crPs, Answers (sat (czTrace v) s.2.2) (F1.reports s.2.1) ∧
            ∀ t, t < T → ∃ v ∈ F1.reports s.2.1, t ≤ v.time) := by
  have hm : (compileBinaryBz ⟨true, false, true⟩ czBack 60 0 15 (czHeap, 23)).map (fun r => r.2.maxAtomics) = some 3 := by decide +kernel
  obtain ⟨⟨bytes, bounds⟩, hr, hb⟩ := Option.map_eq_some_iff.1 hm
  refine ⟨bytes, bounds, hr, ?_⟩
  obtain ⟨es, stop, m0, F0, bound, c1, c2, c3, c4⟩ := C75_compile_and_run_numbers_partial (b := czBack) cz_atoms cz_separate.1 cz_separate.2
    czHeap_program czHeap_apart (by simp [crFs, crPs]) cr_fit.1 cr_fit.2 (by
      intro s hs
      simp only [crFs, List.mem_cons, List.not_mem_nil, or_false] at hs
      rcases hs with rfl | rfl <;> simp [span, spanL, czBack]) (by
      intro s hs
      simp only [crPs, List.mem_cons, List.not_mem_nil, or_false] at hs
      subst hs
      simp [span, czBack]) (ty := fun _ => true) (fun g n' _ x s a _ _ => rfl) hr noFloats
  refine ⟨es, stop, m0, F0, bound, c1, c2, c3, ?_⟩
  intro fuel hf v T hT
  have ht : (fun t a => ∃ i, i ≠ 0 ∧ czVal v t (czAtom a) (.int i)) = czTrace v := by
    funext t a
    obtain ⟨i, h1, h2⟩ := cz_atom v t a
    refine propext ⟨?_, fun h => ⟨i, h2.2 h, h1⟩⟩
    rintro ⟨j, hj, h3⟩
    cases cz_unique h1 _ h3
    exact h2.1 hj
  obtain ⟨m, F1, d1, d2, d3⟩ := c4 fuel hf (czIn v) T hT (by
    intro t _ a
    obtain ⟨i, h1, _⟩ := cz_atom v t a
    refine ⟨?_, i, h1⟩
    intro e he
    rcases cz_within he with rfl | rfl | rfl | rfl | rfl | rfl
    · exact ⟨_, h1⟩
    · exact ⟨_, cz_x v t⟩
    · exact ⟨_, cz_y v t⟩
    · exact ⟨_, .int⟩
    · exact ⟨_, .int⟩
    · exact ⟨_, cz_prev v t⟩)
  refine ⟨m, F1, d1, ?_⟩
  rw [← ht]
  exact ⟨d2, d3⟩

end R2U2
