import Verif.Props.RustBz
import Verif.Props.RustCompile
import Verif.Props.CompileBz
/-
From formulas over comparisons of numbers to the verdicts of the Rust monitor.
-/
namespace R2U2
open Heap Expr GraphPass
variable {α F : Type}

/-- How many verdicts a step can have. -/
theorem Link.cap {P : BProg} {Sh : Nat → Expr α → Prop} {fs ps : List (SpecOf α)} (L : Link P Sh fs ps)
    (hnum : ∀ x y k, P.Live x → P.Live y → P.heap.lab x = .formula k → P.heap.lab y = .formula k → x = y)
    (l : List Nat) (hl : l.Nodup) (hlive : ∀ x ∈ l, P.Live x ∧ (P.heap.lab x).isFormula = true) :
    (l.map (P.burstAt (fun x => -(spanSh Sh true x : Int)) (fun x => (spanSh Sh false x : Int)))).sum ≤
      (fs.map fun s => span false s.2.2 + 1).sum + (ps.map fun s => span true s.2.2 + 1).sum := by
  let w : Nat → Nat := P.burstAt (fun x => -(spanSh Sh true x : Int)) (fun x => (spanSh Sh false x : Int))
  have find : ∀ x ∈ l, ∃ k, P.heap.lab x = .formula k ∧ (k, w x) ∈
      fs.map (fun s => (s.2.1, span false s.2.2 + 1)) ++ ps.map (fun s => (s.2.1, span true s.2.2 + 1)) := by
    intro x hx
    obtain ⟨h1, h2⟩ := hlive x hx
    have he : P.engine x = .tl := by
      unfold BProg.engine
      revert h2
      cases P.heap.lab x <;> simp [BNode.isFormula, BNode.engine]
    cases L.tl x h1 he with
    | expr past s e g1 g2 g3 g4 => rw [good_formula (L.shape past x e h1 g4 g3)] at h2; cases h2
    | spec past s c g1 g2 g3 g4 g5 =>
      refine ⟨s.2.1, g2, ?_⟩
      have htgt : P.tgt x = c := by unfold BProg.tgt; rw [g2, g3]
      simp only [w, BProg.burstAt, htgt, L.spanSh_eq g4]
      rw [List.mem_append]
      cases past with
      | false =>
        left
        have : span true s.2.2 = 0 := span_other (past := false) s.2.2 (L.ffin s g1).1.1
        rw [List.mem_map]
        exact ⟨s, g1, by rw [this]; simp⟩
      | true =>
        right
        have : span false s.2.2 = 0 := span_other (past := true) s.2.2 (L.pfin s g1).1.1
        rw [List.mem_map]
        exact ⟨s, g1, by rw [this]; simp⟩
  let num : Nat → Nat := fun x => match P.heap.lab x with | .formula k => k | _ => 0
  have key := sum_subset (w := fun p : Nat × Nat => p.2) (l := l.map fun x => (num x, w x))
    (l' := fs.map (fun s => (s.2.1, span false s.2.2 + 1)) ++ ps.map (fun s => (s.2.1, span true s.2.2 + 1)))
    (by
      refine List.Nodup.map_on ?_ hl
      intro x hx y hy hxy
      obtain ⟨k1, f1, _⟩ := find x hx
      obtain ⟨k2, f2, _⟩ := find y hy
      have : num x = num y := congrArg Prod.fst hxy
      simp only [num, f1, f2] at this
      subst this
      exact hnum x y k1 (hlive x hx).1 (hlive y hy).1 f1 f2)
    (by
      intro p hp
      rw [List.mem_map] at hp
      obtain ⟨x, hx, rfl⟩ := hp
      obtain ⟨k1, f1, f2⟩ := find x hx
      simp only [num, f1]
      exact f2)
  simp only [List.map_map, List.map_append, List.sum_append] at key
  exact key

/-- The spans of what the passes made are no larger. -/
theorem span_sum {past : Bool} {as bs : List (SpecOf α)} (ht : List.Forall₂ (Tracked past) as bs) :
    (bs.map fun s => span past s.2.2 + 1).sum ≤ (as.map fun s => span past s.2.2 + 1).sum := by
  induction ht with
  | nil => exact Nat.le_refl _
  | cons x _ ih => have := x.span; simp only [List.map_cons, List.sum_cons]; omega

/-- The instructions made for such atoms are those both monitors compute in the same way. -/
theorem Made.common {f : α → Ast} {b : BackEnd} {g : Heap Lab} {n0 ft pt fuel : Nat} {fs ps : List (SpecOf α)} {h : Heap BNode} {a : AtomState}
    (M : Made f b g n0 ft pt fs ps fuel h a) {ty : Ast → Bool} (hty : TypedAs f ty b.ty g) (hcm : Rs.CommonAtoms f ty)
    {scq : Nat → Option (Int × Int)} {A : BProg.Assembly} (hg : BProg.genAssembly fuel (Made.prog b ft pt h a) scq = some A) :
    ∀ i ∈ A.bz, Rs.sameInBoth i.op = true := by
  obtain ⟨r1, r2, r3⟩ := M.ready
  obtain ⟨cell, _, _, hm, _⟩ := BProg.C53_code _ r1 r3 r2 fuel scq A hg
  intro i hi
  obtain ⟨x, hx, hmean⟩ := hm i hi
  have hop : ∀ o t, h.lab x = .op o t → (o ∈ [OpK.eq, .ne, .gt, .ge, .lt, .le] → t = true) ∧ (o ∈ [OpK.pow, .sqrt] → t = false) := by
    intro o t hl
    obtain ⟨h1, k, e, hw, hd⟩ := M.cell hx.1 hx.2.1 (show h.lab x ≠ .atomic by rw [hl]; simp)
    rw [M.lab h1] at hl
    have hb := hty x e k hd hw
    have hin := M.inner hw
    cases hin <;> rw [denotes_lab hd rfl] at hl <;> simp only [toBNode, BNode.op.injEq, reduceCtorEq] at hl
    all_goals
      obtain ⟨rfl, rfl⟩ := hl
      rw [hb]
      exact hcm k _ _ hw
  have key : ∀ o t k, h.lab x = .op o t → bzOperator o t = some k → Rs.sameInBoth k = true := by
    intro o t k hl hk
    obtain ⟨h1, h2⟩ := hop o t hl
    cases o <;> cases t <;> simp [bzOperator] at hk h1 h2 <;> subst hk <;> rfl
  obtain ⟨id, op, v, w⟩ := i
  unfold BProg.BzMeans at hmean
  split at hmean <;> try simp only [BzInstr.mk.injEq] at hmean
  all_goals first
    | (obtain ⟨_, rfl, _⟩ := hmean; rfl)
    | (rename_i hl _; obtain ⟨k, hk, _, rfl, _⟩ := hmean; exact key _ _ _ hl hk)

/-- The Rust monitor on a compiled program, by what the C monitor with the operations `c` computes. -/
theorem rust_numbers {f : α → Ast} {o : CliOpts} {b : BackEnd} (hA : BzAtoms f b.sid b.bits b.signals)
    (hsep : AtomsSeparate f) (hdes : ∀ a, Desugared false (f a)) {h : Heap Lab} {n ft pt fuel : Nat} {fs ps : List (SpecOf α)}
    (hp : Program f h n ft pt fs ps) (hx : Apart h ft pt) (hnum : ((fs ++ ps).map (·.2.1)).Nodup)
    (hfs : ∀ s ∈ fs, Fit o false s.2.2) (hps : ∀ s ∈ ps, Fit o true s.2.2)
    (hkf : ∀ s ∈ fs, span false s.2.2 ≤ b.slack) (hkp : ∀ s ∈ ps, span true s.2.2 ≤ b.slack)
    {ty : Ast → Bool} (hty : ∀ g n', compileG o fuel ft pt (h, n) = some (g, n') → TypedAs f ty b.ty g)
    (haux : ∀ x ∈ b.aux, x < 256)
    {bytes : List Nat} {bounds : Bounds} (hc : compileBinaryBz o b fuel ft pt (h, n) = some (bytes, bounds))
    (lim : Rs.Limits) (hlim : Rs.Covers lim bounds) (hlb : bounds.maxBz ≤ lim.bz) (nsig : Nat) (hns : bounds.maxSignals ≤ nsig)
    (hcap : (fs.map fun s => span false s.2.2 + 1).sum + (ps.map fun s => span true s.2.2 + 1).sum ≤ lim.outputs) {G : Type} {ι : F → G} {c0 : FloatOps G} {ops : Rs.Ops F}
    {ok : BzOp → Bool} (hlike : Rs.LikeC ι c0 ops ok)
    (hok : ∀ g n' fs' ps' hb a scq A, Made f b g n' ft pt fs' ps' fuel hb a → TypedAs f ty b.ty g →
      BProg.genAssembly fuel (Made.prog b ft pt hb a) scq = some A → ∀ i ∈ A.bz, ok i.op = true) :
    ∃ bound, ∀ fuel, bound ≤ fuel → ∃ S0, Rs.getFull ops lim nsig fuel bytes = some S0 ∧
      (∃ es stop, loadBinary fuel bytes = some (es, stop) ∧ S0.prog = BzMon.table es) ∧
      ∀ (σ : Nat → Nat → Cell G) (σ' : Nat → Rs.Signals F) (T : Nat), (∀ t, Rs.SameVia ι (σ t) (σ' t)) → T + b.slack < 2 ^ 32 →
        (∀ t, t < T → ∀ a, (∀ e, Tree.Within e (f a) → ∃ v, Ast.Value c0 ty b.bits (fun t s => σ t (b.sid s).toNat) t e v) ∧
          ∃ i, Ast.Value c0 ty b.bits (fun t s => σ t (b.sid s).toNat) t (f a) (.int i)) →
        ∀ ψ : Trace α, (∀ t, t < T → ∀ a, ψ t a ↔ ∃ i, i ≠ 0 ∧ Ast.Value c0 ty b.bits (fun t s => σ t (b.sid s).toNat) t (f a) (.int i)) →
        ∃ S out oks, S0.run ops (lim.bzLimits nsig) fuel σ' T = some (S, out, oks) ∧ oks = List.replicate T true ∧
          (∀ s ∈ fs, Answers (sat ψ s.2.2)
              (Rs.reports out s.2.1) ∧
            ∀ t, t + span false s.2.2 < T → ∃ v ∈ Rs.reports out s.2.1, t ≤ v.time) ∧
          (∀ s ∈ ps, Answers (sat ψ s.2.2)
              (Rs.reports out s.2.1) ∧
            ∀ t, t < T → ∃ v ∈ Rs.reports out s.2.1, t ≤ v.time) := by
  simp only [compileBinaryBz, Option.bind_eq_some_iff, Prod.exists] at hc
  obtain ⟨g, n', hc, ha⟩ := hc
  have hpl := plain_two hA.plain
  obtain ⟨fs', ps', on, hshape, _, _⟩ := compile_on hpl hsep hdes hp hx hfs hps hc
  have hbt := compile_between hpl hsep hdes hp hfs hps hc
  have hty := hty g n' hc
  simp only [assembleBzG, Option.bind_eq_some_iff, Option.map_eq_some_iff, Prod.exists, Prod.mk.injEq] at ha
  obtain ⟨hb, a, e1, sz, e2, A, e3, bytes', e4, rfl, rfl⟩ := ha
  have fin : ∀ {past : Bool} {as bs : List (SpecOf α)}, List.Forall₂ (Tracked past) as bs → (∀ s ∈ bs, Nowhere isExtended s.2.2 ∧ Nowhere isWide s.2.2) →
      ∀ s ∈ bs, Final past s.2.2 ∧ ¬ isConst s.2.2 := by
    intro past as bs ht hs s hm
    obtain ⟨_, _, h1⟩ := forall2_mem_left ht.flip hm
    exact ⟨⟨h1.plain, (hs s hm).1, (hs s hm).2⟩, h1.varies⟩
  have nums : ∀ {past : Bool} {as bs : List (SpecOf α)}, List.Forall₂ (Tracked past) as bs → bs.map (·.2.1) = as.map (·.2.1) := by
    intro past as bs ht
    induction ht with
    | nil => rfl
    | cons x _ ih => simp only [List.map_cons, ih, x.number]
  have M : Made f b g n' ft pt fs' ps' fuel hb a := {
    plain := hA.plain
    sep := hsep
    des := hdes
    below := on.below
    acyclic := on.acyclic
    ft_lt := on.ft_lt
    pt_lt := on.pt_lt
    apart := on.apart
    future := on.future
    past := on.past
    between := hbt
    ffin := fin on.ftrack fun s hs => hshape s (List.mem_append_left _ hs)
    pfin := fin on.ptrack fun s hs => hshape s (List.mem_append_right _ hs)
    numbers := by rw [List.map_append, nums on.ftrack, nums on.ptrack, ← List.map_append]; exact hnum
    done := e1 }
  have tspan : ∀ {past : Bool} {as bs : List (SpecOf α)}, List.Forall₂ (Tracked past) as bs → (∀ s ∈ as, span past s.2.2 ≤ b.slack) →
      ∀ s ∈ bs, span past s.2.2 ≤ b.slack := by
    intro past as bs ht hs s hm
    obtain ⟨s0, hm0, h1⟩ := forall2_mem_left ht.flip hm
    exact le_trans h1.span (hs s0 hm0)
  have hbf := tspan on.ftrack hkf
  have hbp := tspan on.ptrack hkp
  have hfits := assemble_fits e4
  have L := M.link
  obtain ⟨r1, r2, r3⟩ := M.ready
  have hmon := L.monitorable b.slack hbf hbp
  obtain ⟨bytes2, bound, c1, c2⟩ := BProg.rust_signals _ r1 r3 r2 rfl b.slack (Int.natCast_nonneg _) _ _ _
    hmon (M.flat hA) fuel fuel sz e2 A e3 b.signals (a.ids.map (·.2))
    (C21_atomics_partial _ n' ft pt fuel M.fresh M.ft_lt M.pt_lt hb a M.done b.signals A) (M.room hA A) b.aux haux (M.bzFits hA e3 e4) hfits.1 hfits.2.1 hfits.2.2
    lim hlim hlb nsig hns
    (fun l h1 h2 => le_trans (L.cap hmon.numbers l h1 h2) (le_trans (Nat.add_le_add (span_sum on.ftrack) (span_sum on.ptrack)) hcap)) hlike (hok _ _ _ _ _ _ _ _ M hty e3)
  rw [e4] at c1
  cases c1
  refine ⟨bound, fun fl hfl => ?_⟩
  obtain ⟨S0, c3, cp, c4⟩ := c2 fl hfl
  refine ⟨S0, c3, cp, ?_⟩
  intro σ σ' T hσ hT hv ψ hψ
  obtain ⟨S, out, oks, d1, hok, d2⟩ := c4 σ σ' T hσ (by omega) (fun x hlx => by have := L.ahead_le hbp hlx; omega)
    (fun t ht => M.defined hty (fun c e hw => (hv t ht c).1 e hw) (fun c => (hv t ht c).2))
  refine ⟨S, out, oks, d1, hok, ?_⟩
  -- the inputs of the temporal engine: what the booleanizer gave it, and after that the atoms themselves
  let π : Trace Nat := fun t i => if t < T then (Made.prog b ft pt hb a).AtomTrue c0 σ t i else
    ∃ y c, (Made.prog b ft pt hb a).Live y ∧ Made.Sh f g n' hb a y (.atom c) ∧ a.ids.lookup y = some i ∧
      ψ t c
  have hπ1 : ∀ t, t < T → ∀ i, π t i ↔ (Made.prog b ft pt hb a).AtomTrue c0 σ t i := by
    intro t ht i; simp only [π, if_pos ht]
  have hπ2 : ∀ y i c, (Made.prog b ft pt hb a).Live y → Made.Sh f g n' hb a y (.atom c) → a.ids.lookup y = some i → ∀ t, π t i ↔
      ψ t c := by
    intro y i c hy hs hi t
    by_cases ht : t < T
    · simp only [π, if_pos ht]
      exact (M.atom_true hty (fun c => (hv t ht c).2) hy hs hi).trans (hψ t ht c).symm
    · simp only [π, if_neg ht]
      constructor
      · rintro ⟨y', c', h1, h2, h3, h4⟩
        obtain rfl : y' = y := (C20_distinct _ n' ft pt fuel M.fresh M.ft_lt M.pt_lt hb a M.done).1 y' y i h3 hi
        have := M.uniq y' _ _ h2 hs
        cases this
        exact h4
      · intro h4
        exact ⟨y, c, hy, hs, hi, h4⟩
  have d2 := d2 π hπ1
  refine ⟨fun s hs => ?_, fun s hs => ?_⟩
  · obtain ⟨s', hs', ht⟩ := forall2_mem_left on.ftrack hs
    obtain ⟨x, c, x1, x2, x3, x4, x5⟩ := L.node false s' hs'
    obtain ⟨e, y1, y2⟩ := L.says_expr s'.2.2 x4 (L.ffin s' hs').1 x5
    obtain ⟨z1, z2, _⟩ := d2 x _ c e x1 x2 x3 y1
    rw [ht.number] at z1 z2
    refine ⟨?_, fun t hlt => z2 t ?_⟩
    · have : sat π e = sat ψ s.2.2 := by
        funext t
        exact propext ((y2 π ψ
          (fun y i a' h1 h2 h3 t => hπ2 y i a' h1 h2 h3 t) t).trans (ht.equiv _ t))
      rw [← this]; exact z1
    · have h1 := ht.span
      simp only [L.spanSh_eq x5]
      omega
  · obtain ⟨s', hs', ht⟩ := forall2_mem_left on.ptrack hs
    obtain ⟨x, c, x1, x2, x3, x4, x5⟩ := L.node true s' hs'
    obtain ⟨e, y1, y2⟩ := L.says_expr s'.2.2 x4 (L.pfin s' hs').1 x5
    obtain ⟨z1, z2, _⟩ := d2 x _ c e x1 x2 x3 y1
    rw [ht.number] at z1 z2
    refine ⟨?_, fun t hlt => z2 t ?_⟩
    · have : sat π e = sat ψ s.2.2 := by
        funext t
        exact propext ((y2 π ψ
          (fun y i a' h1 h2 h3 t => hπ2 y i a' h1 h2 h3 t) t).trans (ht.equiv _ t))
      rw [← this]; exact z1
    · simp only [L.spanSh_eq x5]
      rw [show span false s'.2.2 = 0 from span_other (past := true) s'.2.2 ht.plain]
      omega

/-- C76.  C75 for the Rust monitor: if the tool writes a binary, a Rust monitor whose arrays have at least the sizes written with it, and whose
output buffer has room for the verdicts a step can have, loads it.  Whatever values the signals take, as long as every expression has a
value, no step panics, every step says there was no overflow, and the verdicts read from the output buffer are those of the
formulas, in time.

Partial: as in C75 and C67.  Also, comparisons are of integers, and powers and roots are of floats (`CommonAtoms`): the two monitors
compare floats in different ways, see `C77_monitors_differ_fails`. -/
theorem C76_rust_numbers_partial {f : α → Ast} {o : CliOpts} {b : BackEnd} (hA : BzAtoms f b.sid b.bits b.signals)
    (hsep : AtomsSeparate f) (hdes : ∀ a, Desugared false (f a)) {h : Heap Lab} {n ft pt fuel : Nat} {fs ps : List (SpecOf α)}
    (hp : Program f h n ft pt fs ps) (hx : Apart h ft pt) (hnum : ((fs ++ ps).map (·.2.1)).Nodup)
    (hfs : ∀ s ∈ fs, Fit o false s.2.2) (hps : ∀ s ∈ ps, Fit o true s.2.2)
    (hkf : ∀ s ∈ fs, span false s.2.2 ≤ b.slack) (hkp : ∀ s ∈ ps, span true s.2.2 ≤ b.slack)
    {ty : Ast → Bool} (hty : ∀ g n', compileG o fuel ft pt (h, n) = some (g, n') → TypedAs f ty b.ty g) (hcm : Rs.CommonAtoms f ty)
    (haux : ∀ x ∈ b.aux, x < 256)
    {bytes : List Nat} {bounds : Bounds} (hc : compileBinaryBz o b fuel ft pt (h, n) = some (bytes, bounds))
    (lim : Rs.Limits) (hlim : Rs.Covers lim bounds) (hlb : bounds.maxBz ≤ lim.bz) (nsig : Nat) (hns : bounds.maxSignals ≤ nsig)
    (hcap : (fs.map fun s => span false s.2.2 + 1).sum + (ps.map fun s => span true s.2.2 + 1).sum ≤ lim.outputs) (ops : Rs.Ops F) :
    ∃ bound, ∀ fuel, bound ≤ fuel → ∃ S0, Rs.getFull ops lim nsig fuel bytes = some S0 ∧
      ∀ (σ : Nat → Nat → Cell F) (σ' : Nat → Rs.Signals F) (T : Nat), (∀ t, Rs.SameSignals (σ t) (σ' t)) → T + b.slack < 2 ^ 32 →
        (∀ t, t < T → ∀ a, (∀ e, Tree.Within e (f a) → ∃ v, Ast.Value ops.toFloatOps ty b.bits (fun t s => σ t (b.sid s).toNat) t e v) ∧
          ∃ i, Ast.Value ops.toFloatOps ty b.bits (fun t s => σ t (b.sid s).toNat) t (f a) (.int i)) →
        ∃ S out oks, S0.run ops (lim.bzLimits nsig) fuel σ' T = some (S, out, oks) ∧ oks = List.replicate T true ∧
          (∀ s ∈ fs, Answers (sat (fun t a => ∃ i, i ≠ 0 ∧ Ast.Value ops.toFloatOps ty b.bits (fun t s => σ t (b.sid s).toNat) t (f a) (.int i)) s.2.2)
              (Rs.reports out s.2.1) ∧
            ∀ t, t + span false s.2.2 < T → ∃ v ∈ Rs.reports out s.2.1, t ≤ v.time) ∧
          (∀ s ∈ ps, Answers (sat (fun t a => ∃ i, i ≠ 0 ∧ Ast.Value ops.toFloatOps ty b.bits (fun t s => σ t (b.sid s).toNat) t (f a) (.int i)) s.2.2)
              (Rs.reports out s.2.1) ∧
            ∀ t, t < T → ∃ v ∈ Rs.reports out s.2.1, t ≤ v.time) := by
  obtain ⟨bound, c1⟩ := rust_numbers hA hsep hdes hp hx hnum hfs hps hkf hkp hty haux hc lim hlim hlb nsig hns hcap (same_like ops)
    (fun _ _ _ _ _ _ _ _ M ht hg => M.common ht hcm hg)
  refine ⟨bound, fun fl hfl => ?_⟩
  obtain ⟨S0, c3, _, c4⟩ := c1 fl hfl
  exact ⟨S0, c3, fun σ σ' T hσ hT hv => c4 σ σ' T (fun t k => ⟨((hσ t) k).1, fun v hv => (((hσ t) k).2 v hv).symm⟩) hT hv _ fun _ _ _ => Iff.rfl⟩

/-- All the hypotheses of C76 hold of the program of C75 and a monitor with the bounds written for it (10 verdicts a step at most), and
of every history of integer inputs. -/
example : ∃ bytes bounds, compileBinaryBz ⟨true, false, true⟩ czBack 60 0 15 (czHeap, 23) = some (bytes, bounds) ∧
    ∃ bound, ∀ fuel, bound ≤ fuel → ∃ S0, Rs.getFull rsNoFloats { bounds.rust 3 with outputs := 10 } bounds.maxSignals fuel bytes = some S0 ∧
      ∀ (v : Nat → Nat → Int) (T : Nat), T + 3 < 2 ^ 32 →
        ∃ S out oks, S0.run rsNoFloats (({ bounds.rust 3 with outputs := 10 } : Rs.Limits).bzLimits bounds.maxSignals) fuel
            (fun t i => (v t i, ())) T = some (S, out, oks) ∧ oks = List.replicate T true ∧
          (∀ s ∈ crFs, Answers (sat (czTrace v) s.2.2) (Rs.reports out s.2.1) ∧
            ∀ t, t + span false s.2.2 < T → ∃ v ∈ Rs.reports out s.2.1, t ≤ v.time) ∧
          (∀ s ∈ crPs, Answers (sat (czTrace v) s.2.2) (Rs.reports out s.2.1) ∧
            ∀ t, t < T → ∃ v ∈ Rs.reports out s.2.1, t ≤ v.time) := by
  have hm : (compileBinaryBz ⟨true, false, true⟩ czBack 60 0 15 (czHeap, 23)).map
      (fun r => decide (0 ≤ r.2.maxQueueSlots ∧ r.2.maxQueueSlots ≤ 2 ^ 32)) = some true := by decide +kernel
  obtain ⟨⟨bytes, bounds⟩, hr, hb⟩ := Option.map_eq_some_iff.1 hm
  simp only [decide_eq_true_eq] at hb
  refine ⟨bytes, bounds, hr, ?_⟩
  obtain ⟨bound, c1⟩ := C76_rust_numbers_partial (b := czBack) cz_atoms cz_separate.1 cz_separate.2
    czHeap_program czHeap_apart (by simp [crFs, crPs]) cr_fit.1 cr_fit.2 (by
      intro s hs
      simp only [crFs, List.mem_cons, List.not_mem_nil, or_false] at hs
      rcases hs with rfl | rfl <;> simp [span, spanL, czBack]) (by
      intro s hs
      simp only [crPs, List.mem_cons, List.not_mem_nil, or_false] at hs
      subst hs
      simp [span, czBack]) (ty := fun _ => true) (fun g n' _ x s a _ _ => rfl) (by
      intro a o ts hw
      refine ⟨fun _ => rfl, ?_⟩
      intro ho
      have := cz_within hw
      cases a <;> simp [czAtom] at this ho <;> rcases this with h | h <;> simp_all) (by simp [czBack]) hr
    { bounds.rust 3 with outputs := 10 } ⟨Nat.le_refl _, Nat.le_refl _, by simp only [Bounds.rust]; omega, by simp only [Bounds.rust]; omega⟩
    (Nat.le_refl _) bounds.maxSignals (Nat.le_refl _) (by simp [crFs, crPs, span, spanL]) rsNoFloats
  refine ⟨bound, fun fuel hf => ?_⟩
  obtain ⟨S0, c2, c4⟩ := c1 fuel hf
  refine ⟨S0, c2, ?_⟩
  intro v T hT
  have ht : (fun t a => ∃ i, i ≠ 0 ∧ czVal v t (czAtom a) (.int i)) = czTrace v := by
    funext t a
    obtain ⟨i, h1, h2⟩ := cz_atom v t a
    refine propext ⟨?_, fun h => ⟨i, h2.2 h, h1⟩⟩
    rintro ⟨j, hj, h3⟩
    cases cz_unique h1 _ h3
    exact h2.1 hj
  obtain ⟨S, out, oks, d1, d0, d2, d3⟩ := c4 (czIn v) (fun t i => (v t i, ())) T
      (fun t k => ⟨fun _ h => by simp only [czIn, Cell.int.injEq] at h; exact h, fun _ h => by simp [czIn] at h⟩) hT (by
    intro t _ a
    obtain ⟨i, h1, _⟩ := cz_atom v t a
    refine ⟨?_, i, h1⟩
    intro e he
    rcases cz_within he with rfl | rfl | rfl | rfl | rfl | rfl
    · exact ⟨_, h1⟩
    · exact ⟨_, cz_x v t⟩
    · exact ⟨_, cz_y v t⟩
    · exact ⟨_, .int⟩
    · exact ⟨_, .int⟩
    · exact ⟨_, cz_prev v t⟩)
  refine ⟨S, out, oks, d1, d0, ?_⟩
  rw [← ht]
  exact ⟨d2, d3⟩

end R2U2
