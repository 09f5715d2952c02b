import Verif.Lemmas.Last
/-
C27, C28, C29, C56: removing contracts, set aggregations, array comparisons, structures and enumerations.
-/
namespace R2U2
open Src

/-! ### C27 -/

/-- C27: resolving the contracts of a program leaves formulas only, with the same verdict streams under the same
formula numbers in the same order. -/
theorem C27_contracts {F : Type} {D : Decls} {I : Interp F} (hI : I.Fits D) (specs : List Spec) (h : ∀ s ∈ specs, s.Boolean D)
    (ρ : Env F) :
    (∀ s ∈ resolveContracts specs, ∃ l n e, s = .formula l n e) ∧
    (resolveContracts specs).flatMap (Spec.verdicts I ρ) = specs.flatMap (Spec.verdicts I ρ) := by
  have hw : ∀ a : Src, HasSort D Scope.empty a .bool → sem I (a.withTy .bool) = sem I a := by
    intro a ha
    refine sem_withTy I a _ ?_
    intro s hs
    obtain ⟨k, ty, cs⟩ := a
    simp only [Src.kind] at hs
    subst hs
    cases ha with
    | var _ h => simp [Scope.empty] at h
  induction specs with
  | nil => simp [resolveContracts]
  | cons s specs ih =>
    obtain ⟨ih1, ih2⟩ := ih fun t ht => h t (by simp [ht])
    have hc : resolveContracts (s :: specs) = s.resolve ++ resolveContracts specs := by simp [resolveContracts]
    have hs : (∀ t ∈ s.resolve, ∃ l n e, t = .formula l n e) ∧ s.resolve.flatMap (Spec.verdicts I ρ) = Spec.verdicts I ρ s := by
      cases s with
      | formula l n e => exact ⟨by simp [Spec.resolve], by simp [Spec.resolve]⟩
      | contract l n1 n2 n3 a g =>
        have hb := h (.contract l n1 n2 n3 a g) (by simp)
        refine ⟨by simp [Spec.resolve], ?_⟩
        simp only [Spec.resolve, List.flatMap_cons, List.flatMap_nil, Spec.verdicts, hw a hb.1, List.append_nil,
          List.singleton_append]
        simp [sem_node, evalK, Val.evalOp, Val.isTrue]
    rw [hc]
    refine ⟨?_, by rw [List.flatMap_append, hs.2, ih2, List.flatMap_cons]⟩
    intro t ht
    rcases List.mem_append.mp ht with ht | ht
    · exact hs.1 t ht
    · exact ih1 t ht

/-! Abbreviations for the examples below. -/

private def x (s : String) : Src := .node (.sig s) .bool []
private def v (s : String) : Src := .node (.var s) .bool []
private def int (n : Int) : Src := .node (.lit (.int n)) .int []
private def set (cs : List Src) : Src := .node .array (.arr .bool cs.length) cs
private def op (o : OpK) (cs : List Src) : Src := .node (.op o) .bool cs
private def each (s : String) (a b : Src) : Src := .node (.agg .each s) .bool [a, b]

/-- Two structures, one with a Boolean and a number, one with an array of those; an enumeration; Boolean signals. -/
def demoDecls : Decls where
  structs := [("P", [("ok", .bool), ("n", .int)]), ("Q", [("ps", .arr (.struct "P") (-1))])]
  enums := [("Mode", [("off", 0), ("on", 1)])]
  sigs := fun s => if s ∈ ["a", "b", "c", "d", "e"] then some .bool else none
  arrays := false

/-- Integer arithmetic without floats. -/
def demoInterp : Interp Unit where
  structs := demoDecls.structs
  enums := demoDecls.enums
  ofText := fun _ => ()
  fcmp := fun _ _ _ => false
  arith := fun _ _ => .err

theorem demo_fits : demoInterp.Fits demoDecls := ⟨rfl, rfl, fun _ _ _ _ _ _ => .err⟩

theorem demo_apart : demoDecls.Apart := by
  intro s n ms hs hm m hmm hms
  simp only [demoDecls, List.mem_singleton] at hm
  cases hm
  simp only [demoDecls] at hs
  simp at hmm
  rcases hmm with rfl | rfl <;> subst hms <;> simp at hs

/-- All signals true except those given. -/
def demoEnv (off : List String) : Env Unit where
  sig := fun s _ => .bool (!off.contains s)
  var := fun _ _ => .err

theorem demoEnv_fits (off : List String) : (demoEnv off).Fits demoDecls Scope.empty where
  sig := by
    intro s t i h
    simp only [demoDecls] at h
    split_ifs at h
    cases h
    exact .bool
  var := by simp [Scope.empty]

example : (∀ s ∈ [Spec.formula "f" 0 (x "a"), .contract "k" 1 2 3 (x "b") (op .neg [x "c"])], s.Boolean demoDecls) ∧
    resolveContracts [Spec.formula "f" 0 (x "a"), .contract "k" 1 2 3 (x "b") (op .neg [x "c"])] =
      [.formula "f" 0 (x "a"), .formula "__k_active__" 1 (x "b"),
       .formula "__k_valid__" 2 (op .imp [x "b", op .neg [x "c"]]),
       .formula "__k_verified__" 3 (op .and [x "b", op .neg [x "c"]])] := by
  refine ⟨?_, rfl⟩
  intro s hs
  simp only [List.mem_cons, List.not_mem_nil, or_false] at hs
  have hsig : ∀ s ∈ ["a", "b", "c", "d", "e"], HasSort demoDecls Scope.empty (x s) .bool := by
    intro s hs
    exact .sig (by simp only [demoDecls]; rw [if_pos hs]) rfl
  rcases hs with rfl | rfl
  · trivial
  · exact ⟨hsig _ (by simp), .op (ts := [.bool]) rfl (by
      intro i c t h1 h2
      rcases i with _ | i <;> simp at h1 h2
      subst h1; subst h2
      exact hsig _ (by simp)) rfl⟩

/-! ### C28 -/

/-- C28 for sets without aggregations in them and distinct names: unrolling the aggregations leaves none of them and does
not change the value at any time.  (What an aggregation means is `Src.evalAgg`.)  Without these two conditions the
claim is false, see `C28_capture_fails`. -/
theorem C28_aggregations_partial {F : Type} {D : Decls} {I : Interp F} (hI : I.Fits D) {e e' : Src} {t : Ty} {n : Nat}
    (h : HasSort D Scope.empty e t) (hs : Scoped e) (hr : Resolved D.enums e) (hu : unrollAgg n e = some e') :
    bound e' = [] ∧ ∀ ρ : Env F, ρ.Fits D Scope.empty → ∀ i, sem I e' ρ i = sem I e ρ i :=
  (unrollAgg_keeps hI hu t ⟨h, hs, hr⟩).2

/-- C28: the unrolling ends, with a result, if no set is empty. -/
theorem C28_unrolling_ends {D : Decls} {e : Src} {t : Ty} (h : HasSort D Scope.empty e t) (hs : Scoped e)
    (hr : Resolved D.enums e) (hf : Filled e) : ∃ n e', unrollAgg n e = some e' :=
  unrollAgg_total ⟨h, hs, hr⟩ hf

/-- C28 for one aggregation over a written-out set: what the five aggregations unroll to, in terms of the instances of
the body. -/
theorem C28_counts {F : Type} {D : Decls} {I : Interp F} (hI : I.Fits D) {k : AggK} {s : String} {ty ty' : Typ}
    {cs : List Src} {num body e' : Src} {t : Ty} {n : Nat}
    (h : HasSort D Scope.empty (.node (.agg k s) ty [.node .array ty' cs, num, body]) t)
    (hs : Scoped (.node (.agg k s) ty [.node .array ty' cs, num, body]))
    (hr : Resolved D.enums (.node (.agg k s) ty [.node .array ty' cs, num, body]))
    (hu : unrollAgg n (.node (.agg k s) ty [.node .array ty' cs, num, body]) = some e')
    (ρ : Env F) (hρ : ρ.Fits D Scope.empty) (i : Nat) (m : Int) (hm : sem I num ρ i = .int m) :
    let count : Int := (cs.filter fun c => (sem I body (ρ.bind s (sem I c ρ)) i).isTrue).length
    (sem I e' ρ i).isTrue = true ↔
      (k = .exactly ∧ count = m) ∨ (k = .atLeast ∧ count ≥ m) ∨ (k = .atMost ∧ count ≤ m) := by
  intro count
  rw [(C28_aggregations_partial hI h hs hr hu).2 ρ hρ i]
  have hcount : (((List.range cs.length).filter fun n =>
      (sem I body (ρ.bind s fun j => (Val.arr (cs.map fun c => sem I c ρ j)).nth n) i).isTrue).length : Int) = count := by
    have : ∀ (p : (Nat → Val F) → Bool), ((List.range cs.length).filter fun n =>
        p fun j => (Val.arr (cs.map fun c => sem I c ρ j)).nth n).length = (cs.filter fun c => p (sem I c ρ)).length := by
      intro p
      clear hs hr hu h count
      induction cs generalizing p with
      | nil => rfl
      | cons c cs ih =>
        rw [List.length_cons, List.range_succ_eq_map, List.filter_cons, List.filter_map, List.filter_cons]
        have h0 : (fun j => (Val.arr ((c :: cs).map fun c => sem I c ρ j)).nth 0) = sem I c ρ := by
          funext j; simp [Val.nth, Val.items]
        have h1 : ((fun n => p fun j => (Val.arr ((c :: cs).map fun c => sem I c ρ j)).nth n) ∘ Nat.succ) =
            fun n => p fun j => (Val.arr (cs.map fun c => sem I c ρ j)).nth n := by
          funext n
          simp [Val.nth, Val.items, Function.comp]
        rw [h0, h1]
        split_ifs <;> simp [ih]
    exact congrArg _ (this fun d => (sem I body (ρ.bind s d) i).isTrue)
  cases h with
  | aggN h1 h2 h3 h4 =>
    rw [sem_node]
    simp only [List.map_cons, List.map_nil, evalK, evalAgg]
    have harr : sem I (.node .array ty' cs) ρ = fun j => .arr (cs.map fun c => sem I c ρ j) := by
      funext j; rw [sem_node]; simp [evalK]
    rw [harr]
    have ht : ∀ b : Bool, (Val.bool b : Val F).isTrue = b := fun _ => rfl
    rcases h4 with rfl | rfl | rfl <;>
      simp only [Val.items, List.length_map, hm, Val.isInt, ht, decide_eq_true_eq, hcount] <;> simp

private def nested : Src := each "p" (set [x "a", x "b"]) (op .or [v "p", each "q" (set [x "c", v "p"]) (op .imp [v "q", v "p"])])

private theorem sort_sig (s : String) (hs : s ∈ ["a", "b", "c", "d", "e"]) (Γ : Scope) : HasSort demoDecls Γ (x s) .bool :=
  .sig (by simp only [demoDecls]; rw [if_pos hs]) rfl

private theorem sort_var (s : String) (Γ : Scope) (h : Γ s = some .bool) : HasSort demoDecls Γ (v s) .bool := .var rfl h

private theorem sort_two {o : OpK} {Γ : Scope} {a b : Src} {t u : Ty} (h : o.sort false [t, t] = some u)
    (ha : HasSort demoDecls Γ a t) (hb : HasSort demoDecls Γ b t) (ty : Typ) : HasSort demoDecls Γ (.node (.op o) ty [a, b]) u :=
  .op (ts := [t, t]) rfl (by
    intro i c t h1 h2
    rcases i with _ | _ | i <;> simp at h1 h2
    · subst h1; subst h2; exact ha
    · subst h1; subst h2; exact hb) h

private theorem sort_set {Γ : Scope} {cs : List Src} (h : ∀ c ∈ cs, HasSort demoDecls Γ c .bool) : HasSort demoDecls Γ (set cs) (.arr .bool) :=
  .array h

example : HasSort demoDecls Scope.empty nested .bool ∧ Scoped nested ∧ Resolved demoDecls.enums nested ∧ Filled nested := by
  refine ⟨?_, ?_, ?_, ?_⟩
  · refine .agg (t := .bool) (sort_set ?_) (sort_two rfl (sort_var _ _ rfl) ?_ _) (.inl rfl)
    · simp only [List.mem_cons, List.not_mem_nil, or_false, forall_eq_or_imp, forall_eq]
      exact ⟨sort_sig _ (by simp) _, sort_sig _ (by simp) _⟩
    · refine .agg (t := .bool) (sort_set ?_) (sort_two rfl (sort_var _ _ rfl) (sort_var _ _ rfl) _) (.inl rfl)
      simp only [List.mem_cons, List.not_mem_nil, or_false, forall_eq_or_imp, forall_eq]
      exact ⟨sort_sig _ (by simp) _, sort_var _ _ rfl⟩
  · simp [nested, Scoped, Every, EveryL, each, set, op, x, v, kind, kids, bound, boundL]
  · simp [nested, Resolved, Every, EveryL, each, set, op, x, v, kind, Src.ty, enumVal]
  · simp [nested, Filled, Every, EveryL, each, set, op, x, v, kind, kids]

/-- `foreach(p : {foreach(q : {a,b})(q), c})(foreach(q : {d,e})(p && q))` -/
private def capture : Src :=
  each "p" (set [each "q" (set [x "a", x "b"]) (v "q"), x "c"]) (each "q" (set [x "d", x "e"]) (op .and [v "p", v "q"]))

/-- C28 fails for a set with an aggregation in it: the name the member binds is captured.  With `a` false and the other
signals true the expression is false, but what it is unrolled to is true. -/
theorem C28_capture_fails :
    HasSort demoDecls Scope.empty capture .bool ∧ Resolved demoDecls.enums capture ∧
    ∃ e', unrollAgg 100 capture = some e' ∧
      (sem demoInterp capture (demoEnv ["a"]) 0).isTrue = false ∧ (sem demoInterp e' (demoEnv ["a"]) 0).isTrue = true := by
  refine ⟨?_, ?_, ?_⟩
  · refine .agg (t := .bool) (sort_set ?_) ?_ (.inl rfl)
    · simp only [List.mem_cons, List.not_mem_nil, or_false, forall_eq_or_imp, forall_eq]
      refine ⟨.agg (t := .bool) (sort_set ?_) (sort_var _ _ rfl) (.inl rfl), sort_sig _ (by simp) _⟩
      simp only [List.mem_cons, List.not_mem_nil, or_false, forall_eq_or_imp, forall_eq]
      exact ⟨sort_sig _ (by simp) _, sort_sig _ (by simp) _⟩
    · refine .agg (t := .bool) (sort_set ?_) (sort_two rfl (sort_var _ _ rfl) (sort_var _ _ rfl) _) (.inl rfl)
      simp only [List.mem_cons, List.not_mem_nil, or_false, forall_eq_or_imp, forall_eq]
      exact ⟨sort_sig _ (by simp) _, sort_sig _ (by simp) _⟩
  · simp [capture, Resolved, Every, EveryL, each, set, op, x, v, kind, Src.ty, enumVal]
  · refine ⟨_, rfl, ?_, ?_⟩ <;> decide +kernel

/-! ### C29 -/

/-- C29 for arrays of the same shape, without `!=`: replacing array comparisons by the conjunction of the
comparisons of their elements does not change the value at any time.  (What comparing arrays means is
`Val.cmp`.)  For `!=` and for arrays of different lengths the claim is false, see `C29_ne_fails` and
`C29_length_fails`. -/
theorem C29_arrays_partial {F : Type} (I : Interp F) {e e' : Src} {n : Nat} (h : ComparesAlike e) (hu : unrollArr n e = some e') :
    ∀ ρ i, sem I e' ρ i = sem I e ρ i := by
  rw [(unrollArr_both n).1 e e' hu h]
  exact fun _ _ => rfl

/-- C29: `{c1, ..} == {d1, ..}` holds exactly when all elements are equal. -/
theorem C29_equal {F : Type} (I : Interp F) {ty ty1 ty2 : Typ} {cs ds : List Src} {e' : Src} {n : Nat}
    (h : ComparesAlike (.node (.op .eq) ty [.node .array ty1 cs, .node .array ty2 ds]))
    (hu : unrollArr n (.node (.op .eq) ty [.node .array ty1 cs, .node .array ty2 ds]) = some e') (ρ : Env F) (i : Nat) :
    (sem I e' ρ i).isTrue = true ↔
      cs.length = ds.length ∧ ∀ (k : Nat) (c d : Src), cs[k]? = some c → ds[k]? = some d → Val.cmp I .eq (sem I c ρ i) (sem I d ρ i) = true := by
  rw [C29_arrays_partial I h hu, sem_rel rfl (by simp)]
  simp only [Val.isTrue, sem_node, evalK, Val.cmp, List.map_map]
  clear h hu
  induction cs generalizing ds with
  | nil => cases ds <;> simp [Val.cmpL]
  | cons c cs ih =>
    cases ds with
    | nil => simp [Val.cmpL]
    | cons d ds =>
      simp only [List.map_cons, Val.cmpL, Bool.and_eq_true, ih, Function.comp, List.length_cons]
      constructor
      · rintro ⟨h1, h2, h3⟩
        refine ⟨by omega, ?_⟩
        rintro (_ | k) c' d' hc hd
        · simp at hc hd; subst hc; subst hd; exact h1
        · exact h3 k c' d' (by simpa using hc) (by simpa using hd)
      · rintro ⟨h1, h2⟩
        exact ⟨h2 0 c d rfl rfl, by omega, fun k c' d' hc hd => h2 (k + 1) c' d' (by simpa using hc) (by simpa using hd)⟩

example : ComparesAlike (op .eq [set [x "a", x "b"], set [x "c", x "d"]]) ∧
    ∃ e', unrollArr 10 (op .eq [set [x "a", x "b"], set [x "c", x "d"]]) = some e' := by
  refine ⟨?_, _, rfl⟩
  refine comparesAlike_node.mpr ⟨?_, ?_⟩
  · rintro o a b h1 h2 -
    cases h1; cases h2
    refine ⟨.arrays rfl ?_, by simp⟩
    intro i c d h1 h2
    refine .other (.inl ?_)
    rcases i with _ | _ | i <;> simp at h1 <;> subst h1 <;> simp [kind, x]
  · intro c hc
    simp at hc
    rcases hc with rfl | rfl <;>
      exact comparesAlike_node.mpr ⟨by (rintro o a b h; cases h), by
        intro c hc
        simp at hc
        rcases hc with rfl | rfl <;> exact comparesAlike_node.mpr ⟨by (rintro o a b h; cases h), by simp⟩⟩

/-- C29 fails for `!=`: it becomes the conjunction, not the disjunction, of the element comparisons.
With `a` false and the others true, `{a, b} != {c, d}` should hold, but the result does not. -/
theorem C29_ne_fails : ∃ e', unrollArr 10 (op .ne [set [x "a", x "b"], set [x "c", x "d"]]) = some e' ∧
    (sem demoInterp (op .ne [set [x "a", x "b"], set [x "c", x "d"]]) (demoEnv ["a"]) 0).isTrue = true ∧
    (sem demoInterp e' (demoEnv ["a"]) 0).isTrue = false := by
  refine ⟨_, rfl, ?_, ?_⟩ <;> decide +kernel

/-- C29 fails for arrays of different lengths, which type checking accepts if one of the lengths is not declared
(types.py:108-115): only as many elements as the left array has are compared. -/
theorem C29_length_fails : ∃ e', unrollArr 10 (op .eq [set [x "a"], set [x "c", x "d"]]) = some e' ∧
    (sem demoInterp (op .eq [set [x "a"], set [x "c", x "d"]]) (demoEnv []) 0).isTrue = false ∧
    (sem demoInterp e' (demoEnv []) 0).isTrue = true := by
  refine ⟨_, rfl, ?_, ?_⟩ <;> decide +kernel

/-! ### C56 -/

/-- C56 without array comparisons, for aggregations as in C28, array elements picked only from written-out arrays, and
runs that do not report an error: the desugared expression consists of operators over literals and signals and has the
value of the source expression at every time. -/
theorem C56_desugar_partial {F : Type} {D : Decls} {I : Interp F} (hI : I.Fits D) (hD : D.Apart) (ha : D.arrays = false)
    {e e' : Src} {t : Ty} {n : Nat} (h : HasSort D Scope.empty e t) (ht : t.scalar) (hs : Scoped e)
    (hp : PicksLiterals D.enums e) (hd : desugar true I.structs I.enums n e = some e') :
    Plain e' ∧ isDesugared e' = true ∧ ∀ ρ : Env F, ρ.Fits D Scope.empty → ∀ i, sem I e' ρ i = sem I e ρ i := by
  obtain ⟨h1, _, h2⟩ := desugar_keeps hI hD h hs hp ha ht hd
  exact ⟨h1, plain_isDesugared h1, h2⟩

mutual
private theorem not_any {p : Src → Bool} : ∀ {e : Src}, e.any p = false ↔ Every (fun x => p x = false) e
  | .node k ty cs => by
    simp only [Src.any, Every, Bool.or_eq_false_iff, not_anyL (cs := cs)]
private theorem not_anyL {p : Src → Bool} : ∀ {cs : List Src}, Src.anyL p cs = false ↔ EveryL (fun x => p x = false) cs
  | [] => by simp [Src.anyL, EveryL]
  | c :: cs => by simp only [Src.anyL, EveryL, Bool.or_eq_false_iff, not_any (e := c), not_anyL (cs := cs)]
end

/-- C56, the compiler's own check of the result: it passes exactly if no structure, call, array, member access,
array access or aggregation is left anywhere.  (Slices and names may be.) -/
theorem C56_check {e : Src} : isDesugared e = true ↔ Every (fun x => (∀ f ms, x.kind ≠ .struct f ms) ∧ (∀ f, x.kind ≠ .call f) ∧
    x.kind ≠ .array ∧ (∀ m, x.kind ≠ .access m) ∧ (∀ i, x.kind ≠ .index i) ∧ ∀ k v, x.kind ≠ .agg k v) e := by
  unfold isDesugared
  rw [Bool.not_eq_true', not_any]
  refine iff_of_eq (congrArg (Every · e) (funext fun x => ?_))
  cases hx : x.kind <;> simp

/-- A run that reports no error is a run of the compiler. -/
theorem C56_strict {T : Structs} {E : Enums} {n : Nat} {e e' : Src} (h : desugar true T E n e = some e') :
    desugar false T E n e = some e' := desugar_relax h

private def p (a b : Src) : Src := .node (.call "P") (.struct "P") [a, b]
private def get (m : String) (ty : Typ) (e : Src) : Src := .node (.access m) ty [e]
private def q (cs : List Src) : Src := .node (.call "Q") (.struct "Q") [.node .array (.arr (.struct "P") cs.length) cs]

/-- `forexactly(s : Q({P(a,off), P(b,1)}).ps, 1)(s.ok && s.n == on) || {P(c,2), P(d,3)}[1].ok`, roughly: an
enumeration, nested structures, member access on a bound name, an array access. -/
private def demo : Src :=
  op .or [
    .node (.agg .exactly "s") .bool [
      get "ps" (.arr (.struct "P") (-1)) (q [p (x "a") (.node (.var "off") (.enum "Mode") []), p (x "b") (int 1)]),
      int 1,
      op .and [get "ok" .bool (.node (.var "s") (.struct "P") []),
        op .eq [get "n" .int (.node (.var "s") (.struct "P") []), .node (.var "on") (.enum "Mode") []]]],
    .node (.index 1) .bool [set [x "c", get "ok" .bool (p (x "d") (int 3))]]]

private theorem sort_p {Γ : Scope} {a b : Src} (ha : HasSort demoDecls Γ a .bool) (hb : HasSort demoDecls Γ b .num) :
    HasSort demoDecls Γ (p a b) (.struct "P") :=
  .call (fs := [("ok", .bool), ("n", .int)]) (ts := [.bool, .num]) rfl rfl rfl (by
    intro i c t h1 h2
    rcases i with _ | _ | i <;> simp at h1 h2
    · subst h1; subst h2; exact ha
    · subst h1; subst h2; exact hb)

example : HasSort demoDecls Scope.empty demo .bool ∧ Scoped demo ∧ PicksLiterals demoDecls.enums demo ∧
    ∃ e', desugar true demoInterp.structs demoInterp.enums 100 demo = some e' := by
  refine ⟨?_, ?_, ?_, _, rfl⟩
  · refine sort_two (t := .bool) rfl ?_ ?_ _
    · refine .aggN (t := .struct "P") ?_ .int (sort_two (t := .bool) rfl ?_ (sort_two rfl (t := .num) ?_ ?_ _) _) (.inl rfl)
      · refine .access (f := "Q") (fs := [("ps", .arr (.struct "P") (-1))]) (mt := .arr (.struct "P") (-1)) ?_ rfl rfl rfl
        refine .call (fs := [("ps", .arr (.struct "P") (-1))]) (ts := [.arr (.struct "P")]) rfl rfl rfl ?_
        intro i c t h1 h2
        rcases i with _ | i <;> simp at h1 h2
        subst h1; subst h2
        refine .array ?_
        simp only [List.mem_cons, List.not_mem_nil, or_false, forall_eq_or_imp, forall_eq]
        exact ⟨sort_p (sort_sig _ (by simp) _) (.enum (v := 0) rfl), sort_p (sort_sig _ (by simp) _) .int⟩
      · exact .access (f := "P") (fs := [("ok", .bool), ("n", .int)]) (mt := .bool) (.var rfl rfl) rfl rfl rfl
      · exact .access (f := "P") (fs := [("ok", .bool), ("n", .int)]) (mt := .int) (.var rfl rfl) rfl rfl rfl
      · exact .enum (v := 1) rfl
    · refine .index (by decide) (sort_set ?_)
      simp only [List.mem_cons, List.not_mem_nil, or_false, forall_eq_or_imp, forall_eq]
      refine ⟨sort_sig _ (by simp) _, ?_⟩
      exact .access (f := "P") (fs := [("ok", .bool), ("n", .int)]) (mt := .bool) (sort_p (sort_sig _ (by simp) _) .int) rfl rfl rfl
  · simp [demo, Scoped, Every, EveryL, p, q, get, set, op, x, int, kind, kids, bound, boundL]
  · simp only [demo, PicksLiterals, Every, EveryL, p, q, get, set, op, x, int, kind, kids]
    simp only [List.mem_cons, List.not_mem_nil, or_false, forall_eq, and_true, true_and]
    refine .array ?_
    simp only [List.mem_cons, List.not_mem_nil, or_false, forall_eq_or_imp, forall_eq]
    refine ⟨.literal .sig, .literal (.access ?_)⟩
    simp only [List.mem_cons, List.not_mem_nil, or_false, forall_eq]
    refine .call ?_
    simp only [List.mem_cons, List.not_mem_nil, or_false, forall_eq_or_imp, forall_eq]
    exact ⟨.sig, .lit⟩

/-- A structure with an array of structures, and a member named like one of theirs. -/
def pairDecls : Decls where
  structs := [("P", [("ok", .bool), ("no", .bool)]), ("R", [("ps", .arr (.struct "P") 1), ("ok", .bool)])]
  enums := []
  sigs := demoDecls.sigs
  arrays := false

def pairInterp : Interp Unit := { demoInterp with structs := pairDecls.structs, enums := [] }

/-- `{R({P(a,b)}, c)}[0].ps[0].ok` -/
private def deep : Src :=
  get "ok" .bool (.node (.index 0) (.struct "P") [get "ps" (.arr (.struct "P") 1)
    (.node (.index 0) (.struct "R") [.node .array (.arr (.struct "R") 1)
      [.node (.call "R") (.struct "R") [.node .array (.arr (.struct "P") 1) [p (x "a") (x "b")], x "c"]]])])

/-- C56 fails for an element of a member of an element: array accesses are resolved once, before
the member access below them, whose only child is then taken for the elements of the array.  The expression
should be `a`; it is compiled to `c`. -/
theorem C56_deep_index_fails :
    HasSort pairDecls Scope.empty deep .bool ∧ Scoped deep ∧
    ∃ e', desugar true pairInterp.structs pairInterp.enums 100 deep = some e' ∧ e' = x "c" ∧
      (∀ ρ i, sem pairInterp deep ρ i = ρ.sig "a" i) := by
  refine ⟨?_, ?_, _, rfl, rfl, fun ρ i => rfl⟩
  · refine .access (f := "P") (fs := [("ok", .bool), ("no", .bool)]) (mt := .bool) (.index (by decide) ?_) rfl rfl rfl
    refine .access (f := "R") (fs := [("ps", .arr (.struct "P") 1), ("ok", .bool)]) (mt := .arr (.struct "P") 1)
      (.index (by decide) (.array ?_)) rfl rfl rfl
    simp only [List.mem_cons, List.not_mem_nil, or_false, forall_eq]
    refine .call (fs := [("ps", .arr (.struct "P") 1), ("ok", .bool)]) (ts := [.arr (.struct "P"), .bool]) rfl rfl rfl ?_
    have hsig : ∀ a ∈ ["a", "b", "c", "d", "e"], HasSort pairDecls Scope.empty (x a) .bool := fun a ha =>
      .sig (by simp only [pairDecls, demoDecls]; rw [if_pos ha]) rfl
    intro i c t h1 h2
    rcases i with _ | _ | i <;> simp at h1 h2
    · subst h1; subst h2
      refine .array ?_
      simp only [List.mem_cons, List.not_mem_nil, or_false, forall_eq]
      refine .call (fs := [("ok", .bool), ("no", .bool)]) (ts := [.bool, .bool]) rfl rfl rfl ?_
      intro i c t h1 h2
      rcases i with _ | _ | i <;> simp at h1 h2
      · subst h1; subst h2; exact hsig _ (by simp)
      · subst h1; subst h2; exact hsig _ (by simp)
    · subst h1; subst h2; exact hsig _ (by simp)
  · simp [deep, Scoped, Every, EveryL, p, get, x, kind, kids]

/-- `forexactly(p : {a,b}[0..2], 1)(c)`: type checking accepts the slice (type_check.py:158). -/
private def over : Src :=
  .node (.agg .exactly "p") .bool [.node (.slice 0 2) (.arr .bool 3) [set [x "a", x "b"]], int 1, x "c"]

/-- C56 fails for a slice that is out of bounds: an error is reported, but the run goes on and compiles the expression
as if the set had one member.  With `c` true it then holds. -/
theorem C56_slice_fails :
    HasSort demoDecls Scope.empty over .bool ∧ desugar true demoInterp.structs demoInterp.enums 100 over = none ∧
    ∃ e', desugar false demoInterp.structs demoInterp.enums 100 over = some e' ∧ isDesugared e' = true ∧
      (sem demoInterp e' (demoEnv []) 0).isTrue = true ∧ (sem demoInterp over (demoEnv []) 0).isTrue = false := by
  refine ⟨?_, rfl, _, rfl, rfl, rfl, rfl⟩
  refine .aggN (t := .bool) (.slice (by decide) (sort_set ?_)) .int (sort_sig _ (by simp) _) (.inl rfl)
  simp only [List.mem_cons, List.not_mem_nil, or_false, forall_eq_or_imp, forall_eq]
  exact ⟨sort_sig _ (by simp) _, sort_sig _ (by simp) _⟩

end R2U2
