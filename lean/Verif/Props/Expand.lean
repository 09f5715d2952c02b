import Verif.Lemmas.Expand
import Verif.Props.Desugar
import Mathlib.Tactic.IntervalCases
/-
C30: expanding definitions and references to specifications.
-/
namespace R2U2
variable {F : Type}

/-- C30, for programs in which no definition is just another defined name, and aggregations bind other names
than the defined ones.  Expansion ends with a graph in which every node is what it was, and formulas and
specification sets are below the nodes they were below.  Where an expression `e` of the program was, there is an
expression without defined names, of the same sort, with the value `e` has when every name has the value of its
definition; and for all inputs there is such an assignment of values to names.

Missing: the excluded programs, where the claim is false (`C30_alias_fails`, `C30_shadow_fails`). -/
theorem C30_expand_partial {P : XProg} {D : Decls} {Γ : Scope} (hP : P.Parsed) (hc : P.NotCircular) (ha : P.NoAlias) (hD : P.Checked D Γ) :
    ∃ h N, (∀ fuel, N ≤ fuel → P.expand fuel = some h) ∧ h.lab = P.heap.lab ∧
      (∀ (p i c : Nat), (P.heap.kids p)[i]? = some c → (∀ s ty, P.heap.lab c ≠ .expr (.var s) ty) → (h.kids p)[i]? = some c) ∧
      (∀ (p i c : Nat) (e : Src) (t : Ty), P.heap.Reachable [P.ft, P.pt] p → (P.heap.kids p)[i]? = some c → P.heap.Reads c e →
        HasSort D Γ e t → (∀ v ∈ e.bound, Γ v = none) →
        ∃ c' e', (h.kids p)[i]? = some c' ∧ h.Reads c' e' ∧ HasSort D Scope.empty e' t ∧
          ∀ (I : Interp F) (ρ : Env F), I.Fits D → P.Respects I ρ → ∀ i, e'.sem I ρ i = e.sem I ρ i) ∧
      ∀ (I : Interp F) (sig : String → Nat → Val F), I.Fits D → ∃ ρ : Env F, ρ.sig = sig ∧ P.Respects I ρ := by
  obtain ⟨h, N, h1, h2, h3⟩ := XProg.expand_total hP hc ha hD
  refine ⟨h, N, h1, h2, h3, ?_, fun I sig hI => XProg.respects_exists hP hc hD I hI sig⟩
  intro p i c e t hp hi he ht hb
  have hl : P.Listed p := XProg.reachable_mono (by simp) hp
  obtain ⟨c', e', h4, h5, h6⟩ := XProg.expand_reads hP hc ha hD (h1 N (Nat.le_refl _)) hl hi he
  obtain ⟨h7, h8⟩ := Src.expands_keep (F := F) hD h6 Γ t ht (fun _ _ => rfl) hb
  rw [Scope.without_self] at h7
  exact ⟨c', e', h4, h5, h7, fun I ρ hI hρ j => h8 I hI ρ ρ (.inl hρ) rfl (fun _ _ => rfl) j⟩

/-! A program with nested definitions and a reference to a specification:

    DEFINE a := x && y;  b := a || x;
    FTSPEC  s: b;  t: s U[0,3] a;                                                                             -/

private def xLab : List XNode :=
  [.specSet, .specSet, .formula 0, .formula 1, .expr (.var "b") .bool, .expr (.tmp .U 0 3) .bool, .expr (.var "s") .bool,
   .expr (.var "a") .bool, .expr (.op .and) .bool, .expr (.sig "a0") .bool, .expr (.sig "b0") .bool, .expr (.op .or) .bool,
   .expr (.var "a") .bool, .expr (.sig "a0") .bool]
private def xKids : List (List Nat) := [[2, 3], [], [4], [5], [], [6, 7], [], [], [9, 10], [], [], [12, 13], [], []]
private def xPars : List (List Nat) := [[], [], [0], [0], [2], [3], [5], [5], [], [8], [8], [], [11], [11]]
private def xHeap : Heap XNode := ⟨fun x => xLab.getD x .specSet, fun x => xKids.getD x [], fun x => xPars.getD x []⟩
private def xProg : XProg := ⟨xHeap, [("a", 8), ("b", 11)], [("s", 2), ("t", 3)], 0, 1⟩
private def xDecls : Decls := ⟨[], [], fun s => if s = "a0" ∨ s = "b0" then some .bool else none, false⟩
private def xScope : Scope := fun s => if s = "a" ∨ s = "b" ∨ s = "s" ∨ s = "t" then some .bool else none
private def xSig (s : String) : Src := .node (.sig s) .bool []
private def xVar (s : String) : Src := .node (.var s) .bool []
private def xA : Src := .node (.op .and) .bool [xSig "a0", xSig "b0"]
private def xB : Src := .node (.op .or) .bool [xVar "a", xSig "a0"]
private def xT : Src := .node (.tmp .U 0 3) .bool [xVar "s", xVar "a"]

/-- What the second specification becomes. -/
example : (xProg.expand 100).bind (fun h => h.unfold 10 5) = some (.node (.expr (.tmp .U 0 3) .bool)
    [.node (.expr (.op .or) .bool) [.node (.expr (.op .and) .bool) [.node (.expr (.sig "a0") .bool) [], .node (.expr (.sig "b0") .bool) []],
       .node (.expr (.sig "a0") .bool) []],
     .node (.expr (.op .and) .bool) [.node (.expr (.sig "a0") .bool) [], .node (.expr (.sig "b0") .bool) []]]) := by
  rfl

private theorem getD_ge {A : Type} {l : List A} {n : Nat} {d : A} (h : l.length ≤ n) : l.getD n d = d := by
  rw [List.getD_eq_getElem?_getD, List.getElem?_eq_none h]; rfl
private theorem xKids_ge {x : Nat} (h : 14 ≤ x) : xHeap.kids x = [] :=
  getD_ge (by simpa [xKids] using h)
private theorem xLab_ge {x : Nat} (h : 14 ≤ x) : xHeap.lab x = .specSet :=
  getD_ge (by simpa [xLab] using h)

private theorem xVars {x : Nat} {s : String} {ty : Typ} (h : xHeap.lab x = .expr (.var s) ty) :
    ty = .bool ∧ ((x = 4 ∧ s = "b") ∨ (x = 6 ∧ s = "s") ∨ (x = 7 ∧ s = "a") ∨ (x = 12 ∧ s = "a")) := by
  by_cases hx : x < 14
  · interval_cases x <;> simp_all [xHeap, xLab]
  · rw [xLab_ge (by omega)] at h; cases h

private theorem xNamed {s : String} {y : Nat} : xProg.Named s y ↔
    (s = "a" ∧ y = 8) ∨ (s = "b" ∧ y = 11) ∨ (s = "s" ∧ y = 4) ∨ (s = "t" ∧ y = 5) := by
  by_cases h1 : s = "a"
  · subst h1; simp [XProg.Named, xProg, List.lookup]
  by_cases h2 : s = "b"
  · subst h2; simp [XProg.Named, xProg, List.lookup]
  by_cases h3 : s = "s"
  · subst h3; simp [XProg.Named, xProg, List.lookup, xHeap, xKids, eq_comm]
  by_cases h4 : s = "t"
  · subst h4; simp [XProg.Named, xProg, List.lookup, xHeap, xKids, eq_comm]
  have e1 : (s == "a") = false := by simpa using h1
  have e2 : (s == "b") = false := by simpa using h2
  have e3 : (s == "s") = false := by simpa using h3
  have e4 : (s == "t") = false := by simpa using h4
  simp [XProg.Named, xProg, List.lookup, e1, e2, e3, e4, h1, h2, h3, h4]

private theorem xParsed : xProg.Parsed where
  parents := by
    intro p c hc
    change c ∈ xHeap.kids p at hc
    by_cases hp : p < 14
    · revert c
      interval_cases p <;> decide
    · rw [xKids_ge (by omega)] at hc; cases hc
  leaf := by
    intro x s ty h
    obtain ⟨_, ⟨rfl, _⟩ | ⟨rfl, _⟩ | ⟨rfl, _⟩ | ⟨rfl, _⟩⟩ := xVars h <;> rfl
  specs := by
    intro s f h
    have : f = 2 ∨ f = 3 := by
      have := List.mem_of_lookup h
      simp [xProg] at this
      omega
    rcases this with rfl | rfl
    · exact ⟨.kid (p := 0) (.root (by simp [xProg])) (by decide), rfl⟩
    · exact ⟨.kid (p := 0) (.root (by simp [xProg])) (by decide), rfl⟩

private theorem xNotCircular : xProg.NotCircular := by
  refine ⟨fun x => [8, 0, 5, 7, 4, 6, 5, 5, 1, 0, 0, 3, 2, 0].getD x 0, ?_, ?_⟩
  · intro p c hc
    change c ∈ xHeap.kids p at hc
    by_cases hp : p < 14
    · revert c
      interval_cases p <;> decide
    · rw [xKids_ge (by omega)] at hc; cases hc
  · intro x s ty y hx hy
    rw [xNamed] at hy
    obtain ⟨_, ⟨rfl, rfl⟩ | ⟨rfl, rfl⟩ | ⟨rfl, rfl⟩ | ⟨rfl, rfl⟩⟩ := xVars hx <;>
      rcases hy with ⟨h, rfl⟩ | ⟨h, rfl⟩ | ⟨h, rfl⟩ | ⟨h, rfl⟩ <;> first | decide | simp at h

private theorem xNoAlias : xProg.NoAlias := by
  intro s d s' ty h1 h2 y hy
  have : d = 8 ∨ d = 11 := by
    have := List.mem_of_lookup h1
    simp [xProg] at this
    omega
  obtain ⟨_, ⟨rfl, _⟩ | ⟨rfl, _⟩ | ⟨rfl, _⟩ | ⟨rfl, _⟩⟩ := xVars h2 <;> omega

private theorem xReads : xHeap.Reads 8 xA ∧ xHeap.Reads 11 xB ∧ xHeap.Reads 4 (xVar "b") ∧ xHeap.Reads 5 xT := by
  have leaf : ∀ {x : Nat} {k : SK}, xHeap.lab x = .expr k .bool → xHeap.kids x = [] → xHeap.Reads x (.node k .bool []) :=
    fun h1 h2 => .node h1 (by rw [h2]; rfl) (by intro i c e h; rw [h2] at h; simp at h)
  have two : ∀ {x a b : Nat} {k : SK} {ea eb : Src}, xHeap.lab x = .expr k .bool → xHeap.kids x = [a, b] → xHeap.Reads a ea →
      xHeap.Reads b eb → xHeap.Reads x (.node k .bool [ea, eb]) := by
    intro x a b k ea eb h1 h2 h3 h4
    refine .node h1 (by rw [h2]; rfl) ?_
    intro i c e hc he
    rw [h2] at hc
    rcases i with _ | _ | i <;> simp at hc he
    · subst hc; subst he; exact h3
    · subst hc; subst he; exact h4
  exact ⟨two rfl rfl (leaf rfl rfl) (leaf rfl rfl), two rfl rfl (leaf rfl rfl) (leaf rfl rfl), leaf rfl rfl,
    two rfl rfl (leaf rfl rfl) (leaf rfl rfl)⟩

private theorem xMeans {s : String} {e : Src} : xProg.Means s e ↔
    (s = "a" ∧ e = xA) ∨ (s = "b" ∧ e = xB) ∨ (s = "s" ∧ e = xVar "b") ∨ (s = "t" ∧ e = xT) := by
  obtain ⟨h1, h2, h3, h4⟩ := xReads
  constructor
  · rintro ⟨x, hx, hr⟩
    rw [xNamed] at hx
    change xHeap.Reads x e at hr
    rcases hx with ⟨rfl, rfl⟩ | ⟨rfl, rfl⟩ | ⟨rfl, rfl⟩ | ⟨rfl, rfl⟩
    · exact .inl ⟨rfl, hr.unique h1⟩
    · exact .inr (.inl ⟨rfl, hr.unique h2⟩)
    · exact .inr (.inr (.inl ⟨rfl, hr.unique h3⟩))
    · exact .inr (.inr (.inr ⟨rfl, hr.unique h4⟩))
  · rintro (⟨rfl, rfl⟩ | ⟨rfl, rfl⟩ | ⟨rfl, rfl⟩ | ⟨rfl, rfl⟩)
    · exact ⟨8, xNamed.mpr (by simp), h1⟩
    · exact ⟨11, xNamed.mpr (by simp), h2⟩
    · exact ⟨4, xNamed.mpr (by simp), h3⟩
    · exact ⟨5, xNamed.mpr (by simp), h4⟩

private theorem xSorts : ∀ e ∈ [xA, xB, xVar "b", xT], HasSort xDecls xScope e .bool ∧ e.bound = [] := by
  have two : ∀ {o : OpK} {a b : Src}, o = .and ∨ o = .or → HasSort xDecls xScope a .bool → HasSort xDecls xScope b .bool →
      HasSort xDecls xScope (.node (.op o) .bool [a, b]) .bool := by
    intro o a b ho ha hb
    refine .op (ts := [.bool, .bool]) rfl ?_ (by rcases ho with rfl | rfl <;> rfl)
    intro i c t h1 h2
    rcases i with _ | _ | i <;> simp at h1 h2
    · subst h1; subst h2; exact ha
    · subst h1; subst h2; exact hb
  have sig : ∀ s, s = "a0" ∨ s = "b0" → HasSort xDecls xScope (xSig s) .bool := fun s hs => .sig (by simp [xDecls, hs]) rfl
  have var : ∀ s, s = "a" ∨ s = "b" ∨ s = "s" → HasSort xDecls xScope (xVar s) .bool := fun s hs => .var rfl (by
    simp only [xScope]; rw [if_pos (by tauto)])
  intro e he
  simp only [List.mem_cons, List.not_mem_nil, or_false] at he
  rcases he with rfl | rfl | rfl | rfl
  · exact ⟨two (.inl rfl) (sig _ (.inl rfl)) (sig _ (.inr rfl)), rfl⟩
  · exact ⟨two (.inr rfl) (var _ (.inl rfl)) (sig _ (.inl rfl)), rfl⟩
  · exact ⟨var _ (.inr (.inl rfl)), rfl⟩
  · refine ⟨.tmp ?_, rfl⟩
    simp only [List.mem_cons, List.not_mem_nil, or_false, forall_eq_or_imp, forall_eq]
    exact ⟨var _ (.inr (.inr rfl)), var _ (.inl rfl)⟩

private theorem xChecked : xProg.Checked xDecls xScope where
  reads := by
    intro s x hx
    obtain ⟨h1, h2, h3, h4⟩ := xReads
    rw [xNamed] at hx
    rcases hx with ⟨_, rfl⟩ | ⟨_, rfl⟩ | ⟨_, rfl⟩ | ⟨_, rfl⟩ <;> exact ⟨_, by assumption⟩
  types := by
    intro x s ty y h1 h2
    obtain ⟨rfl, _⟩ := xVars h1
    rw [xNamed] at h2
    rcases h2 with ⟨_, rfl⟩ | ⟨_, rfl⟩ | ⟨_, rfl⟩ | ⟨_, rfl⟩ <;> exact ⟨_, rfl⟩
  scope := by
    intro s
    simp only [xScope, xMeans]
    split_ifs with h
    · simp only [false_iff, reduceCtorEq]
      intro hn
      rcases h with rfl | rfl | rfl | rfl
      · exact hn _ (.inl ⟨rfl, rfl⟩)
      · exact hn _ (.inr (.inl ⟨rfl, rfl⟩))
      · exact hn _ (.inr (.inr (.inl ⟨rfl, rfl⟩)))
      · exact hn _ (.inr (.inr (.inr ⟨rfl, rfl⟩)))
    · simp only [true_iff]
      intro e he
      exact h (by tauto)
  sorts := by
    intro s e t he ht
    have : t = .bool := by
      simp only [xScope] at ht
      split_ifs at ht
      cases ht; rfl
    subst this
    rw [xMeans] at he
    rcases he with ⟨_, rfl⟩ | ⟨_, rfl⟩ | ⟨_, rfl⟩ | ⟨_, rfl⟩ <;> exact (xSorts _ (by simp)).1
  fresh := by
    intro s e he v hv
    rw [xMeans] at he
    rcases he with ⟨_, rfl⟩ | ⟨_, rfl⟩ | ⟨_, rfl⟩ | ⟨_, rfl⟩ <;> rw [(xSorts _ (by simp)).2] at hv <;> cases hv
  enums := by
    intro s ty _
    cases ty <;> rfl

example : xProg.Parsed ∧ xProg.NotCircular ∧ xProg.NoAlias ∧ xProg.Checked xDecls xScope ∧
    (xProg.heap.Reachable [xProg.ft, xProg.pt] 3 ∧ (xProg.heap.kids 3)[0]? = some 5 ∧ xProg.heap.Reads 5 xT ∧
      HasSort xDecls xScope xT .bool ∧ xT.bound = []) :=
  ⟨xParsed, xNotCircular, xNoAlias, xChecked, .kid (p := 0) (.root (by simp [xProg])) (by decide), rfl, xReads.2.2.2,
    (xSorts _ (by simp)).1, (xSorts _ (by simp)).2⟩

/-! ### Where expansion goes wrong -/

/-- `DEFINE a := x;  b := a;  FTSPEC b;`: nodes 0 and 1 the specification sets, 2 the formula, 3 its `b`, 4 the
definition of `b`, 5 that of `a`. -/
private def aliasProg : XProg where
  heap := ⟨fun x => [XNode.specSet, .specSet, .formula 0, .expr (.var "b") .bool, .expr (.var "a") .bool, .expr (.sig "x") .bool].getD x .specSet,
    fun x => [[2], [], [3], [], [], []].getD x [], fun x => [[], [], [0], [2], [], []].getD x []⟩
  defs := [("a", 5), ("b", 4)]
  specs := []
  ft := 0
  pt := 1

/-- C30 is false of a definition that is just another defined name: the specification is left with the name `a`
in it.  The program is not circular and all its expressions are Boolean. -/
theorem C30_alias_fails : aliasProg.Means "a" (xSig "x") ∧ aliasProg.Means "b" (xVar "a") ∧ aliasProg.NotCircular ∧
    ∀ fuel, 10 ≤ fuel → ∃ h c, aliasProg.expand fuel = some h ∧ h.kids 2 = [c] ∧ h.Reads c (xVar "a") := by
  have leaf : ∀ {h : Heap XNode} {x : Nat} {k : SK}, h.lab x = .expr k .bool → h.kids x = [] → h.Reads x (.node k .bool []) :=
    fun h1 h2 => .node h1 (by rw [h2]; rfl) (by intro i c e h; rw [h2] at h; simp at h)
  refine ⟨⟨5, rfl, leaf rfl rfl⟩, ⟨4, rfl, leaf rfl rfl⟩, ?_, ?_⟩
  · refine ⟨fun x => [4, 0, 3, 2, 1, 0].getD x 0, ?_, ?_⟩
    · intro p c hc
      by_cases hp : p < 6
      · revert c
        interval_cases p <;> decide
      · rw [show aliasProg.heap.kids p = [] from getD_ge (by simpa using hp)] at hc; cases hc
    · intro x s ty y hx hy
      by_cases hp : x < 6
      · interval_cases x <;> simp [aliasProg] at hx <;> obtain ⟨rfl, rfl⟩ := hx <;>
          simp [XProg.Named, aliasProg, List.lookup] at hy <;> subst hy <;> decide
      · rw [show aliasProg.heap.lab x = .specSet from getD_ge (by simpa using hp)] at hx; cases hx
  · intro fuel hf
    obtain ⟨n, rfl⟩ : ∃ n, fuel = n + 10 := ⟨fuel - 10, by omega⟩
    exact ⟨_, 4, rfl, rfl, leaf rfl rfl⟩

/-- `DEFINE a := x;  FTSPEC foreach(a: {y, z})(a);`: 3 is the aggregation, 4 its set, 7 its body, 8 the definition. -/
private def shadowProg : XProg where
  heap := ⟨fun x => [XNode.specSet, .specSet, .formula 0, .expr (.agg .each "a") .bool, .expr .array (.arr .bool 2),
      .expr (.sig "y") .bool, .expr (.sig "z") .bool, .expr (.var "a") .bool, .expr (.sig "x") .bool].getD x .specSet,
    fun x => [[2], [], [3], [4, 7], [5, 6], [], [], [], []].getD x [],
    fun x => [[], [], [0], [2], [3], [4], [4], [3], []].getD x []⟩
  defs := [("a", 8)]
  specs := []
  ft := 0
  pt := 1

private def shadowExpr (body : Src) : Src :=
  .node (.agg .each "a") .bool [.node .array (.arr .bool 2) [xSig "y", xSig "z"], body]

/-- C30 is false of an aggregation that binds a defined name: the name in its body is replaced by the definition.
Where `y` and `z` hold and `x` does not, the specification holds, and what it is expanded to does not. -/
theorem C30_shadow_fails : shadowProg.Means "a" (xSig "x") ∧ shadowProg.heap.Reads 3 (shadowExpr (xVar "a")) ∧
    ∀ fuel, 20 ≤ fuel → ∃ h e', shadowProg.expand fuel = some h ∧ h.kids 2 = [3] ∧ h.Reads 3 e' ∧
      ∀ (I : Interp F) (ρ : Env F), shadowProg.Respects I ρ → ρ.sig "x" 0 = .bool false → ρ.sig "y" 0 = .bool true →
        ρ.sig "z" 0 = .bool true → ((shadowExpr (xVar "a")).sem I ρ 0).isTrue = true ∧ (e'.sem I ρ 0).isTrue = false := by
  have leaf : ∀ {h : Heap XNode} {x : Nat} {k : SK}, h.lab x = .expr k .bool → h.kids x = [] → h.Reads x (.node k .bool []) :=
    fun h1 h2 => .node h1 (by rw [h2]; rfl) (by intro i c e h; rw [h2] at h; simp at h)
  have two : ∀ {h : Heap XNode} {x a b : Nat} {k : SK} {ty : Typ} {ea eb : Src}, h.lab x = .expr k ty → h.kids x = [a, b] → h.Reads a ea →
      h.Reads b eb → h.Reads x (.node k ty [ea, eb]) := by
    intro h x a b k ty ea eb h1 h2 h3 h4
    refine .node h1 (by rw [h2]; rfl) ?_
    intro i c e hc he
    rw [h2] at hc
    rcases i with _ | _ | i <;> simp at hc he
    · subst hc; subst he; exact h3
    · subst hc; subst he; exact h4
  refine ⟨⟨8, rfl, leaf rfl rfl⟩, two rfl rfl (two rfl rfl (leaf rfl rfl) (leaf rfl rfl)) (leaf rfl rfl), ?_⟩
  intro fuel hf
  obtain ⟨n, rfl⟩ : ∃ n, fuel = n + 20 := ⟨fuel - 20, by omega⟩
  refine ⟨_, shadowExpr (xSig "x"), rfl, rfl, two rfl rfl (two rfl rfl (leaf rfl rfl) (leaf rfl rfl)) (leaf rfl rfl), ?_⟩
  intro I ρ _ hx hy hz
  constructor
  · simp [shadowExpr, xSig, xVar, Src.sem, Src.semL, Src.evalK, Src.evalAgg, Val.items, Val.isTrue, Src.enumVal, Env.bind, Val.nth]
    intro n hn
    rcases n with _ | _ | n
    · simp [hy]
    · simp [hz]
    · omega
  · simp [shadowExpr, xSig, Src.sem, Src.semL, Src.evalK, Src.evalAgg, Val.items, Val.isTrue, Env.bind]
    rw [hx]
    exact ⟨⟨0, by omega⟩, rfl⟩

end R2U2
