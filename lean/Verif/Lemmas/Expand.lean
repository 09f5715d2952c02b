import Verif.Spec.Expand
import Verif.Lemmas.Heap
import Verif.Props.Graph
import Verif.Lemmas.Desugar
/-
Definition expansion: what the loop does to the graph, and what that does to meanings.
-/
namespace R2U2
variable {F : Type}

/-! ### expansion of expressions -/

/-- `e'` is `e` with every name replaced by the expansion of what it stands for. -/
inductive Src.Expands (δ : String → Src → Prop) : Src → Src → Prop
  | ref {s ty d e'} : δ s d → Expands δ d e' → Expands δ (.node (.var s) ty []) e'
  | node {k ty cs cs'} : (∀ s d, k = .var s → ¬ δ s d) → cs.length = cs'.length →
      (∀ (i : Nat) (c c' : Src), cs[i]? = some c → cs'[i]? = some c' → Expands δ c c') → Expands δ (.node k ty cs) (.node k ty cs')

/-- The scope without the names of `Γ`. -/
def Scope.without (Δ Γ : Scope) : Scope := fun s => if Γ s = none then Δ s else none

theorem Scope.without_self (Γ : Scope) : Γ.without Γ = Scope.empty := by
  funext s
  simp only [Scope.without, Scope.empty]
  split_ifs with h
  · exact h
  · rfl

theorem Scope.without_bind {Δ Γ : Scope} {v : String} {t : Ty} (h : Γ v = none) : (Δ.bind v t).without Γ = (Δ.without Γ).bind v t := by
  funext s
  simp only [Scope.without, Scope.bind]
  by_cases hs : s = v
  · subst hs; simp [h]
  · simp [hs]

/-- Every name has the value of the expansion of what it stands for, whatever is assumed about names. -/
def Env.Solves (δ : String → Src → Prop) (I : Interp F) (ρ₀ : Env F) : Prop := ∀ s d d', δ s d → Src.Expands δ d d' →
  ∀ ρ : Env F, ρ.sig = ρ₀.sig → ∀ i, ρ₀.var s i = d'.sem I ρ i

/-- The same for the names of a program. -/
def XProg.Solves (P : XProg) (I : Interp F) (ρ₀ : Env F) : Prop := ρ₀.Solves P.Means I

namespace Src

theorem forall₂_of_idx {A B : Type} {R : A → B → Prop} {as : List A} {bs : List B} (hl : as.length = bs.length)
    (h : ∀ (i : Nat) (a : A) (b : B), as[i]? = some a → bs[i]? = some b → R a b) : List.Forall₂ R as bs := by
  induction as generalizing bs with
  | nil => cases bs with
    | nil => exact .nil
    | cons => simp at hl
  | cons a as ih => cases bs with
    | nil => simp at hl
    | cons b bs =>
      exact .cons (h 0 a b rfl rfl) (ih (by simpa using hl) fun i x y hx hy => h (i + 1) x y (by simpa using hx) (by simpa using hy))

theorem bound_kid {k ty cs} {c : Src} (hc : c ∈ cs) {v : String} (hv : v ∈ bound c) : v ∈ bound (.node k ty cs) :=
  mem_bound.mpr (.inr ⟨c, hc, hv⟩)

/-- Expansion removes the defined names from the scope, and changes no value where they have the value of their
definitions. -/
theorem expands_keep' {δ : String → Src → Prop} {D : Decls} {Γ : Scope} (hP : Γ.Declares δ D) {e e' : Src} (h : Expands δ e e') :
    ∀ Δ t, HasSort D Δ e t → (∀ s, Γ s ≠ none → Δ s = Γ s) → (∀ v ∈ bound e, Γ v = none) →
      HasSort D (Δ.without Γ) e' t ∧
      ∀ (I : Interp F), I.Fits D → ∀ ρ₀ ρ : Env F, ρ₀.Respects δ I ∨ ρ₀.Solves δ I → ρ.sig = ρ₀.sig → (∀ s, Γ s ≠ none → ρ.var s = ρ₀.var s) →
        ∀ i, sem I e' ρ i = sem I e ρ i := by
  induction h with
  | @ref s ty d e' hd he ih =>
    intro Δ t ht hΔ _
    have hs : Γ s ≠ none := fun h => (hP.scope s).mp h d hd
    have hnum := hP.enums s ty hs
    cases ht with
    | enum a => rw [hnum] at a; simp at a
    | var _ b =>
      rw [hΔ s hs] at b
      have hsort := hP.sorts s d t hd b
      obtain ⟨h1, h2⟩ := ih Γ t hsort (fun _ _ => rfl) (hP.fresh s d hd)
      rw [Scope.without_self] at h1
      refine ⟨h1.closed _, fun I hI ρ₀ ρ h3 h4 h5 i => ?_⟩
      rw [sem_node]
      simp only [evalK, List.map_nil, hI.enums, hnum]
      rw [h5 s hs]
      rcases h3 with h3 | h3
      · rw [h2 I hI ρ₀ ρ (.inl h3) h4 h5 i, sem_scope hI.enums hsort ρ ρ₀ h4 h5 i, ← h3 s d hd i]
      · exact (h3 s d e' hd he ρ h4 i).symm
  | @node k ty cs cs' hk hl _ ih =>
    intro Δ t ht hΔ hb
    have hkid : ∀ c ∈ cs, ∀ v ∈ bound c, Γ v = none := fun c hc v hv => hb v (bound_kid hc hv)
    have hall : List.Forall₂ (fun c c' : Src => ∀ Δ t, HasSort D Δ c t → (∀ s, Γ s ≠ none → Δ s = Γ s) →
      HasSort D (Δ.without Γ) c' t ∧
      ∀ (I : Interp F), I.Fits D → ∀ ρ₀ ρ : Env F, ρ₀.Respects δ I ∨ ρ₀.Solves δ I → ρ.sig = ρ₀.sig → (∀ s, Γ s ≠ none → ρ.var s = ρ₀.var s) →
        ∀ i, sem I c' ρ i = sem I c ρ i) cs cs' :=
      forall₂_of_idx hl fun i c c' hc hc' Δ t h1 h2 => ih i c c' hc hc' Δ t h1 h2 (hkid c (List.mem_of_getElem? hc))
    have hidx : ∀ {ts : List Ty}, (∀ (i : Nat) (c : Src) (t : Ty), cs[i]? = some c → ts[i]? = some t → HasSort D Δ c t) →
        ∀ (i : Nat) (c : Src) (t : Ty), cs'[i]? = some c → ts[i]? = some t → HasSort D (Δ.without Γ) c t := by
      intro ts hh i c' t hi ht
      obtain ⟨c, hc1, hc2⟩ := forall₂_idx hall hi
      exact (hc2 _ _ (hh i c t hc1 ht) hΔ).1
    -- values, for nodes that do not bind names
    have hval : (∀ s, k ≠ .var s) → (∀ a v, k ≠ .agg a v) → (∀ c ∈ cs, ∃ t, HasSort D Δ c t) →
        ∀ (I : Interp F), I.Fits D → ∀ ρ₀ ρ : Env F, ρ₀.Respects δ I ∨ ρ₀.Solves δ I → ρ.sig = ρ₀.sig → (∀ s, Γ s ≠ none → ρ.var s = ρ₀.var s) →
          ∀ i, sem I (.node k ty cs') ρ i = sem I (.node k ty cs) ρ i := by
      intro g1 g2 g3 I hI ρ₀ ρ h3 h4 h5 i
      rw [sem_node, sem_node]
      refine evalK_congr g1 g2 rfl ?_ i
      have hall' := forall₂_of_mem hall fun c hc c' hcc => (show ∀ j, sem I c' ρ j = sem I c ρ j by
        obtain ⟨t, ht⟩ := g3 c hc
        exact (hcc Δ t ht hΔ).2 I hI ρ₀ ρ h3 h4 h5)
      rw [List.forall₂_map_left_iff, List.forall₂_map_right_iff]
      exact hall'.flip
    have hsome : ∀ {ts : List Ty}, cs.length = ts.length →
        (∀ (i : Nat) (c : Src) (t : Ty), cs[i]? = some c → ts[i]? = some t → HasSort D Δ c t) → ∀ c ∈ cs, ∃ t, HasSort D Δ c t := by
      intro ts hl hh c hc
      obtain ⟨i, hi, rfl⟩ := List.mem_iff_getElem.mp hc
      exact ⟨ts[i]'(hl ▸ hi), hh i _ _ (by simp [hi]) (by simp [hl ▸ hi])⟩
    cases ht with
    | bool => cases hall; exact ⟨.bool, fun _ _ _ _ _ _ _ _ => rfl⟩
    | int => cases hall; exact ⟨.int, fun _ _ _ _ _ _ _ _ => rfl⟩
    | float => cases hall; exact ⟨.float, fun _ _ _ _ _ _ _ _ => rfl⟩
    | tau => cases hall; exact ⟨.tau, fun _ _ _ _ _ _ _ _ => rfl⟩
    | sig a b => cases hall; exact ⟨.sig a b, fun _ _ _ _ _ _ _ _ => rfl⟩
    | enum a => cases hall; exact ⟨.enum a, fun _ _ _ _ _ _ _ _ => rfl⟩
    | @var _ s _ _ a b =>
      cases hall
      refine ⟨.var a ?_, fun _ _ _ _ _ _ _ _ => rfl⟩
      rw [Scope.without, if_pos ((hP.scope s).mpr fun e he => hk s e rfl he), b]
    | array h =>
      refine ⟨.array fun c' hm => ?_, hval (by simp) (by simp) fun c hc => ⟨_, h c hc⟩⟩
      obtain ⟨c, hc1, hc2⟩ := forall₂_mem hall hm
      exact (hc2 _ _ (h c hc1) hΔ).1
    | index h0 h =>
      refine ⟨?_, hval (by simp) (by simp) (by simpa using ⟨_, h⟩)⟩
      cases hall with | cons h1 hn => cases hn; exact .index h0 (h1 _ _ h hΔ).1
    | slice h0 h =>
      refine ⟨?_, hval (by simp) (by simp) (by simpa using ⟨_, h⟩)⟩
      cases hall with | cons h1 hn => cases hn; exact .slice h0 (h1 _ _ h hΔ).1
    | struct h1 h2 h3 h4 h5 =>
      exact ⟨.struct h1 h2 h3 (by omega) (hidx h5), hval (by simp) (by simp) (hsome h4 h5)⟩
    | call h1 h3 h4 h5 => exact ⟨.call h1 h3 (by omega) (hidx h5), hval (by simp) (by simp) (hsome h4 h5)⟩
    | access h h1 h2 h3 =>
      refine ⟨?_, hval (by simp) (by simp) (by simpa using ⟨_, h⟩)⟩
      cases hall with | cons h4 hn => cases hn; exact .access (h4 _ _ h hΔ).1 h1 h2 h3
    | op h1 h2 h3 => exact ⟨.op (by omega) (hidx h2) h3, hval (by simp) (by simp) (hsome h1 h2)⟩
    | tmp h =>
      refine ⟨.tmp fun c' hm => ?_, hval (by simp) (by simp) fun c hc => ⟨_, h c hc⟩⟩
      obtain ⟨c, hc1, hc2⟩ := forall₂_mem hall hm
      exact (hc2 _ _ (h c hc1) hΔ).1
    | @agg _ a v _ set body tv h1 h2 h3 =>
      have hv : Γ v = none := hb v (mem_bound.mpr (.inl ⟨_, rfl⟩))
      have hΔ' : ∀ s, Γ s ≠ none → (Δ.bind v tv) s = Γ s := by
        intro s hs
        simp only [Scope.bind]
        rw [if_neg (by rintro rfl; exact hs hv)]
        exact hΔ s hs
      cases hall with
      | cons h4 hn =>
        cases hn with
        | cons h5 hn =>
          cases hn
          obtain ⟨a1, b1⟩ := h4 _ _ h1 hΔ
          obtain ⟨a2, b2⟩ := h5 _ _ h2 hΔ'
          rw [Scope.without_bind hv] at a2
          refine ⟨.agg a1 a2 h3, fun I hI ρ₀ ρ h6 h7 h8 i => ?_⟩
          simp only [sem_node, List.map_cons, List.map_nil, evalK]
          refine evalAgg_congr (b1 I hI ρ₀ ρ h6 h7 h8) (by simp) (fun d j => b2 I hI ρ₀ (ρ.bind v d) h6 h7 ?_ j) i
          intro s hs
          simp only [Env.bind]
          rw [if_neg (by rintro rfl; exact hs hv)]
          exact h8 s hs
    | @aggN _ a v _ set num body tv h1 h2 h3 h9 =>
      have hv : Γ v = none := hb v (mem_bound.mpr (.inl ⟨_, rfl⟩))
      have hΔ' : ∀ s, Γ s ≠ none → (Δ.bind v tv) s = Γ s := by
        intro s hs
        simp only [Scope.bind]
        rw [if_neg (by rintro rfl; exact hs hv)]
        exact hΔ s hs
      cases hall with
      | cons h4 hn =>
        cases hn with
        | cons h5 hn =>
          cases hn with
          | cons h10 hn =>
            cases hn
            obtain ⟨a1, b1⟩ := h4 _ _ h1 hΔ
            obtain ⟨a3, b3⟩ := h5 _ _ h2 hΔ
            obtain ⟨a2, b2⟩ := h10 _ _ h3 hΔ'
            rw [Scope.without_bind hv] at a2
            refine ⟨.aggN a1 a3 a2 h9, fun I hI ρ₀ ρ h6 h7 h8 i => ?_⟩
            simp only [sem_node, List.map_cons, List.map_nil, evalK]
            refine evalAgg_congr (b1 I hI ρ₀ ρ h6 h7 h8) (by simpa using b3 I hI ρ₀ ρ h6 h7 h8)
              (fun d j => b2 I hI ρ₀ (ρ.bind v d) h6 h7 ?_ j) i
            intro s hs
            simp only [Env.bind]
            rw [if_neg (by rintro rfl; exact hs hv)]
            exact h8 s hs

theorem expands_keep {P : XProg} {D : Decls} {Γ : Scope} (hP : P.Checked D Γ) {e e' : Src} (h : Expands P.Means e e') :
    ∀ Δ t, HasSort D Δ e t → (∀ s, Γ s ≠ none → Δ s = Γ s) → (∀ v ∈ bound e, Γ v = none) →
      HasSort D (Δ.without Γ) e' t ∧
      ∀ (I : Interp F), I.Fits D → ∀ ρ₀ ρ : Env F, P.Respects I ρ₀ ∨ P.Solves I ρ₀ → ρ.sig = ρ₀.sig → (∀ s, Γ s ≠ none → ρ.var s = ρ₀.var s) →
        ∀ i, sem I e' ρ i = sem I e ρ i :=
  expands_keep' ⟨hP.scope, hP.sorts, hP.fresh, hP.enums⟩ h

end Src

/-! ### names and their values -/

theorem Heap.Reads.unique {h : Heap XNode} {x : Nat} {e e' : Src} (h1 : h.Reads x e) : h.Reads x e' → e = e' := by
  induction h1 generalizing e' with
  | @node x k ty cs a b _ ih =>
    intro h2
    cases h2 with
    | @node _ k' ty' cs' a' b' c' =>
      rw [a] at a'; cases a'
      congr 1
      refine List.ext_getElem (by omega) fun i hi hi' => ?_
      have hl : i < (h.kids x).length := by omega
      exact ih i _ _ (List.getElem?_eq_getElem hl) (List.getElem?_eq_getElem hi)
        (c' i _ _ (List.getElem?_eq_getElem hl) (List.getElem?_eq_getElem hi'))

theorem Src.Expands.unique {δ : String → Src → Prop} (hδ : ∀ s d d', δ s d → δ s d' → d = d') {e a b : Src}
    (h1 : Src.Expands δ e a) : Src.Expands δ e b → a = b := by
  induction h1 generalizing b with
  | ref h _ ih =>
    intro h2
    cases h2 with
    | ref h' h'' => exact ih (hδ _ _ _ h h' ▸ h'')
    | node h' => exact absurd h (h' _ _ rfl)
  | @node k ty cs cs' h hl _ ih =>
    intro h2
    cases h2 with
    | ref h' => exact absurd h' (h _ _ rfl)
    | @node _ _ _ cs'' _ hl' hh =>
      congr 1
      refine List.ext_getElem (by omega) fun i hi hi' => ?_
      have h0 : i < cs.length := by omega
      exact ih i _ _ (List.getElem?_eq_getElem h0) (List.getElem?_eq_getElem hi)
        (hh i _ _ (List.getElem?_eq_getElem h0) (List.getElem?_eq_getElem hi'))

/-! ### the loop -/

namespace XProg
open Heap

/-- The node a node is to be replaced by. -/
def To (P : XProg) (x y : Nat) : Prop := ∃ s ty, P.heap.lab x = .expr (.var s) ty ∧ P.Named s y

theorem named_unique {P : XProg} {s : String} {x y : Nat} (hx : P.Named s x) (hy : P.Named s y) : x = y := by
  unfold Named at hx hy
  cases hd : P.defs.lookup s with
  | some d => rw [hd] at hx hy; exact hx.trans hy.symm
  | none =>
    rw [hd] at hx hy
    obtain ⟨f, h1, h2⟩ := hx
    obtain ⟨g, h3, h4⟩ := hy
    rw [h1] at h3; cases h3
    rw [h2] at h4; cases h4
    rfl

theorem To.unique {P : XProg} {x y z : Nat} (h1 : P.To x y) (h2 : P.To x z) : y = z := by
  obtain ⟨s, ty, h3, h4⟩ := h1
  obtain ⟨s', ty', h5, h6⟩ := h2
  rw [h3] at h5; cases h5
  exact named_unique h4 h6

theorem means_unique {P : XProg} {s : String} {d d' : Src} (h : P.Means s d) (h' : P.Means s d') : d = d' := by
  obtain ⟨x, h1, h2⟩ := h
  obtain ⟨y, h3, h4⟩ := h'
  exact h2.unique (named_unique h1 h3 ▸ h4)

/-- Every expression has an expansion. -/
theorem expands_total {P : XProg} (hP : P.Parsed) (hc : P.NotCircular) (hD : ∀ s x, P.Named s x → ∃ e, P.heap.Reads x e) {x : Nat} {e : Src}
    (hr : P.heap.Reads x e) : ∃ e', Src.Expands P.Means e e' := by
  obtain ⟨rank, hrk, hrn⟩ := hc
  have key : ∀ n x e, rank x < n → P.heap.Reads x e → ∃ e', Src.Expands P.Means e e' := by
    intro n
    induction n with
    | zero => intro x e h; omega
    | succ n ih =>
      intro x e hx he
      cases he with
      | @node _ k ty cs h1 h2 h3 =>
        by_cases hm : ∃ s d, k = .var s ∧ P.Means s d
        · obtain ⟨s, d, rfl, y, h4, h5⟩ := hm
          have := hrn x s ty y h1 h4
          obtain ⟨e', h6⟩ := ih y d (by omega) h5
          rw [hP.leaf x s ty h1] at h2
          obtain rfl : cs = [] := List.length_eq_zero_iff.mp h2.symm
          exact ⟨e', .ref ⟨y, h4, h5⟩ h6⟩
        · have : ∀ c ∈ cs, ∃ e', Src.Expands P.Means c e' := by
            intro c hc
            obtain ⟨i, hi, rfl⟩ := List.mem_iff_getElem.mp hc
            have hl : i < (P.heap.kids x).length := by omega
            have := hrk x _ (List.getElem_mem hl)
            exact ih _ _ (by omega) (h3 i _ _ (List.getElem?_eq_getElem hl) (List.getElem?_eq_getElem hi))
          choose f hf using this
          refine ⟨.node k ty (cs.attach.map fun c => f c.1 c.2), .node ?_ (by simp) ?_⟩
          · rintro s d rfl hd; exact hm ⟨s, d, rfl, hd⟩
          · intro i c c' hc hc'
            rw [List.getElem?_map, Option.map_eq_some_iff] at hc'
            obtain ⟨⟨y, hy⟩, h7, rfl⟩ := hc'
            rw [List.getElem?_eq_some_iff] at h7 hc
            obtain ⟨_, h7⟩ := h7
            obtain ⟨_, rfl⟩ := hc
            simp only [List.getElem_attach, Subtype.mk.injEq] at h7
            subst h7
            exact hf _ _
  exact key (rank x + 1) x e (by omega) hr

open Classical in
/-- Given the input signals, the names can be given the values of their definitions. -/
theorem respects_exists {P : XProg} {D : Decls} {Γ : Scope} (hP : P.Parsed) (hc : P.NotCircular) (hD : P.Checked D Γ)
    (I : Interp F) (hI : I.Fits D) (sig : String → Nat → Val F) : ∃ ρ : Env F, ρ.sig = sig ∧ P.Respects I ρ := by
  let ρ₁ : Env F := ⟨sig, fun _ _ => .err⟩
  let ρ₀ : Env F := ⟨sig, fun s => if h : ∃ d' d, P.Means s d ∧ Src.Expands P.Means d d' then h.choose.sem I ρ₁ else fun _ => .err⟩
  -- what a name stands for has a sort
  have hsort : ∀ s d, P.Means s d → ∃ t, HasSort D Γ d t := by
    intro s d hd
    cases ht : Γ s with
    | none => exact absurd hd ((hD.scope s).mp ht d)
    | some t => exact ⟨t, hD.sorts s d t hd ht⟩
  have hsolve : P.Solves I ρ₀ := by
    intro s d d' h1 h2 ρ hρ i
    have hex : ∃ d' d, P.Means s d ∧ Src.Expands P.Means d d' := ⟨d', d, h1, h2⟩
    have hval : ρ₀.var s = hex.choose.sem I ρ₁ := dif_pos hex
    rw [hval]
    obtain ⟨d₂, h3, h4⟩ := hex.choose_spec
    rw [means_unique h3 h1] at h4
    rw [Src.Expands.unique (δ := P.Means) (fun _ _ _ a b => means_unique a b) h4 h2]
    obtain ⟨t, ht⟩ := hsort s d h1
    have := (Src.expands_keep (F := F) hD h2 Γ t ht (fun _ _ => rfl) (hD.fresh s d h1)).1
    rw [Scope.without_self] at this
    exact Src.sem_scope hI.enums this ρ₁ ρ hρ.symm (by simp [Scope.empty]) i
  refine ⟨ρ₀, rfl, ?_⟩
  intro s d hd i
  obtain ⟨x, h1, h2⟩ := hd
  obtain ⟨d', h3⟩ := expands_total hP hc hD.reads h2
  obtain ⟨t, ht⟩ := hsort s d ⟨x, h1, h2⟩
  rw [hsolve s d d' ⟨x, h1, h2⟩ h3 ρ₀ rfl i]
  exact (Src.expands_keep (F := F) hD h3 Γ t ht (fun _ _ => rfl) (hD.fresh s d ⟨x, h1, h2⟩)).2 I hI ρ₀ ρ₀ (.inr hsolve) rfl (fun _ _ => rfl) i

/-- Following names. -/
inductive Leads (P : XProg) : Nat → Nat → Prop
  | refl {x} : Leads P x x
  | step {x y z} : P.To x y → Leads P y z → Leads P x z

theorem Leads.trans {P : XProg} {x y z : Nat} (h1 : P.Leads x y) (h2 : P.Leads y z) : P.Leads x z := by
  induction h1 with
  | refl => exact h2
  | step h _ ih => exact .step h (ih h2)

theorem Leads.unique {P : XProg} {x y z : Nat} (h1 : P.Leads x y) (h2 : P.Leads x z) (hy : ∀ w, ¬ P.To y w) (hz : ∀ w, ¬ P.To z w) :
    y = z := by
  induction h1 with
  | refl => cases h2 with
    | refl => rfl
    | step h _ => exact absurd h (hy _)
  | step h _ ih => cases h2 with
    | refl => exact absurd h (hz _)
    | step h' h'' => exact ih ((h.unique h') ▸ h'') hy

/-- The state after some nodes were processed: `cur c` is what stands where `c` stood. -/
structure LoopInv (P : XProg) (rank : Nat → Nat) (done : List Nat) (h : Heap XNode) (cur : Nat → Nat) : Prop where
  kids : ∀ p, h.kids p = (P.heap.kids p).map cur
  lab : h.lab = P.heap.lab
  parents : h.ParentsKnown
  leads : ∀ c, P.Leads c (cur c)
  gone : ∀ z ∈ done, (∃ y, P.To z y) → ∀ c, cur c ≠ z

theorem leads_rank {P : XProg} {rank : Nat → Nat} (hr : ∀ x y, P.To x y → rank y < rank x) {x y : Nat} (h : P.Leads x y) :
    rank y ≤ rank x := by
  induction h with
  | refl => exact Nat.le_refl _
  | step h _ ih => have := hr _ _ h; omega

theorem leads_type {P : XProg} (ht : ∀ x s ty y, P.heap.lab x = .expr (.var s) ty → P.Named s y → ∃ k, P.heap.lab y = .expr k ty)
    {x y : Nat} (h : P.Leads x y) : ∀ k ty, P.heap.lab x = .expr k ty → ∃ k', P.heap.lab y = .expr k' ty := by
  induction h with
  | refl => exact fun k ty h => ⟨k, h⟩
  | step h _ ih =>
    intro k ty hx
    obtain ⟨s, ty', h1, h2⟩ := h
    rw [h1] at hx; cases hx
    obtain ⟨k', h3⟩ := ht _ _ _ _ h1 h2
    exact ih k' ty h3

theorem LoopInv.step {P : XProg} {rank : Nat → Nat} (hP : P.Parsed) (hr : ∀ x y, P.To x y → rank y < rank x) (ha : P.NoAlias)
    (ht : ∀ x s ty y, P.heap.lab x = .expr (.var s) ty → P.Named s y → ∃ k, P.heap.lab y = .expr k ty)
    {done : List Nat} {h : Heap XNode} {cur : Nat → Nat} (hi : P.LoopInv rank done h cur) (x : Nat) :
    ∃ cur', P.LoopInv rank (x :: done) (P.expandOne h x) cur' := by
  have hlab : h.lab x = P.heap.lab x := by rw [hi.lab]
  -- what the code finds is where the name leads
  have htarget : (P.target h x = none ∧ ∀ y, ¬ P.To x y) ∨ ∃ r y, P.target h x = some y ∧ P.To x r ∧ P.Leads r y ∧
      ((∀ w, ¬ P.To y w) ∨ y = cur r) := by
    unfold target
    rw [hlab]
    split
    · rename_i s ty hs
      cases hd : P.defs.lookup s with
      | some d =>
        refine .inr ⟨d, d, rfl, ⟨s, ty, hs, by simp [Named, hd]⟩, .refl, .inl ?_⟩
        rintro w ⟨s', ty', h1, h2⟩
        exact ha s d s' ty' hd h1 w h2
      | none =>
        cases hf : P.specs.lookup s with
        | none =>
          refine .inl ⟨rfl, ?_⟩
          rintro y ⟨s', ty', h1, h2⟩
          rw [hs] at h1; cases h1
          simp only [Named, hd, hf] at h2
          obtain ⟨f, h2, _⟩ := h2
          cases h2
        | some f =>
          have hl := (hP.specs s f hf).2
          obtain ⟨r, hk⟩ : ∃ r, P.heap.kids f = [r] := List.length_eq_one_iff.mp hl
          refine .inr ⟨r, cur r, ?_, ⟨s, ty, hs, ?_⟩, hi.leads r, .inr rfl⟩
          · simp [hi.kids, hk]
          · simp [Named, hd, hf, hk]
    · rename_i hn
      refine .inl ⟨rfl, ?_⟩
      rintro y ⟨s, ty, h1, _⟩
      exact hn s ty h1
  unfold expandOne
  rcases htarget with ⟨h1, h2⟩ | ⟨r, y, h1, h2, h3, h4⟩
  · rw [h1]
    refine ⟨cur, hi.kids, hi.lab, hi.parents, hi.leads, ?_⟩
    intro z hz hex
    rcases List.mem_cons.mp hz with rfl | hz
    · obtain ⟨y, hy⟩ := hex; exact absurd hy (h2 y)
    · exact hi.gone z hz hex
  · rw [h1]
    have hxy : P.Leads x y := .step h2 h3
    have hne : x ≠ y := by
      rintro rfl
      have := leads_rank hr h3
      have := hr _ _ h2
      omega
    have hleaf : h.kids x = [] := by
      obtain ⟨s, ty, h5, _⟩ := h2
      rw [hi.kids, hP.leaf x s ty h5]; rfl
    simp only [replaceTyped, if_neg hne]
    have hkids : ∀ p, (h.replace x y).kids p = (h.kids p).map fun c => if c = x then y else c := by
      intro p
      simp only [Heap.replace, if_neg hne]
      split_ifs with hp
      · rfl
      · symm
        have : ∀ c ∈ h.kids p, (fun c => if c = x then y else c) c = id c := by
          intro c hc
          simp only [id]
          rw [if_neg]
          rintro rfl
          exact hp (hi.parents p c hc)
        rw [List.map_congr_left this, List.map_id]
    refine ⟨fun c => if cur c = x then y else cur c, ?_, ?_, ?_, ?_, ?_⟩
    · intro p
      rw [hkids, hi.kids, List.map_map]
      rfl
    · funext z
      simp only
      split_ifs with hz
      · subst hz
        obtain ⟨s, ty, h5, _⟩ := h2
        obtain ⟨k', h6⟩ := leads_type ht hxy _ _ h5
        rw [hlab, h5, hi.lab, h6]; rfl
      · rw [hi.lab]
    · intro p c hc
      rw [show ({ h.replace x y with lab := _ } : Heap XNode).kids p = _ from hkids p] at hc
      simp only [Heap.replace, if_neg hne, hleaf, List.not_mem_nil, if_false]
      obtain ⟨c0, hc0, rfl⟩ := List.mem_map.mp hc
      have := hi.parents p c0 hc0
      by_cases hcx : c0 = x
      · subst hcx
        simp [this]
      · simp only [if_neg hcx]
        split_ifs
        · exact List.mem_append_left _ this
        · exact this
    · intro c
      split_ifs with hc
      · exact Leads.trans (hc ▸ hi.leads c) hxy
      · exact hi.leads c
    · intro z hz hex c
      split_ifs with hc
      · rintro rfl
        rcases List.mem_cons.mp hz with rfl | hz
        · exact hne rfl
        · rcases h4 with h4 | h4
          · obtain ⟨w, hw⟩ := hex; exact h4 w hw
          · exact hi.gone y hz hex r h4.symm
      · rcases List.mem_cons.mp hz with rfl | hz
        · exact hc
        · exact hi.gone z hz hex c

theorem LoopInv.foldl {P : XProg} {rank : Nat → Nat} (hP : P.Parsed) (hr : ∀ x y, P.To x y → rank y < rank x) (ha : P.NoAlias)
    (ht : ∀ x s ty y, P.heap.lab x = .expr (.var s) ty → P.Named s y → ∃ k, P.heap.lab y = .expr k ty)
    (xs : List Nat) : ∀ {done : List Nat} {h : Heap XNode} {cur : Nat → Nat}, P.LoopInv rank done h cur →
    ∃ cur', P.LoopInv rank (xs.reverse ++ done) (xs.foldl P.expandOne h) cur' := by
  induction xs with
  | nil => intro done h cur hi; exact ⟨cur, hi⟩
  | cons x xs ih =>
    intro done h cur hi
    obtain ⟨c1, h1⟩ := hi.step hP hr ha ht x
    obtain ⟨c2, h2⟩ := ih h1
    exact ⟨c2, by simpa using h2⟩

theorem _root_.List.mem_of_lookup {A B : Type} [BEq A] [LawfulBEq A] {a : A} {b : B} : ∀ {l : List (A × B)}, l.lookup a = some b → (a, b) ∈ l
  | [], h => by simp at h
  | (c, d) :: l, h => by
    simp only [List.lookup_cons] at h
    split at h
    · rename_i hc
      simp at hc h
      subst hc; subst h
      simp
    · exact List.mem_cons_of_mem _ (List.mem_of_lookup h)

/-- A numbering of the nodes gives every node a finite tree. -/
theorem acyclic_of_rank {L : Type} {h : Heap L} {rank : Nat → Nat} (hr : ∀ p c, c ∈ h.kids p → rank c < rank p) : h.Acyclic := by
  have : ∀ n x, rank x < n → ∃ t, h.Denotes x t := by
    intro n
    induction n with
    | zero => intro x hx; omega
    | succ n ih =>
      intro x hx
      have : ∃ ts, List.Forall₂ h.Denotes (h.kids x) ts := by
        have hk : ∀ c ∈ h.kids x, ∃ t, h.Denotes c t := fun c hc => ih c (by have := hr x c hc; omega)
        revert hk
        generalize h.kids x = cs
        intro hk
        induction cs with
        | nil => exact ⟨[], .nil⟩
        | cons c cs ih =>
          obtain ⟨t, ht⟩ := hk c (by simp)
          obtain ⟨ts, hts⟩ := ih fun d hd => hk d (by simp [hd])
          exact ⟨t :: ts, .cons ht hts⟩
      obtain ⟨ts, hts⟩ := this
      exact ⟨.node (h.lab x) ts, denotes_node.mpr ⟨rfl, hts⟩⟩
  exact fun x => this (rank x + 1) x (by omega)

/-- Everything that is listed. -/
def Listed (P : XProg) (x : Nat) : Prop := Reachable P.heap (P.ft :: P.pt :: P.defs.map (·.2)) x

theorem reachable_split {L : Type} {h : Heap L} {rs : List Nat} {x : Nat} (hx : Reachable h rs x) : ∃ r ∈ rs, Reachable h [r] x := by
  induction hx with
  | root hr => exact ⟨_, hr, .root (by simp)⟩
  | kid _ hc ih =>
    obtain ⟨r, hr, h1⟩ := ih
    exact ⟨r, hr, .kid h1 hc⟩

theorem reachable_mono {L : Type} {h : Heap L} {rs rs' : List Nat} (hs : ∀ r ∈ rs, r ∈ rs') {x : Nat} (hx : Reachable h rs x) :
    Reachable h rs' x := by
  induction hx with
  | root hr => exact .root (hs _ hr)
  | kid _ hc ih => exact .kid ih hc

theorem postorder_mem {h : Heap XNode} (ha : h.Acyclic) {fuel : Nat} {roots out : List Nat} (ho : h.postorder fuel roots = some out)
    {x : Nat} (hx : Reachable h roots x) : x ∈ out := by
  obtain ⟨out', N, h1, _, h3, _⟩ := C48_postorder h ha roots
  have h2 := h1 (max fuel N) (by omega)
  have h4 : h.postorder (max fuel N) roots = some out := by
    unfold postorder at ho ⊢
    rw [Option.map_eq_some_iff] at ho ⊢
    obtain ⟨w, hw, rfl⟩ := ho
    exact ⟨w, walk_mono (fun _ _ _ _ h => h) (by omega) hw, rfl⟩
  rw [h2] at h4; cases h4
  exact (h3 x).mpr hx

/-- What expansion leaves: below every node of the program, the expansions of the expressions that were there. -/
theorem expand_reads {P : XProg} {D : Decls} {Γ : Scope} (hP : P.Parsed) (hc : P.NotCircular) (ha : P.NoAlias) (hD : P.Checked D Γ)
    {fuel : Nat} {h : Heap XNode} (he : P.expand fuel = some h) {p : Nat} (hp : P.Listed p) {i c : Nat} {e : Src}
    (hi : (P.heap.kids p)[i]? = some c) (hr : P.heap.Reads c e) :
    ∃ c' e', (h.kids p)[i]? = some c' ∧ h.Reads c' e' ∧ Src.Expands P.Means e e' := by
  obtain ⟨rank, hrk, hrn⟩ := hc
  have hto : ∀ x y, P.To x y → rank y < rank x := by
    rintro x y ⟨s, ty, h1, h2⟩
    exact hrn x s ty y h1 h2
  have hacyc := acyclic_of_rank hrk
  simp only [expand, Option.bind_eq_some_iff, Option.map_eq_some_iff] at he
  obtain ⟨ds, hds, a, hfa, b, hpb, rfl⟩ := he
  have hinit : P.LoopInv rank [] P.heap id :=
    ⟨by simp, rfl, hP.parents, fun _ => .refl, by simp⟩
  obtain ⟨cur, hinv⟩ := LoopInv.foldl hP hto ha hD.types (ds.flatten ++ (a ++ b)) hinit
  generalize (ds.flatten ++ (a ++ b)).foldl P.expandOne P.heap = h at hinv ⊢
  -- every node is listed
  have hlisted : ∀ x, P.Listed x → x ∈ (ds.flatten ++ (a ++ b)).reverse ++ [] := by
    intro x hx
    obtain ⟨r, hr, hx⟩ := reachable_split hx
    simp only [List.append_nil, List.mem_reverse, List.mem_append, List.mem_flatten]
    simp only [List.mem_cons, List.mem_map] at hr
    rcases hr with rfl | rfl | ⟨d, hd, rfl⟩
    · exact .inr (.inl (postorder_mem hacyc hfa hx))
    · exact .inr (.inr (postorder_mem hacyc hpb hx))
    · rw [collect_eq] at hds
      have : ∀ {A B : Type} {R : A → B → Prop} {as : List A} {bs : List B}, List.Forall₂ R as bs → ∀ x ∈ as, ∃ y ∈ bs, R x y := by
        intro A B R as bs hab
        induction hab with
        | nil => simp
        | cons h _ ih =>
          intro x hx
          rcases List.mem_cons.mp hx with rfl | hx
          · exact ⟨_, by simp, h⟩
          · obtain ⟨y, hy, hr⟩ := ih x hx; exact ⟨y, by simp [hy], hr⟩
      obtain ⟨o, ho, hpo⟩ := this hds d.2 (List.mem_map_of_mem hd)
      exact .inl ⟨o, ho, postorder_mem hacyc hpo hx⟩
  have hlist_to : ∀ x y, P.Listed x → P.To x y → P.Listed y := by
    rintro x y _ ⟨s, ty, h1, h2⟩
    unfold Named at h2
    split at h2
    · rename_i d hd
      subst h2
      refine .root ?_
      simp only [List.mem_cons, List.mem_map]
      refine .inr (.inr ⟨(s, y), ?_, rfl⟩)
      exact List.mem_of_lookup hd
    · obtain ⟨f, h3, h4⟩ := h2
      refine .kid (reachable_mono ?_ (hP.specs s f h3).1) (List.mem_of_mem_head? (by simpa using h4))
      simp only [List.mem_cons, List.not_mem_nil, or_false]
      rintro r (rfl | rfl) <;> simp
  have hlist_leads : ∀ x y, P.Leads x y → P.Listed x → P.Listed y := by
    intro x y hxy
    induction hxy with
    | refl => exact id
    | step h _ ih => exact fun hx => ih (hlist_to _ _ hx h)
  have hend : ∀ x, P.Listed x → ∀ w, ¬ P.To (cur x) w := by
    intro x hx w hw
    exact hinv.gone (cur x) (hlisted _ (hlist_leads _ _ (hinv.leads x) hx)) ⟨w, hw⟩ x rfl
  -- read the result
  have key : ∀ n c e, rank c < n → P.Listed c → P.heap.Reads c e → ∃ e', h.Reads (cur c) e' ∧ Src.Expands P.Means e e' := by
    intro n
    induction n with
    | zero => intro c e hc; omega
    | succ n ih =>
      intro c e hrank hcl hce
      by_cases hex : ∃ r, P.To c r
      · obtain ⟨r, hr⟩ := hex
        have hrr := hto _ _ hr
        have hrl := hlist_to _ _ hcl hr
        have hcur : cur c = cur r := (hinv.leads c).unique (.step hr (hinv.leads r)) (hend c hcl) (hend r hrl)
        obtain ⟨s, ty, h1, h2⟩ := hr
        obtain ⟨d, hd⟩ := hD.reads s r h2
        obtain ⟨e', h3, h4⟩ := ih r d (by omega) hrl hd
        cases hce with
        | @node _ k ty' cs g1 g2 g3 =>
          rw [h1] at g1; cases g1
          rw [hP.leaf c s ty h1] at g2
          obtain rfl : cs = [] := List.length_eq_zero_iff.mp g2.symm
          exact ⟨e', by rw [hcur]; exact h3, .ref ⟨r, h2, hd⟩ h4⟩
      · have hcur : cur c = c := (hinv.leads c).unique .refl (hend c hcl) fun w hw => hex ⟨w, hw⟩
        rw [hcur]
        cases hce with
        | @node _ k ty cs g1 g2 g3 =>
          have hall : ∀ (xs : List Nat) (es : List Src), xs.length = es.length →
              (∀ (i : Nat) (x : Nat) (e : Src), xs[i]? = some x → es[i]? = some e →
                ∃ e', h.Reads (cur x) e' ∧ Src.Expands P.Means e e') →
              ∃ es' : List Src, es'.length = es.length ∧ (∀ (i : Nat) (x : Nat) (e' : Src), (xs.map cur)[i]? = some x → es'[i]? = some e' → h.Reads x e') ∧
                ∀ (i : Nat) (e e' : Src), es[i]? = some e → es'[i]? = some e' → Src.Expands P.Means e e' := by
            intro xs
            induction xs with
            | nil =>
              intro es hl _
              obtain rfl : es = [] := List.length_eq_zero_iff.mp hl.symm
              exact ⟨[], rfl, by simp, by simp⟩
            | cons x xs ihx =>
              intro es hl hh
              cases es with
              | nil => simp at hl
              | cons e es =>
                obtain ⟨e', h1, h2⟩ := hh 0 x e rfl rfl
                obtain ⟨es', h3, h4, h5⟩ := ihx es (by simpa using hl) fun i x e hx he => hh (i + 1) x e (by simpa using hx) (by simpa using he)
                refine ⟨e' :: es', by simp [h3], ?_, ?_⟩
                · rintro (_ | i) y f hy hf
                  · simp at hy hf; subst hy; subst hf; exact h1
                  · exact h4 i y f (by simpa using hy) (by simpa using hf)
                · rintro (_ | i) y f hy hf
                  · simp at hy hf; subst hy; subst hf; exact h2
                  · exact h5 i y f (by simpa using hy) (by simpa using hf)
          obtain ⟨es', h3, h4, h5⟩ := hall (P.heap.kids c) cs g2 fun i x e hx he => by
            have hm : x ∈ P.heap.kids c := List.mem_of_getElem? hx
            exact ih x e (by have := hrk c x hm; omega) (.kid hcl hm) (g3 i x e hx he)
          refine ⟨.node k ty es', .node (by rw [hinv.lab, g1]) (by rw [hinv.kids, List.length_map, g2, h3]) ?_, .node ?_ h3.symm h5⟩
          · intro i x e hx he
            rw [hinv.kids] at hx
            exact h4 i x e hx he
          · rintro s d rfl ⟨r, hr, _⟩
            exact hex ⟨r, s, ty, g1, hr⟩
  obtain ⟨e', h1, h2⟩ := key (rank c + 1) c e (by omega) (.kid hp (List.mem_of_getElem? hi)) hr
  exact ⟨cur c, e', by rw [hinv.kids, List.getElem?_map, hi]; rfl, h1, h2⟩

/-- Expansion ends, keeps what every node is, and moves only variables. -/
theorem expand_total {P : XProg} {D : Decls} {Γ : Scope} (hP : P.Parsed) (hc : P.NotCircular) (ha : P.NoAlias) (hD : P.Checked D Γ) :
    ∃ h N, (∀ fuel, N ≤ fuel → P.expand fuel = some h) ∧ h.lab = P.heap.lab ∧
      ∀ (p i c : Nat), (P.heap.kids p)[i]? = some c → (∀ s ty, P.heap.lab c ≠ .expr (.var s) ty) → (h.kids p)[i]? = some c := by
  obtain ⟨rank, hrk, hrn⟩ := hc
  have hto : ∀ x y, P.To x y → rank y < rank x := by
    rintro x y ⟨s, ty, h1, h2⟩
    exact hrn x s ty y h1 h2
  have hacyc := acyclic_of_rank hrk
  obtain ⟨a, n1, ha1, _⟩ := C48_postorder P.heap hacyc [P.ft]
  obtain ⟨b, n2, hb1, _⟩ := C48_postorder P.heap hacyc [P.pt]
  have : ∀ ds : List Nat, ∃ out n, ∀ fuel, n ≤ fuel → Heap.collect (ds.map fun d => P.heap.postorder fuel [d]) = some out := by
    intro ds
    induction ds with
    | nil => exact ⟨[], 0, fun _ _ => rfl⟩
    | cons d ds ih =>
      obtain ⟨o, n, h1⟩ := ih
      obtain ⟨o', n', h2, _⟩ := C48_postorder P.heap hacyc [d]
      refine ⟨o' :: o, max n n', fun fuel hf => ?_⟩
      simp only [List.map_cons, Heap.collect]
      rw [h1 fuel (by omega), h2 fuel (by omega)]
  obtain ⟨ds, n3, hd1⟩ := this (P.defs.map (·.2))
  have hinit : P.LoopInv rank [] P.heap id :=
    ⟨by simp, rfl, hP.parents, fun _ => .refl, by simp⟩
  obtain ⟨cur, hinv⟩ := LoopInv.foldl hP hto ha hD.types (ds.flatten ++ (a ++ b)) hinit
  refine ⟨_, max n1 (max n2 n3), fun fuel hf => ?_, hinv.lab, ?_⟩
  · simp only [expand, hd1 fuel (by omega), ha1 fuel (by omega), hb1 fuel (by omega), Option.bind_some, Option.map_some]
  · intro p i c hi hv
    rw [hinv.kids, List.getElem?_map, hi, Option.map_some]
    have hc := hinv.leads c
    generalize cur c = z at hc ⊢
    cases hc with
    | refl => rfl
    | step h =>
      obtain ⟨s, ty, h1, _⟩ := h
      exact absurd h1 (hv s ty)

end XProg
end R2U2
