import Verif.Lemmas.Compile
/-
Programs of the back end whose nodes stand for the parts of formulas, in whatever way: what C64 uses of `Linked`, for any notion of
`Sh x e`, node `x` stands for formula `e`.
-/
namespace R2U2
open Heap Expr GraphPass
variable {α : Type}

/-- A node the monitor gets right. -/
inductive LGood (past : Bool) (P : BProg) (Sh : Nat → Expr α → Prop) (x : Nat) : Expr α → Prop
  | atom (a i) : P.atomicId x = some i → P.engine x ≠ .tl → (P.heap.lab x).isBoolConst = false → (P.heap.lab x).isFormula = false →
      LGood past P Sh x (.atom a)
  | const (v) : P.heap.lab x = .bool v → P.heap.kids x = [] → LGood past P Sh x (.const v)
  | neg (t d c) : P.heap.lab x = .op .neg t → P.heap.kids x = [c] → Sh c d → ¬ isConst d → LGood past P Sh x (.neg d)
  | and (t d d' c c') : P.heap.lab x = .op .and t → P.heap.kids x = [c, c'] → Sh c d → Sh c' d' → ¬ isConst d → ¬ isConst d' →
      LGood past P Sh x (.and [d, d'])
  | or (t d d' c c') : P.heap.lab x = .op .or t → P.heap.kids x = [c, c'] → Sh c d → Sh c' d' → ¬ isConst d → ¬ isConst d' →
      LGood past P Sh x (.or [d, d'])
  | iff (t d d' c c') : P.heap.lab x = .op .iff t → P.heap.kids x = [c, c'] → Sh c d → Sh c' d' → ¬ isConst d → ¬ isConst d' →
      LGood past P Sh x (.iff d d')
  | untl (lb ub d d' c c') : past = false → P.heap.lab x = .temp .U lb ub → P.heap.kids x = [c, c'] → Sh c d → Sh c' d' → lb ≤ ub →
      ¬ isConst d' → LGood past P Sh x (.untl lb ub d d')
  | rel (lb ub d d' c c') : past = false → P.heap.lab x = .temp .R lb ub → P.heap.kids x = [c, c'] → Sh c d → Sh c' d' → lb ≤ ub →
      ¬ isConst d' → LGood past P Sh x (.rel lb ub d d')
  | since (lb ub d' c c') : past = true → P.heap.lab x = .temp .S lb ub → P.heap.kids x = [c, c'] → Sh c (.const true) → Sh c' d' →
      lb ≤ ub → ¬ isConst d' → LGood past P Sh x (.since lb ub (.const true) d')
  | trig (lb ub d' c c') : past = true → P.heap.lab x = .temp .T lb ub → P.heap.kids x = [c, c'] → Sh c (.const false) → Sh c' d' →
      lb ≤ ub → ¬ isConst d' → LGood past P Sh x (.trig lb ub (.const false) d')

/-- A node of the temporal engine is a specification or part of a formula. -/
inductive LAt (P : BProg) (Sh : Nat → Expr α → Prop) (fs ps : List (SpecOf α)) (x : Nat) : Prop
  | spec (past : Bool) (s c) : s ∈ (if past then ps else fs) → P.heap.lab x = .formula s.2.1 → P.heap.kids x = [c] → Sh c s.2.2 →
      x ∈ P.heap.kids (if past then P.pt else P.ft) → LAt P Sh fs ps x
  | expr (past : Bool) (s e) : s ∈ (if past then ps else fs) → Part s.2.2 e → Final past e → Sh x e → LAt P Sh fs ps x

structure Link (P : BProg) (Sh : Nat → Expr α → Prop) (fs ps : List (SpecOf α)) : Prop where
  uniq : ∀ x e e', Sh x e → Sh x e' → e = e'
  shape : ∀ past x e, P.Live x → Sh x e → Final past e → LGood past P Sh x e
  tl : ∀ x, P.Live x → P.engine x = .tl → LAt P Sh fs ps x
  shown : ∀ x e, P.Live x → Sh x e → (∃ a, e = .atom a) ∨ ∃ (past : Bool) (s : SpecOf α), s ∈ (if past then ps else fs) ∧ Part s.2.2 e ∧ Final past e
  ffin : ∀ s ∈ fs, Final false s.2.2 ∧ ¬ isConst s.2.2
  pfin : ∀ s ∈ ps, Final true s.2.2 ∧ ¬ isConst s.2.2
  slot : ∀ (past : Bool) z, z ∈ P.heap.kids (if past then P.pt else P.ft) → ∃ (i : Nat) (s : SpecOf α),
    (P.heap.kids (if past then P.pt else P.ft))[i]? = some z ∧ (if past then ps else fs)[i]? = some s ∧ P.heap.lab z = .formula s.2.1
  node : ∀ (past : Bool) (s : SpecOf α), s ∈ (if past then ps else fs) → ∃ x c, P.Live x ∧ P.heap.lab x = .formula s.2.1 ∧
    P.heap.kids x = [c] ∧ P.Live c ∧ Sh c s.2.2
  numbers : ((fs ++ ps).map (·.2.1)).Nodup

open Classical in
/-- The span of the formula at `x`. -/
noncomputable def spanSh (Sh : Nat → Expr α → Prop) (past : Bool) (x : Nat) : Nat :=
  if h : ∃ e : Expr α, Sh x e then span past h.choose else 0

namespace Link
variable {P : BProg} {Sh : Nat → Expr α → Prop} {fs ps : List (SpecOf α)}

theorem spanSh_eq (L : Link P Sh fs ps) {past : Bool} {x : Nat} {e : Expr α} (hd : Sh x e) : spanSh Sh past x = span past e := by
  have h : ∃ e : Expr α, Sh x e := ⟨e, hd⟩
  unfold spanSh
  rw [dif_pos h, L.uniq x _ _ h.choose_spec hd]

theorem spec_fin (L : Link P Sh fs ps) {past : Bool} {s : SpecOf α} (h : s ∈ (if past then ps else fs)) :
    Final past s.2.2 ∧ ¬ isConst s.2.2 := by
  cases past
  · exact L.ffin s h
  · exact L.pfin s h

theorem live_kid {x c : Nat} (hx : P.Live x) (hc : c ∈ P.heap.kids x) : P.Live c := by
  rcases hx with h | h
  · exact .inl (.kid h hc)
  · exact .inr (.kid h hc)

theorem varies (L : Link P Sh fs ps) {past : Bool} {c : Nat} {d : Expr α} (hl : P.Live c) (hf : Final past d) (hd : Sh c d) (h : ¬ isConst d) :
    P.Varies c := by
  unfold BProg.Varies
  cases L.shape past c d hl hd hf <;> first | assumption | exact absurd trivial h | (simp [*, BNode.isBoolConst])

theorem constant (L : Link P Sh fs ps) {past : Bool} {c : Nat} {v : Bool} (hl : P.Live c) (hf : Final past (.const v : Expr α))
    (hd : Sh c (.const v)) : P.heap.lab c = .bool v := by
  cases L.shape past c _ hl hd hf
  assumption

theorem kid_sh {past : Bool} {x c : Nat} {e : Expr α} (hg : LGood past P Sh x e) (he : P.engine x = .tl) (hc : c ∈ P.heap.kids x) :
    ∃ d ∈ e.children, Sh c d := by
  cases hg with
  | atom a i _ h => exact absurd he h
  | const v hl hk => rw [hk] at hc; simp at hc
  | neg t d c1 hl hk h1 => rw [hk] at hc; rw [List.mem_singleton.1 hc]; exact ⟨d, by simp [children], h1⟩
  | and t d d' c1 c2 hl hk h1 h2 | or t d d' c1 c2 hl hk h1 h2 | iff t d d' c1 c2 hl hk h1 h2 =>
    rw [hk] at hc
    simp only [List.mem_cons, List.not_mem_nil, or_false] at hc
    rcases hc with rfl | rfl
    · exact ⟨d, by simp [children], h1⟩
    · exact ⟨d', by simp [children], h2⟩
  | untl lb ub d d' c1 c2 hp hl hk h1 h2 | rel lb ub d d' c1 c2 hp hl hk h1 h2 =>
    rw [hk] at hc
    simp only [List.mem_cons, List.not_mem_nil, or_false] at hc
    rcases hc with rfl | rfl
    · exact ⟨d, by simp [children], h1⟩
    · exact ⟨d', by simp [children], h2⟩
  | since lb ub d' c1 c2 hp hl hk h1 h2 | trig lb ub d' c1 c2 hp hl hk h1 h2 =>
    rw [hk] at hc
    simp only [List.mem_cons, List.not_mem_nil, or_false] at hc
    rcases hc with rfl | rfl
    · exact ⟨_, by simp [children], h1⟩
    · exact ⟨d', by simp [children], h2⟩

theorem good_formula {past : Bool} {x : Nat} {e : Expr α} (hg : LGood past P Sh x e) : (P.heap.lab x).isFormula = false := by
  cases hg <;> simp_all [BNode.isFormula]

/-- An operand of a node of the temporal engine is a part of a formula, and so is the node unless it is a specification. -/
theorem operand (L : Link P Sh fs ps) {x c : Nat} (hx : P.Live x) (he : P.engine x = .tl) (hc : c ∈ P.heap.kids x) :
    ∃ (past : Bool) (s : SpecOf α) (d : Expr α), s ∈ (if past then ps else fs) ∧ Part s.2.2 d ∧ Final past d ∧ Sh c d ∧
      (((P.heap.lab x).isFormula = true ∧ P.heap.kids x = [c] ∧ d = s.2.2) ∨
        ((P.heap.lab x).isFormula = false ∧ ∃ e, Part s.2.2 e ∧ Final past e ∧ LGood past P Sh x e ∧ Sh x e ∧ d ∈ e.children)) := by
  cases L.tl x hx he with
  | spec past s c' h1 h2 h3 h4 h5 =>
    rw [h3] at hc
    rw [← List.mem_singleton.1 hc] at h4 h3
    exact ⟨past, s, _, h1, .self, (L.spec_fin h1).1, h4, .inl ⟨by rw [h2]; rfl, h3, rfl⟩⟩
  | expr past s e h1 h2 h3 h4 =>
    have hg := L.shape past x e hx h4 h3
    obtain ⟨d, hm, hd⟩ := kid_sh hg he hc
    exact ⟨past, s, d, h1, h2.kid hm, h3.part (Part.self.kid hm), hd, .inr ⟨good_formula hg, e, h2, h3, hg, h4, hm⟩⟩

/-- The program is one the monitor gets right. -/
theorem monitorable (L : Link P Sh fs ps) (k : Nat) (hf : ∀ s ∈ fs, span false s.2.2 ≤ k) (hp : ∀ s ∈ ps, span true s.2.2 ≤ k) :
    P.Monitorable (fun x => -(spanSh Sh true x : Int)) (fun x => -(spanSh Sh true x : Int)) (fun x => (spanSh Sh false x : Int)) k where
  supported := by
    intro x hx he
    unfold BProg.Supported
    cases L.tl x hx he with
    | spec past s c' h1 h2 h3 h4 h5 =>
      rw [h2, h3]
      exact L.varies (live_kid hx (by rw [h3]; simp)) (L.spec_fin h1).1 h4 (L.spec_fin h1).2
    | expr past s e h1 h2 h3 h4 =>
      have vr : ∀ {d : Expr α} {y : Nat}, y ∈ P.heap.kids x → d ∈ e.children → Sh y d → ¬ isConst d → P.Varies y :=
        fun hy hm hd hc => L.varies (live_kid hx hy) (h3.part (Part.self.kid hm)) hd hc
      have nb : ∀ {d : Expr α} {y : Nat} {v : Bool}, y ∈ P.heap.kids x → d ∈ e.children → Sh y d → ¬ isConst d → P.heap.lab y ≠ .bool v := by
        intro d y v hy hm hd hc hl
        have := vr hy hm hd hc
        unfold BProg.Varies at this
        rw [hl] at this; simp [BNode.isBoolConst] at this
      cases L.shape past x e hx h4 h3 with
      | atom a i _ h => exact absurd he h
      | const v hl hk => rw [hl, hk]; trivial
      | neg t d c hl hk hd hc => rw [hl, hk]; exact vr (by rw [hk]; simp) (by simp [children]) hd hc
      | and t d d' c c' hl hk hd hd' hc hc' =>
        rw [hl, hk]
        refine ⟨.inl (vr (by rw [hk]; simp) (by simp [children]) hd hc), fun y hy => ?_⟩
        simp only [List.mem_cons, List.not_mem_nil, or_false] at hy
        rcases hy with rfl | rfl
        · exact nb (by rw [hk]; simp) (by simp [children]) hd hc
        · exact nb (by rw [hk]; simp) (by simp [children]) hd' hc'
      | or t d d' c c' hl hk hd hd' hc hc' =>
        rw [hl, hk]
        refine ⟨.inl (vr (by rw [hk]; simp) (by simp [children]) hd hc), fun y hy => ?_⟩
        simp only [List.mem_cons, List.not_mem_nil, or_false] at hy
        rcases hy with rfl | rfl
        · exact nb (by rw [hk]; simp) (by simp [children]) hd hc
        · exact nb (by rw [hk]; simp) (by simp [children]) hd' hc'
      | iff t d d' c c' hl hk hd hd' hc hc' => rw [hl, hk]; exact .inl (vr (by rw [hk]; simp) (by simp [children]) hd hc)
      | untl lb ub d d' c c' hp hl hk hd hd' hi hc' => rw [hl, hk]; exact ⟨hi, vr (by rw [hk]; simp) (by simp [children]) hd' hc'⟩
      | rel lb ub d d' c c' hp hl hk hd hd' hi hc' => rw [hl, hk]; exact ⟨hi, vr (by rw [hk]; simp) (by simp [children]) hd' hc'⟩
      | since lb ub d' c c' hp hl hk hd hd' hi hc' =>
        rw [hl, hk]
        exact ⟨hi, L.constant (live_kid hx (by rw [hk]; simp)) (h3.part (Part.self.kid (by simp [children]))) hd,
          vr (by rw [hk]; simp) (by simp [children]) hd' hc'⟩
      | trig lb ub d' c c' hp hl hk hd hd' hi hc' =>
        rw [hl, hk]
        exact ⟨hi, L.constant (live_kid hx (by rw [hk]; simp)) (h3.part (Part.self.kid (by simp [children]))) hd,
          vr (by rw [hk]; simp) (by simp [children]) hd' hc'⟩
  top := by
    intro x c hx he hc
    obtain ⟨past, s, d, h1, h2, h3, h4, _⟩ := L.operand hx he hc
    exact good_formula (L.shape past c d (live_kid hx hc) h4 h3)
  numbers := by
    intro x y n hx hy hlx hly
    have one : ∀ z, P.Live z → P.heap.lab z = .formula n → ∃ (past : Bool), z ∈ P.heap.kids (if past then P.pt else P.ft) := by
      intro z hz hl
      cases L.tl z hz (by simp [BProg.engine, hl, BNode.engine]) with
      | spec past s c h1 h2 h3 h4 h5 => exact ⟨past, h5⟩
      | expr past s e h1 h2 h3 h4 =>
        have := good_formula (L.shape past z e hz h4 h3)
        rw [hl] at this
        cases this
    obtain ⟨p1, a4⟩ := one x hx hlx
    obtain ⟨p2, b4⟩ := one y hy hly
    obtain ⟨i, t, c1, c2, c3⟩ := L.slot p1 x a4
    obtain ⟨j, u, d1, d2, d3⟩ := L.slot p2 y b4
    have e1 : t.2.1 = n := by rw [hlx] at c3; simp only [BNode.formula.injEq] at c3; exact c3.symm
    have e2 : u.2.1 = n := by rw [hly] at d3; simp only [BNode.formula.injEq] at d3; exact d3.symm
    have hnd := L.numbers
    rw [List.map_append, List.nodup_append] at hnd
    obtain ⟨n1, n2, n3⟩ := hnd
    have same : ∀ l : List (SpecOf α), (l.map (·.2.1)).Nodup → l[i]? = some t → l[j]? = some u → i = j := by
      intro l hl h1 h2
      obtain ⟨hi, h1⟩ := List.getElem?_eq_some_iff.1 h1
      obtain ⟨hj, h2⟩ := List.getElem?_eq_some_iff.1 h2
      refine (List.Nodup.getElem_inj_iff hl (hi := by simpa using hi) (hj := by simpa using hj)).1 ?_
      simp only [List.getElem_map, h1, h2, e1, e2]
    cases p1 <;> cases p2
    · have := same fs n1 c2 d2
      subst this
      exact Option.some.inj (c1.symm.trans d1)
    · exact absurd (e1.trans e2.symm) (n3 _ (List.mem_map_of_mem (List.mem_of_getElem? c2)) _ (List.mem_map_of_mem (List.mem_of_getElem? d2)))
    · exact absurd (e2.trans e1.symm) (n3 _ (List.mem_map_of_mem (List.mem_of_getElem? d2)) _ (List.mem_map_of_mem (List.mem_of_getElem? c2)))
    · have := same ps n2 c2 d2
      subst this
      exact Option.some.inj (c1.symm.trans d1)
  leaf := by intro x _; simp
  soon := by
    intro x c hx he hnf hc
    obtain ⟨past, s, d, h1, h2, h3, h4, h5⟩ := L.operand hx he hc
    rcases h5 with ⟨h5, _⟩ | ⟨_, e, g1, g2, g3, g4, g5⟩
    · rw [h5] at hnf; cases hnf
    · rw [L.spanSh_eq h4, L.spanSh_eq g4]
      have hsp := span_child (past := true) g5
      unfold BProg.soonBy
      cases g3 <;> simp_all [span, children] <;> rcases g5 with rfl | rfl <;> (try simp only [span]) <;> omega
  late := by
    intro x c hx he hnf hc
    obtain ⟨past, s, d, h1, h2, h3, h4, h5⟩ := L.operand hx he hc
    rcases h5 with ⟨h5, _⟩ | ⟨_, e, g1, g2, g3, g4, g5⟩
    · rw [h5] at hnf; cases hnf
    · rw [L.spanSh_eq h4, L.spanSh_eq g4]
      have hsp := span_child (past := false) g5
      unfold BProg.lateBy
      cases g3 <;> simp_all [span, children] <;> rcases g5 with rfl | rfl <;> (try simp only [span]) <;> omega
  calm := fun x _ => .inl (le_refl _)
  consts := by
    intro x v c hx he hpast hb hbc hc
    have hc' := (List.mem_filter.1 hc).1
    obtain ⟨past, s, d, h1, h2, h3, h4, h5⟩ := L.operand hx he hc'
    rcases h5 with ⟨h5, h6, _⟩ | ⟨_, e, g1, g2, g3, g4, g5⟩
    · rw [h6] at hb
      rw [List.mem_singleton.1 hb] at hbc
      have := (List.mem_filter.1 hc).2
      rw [hbc] at this; simp at this
    · rw [L.spanSh_eq h4]
      cases past
      · rw [show span true d = 0 from span_other (past := false) d h3.plain]; simp
      · exfalso
        have hnv : ¬ P.Varies v := by unfold BProg.Varies; rw [hbc]; simp
        have vr : ∀ {d : Expr α} {y : Nat}, y ∈ P.heap.kids x → d ∈ e.children → Sh y d → ¬ isConst d → P.Varies y :=
          fun hy hm hd hc => L.varies (live_kid hx hy) (g2.part (Part.self.kid hm)) hd hc
        have hb0 := hb
        cases g3 with
        | atom a i _ h => exact h he
        | const v hl hk => rw [hk] at hb; simp at hb
        | neg t d c hl hk hd hc => rw [hk] at hb; rw [List.mem_singleton.1 hb] at hnv hb0; exact hnv (vr hb0 (by simp [children]) hd hc)
        | and t d d' c c' hl hk hd hd' hc hc' =>
          rw [hk] at hb
          simp only [List.mem_cons, List.not_mem_nil, or_false] at hb
          rcases hb with rfl | rfl
          · exact hnv (vr hb0 (by simp [children]) hd hc)
          · exact hnv (vr hb0 (by simp [children]) hd' hc')
        | or t d d' c c' hl hk hd hd' hc hc' =>
          rw [hk] at hb
          simp only [List.mem_cons, List.not_mem_nil, or_false] at hb
          rcases hb with rfl | rfl
          · exact hnv (vr hb0 (by simp [children]) hd hc)
          · exact hnv (vr hb0 (by simp [children]) hd' hc')
        | iff t d d' c c' hl hk hd hd' hc hc' =>
          rw [hk] at hb
          simp only [List.mem_cons, List.not_mem_nil, or_false] at hb
          rcases hb with rfl | rfl
          · exact hnv (vr hb0 (by simp [children]) hd hc)
          · exact hnv (vr hb0 (by simp [children]) hd' hc')
        | untl lb ub d d' c c' hp hl hk hd hd' hi hc' => cases hp
        | rel lb ub d d' c c' hp hl hk hd hd' hi hc' => cases hp
        | since lb ub d' c c' hp hl hk hd hd' hi hc' => exact hpast ⟨lb, ub, .inl hl⟩
        | trig lb ub d' c c' hp hl hk hd hd' hi hc' => exact hpast ⟨lb, ub, .inr hl⟩
  room := by
    intro x c hx he hc
    have hc' := (List.mem_filter.1 hc).1
    obtain ⟨past, s, d, h1, h2, h3, h4, h5⟩ := L.operand hx he hc'
    have bound : ∀ {p : Bool}, span p s.2.2 ≤ k → span p d ≤ k := fun h => le_trans (h2.span _) h
    have all : ∀ y ∈ P.heap.kids x, ∃ d', Final past d' ∧ Part s.2.2 d' ∧ Sh y d' := by
      intro y hy
      rcases h5 with ⟨_, h6, _⟩ | ⟨_, e, g1, g2, g3, g4, g5⟩
      · rw [h6] at hy; rw [List.mem_singleton.1 hy]; exact ⟨d, h3, h2, h4⟩
      · obtain ⟨d', hm, hd⟩ := kid_sh g3 he hy
        exact ⟨d', g2.part (Part.self.kid hm), g1.kid hm, hd⟩
    apply C55_enough_slots
    · rw [L.spanSh_eq h4]
      cases past
      · rw [show span true d = 0 from span_other (past := false) d h3.plain]; simp
      · have := bound (hp s h1); omega
    · intro y hy
      obtain ⟨d', f1, f2, f3⟩ := all y hy
      rw [L.spanSh_eq h4, L.spanSh_eq f3]
      cases past
      · rw [show span true d = 0 from span_other (past := false) d h3.plain]
        have := le_trans (f2.span false) (hf s h1)
        omega
      · rw [show span false d' = 0 from span_other (past := true) d' f1.plain]
        have := bound (hp s h1); omega

theorem ahead_le (L : Link P Sh fs ps) {k : Nat} (hk : ∀ s ∈ ps, span true s.2.2 ≤ k) {x : Nat} (hl : P.Live x) : spanSh Sh true x ≤ k := by
  by_cases h : ∃ e, Sh x e
  · obtain ⟨e, he⟩ := h
    rw [L.spanSh_eq he]
    rcases L.shown x e hl he with ⟨a, rfl⟩ | ⟨past, s, h1, h2, h3⟩
    · simp [span]
    · cases past
      · rw [show span true e = 0 from span_other (past := false) e h3.plain]; exact Nat.zero_le _
      · exact le_trans (h2.span true) (hk s h1)
  · unfold spanSh
    rw [dif_neg h]; exact Nat.zero_le _

/-- The formula of a node, over the atomics of the monitor. -/
theorem says_expr (L : Link P Sh fs ps) (e : Expr α) : ∀ {past : Bool} {x : Nat}, P.Live x → Final past e → Sh x e →
    ∃ e2 : Expr Nat, P.Says x e2 ∧ ∀ (tr : Trace Nat) (π : Trace α),
      (∀ y i a, P.Live y → Sh y (.atom a) → P.atomicId y = some i → ∀ t, tr t i ↔ π t a) → ∀ i, sat tr e2 i ↔ sat π e i := by
  induction e using childInduction with
  | h e ih =>
    intro past x hx hfin hden
    have sub : ∀ {d : Expr α} {c : Nat}, d ∈ e.children → c ∈ P.heap.kids x → Sh c d → ∃ e2 : Expr Nat, P.Says c e2 ∧
        ∀ (tr : Trace Nat) (π : Trace α), (∀ y i a, P.Live y → Sh y (.atom a) → P.atomicId y = some i → ∀ t, tr t i ↔ π t a) →
          ∀ i, sat tr e2 i ↔ sat π d i :=
      fun hm hc hdc => ih _ hm (live_kid hx hc) (hfin.part (Part.self.kid hm)) hdc
    cases L.shape past x e hx hden hfin with
    | atom a i hi => exact ⟨_, .atom hi, fun tr π hr t => by simp only [sat]; exact hr x i a hx hden hi t⟩
    | const v hl hk => exact ⟨_, .const hl, fun tr π hr i => by simp [sat]⟩
    | neg t d c hl hk hd hc =>
      obtain ⟨e1, a1, a2⟩ := sub (by simp [children]) (by rw [hk]; simp) hd
      exact ⟨_, .neg hl hk a1, fun tr π hr i => by simp [sat, a2 tr π hr]⟩
    | and t d d' c c' hl hk hd hd' hc hc' =>
      obtain ⟨e1, a1, a2⟩ := sub (by simp [children]) (by rw [hk]; simp) hd
      obtain ⟨e2, b1, b2⟩ := sub (by simp [children]) (by rw [hk]; simp) hd'
      exact ⟨_, .and hl hk a1 b1, fun tr π hr i => by simp [sat, satAll, a2 tr π hr, b2 tr π hr]⟩
    | or t d d' c c' hl hk hd hd' hc hc' =>
      obtain ⟨e1, a1, a2⟩ := sub (by simp [children]) (by rw [hk]; simp) hd
      obtain ⟨e2, b1, b2⟩ := sub (by simp [children]) (by rw [hk]; simp) hd'
      exact ⟨_, .or hl hk a1 b1, fun tr π hr i => by simp [sat, satAny, a2 tr π hr, b2 tr π hr]⟩
    | iff t d d' c c' hl hk hd hd' hc hc' =>
      obtain ⟨e1, a1, a2⟩ := sub (by simp [children]) (by rw [hk]; simp) hd
      obtain ⟨e2, b1, b2⟩ := sub (by simp [children]) (by rw [hk]; simp) hd'
      exact ⟨_, .iff hl hk a1 b1, fun tr π hr i => by simp [sat, a2 tr π hr, b2 tr π hr]⟩
    | untl lb ub d d' c c' hp hl hk hd hd' hi hc' =>
      obtain ⟨e1, a1, a2⟩ := sub (by simp [children]) (by rw [hk]; simp) hd
      obtain ⟨e2, b1, b2⟩ := sub (by simp [children]) (by rw [hk]; simp) hd'
      exact ⟨_, .untl hl hk a1 b1, fun tr π hr i => by simp only [sat, a2 tr π hr, b2 tr π hr]⟩
    | rel lb ub d d' c c' hp hl hk hd hd' hi hc' =>
      obtain ⟨e1, a1, a2⟩ := sub (by simp [children]) (by rw [hk]; simp) hd
      obtain ⟨e2, b1, b2⟩ := sub (by simp [children]) (by rw [hk]; simp) hd'
      exact ⟨_, .rel hl hk a1 b1, fun tr π hr i => by simp only [sat, a2 tr π hr, b2 tr π hr]⟩
    | since lb ub d' c c' hp hl hk hd hd' hi hc' =>
      obtain ⟨e1, a1, a2⟩ := sub (by simp [children]) (by rw [hk]; simp) hd
      obtain ⟨e2, b1, b2⟩ := sub (by simp [children]) (by rw [hk]; simp) hd'
      exact ⟨_, .since hl hk a1 b1, fun tr π hr i => by simp only [sat, a2 tr π hr, b2 tr π hr]⟩
    | trig lb ub d' c c' hp hl hk hd hd' hi hc' =>
      obtain ⟨e1, a1, a2⟩ := sub (by simp [children]) (by rw [hk]; simp) hd
      obtain ⟨e2, b1, b2⟩ := sub (by simp [children]) (by rw [hk]; simp) hd'
      exact ⟨_, .trig hl hk a1 b1, fun tr π hr i => by simp only [sat, a2 tr π hr, b2 tr π hr]⟩

end Link
end R2U2
