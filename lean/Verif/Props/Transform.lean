import Verif.Lemmas.Transform
/-
C02 - C11: the formula transformation commands of C2PO.

`Equiv e' e` (Spec/Semantics.lean): same verdict at every time of every trace.
`Reach step e e'`: `e'` arises from `e` by applying the local step at arbitrary
places, in arbitrary order, arbitrarily often (this covers the in-place,
shared-node execution of the Python passes, whatever the visiting order).
-/
namespace R2U2
open Expr Transform
variable {α : Type}

/-! ### C02 -/

/-- C02: `to_bnf` keeps every verdict. -/
theorem C02_toBnf_verdicts (e : Expr α) : Equiv (toBnf e) e := post_equiv bnfStep_equiv e

/-- C02, any rewriting schedule. -/
theorem C02_bnf_any_schedule {e e' : Expr α} (h : Reach bnfStep e e') : Equiv e' e :=
  reach_equiv bnfStep_equiv h

example : toBnf (.imp (.fut 1 3 (.atom "a")) (.rel 0 2 (.atom "b") (.atom "c")))
    = .neg (.and [.untl 1 3 (.const true) (.atom "a"),
        .neg (.neg (.untl 0 2 (.neg (.atom "b")) (.neg (.atom "c"))))]) := by rfl

/-! ### C03 -/

/-- C03, for specifications without `<->`: only negation, conjunction and until
remain.  Missing: `<->`, which `to_bnf` leaves alone (see the next theorem). -/
theorem C03_toBnf_shape_partial (e : Expr α) (hf : IsFuture e) (hi : Nowhere isIff e) :
    IsBNF (toBnf e) := by
  induction hf with
  | const b => exact .const b
  | atom a => exact .atom a
  | neg _ ih => exact .neg (ih (hi.child (by simp [children])))
  | @and cs _ ih =>
    simp only [toBnf, post, postL_eq, bnfStep]
    refine .and fun c hc => ?_
    obtain ⟨d, hd, rfl⟩ := List.mem_map.1 hc
    exact ih d hd (hi.child hd)
  | @or cs _ ih =>
    simp only [toBnf, post, postL_eq, bnfStep]
    refine .neg (.and fun c hc => ?_)
    obtain ⟨d, hd, rfl⟩ := List.mem_map.1 hc
    obtain ⟨d, hd', rfl⟩ := List.mem_map.1 hd
    exact .neg (ih d hd' (hi.child hd'))
  | xor _ _ ih1 ih2 =>
    have h1 := ih1 (hi.child (by simp [children])); have h2 := ih2 (hi.child (by simp [children]))
    refine .and ?_
    simp only [List.mem_cons, List.not_mem_nil, or_false, forall_eq_or_imp, forall_eq]
    refine ⟨.neg (.and ?_), .neg (.and ?_)⟩ <;>
      simp only [List.mem_cons, List.not_mem_nil, or_false, forall_eq_or_imp, forall_eq]
    · exact ⟨.neg h1, .neg h2⟩
    · exact ⟨h1, h2⟩
  | imp _ _ ih1 ih2 =>
    have h1 := ih1 (hi.child (by simp [children])); have h2 := ih2 (hi.child (by simp [children]))
    refine .neg (.and ?_)
    simp only [List.mem_cons, List.not_mem_nil, or_false, forall_eq_or_imp, forall_eq]
    exact ⟨h1, .neg h2⟩
  | iff _ _ _ _ => cases hi; simp_all [isIff]
  | fut _ ih => exact .untl (.const _) (ih (hi.child (by simp [children])))
  | glob _ ih => exact .neg (.untl (.const _) (.neg (ih (hi.child (by simp [children])))))
  | untl _ _ ih1 ih2 =>
    exact .untl (ih1 (hi.child (by simp [children]))) (ih2 (hi.child (by simp [children])))
  | rel _ _ ih1 ih2 =>
    exact .neg (.untl (.neg (ih1 (hi.child (by simp [children]))))
      (.neg (ih2 (hi.child (by simp [children])))))

example : IsFuture (Expr.imp (.fut 1 3 (.atom "a")) (.rel 0 2 (.atom "b") (.or [.atom "c"])))
    ∧ Nowhere isIff (Expr.imp (.fut 1 3 (.atom "a")) (.rel 0 2 (.atom "b") (.or [.atom "c"]))) := by
  constructor
  · exact .imp (.fut (.atom _)) (.rel (.atom _) (.or (by simpa using .atom _)))
  · repeat (first | (rw [nowhere_iff]; simp only [isIff, children]; simp))

/-- The unrestricted C03 is false of the code: `p <-> q` is not changed by
`to_bnf`, and is not in Boolean Normal Form. -/
theorem C03_fails_on_iff (a b : α) :
    IsFuture (.iff (.atom a) (.atom b)) ∧ ¬ IsBNF (toBnf (.iff (.atom a) (.atom b))) := by
  refine ⟨.iff (.atom a) (.atom b), ?_⟩
  simp only [toBnf, post, bnfStep]
  intro h; cases h

/-! ### C04 -/

/-- The traversal equation of `to_nnf`: rewrite the visited node, then visit the
children of the replacement. -/
theorem toNnf_unfold (e : Expr α) : toNnf e = mapChildren toNnf (nnfRule e) := toNnf_eq e

/-- C04 for specifications without `xor`.  Missing: `xor` below a negation, for
which the code is wrong (next theorem). -/
theorem C04_toNnf_verdicts_partial (e : Expr α) (h : Nowhere isXor e) : Equiv (toNnf e) e := by
  induction e using nnfInduction with
  | h e ih =>
    rw [toNnf_eq]
    have hx : ¬ NegXor e := by
      intro hn
      cases e <;> simp only [NegXor] at hn
      rename_i e
      cases e <;> simp only at hn
      have := (nowhere_iff.1 (h.child (c := _) (by simp [children]; rfl))).1
      simp [isXor] at this
    refine Equiv.trans (Equiv.congr (by simp) ?_) (nnfRule_equiv e hx)
    rw [children_mapChildren]
    exact forall₂_map_left' fun c hc => ih c hc (nnfRule_noXor h c hc)

example : Nowhere isXor (Expr.neg (.imp (.atom "p") (.untl 0 5 (.atom "q") (.iff (.atom "r") (.atom "p"))))) ∧
    toNnf (Expr.neg (.imp (.atom "p") (.untl 0 5 (.atom "q") (.iff (.atom "r") (.atom "p")))))
    = .and [.atom "p", .rel 0 5 (.neg (.atom "q"))
        (.or [.and [.atom "r", .neg (.atom "p")], .and [.neg (.atom "r"), .atom "p"]])] := by
  constructor
  · repeat (first | (rw [nowhere_iff]; simp only [isXor, children]; simp))
  · rfl

/-- The unrestricted C04 is false of the code: `to_nnf` turns `!(p xor q)` into
`(!p && q) && (p && !q)`, which is never true. -/
theorem C04_fails_on_negated_xor (a b : α) :
    ¬ Equiv (toNnf (.neg (.xor (.atom a) (.atom b)))) (.neg (.xor (.atom a) (.atom b))) := by
  intro h
  have h1 := h (fun _ _ => True) 0
  have e : toNnf (.neg (.xor (.atom a) (.atom b)))
      = Expr.and [.and [.neg (.atom a), .atom b], .and [.atom a, .neg (.atom b)]] := rfl
  rw [e] at h1
  simp [sat, satAll] at h1

/-! ### C05 -/

/-- Both polarities at once, for the induction. -/
theorem toNnf_shape_aux (e : Expr α) (hf : IsFuture e) (hn : Nowhere isHardNeg e) :
    IsNNF (toNnf e) ∧ IsNNF (toNnf (.neg e)) := by
  have two : ∀ {x y : Expr α}, IsNNF x → IsNNF y → ∀ c ∈ [x, y], IsNNF c := by
    intro x y hx hy c hc
    simp only [List.mem_cons, List.not_mem_nil, or_false] at hc
    rcases hc with rfl | rfl <;> assumption
  have nand : ∀ x y : Expr α, toNnf (.and [x, y]) = .and [toNnf x, toNnf y] := by
    intro x y; rw [toNnf_eq]; simp [nnfRule, mapChildren]
  induction hf with
  | const b => exact ⟨.const b, .negConst b⟩
  | atom b => exact ⟨.atom b, .negAtom b⟩
  | @neg e hfe ih =>
    have h := ih (hn.child (by simp [children]))
    refine ⟨h.2, ?_⟩
    have hrule : nnfRule e = e := by
      have hb := (nowhere_iff.1 hn).1
      cases hfe <;> first | rfl | (simp [isHardNeg] at hb; done) | skip
      rename_i e' hf' 
      cases hf' <;> first | rfl | (simp [isHardNeg] at hb; done)
    have h1 : toNnf (.neg (.neg e)) = toNnf e := by
      rw [toNnf_eq, toNnf_eq e, hrule]; rfl
    rw [h1]; exact h.1
  | @and cs _ ih =>
    rw [toNnf_eq, toNnf_eq (.neg (.and cs))]
    simp only [nnfRule, mapChildren]
    refine ⟨.and fun c hc => ?_, .or fun c hc => ?_⟩
    · obtain ⟨d, hd, rfl⟩ := List.mem_map.1 hc
      exact (ih d hd (hn.child hd)).1
    · obtain ⟨d, hd, rfl⟩ := List.mem_map.1 hc
      obtain ⟨d, hd', rfl⟩ := List.mem_map.1 hd
      exact (ih d hd' (hn.child hd')).2
  | @or cs _ ih =>
    rw [toNnf_eq, toNnf_eq (.neg (.or cs))]
    simp only [nnfRule, mapChildren]
    refine ⟨.or fun c hc => ?_, .and fun c hc => ?_⟩
    · obtain ⟨d, hd, rfl⟩ := List.mem_map.1 hc
      exact (ih d hd (hn.child hd)).1
    · obtain ⟨d, hd, rfl⟩ := List.mem_map.1 hc
      obtain ⟨d, hd', rfl⟩ := List.mem_map.1 hd
      exact (ih d hd' (hn.child hd')).2
  | @xor l r _ _ ih1 ih2 =>
    have h1 := ih1 (hn.child (by simp [children])); have h2 := ih2 (hn.child (by simp [children]))
    rw [toNnf_eq, toNnf_eq (.neg (.xor l r))]
    simp only [nnfRule, mapChildren, List.map_cons, List.map_nil, nand]
    exact ⟨.or (two (.and (two h1.1 h2.2)) (.and (two h1.2 h2.1))),
      .and (two (.and (two h1.2 h2.1)) (.and (two h1.1 h2.2)))⟩
  | @iff l r _ _ ih1 ih2 =>
    have h1 := ih1 (hn.child (by simp [children])); have h2 := ih2 (hn.child (by simp [children]))
    rw [toNnf_eq, toNnf_eq (.neg (.iff l r))]
    simp only [nnfRule, mapChildren, List.map_cons, List.map_nil, nand]
    exact ⟨.iff h1.1 h2.1, .or (two (.and (two h1.1 h2.2)) (.and (two h1.2 h2.1)))⟩
  | @imp l r _ _ ih1 ih2 =>
    have h1 := ih1 (hn.child (by simp [children])); have h2 := ih2 (hn.child (by simp [children]))
    rw [toNnf_eq, toNnf_eq (.neg (.imp l r))]
    simp only [nnfRule, mapChildren, List.map_cons, List.map_nil]
    exact ⟨.or (two h1.2 h2.1), .and (two h1.1 h2.2)⟩
  | @fut lb ub e _ ih =>
    have h := ih (hn.child (by simp [children]))
    rw [toNnf_eq, toNnf_eq (.neg (.fut lb ub e))]
    exact ⟨.fut h.1, .glob h.2⟩
  | @glob lb ub e _ ih =>
    have h := ih (hn.child (by simp [children]))
    rw [toNnf_eq, toNnf_eq (.neg (.glob lb ub e))]
    exact ⟨.glob h.1, .fut h.2⟩
  | @untl lb ub l r _ _ ih1 ih2 =>
    have h1 := ih1 (hn.child (by simp [children])); have h2 := ih2 (hn.child (by simp [children]))
    rw [toNnf_eq, toNnf_eq (.neg (.untl lb ub l r))]
    exact ⟨.untl h1.1 h2.1, .rel h1.2 h2.2⟩
  | @rel lb ub l r _ _ ih1 ih2 =>
    have h1 := ih1 (hn.child (by simp [children])); have h2 := ih2 (hn.child (by simp [children]))
    rw [toNnf_eq, toNnf_eq (.neg (.rel lb ub l r))]
    exact ⟨.rel h1.1 h2.1, .untl h1.2 h2.2⟩

/-- C05 for future-time specifications in which no negation is applied to an
implication, an exclusive or, or (except over a literal) another negation.
Missing: those cases, which the code gets wrong because the traversal does not
revisit a replacement (`C05_fails_on_double_negation`). -/
theorem C05_toNnf_shape_partial (e : Expr α) (hf : IsFuture e) (hn : Nowhere isHardNeg e) :
    IsNNF (toNnf e) := (toNnf_shape_aux e hf hn).1

example :
    let e : Expr String := .neg (.and [.neg (.neg (.atom "p")), .imp (.untl 0 5 (.atom "q") (.atom "r")) (.atom "s")])
    IsFuture e ∧ Nowhere isHardNeg e ∧
    toNnf e = .or [.neg (.atom "p"), .and [.untl 0 5 (.atom "q") (.atom "r"), .neg (.atom "s")]] := by
  refine ⟨.neg (.and ?_), ?_, rfl⟩
  · simp only [List.mem_cons, List.not_mem_nil, or_false, forall_eq_or_imp, forall_eq]
    exact ⟨.neg (.neg (.atom _)), .imp (.untl (.atom _) (.atom _)) (.atom _)⟩
  · repeat (first | (rw [nowhere_iff]; simp only [isHardNeg, children]; simp))

/-- The unrestricted C05 is false of the code: `!!(p -> q)` becomes `p -> q`, and
`!!!(p && q)` becomes `!(p && q)`. -/
theorem C05_fails_on_double_negation (a b : α) :
    (IsFuture (.neg (.neg (.imp (.atom a) (.atom b)))) ∧
      ¬ IsNNF (toNnf (.neg (.neg (.imp (.atom a) (.atom b)))))) ∧
    (IsFuture (.neg (.neg (.neg (.and [.atom a, .atom b])))) ∧
      ¬ IsNNF (toNnf (.neg (.neg (.neg (.and [.atom a, .atom b])))))) := by
  refine ⟨⟨.neg (.neg (.imp (.atom a) (.atom b))), ?_⟩, ⟨.neg (.neg (.neg (.and ?_))), ?_⟩⟩
  · intro h
    have e : toNnf (.neg (.neg (.imp (.atom a) (.atom b)))) = Expr.imp (.atom a) (.atom b) := rfl
    rw [e] at h; cases h
  · simp only [List.mem_cons, List.not_mem_nil, or_false, forall_eq_or_imp, forall_eq]
    exact ⟨.atom _, .atom _⟩
  · intro h
    have e : toNnf (.neg (.neg (.neg (.and [.atom a, .atom b]))))
      = Expr.neg (.and [.atom a, .atom b]) := rfl
    rw [e] at h; cases h

/-! ### C06, C07 -/

/-- C06: `remove_extended_operators` keeps every verdict. -/
theorem C06_removeExtended_verdicts (e : Expr α) : Equiv (removeExtended e) e :=
  (post_equiv extStep_equiv _).trans (post_equiv binaryStep_equiv e)

/-- C06, any rewriting schedule. -/
theorem C06_ext_any_schedule {e e' : Expr α} (h : Reach extStep e e') : Equiv e' e :=
  reach_equiv extStep_equiv h

example : removeExtended (.hist 1 3 (.imp (.atom "a") (.and [.atom "b", .atom "c", .atom "d"])))
    = .trig 1 3 (.const false) (.or [.neg (.atom "a"), .and [.and [.atom "b", .atom "c"], .atom "d"]]) := by
  rfl

/-- C09: afterwards no operator has more than two operands. -/
theorem C09_toBinary_arity (e : Expr α) : Nowhere isWide (toBinary e) := by
  have step : ∀ e : Expr α, (∀ c ∈ e.children, Nowhere isWide c) → Nowhere isWide (binaryStep e) := by
    have two : ∀ (mk : List (Expr α) → Expr α), (∀ l, (mk l).children = l) → ∀ a b,
        Nowhere isWide a → Nowhere isWide b → Nowhere isWide (mk [a, b]) := by
      intro mk hmk a b ha hb
      rw [nowhere_iff]; simp [isWide, hmk, ha, hb]
    have bin : ∀ (mk : List (Expr α) → Expr α), (∀ l, (mk l).children = l) → ∀ c0 c1 c2 rest,
        (∀ c ∈ c0 :: c1 :: c2 :: rest, Nowhere isWide c) →
        Nowhere isWide (binarize mk c0 c1 c2 rest) := by
      intro mk hmk c0 c1 c2 rest h
      rw [binarize_eq]
      have h0 : Nowhere isWide (mk [c0, c1]) := two mk hmk _ _ (h _ (by simp)) (h _ (by simp))
      have h1 : ∀ c ∈ c2 :: rest, Nowhere isWide c := fun c hc => h c (by simp_all)
      generalize c2 :: rest = l at h1
      generalize mk [c0, c1] = a at h0
      induction l generalizing a with
      | nil => simpa using h0
      | cons c l ih =>
        exact ih (fun d hd => h1 d (by simp [hd])) _ (two mk hmk _ _ h0 (h1 c (by simp)))
    intro e he
    unfold binaryStep
    split
    · exact bin .and (fun _ => rfl) _ _ _ _ he
    · exact bin .or (fun _ => rfl) _ _ _ _ he
    · rename_i h1 h2
      rw [nowhere_iff]
      refine ⟨?_, he⟩
      intro hw
      cases e <;> simp [isWide, children] at hw
      · rename_i cs
        match cs, hw with
        | c0 :: c1 :: c2 :: rest, _ => exact h1 _ _ _ _ rfl
      · rename_i cs
        match cs, hw with
        | c0 :: c1 :: c2 :: rest, _ => exact h2 _ _ _ _ rfl
  induction e using childInduction with
  | h e ih =>
    unfold toBinary
    rw [post_eq]
    apply step
    intro c hc
    rw [children_mapChildren, List.mem_map] at hc
    obtain ⟨d, hd, rfl⟩ := hc
    exact ih d hd

/-- C07: afterwards no xor, `->`, F, G, O, H remains and every operator has at
most two operands. -/
theorem C07_removeExtended_shape (e : Expr α) :
    Nowhere isExtended (removeExtended e) ∧ Nowhere isWide (removeExtended e) := by
  have main : ∀ e : Expr α, Nowhere isWide e →
      Nowhere isExtended (post extStep e) ∧ Nowhere isWide (post extStep e) := by
    intro e
    induction e using childInduction with
    | h e ih =>
      intro hw
      have hc : ∀ c ∈ (mapChildren (post extStep) e).children,
          Nowhere isExtended c ∧ Nowhere isWide c := by
        intro c hc
        rw [children_mapChildren, List.mem_map] at hc
        obtain ⟨d, hd, rfl⟩ := hc
        exact ih d hd (hw.child hd)
      have hl : ¬ isWide (mapChildren (post extStep) e) := by
        have := (nowhere_iff.1 hw).1
        simpa [isWide] using this
      rw [post_eq]
      generalize mapChildren (post extStep) e = m at hc hl
      have leafC : ∀ b : Bool, Nowhere isExtended (Expr.const b : Expr α) ∧
          Nowhere isWide (Expr.const b : Expr α) := by
        intro b
        exact ⟨⟨_, by simp [isExtended], by simp [children]⟩,
          ⟨_, by simp [isWide, children], by simp [children]⟩⟩
      have mk : ∀ e : Expr α, ¬ isExtended e → ¬ isWide e →
          (∀ c ∈ e.children, Nowhere isExtended c ∧ Nowhere isWide c) →
          Nowhere isExtended e ∧ Nowhere isWide e := by
        intro e h1 h2 h3
        exact ⟨⟨e, h1, fun c hc => (h3 c hc).1⟩, ⟨e, h2, fun c hc => (h3 c hc).2⟩⟩
      cases m <;> simp only [extStep]
      case xor l r =>
        refine mk _ (by simp [isExtended]) (by simp [isWide, children]) ?_
        simp only [children, List.mem_cons, List.not_mem_nil, or_false, forall_eq]
        exact mk _ (by simp [isExtended]) (by simp [isWide, children]) hc
      case imp l r =>
        simp only [children, List.mem_cons, List.not_mem_nil, or_false, forall_eq_or_imp,
          forall_eq] at hc
        refine mk _ (by simp [isExtended]) (by simp [isWide, children]) ?_
        simp only [children, List.mem_cons, List.not_mem_nil, or_false, forall_eq_or_imp,
          forall_eq]
        exact ⟨mk _ (by simp [isExtended]) (by simp [isWide, children]) (by simpa [children] using hc.1),
          hc.2⟩
      case fut lb ub e | glob lb ub e | once lb ub e | hist lb ub e =>
        simp only [children, List.mem_cons, List.not_mem_nil, or_false, forall_eq] at hc
        refine mk _ (by simp [isExtended]) (by simp [isWide, children]) ?_
        simp only [children, List.mem_cons, List.not_mem_nil, or_false, forall_eq_or_imp,
          forall_eq]
        exact ⟨leafC _, hc⟩
      all_goals exact mk _ (by simp [isExtended]) hl hc
  exact main _ (C09_toBinary_arity e)

/-- Non-vacuity: inputs that do contain extended and wide operators. -/
example : ¬ Nowhere isExtended (Expr.glob 0 1 (.atom "a")) ∧
    ¬ Nowhere isWide (Expr.and [.atom "a", .atom "b", .atom "c"]) := by
  constructor
  · intro h; exact (nowhere_iff.1 h).1 (by simp [isExtended])
  · intro h; exact (nowhere_iff.1 h).1 (by simp [isWide, children])

/-! ### C08 -/

/-- C08: `remove_release_operators` keeps every verdict. -/
theorem C08_removeRelease_verdicts (e : Expr α) : Equiv (removeRelease e) e :=
  post_equiv releaseStep_equiv e

theorem C08_release_any_schedule {e e' : Expr α} (h : Reach releaseStep e e') : Equiv e' e :=
  reach_equiv releaseStep_equiv h

/-- C08: no release operator remains. -/
theorem C08_removeRelease_shape (e : Expr α) : Nowhere isRelease (removeRelease e) := by
  induction e using childInduction with
  | h e ih =>
    unfold removeRelease
    rw [post_eq]
    have hc : ∀ c ∈ (mapChildren (post releaseStep) e).children, Nowhere isRelease c := by
      intro c hc
      rw [children_mapChildren, List.mem_map] at hc
      obtain ⟨d, hd, rfl⟩ := hc
      exact ih d hd
    generalize mapChildren (post releaseStep) e = m at hc
    cases m <;> simp only [releaseStep]
    case rel lb ub l r =>
      simp only [children, List.mem_cons, List.not_mem_nil, or_false, forall_eq_or_imp,
        forall_eq] at hc
      have hneg : ∀ x : Expr α, Nowhere isRelease (.neg x) ↔ Nowhere isRelease x :=
        fun x => nowhere_neg (fun _ h => h)
      rw [hneg, nowhere_iff]
      simp only [children, List.mem_cons, List.not_mem_nil, or_false, forall_eq_or_imp,
        forall_eq, hneg]
      exact ⟨by simp [isRelease], hc⟩
    all_goals exact ⟨_, by simp [isRelease], hc⟩

example : ¬ Nowhere isRelease (Expr.neg (.rel 0 1 (.atom "a") (.atom "b"))) ∧
    removeRelease (Expr.neg (.rel 0 1 (.atom "a") (.atom "b")))
      = .neg (.neg (.untl 0 1 (.neg (.atom "a")) (.neg (.atom "b")))) := by
  refine ⟨fun h => ?_, rfl⟩
  exact (nowhere_iff.1 (h.child (c := _) (by simp [children]; rfl))).1 (by simp [isRelease])

/-! ### C09, C10 -/

/-- C09: `multi_operators_to_binary` keeps every verdict. -/
theorem C09_toBinary_verdicts (e : Expr α) : Equiv (toBinary e) e := post_equiv binaryStep_equiv e

theorem C09_binary_any_schedule {e e' : Expr α} (h : Reach binaryStep e e') : Equiv e' e :=
  reach_equiv binaryStep_equiv h

/-- C10: `flatten_multi_operators` keeps every verdict. -/
theorem C10_flatten_verdicts (e : Expr α) : Equiv (flatten e) e := post_equiv flattenStep_equiv e

theorem C10_flatten_any_schedule {e e' : Expr α} (h : Reach flattenStep e e') : Equiv e' e :=
  reach_equiv flattenStep_equiv h

/-- C09: the leaves keep their left-to-right order. -/
theorem C09_toBinary_leaves (e : Expr α) : leaves (toBinary e) = leaves e :=
  leaves_post leaves_binaryStep e

/-- C10: the leaves keep their left-to-right order. -/
theorem C10_flatten_leaves (e : Expr α) : leaves (flatten e) = leaves e :=
  leaves_post leaves_flattenStep e

example : flatten (.and [.and [.and [.atom 1, .atom 2], .atom 3], .or [.atom 4]])
    = .and [.atom 1, .atom 2, .atom 3, .or [.atom 4]] := by rfl

example : toBinary (.or [.atom 1, .atom 2, .atom 3, .atom 4])
    = .or [.or [.or [.atom 1, .atom 2], .atom 3], .atom 4] := by rfl

/-! ### C11 -/

/-- C11: `sort_operands_by_pd` keeps every verdict, whatever the delays recorded
in the nodes are. -/
theorem C11_sort_verdicts (key : Expr α → Int) (e : Expr α) : Equiv (sortOperands key e) e :=
  post_equiv (sortStep_equiv key) e

theorem C11_sort_any_schedule {key : Expr α → Int} {e e' : Expr α} (h : Reach (sortStep key) e e') :
    Equiv e' e := reach_equiv (sortStep_equiv key) h

theorem sortStep_reordered (key : Expr α → Int) (e : Expr α) : Reordered e (sortStep key e) := by
  cases e <;> simp only [sortStep]
  case and cs => exact .and (sortByKey_perm key cs).symm
  case or cs => exact .or (sortByKey_perm key cs).symm
  case xor l r => split; exacts [.refl _, .xor l r]
  case iff l r => split; exacts [.refl _, .iff l r]
  case equal l r => split; exacts [.refl _, .equal l r]
  all_goals exact .refl _

/-- C11: only the order of operands of commutative operators changes. -/
theorem C11_sort_reordered (key : Expr α → Int) (e : Expr α) : Reordered e (sortOperands key e) := by
  induction e using childInduction with
  | h e ih =>
    unfold sortOperands
    rw [post_eq]
    exact .trans (.inside e ih) (sortStep_reordered key _)

theorem sortStep_sorted (key : Expr α → Int) (e : Expr α) : ¬ isUnsorted key (sortStep key e) := by
  rintro ⟨hc, hn⟩
  cases e <;> simp only [sortStep, isCommutative] at hc hn
  case and cs => exact hn (sortByKey_sorted key cs)
  case or cs => exact hn (sortByKey_sorted key cs)
  case xor l r | iff l r | equal l r =>
    apply hn
    split <;> simp [children] <;> omega

/-- C11: with the delays as recorded by the constructors, every commutative
operator of the result has its operands in non-decreasing order of worst-case
delay. -/
theorem C11_sort_sorted (e : Expr α) : Nowhere (isUnsorted wpd) (sortOperands wpd e) := by
  induction e using childInduction with
  | h e ih =>
    unfold sortOperands
    rw [post_eq]
    refine ⟨_, sortStep_sorted _ _, fun c hc => ?_⟩
    have hc' : c ∈ (mapChildren (post (sortStep wpd)) e).children := by
      revert hc
      generalize mapChildren (post (sortStep wpd)) e = m
      intro hc
      cases m <;> simp only [sortStep] at hc
      case and cs => exact (sortByKey_perm wpd cs).mem_iff.1 hc
      case or cs => exact (sortByKey_perm wpd cs).mem_iff.1 hc
      case xor l r | iff l r | equal l r =>
        split at hc
        · exact hc
        · simp [children] at hc ⊢; tauto
      all_goals exact hc
    rw [children_mapChildren, List.mem_map] at hc'
    obtain ⟨d, hd, rfl⟩ := hc'
    exact ih d hd

/-- C11: sorting changes no recorded delay. -/
theorem C11_sort_delays (key : Expr α → Int) (e : Expr α) :
    bpd (sortOperands key e) = bpd e ∧ wpd (sortOperands key e) = wpd e := pd_sortOperands key e

example : isUnsorted wpd (Expr.and [.fut 0 5 (.atom "a"), .atom "b", .glob 0 3 (.atom "c")]) ∧
    sortOperands wpd (Expr.and [.fut 0 5 (.atom "a"), .atom "b", .glob 0 3 (.atom "c")])
      = .and [.atom "b", .glob 0 3 (.atom "c"), .fut 0 5 (.atom "a")] := by
  constructor
  · refine ⟨trivial, ?_⟩
    simp [children, wpd]
  · simp [sortOperands, post, postL, sortStep, sortByKey, List.mergeSort, wpd,
      List.MergeSort.Internal.splitInTwo, List.merge]

end R2U2
