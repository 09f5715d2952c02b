import Verif.Lemmas.GraphRules
namespace R2U2
open Heap Expr GraphPass
variable {α : Type}

theorem frame_of_logical {l : Lab} (h : l.logical = true) : l.frame = false := by
  cases l <;> simp_all [Lab.logical, Lab.frame]

theorem bnf_logical {h : Heap Lab} {x : Nat} {b : Bud Lab} (hr : bnfRule h x = some (some b)) : (h.lab x).logical = true := by
  unfold bnfRule at hr
  split at hr <;> first | (simp_all [Lab.logical]; done) | cases hr

theorem ext_logical {h : Heap Lab} {x : Nat} {b : Bud Lab} (hr : extRule h x = some (some b)) : (h.lab x).logical = true := by
  unfold extRule at hr
  split at hr <;> first | (simp_all [Lab.logical]; done) | cases hr

theorem release_logical {h : Heap Lab} {x : Nat} {b : Bud Lab} (hr : releaseRule h x = some (some b)) : (h.lab x).logical = true := by
  unfold releaseRule at hr
  split at hr <;> first | (simp_all [Lab.logical]; done) | cases hr

theorem nnf_logical {h : Heap Lab} {x : Nat} {b : Bud Lab} (hr : nnfRuleG h x = some (some b)) : (h.lab x).logical = true := by
  unfold nnfRuleG at hr
  split at hr <;> first | (rename_i hh; rw [hh]; rfl) | cases hr

theorem read_old (tr : Nat → Ast) (x : Nat) : (Bud.old x).read tr = tr x := rfl
theorem read_neg (tr : Nat → Ast) (b : Bud Lab) : (Bud.neg b).read tr = .node (.op .neg) [b.read tr] := rfl
theorem read_iff (tr : Nat → Ast) (b c : Bud Lab) : (Bud.iff b c).read tr = .node (.op .iff) [b.read tr, c.read tr] := rfl
theorem read_cst (tr : Nat → Ast) (b : Bool) : (Bud.cst b).read tr = .node (.lit (.bool b)) [] := rfl
theorem read_and (tr : Nat → Ast) (bs : List (Bud Lab)) : (Bud.and bs).read tr = .node (.op .and) (bs.map (Bud.read tr)) := by
  simp [Bud.and, Bud.read, Bud.readL_eq]
theorem read_or (tr : Nat → Ast) (bs : List (Bud Lab)) : (Bud.or bs).read tr = .node (.op .or) (bs.map (Bud.read tr)) := by
  simp [Bud.or, Bud.read, Bud.readL_eq]
theorem read_tmp (tr : Nat → Ast) (o : TmpK) (lb ub : Nat) (bs : List (Bud Lab)) :
    (Bud.tmp o lb ub bs).read tr = .node (.tmp o lb ub) (bs.map (Bud.read tr)) := by
  simp [Bud.tmp, Bud.read, Bud.readL_eq]

theorem kid_one {L : Type} {h : Heap L} {x a : Nat} (hk : h.kids x = [a]) : h.kid x 0 = some a := by simp [Heap.kid, hk]
theorem kid_two {L : Type} {h : Heap L} {x a b : Nat} (hk : h.kids x = [a, b]) : h.kid x 0 = some a ∧ h.kid x 1 = some b := by
  simp [Heap.kid, hk]

theorem map_neg_read {tr : Nat → Ast} {f : α → Ast} {xs : List Nat} {cs : List (Expr α)} (h : xs.map tr = cs.map (toAst f)) :
    (xs.map fun c => Bud.neg (.old c)).map (Bud.read tr) = (cs.map Expr.neg).map (toAst f) := by
  have : (xs.map tr).map (fun t => Tree.node (Lab.op .neg) [t]) = (cs.map (toAst f)).map (fun t => Tree.node (Lab.op .neg) [t]) := by rw [h]
  simpa [Function.comp_def, read_neg, read_old, toAst] using this

theorem bnf_read {P : Lab → Nat → Prop} {f : α → Ast} (hf : AtomsPlain P f) {h : Heap Lab} {x : Nat} {b : Bud Lab} {tr : Nat → Ast}
    {e : Expr α} (hd : ∀ z, h.Denotes z (tr z)) (hx : tr x = e.toAst f) (hr : bnfRule h x = some (some b)) (hat : ∀ a, e ≠ .atom a) :
    b.read tr = (Transform.bnfStep e).toAst f := by
  have hv := view hf hd hx
  unfold bnfRule at hr
  cases e <;> simp only [View] at hv
  case atom a => exact absurd rfl (hat a)
  case or cs =>
    simp only [hv.1, Option.some.injEq] at hr
    subst hr
    simp only [Transform.bnfStep, toAst, read_neg, read_and, toAstL_eq, map_neg_read hv.2]
  all_goals
    first
    | (obtain ⟨h1, a, h2, h3⟩ := hv
       simp [h1, kid_one h2] at hr; done)
    | (obtain ⟨h1, a, h2, h3⟩ := hv
       simp only [h1, kid_one h2, Option.bind_eq_bind, Option.bind_some, Option.some.injEq] at hr
       subst hr
       simp [Transform.bnfStep, toAst, toAstL_eq, read_neg, read_and, read_or, read_tmp, read_cst, read_iff, read_old, h3]; done)
    | (obtain ⟨h1, a, b, h2, h3, h4⟩ := hv
       simp [h1] at hr; done)
    | (obtain ⟨h1, a, b, h2, h3, h4⟩ := hv
       simp only [h1, kid_two h2, Option.bind_eq_bind, Option.bind_some, Option.some.injEq] at hr
       subst hr
       simp [Transform.bnfStep, toAst, toAstL_eq, read_neg, read_and, read_or, read_tmp, read_cst, read_iff, read_old, h3, h4]; done)
    | (simp [hv] at hr; done)
theorem ext_read {P : Lab → Nat → Prop} {f : α → Ast} (hf : AtomsPlain P f) {h : Heap Lab} {x : Nat} {b : Bud Lab} {tr : Nat → Ast}
    {e : Expr α} (hd : ∀ z, h.Denotes z (tr z)) (hx : tr x = e.toAst f) (hr : extRule h x = some (some b)) (hat : ∀ a, e ≠ .atom a) :
    b.read tr = (Transform.extStep e).toAst f := by
  have hv := view hf hd hx
  unfold extRule at hr
  cases e <;> simp only [View] at hv
  case atom a => exact absurd rfl (hat a)
  all_goals
    first
    | (obtain ⟨h1, a, h2, h3⟩ := hv
       simp [h1, kid_one h2] at hr; done)
    | (obtain ⟨h1, a, h2, h3⟩ := hv
       simp only [h1, kid_one h2, Option.bind_eq_bind, Option.bind_some, Option.some.injEq] at hr
       subst hr
       simp [Transform.extStep, toAst, toAstL_eq, read_neg, read_and, read_or, read_tmp, read_cst, read_iff, read_old, h3]; done)
    | (obtain ⟨h1, a, b, h2, h3, h4⟩ := hv
       simp [h1] at hr; done)
    | (obtain ⟨h1, a, b, h2, h3, h4⟩ := hv
       simp only [h1, kid_two h2, Option.bind_eq_bind, Option.bind_some, Option.some.injEq] at hr
       subst hr
       simp [Transform.extStep, toAst, toAstL_eq, read_neg, read_and, read_or, read_tmp, read_cst, read_iff, read_old, h3, h4]; done)
    | (simp [hv] at hr; done)

theorem release_read {P : Lab → Nat → Prop} {f : α → Ast} (hf : AtomsPlain P f) {h : Heap Lab} {x : Nat} {b : Bud Lab} {tr : Nat → Ast}
    {e : Expr α} (hd : ∀ z, h.Denotes z (tr z)) (hx : tr x = e.toAst f) (hr : releaseRule h x = some (some b)) (hat : ∀ a, e ≠ .atom a) :
    b.read tr = (Transform.releaseStep e).toAst f := by
  have hv := view hf hd hx
  unfold releaseRule at hr
  cases e <;> simp only [View] at hv
  case atom a => exact absurd rfl (hat a)
  all_goals
    first
    | (obtain ⟨h1, a, h2, h3⟩ := hv
       simp [h1, kid_one h2] at hr; done)
    | (obtain ⟨h1, a, h2, h3⟩ := hv
       simp only [h1, kid_one h2, Option.bind_eq_bind, Option.bind_some, Option.some.injEq] at hr
       subst hr
       simp [Transform.releaseStep, toAst, toAstL_eq, read_neg, read_and, read_or, read_tmp, read_cst, read_iff, read_old, h3]; done)
    | (obtain ⟨h1, a, b, h2, h3, h4⟩ := hv
       simp [h1] at hr; done)
    | (obtain ⟨h1, a, b, h2, h3, h4⟩ := hv
       simp only [h1, kid_two h2, Option.bind_eq_bind, Option.bind_some, Option.some.injEq] at hr
       subst hr
       simp [Transform.releaseStep, toAst, toAstL_eq, read_neg, read_and, read_or, read_tmp, read_cst, read_iff, read_old, h3, h4]; done)
    | (simp [hv] at hr; done)

theorem nnf_read {P : Lab → Nat → Prop} {f : α → Ast} (hf : AtomsPlain P f) {h : Heap Lab} {x : Nat} {b : Bud Lab} {tr : Nat → Ast}
    {e : Expr α} (hd : ∀ z, h.Denotes z (tr z)) (hx : tr x = e.toAst f) (hr : nnfRuleG h x = some (some b)) (hat : ∀ a, e ≠ .atom a) :
    b.read tr = (Transform.nnfRule e).toAst f := by
  have hv := view hf hd hx
  unfold nnfRuleG at hr
  cases e <;> simp only [View] at hv
  case atom a => exact absurd rfl (hat a)
  case neg e =>
    obtain ⟨h1, c, h2, h3⟩ := hv
    simp only [h1, kid_one h2, Option.bind_eq_bind, Option.bind_some] at hr
    have hv := view hf hd h3
    cases e <;> simp only [View] at hv
    case atom a =>
      exfalso
      have hl := hv.1
      split at hr <;> first | (rename_i hh; rw [hh] at hl; simp [Lab.logical] at hl; done) | cases hr
    case or cs =>
      simp only [hv.1, Option.some.injEq] at hr
      subst hr
      simp only [Transform.nnfRule, toAst, read_and, toAstL_eq, map_neg_read hv.2]
    case and cs =>
      simp only [hv.1, Option.some.injEq] at hr
      subst hr
      simp only [Transform.nnfRule, toAst, read_or, toAstL_eq, map_neg_read hv.2]
    all_goals
      first
      | (obtain ⟨h1, a, h2, h3⟩ := hv
         simp [h1, kid_one h2] at hr; done)
      | (obtain ⟨h1, a, h2, h3⟩ := hv
         simp only [h1, kid_one h2, Option.bind_eq_bind, Option.bind_some, Option.some.injEq] at hr
         subst hr
         simp [Transform.nnfRule, toAst, toAstL_eq, read_neg, read_and, read_or, read_tmp, read_cst, read_iff, read_old, h3]; done)
      | (obtain ⟨h1, a, b, h2, h3, h4⟩ := hv
         simp [h1] at hr; done)
      | (obtain ⟨h1, a, b, h2, h3, h4⟩ := hv
         simp only [h1, kid_two h2, Option.bind_eq_bind, Option.bind_some, Option.some.injEq] at hr
         subst hr
         simp [Transform.nnfRule, toAst, toAstL_eq, read_neg, read_and, read_or, read_tmp, read_cst, read_iff, read_old, h3, h4]; done)
      | (simp [hv] at hr; done)

  all_goals
    first
    | (obtain ⟨h1, a, h2, h3⟩ := hv
       simp [h1, kid_one h2] at hr; done)
    | (obtain ⟨h1, a, h2, h3⟩ := hv
       simp only [h1, kid_one h2, Option.bind_eq_bind, Option.bind_some, Option.some.injEq] at hr
       subst hr
       simp [Transform.nnfRule, toAst, toAstL_eq, read_neg, read_and, read_or, read_tmp, read_cst, read_iff, read_old, h3]; done)
    | (obtain ⟨h1, a, b, h2, h3, h4⟩ := hv
       simp [h1] at hr; done)
    | (obtain ⟨h1, a, b, h2, h3, h4⟩ := hv
       simp only [h1, kid_two h2, Option.bind_eq_bind, Option.bind_some, Option.some.injEq] at hr
       subst hr
       simp [Transform.nnfRule, toAst, toAstL_eq, read_neg, read_and, read_or, read_tmp, read_cst, read_iff, read_old, h3, h4]; done)
    | (simp [hv] at hr; done)

/-! ### multi_operators_to_binary -/

theorem multi_cases {l : Lab} (h : multiArity l = true) : l = .op .and ∨ l = .op .or ∨ l = .op .add ∨ l = .op .mul := by
  unfold multiArity at h
  split at h <;> simp_all

theorem binary_fires {h : Heap Lab} {x : Nat} {b : Bud Lab} (hr : binaryRule h x = some (some b)) :
    multiArity (h.lab x) = true ∧ ∃ c0 c1 c2 rest, h.kids x = c0 :: c1 :: c2 :: rest ∧ b = chain (h.lab x) c0 c1 c2 rest := by
  unfold binaryRule at hr
  split at hr
  · rename_i hm
    refine ⟨hm, ?_⟩
    split at hr
    · rename_i c0 c1 c2 rest hk
      simp only [Option.some.injEq] at hr
      exact ⟨c0, c1, c2, rest, hk, hr.symm⟩
    · cases hr
  · cases hr

theorem foldl_oldsIn {Q : Nat → Prop} {l : Lab} : ∀ (cs : List Nat) (acc : Bud Lab), acc.OldsIn Q → (∀ c ∈ cs, Q c) →
    (cs.foldl (fun acc c => Bud.new l [acc, .old c]) acc).OldsIn Q
  | [], _, h, _ => h
  | c :: cs, acc, h, hc => by
    rw [List.foldl_cons]
    exact foldl_oldsIn cs _ (oldsIn_new (oldsIn_cons h (oldsIn_cons (oldsIn_old (hc c (by simp))) oldsIn_nil)))
      fun d hd => hc d (by simp [hd])

theorem binary_olds {h : Heap Lab} {x : Nat} {b : Bud Lab} (hr : binaryRule h x = some (some b)) : b.OldsIn (h.Under x) := by
  obtain ⟨_, c0, c1, c2, rest, hk, rfl⟩ := binary_fires hr
  have hu : ∀ c ∈ c0 :: c1 :: c2 :: rest, h.Under x c := fun c hc => under_kids (by rw [hk]; exact hc)
  unfold chain
  refine oldsIn_new (oldsIn_cons (foldl_oldsIn _ _ (oldsIn_new (oldsIn_cons (oldsIn_old (hu _ (by simp)))
    (oldsIn_cons (oldsIn_old (hu _ (by simp))) oldsIn_nil))) fun c hc => hu c ?_) (oldsIn_cons (oldsIn_old (hu _ ?_)) oldsIn_nil))
  · have := List.dropLast_subset _ hc
    simp only [List.mem_cons] at this ⊢; tauto
  · have := List.getLast_mem (l := c2 :: rest) (by simp)
    simp only [List.mem_cons] at this ⊢; tauto

theorem foldl_read {l : Lab} {f : α → Ast} {tr : Nat → Ast} {mk : List (Expr α) → Expr α}
    (hmk : ∀ cs, (mk cs).toAst f = .node l (cs.map (toAst f))) : ∀ (xs : List Nat) (cs : List (Expr α)) (b : Bud Lab) (e : Expr α),
    xs.map tr = cs.map (toAst f) → b.read tr = e.toAst f →
    (xs.foldl (fun acc c => Bud.new l [acc, .old c]) b).read tr = (cs.foldl (fun acc c => mk [acc, c]) e).toAst f
  | [], [], _, _, _, h => h
  | [], _ :: _, _, _, h, _ => by simp at h
  | _ :: _, [], _, _, h, _ => by simp at h
  | x :: xs, c :: cs, b, e, h, hb => by
    simp only [List.map_cons, List.cons.injEq] at h
    rw [List.foldl_cons, List.foldl_cons]
    refine foldl_read hmk xs cs _ _ h.2 ?_
    simp [Bud.read, Bud.readL_eq, hmk, hb, h.1]

theorem chain_read {l : Lab} {f : α → Ast} {tr : Nat → Ast} {mk : List (Expr α) → Expr α}
    (hmk : ∀ cs, (mk cs).toAst f = .node l (cs.map (toAst f))) {c0 c1 c2 : Nat} {rest : List Nat} {d0 d1 d2 : Expr α}
    {drest : List (Expr α)} (h : (c0 :: c1 :: c2 :: rest).map tr = (d0 :: d1 :: d2 :: drest).map (toAst f)) :
    (chain l c0 c1 c2 rest).read tr = (Transform.binarize mk d0 d1 d2 drest).toAst f := by
  simp only [List.map_cons, List.cons.injEq] at h
  obtain ⟨h0, h1, h2, h3⟩ := h
  have ho : (c2 :: rest).map tr = (d2 :: drest).map (toAst f) := by simp [h2, h3]
  have hdl : (c2 :: rest).dropLast.map tr = (d2 :: drest).dropLast.map (toAst f) := by
    rw [List.map_dropLast, ho, ← List.map_dropLast]
  have hlast : tr ((c2 :: rest).getLast (by simp)) = ((d2 :: drest).getLast (by simp)).toAst f := by
    have e1 := List.getLast_map (f := tr) (l := c2 :: rest) (by simp)
    have e2 := List.getLast_map (f := toAst f) (l := d2 :: drest) (by simp)
    rw [← e1, ← e2]
    simp only [ho]
  unfold chain Transform.binarize
  have := foldl_read hmk _ _ (Bud.new l [.old c0, .old c1]) (mk [d0, d1]) hdl (by simp [Bud.read, Bud.readL_eq, hmk, h0, h1])
  simp only [Bud.read, Bud.readL_eq, List.map_cons, List.map_nil, this, hlast, hmk]

theorem binary_read {P : Lab → Nat → Prop} {f : α → Ast} (hf : AtomsPlain P f) {h : Heap Lab} {x : Nat} {b : Bud Lab} {tr : Nat → Ast}
    {e : Expr α} (hd : ∀ z, h.Denotes z (tr z)) (hx : tr x = e.toAst f) (hr : binaryRule h x = some (some b)) (hat : ∀ a, e ≠ .atom a) :
    b.read tr = (Transform.binaryStep e).toAst f := by
  have hv := view hf hd hx
  obtain ⟨hm, c0, c1, c2, rest, hk, rfl⟩ := binary_fires hr
  cases e <;> simp only [View] at hv
  case atom a => exact absurd rfl (hat a)
  case and cs =>
    rw [hk] at hv
    match cs, hv with
    | [], hv | [_], hv | [_, _], hv => simp at hv
    | d0 :: d1 :: d2 :: ds, hv =>
      rw [hv.1, Transform.binaryStep]
      exact chain_read (fun cs => by simp [toAst, toAstL_eq]) hv.2
  case or cs =>
    rw [hk] at hv
    match cs, hv with
    | [], hv | [_], hv | [_, _], hv => simp at hv
    | d0 :: d1 :: d2 :: ds, hv =>
      rw [hv.1, Transform.binaryStep]
      exact chain_read (fun cs => by simp [toAst, toAstL_eq]) hv.2
  all_goals first
    | (rw [hv.1] at hm; simp [multiArity] at hm; done)
    | (rw [hv] at hm; simp [multiArity] at hm; done)

/-! ### flatten_multi_operators -/

theorem flatten_fires {h : Heap Lab} {x : Nat} {b : Bud Lab} (hr : flattenRule h x = some (some b)) :
    multiArity (h.lab x) = true ∧ b = .new (h.lab x) ((flatKids h (h.lab x) [] (h.kids x)).map .old) := by
  unfold flattenRule at hr
  split at hr
  · rename_i hm
    simp only [Option.some.injEq] at hr
    exact ⟨hm, hr.symm⟩
  · cases hr

theorem flatKids_mem {h : Heap Lab} {l : Lab} : ∀ (cs acc : List Nat) (c : Nat), c ∈ flatKids h l acc cs →
    c ∈ acc ∨ c ∈ cs ∨ ∃ d ∈ cs, c ∈ h.kids d
  | [], _, _, hc => .inl hc
  | d :: cs, acc, c, hc => by
    unfold flatKids at hc
    split at hc
    · rcases flatKids_mem cs _ c hc with h1 | h1 | ⟨d', h1, h2⟩
      · rcases List.mem_append.1 h1 with h1 | h1
        · exact .inl h1
        · exact .inr (.inr ⟨d, by simp, h1⟩)
      · exact .inr (.inl (by simp [h1]))
      · exact .inr (.inr ⟨d', by simp [h1], h2⟩)
    · rcases flatKids_mem cs _ c hc with h1 | h1 | ⟨d', h1, h2⟩
      · rcases List.mem_append.1 h1 with h1 | h1
        · exact .inl h1
        · rw [List.mem_singleton] at h1; exact .inr (.inl (by simp [h1]))
      · exact .inr (.inl (by simp [h1]))
      · exact .inr (.inr ⟨d', by simp [h1], h2⟩)

theorem flatten_olds {h : Heap Lab} {x : Nat} {b : Bud Lab} (hr : flattenRule h x = some (some b)) : b.OldsIn (h.Under x) := by
  obtain ⟨_, rfl⟩ := flatten_fires hr
  refine oldsIn_new (oldsIn_map fun c hc => ?_)
  rcases flatKids_mem _ _ _ hc with h1 | h1 | ⟨d, h1, h2⟩
  · simp at h1
  · exact oldsIn_old (under_kids h1)
  · exact oldsIn_old ((under_kids h1).down (under_kids h2))

theorem flatKids_read {f : α → Ast} {h : Heap Lab} {l : Lab} {tr : Nat → Ast} {same : Expr α → Option (List (Expr α))}
    (hs : ∀ {c : Nat} {e : Expr α}, tr c = e.toAst f → (h.lab c = l ∧ ∃ gs, same e = some gs ∧ (h.kids c).map tr = gs.map (toAst f)) ∨
      h.lab c ≠ l ∧ same e = none) : ∀ (xs acc : List Nat) (cs acc' : List (Expr α)),
    xs.map tr = cs.map (toAst f) → acc.map tr = acc'.map (toAst f) →
    (flatKids h l acc xs).map tr = (Transform.flattenChildren same acc' cs).map (toAst f)
  | [], _, [], _, _, ha => ha
  | [], _, _ :: _, _, hx, _ => by simp at hx
  | _ :: _, _, [], _, hx, _ => by simp at hx
  | x :: xs, acc, c :: cs, acc', hx, ha => by
    simp only [List.map_cons, List.cons.injEq] at hx
    have hlen : acc.length = acc'.length := by simpa using congrArg List.length ha
    unfold flatKids Transform.flattenChildren
    rcases hs hx.1 with ⟨h1, gs, h2, h3⟩ | ⟨h1, h2⟩
    · simp only [h1, h2, true_and, hlen]
      split
      · exact flatKids_read hs _ _ _ _ hx.2 (by simp [ha, h3])
      · exact flatKids_read hs _ _ _ _ hx.2 (by simp [ha, hx.1])
    · simp only [h1, h2, false_and, if_false]
      exact flatKids_read hs _ _ _ _ hx.2 (by simp [ha, hx.1])

theorem flatten_read {P : Lab → Nat → Prop} {f : α → Ast} (hf : AtomsPlain P f) {h : Heap Lab} {x : Nat} {b : Bud Lab} {tr : Nat → Ast}
    {e : Expr α} (hd : ∀ z, h.Denotes z (tr z)) (hx : tr x = e.toAst f) (hr : flattenRule h x = some (some b)) (hat : ∀ a, e ≠ .atom a) :
    b.read tr = (Transform.flattenStep e).toAst f := by
  have hv := view hf hd hx
  obtain ⟨hm, rfl⟩ := flatten_fires hr
  cases e <;> simp only [View] at hv
  case atom a => exact absurd rfl (hat a)
  case and cs =>
    have := flatKids_read (l := .op .and) (same := Transform.andChildren) (fun {c e} hc => by
      have hv := view hf hd hc
      cases e <;> simp only [View] at hv <;> simp only [Transform.andChildren, and_true, reduceCtorEq, false_and, and_false, exists_false, false_or]
      case and cs => exact .inl ⟨hv.1, _, rfl, hv.2⟩
      case atom a => exact fun hh => by rw [hh] at hv; simp [Lab.logical] at hv
      all_goals first
        | (rw [hv.1]; simp; done)
        | (rw [hv]; simp; done)) (h.kids x) [] cs [] hv.2 rfl
    rw [hv.1, Transform.flattenStep]
    simp only [Bud.read, Bud.readL_eq, List.map_map, toAst, toAstL_eq, ← this]
    rfl
  case or cs =>
    have := flatKids_read (l := .op .or) (same := Transform.orChildren) (fun {c e} hc => by
      have hv := view hf hd hc
      cases e <;> simp only [View] at hv <;> simp only [Transform.orChildren, and_true, reduceCtorEq, false_and, and_false, exists_false, false_or]
      case or cs => exact .inl ⟨hv.1, _, rfl, hv.2⟩
      case atom a => exact fun hh => by rw [hh] at hv; simp [Lab.logical] at hv
      all_goals first
        | (rw [hv.1]; simp; done)
        | (rw [hv]; simp; done)) (h.kids x) [] cs [] hv.2 rfl
    rw [hv.1, Transform.flattenStep]
    simp only [Bud.read, Bud.readL_eq, List.map_map, toAst, toAstL_eq, ← this]
    rfl
  all_goals first
    | (rw [hv.1] at hm; simp [multiArity] at hm; done)
    | (rw [hv] at hm; simp [multiArity] at hm; done)

/-! ### optimize_rewrites -/

theorem text_read {f : α → Ast} {fuel : Nat} {h : Heap Lab} {tr : Nat → Ast} (hd : ∀ z, h.Denotes z (tr z)) {p : Nat} {e : Expr α}
    (hp : tr p = e.toAst f) {s : List Char} (ht : text fuel h p = some s) : s = str f e := by
  unfold text at ht
  rw [Option.map_eq_some_iff] at ht
  obtain ⟨t, h1, rfl⟩ := ht
  have : t = tr p := Denotes.unique ⟨fuel, h1⟩ (hd p)
  rw [this, hp, str]

theorem optNeg_olds {h : Heap Lab} {x : Nat} {b : Bud Lab} (hr : optNeg h x = some (some b)) : b.OldsIn (h.Under x) := by
  unfold optNeg at hr
  simp only [Option.bind_eq_bind, Option.bind_eq_some_iff] at hr
  obtain ⟨a, ha, hr⟩ := hr
  split at hr
  · simp only [Option.some.injEq] at hr
    subst hr; olds_in
  · simp only [Option.bind_eq_some_iff, Option.some.injEq] at hr
    obtain ⟨p, hp, rfl⟩ := hr
    olds_in
  · simp only [Option.bind_eq_some_iff] at hr
    obtain ⟨p, hp, hr⟩ := hr
    split at hr
    · simp only [Option.bind_eq_some_iff, Option.some.injEq] at hr
      obtain ⟨q, hq, rfl⟩ := hr
      olds_in
    · cases hr
  · simp only [Option.bind_eq_some_iff] at hr
    obtain ⟨p, hp, hr⟩ := hr
    split at hr
    · simp only [Option.bind_eq_some_iff, Option.some.injEq] at hr
      obtain ⟨q, hq, rfl⟩ := hr
      olds_in
    · cases hr
  · cases hr

theorem optEqual_olds {h : Heap Lab} {x : Nat} {b : Bud Lab} (hr : optEqual h x = some (some b)) : b.OldsIn (h.Under x) := by
  unfold optEqual at hr
  simp only [Option.bind_eq_bind, Option.bind_eq_some_iff] at hr
  obtain ⟨l, hl, r, hr', hr⟩ := hr
  split at hr
  · cases hr
  · simp only [Option.some.injEq] at hr
    subst hr; olds_in
  · simp only [Option.some.injEq] at hr
    subst hr; olds_in
  · cases hr

theorem optGlob_olds {lb ub : Nat} {h : Heap Lab} {x : Nat} {b : Bud Lab} (hr : optGlob lb ub h x = some (some b)) : b.OldsIn (h.Under x) := by
  unfold optGlob at hr
  simp only [Option.bind_eq_bind, Option.bind_eq_some_iff] at hr
  obtain ⟨a, ha, hr⟩ := hr
  split at hr
  · simp only [Option.some.injEq] at hr
    repeat' split at hr
    all_goals first | cases hr; done | skip
    all_goals (simp only [Option.some.injEq] at hr; subst hr; olds_in)
  · simp only [Option.bind_eq_some_iff, Option.some.injEq] at hr
    obtain ⟨p, hp, rfl⟩ := hr
    olds_in
  · simp only [Option.bind_eq_some_iff] at hr
    obtain ⟨p, hp, hr⟩ := hr
    repeat' split at hr
    all_goals simp only [Option.some.injEq, reduceCtorEq] at hr
    all_goals (subst hr; olds_in)
  · repeat' split at hr
    all_goals simp only [Option.some.injEq, reduceCtorEq] at hr
    all_goals (subst hr; olds_in)

theorem optFut_olds {lb ub : Nat} {h : Heap Lab} {x : Nat} {b : Bud Lab} (hr : optFut lb ub h x = some (some b)) : b.OldsIn (h.Under x) := by
  unfold optFut at hr
  simp only [Option.bind_eq_bind, Option.bind_eq_some_iff] at hr
  obtain ⟨a, ha, hr⟩ := hr
  split at hr
  · simp only [Option.some.injEq] at hr
    repeat' split at hr
    all_goals first | cases hr; done | skip
    all_goals (simp only [Option.some.injEq] at hr; subst hr; olds_in)
  · simp only [Option.bind_eq_some_iff, Option.some.injEq] at hr
    obtain ⟨p, hp, rfl⟩ := hr
    olds_in
  · simp only [Option.bind_eq_some_iff] at hr
    obtain ⟨p, hp, hr⟩ := hr
    repeat' split at hr
    all_goals simp only [Option.some.injEq, reduceCtorEq] at hr
    all_goals (subst hr; olds_in)
  · repeat' split at hr
    all_goals simp only [Option.some.injEq, reduceCtorEq] at hr
    all_goals (subst hr; olds_in)

theorem joined_olds {Q : Nat → Prop} {o : TmpK} {a b c d p : Nat} {bd : Bud Lab} (hr : joined o a b c d p = some bd) (hp : Q p) : bd.OldsIn Q := by
  unfold joined at hr
  repeat' split at hr
  all_goals simp only [Option.some.injEq, reduceCtorEq] at hr
  all_goals (subst hr; exact oldsIn_new (oldsIn_cons (oldsIn_old hp) oldsIn_nil))

theorem factored_olds {Q : Nat → Prop} {o : TmpK} {k : OpK} {a b c d p q : Nat} (hp : Q p) (hq : Q q) : (factored o k a b p c d q).OldsIn Q :=
  oldsIn_new (oldsIn_cons (oldsIn_new (oldsIn_cons (oldsIn_new (oldsIn_cons (oldsIn_old hp) oldsIn_nil))
    (oldsIn_cons (oldsIn_new (oldsIn_cons (oldsIn_old hq) oldsIn_nil)) oldsIn_nil))) oldsIn_nil)

theorem optAnd_olds {fuel : Nat} {h : Heap Lab} {x : Nat} {b : Bud Lab} (hr : optAnd fuel h x = some (some b)) : b.OldsIn (h.Under x) := by
  unfold optAnd at hr
  simp only [Option.bind_eq_bind, Option.bind_eq_some_iff] at hr
  obtain ⟨l, hl, r, hr', hr⟩ := hr
  split at hr
  · simp only [Option.bind_eq_some_iff] at hr
    obtain ⟨p, hp, q, hq, sp, _, sq, _, hr⟩ := hr
    split at hr
    · exact joined_olds (Option.some.inj hr) ((under_kid hl).down (under_kid hp))
    · simp only [Option.some.injEq] at hr
      subst hr
      exact factored_olds ((under_kid hl).down (under_kid hp)) ((under_kid hr').down (under_kid hq))
  · simp only [Option.bind_eq_some_iff] at hr
    obtain ⟨p, hp, q, hq, sp, _, sq, _, hr⟩ := hr
    have u1 := (under_kid hl).down (under_kid hp)
    repeat' split at hr
    all_goals simp only [Option.some.injEq, reduceCtorEq] at hr
    all_goals (subst hr; olds_in)
  · simp only [Option.bind_eq_some_iff] at hr
    obtain ⟨p, hp, q, hq, r', hr1, s, hs, sp, _, sq, _, hr⟩ := hr
    have u1 := (under_kid hl).down (under_kid hp)
    have u2 := (under_kid hl).down (under_kid hq)
    have u3 := (under_kid hr').down (under_kid hr1)
    repeat' split at hr
    all_goals simp only [Option.some.injEq, reduceCtorEq] at hr
    all_goals (subst hr; olds_in)
  · cases hr

theorem optOr_olds {fuel : Nat} {h : Heap Lab} {x : Nat} {b : Bud Lab} (hr : optOr fuel h x = some (some b)) : b.OldsIn (h.Under x) := by
  unfold optOr at hr
  simp only [Option.bind_eq_bind, Option.bind_eq_some_iff] at hr
  obtain ⟨l, hl, r, hr', hr⟩ := hr
  split at hr
  · simp only [Option.bind_eq_some_iff] at hr
    obtain ⟨p, hp, q, hq, sp, _, sq, _, hr⟩ := hr
    split at hr
    · exact joined_olds (Option.some.inj hr) ((under_kid hl).down (under_kid hp))
    · simp only [Option.some.injEq] at hr
      subst hr
      exact factored_olds ((under_kid hl).down (under_kid hp)) ((under_kid hr').down (under_kid hq))
  · simp only [Option.bind_eq_some_iff] at hr
    obtain ⟨p, hp, q, hq, sp, _, sq, _, hr⟩ := hr
    have u1 := (under_kid hl).down (under_kid hp)
    repeat' split at hr
    all_goals simp only [Option.some.injEq, reduceCtorEq] at hr
    all_goals (subst hr; olds_in)
  · cases hr

theorem opt_olds {fuel : Nat} {h : Heap Lab} {x : Nat} {b : Bud Lab} (hr : optRule fuel h x = some (some b)) : b.OldsIn (h.Under x) := by
  unfold optRule at hr
  split at hr
  · exact optNeg_olds hr
  · exact optEqual_olds hr
  · exact optGlob_olds hr
  · exact optFut_olds hr
  · exact optAnd_olds hr
  · exact optOr_olds hr
  · cases hr

theorem opt_frame {fuel : Nat} {h : Heap Lab} {x : Nat} {b : Bud Lab} (hr : optRule fuel h x = some (some b)) : (h.lab x).frame = false := by
  unfold optRule at hr
  split at hr
  all_goals first | (rename_i hh; rw [hh]; rfl) | cases hr

theorem opt_plain {fuel : Nat} {h : Heap Lab} {x : Nat} {b : Bud Lab} (hr : optRule fuel h x = some (some b)) (hl : (h.lab x).logical = false)
    (hk : ∀ c ∈ h.kids x, (h.lab c).logical = false) : False := by
  unfold optRule at hr
  split at hr
  all_goals first | cases hr; done | skip
  all_goals first | (rename_i hh; rw [hh] at hl; cases hl; done) | skip
  unfold optEqual at hr
  simp only [Option.bind_eq_bind, Option.bind_eq_some_iff] at hr
  obtain ⟨l, h1, r, h2, hr⟩ := hr
  have k1 := hk l (List.mem_of_getElem? h1)
  have k2 := hk r (List.mem_of_getElem? h2)
  split at hr
  · cases hr
  · simp_all [Lab.logical]
  · simp_all [Lab.logical]
  · cases hr

theorem optNeg_read {P : Lab → Nat → Prop} {f : α → Ast} (hf : AtomsPlain P f) {h : Heap Lab} {x : Nat} {b : Bud Lab} {tr : Nat → Ast}
    {e : Expr α} (hd : ∀ z, h.Denotes z (tr z)) {a : Nat} (ha : h.kids x = [a]) (hx : tr a = e.toAst f) (hr : optNeg h x = some (some b)) :
    b.read tr = (Rewrite.negRule e).toAst f := by
  have hv := view hf hd hx
  unfold optNeg at hr
  simp only [kid_one ha, Option.bind_eq_bind, Option.bind_some] at hr
  cases e <;> simp only [View] at hv
  case atom a =>
    exfalso
    obtain ⟨h1, h2⟩ := hv
    split at hr <;> simp_all [Lab.logical]
  case const c =>
    rw [hv] at hr
    simp only [Option.some.injEq] at hr
    subst hr
    cases c <;> simp [Rewrite.negRule, read_cst, toAst]
  case neg e =>
    obtain ⟨h1, c, h2, h3⟩ := hv
    simp only [h1, kid_one h2, Option.bind_some, Option.some.injEq] at hr
    subst hr
    simp [Rewrite.negRule, read_old, h3]
  case glob lb ub e =>
    obtain ⟨h1, c, h2, h3⟩ := hv
    simp only [h1, kid_one h2, Option.bind_some] at hr
    have hv := view hf hd h3
    split at hr
    · rename_i hn
      cases e <;> simp only [View, hn, Lab.op.injEq, reduceCtorEq, false_and] at hv
      case atom => simp [Lab.logical] at hv
      obtain ⟨_, d, h4, h5⟩ := hv
      simp only [kid_one h4, Option.bind_some, Option.some.injEq] at hr
      subst hr
      simp [Rewrite.negRule, read_tmp, read_old, h5, toAst]
    · cases hr
  case fut lb ub e =>
    obtain ⟨h1, c, h2, h3⟩ := hv
    simp only [h1, kid_one h2, Option.bind_some] at hr
    have hv := view hf hd h3
    split at hr
    · rename_i hn
      cases e <;> simp only [View, hn, Lab.op.injEq, reduceCtorEq, false_and] at hv
      case atom => simp [Lab.logical] at hv
      obtain ⟨_, d, h4, h5⟩ := hv
      simp only [kid_one h4, Option.bind_some, Option.some.injEq] at hr
      subst hr
      simp [Rewrite.negRule, read_tmp, read_old, h5, toAst]
    · cases hr
  all_goals (simp [hv.1] at hr; done)

theorem optEqual_read {P : Lab → Nat → Prop} {f : α → Ast} (hf : AtomsPlain P f) {h : Heap Lab} {x : Nat} {b : Bud Lab} {tr : Nat → Ast}
    {e e' : Expr α} (hd : ∀ z, h.Denotes z (tr z)) {a a' : Nat} (ha : h.kids x = [a, a']) (hx : tr a = e.toAst f) (hx' : tr a' = e'.toAst f)
    (hr : optEqual h x = some (some b)) :
    b.read tr = (Rewrite.equalRule e e').toAst f := by
  have hv := view hf hd hx
  have hv' := view hf hd hx'
  unfold optEqual at hr
  simp only [kid_two ha, Option.bind_eq_bind, Option.bind_some] at hr
  have nl : ∀ {c : Nat} {e : Expr α}, View h tr f c e → (∀ b, e ≠ .const b) → ∀ v, h.lab c ≠ .lit v := by
    intro c e hv hc v hl
    cases e <;> simp_all [View]
  by_cases h1 : ∃ c, e = .const c
  · obtain ⟨c, rfl⟩ := h1
    simp only [View] at hv
    rw [hv] at hr
    by_cases h2 : ∃ c, e' = .const c
    · obtain ⟨c', rfl⟩ := h2
      simp only [View] at hv'
      rw [hv'] at hr
      cases hr
    · have := nl hv' fun c hc => h2 ⟨c, hc⟩
      split at hr <;> simp_all
      subst hr
      have : ∀ c, Rewrite.equalRule (.const c) e' = e' := by
        intro c
        cases e' <;> simp_all [Rewrite.equalRule]
      rw [this, read_old, hx']
  · have n1 := nl hv fun c hc => h1 ⟨c, hc⟩
    by_cases h2 : ∃ c, e' = .const c
    · obtain ⟨c', rfl⟩ := h2
      simp only [View] at hv'
      split at hr <;> simp_all
      subst hr
      have : ∀ c', Rewrite.equalRule e (.const c') = e := by
        intro c'
        cases e <;> simp_all [Rewrite.equalRule]
      rw [this, read_old, hx]
    · have n2 := nl hv' fun c hc => h2 ⟨c, hc⟩
      split at hr <;> simp_all

theorem optGlob_read {P : Lab → Nat → Prop} {f : α → Ast} (hf : AtomsPlain P f) {h : Heap Lab} {x : Nat} {b : Bud Lab} {tr : Nat → Ast}
    {e : Expr α} {lb ub : Nat} (hd : ∀ z, h.Denotes z (tr z)) {a : Nat} (ha : h.kids x = [a]) (hx : tr a = e.toAst f)
    (hr : optGlob lb ub h x = some (some b)) : b.read tr = (Rewrite.globRule lb ub e).toAst f := by
  have hv := view hf hd hx
  unfold optGlob at hr
  simp only [kid_one ha, Option.bind_eq_bind, Option.bind_some] at hr
  have hdf : (if lb = 0 ∧ ub = 0 then some (Bud.old a) else none) = some b →
      b.read tr = (if lb = 0 ∧ ub = 0 then e else .glob lb ub e).toAst f := by
    intro hr
    split at hr
    · simp only [Option.some.injEq] at hr
      subst hr
      rw [if_pos (by assumption), read_old, hx]
    · cases hr
  unfold Rewrite.globRule
  cases e <;> simp only [View] at hv
  case atom c =>
    split at hr
    · exact absurd (by assumption) (hv.2 _)
    · simp_all [Lab.logical]
    · simp_all [Lab.logical]
    · exact hdf (Option.some.inj hr)
  case const c =>
    rw [hv] at hr
    cases c
    · exact hdf (by simpa using hr)
    · simp only [if_true, Option.some.injEq] at hr
      subst hr
      simp [read_cst, toAst]
  case glob l u e =>
    obtain ⟨h1, c, h2, h3⟩ := hv
    simp only [h1, kid_one h2, Option.bind_some, Option.some.injEq] at hr
    subst hr
    simp [read_tmp, read_old, h3, toAst]
  case fut l u e =>
    obtain ⟨h1, c, h2, h3⟩ := hv
    simp only [h1, kid_one h2, Option.bind_some] at hr
    split at hr
    · simp only [Option.some.injEq] at hr
      subst hr
      simp [read_tmp, read_old, h3, toAst, *]
    · split at hr
      · simp only [Option.some.injEq] at hr
        subst hr
        simp [read_tmp, read_old, h3, toAst, *]
      · rename_i n1 n2
        have := hdf (Option.some.inj hr)
        simp only [n1, n2, if_false]
        exact this
  all_goals
    simp only [hv.1] at hr
    exact hdf (Option.some.inj hr)

theorem optFut_read {P : Lab → Nat → Prop} {f : α → Ast} (hf : AtomsPlain P f) {h : Heap Lab} {x : Nat} {b : Bud Lab} {tr : Nat → Ast}
    {e : Expr α} {lb ub : Nat} (hd : ∀ z, h.Denotes z (tr z)) {a : Nat} (ha : h.kids x = [a]) (hx : tr a = e.toAst f)
    (hr : optFut lb ub h x = some (some b)) : b.read tr = (Rewrite.futRule lb ub e).toAst f := by
  have hv := view hf hd hx
  unfold optFut at hr
  simp only [kid_one ha, Option.bind_eq_bind, Option.bind_some] at hr
  have hdf : (if lb = 0 ∧ ub = 0 then some (Bud.old a) else none) = some b →
      b.read tr = (if lb = 0 ∧ ub = 0 then e else .fut lb ub e).toAst f := by
    intro hr
    split at hr
    · simp only [Option.some.injEq] at hr
      subst hr
      rw [if_pos (by assumption), read_old, hx]
    · cases hr
  unfold Rewrite.futRule
  cases e <;> simp only [View] at hv
  case atom c =>
    split at hr
    · exact absurd (by assumption) (hv.2 _)
    · simp_all [Lab.logical]
    · simp_all [Lab.logical]
    · exact hdf (Option.some.inj hr)
  case const c =>
    rw [hv] at hr
    cases c
    · simp only [Lit.bool.injEq, Bool.false_eq_true, if_false, Option.some.injEq] at hr
      subst hr
      simp [read_cst, toAst]
    · exact hdf (by simpa using hr)
  case fut l u e =>
    obtain ⟨h1, c, h2, h3⟩ := hv
    simp only [h1, kid_one h2, Option.bind_some, Option.some.injEq] at hr
    subst hr
    simp [read_tmp, read_old, h3, toAst]
  case glob l u e =>
    obtain ⟨h1, c, h2, h3⟩ := hv
    simp only [h1, kid_one h2, Option.bind_some] at hr
    split at hr
    · simp only [Option.some.injEq] at hr
      subst hr
      simp [read_tmp, read_old, h3, toAst, *]
    · split at hr
      · simp only [Option.some.injEq] at hr
        subst hr
        simp [read_tmp, read_old, h3, toAst, *]
      · rename_i n1 n2
        have := hdf (Option.some.inj hr)
        simp only [n1, n2, if_false]
        exact this
  all_goals
    simp only [hv.1] at hr
    exact hdf (Option.some.inj hr)

theorem kids_split {f : α → Ast} {tr : Nat → Ast} {xs : List Nat} {cs : List (Expr α)} (h : xs.map tr = cs.map (toAst f))
    {l r : Nat} (h0 : xs[0]? = some l) (h1 : xs[1]? = some r) :
    ∃ c d ds, cs = c :: d :: ds ∧ tr l = c.toAst f ∧ tr r = d.toAst f := by
  match xs, cs, h, h0, h1 with
  | x :: y :: xs, c :: d :: ds, h, h0, h1 =>
    simp only [List.map_cons, List.cons.injEq] at h
    simp only [List.getElem?_cons_zero, List.getElem?_cons_succ, Option.some.injEq] at h0 h1
    subst h0 h1
    exact ⟨c, d, ds, rfl, h.1, h.2.1⟩
  | x :: y :: xs, [], h, _, _ | x :: y :: xs, [_], h, _, _ => simp at h
  | [], _, _, h0, _ => simp at h0
  | [_], _, _, _, h1 => simp at h1

theorem view_tmp1 {f : α → Ast} {h : Heap Lab} {tr : Nat → Ast} {x lb ub : Nat} {e : Expr α} (hv : View h tr f x e) :
    (h.lab x = .tmp .G lb ub → ∃ e' a, e = .glob lb ub e' ∧ h.kids x = [a] ∧ tr a = e'.toAst f) ∧
    (h.lab x = .tmp .F lb ub → ∃ e' a, e = .fut lb ub e' ∧ h.kids x = [a] ∧ tr a = e'.toAst f) ∧
    (h.lab x = .tmp .U lb ub → ∃ e' e'' a b, e = .untl lb ub e' e'' ∧ h.kids x = [a, b] ∧ tr a = e'.toAst f ∧ tr b = e''.toAst f) := by
  refine ⟨fun hl => ?_, fun hl => ?_, fun hl => ?_⟩ <;> cases e <;> simp only [View, hl] at hv
  all_goals first
    | (cases hv.1; done)
    | (cases hv; done)
    | (obtain ⟨h1, a, h2, h3⟩ := hv; cases h1; exact ⟨_, a, rfl, h2, h3⟩)
    | (obtain ⟨h1, a, b, h2, h3, h4⟩ := hv; cases h1; exact ⟨_, _, a, b, rfl, h2, h3, h4⟩)

theorem joined_read {tr : Nat → Ast} {f : α → Ast} {o : TmpK} {mk : Nat → Nat → Expr α → Expr α}
    (hmk : ∀ l u e, (mk l u e).toAst f = .node (.tmp o l u) [e.toAst f]) {p : Nat} {e dflt : Expr α} (hp : tr p = e.toAst f)
    {a b c d : Nat} {bd : Bud Lab} (hr : joined o a b c d p = some bd) :
    bd.read tr = (if a ≤ c ∧ b ≥ d then mk a b e else if c ≤ a ∧ d ≥ b then mk c d e
      else if a ≤ c ∧ c ≤ b + 1 then mk a (max b d) e else if c ≤ a ∧ a ≤ d + 1 then mk c (max b d) e else dflt).toAst f := by
  unfold joined at hr
  repeat' split at hr
  all_goals simp only [Option.some.injEq, reduceCtorEq] at hr
  all_goals
    subst hr
    first
    | rw [if_pos ‹a ≤ c ∧ b ≥ d›]
    | rw [if_neg ‹¬ (a ≤ c ∧ b ≥ d)›, if_pos ‹c ≤ a ∧ d ≥ b›]
    | rw [if_neg ‹¬ (a ≤ c ∧ b ≥ d)›, if_neg ‹¬ (c ≤ a ∧ d ≥ b)›, if_pos ‹a ≤ c ∧ c ≤ b + 1›]
    | rw [if_neg ‹¬ (a ≤ c ∧ b ≥ d)›, if_neg ‹¬ (c ≤ a ∧ d ≥ b)›, if_neg ‹¬ (a ≤ c ∧ c ≤ b + 1)›, if_pos ‹c ≤ a ∧ a ≤ d + 1›]
  all_goals simp only [read_tmp, hmk, List.map_cons, List.map_nil, read_old, hp]

theorem optAnd_read {P : Lab → Nat → Prop} {f : α → Ast} (hf : AtomsPlain P f) {fuel : Nat} {h : Heap Lab} {x : Nat} {b : Bud Lab}
    {tr : Nat → Ast} {cs : List (Expr α)} (hd : ∀ z, h.Denotes z (tr z)) (hx : (h.kids x).map tr = cs.map (toAst f))
    (hr : optAnd fuel h x = some (some b)) : ∃ e', Rewrite.andRule (str f) cs = some e' ∧ b.read tr = e'.toAst f := by
  unfold optAnd at hr
  simp only [Option.bind_eq_bind, Option.bind_eq_some_iff] at hr
  obtain ⟨l, hl, r, hr', hr⟩ := hr
  obtain ⟨c, d, ds, rfl, h1, h2⟩ := kids_split hx hl hr'
  have v1 := view hf hd h1
  have v2 := view hf hd h2
  split at hr
  · rename_i k1 k2
    obtain ⟨e1, a1, rfl, q1, t1⟩ := (view_tmp1 v1).1 k1
    obtain ⟨e2, a2, rfl, q2, t2⟩ := (view_tmp1 v2).1 k2
    simp only [kid_one q1, kid_one q2, Option.bind_some, Option.bind_eq_some_iff] at hr
    obtain ⟨sp, s1, sq, s2, hr⟩ := hr
    rw [text_read hd t1 s1, text_read hd t2 s2] at hr
    refine ⟨_, rfl, ?_⟩
    unfold Rewrite.andGlob
    split at hr
    · rw [if_pos (by assumption)]
      exact joined_read (fun l u e => by simp [toAst]) t1 (Option.some.inj hr)
    · rw [if_neg (by assumption)]
      simp only [Option.some.injEq] at hr
      subst hr
      simp [factored, read_tmp, Bud.read, Bud.readL_eq, toAst, toAstL_eq, t1, t2]
  · rename_i k1 k2
    obtain ⟨e1, a1, rfl, q1, t1⟩ := (view_tmp1 v1).2.1 k1
    obtain ⟨e2, a2, rfl, q2, t2⟩ := (view_tmp1 v2).2.1 k2
    simp only [kid_one q1, kid_one q2, Option.bind_some, Option.bind_eq_some_iff] at hr
    obtain ⟨sp, s1, sq, s2, hr⟩ := hr
    rw [text_read hd t1 s1, text_read hd t2 s2] at hr
    refine ⟨_, rfl, ?_⟩
    unfold Rewrite.andFut
    split at hr
    · rw [if_pos (by assumption)]
      repeat' split at hr
      all_goals simp only [Option.some.injEq, reduceCtorEq] at hr
      all_goals (subst hr; simp [*, read_tmp, toAst, read_old])
    · cases hr
  · rename_i k1 k2
    obtain ⟨e1, e1', a1, a1', rfl, q1, t1, t1'⟩ := (view_tmp1 v1).2.2 k1
    obtain ⟨e2, e2', a2, a2', rfl, q2, t2, t2'⟩ := (view_tmp1 v2).2.2 k2
    simp only [kid_two q1, kid_two q2, Option.bind_some, Option.bind_eq_some_iff] at hr
    obtain ⟨sp, s1, sq, s2, hr⟩ := hr
    rw [text_read hd t1' s1, text_read hd t2' s2] at hr
    refine ⟨_, rfl, ?_⟩
    unfold Rewrite.andUntl
    split at hr
    · rw [if_pos (by assumption)]
      simp only [Option.some.injEq, reduceCtorEq] at hr
      subst hr
      simp [read_tmp, read_and, toAst, toAstL_eq, read_old, t1, t2, t1']
    · cases hr
  · cases hr

theorem optOr_read {P : Lab → Nat → Prop} {f : α → Ast} (hf : AtomsPlain P f) {fuel : Nat} {h : Heap Lab} {x : Nat} {b : Bud Lab}
    {tr : Nat → Ast} {cs : List (Expr α)} (hd : ∀ z, h.Denotes z (tr z)) (hx : (h.kids x).map tr = cs.map (toAst f))
    (hr : optOr fuel h x = some (some b)) : ∃ e', Rewrite.orRule (str f) cs = some e' ∧ b.read tr = e'.toAst f := by
  unfold optOr at hr
  simp only [Option.bind_eq_bind, Option.bind_eq_some_iff] at hr
  obtain ⟨l, hl, r, hr', hr⟩ := hr
  obtain ⟨c, d, ds, rfl, h1, h2⟩ := kids_split hx hl hr'
  have v1 := view hf hd h1
  have v2 := view hf hd h2
  split at hr
  · rename_i k1 k2
    obtain ⟨e1, a1, rfl, q1, t1⟩ := (view_tmp1 v1).2.1 k1
    obtain ⟨e2, a2, rfl, q2, t2⟩ := (view_tmp1 v2).2.1 k2
    simp only [kid_one q1, kid_one q2, Option.bind_some, Option.bind_eq_some_iff] at hr
    obtain ⟨sp, s1, sq, s2, hr⟩ := hr
    rw [text_read hd t1 s1, text_read hd t2 s2] at hr
    refine ⟨_, rfl, ?_⟩
    unfold Rewrite.orFut
    split at hr
    · rw [if_pos (by assumption)]
      exact joined_read (fun l u e => by simp [toAst]) t1 (Option.some.inj hr)
    · rw [if_neg (by assumption)]
      simp only [Option.some.injEq] at hr
      subst hr
      simp [factored, read_tmp, Bud.read, Bud.readL_eq, toAst, toAstL_eq, t1, t2]
  · rename_i k1 k2
    obtain ⟨e1, a1, rfl, q1, t1⟩ := (view_tmp1 v1).1 k1
    obtain ⟨e2, a2, rfl, q2, t2⟩ := (view_tmp1 v2).1 k2
    simp only [kid_one q1, kid_one q2, Option.bind_some, Option.bind_eq_some_iff] at hr
    obtain ⟨sp, s1, sq, s2, hr⟩ := hr
    rw [text_read hd t1 s1, text_read hd t2 s2] at hr
    refine ⟨_, rfl, ?_⟩
    unfold Rewrite.orGlob
    split at hr
    · rw [if_pos (by assumption)]
      repeat' split at hr
      all_goals simp only [Option.some.injEq, reduceCtorEq] at hr
      all_goals (subst hr; simp [*, read_tmp, toAst, read_old])
    · cases hr
  · cases hr

theorem opt_read {P : Lab → Nat → Prop} {f : α → Ast} (hf : AtomsPlain P f) {fuel : Nat} {h : Heap Lab} {x : Nat} {b : Bud Lab}
    {tr : Nat → Ast} {e : Expr α} (hd : ∀ z, h.Denotes z (tr z)) (hx : tr x = e.toAst f) (hr : optRule fuel h x = some (some b))
    (hat : ∀ a, e ≠ .atom a) : ∃ e', Rewrite.optStep (str f) e = some e' ∧ b.read tr = e'.toAst f := by
  have hv := view hf hd hx
  unfold optRule at hr
  cases e <;> simp only [View] at hv
  case atom a => exact absurd rfl (hat a)
  case const c => rw [hv] at hr; cases hr
  case neg e =>
    obtain ⟨h1, a, h2, h3⟩ := hv
    rw [h1] at hr
    exact ⟨_, rfl, optNeg_read hf hd h2 h3 hr⟩
  case equal l r =>
    obtain ⟨h1, a, b, h2, h3, h4⟩ := hv
    rw [h1] at hr
    exact ⟨_, rfl, optEqual_read hf hd h2 h3 h4 hr⟩
  case glob lb ub e =>
    obtain ⟨h1, a, h2, h3⟩ := hv
    rw [h1] at hr
    exact ⟨_, rfl, optGlob_read hf hd h2 h3 hr⟩
  case fut lb ub e =>
    obtain ⟨h1, a, h2, h3⟩ := hv
    rw [h1] at hr
    exact ⟨_, rfl, optFut_read hf hd h2 h3 hr⟩
  case and cs =>
    rw [hv.1] at hr
    exact optAnd_read hf hd hv.2 hr
  case or cs =>
    rw [hv.1] at hr
    exact optOr_read hf hd hv.2 hr
  all_goals (rw [hv.1] at hr; cases hr; done)
end R2U2
