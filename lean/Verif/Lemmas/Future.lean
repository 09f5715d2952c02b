import Verif.Lemmas.Exec
/-
The invariant of the temporal engine on future-time programs.
-/
namespace R2U2
open Setup

/-- What the operands of an instruction look like when it is executed. -/
structure Exec (S : Setup) (tr : Nat → Nat → Bool) (V : Nat → Nat → Prop) (t : Nat)
    (late : Bool) (h : Nat → List Verdict) (m m' : Mon) (r : TlRec) (i : Nat) (c2 : Ctrl) (E : Effect)
    (x : Bool → Option Verdict) : Prop where
  same : SameQ (m.ctrl i) c2
  upd : m' = (m.upd i fun _ => c2).apply r E
  sound : Sound (V i) (if r.temporal then S.lb i else 0) (endOf (h i)) (x false) (x true) (m.ctrl i).next
    (ownOf V tr r (S.lb i) (S.ub i)) E
  rd : ∀ k, Rd (valOf V tr (r.arg k)) (m.ctrl i).next (opEnd h t (r.arg k)) (x k)
  soon : ∀ k u, x k = some u → (u.time : Int) + S.argB (r.arg k) ≤ t
  ptr : ∀ k c, r.arg k = some (.sub c) →
    Ptr (S.len c) (h c) (m.ctrl i).next (rdp r k c2) (fun T => (m.ctrl i).next ≤ T)
  hist : ∀ k c u, r.arg k = some (.sub c) → x k = some u → u ∈ h c
  const : ∀ k b u, r.arg k = some (.const b) → x k = some u → u.time = t
  atom : ∀ k a, r.arg k = some (.atom a) → r.opcode = some .load
  ret : r.opcode = some .ret → E.push = none
  report : r.opcode ≠ some .ret → E.report = none
  quiet : r.temporal = false → E.verdict = none → E.next = (m.ctrl i).next
  idle : (∀ k c, r.arg k = some (.sub c) → endOf (h c) ≤ (m.ctrl i).next) → (r.opcode = some .load → late = true) →
    E.verdict = none
  turn : ∀ v p, E.verdict = some v → r.temporal = false → r.opcode ≠ some .load → ¬ (V i p ↔ v.truth = true) →
    ∃ k u, x k = some u ∧ ¬ (valOf V tr (r.arg k) p ↔ u.truth = true)
  block : E.edge = c2.edge ∧ (E.prev = c2.prev ∨ ∃ v, E.push = some v ∧ E.prev = ⟨true, v.time⟩)
  ahead : r.temporal = true → ∀ v, E.verdict = some v → ∃ u, x true = some u ∧ v.time + S.lb i ≤ u.time ∧ v.truth = u.truth
  fresh : ∀ k a u, r.arg k = some (.atom a) → x k = some u → u.time = t

/-- An until or release does not go beyond what it read of its second operand. -/
theorem body_ahead {op : Option TlOp} {c : Ctrl} {a b : Option Verdict} {lb : Nat}
    (hop : op = some .until ∨ op = some .release) (hl : c.lb = lb) (hu : lb ≤ c.ub)
    (ha : ∀ u, a = some u → lb ≤ u.time) (hb : ∀ u, b = some u → lb ≤ u.time) {v : Verdict}
    (hv : (bodyOf op c a b).verdict = some v) : ∃ u, b = some u ∧ v.time + lb ≤ u.time ∧ v.truth = u.truth := by
  subst hl
  rcases hop with rfl | rfl
  all_goals
    simp only [bodyOf] at hv
    cases b with
    | none => simp [untilBody, releaseBody, Ctrl.keep, Effect.verdict] at hv
    | some b =>
        have hb := hb b rfl
        refine ⟨b, rfl, ?_⟩
        cases a with
        | none =>
            simp only [untilBody, releaseBody] at hv
            split_ifs at hv <;> simp [Ctrl.keep, Ctrl.emitPrev, Effect.verdict] at hv <;> subst hv <;> simp_all <;> omega
        | some a =>
            have ha := ha a rfl
            simp only [untilBody, releaseBody] at hv
            split_ifs at hv <;> simp [Ctrl.keep, Ctrl.emitPrev, Effect.verdict] at hv <;> subst hv <;> simp_all <;> omega

theorem exec_spec {S : Setup} {tr : Nat → Nat → Bool} {V : Nat → Nat → Prop} {t : Nat} {late : Bool} {m : Mon}
    {h : Nat → List Verdict} {r : TlRec} {i : Nat} (hr : Readable S tr t late m h) (hf : r.Future i)
    (hV : ∀ t, V i t ↔ r.holds (S.lb i) (S.ub i) tr V t)
    (hlu : r.temporal = true → S.lb i ≤ S.ub i) (hl : (m.ctrl i).lb = S.lb i) (hu : (m.ctrl i).ub = S.ub i)
    (ho : ownOf V tr r (S.lb i) (S.ub i) (m.ctrl i).next (m.ctrl i).prev (endOf (h i)))
    (hload : r.opcode = some .load → (late = true → (m.ctrl i).next = t + 1) ∧
      (late = false → (m.ctrl i).next ≤ t ∧ ∀ s, (m.ctrl i).next ≤ s → s ≤ t → tr s = tr t))
    (hsub : ∀ k c, r.arg k = some (.sub c) → Ring (m.ctrl c) (h c) ∧ Answers (V c) (h c) ∧
      (m.ctrl c).len = S.len c ∧ (∀ u ∈ h c, (u.time : Int) + S.B c ≤ t) ∧
      ∃ P, Ptr (S.len c) (h c) (m.ctrl i).next (rdp r k (m.ctrl i)) P)
    (hcon : ∀ k k' b c, r.arg k = some (.const b) → r.arg k' = some (.sub c) → 0 ≤ S.B c) :
    ∃ m' c2 E x, m.update r = some m' ∧ Exec S tr V t late h m m' r i c2 E x := by
  have hlb : r.temporal = true → (m.ctrl i).lb ≤ (m.ctrl i).next := by
    intro ht
    rw [hl]
    unfold TlRec.temporal at ht
    unfold ownOf at ho
    cases hop : r.opcode with
    | none => simp [hop] at ht
    | some o =>
        cases o <;> simp [hop] at ht <;> simp only [hop] at ho <;> exact Nat.le_trans (Nat.le_add_left _ _) ho.1
  obtain ⟨c2, x, s1, s2, s3, s4⟩ := exec_reads hr hf hlb (fun k c hc => by
    obtain ⟨g1, g2, g3, g4, g5⟩ := hsub k c hc
    exact ⟨g1, g2.sorted, g3, g5⟩)
  -- the constants that are left
  let n := (m.ctrl i).next
  let x' : Bool → Option Verdict := fun k =>
    match r.arg k with
    | some (.const _) => if n ≤ t then x k else none
    | _ => x k
  have hx' : ∀ k, x' k = x k ∨ ∃ b, r.arg k = some (.const b) ∧ x' k = none ∧ x k = some ⟨b, t⟩ ∧ t < n := by
    intro k
    have h3 := s3 k
    simp only [x']
    rcases ha : r.arg k with _ | b | a | c
    · exact Or.inl rfl
    · simp only []
      rw [ha] at h3
      by_cases hn : n ≤ t
      · rw [if_pos hn]; exact Or.inl rfl
      · rw [if_neg hn]
        exact Or.inr ⟨b, rfl, rfl, h3, by omega⟩
    · exact Or.inl rfl
    · exact Or.inl rfl
  have hnone : ∀ k c, r.arg k = some (.sub c) → endOf (h c) ≤ n → x k = none := by
    intro k c hc he
    have h3 := s3 k
    rw [hc] at h3
    rcases h3.2 with ⟨v, k', e1, e2, e3, _⟩ | ⟨e1, _⟩
    · have : n ≤ v.time := e2
      omega
    · exact e1
  have hend : ∀ k' b, r.arg k' = some (.const b) → ∀ k c, r.arg k = some (.sub c) → endOf (h c) ≤ t + 1 := by
    intro k' b hb k c hc
    have hB := hcon k' k b c hb hc
    obtain ⟨g1, g2, g3, g4, g5⟩ := hsub k c hc
    unfold endOf
    split
    · omega
    · rename_i v hv
      have := g4 v (List.mem_of_getLast? hv)
      omega
  have hbody := filter_body hf c2 x x' hx' (fun k' b hb ht k c hc => hnone k c hc (by have := hend k' b hb k c hc; omega))
  have hxc : ∀ k b u, r.arg k = some (.const b) → x' k = some u → u = ⟨b, t⟩ := by
    intro k b u hc hu
    have h3 := s3 k
    rw [hc] at h3
    simp only [x', hc] at hu
    split at hu
    · have h3 : x k = some ⟨b, t⟩ := h3
      rw [h3] at hu; cases hu; rfl
    · cases hu
  have hx'sub : ∀ k c, r.arg k = some (.sub c) → x' k = x k := by
    intro k c hc
    simp only [x', hc]
  have hatom : ∀ k a, r.arg k = some (.atom a) → r.opcode = some .load := by
    intro k a ha
    have hk := hf.2.2
    cases hop : r.opcode with
    | none => rw [hop] at hk; exact hk.elim
    | some o =>
    rw [hop] at hk
    cases o <;> simp only [] at hk <;> first
      | rfl
      | skip
    case ret => obtain ⟨y, hy⟩ := hk; rw [arg_unary (by simp [TlRec.binary, hop])] at ha; rw [hy] at ha; cases ha
    case not => obtain ⟨y, hy⟩ := hk; rw [arg_unary (by simp [TlRec.binary, hop])] at ha; rw [hy] at ha; cases ha
    case and => rcases hk.2 k with ⟨y, hy⟩ | hy <;> (rw [hy] at ha; cases ha)
    case or => rcases hk.2 k with ⟨y, hy⟩ | hy <;> (rw [hy] at ha; cases ha)
    case equiv => rcases hk.2 k with ⟨y, hy⟩ | ⟨y, hy⟩ <;> (rw [hy] at ha; cases ha)
    case «until» =>
        cases k with
        | true => rw [hk.1.choose_spec] at ha; cases ha
        | false => rcases hk.2 with ⟨y, hy⟩ | ⟨y, hy⟩ <;> (rw [hy] at ha; cases ha)
    case release =>
        cases k with
        | true => rw [hk.1.choose_spec] at ha; cases ha
        | false => rcases hk.2 with ⟨y, hy⟩ | ⟨y, hy⟩ <;> (rw [hy] at ha; cases ha)
  have hrd : ∀ k, Rd (valOf V tr (r.arg k)) n (opEnd h t (r.arg k)) (x' k) := by
    intro k
    have h3 := s3 k
    rcases ha : r.arg k with _ | b | a | c
    · exfalso
      have hk := hf.2.2
      cases hop : r.opcode with
      | none => rw [hop] at hk; exact hk
      | some o =>
      rw [hop] at hk
      cases o <;> simp only [] at hk
      case load => obtain ⟨y, hy⟩ := hk; rw [arg_unary (by simp [TlRec.binary, hop])] at ha; rw [hy] at ha; cases ha
      case ret => obtain ⟨y, hy⟩ := hk; rw [arg_unary (by simp [TlRec.binary, hop])] at ha; rw [hy] at ha; cases ha
      case not => obtain ⟨y, hy⟩ := hk; rw [arg_unary (by simp [TlRec.binary, hop])] at ha; rw [hy] at ha; cases ha
      case and => rcases hk.2 k with ⟨y, hy⟩ | hy <;> (rw [hy] at ha; cases ha)
      case or => rcases hk.2 k with ⟨y, hy⟩ | hy <;> (rw [hy] at ha; cases ha)
      case equiv => rcases hk.2 k with ⟨y, hy⟩ | ⟨y, hy⟩ <;> (rw [hy] at ha; cases ha)
      case «until» =>
          cases k with
          | true => rw [hk.1.choose_spec] at ha; cases ha
          | false => rcases hk.2 with ⟨y, hy⟩ | ⟨y, hy⟩ <;> (rw [hy] at ha; cases ha)
      case release =>
          cases k with
          | true => rw [hk.1.choose_spec] at ha; cases ha
          | false => rcases hk.2 with ⟨y, hy⟩ | ⟨y, hy⟩ <;> (rw [hy] at ha; cases ha)
    · rw [ha] at h3
      simp only [x', ha]
      by_cases hn : n ≤ t
      · rw [if_pos hn, h3]
        exact Or.inr ⟨_, rfl, hn, Nat.lt_succ_self _, fun s _ _ => by simp [valOf]⟩
      · rw [if_neg hn]
        exact Or.inl ⟨rfl, by simp only [opEnd]; omega⟩
    · rw [ha] at h3
      simp only [x', ha]
      -- only a load reads an atomic
      have hop := hatom k a ha
      obtain ⟨hn1, hn2⟩ := hload hop
      have h3 : x k = if late then none else some ⟨tr t a, t⟩ := h3
      rw [h3]
      cases late with
      | true => exact Or.inl ⟨rfl, by have : n = t + 1 := hn1 rfl; simp [opEnd, this]⟩
      | false =>
          obtain ⟨hn3, hn4⟩ := hn2 rfl
          refine Or.inr ⟨_, rfl, hn3, Nat.lt_succ_self _, ?_⟩
          intro s h1 h2
          show tr s a = true ↔ tr t a = true
          rw [hn4 s h1 h2]
    · rw [ha] at h3
      rw [hx'sub _ _ ha]
      obtain ⟨g1, g2, g3, g4, g5⟩ := hsub k c ha
      rcases h3.2 with ⟨v, k', e1, e2, e3, e4, e5⟩ | ⟨e1, e2⟩
      · refine Or.inr ⟨v, e1, e2, e3, fun s h1 h2 => ?_⟩
        refine g2.value k' v s e4 (fun j u hj hu => ?_) h2
        have := e5 j u hj hu
        have h1 : (m.ctrl i).next ≤ s := h1
        omega
      · exact Or.inl ⟨e1, e2⟩
  refine ⟨_, c2, bodyOf r.opcode c2 (x' false) (x' true), x', s2, s1, by rw [hbody], ?_, hrd, ?_, ?_, ?_,
    fun k b u hc hu => by rw [hxc k b u hc hu], hatom, ?_, ?_, ?_, ?_, ?_, body_block _ _ _, ?_, ?_⟩
  rotate_right
  · intro k a u ha hu
    have h3 := s3 k
    rw [ha] at h3
    simp only [x', ha] at hu
    have h3 : x k = if late then none else some ⟨tr t a, t⟩ := h3
    rw [h3] at hu
    split at hu
    · cases hu
    · cases hu; rfl
  · have hS := sound_body (e := endOf (h i)) (c := c2) hf hV (s1.lb.trans hl) (s1.ub.trans hu) hlu
      (by rw [s1.next]; exact hrd false) (by rw [s1.next]; exact hrd true) (fun hb => ?_)
      (by rw [s1.next, s1.prev]; exact ho)
    · rw [s1.next] at hS
      exact hS
    · simp only [x']
      rw [arg_unary hb true, s4 hb]
  · intro k u hu
    have h3 := s3 k
    rcases ha : r.arg k with _ | b | a | c
    · rw [ha] at h3
      simp only [x', ha] at hu
      have h3 : x k = none := h3
      rw [h3] at hu; cases hu
    · rw [hxc k b u ha hu]; simp [argB]
    · rw [ha] at h3
      simp only [x', ha] at hu
      have h3 : x k = if late then none else some ⟨tr t a, t⟩ := h3
      rw [h3] at hu
      split at hu
      · cases hu
      · cases hu; simp [argB]
    · rw [hx'sub _ _ ha] at hu
      rw [ha] at h3
      obtain ⟨g1, g2, g3, g4, g5⟩ := hsub k c ha
      rcases h3.2 with ⟨v, k', e1, e2, e3, e4, e5⟩ | ⟨e1, e2⟩
      · rw [e1] at hu; cases hu
        exact g4 _ (List.mem_of_getElem? e4)
      · rw [e1] at hu; cases hu
  · intro k c hc
    have h3 := s3 k
    rw [hc] at h3
    exact h3.1
  · intro k c u hc hu
    have h3 := s3 k
    rw [hc] at h3
    rw [hx'sub _ _ hc] at hu
    rcases h3.2 with ⟨v, k', e1, e2, e3, e4, e5⟩ | ⟨e1, e2⟩
    · rw [e1] at hu; cases hu
      exact List.mem_of_getElem? e4
    · rw [e1] at hu; cases hu
  · intro hop
    rw [hop]
    exact body_ret _ _ _
  · exact body_report _ _ _
  · intro ht hv
    rw [← s1.next]
    refine body_quiet _ _ _ ?_ ?_ hv <;> (intro hop; simp [TlRec.temporal, hop] at ht)
  · intro hs hl
    refine body_idle hf c2 x' (fun k c hc => ?_) hxc (fun hop => ?_)
    · rw [hx'sub _ _ hc]
      exact hnone k c hc (hs k c hc)
    · have hlate := hl hop
      have hk := hf.2.2
      rw [hop] at hk
      obtain ⟨a, ha⟩ := hk
      have h3 := s3 false
      rw [ha] at h3
      simp only [x', ha]
      have h3 : x false = if late then none else some ⟨tr t a, t⟩ := h3
      rw [h3, hlate]; rfl
  · intro v p hv ht hnl hne
    refine turn_body (ea := fun k => opEnd h t (r.arg k)) (c := c2) hf ht hnl (hV p) (fun k => by rw [s1.next]; exact hrd k) (fun hb => ?_) hv hne
    simp only [x']
    rw [arg_unary hb true, s4 hb]
  · intro ht v hv
    have h1 := hlb ht
    rw [hl] at h1
    have h2 := hlu ht
    have hn : ∀ k u, x' k = some u → S.lb i ≤ u.time := by
      intro k u hu
      rcases hrd k with ⟨h3, _⟩ | ⟨w, h3, h4, _⟩
      · rw [h3] at hu; cases hu
      · rw [h3] at hu; cases hu; exact Nat.le_trans h1 h4
    refine body_ahead (c := c2) ?_ ?_ ?_ (hn false) (hn true) hv
    · unfold TlRec.temporal at ht
      cases hop : r.opcode with
      | none => simp [hop] at ht
      | some o => cases o <;> simp [hop] at ht <;> simp
    · rw [s1.lb, hl]
    · rw [s1.ub, hu]; exact h2

end R2U2
