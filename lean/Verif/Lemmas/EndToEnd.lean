import Verif.Lemmas.Load
import Verif.Spec.EndToEnd
import Verif.Props.Assembly
/-
From a compiled graph to the setup of the monitor theorems.
-/
namespace R2U2
namespace BProg

/-- The node whose recorded delays bound those of `x`: a formula has none of its own. -/
def tgt (P : BProg) (x : Nat) : Nat :=
  match P.heap.lab x, P.heap.kids x with
  | .formula _, c :: _ => c
  | _, _ => x

def setupOf (P : BProg) (ahead turn lag : Nat → Int) (scq : Nat → Option (Int × Int)) (A : Assembly) (d : Dict TlInstr) : Setup where
  prog := (A.ft ++ A.pt).map TlInstr.asRec
  len := lenAt scq d
  lb := fun i => (P.heap.lab (nodeAt d i)).lo
  ub := fun i => (P.heap.lab (nodeAt d i)).hi
  B := fun i => ahead (P.tgt (nodeAt d i))
  C := fun i => turn (P.tgt (nodeAt d i))
  W := fun i => (lag (P.tgt (nodeAt d i))).toNat
  own := fun _ => True
  first := fun i => P.Steady ahead lag (nodeAt d i)

/-- The operand of the monitor's instruction for node `c`. -/
def argFor (P : BProg) (q : Nat → Nat) (c : Nat) : Arg :=
  match P.heap.lab c with
  | .bool b => .const b
  | _ => .sub (q c)

theorem argFor_varies {P : BProg} {q : Nat → Nat} {c : Nat} (h : P.Varies c) : P.argFor q c = .sub (q c) := by
  unfold argFor Varies at *
  cases hl : P.heap.lab c <;> rw [hl] at h <;> simp [BNode.isBoolConst] at h <;> rfl

theorem operandFor_varies {P : BProg} {q : Nat → Nat} {c : Nat} (h : P.Varies c) : P.operandFor q c = (.subformula, (q c : Int)) := by
  unfold operandFor Varies at *
  cases hl : P.heap.lab c <;> rw [hl] at h <;> simp [BNode.isBoolConst] at h <;> rfl

theorem arg_operandFor (P : BProg) (q : Nat → Nat) (c : Nat) :
    (match some (P.operandFor q c).1, (P.operandFor q c).2.toNat with
      | some .direct, v => some (Arg.const (decide (v ≠ 0)))
      | some .atomic, v => some (.atom v)
      | some .subformula, v => some (.sub v)
      | _, _ => none) = some (P.argFor q c) := by
  unfold operandFor argFor
  cases P.heap.lab c with
  | bool b => cases b <;> rfl
  | _ => rfl

/-- The instruction of a node with two operands. -/
def binRec (P : BProg) (q : Nat → Nat) (i : Nat) (o : TlOp) (c c' : Nat) : TlRec :=
  ⟨(P.operandFor q c).2.toNat, (P.operandFor q c').2.toNat, i, some (P.operandFor q c).1, some (P.operandFor q c').1, some o⟩

theorem binRec_arg {P : BProg} {q : Nat → Nat} {i : Nat} {o : TlOp} {c c' : Nat}
    (ho : o = .and ∨ o = .or ∨ o = .equiv ∨ o = .until ∨ o = .release ∨ o = .since ∨ o = .trigger) (k : Bool) :
    (P.binRec q i o c c').arg k = some (P.argFor q (if k then c' else c)) := by
  have hb : (P.binRec q i o c c').binary = true := by
    rcases ho with rfl | rfl | rfl | rfl | rfl | rfl | rfl <;> rfl
  unfold TlRec.arg
  rw [hb, Bool.and_true]
  cases k
  · exact arg_operandFor P q c
  · exact arg_operandFor P q c'

/-- What instruction `i` with record `r` does for node `x`. -/
inductive Form (P : BProg) (q : Nat → Nat) (x i : Nat) : TlRec → Prop
  | load (a : Nat) : P.atomicId x = some a → Form P q x i ⟨a, 0, i, some .atomic, some .none, some .load⟩
  | ret (c n : Nat) : P.engine x = .tl → P.heap.lab x = .formula n → P.heap.kids x = [c] → P.Varies c →
      Form P q x i ⟨q c, n, i, some .subformula, some .direct, some .ret⟩
  | not (c : Nat) (t : Bool) : P.engine x = .tl → P.heap.lab x = .op .neg t → P.heap.kids x = [c] → P.Varies c →
      Form P q x i ⟨q c, 0, i, some .subformula, some .none, some .not⟩
  | and (c c' : Nat) (t : Bool) : P.engine x = .tl → P.heap.lab x = .op .and t → P.heap.kids x = [c, c'] →
      (P.Varies c ∨ P.Varies c') → (∀ b ∈ [c, c'], P.heap.lab b ≠ .bool false) → Form P q x i (P.binRec q i .and c c')
  | or (c c' : Nat) (t : Bool) : P.engine x = .tl → P.heap.lab x = .op .or t → P.heap.kids x = [c, c'] →
      (P.Varies c ∨ P.Varies c') → (∀ b ∈ [c, c'], P.heap.lab b ≠ .bool true) → Form P q x i (P.binRec q i .or c c')
  | iff (c c' : Nat) (t : Bool) : P.engine x = .tl → P.heap.lab x = .op .iff t → P.heap.kids x = [c, c'] →
      (P.Varies c ∨ P.Varies c') → Form P q x i (P.binRec q i .equiv c c')
  | untl (c c' lb ub : Nat) : P.engine x = .tl → P.heap.lab x = .temp .U lb ub → P.heap.kids x = [c, c'] → lb ≤ ub →
      P.Varies c' → Form P q x i (P.binRec q i .until c c')
  | rel (c c' lb ub : Nat) : P.engine x = .tl → P.heap.lab x = .temp .R lb ub → P.heap.kids x = [c, c'] → lb ≤ ub →
      P.Varies c' → Form P q x i (P.binRec q i .release c c')
  | since (c c' lb ub : Nat) : P.engine x = .tl → P.heap.lab x = .temp .S lb ub → P.heap.kids x = [c, c'] → lb ≤ ub →
      P.heap.lab c = .bool true → P.Varies c' → Form P q x i (P.binRec q i .since c c')
  | trig (c c' lb ub : Nat) : P.engine x = .tl → P.heap.lab x = .temp .T lb ub → P.heap.kids x = [c, c'] → lb ≤ ub →
      P.heap.lab c = .bool false → P.Varies c' → Form P q x i (P.binRec q i .trigger c c')

variable {P : BProg} {scq : Nat → Option (Int × Int)} {A : Assembly} {q : Nat → Nat} {d : Dict TlInstr} {k : Int} {ahead turn lag : Nat → Int}

theorem NeedsTl.live {x : Nat} (h : P.NeedsTl P.ft x ∨ P.NeedsTl P.pt x) : P.Live x :=
  h.imp (·.1) (·.1)

theorem NeedsTl.kind {x : Nat} (h : P.NeedsTl P.ft x ∨ P.NeedsTl P.pt x) :
    P.atomicId x ≠ none ∨ (P.engine x = .tl ∧ (P.heap.lab x).isBoolConst = false) := by
  rcases h with h | h <;> exact h.2

theorem needs_of {x : Nat} (h : P.Live x) (hk : P.atomicId x ≠ none ∨ (P.engine x = .tl ∧ (P.heap.lab x).isBoolConst = false)) :
    P.NeedsTl P.ft x ∨ P.NeedsTl P.pt x := h.imp (⟨·, hk⟩) (⟨·, hk⟩)

theorem Live.kid {x c : Nat} (h : P.Live x) (hc : c ∈ P.heap.kids x) : P.Live c :=
  h.imp (.kid · hc) (.kid · hc)

theorem covered {x c : Nat} (hcov : P.Covered) (h : P.Live x) (he : P.engine x = .tl) (hc : c ∈ P.heap.kids x) :
    (P.heap.lab c).isBoolConst = true ∨ P.atomicId c ≠ none ∨ P.engine c = .tl := hcov x c h he hc

theorem Table.form (T : Table P scq A q d) (hr : P.Ready) (hm : P.Monitorable ahead turn lag k) {i : Nat} {r : TlRec}
    (h : ((A.ft ++ A.pt).map TlInstr.asRec)[i]? = some r) :
    (P.NeedsTl P.ft (nodeAt d i) ∨ P.NeedsTl P.pt (nodeAt d i)) ∧ q (nodeAt d i) = i ∧ Form P q (nodeAt d i) i r := by
  obtain ⟨e, h1, he, rfl, hid, hn⟩ := T.at h
  rw [hn]
  have hq := T.queue e he
  have hne := (T.needs e.1).1 (List.mem_map.2 ⟨e, he, rfl⟩)
  refine ⟨hne, hq.trans hid, ?_⟩
  have hmn : ∃ past, P.TlMeans past q e.1 e.2 := by
    rcases T.means e he with ⟨_, h⟩ | ⟨_, h⟩ <;> exact ⟨_, h⟩
  obtain ⟨past, hmn⟩ := hmn
  unfold TlMeans at hmn
  have hqi : q e.1 = i := hq.trans hid
  cases ha : P.atomicId e.1 with
  | some a =>
      rw [ha] at hmn
      simp only at hmn
      rw [hmn, hqi]
      exact .load a ha
  | none =>
      have hnc := (NeedsTl.kind hne).resolve_left (by simp [ha])
      have hsup := hm.supported e.1 (NeedsTl.live hne) hnc.1
      rw [ha] at hmn
      unfold Supported at hsup
      split at hsup
      · next hl => rw [hl] at hnc; simp [BNode.isBoolConst] at hnc
      · next n c hl hk =>
          rw [hl, hk] at hmn
          simp only at hmn
          rw [hmn, hqi]
          exact .ret c n hnc.1 hl hk hsup
      · next t c hl hk =>
          rw [hl, hk] at hmn
          simp only [tlOperator, Option.some.injEq] at hmn
          obtain ⟨o, rfl, hmn⟩ := hmn
          rw [hmn, hqi, operandFor_varies hsup]
          exact .not c t hnc.1 hl hk hsup
      all_goals first | exact False.elim hsup | skip
      all_goals
        next hl hk =>
          rw [hl, hk] at hmn
          simp only [tlOperator] at hmn
          obtain ⟨o, ho, hmn⟩ := hmn
          rw [hmn, hqi]
          cases past <;> simp only [Bool.false_eq_true, if_false, if_true, Option.some.injEq, reduceCtorEq] at ho <;> subst ho <;>
          first
          | exact .and _ _ _ hnc.1 hl hk hsup.1 hsup.2
          | exact .or _ _ _ hnc.1 hl hk hsup.1 hsup.2
          | exact .iff _ _ _ hnc.1 hl hk hsup
          | exact .untl _ _ _ _ hnc.1 hl hk hsup.1 hsup.2
          | exact .rel _ _ _ _ hnc.1 hl hk hsup.1 hsup.2
          | exact .since _ _ _ _ hnc.1 hl hk hsup.1 hsup.2.1 hsup.2.2
          | exact .trig _ _ _ _ hnc.1 hl hk hsup.1 hsup.2.1 hsup.2.2

/-- Operands of temporal nodes are in the table. -/
theorem Table.kid (T : Table P scq A q d) (hcov : P.Covered) {x c : Nat} (hx : P.Live x)
    (he : P.engine x = .tl) (hc : c ∈ P.heap.kids x) (hv : P.Varies c) :
    nodeAt d (q c) = c ∧ ∃ r, ((A.ft ++ A.pt).map TlInstr.asRec)[q c]? = some r := by
  have hn : P.NeedsTl P.ft c ∨ P.NeedsTl P.pt c := by
    refine needs_of (hx.kid hc) ?_
    rcases covered hcov hx he hc with h | h | h
    · rw [hv] at h; cases h
    · exact .inl h
    · exact .inr ⟨h, hv⟩
  obtain ⟨e, he, rfl⟩ := List.mem_map.1 ((T.needs c).2 hn)
  obtain ⟨i, hi⟩ := List.getElem?_of_mem he
  have h1 := ids_getElem T.ids hi
  have h2 := T.queue e he
  have h3 : q e.1 = i := by rw [h2]; simpa using h1
  rw [h3]
  refine ⟨nodeAt_some hi, e.2.asRec, ?_⟩
  rw [T.instrs, List.map_map, List.getElem?_map, hi]
  rfl

theorem form_args {x i : Nat} {r : TlRec} (h : Form P q x i r) :
    (∃ a, P.atomicId x = some a ∧ r.opcode = some .load ∧ ∀ b, r.arg b = some (.atom a)) ∨
    (P.engine x = .tl ∧ ((∃ c, P.heap.kids x = [c] ∧ P.Varies c ∧ ∀ b, r.arg b = some (.sub (q c))) ∨
      ∃ c c', P.heap.kids x = [c, c'] ∧ (∀ b, r.arg b = some (P.argFor q (if b then c' else c))))) := by
  cases h with
  | load a ha => exact .inl ⟨a, ha, rfl, fun b => by cases b <;> rfl⟩
  | ret c n he hl hk hv => exact .inr ⟨he, .inl ⟨c, hk, hv, fun b => by cases b <;> rfl⟩⟩
  | not c t he hl hk hv => exact .inr ⟨he, .inl ⟨c, hk, hv, fun b => by cases b <;> rfl⟩⟩
  | and c c' t he hl hk _ _ => exact .inr ⟨he, .inr ⟨c, c', hk, fun b => binRec_arg (by simp) b⟩⟩
  | or c c' t he hl hk _ _ => exact .inr ⟨he, .inr ⟨c, c', hk, fun b => binRec_arg (by simp) b⟩⟩
  | iff c c' t he hl hk _ => exact .inr ⟨he, .inr ⟨c, c', hk, fun b => binRec_arg (by simp) b⟩⟩
  | untl c c' lb ub he hl hk _ _ => exact .inr ⟨he, .inr ⟨c, c', hk, fun b => binRec_arg (by simp) b⟩⟩
  | rel c c' lb ub he hl hk _ _ => exact .inr ⟨he, .inr ⟨c, c', hk, fun b => binRec_arg (by simp) b⟩⟩
  | since c c' lb ub he hl hk _ _ _ => exact .inr ⟨he, .inr ⟨c, c', hk, fun b => binRec_arg (by simp) b⟩⟩
  | trig c c' lb ub he hl hk _ _ _ => exact .inr ⟨he, .inr ⟨c, c', hk, fun b => binRec_arg (by simp) b⟩⟩

/-- Every operand is that of a child, and every child is an operand. -/
theorem form_kids {x i : Nat} {r : TlRec} (h : Form P q x i r) (b : Bool) :
    (∃ a, P.atomicId x = some a ∧ r.arg b = some (.atom a)) ∨
    (P.engine x = .tl ∧ ∃ c ∈ P.heap.kids x, r.arg b = some (P.argFor q c)) := by
  rcases form_args h with ⟨a, h1, _, h2⟩ | ⟨he, ⟨c, hk, hv, h2⟩ | ⟨c, c', hk, h2⟩⟩
  · exact .inl ⟨a, h1, h2 b⟩
  · exact .inr ⟨he, c, by simp [hk], by rw [h2 b, argFor_varies hv]⟩
  · refine .inr ⟨he, _, ?_, h2 b⟩
    rw [hk]; cases b <;> simp

theorem argFor_sub {c j : Nat} (h : P.argFor q c = .sub j) : P.Varies c ∧ q c = j := by
  unfold argFor at h
  unfold Varies
  cases hl : P.heap.lab c <;> rw [hl] at h <;> simp only [Arg.sub.injEq] at h
  case bool b => cases h
  all_goals exact ⟨rfl, h⟩

theorem form_sub {x i j : Nat} {r : TlRec} (h : Form P q x i r) {b : Bool} (hb : r.arg b = some (.sub j)) :
    P.engine x = .tl ∧ ∃ c ∈ P.heap.kids x, P.Varies c ∧ q c = j := by
  rcases form_kids h b with ⟨a, _, h2⟩ | ⟨he, c, hc, h2⟩
  · rw [hb] at h2; cases h2
  · rw [hb] at h2
    obtain ⟨h3, h4⟩ := argFor_sub (Option.some.inj h2).symm
    exact ⟨he, c, hc, h3, h4⟩

/-- Conversely, every child that needs a queue is read. -/
theorem form_reads {x i c : Nat} {r : TlRec} (h : Form P q x i r) (he : P.engine x = .tl) (hat : P.atomicId x = none)
    (hc : c ∈ P.heap.kids x) (hv : P.Varies c) : ∃ b, r.arg b = some (.sub (q c)) := by
  rcases form_args h with ⟨a, h1, _, _⟩ | ⟨he, ⟨c', hk, hv', h2⟩ | ⟨c1, c2, hk, h2⟩⟩
  · rw [hat] at h1; cases h1
  · rw [hk] at hc; simp at hc; subst hc; exact ⟨false, h2 false⟩
  · rw [hk] at hc
    simp at hc
    rcases hc with rfl | rfl
    · exact ⟨false, by rw [h2 false]; simp [argFor_varies hv]⟩
    · exact ⟨true, by rw [h2 true]; simp [argFor_varies hv]⟩

theorem tgt_self {c : Nat} (h : (P.heap.lab c).isFormula = false) : P.tgt c = c := by
  unfold tgt
  cases hl : P.heap.lab c <;> rw [hl] at h <;> simp [BNode.isFormula] at h <;> rfl

theorem argFor_const {c : Nat} (h : ¬ P.Varies c) : ∃ b, P.argFor q c = .const b := by
  have hb : (P.heap.lab c).isBoolConst = true := by unfold Varies at h; simpa using h
  unfold argFor; cases hl : P.heap.lab c <;> rw [hl] at hb <;> simp [BNode.isBoolConst] at hb; exact ⟨_, rfl⟩

theorem Table.argB (T : Table P scq A q d) (hcov : P.Covered) (hm : P.Monitorable ahead turn lag k) {x c : Nat} (hx : P.Live x)
    (he : P.engine x = .tl) (hc : c ∈ P.heap.kids x) :
    ahead c ≤ (P.setupOf ahead turn lag scq A d).argB (some (P.argFor q c)) := by
  by_cases hv : P.Varies c
  · rw [argFor_varies hv]
    obtain ⟨h1, _⟩ := T.kid hcov hx he hc hv
    simp only [Setup.argB, setupOf, h1, tgt_self (hm.top x c hx he hc), Int.le_refl]
  · obtain ⟨b, hb⟩ := argFor_const (q := q) hv
    rw [hb]
    exact hm.leaf c (.inr (by unfold Varies at hv; simpa using hv))

theorem Table.argW (T : Table P scq A q d) (hcov : P.Covered) (hm : P.Monitorable ahead turn lag k) {x c : Nat} (hx : P.Live x)
    (he : P.engine x = .tl) (hc : c ∈ P.heap.kids x) :
    (P.setupOf ahead turn lag scq A d).argW (some (P.argFor q c)) = if (P.heap.lab c).isBoolConst then 0 else (lag c).toNat := by
  by_cases hv : P.Varies c
  · rw [argFor_varies hv]
    obtain ⟨h1, _⟩ := T.kid hcov hx he hc hv
    have ht : P.tgt c = c := by
      have := hm.top x c hx he hc
      unfold tgt
      cases hl : P.heap.lab c <;> rw [hl] at this <;> simp [BNode.isFormula] at this <;> rfl
    unfold Varies at hv
    rw [hv]
    simp only [Setup.argW, setupOf, h1, ht, Bool.false_eq_true, if_false]
  · have hb : (P.heap.lab c).isBoolConst = true := by unfold Varies at hv; simpa using hv
    have : ∃ b, P.argFor q c = .const b := by
      unfold argFor; cases hl : P.heap.lab c <;> rw [hl] at hb <;> simp [BNode.isBoolConst] at hb; exact ⟨_, rfl⟩
    obtain ⟨b, hb'⟩ := this
    rw [hb', hb]
    rfl

theorem form_mem {x i : Nat} {r : TlRec} (h : Form P q x i r) : r.mem = i := by cases h <;> rfl

theorem form_ret {x i : Nat} {r : TlRec} (h : Form P q x i r) (ho : r.opcode = some .ret) :
    P.engine x = .tl ∧ ∃ c, P.heap.lab x = .formula r.v2 ∧ P.heap.kids x = [c] ∧ P.Varies c ∧ r = ⟨q c, r.v2, i, some .subformula, some .direct, some .ret⟩ := by
  cases h <;> simp [binRec] at ho
  case ret c n he hl hk hv => exact ⟨he, c, hl, hk, hv, rfl⟩

theorem form_temporal {x i : Nat} {r : TlRec} (h : Form P q x i r) (ht : r.temporal = true ∨ r.past = true) :
    (P.heap.lab x).lo ≤ (P.heap.lab x).hi ∧ ∃ o lb ub, P.heap.lab x = .temp o lb ub := by
  cases h <;> simp [binRec, TlRec.temporal, TlRec.past] at ht
  case untl c c' lb ub he hl hk hlu hv => rw [hl]; exact ⟨hlu, _, _, _, rfl⟩
  case rel c c' lb ub he hl hk hlu hv => rw [hl]; exact ⟨hlu, _, _, _, rfl⟩
  case since c c' lb ub he hl hk hlu _ hv => rw [hl]; exact ⟨hlu, _, _, _, rfl⟩
  case trig c c' lb ub he hl hk hlu _ hv => rw [hl]; exact ⟨hlu, _, _, _, rfl⟩

theorem form_interval {x i : Nat} {r : TlRec} (h : Form P q x i r) (he : P.engine x = .tl) (hat : P.atomicId x = none) :
    ((if r.temporal then (P.heap.lab x).lo else 0 : Nat) : Int) - ((if r.past then (P.heap.lab x).hi else 0 : Nat) : Int) = P.soonBy x ∧
    ((if r.temporal then (P.heap.lab x).hi else 0 : Nat) : Int) - ((if r.past then (P.heap.lab x).lo else 0 : Nat) : Int) = P.lateBy x ∧
    (r.past = true ↔ P.Past x) := by
  unfold soonBy lateBy Past
  cases h
  case load a ha => rw [hat] at ha; cases ha
  all_goals simp [*, binRec, TlRec.temporal, TlRec.past, BNode.lo, BNode.hi]

theorem form_load {x i : Nat} {r : TlRec} (h : Form P q x i r) (ho : r.opcode = some .load) : ∃ a, P.atomicId x = some a := by
  cases h <;> simp [binRec] at ho
  case load a ha => exact ⟨a, ha⟩

theorem form_past {x i : Nat} {r : TlRec} (h : Form P q x i r) (hp : r.past = true) :
    ∃ c c' lb ub, (P.heap.lab x = .temp .S lb ub ∨ P.heap.lab x = .temp .T lb ub) ∧ P.heap.kids x = [c, c'] ∧
      ¬ P.Varies c ∧ P.Varies c' ∧ r.arg true = some (.sub (q c')) := by
  cases h <;> simp [binRec, TlRec.past] at hp
  case since c c' lb ub he hl hk hlu hb hv =>
    exact ⟨c, c', lb, ub, .inl hl, hk, by simp [Varies, hb, BNode.isBoolConst], hv, by rw [binRec_arg (by simp)]; simp [argFor_varies hv]⟩
  case trig c c' lb ub he hl hk hlu hb hv =>
    exact ⟨c, c', lb, ub, .inr hl, hk, by simp [Varies, hb, BNode.isBoolConst], hv, by rw [binRec_arg (by simp)]; simp [argFor_varies hv]⟩

theorem form_formula {x i n : Nat} {r : TlRec} (h : Form P q x i r) (hat : P.atomicId x = none) (hl : P.heap.lab x = .formula n) :
    ∃ c, P.heap.kids x = [c] ∧ P.tgt x = c ∧ r = ⟨q c, n, i, some .subformula, some .direct, some .ret⟩ := by
  cases h
  case load a ha => rw [hat] at ha; cases ha
  case ret c n' he hl' hk hv =>
    rw [hl] at hl'; cases hl'
    exact ⟨c, hk, by simp [tgt, hl, hk], rfl⟩
  all_goals simp_all

/-- Operands are computed by earlier instructions. -/
theorem Table.before (T : Table P scq A q d)
    (hreads : ∀ pre i post, A.ft ++ A.pt = pre ++ i :: post → ∀ r ∈ i.reads, ∃ j ∈ pre, (j.id : Int) = r)
    {i j : Nat} {r : TlRec} (h : ((A.ft ++ A.pt).map TlInstr.asRec)[i]? = some r) {b : Bool} (hb : r.arg b = some (.sub j)) : j < i := by
  rw [List.getElem?_map, Option.map_eq_some_iff] at h
  obtain ⟨t, ht, rfl⟩ := h
  have hi := (List.getElem?_eq_some_iff.1 ht).1
  have hs : A.ft ++ A.pt = (A.ft ++ A.pt).take i ++ t :: (A.ft ++ A.pt).drop (i + 1) := by
    have h1 := (List.take_append_drop i (A.ft ++ A.pt)).symm
    rw [List.drop_eq_getElem_cons hi] at h1
    rw [(List.getElem?_eq_some_iff.1 ht).2] at h1
    exact h1
  have hv : ∃ v : Int, v ∈ t.reads ∧ v.toNat = j := by
    unfold TlRec.arg at hb
    by_cases hc : (b && t.asRec.binary) = true
    · rw [if_pos hc, if_pos hc] at hb
      cases h2 : t.t2 <;> simp [TlInstr.asRec, h2] at hb
      exact ⟨t.v2, by simp [TlInstr.reads, h2], hb⟩
    · rw [if_neg hc, if_neg hc] at hb
      cases h2 : t.t1 <;> simp [TlInstr.asRec, h2] at hb
      exact ⟨t.v1, by simp [TlInstr.reads, h2], hb⟩
  obtain ⟨v, hv, rfl⟩ := hv
  obtain ⟨u, hu, hu2⟩ := hreads _ t _ hs v hv
  obtain ⟨m, hm⟩ := List.getElem?_of_mem hu
  have hmlt := (List.getElem?_eq_some_iff.1 hm).1
  have hmi : m < i := by rw [List.length_take] at hmlt; omega
  rw [List.getElem?_take, if_pos hmi, T.instrs, List.getElem?_map, Option.map_eq_some_iff] at hm
  obtain ⟨e, he, rfl⟩ := hm
  have := ids_getElem T.ids he
  omega

theorem atom_not_tl (hr : P.Ready) {x : Nat} (h : P.engine x = .tl) : P.atomicId x = none := by
  cases ha : P.atomicId x with
  | none => rfl
  | some a => exact absurd h (hr.atoms_tl x (by simp [ha]))

theorem mem_operands {x c : Nat} (hc : c ∈ P.heap.kids x) (hv : P.Varies c) : c ∈ P.operands x := by
  unfold operands
  rw [List.mem_filter]
  refine ⟨hc, ?_⟩
  unfold Varies at hv
  rw [hv]; rfl

theorem setup_ok (T : Table P scq A q d) (hr : P.Ready) (hcov : P.Covered) (hk : 0 ≤ k)
    (hm : P.Monitorable ahead turn lag k) (tb : ∀ (i : Nat) (r : TlRec), ((A.ft ++ A.pt).map TlInstr.asRec)[i]? = some r → r.mem = i)
    (hreads : ∀ pre i post, A.ft ++ A.pt = pre ++ i :: post → ∀ r ∈ i.reads, ∃ j ∈ pre, (j.id : Int) = r)
    (hlen : ∀ x, P.NeedsTl P.ft x ∨ P.NeedsTl P.pt x → ∃ n, P.scqSize k x = some n ∧ queueLen scq x = n ∧ 1 ≤ n) :
    (P.setupOf ahead turn lag scq A d).Ok := by
  -- what is known of an operand
  have hop : ∀ (i : Nat) (r : TlRec), ((A.ft ++ A.pt).map TlInstr.asRec)[i]? = some r → ∀ b j, r.arg b = some (.sub j) →
      P.engine (nodeAt d i) = .tl ∧ P.Live (nodeAt d i) ∧ Form P q (nodeAt d i) i r ∧
      ∃ c ∈ P.heap.kids (nodeAt d i), P.Varies c ∧ q c = j ∧ nodeAt d j = c ∧
        ∃ s, ((A.ft ++ A.pt).map TlInstr.asRec)[j]? = some s := by
    intro i r hi b j hb
    obtain ⟨h1, _, h3⟩ := T.form hr hm hi
    obtain ⟨he, c, hc, hv, rfl⟩ := form_sub h3 hb
    obtain ⟨h4, h5⟩ := T.kid hcov (NeedsTl.live h1) he hc hv
    exact ⟨he, NeedsTl.live h1, h3, c, hc, hv, rfl, h4, h5⟩
  have hBL : ∀ x c, P.Live x → P.engine x = .tl → c ∈ P.heap.kids x → P.Varies c →
      (P.setupOf ahead turn lag scq A d).B (q c) = ahead c ∧
      (P.setupOf ahead turn lag scq A d).C (q c) = turn c ∧
      P.slots k c + 1 = ((P.setupOf ahead turn lag scq A d).len (q c) : Int) := by
    intro x c hx he hc hv
    obtain ⟨h1, r, h2⟩ := T.kid hcov hx he hc hv
    have hform := hm.top x c hx he hc
    have ht : P.tgt c = c := tgt_self hform
    obtain ⟨f1, _, _⟩ := T.form hr hm h2
    rw [h1] at f1
    obtain ⟨n, h4, h5, h6⟩ := hlen c f1
    have hn : n = max (P.maxWpd c - P.bpd c) 0 + 1 + k := by
      unfold scqSize at h4
      rw [hform] at h4
      simp only [Bool.false_eq_true, if_false] at h4
      split at h4
      · cases h4
      · rw [show (P.heap.lab c).isBoolConst = false from hv] at h4
        simp only [Bool.false_eq_true, if_false, Option.some.injEq] at h4
        exact h4.symm
    have hlt : q c < d.length := by
      have := (List.getElem?_eq_some_iff.1 h2).1
      rw [List.length_map, T.length] at this
      exact this
    have hL : (P.setupOf ahead turn lag scq A d).len (q c) = n.toNat := by
      simp only [setupOf, lenAt, if_pos hlt, h1, h5]
    refine ⟨by simp only [setupOf, h1, ht], by simp only [setupOf, h1, ht], ?_⟩
    rw [hL]
    unfold slots
    omega
  have hW : ∀ x c, P.Live x → P.engine x = .tl → c ∈ P.heap.kids x →
      (P.setupOf ahead turn lag scq A d).argW (some (P.argFor q c)) ≤ (lag c).toNat ∧
      (¬ P.Varies c → (P.setupOf ahead turn lag scq A d).argW (some (P.argFor q c)) = 0) := by
    intro x c hx he hc
    rw [T.argW hcov hm hx he hc]
    unfold Varies
    constructor
    · split <;> omega
    · intro h; rw [if_pos (by simpa using h)]
  refine ⟨?_, ?_, tb, ?_, ?_, ?_, ?_, ?_, ?_, ?_, ?_, ?_, ?_⟩
  · -- handled
    intro i r hi _
    obtain ⟨h1, _, h3⟩ := T.form hr hm hi
    have hbef : ∀ b j, r.arg b = some (.sub j) → j < i := fun b j hb => T.before hreads hi hb
    have hcase : ∀ c, (∃ j, P.argFor q c = .sub j) ∨ ∃ b, P.heap.lab c = .bool b ∧ P.argFor q c = .const b := by
      intro c
      unfold argFor
      cases hl : P.heap.lab c <;> simp
    cases h3 with
    | load a ha => exact .inl ⟨tb i _ hi, hbef, a, rfl⟩
    | ret c n he hl hk hv => exact .inl ⟨tb i _ hi, hbef, _, rfl⟩
    | not c t he hl hk hv => exact .inl ⟨tb i _ hi, hbef, _, rfl⟩
    | and c c' t he hl hk hv hb =>
        refine .inl ⟨tb i _ hi, hbef, ?_, fun b => ?_⟩
        · rcases hv with hv | hv
          · exact ⟨false, q c, by rw [binRec_arg (by simp)]; simp [argFor_varies hv]⟩
          · exact ⟨true, q c', by rw [binRec_arg (by simp)]; simp [argFor_varies hv]⟩
        · rw [binRec_arg (by simp)]
          rcases hcase (if b then c' else c) with ⟨j, h⟩ | ⟨v, h, h'⟩
          · exact .inl ⟨j, by rw [h]⟩
          · right
            have := hb (if b then c' else c) (by cases b <;> simp)
            rw [h] at this
            cases v with
            | false => exact absurd rfl this
            | true => rw [h']
    | or c c' t he hl hk hv hb =>
        refine .inl ⟨tb i _ hi, hbef, ?_, fun b => ?_⟩
        · rcases hv with hv | hv
          · exact ⟨false, q c, by rw [binRec_arg (by simp)]; simp [argFor_varies hv]⟩
          · exact ⟨true, q c', by rw [binRec_arg (by simp)]; simp [argFor_varies hv]⟩
        · rw [binRec_arg (by simp)]
          rcases hcase (if b then c' else c) with ⟨j, h⟩ | ⟨v, h, h'⟩
          · exact .inl ⟨j, by rw [h]⟩
          · right
            have := hb (if b then c' else c) (by cases b <;> simp)
            rw [h] at this
            cases v with
            | true => exact absurd rfl this
            | false => rw [h']
    | iff c c' t he hl hk hv =>
        refine .inl ⟨tb i _ hi, hbef, ?_, fun b => ?_⟩
        · rcases hv with hv | hv
          · exact ⟨false, q c, by rw [binRec_arg (by simp)]; simp [argFor_varies hv]⟩
          · exact ⟨true, q c', by rw [binRec_arg (by simp)]; simp [argFor_varies hv]⟩
        · rw [binRec_arg (by simp)]
          rcases hcase (if b then c' else c) with ⟨j, h⟩ | ⟨v, h, h'⟩
          · exact .inl ⟨j, by rw [h]⟩
          · exact .inr ⟨v, by rw [h']⟩
    | untl c c' lb ub he hl hk hlu hv =>
        refine .inl ⟨tb i _ hi, hbef, ⟨q c', by rw [binRec_arg (by simp)]; simp [argFor_varies hv]⟩, ?_⟩
        rw [binRec_arg (by simp)]
        rcases hcase c with ⟨j, h⟩ | ⟨v, h, h'⟩
        · exact .inl ⟨j, by simp [h]⟩
        · exact .inr ⟨v, by simp [h']⟩
    | rel c c' lb ub he hl hk hlu hv =>
        refine .inl ⟨tb i _ hi, hbef, ⟨q c', by rw [binRec_arg (by simp)]; simp [argFor_varies hv]⟩, ?_⟩
        rw [binRec_arg (by simp)]
        rcases hcase c with ⟨j, h⟩ | ⟨v, h, h'⟩
        · exact .inl ⟨j, by simp [h]⟩
        · exact .inr ⟨v, by simp [h']⟩
    | since c c' lb ub he hl hk hlu hc hv =>
        refine .inr ⟨tb i _ hi, hbef, ⟨q c', by rw [binRec_arg (by simp)]; simp [argFor_varies hv]⟩, ?_⟩
        show TlRec.arg _ false = _
        rw [binRec_arg (by simp)]; simp [argFor, hc]
    | trig c c' lb ub he hl hk hlu hc hv =>
        refine .inr ⟨tb i _ hi, hbef, ⟨q c', by rw [binRec_arg (by simp)]; simp [argFor_varies hv]⟩, ?_⟩
        show TlRec.arg _ false = _
        rw [binRec_arg (by simp)]; simp [argFor, hc]
  · intro _ _ _ _ _ _ _; trivial
  · -- number
    intro i j r s hi hj _ ho ho' hv
    obtain ⟨h1, q1, h3⟩ := T.form hr hm hi
    obtain ⟨g1, q2, g3⟩ := T.form hr hm hj
    obtain ⟨_, c, hl, _, _, _⟩ := form_ret h3 ho
    obtain ⟨_, c', hl', _, _, _⟩ := form_ret g3 ho'
    rw [← hv] at hl'
    have := hm.numbers _ _ _ (NeedsTl.live h1) (NeedsTl.live g1) hl hl'
    rw [← q1, ← q2, this]
  · -- noRet
    intro i j r s b hi _ hb hj ho
    obtain ⟨he, hx, _, c, hc, hv, _, hn, _⟩ := hop i r hi b j hb
    obtain ⟨_, _, g3⟩ := T.form hr hm hj
    obtain ⟨_, c', hl, _⟩ := form_ret g3 ho
    have := hm.top _ c hx he hc
    rw [← hn, hl] at this
    simp [BNode.isFormula] at this
  · -- pos
    intro i _
    show 0 < lenAt scq d i
    unfold lenAt
    split
    · rename_i h
      have he : d[i]? = some d[i] := List.getElem?_eq_getElem h
      rw [nodeAt_some he]
      obtain ⟨n, _, h5, h6⟩ := hlen d[i].1 ((T.needs _).1 (List.mem_map.2 ⟨_, List.getElem_mem h, rfl⟩))
      omega
    · omega
  · intro i r hi _ ht
    obtain ⟨_, _, h3⟩ := T.form hr hm hi
    exact (form_temporal h3 ht).1
  · -- soon
    intro i r hi _ b
    obtain ⟨h1, _, h3⟩ := T.form hr hm hi
    rcases form_kids h3 b with ⟨a, ha, hb⟩ | ⟨he, c, hc, hb⟩
    · have hnt : P.engine (nodeAt d i) ≠ .tl := hr.atoms_tl _ (by simp [ha])
      have ht : P.tgt (nodeAt d i) = nodeAt d i := by
        unfold tgt
        cases hl : P.heap.lab (nodeAt d i) <;> try rfl
        simp [engine, hl, BNode.engine] at hnt
      have := hm.leaf (nodeAt d i) (.inl (by simp [ha]))
      have hop : r.temporal = false ∧ r.past = false := by
        rcases form_args h3 with ⟨_, _, ho, _⟩ | ⟨he, _⟩
        · simp [TlRec.temporal, TlRec.past, ho]
        · exact absurd he hnt
      rw [hb, hop.1, hop.2]
      show ahead (P.tgt (nodeAt d i)) ≤ _
      rw [ht]
      simpa [Setup.argB] using this
    · rw [hb]
      have hB := T.argB hcov hm (NeedsTl.live h1) he hc
      have hat := atom_not_tl hr he
      obtain ⟨i1, _, _⟩ := form_interval h3 he hat
      show ahead (P.tgt (nodeAt d i)) ≤ _ + ((if r.temporal then (P.heap.lab (nodeAt d i)).lo else 0 : Nat) : Int) -
        ((if r.past then (P.heap.lab (nodeAt d i)).hi else 0 : Nat) : Int)
      by_cases hf : (P.heap.lab (nodeAt d i)).isFormula = true
      · obtain ⟨n, hl⟩ : ∃ n, P.heap.lab (nodeAt d i) = .formula n := by
          cases hl : P.heap.lab (nodeAt d i) <;> rw [hl] at hf <;> simp [BNode.isFormula] at hf; exact ⟨_, rfl⟩
        obtain ⟨c', hk', ht, _⟩ := form_formula h3 hat hl
        rw [hk'] at hc
        simp at hc
        subst hc
        have i2 : P.soonBy (nodeAt d i) = 0 := by unfold soonBy; rw [hl]
        rw [ht]
        omega
      · have := hm.soon _ c (NeedsTl.live h1) he (by simpa using hf) hc
        rw [tgt_self (by simpa using hf)]
        omega
  · -- late
    intro i r hi _ b
    obtain ⟨h1, _, h3⟩ := T.form hr hm hi
    rcases form_kids h3 b with ⟨a, ha, hb⟩ | ⟨he, c, hc, hb⟩
    · rw [hb]
      have hop : r.temporal = false ∧ r.past = false := by
        rcases form_args h3 with ⟨_, _, ho, _⟩ | ⟨he, _⟩
        · simp [TlRec.temporal, TlRec.past, ho]
        · rw [atom_not_tl hr he] at ha; cases ha
      rw [hop.1, hop.2]
      simp [Setup.argW]
    · rw [hb]
      obtain ⟨w1, w2⟩ := hW _ c (NeedsTl.live h1) he hc
      have hat := atom_not_tl hr he
      obtain ⟨_, i1, _⟩ := form_interval h3 he hat
      show _ + (if r.temporal then (P.heap.lab (nodeAt d i)).hi else 0) ≤ (lag (P.tgt (nodeAt d i))).toNat +
        (if r.past then (P.heap.lab (nodeAt d i)).lo else 0)
      by_cases hf : (P.heap.lab (nodeAt d i)).isFormula = true
      · obtain ⟨n, hl⟩ : ∃ n, P.heap.lab (nodeAt d i) = .formula n := by
          cases hl : P.heap.lab (nodeAt d i) <;> rw [hl] at hf <;> simp [BNode.isFormula] at hf; exact ⟨_, rfl⟩
        obtain ⟨c', hk', ht, _⟩ := form_formula h3 hat hl
        rw [hk'] at hc
        simp at hc
        subst hc
        have i2 : P.lateBy (nodeAt d i) = 0 := by unfold lateBy; rw [hl]
        rw [ht]
        omega
      · have := hm.late _ c (NeedsTl.live h1) he (by simpa using hf) hc
        rw [tgt_self (by simpa using hf)]
        omega
  · -- calm
    intro i r hi _
    obtain ⟨h1, _, h3⟩ := T.form hr hm hi
    have hx := NeedsTl.live h1
    have hC : ∀ b j, r.arg b = some (.sub j) → ∃ c ∈ P.operands (nodeAt d i),
        (P.setupOf ahead turn lag scq A d).B j = ahead c ∧ (P.setupOf ahead turn lag scq A d).C j = turn c ∧ q c = j := by
      intro b j hb
      obtain ⟨he, _, _, c, hc, hv, rfl, _⟩ := hop i r hi b j hb
      exact ⟨c, mem_operands hc hv, (hBL _ c hx he hc hv).1, (hBL _ c hx he hc hv).2.1, rfl⟩
    by_cases hf : (P.heap.lab (nodeAt d i)).isFormula = true
    · obtain ⟨n, hl⟩ : ∃ n, P.heap.lab (nodeAt d i) = .formula n := by
        cases hl : P.heap.lab (nodeAt d i) <;> rw [hl] at hf <;> simp [BNode.isFormula] at hf; exact ⟨_, rfl⟩
      have he : P.engine (nodeAt d i) = .tl := by simp [engine, hl, BNode.engine]
      obtain ⟨c', hk', ht, hr'⟩ := form_formula h3 (atom_not_tl hr he) hl
      right; left
      refine ⟨by rw [hr']; rfl, by rw [hr']; rfl, by rw [hr']; simp, fun b j hb => ?_⟩
      obtain ⟨c, hc, _, h2, _⟩ := hC b j hb
      have hc' : c = c' := by
        unfold operands at hc
        have := (List.mem_filter.1 hc).1
        rw [hk'] at this
        simpa using this
      rw [h2, hc']
      show turn (P.tgt (nodeAt d i)) ≤ _
      rw [ht]
    · have ht := tgt_self (P := P) (c := nodeAt d i) (by simpa using hf)
      have hCi : (P.setupOf ahead turn lag scq A d).C i = turn (nodeAt d i) := by simp only [setupOf, ht]
      have hBi : (P.setupOf ahead turn lag scq A d).B i = ahead (nodeAt d i) := by simp only [setupOf, ht]
      rcases hm.calm _ hx with h | ⟨he, hno, h⟩ | ⟨lb, ub, hl, h⟩
      · left; rw [hCi, hBi]; exact h
      · right; left
        have hnt : r.temporal = false ∧ r.past = false := by
          constructor
          · cases ht : r.temporal with
            | false => rfl
            | true => obtain ⟨_, o, lb, ub, hl⟩ := form_temporal h3 (.inl ht); exact absurd hl (hno o lb ub)
          · cases ht : r.past with
            | false => rfl
            | true => obtain ⟨_, o, lb, ub, hl⟩ := form_temporal h3 (.inr ht); exact absurd hl (hno o lb ub)
        refine ⟨hnt.1, hnt.2, fun ho => ?_, fun b j hb => ?_⟩
        · obtain ⟨a, ha⟩ := form_load h3 ho
          rw [atom_not_tl hr he] at ha; cases ha
        · obtain ⟨c, hc, _, h2, _⟩ := hC b j hb
          rw [h2, hCi]; exact h c hc
      · right; right
        have he : P.engine (nodeAt d i) = .tl := by rcases hl with hl | hl <;> simp [engine, hl, BNode.engine]
        refine ⟨((form_interval h3 he (atom_not_tl hr he)).2.2).2 ⟨lb, ub, hl⟩, fun j hb => ?_⟩
        obtain ⟨c, hc, h1, h2, _⟩ := hC true j hb
        have hlb : (P.setupOf ahead turn lag scq A d).lb i = lb := by
          simp only [setupOf]; rcases hl with hl | hl <;> rw [hl] <;> rfl
        have hub : (P.setupOf ahead turn lag scq A d).ub i = ub := by
          simp only [setupOf]; rcases hl with hl | hl <;> rw [hl] <;> rfl
        rw [hCi, h1, h2, hlb, hub]; exact h c hc
  · -- consts
    intro i r hi _ hpast b b' v j hb hb'
    obtain ⟨he, hx, h3, c, hc, hv, rfl, _⟩ := hop i r hi b' j hb'
    rw [(hBL _ c hx he hc hv).1]
    rcases form_kids h3 b with ⟨a, _, h⟩ | ⟨_, e, hek, heb⟩
    · rw [hb] at h; cases h
    · have hec : (P.heap.lab e).isBoolConst = true := by
        rw [hb] at heb
        unfold argFor at heb
        cases hl : P.heap.lab e <;> rw [hl] at heb <;> first | rfl | cases heb
      refine hm.consts _ e c hx he (fun hP => ?_) hek hec (mem_operands hc hv)
      rw [((form_interval h3 he (atom_not_tl hr he)).2.2).2 hP] at hpast
      cases hpast
  · -- room
    intro i r hi _ b j hb
    obtain ⟨he, hx, h3, c, hc, hv, rfl, hn, _⟩ := hop i r hi b j hb
    have hcop := mem_operands hc hv
    obtain ⟨b1, b2, b3⟩ := hBL _ c hx he hc hv
    have hsub : ∀ b' c', r.arg b' = some (.sub c') → ∃ e ∈ P.operands (nodeAt d i), q e = c' := by
      intro b' c' h
      obtain ⟨_, e, he', hv', rfl⟩ := form_sub h3 h
      exact ⟨e, mem_operands he' hv', rfl⟩
    have hat := atom_not_tl hr he
    have hpast := (form_interval h3 he hat).2.2
    rcases hm.room _ c hx he hcop with ⟨hnp, h⟩ | h | ⟨h, hst, hsl⟩
    · left
      refine ⟨fun b' c' h' => ?_, ?_⟩
      · obtain ⟨e, he', rfl⟩ := hsub b' c' h'
        rw [h e he']
      · cases hp : r.past with
        | false => rfl
        | true => exact absurd (hpast.1 hp) hnp
    · right; left
      have key : ∀ b', ((P.setupOf ahead turn lag scq A d).argW (r.arg b') : Int) + 1 ≤
          (P.setupOf ahead turn lag scq A d).C (q c) + (P.setupOf ahead turn lag scq A d).len (q c) := by
        intro b'
        rcases form_kids h3 b' with ⟨a, ha, _⟩ | ⟨_, e, hek, heb⟩
        · rw [hat] at ha; cases ha
        · rw [heb]
          obtain ⟨w1, w2⟩ := hW _ e hx he hek
          have := h e hek
          omega
      have k1 := key false
      have k2 := key true
      unfold Setup.opW
      omega
    · have hnp : r.temporal = false ∧ r.past = false := by
        constructor
        · cases ht : r.temporal with
          | false => rfl
          | true => obtain ⟨_, o, lb, ub, hl⟩ := form_temporal h3 (.inl ht); exact absurd hl (h o lb ub)
        · cases ht : r.past with
          | false => rfl
          | true => obtain ⟨_, o, lb, ub, hl⟩ := form_temporal h3 (.inr ht); exact absurd hl (h o lb ub)
      by_cases hal : Setup.alone r (q c)
      · exact .inl ⟨hal, hnp.2⟩
      · right; right
        refine ⟨hnp.1, hnp.2, ?_, ?_⟩
        · show P.Steady ahead lag (nodeAt d (q c)); rw [hn]; exact hst
        · rcases form_kids h3 (!b) with ⟨a, ha, _⟩ | ⟨_, e, hek, heb⟩
          · rw [hat] at ha; cases ha
          · by_cases hec : e = c
            · exfalso
              subst hec
              rw [argFor_varies hv] at heb
              refine hal fun b' c' h' => ?_
              by_cases hbb : b' = b
              · subst hbb; rw [hb] at h'; cases h'; rfl
              · have : b' = !b := by cases b <;> cases b' <;> simp_all
                subst this; rw [heb] at h'; cases h'; rfl
            · rw [heb]
              obtain ⟨w1, w2⟩ := hW _ e hx he hek
              have := hsl e hek hec
              omega
  · -- firsts
    intro i r hi _ hst
    have hst' : P.Steady ahead lag (nodeAt d i) := hst
    obtain ⟨h1, _, h3⟩ := T.form hr hm hi
    have hpf : r.past = false := by
      cases hp : r.past with
      | false => rfl
      | true =>
          obtain ⟨_, _, lb, ub, hl, _⟩ := form_past h3 hp
          have he : P.engine (nodeAt d i) = .tl := by rcases hl with hl | hl <;> simp [engine, hl, BNode.engine]
          cases hst' with
          | atom h => rw [atom_not_tl hr he] at h; exact absurd rfl h
          | one h => exact absurd ⟨lb, ub, hl⟩ h
          | «exact» h => exact absurd ⟨lb, ub, hl⟩ h
    refine ⟨hpf, fun b j hb => ?_⟩
    obtain ⟨he, hx, h3, c, hc, hv, rfl, hn, _⟩ := hop i r hi b j hb
    have hat := atom_not_tl hr he
    have hsub : ∀ b' c', r.arg b' = some (.sub c') → ∃ e ∈ P.operands (nodeAt d i), q e = c' := by
      intro b' c' h
      obtain ⟨_, e, he', hv', rfl⟩ := form_sub h3 h
      exact ⟨e, mem_operands he' hv', rfl⟩
    cases hst' with
    | atom h => rw [hat] at h; exact absurd rfl h
    | one _ h hs =>
        left
        have hcc := h c (mem_operands hc hv)
        subst hcc
        refine ⟨?_, by show P.Steady ahead lag (nodeAt d (q c)); rw [hn]; exact hs⟩
        intro b' c' h'
        obtain ⟨e, he', rfl⟩ := hsub b' c' h'
        rw [h e he']
    | «exact» _ h =>
        right
        obtain ⟨b1, _, _⟩ := hBL _ c hx he hc hv
        have key : ∀ b', ((P.setupOf ahead turn lag scq A d).argW (r.arg b') : Int) ≤ (P.setupOf ahead turn lag scq A d).B (q c) := by
          intro b'
          rcases form_kids h3 b' with ⟨a, ha, _⟩ | ⟨_, e, hek, heb⟩
          · rw [hat] at ha; cases ha
          · rw [heb, b1]
            obtain ⟨w1, w2⟩ := hW _ e hx he hek
            have hc0 := h c (mem_operands hc hv) c (mem_operands hc hv)
            by_cases hve : P.Varies e
            · have := h c (mem_operands hc hv) e (mem_operands hek hve)
              omega
            · rw [w2 hve]; omega
        have k1 := key false
        have k2 := key true
        unfold Setup.opW
        omega

/-! ### Meanings -/

/-- The value of node `x`, if instruction `i` has value `V i`. -/
def val (P : BProg) (q : Nat → Nat) (V : Nat → Nat → Prop) (x t : Nat) : Prop :=
  match P.heap.lab x with
  | .bool b => b = true
  | _ => V (q x) t

theorem val_varies {V : Nat → Nat → Prop} {x t : Nat} (h : P.Varies x) : P.val q V x t ↔ V (q x) t := by
  unfold val Varies at *
  cases hl : P.heap.lab x <;> rw [hl] at h <;> simp [BNode.isBoolConst] at h <;> rfl

theorem argOf_operandFor (V : Nat → Nat → Prop) (c t : Nat) :
    argOf V (some (P.operandFor q c).1) (P.operandFor q c).2.toNat t ↔ P.val q V c t := by
  unfold operandFor val
  cases P.heap.lab c with
  | bool b => cases b <;> simp [argOf]
  | _ => simp [argOf]

/-- The record of a node in the table. -/
theorem Table.entry (T : Table P scq A q d) (hr : P.Ready) (hm : P.Monitorable ahead turn lag k) {x : Nat}
    (h : P.NeedsTl P.ft x ∨ P.NeedsTl P.pt x) :
    nodeAt d (q x) = x ∧ ∃ r, ((A.ft ++ A.pt).map TlInstr.asRec)[q x]? = some r ∧ Form P q x (q x) r := by
  obtain ⟨e, he, rfl⟩ := List.mem_map.1 ((T.needs x).2 h)
  obtain ⟨i, hi⟩ := List.getElem?_of_mem he
  have hii := ids_getElem T.ids hi
  have hq := T.queue e he
  have hqi : q e.1 = i := by omega
  have hn : nodeAt d i = e.1 := nodeAt_some hi
  have hrec : ((A.ft ++ A.pt).map TlInstr.asRec)[i]? = some e.2.asRec := by
    rw [T.instrs, List.map_map, List.getElem?_map, hi]; rfl
  rw [hqi]
  refine ⟨hn, _, hrec, ?_⟩
  have := (T.form hr hm hrec).2.2
  rw [hn] at this
  exact this

theorem Table.needsKid (hcov : P.Covered) {x c : Nat} (hx : P.Live x)
    (he : P.engine x = .tl) (hc : c ∈ P.heap.kids x) :
    (P.NeedsTl P.ft c ∨ P.NeedsTl P.pt c) ∨ (P.heap.lab c).isBoolConst = true := by
  rcases covered hcov hx he hc with h | h | h
  · exact .inr h
  · exact .inl (needs_of (hx.kid hc) (.inl h))
  · by_cases hv : (P.heap.lab c).isBoolConst = true
    · exact .inr hv
    · exact .inl (needs_of (hx.kid hc) (.inr ⟨h, by simpa using hv⟩))

/-! Which instruction a node gets, by its operator. -/

theorem form_neg {x i c : Nat} {t : Bool} {r : TlRec} (h : Form P q x i r) (ha : P.atomicId x = none)
    (hl : P.heap.lab x = .op .neg t) (hk : P.heap.kids x = [c]) :
    P.engine x = .tl ∧ P.Varies c ∧ r = ⟨q c, 0, i, some .subformula, some .none, some .not⟩ := by
  cases h <;> simp_all

theorem form_and {x i c c' : Nat} {t : Bool} {r : TlRec} (h : Form P q x i r) (ha : P.atomicId x = none)
    (hl : P.heap.lab x = .op .and t) (hk : P.heap.kids x = [c, c']) : P.engine x = .tl ∧ r = P.binRec q i .and c c' := by
  cases h <;> simp_all

theorem form_or {x i c c' : Nat} {t : Bool} {r : TlRec} (h : Form P q x i r) (ha : P.atomicId x = none)
    (hl : P.heap.lab x = .op .or t) (hk : P.heap.kids x = [c, c']) : P.engine x = .tl ∧ r = P.binRec q i .or c c' := by
  cases h <;> simp_all

theorem form_iff {x i c c' : Nat} {t : Bool} {r : TlRec} (h : Form P q x i r) (ha : P.atomicId x = none)
    (hl : P.heap.lab x = .op .iff t) (hk : P.heap.kids x = [c, c']) : P.engine x = .tl ∧ r = P.binRec q i .equiv c c' := by
  cases h <;> simp_all

theorem form_untl {x i c c' : Nat} {lb ub : Nat} {r : TlRec} (h : Form P q x i r) (ha : P.atomicId x = none)
    (hl : P.heap.lab x = .temp .U lb ub) (hk : P.heap.kids x = [c, c']) : P.engine x = .tl ∧ r = P.binRec q i .until c c' := by
  cases h <;> simp_all

theorem form_rel {x i c c' : Nat} {lb ub : Nat} {r : TlRec} (h : Form P q x i r) (ha : P.atomicId x = none)
    (hl : P.heap.lab x = .temp .R lb ub) (hk : P.heap.kids x = [c, c']) : P.engine x = .tl ∧ r = P.binRec q i .release c c' := by
  cases h <;> simp_all

theorem form_since {x i c c' : Nat} {lb ub : Nat} {r : TlRec} (h : Form P q x i r) (ha : P.atomicId x = none)
    (hl : P.heap.lab x = .temp .S lb ub) (hk : P.heap.kids x = [c, c']) : P.engine x = .tl ∧ r = P.binRec q i .since c c' := by
  cases h <;> simp_all

theorem form_trig {x i c c' : Nat} {lb ub : Nat} {r : TlRec} (h : Form P q x i r) (ha : P.atomicId x = none)
    (hl : P.heap.lab x = .temp .T lb ub) (hk : P.heap.kids x = [c, c']) : P.engine x = .tl ∧ r = P.binRec q i .trigger c c' := by
  cases h <;> simp_all

theorem Table.sat (T : Table P scq A q d) (hr : P.Ready) (hcov : P.Covered) (hm : P.Monitorable ahead turn lag k)
    {tr : Nat → Nat → Bool} {V : Nat → Nat → Prop} (hV : (P.setupOf ahead turn lag scq A d).Means tr V) {x : Nat} {e : Expr Nat}
    (hs : P.Says x e) (hx : (P.NeedsTl P.ft x ∨ P.NeedsTl P.pt x) ∨ (P.heap.lab x).isBoolConst = true) (t : Nat) :
    P.val q V x t ↔ R2U2.sat (fun t a => tr t a = true) e t := by
  have hat : ∀ x a, P.atomicId x = some a → P.heap.lab x = .atomic ∨ ∃ t s, P.heap.lab x = .signal t s := by
    intro x a ha
    cases hb : P.bz with
    | true => exact .inl (hr.atomsBz hb x (by simp [ha]))
    | false => exact .inr (hr.atomsNo hb x (by simp [ha]))
  -- the instruction of a node that is neither an atomic nor a constant
  have hrec : ∀ x, (P.NeedsTl P.ft x ∨ P.NeedsTl P.pt x) ∨ (P.heap.lab x).isBoolConst = true → (P.heap.lab x).isBoolConst = false →
      ∃ r, ((A.ft ++ A.pt).map TlInstr.asRec)[q x]? = some r ∧ Form P q x (q x) r ∧ P.Live x ∧
        (∀ t, P.val q V x t ↔ r.holds (P.heap.lab x).lo (P.heap.lab x).hi tr V t) := by
    intro x hx hv
    have hx' := hx.resolve_right (by simp [hv])
    obtain ⟨h1, r, h2, h3⟩ := T.entry hr hm hx'
    refine ⟨r, h2, h3, NeedsTl.live hx', fun t => ?_⟩
    rw [val_varies hv]
    have := hV (q x) r h2 trivial t
    simp only [setupOf, h1] at this
    exact this
  induction hs generalizing t with
  | @atom x a ha =>
      have hv : (P.heap.lab x).isBoolConst = false := by
        rcases hat x a ha with h | ⟨_, _, h⟩ <;> rw [h] <;> rfl
      obtain ⟨r, _, h3, _, h4⟩ := hrec x hx hv
      rw [h4 t]
      have hr' : r = ⟨a, 0, q x, some .atomic, some .none, some .load⟩ := by
        rcases form_args h3 with ⟨b, hb, _⟩ | ⟨he, _⟩
        · cases h3 with
          | load a' ha' => rw [ha] at ha'; cases ha'; rfl
          | ret _ _ he _ _ _ => rw [atom_not_tl hr he] at ha; cases ha
          | not _ _ he _ _ _ => rw [atom_not_tl hr he] at ha; cases ha
          | and _ _ _ he _ _ _ _ => rw [atom_not_tl hr he] at ha; cases ha
          | or _ _ _ he _ _ _ _ => rw [atom_not_tl hr he] at ha; cases ha
          | iff _ _ _ he _ _ _ => rw [atom_not_tl hr he] at ha; cases ha
          | untl _ _ _ _ he _ _ _ _ => rw [atom_not_tl hr he] at ha; cases ha
          | rel _ _ _ _ he _ _ _ _ => rw [atom_not_tl hr he] at ha; cases ha
          | since _ _ _ _ he _ _ _ _ _ => rw [atom_not_tl hr he] at ha; cases ha
          | trig _ _ _ _ he _ _ _ _ _ => rw [atom_not_tl hr he] at ha; cases ha
        · rw [atom_not_tl hr he] at ha; cases ha
      rw [hr']
      simp [TlRec.holds, R2U2.sat]
  | @const x b hl =>
      unfold val
      rw [hl]
      simp [R2U2.sat]
  | @neg x t' c e hl hk _ ih =>
      obtain ⟨r, _, h3, h5, h4⟩ := hrec x hx (by rw [hl]; rfl)
      rw [h4 t]
      obtain ⟨he, hv, rfl⟩ := form_neg h3 (by cases ha : P.atomicId x with | none => rfl | some a => rcases hat x a ha with h | ⟨_, _, h⟩ <;> rw [hl] at h <;> cases h) hl hk
      have := ih (Table.needsKid hcov h5 he (by rw [hk]; simp)) t
      rw [val_varies hv] at this
      simp only [TlRec.holds, argOf, R2U2.sat, this]
  | @and x t' c c' e f hl hk _ _ ih ih' =>
      obtain ⟨r, _, h3, h5, h4⟩ := hrec x hx (by rw [hl]; rfl)
      rw [h4 t]
      obtain ⟨he, rfl⟩ := form_and h3 (by cases ha : P.atomicId x with | none => rfl | some a => rcases hat x a ha with h | ⟨_, _, h⟩ <;> rw [hl] at h <;> cases h) hl hk
      have h1 := ih (Table.needsKid hcov h5 he (by rw [hk]; simp))
      have h2 := ih' (Table.needsKid hcov h5 he (by rw [hk]; simp))
      simp only [TlRec.holds, binRec, argOf_operandFor, R2U2.sat, h1, h2, satAll, and_true, hl, BNode.lo, BNode.hi]
  | @or x t' c c' e f hl hk _ _ ih ih' =>
      obtain ⟨r, _, h3, h5, h4⟩ := hrec x hx (by rw [hl]; rfl)
      rw [h4 t]
      obtain ⟨he, rfl⟩ := form_or h3 (by cases ha : P.atomicId x with | none => rfl | some a => rcases hat x a ha with h | ⟨_, _, h⟩ <;> rw [hl] at h <;> cases h) hl hk
      have h1 := ih (Table.needsKid hcov h5 he (by rw [hk]; simp))
      have h2 := ih' (Table.needsKid hcov h5 he (by rw [hk]; simp))
      simp only [TlRec.holds, binRec, argOf_operandFor, R2U2.sat, h1, h2, satAny, or_false, hl, BNode.lo, BNode.hi]
  | @iff x t' c c' e f hl hk _ _ ih ih' =>
      obtain ⟨r, _, h3, h5, h4⟩ := hrec x hx (by rw [hl]; rfl)
      rw [h4 t]
      obtain ⟨he, rfl⟩ := form_iff h3 (by cases ha : P.atomicId x with | none => rfl | some a => rcases hat x a ha with h | ⟨_, _, h⟩ <;> rw [hl] at h <;> cases h) hl hk
      have h1 := ih (Table.needsKid hcov h5 he (by rw [hk]; simp))
      have h2 := ih' (Table.needsKid hcov h5 he (by rw [hk]; simp))
      simp only [TlRec.holds, binRec, argOf_operandFor, R2U2.sat, h1, h2, hl, BNode.lo, BNode.hi]
  | @untl x lb ub c c' e f hl hk _ _ ih ih' =>
      obtain ⟨r, _, h3, h5, h4⟩ := hrec x hx (by rw [hl]; rfl)
      rw [h4 t]
      obtain ⟨he, rfl⟩ := form_untl h3 (by cases ha : P.atomicId x with | none => rfl | some a => rcases hat x a ha with h | ⟨_, _, h⟩ <;> rw [hl] at h <;> cases h) hl hk
      have h1 := ih (Table.needsKid hcov h5 he (by rw [hk]; simp))
      have h2 := ih' (Table.needsKid hcov h5 he (by rw [hk]; simp))
      simp only [TlRec.holds, binRec, argOf_operandFor, R2U2.sat, h1, h2, hl, BNode.lo, BNode.hi]
  | @rel x lb ub c c' e f hl hk _ _ ih ih' =>
      obtain ⟨r, _, h3, h5, h4⟩ := hrec x hx (by rw [hl]; rfl)
      rw [h4 t]
      obtain ⟨he, rfl⟩ := form_rel h3 (by cases ha : P.atomicId x with | none => rfl | some a => rcases hat x a ha with h | ⟨_, _, h⟩ <;> rw [hl] at h <;> cases h) hl hk
      have h1 := ih (Table.needsKid hcov h5 he (by rw [hk]; simp))
      have h2 := ih' (Table.needsKid hcov h5 he (by rw [hk]; simp))
      simp only [TlRec.holds, binRec, argOf_operandFor, R2U2.sat, h1, h2, hl, BNode.lo, BNode.hi]
      refine forall_congr' fun j => forall_congr' fun _ => forall_congr' fun _ => ?_
      exact or_iff_not_imp_left
  | @since x lb ub c c' e f hl hk _ _ ih ih' =>
      obtain ⟨r, _, h3, h5, h4⟩ := hrec x hx (by rw [hl]; rfl)
      rw [h4 t]
      obtain ⟨he, rfl⟩ := form_since h3 (by cases ha : P.atomicId x with | none => rfl | some a => rcases hat x a ha with h | ⟨_, _, h⟩ <;> rw [hl] at h <;> cases h) hl hk
      have h1 := ih (Table.needsKid hcov h5 he (by rw [hk]; simp))
      have h2 := ih' (Table.needsKid hcov h5 he (by rw [hk]; simp))
      simp only [TlRec.holds, binRec, argOf_operandFor, R2U2.sat, h1, h2, hl, BNode.lo, BNode.hi]
  | @trig x lb ub c c' e f hl hk _ _ ih ih' =>
      obtain ⟨r, _, h3, h5, h4⟩ := hrec x hx (by rw [hl]; rfl)
      rw [h4 t]
      obtain ⟨he, rfl⟩ := form_trig h3 (by cases ha : P.atomicId x with | none => rfl | some a => rcases hat x a ha with h | ⟨_, _, h⟩ <;> rw [hl] at h <;> cases h) hl hk
      have h1 := ih (Table.needsKid hcov h5 he (by rw [hk]; simp))
      have h2 := ih' (Table.needsKid hcov h5 he (by rw [hk]; simp))
      simp only [TlRec.holds, binRec, argOf_operandFor, R2U2.sat, h1, h2, hl, BNode.lo, BNode.hi]
      refine forall_congr' fun j => forall_congr' fun _ => forall_congr' fun _ => ?_
      exact or_iff_not_imp_left

end BProg
end R2U2
