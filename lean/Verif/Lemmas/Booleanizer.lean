import Verif.Spec.Booleanizer
import Verif.Props.Assembly
import Verif.Spec.Binary
/-
The booleanizer engine on compiled code.
-/
namespace R2U2

variable {F : Type} {ops : FloatOps F} {lim : BzLimits} {sig : Nat → Cell F}

namespace BzMon

theorem ofBool_decide (p : Prop) [Decidable p] : ofBool (decide p) = if p then 1 else 0 := by
  unfold ofBool; by_cases h : p <;> simp [h]

theorem feq_near (a b : F) : feq ops a b = true ↔ Near ops a b := by
  unfold feq Near
  cases ops.lt b a <;> simp

/-- The operator of an instruction with one operand. -/
def unOp (o : OpK) (ty : Bool) : Option BzOp := if o = .sub then some (if ty then .ineg else .fneg) else bzOperator o ty

theorem upd_int1 {o : OpK} {k : BzOp} (hk : unOp o true = some k) {a v : Int}
    (hv : o.int1 ops a = some v)
    {m : BzMon F} {r : BzRec} (hr : r.opcode = some k) (h1 : m.get lim r.param1 = some (.int a)) :
    m.update ops lim sig r = m.put lim r.mem (.int v) := by
  cases o <;> simp only [OpK.int1, Option.some.injEq, reduceCtorEq] at hv <;>
    simp [unOp, bzOperator] at hk <;> subst hk <;> simp only [update, hr, int1, h1, Option.bind_some, Cell.i]
  · rw [hv]
  · rw [hv]; rfl
  · rw [hv]; rfl
  · split at hv
    · rw [if_neg (by omega)]; cases hv; rfl
    · rw [if_pos (by omega)]
      have : -1 * a = -a := by omega
      rw [this, hv]; rfl

theorem upd_int2 {o : OpK} {k : BzOp} (hk : bzOperator o true = some k) {a b v : Int}
    (hv : o.int2 ops a b = some v)
    {m : BzMon F} {r : BzRec} (hr : r.opcode = some k) (h1 : m.get lim r.param1 = some (.int a)) (h2 : m.get lim r.param2 = some (.int b)) :
    m.update ops lim sig r = m.put lim r.mem (.int v) := by
  cases o <;> simp only [OpK.int2, Option.some.injEq, reduceCtorEq] at hv <;>
    simp [bzOperator] at hk <;> subst hk <;> simp only [update, hr, int2, h1, h2, Option.bind_some, Cell.i, bits2, ofBool_decide]
  case mod =>
    split at hv
    · simp at hv
    · next h =>
      rw [not_or] at h
      rw [if_neg h.1]
      cases hd : int32 (a.tdiv b) with
      | none => exact absurd hd h.2
      | some w =>
        simp only [Option.some.injEq] at hv
        have : a.tmod b = v := by rw [← hv]; have := Int.mul_tdiv_add_tmod a b; omega
        simp [this]
  case ne =>
    rw [← hv]; by_cases h : a = b <;> simp [h]
  case div =>
    rw [hv]; rfl
  all_goals first | (rw [hv]; done) | (rw [hv]; rfl) | (rw [← hv]; rfl)

theorem upd_flt1 {o : OpK} {k : BzOp} (hk : unOp o false = some k) {a : F} {v : Cell F}
    (hv : o.flt1 ops a = some v)
    {m : BzMon F} {r : BzRec} (hr : r.opcode = some k) (h1 : m.get lim r.param1 = some (.flt a)) :
    m.update ops lim sig r = m.put lim r.mem v := by
  cases o <;> simp only [OpK.flt1, Option.some.injEq, reduceCtorEq] at hv <;>
    simp [unOp, bzOperator] at hk <;> subst hk <;> simp only [update, hr, flt1, h1, Option.bind_some, Cell.f]
  all_goals rw [hv]

theorem upd_flt2 {o : OpK} {k : BzOp} (hk : bzOperator o false = some k) {a b : F} {v : Cell F}
    (hv : o.flt2 ops a b = some v)
    {m : BzMon F} {r : BzRec} (hr : r.opcode = some k) (h1 : m.get lim r.param1 = some (.flt a)) (h2 : m.get lim r.param2 = some (.flt b)) :
    m.update ops lim sig r = m.put lim r.mem v := by
  cases o <;> simp only [OpK.flt2, Option.some.injEq, reduceCtorEq] at hv <;>
    simp [bzOperator] at hk <;> subst hk <;> simp only [update, hr, flt2, h1, h2, Option.bind_some, Cell.f, ofBool]
  case eq =>
    rw [← hv]; by_cases h : Near ops a b
    · simp [h, (feq_near a b).2 h]
    · rw [if_neg h, if_neg (fun h' => h ((feq_near a b).1 h'))]
  case ne =>
    rw [← hv]; by_cases h : Near ops a b
    · simp [h, (feq_near a b).2 h]
    · rw [if_neg h, if_pos]
      cases hf : feq ops a b
      · rfl
      · exact absurd ((feq_near a b).1 hf) h
  all_goals first | (rw [hv]; done) | (rw [hv]; rfl) | (rw [← hv]; rfl) | skip


theorem unOp_var {o : OpK} {ty : Bool} {k : BzOp} (h : unOp o ty = some k) : k ≠ .iconst ∧ k ≠ .fconst := by
  cases o <;> cases ty <;> simp [unOp, bzOperator] at h <;> subst h <;> decide

theorem bzOp_var {o : OpK} {ty : Bool} {k : BzOp} (h : bzOperator o ty = some k) : k ≠ .iconst ∧ k ≠ .fconst := by
  cases o <;> cases ty <;> simp [bzOperator] at h <;> subst h <;> decide

theorem event_var {i : BzInstr} (h : i.op ≠ .iconst ∧ i.op ≠ .fconst) :
    (Instr.bz i).event = .bz ⟨i.word, i.b, i.id, some i.op⟩ := by
  obtain ⟨id, op, a, b⟩ := i
  cases op <;> simp_all [Instr.event]

theorem word_cell {i : BzInstr} {c : Nat} (hf : (Instr.bz i).Fits) (h : i.a = .int c) : i.word = c := by
  have hf := hf.2.2
  rw [h] at hf
  have := hf.2.2
  simp only [BzInstr.word, h]
  omega

theorem put_get {m m' : BzMon F} {a : Nat} {v : Cell F} (h : m.put lim a v = some m') :
    m'.vals a = v ∧ (∀ b, b ≠ a → m'.vals b = m.vals b) ∧ m'.time = m.time ∧ m'.atoms = m.atoms := by
  unfold put at h
  split at h
  · simp only [Option.some.injEq] at h
    subst h
    exact ⟨by simp, fun b hb => by simp [hb], rfl, rfl⟩
  · simp at h

theorem put_ok (m : BzMon F) {a : Nat} (v : Cell F) (h : a < lim.cells) : ∃ m', m.put lim a v = some m' := by
  simp [put, h]

end BzMon

namespace BProg
open BzMon

theorem BzMeans.un {P : BProg} {cell : Nat → Nat} {x c : Nat} {i : BzInstr} {o : OpK} {ty : Bool}
    (hl : P.heap.lab x = .op o ty) (hk : P.heap.kids x = [c]) (h : P.BzMeans cell x i) :
    ∃ k, unOp o ty = some k ∧ i = ⟨cell x, k, .int (cell c), 0⟩ := by
  unfold BzMeans at h
  rw [hl, hk] at h
  cases o <;> cases ty <;> simpa [unOp] using h

theorem BzMeans.bin {P : BProg} {cell : Nat → Nat} {x c d : Nat} {i : BzInstr} {o : OpK} {ty : Bool}
    (hl : P.heap.lab x = .op o ty) (hk : P.heap.kids x = [c, d]) (h : P.BzMeans cell x i) :
    ∃ k, bzOperator o ty = some k ∧ i = ⟨cell x, k, .int (cell c), cell d⟩ := by
  unfold BzMeans at h
  rw [hl, hk] at h
  cases o <;> cases ty <;> exact h

/-- The operands whose cells the instruction of `x` refers to. -/
def cellKids (P : BProg) (x : Nat) : List Nat :=
  match P.heap.lab x with
  | .atomic => (P.heap.kids x).take 1
  | .op _ _ => P.heap.kids x
  | _ => []

/-- What one instruction that is not a constant does. -/
theorem exec_node {P : BProg} {cell : Nat → Nat} {x : Nat} {i : BzInstr} {t : Nat} {v : Cell F} {m : BzMon F}
    {σ : Nat → Nat → Cell F}
    (hm : P.BzMeans cell x i) (hf : (Instr.bz i).Fits)
    (hk : ∀ c ∈ P.cellKids x, ∀ w, P.Value ops σ t c w → m.get lim (cell c) = some w)
    (hs : ∀ ty s, P.heap.lab x = .signal ty s → 0 ≤ s ∧ s.toNat < lim.signals) (ht : m.time = t)
    (hp : ∀ ty, P.heap.lab x ≠ .op .prev ty) (hc : (P.heap.lab x).isConst = false) (hv : P.Value ops σ t x v) :
    ∃ r, (Instr.bz i).event = .bz r ∧ m.update ops lim (σ t) r = m.put lim (cell x) v := by
  cases hv with
  | @sigI _ _ s _ hl h =>
    unfold BzMeans at hm
    rw [hl] at hm
    simp only at hm
    subst hm
    refine ⟨_, event_var (by simp), ?_⟩
    obtain ⟨h0, h1⟩ := hs _ _ hl
    have hw := hf.2.2.2.2
    have : (BzInstr.mk (cell x) .iload (.int s) 0).word = s.toNat := by simp only [BzInstr.word]; omega
    simp [update, this, h1, h, Cell.i]
  | @sigF _ _ s _ hl h =>
    unfold BzMeans at hm
    rw [hl] at hm
    simp only at hm
    subst hm
    refine ⟨_, event_var (by simp), ?_⟩
    obtain ⟨h0, h1⟩ := hs _ _ hl
    have hw := hf.2.2.2.2
    have : (BzInstr.mk (cell x) .fload (.int s) 0).word = s.toNat := by simp only [BzInstr.word]; omega
    simp [update, this, h1, h, Cell.f]
  | int hl => simp [hl, BNode.isConst] at hc
  | float hl => simp [hl, BNode.isConst] at hc
  | tau hl =>
    unfold BzMeans at hm
    rw [hl] at hm
    simp only at hm
    subst hm
    refine ⟨_, event_var (by simp), ?_⟩
    simp only [update, ht]
    congr 2
    split <;> omega
  | int1 hl hkid ha ho =>
    obtain ⟨k, h1, rfl⟩ := hm.un hl hkid
    refine ⟨_, event_var (unOp_var h1), ?_⟩
    exact upd_int1 h1 ho rfl (by rw [word_cell hf rfl]; exact hk _ (by simp [cellKids, hl, hkid]) _ ha)
  | int2 hl hkid ha hb ho =>
    obtain ⟨k, h1, rfl⟩ := hm.bin hl hkid
    refine ⟨_, event_var (bzOp_var h1), ?_⟩
    exact upd_int2 h1 ho rfl (by rw [word_cell hf rfl]; exact hk _ (by simp [cellKids, hl, hkid]) _ ha)
      (hk _ (by simp [cellKids, hl, hkid]) _ hb)
  | flt1 hl hkid ha ho =>
    obtain ⟨k, h1, rfl⟩ := hm.un hl hkid
    refine ⟨_, event_var (unOp_var h1), ?_⟩
    exact upd_flt1 h1 ho rfl (by rw [word_cell hf rfl]; exact hk _ (by simp [cellKids, hl, hkid]) _ ha)
  | flt2 hl hkid ha hb ho =>
    obtain ⟨k, h1, rfl⟩ := hm.bin hl hkid
    refine ⟨_, event_var (bzOp_var h1), ?_⟩
    exact upd_flt2 h1 ho rfl (by rw [word_cell hf rfl]; exact hk _ (by simp [cellKids, hl, hkid]) _ ha)
      (hk _ (by simp [cellKids, hl, hkid]) _ hb)
  | first hl _ _ => exact absurd hl (hp _)
  | next hl _ _ => exact absurd hl (hp _)

theorem bzAt_kids {P : BProg} {d : Dict BzInstr} {x n : Nat} {i : BzInstr}
    (harity : ∀ o t, P.heap.lab x = .op o t → o.isLogical = false → (P.heap.kids x).length ∈ o.bzArity)
    (he : P.engine x = .bz) (h : P.bzAt n d x = some i) :
    ∀ c ∈ P.cellKids x, ∃ j, d.lookup c = some j := by
  unfold bzAt genBz at h
  unfold cellKids
  cases hl : P.heap.lab x with
  | atomic =>
    rw [hl] at h
    cases hk : P.heap.kids x with
    | nil => simp
    | cons c cs =>
      rw [hk] at h
      simp only [Option.map_map, Option.map_eq_some_iff, Function.comp] at h
      obtain ⟨j, h1, h2⟩ := h
      intro c' hc'
      simp only [List.take_succ_cons, List.take_zero, List.mem_singleton] at hc'
      exact ⟨j, by rw [hc', h1]⟩
  | op o t =>
    rw [hl] at h
    have hlog : o.isLogical = false := by
      unfold engine at he
      rw [hl] at he
      cases ho : o.isLogical
      · rfl
      · simp [BNode.engine, ho] at he
    have har := harity o t hl hlog
    cases hk : P.heap.kids x with
    | nil => simp
    | cons c cs =>
      rw [hk] at h har
      cases cs with
      | nil =>
        simp only at h
        split at h
        · next j k h1 h2 => simp [h1]
        · simp at h
      | cons c' cs =>
        cases cs with
        | nil =>
          simp only at h
          split at h
          · next j j' k h1 h2 h3 => simp [h1, h2]
          · simp at h
        | cons c'' cs => cases o <;> simp [OpK.bzArity] at har
  | _ => simp

/-- The booleanizer table: `L1` the ordinary entries, `L2` the previous-value entries, in the order of execution. -/
structure BzTable (P : BProg) (A : Assembly) (cell : Nat → Nat) (L1 L2 : List (Nat × BzInstr)) : Prop where
  code : A.bz = (L1 ++ L2).map (·.2)
  means : ∀ e ∈ L1 ++ L2, P.BzMeans cell e.1 e.2
  needs : ∀ x, (∃ e ∈ L1 ++ L2, e.1 = x) ↔ P.NeedsCell x
  lt : ∀ e ∈ L1 ++ L2, cell e.1 < A.bz.length
  inj : ∀ e ∈ L1 ++ L2, ∀ e' ∈ L1 ++ L2, cell e.1 = cell e'.1 → e.1 = e'.1
  ops : ∀ e ∈ L1 ++ L2, ∀ c ∈ P.cellKids e.1, ∃ e' ∈ L1 ++ L2, e'.1 = c
  before : ∀ a e b, L1 = a ++ e :: b → ∀ c ∈ P.cellKids e.1, (∃ e' ∈ a, e'.1 = c) ∨ (∃ e' ∈ L2, e'.1 = c)
  prev1 : ∀ e ∈ L1, ∀ ty, P.heap.lab e.1 ≠ .op .prev ty
  prev2 : ∀ e ∈ L2, ∃ ty c d, P.heap.lab e.1 = .op .prev ty ∧ P.heap.kids e.1 = [c, d]

theorem BzMeans.op_prev {P : BProg} (hr : P.Ready) {cell : Nat → Nat} {x : Nat} {i : BzInstr}
    (hx : P.heap.Reachable [P.ft] x ∨ P.heap.Reachable [P.pt] x) (he : P.engine x = .bz) (h : P.BzMeans cell x i) :
    i.op = .prev ↔ ∃ ty, P.heap.lab x = .op .prev ty := by
  cases hl : P.heap.lab x with
  | op o t =>
    have hlog : o.isLogical = false := by
      unfold engine at he
      rw [hl] at he
      cases ho : o.isLogical
      · rfl
      · simp [BNode.engine, ho] at he
    have har := hr.arity x hx o t hl hlog
    have : ∃ k, i.op = k ∧ (unOp o t = some k ∧ (P.heap.kids x).length = 1 ∨ bzOperator o t = some k) := by
      rcases hk : P.heap.kids x with _ | ⟨c, _ | ⟨d, _ | ⟨e, l⟩⟩⟩
      · rw [hk] at har; cases o <;> simp [OpK.bzArity] at har
      · obtain ⟨k, h1, rfl⟩ := h.un hl hk; exact ⟨k, rfl, .inl ⟨h1, rfl⟩⟩
      · obtain ⟨k, h1, rfl⟩ := h.bin hl hk; exact ⟨k, rfl, .inr h1⟩
      · rw [hk] at har; cases o <;> simp [OpK.bzArity] at har
    obtain ⟨k, rfl, hh⟩ := this
    generalize i.op = k at hh
    rcases hh with ⟨hh, -⟩ | hh <;> cases o <;> cases t <;> simp [unOp, bzOperator] at hh <;> subst hh <;> simp
  | _ =>
    unfold BzMeans at h
    rw [hl] at h
    first
    | (simp only at h; subst h; simp; done)
    | (simp only at h; exact h.elim)
    | (split at h <;> simp_all; done)
    | skip


theorem bzTable (P : BProg) (hr : P.Ready) (hsep : P.Separate)
    (fuel : Nat) (scq : Nat → Option (Int × Int)) (A : Assembly) (h : genAssembly fuel P scq = some A) :
    ∃ cell L1 L2, P.BzTable A cell L1 L2 := by
  obtain ⟨o1, o2, bzd, ftd, ptd, hf, n1, n2, m1, m2, k1, k2⟩ := facts hr hsep h
  have hbz : ∀ e ∈ bzd, bzd.lookup e.1 = some e.2 := fun e he => Dict.mem_lookup hf.bzNodup he
  have hneeds : ∀ x, x ∈ Dict.keys bzd ↔ P.NeedsCell x := by
    intro x
    rw [hf.bzKeys]
    simp only [List.mem_append, List.mem_filter, m1, m2, decide_eq_true_eq,
      hr.keyBz_iff hr.ftSet, hr.keyBz_iff hr.ptSet, NeedsCell, onlyTlParents, List.all_eq_true]
    tauto
  have heng : ∀ e ∈ bzd, P.engine e.1 = .bz := fun e he => ((hneeds e.1).1 (List.mem_map.2 ⟨e, he, rfl⟩)).2.1
  have hlive : ∀ e ∈ bzd, P.heap.Reachable [P.ft] e.1 ∨ P.heap.Reachable [P.pt] e.1 :=
    fun e he => ((hneeds e.1).1 (List.mem_map.2 ⟨e, he, rfl⟩)).1
  have hmeans : ∀ e ∈ bzd, P.BzMeans (cellOf (·.id) bzd) e.1 e.2 := by
    intro e he
    exact bzAt_means (hr.arity _ (hlive e he)) (heng e he) (hbz e he) (hf.bzFor e he)
  have hmem : ∀ e, e ∈ bzd.filter (fun e => decide (e.2.op ≠ .prev)) ++ bzd.filter (fun e => decide (e.2.op = .prev)) ↔ e ∈ bzd := by
    intro e
    simp only [List.mem_append, List.mem_filter, decide_eq_true_eq]
    tauto
  have hperm : A.bz.Perm (bzd.map (·.2)) := by
    rw [hf.bz]
    apply List.Perm.map
    have := List.filter_append_perm (fun e : Nat × BzInstr => decide (e.2.op ≠ .prev)) bzd
    simpa using this
  have hlen : A.bz.length = bzd.length := by rw [hperm.length_eq]; simp
  have hbefore : ∀ a e b, bzd = a ++ e :: b → ∀ c ∈ P.cellKids e.1, ∃ e' ∈ a, e'.1 = c := by
    intro a e b hs c hc
    have he : e ∈ bzd := by rw [hs]; simp
    obtain ⟨j, hj⟩ := bzAt_kids (hr.arity _ (hlive e he)) (heng e he) (hf.bzFor e he) c hc
    have hck : c ∈ P.heap.kids e.1 := by
      unfold cellKids at hc
      split at hc
      · exact List.mem_of_mem_take hc
      · exact hc
      · simp at hc
    have hkeys := hf.bzKeys
    rw [hs] at hkeys
    simp only [Dict.keys, List.map_append, List.map_cons] at hkeys
    have hcm : c ∈ Dict.keys bzd := Dict.mem_keys.2 ⟨j, hj⟩
    rw [hf.bzKeys] at hcm
    have := keys_before k1 k2 (fun c hc => by
      simp only [decide_eq_true_eq] at hc ⊢
      exact (hr.keyBz_iff hr.ftSet).2 ((hr.keyBz_iff hr.ptSet).1 hc)) hkeys.symm c hck hcm
    obtain ⟨e', he', rfl⟩ := List.mem_map.1 this
    exact ⟨e', he', rfl⟩
  refine ⟨cellOf (·.id) bzd, _, _, hf.bz, ?_, ?_, ?_, ?_, ?_, ?_, ?_, ?_⟩
  · exact fun e he => hmeans e ((hmem e).1 he)
  · intro x
    rw [← hneeds x]
    simp only [hmem, Dict.keys, List.mem_map]
  · intro e he
    have he := (hmem e).1 he
    rw [cellOf_lookup (hbz e he), hlen]
    have h2 : e.2.id ∈ bzd.map (·.2.id) := List.mem_map.2 ⟨e, he, rfl⟩
    rw [hf.bzIds.map, List.mem_range'_1] at h2
    omega
  · intro e he e' he' hc
    have he := (hmem e).1 he
    have he' := (hmem e').1 he'
    rw [cellOf_lookup (hbz e he), cellOf_lookup (hbz e' he')] at hc
    rw [hf.bzIds.inj e he e' he' hc]
  · intro e he c hc
    have he := (hmem e).1 he
    obtain ⟨a, b, hs⟩ := List.append_of_mem he
    obtain ⟨e', h1, h2⟩ := hbefore a e b hs c hc
    exact ⟨e', (hmem e').2 (by rw [hs]; simp [h1]), h2⟩
  · intro a e b hs c hc
    rw [List.filter_eq_append_iff] at hs
    obtain ⟨l1, l2, hl, rfl, h2⟩ := hs
    rw [List.filter_eq_cons_iff] at h2
    obtain ⟨l3, l4, rfl, h3, -, -⟩ := h2
    obtain ⟨e', h4, h5⟩ := hbefore (l1 ++ l3) e l4 (by rw [hl]; simp) c hc
    have hb : e' ∈ bzd := by rw [hl]; simp at h4 ⊢; tauto
    by_cases hp : e'.2.op = .prev
    · exact .inr ⟨e', List.mem_filter.2 ⟨hb, by simpa using hp⟩, h5⟩
    · left
      refine ⟨e', List.mem_filter.2 ⟨?_, by simpa using hp⟩, h5⟩
      rcases List.mem_append.1 h4 with h | h
      · exact h
      · exact absurd (by simpa using hp) (h3 e' h)
  · intro e he ty hl
    obtain ⟨h1, h2⟩ := List.mem_filter.1 he
    exact (by simpa using h2 : e.2.op ≠ .prev) (((hmeans e h1).op_prev hr (hlive e h1) (heng e h1)).2 ⟨ty, hl⟩)
  · intro e he
    obtain ⟨h1, h2⟩ := List.mem_filter.1 he
    obtain ⟨ty, hl⟩ := ((hmeans e h1).op_prev hr (hlive e h1) (heng e h1)).1 (by simpa using h2)
    have := hr.arity _ (hlive e h1) _ _ hl rfl
    simp only [OpK.bzArity, List.mem_singleton] at this
    rcases hk : P.heap.kids e.1 with _ | ⟨c, _ | ⟨d, _ | ⟨f, l⟩⟩⟩ <;> rw [hk] at this <;> simp at this
    exact ⟨ty, c, d, hl, rfl⟩


section
variable {P : BProg} {A : Assembly} {cell : Nat → Nat} {L1 L2 : List (Nat × BzInstr)} {σ : Nat → Nat → Cell F}

/-- The cell of `x` holds its value at time `t`. -/
def Good (P : BProg) (ops : FloatOps F) (σ : Nat → Nat → Cell F) (cell : Nat → Nat) (t : Nat) (m : BzMon F) (x : Nat) : Prop :=
  ∀ v, P.Value ops σ t x v → m.vals (cell x) = v

/-- The atomic of `x` holds its value at time `t`. -/
def GoodAtom (P : BProg) (ops : FloatOps F) (σ : Nat → Nat → Cell F) (t : Nat) (m : BzMon F) (x : Nat) : Prop :=
  ∀ a c cs b, P.heap.lab x = .atomic → P.atomicId x = some a → P.heap.kids x = c :: cs → P.Value ops σ t c (.int b) →
    m.atoms a = decide (b ≠ 0)

def ev (e : Nat × BzInstr) : LoadEv := (Instr.bz e.2).event

theorem const_value {x t t' : Nat} {v : Cell F} (hc : (P.heap.lab x).isConst = true) (h : P.Value ops σ t x v) :
    P.Value ops σ t' x v := by
  cases h with
  | int hl => exact .int hl
  | float hl => exact .float hl
  | _ => simp_all [BNode.isConst]

theorem atomic_no_value {x t : Nat} {v : Cell F} (hc : P.heap.lab x = .atomic) : ¬ P.Value ops σ t x v := by
  intro h
  cases h <;> simp_all

theorem const_event {e : Nat × BzInstr} (hm : P.BzMeans cell e.1 e.2) (hc : (P.heap.lab e.1).isConst = true)
    (hb : (P.heap.lab e.1).isBoolConst = false) :
    (∃ v, P.heap.lab e.1 = .int v ∧ ev e = .iconst (cell e.1) v) ∨
    (∃ v, P.heap.lab e.1 = .float v ∧ ev e = .fconst (cell e.1) v) := by
  unfold BzMeans at hm
  cases hl : P.heap.lab e.1 with
  | int v => rw [hl] at hm; simp only at hm; exact .inl ⟨v, rfl, by simp [ev, hm, Instr.event]⟩
  | float v => rw [hl] at hm; simp only at hm; exact .inr ⟨v, rfl, by simp [ev, hm, Instr.event]⟩
  | _ => simp_all [BNode.isConst, BNode.isBoolConst]

theorem var_event (hr : P.Ready) {e : Nat × BzInstr}
    (hx : P.heap.Reachable [P.ft] e.1 ∨ P.heap.Reachable [P.pt] e.1) (he : P.engine e.1 = .bz) (hm : P.BzMeans cell e.1 e.2)
    (hc : (P.heap.lab e.1).isConst = false) :
    ev e = .bz ⟨e.2.word, e.2.b, e.2.id, some e.2.op⟩ := by
  have : e.2.op ≠ .iconst ∧ e.2.op ≠ .fconst := by
    cases hl : P.heap.lab e.1 with
    | op o t =>
      have hlog : o.isLogical = false := by
        unfold engine at he
        rw [hl] at he
        cases ho : o.isLogical
        · rfl
        · simp [BNode.engine, ho] at he
      have har := hr.arity _ hx o t hl hlog
      rcases hk : P.heap.kids e.1 with _ | ⟨c, _ | ⟨d, _ | ⟨f, l⟩⟩⟩
      · rw [hk] at har; cases o <;> simp [OpK.bzArity] at har
      · obtain ⟨k, h1, h2⟩ := hm.un hl hk; rw [h2]; exact unOp_var h1
      · obtain ⟨k, h1, h2⟩ := hm.bin hl hk; rw [h2]; exact bzOp_var h1
      · rw [hk] at har; cases o <;> simp [OpK.bzArity] at har
    | signal ty s => unfold BzMeans at hm; rw [hl] at hm; cases ty <;> simp only at hm <;> simp [hm]
    | tau => unfold BzMeans at hm; rw [hl] at hm; simp only at hm; simp [hm]
    | atomic =>
      unfold BzMeans at hm; rw [hl] at hm
      cases hk : P.heap.kids e.1 <;> rw [hk] at hm <;> simp only at hm
      simp [hm]
    | int v => simp [hl, BNode.isConst] at hc
    | float v => simp [hl, BNode.isConst] at hc
    | bool v => simp [hl, BNode.isConst] at hc
    | _ => unfold BzMeans at hm; rw [hl] at hm; simp only at hm
  exact event_var this

theorem no_bool {e : Nat × BzInstr} (hm : P.BzMeans cell e.1 e.2) : (P.heap.lab e.1).isBoolConst = false := by
  unfold BzMeans at hm
  cases hl : P.heap.lab e.1 <;> rw [hl] at hm <;> simp_all [BNode.isBoolConst]

theorem pass_append (sig : Nat → Cell F) : ∀ (l l' : List BzRec) (m : BzMon F),
    pass ops lim sig (l ++ l') m = (pass ops lim sig l m).bind (pass ops lim sig l')
  | [], l', m => rfl
  | r :: l, l', m => by
      simp only [List.cons_append, pass]
      cases m.update ops lim sig r with
      | none => rfl
      | some m' => exact pass_append sig l l' m'

theorem load_append : ∀ (l l' : List LoadEv) (m : BzMon F),
    load ops lim (l ++ l') m = (load ops lim l m).bind (load ops lim l')
  | [], l', m => rfl
  | r :: l, l', m => by
      simp only [List.cons_append, load]
      cases m.load1 ops lim r with
      | none => rfl
      | some m' => exact load_append l l' m'

theorem BzTable.engine (T : P.BzTable A cell L1 L2) {e} (he : e ∈ L1 ++ L2) : P.engine e.1 = .bz :=
  ((T.needs e.1).1 ⟨e, he, rfl⟩).2.1

/-- Loading the ordinary instructions: constants are in place. -/
theorem BzTable.load1 (T : P.BzTable A cell L1 L2) (hr : P.Ready) (hfit : P.BzFits A lim) :
    ∀ (b a : List (Nat × BzInstr)) (m : BzMon F), L1 = a ++ b →
      (∀ e ∈ a, (P.heap.lab e.1).isConst = true → P.Good ops σ cell 0 m e.1) →
      ∃ m', load ops lim (b.map ev) m = some m' ∧ m'.time = m.time ∧
        ∀ e ∈ L1, (P.heap.lab e.1).isConst = true → P.Good ops σ cell 0 m' e.1
  | [], a, m, hs, h => ⟨m, rfl, rfl, by simpa [hs] using h⟩
  | e :: b, a, m, hs, h => by
      have he : e ∈ L1 ++ L2 := by rw [hs]; simp
      have hcell := Nat.lt_of_lt_of_le (T.lt e he) hfit.cells
      have hs' : L1 = (a ++ [e]) ++ b := by rw [hs]; simp
      have hdone : ∀ (v : Cell F), P.Value ops σ 0 e.1 v → (∀ w, P.Value ops σ 0 e.1 w → w = v) →
          ∃ m' m'', m.put lim (cell e.1) v = some m' ∧ load ops lim (b.map ev) m' = some m'' ∧ m''.time = m.time ∧
            ∀ e ∈ L1, (P.heap.lab e.1).isConst = true → P.Good ops σ cell 0 m'' e.1 := by
        intro v hv hu
        obtain ⟨m', hm'⟩ := put_ok m v hcell
        obtain ⟨p1, p2, p3, p4⟩ := put_get hm'
        obtain ⟨m'', q1, q2, q3⟩ := T.load1 hr hfit b (a ++ [e]) m' hs' (by
          intro e' he' hc'
          by_cases hx : e'.1 = e.1
          · intro w hw
            rw [hx] at hw ⊢
            rw [p1, hu w hw]
          · rcases List.mem_append.1 he' with h1 | h1
            · intro w hw
              have hne : cell e'.1 ≠ cell e.1 := fun hh => hx (T.inj e' (by rw [hs]; simp [h1]) e he hh)
              rw [p2 _ hne]
              exact h e' h1 hc' w hw
            · simp only [List.mem_singleton] at h1
              rw [h1] at hx
              exact absurd rfl hx)
        exact ⟨m', m'', hm', q1, by rw [q2, p3], q3⟩
      cases hc : (P.heap.lab e.1).isConst with
      | true =>
        rcases const_event (T.means e he) hc (no_bool (T.means e he)) with ⟨v, hl, hev⟩ | ⟨v, hl, hev⟩
        · obtain ⟨m', m'', h1, h2, h3⟩ := hdone (.int v) (.int hl) (by intro w hw; cases hw <;> simp_all)
          exact ⟨m'', by simp only [List.map_cons, load, hev, BzMon.load1, h1, Option.bind_some, h2], h3⟩
        · obtain ⟨m', m'', h1, h2, h3⟩ := hdone (.flt (ops.ofBits v)) (.float hl) (by intro w hw; cases hw <;> simp_all)
          exact ⟨m'', by simp only [List.map_cons, load, hev, BzMon.load1, h1, Option.bind_some, h2], h3⟩
      | false =>
        have hev := var_event hr ((T.needs e.1).1 ⟨e, he, rfl⟩).1 (T.engine he) (T.means e he) hc
        have hne : e.2.op ≠ .prev := by
          intro hp
          obtain ⟨ty, hl⟩ := ((T.means e he).op_prev hr ((T.needs e.1).1 ⟨e, he, rfl⟩).1 (T.engine he)).1 hp
          exact T.prev1 e (by rw [hs]; simp) ty hl
        have hld : m.load1 ops lim (ev e) = some m := by
          rw [hev]
          simp only [BzMon.load1]
          split
          · next h => simp only [Option.some.injEq] at h; exact absurd h hne
          · rfl
        obtain ⟨m'', q1, q2, q3⟩ := T.load1 hr hfit b (a ++ [e]) m hs' (by
          intro e' he' hc'
          rcases List.mem_append.1 he' with h1 | h1
          · exact h e' h1 hc'
          · simp only [List.mem_singleton] at h1
            rw [h1, hc] at hc'
            simp at hc')
        exact ⟨m'', by simp only [List.map_cons, load, hld, Option.bind_some, q1], q2, q3⟩

/-- A previous-value instruction. -/
theorem BzTable.prevEv (T : P.BzTable A cell L1 L2) (hr : P.Ready) (hF : ∀ i ∈ A.bz, (Instr.bz i).Fits) {e} (he : e ∈ L2) :
    ∃ ty c d, P.heap.lab e.1 = .op .prev ty ∧ P.heap.kids e.1 = [c, d] ∧
      ev e = .bz ⟨cell c, cell d, cell e.1, some .prev⟩ := by
  obtain ⟨ty, c, d, hl, hk⟩ := T.prev2 e he
  have hm := T.means e (by simp [he])
  obtain ⟨k, h1, h2⟩ := hm.bin hl hk
  have hk' : k = .prev := by cases ty <;> simpa [bzOperator] using h1.symm
  subst hk'
  have hfits := hF e.2 (by rw [T.code]; exact List.mem_map.2 ⟨e, by simp [he], rfl⟩)
  refine ⟨ty, c, d, hl, hk, ?_⟩
  have := event_var (i := e.2) (by rw [h2]; simp)
  rw [ev, this, word_cell (c := cell c) hfits (by rw [h2]), h2]

/-- Loading the previous-value instructions: their first values are in place. -/
theorem BzTable.load2 (T : P.BzTable A cell L1 L2) (hr : P.Ready) (hfit : P.BzFits A lim) (hflat : P.FlatPrev)
    (hF : ∀ i ∈ A.bz, (Instr.bz i).Fits) :
    ∀ (b a : List (Nat × BzInstr)) (m : BzMon F), L2 = a ++ b →
      (∀ e ∈ L1, (P.heap.lab e.1).isConst = true → P.Good ops σ cell 0 m e.1) →
      (∀ e ∈ a, P.Good ops σ cell 0 m e.1) →
      ∃ m', load ops lim (b.map ev) m = some m' ∧ m'.time = m.time ∧
        (∀ e ∈ L1, (P.heap.lab e.1).isConst = true → P.Good ops σ cell 0 m' e.1) ∧
        (∀ e ∈ L2, P.Good ops σ cell 0 m' e.1)
  | [], a, m, hs, h, h' => ⟨m, rfl, rfl, h, by simpa [hs] using h'⟩
  | e :: b, a, m, hs, h, h' => by
      have he2 : e ∈ L2 := by rw [hs]; simp
      have he : e ∈ L1 ++ L2 := by simp [he2]
      have hcell := Nat.lt_of_lt_of_le (T.lt e he) hfit.cells
      have hs' : L2 = (a ++ [e]) ++ b := by rw [hs]; simp
      obtain ⟨ty, c, d, hl, hk, hev⟩ := T.prevEv hr hF he2
      obtain ⟨ec, hec, rfl⟩ := T.ops e he c (by simp [cellKids, hl, hk])
      have hcc := Nat.lt_of_lt_of_le (T.lt ec hec) hfit.cells
      have hconst : (P.heap.lab ec.1).isConst = true := by
        rcases (hflat _ _ _ _ ((T.needs _).1 ⟨e, he, rfl⟩) hl hk).1 with ⟨v, hv⟩ | ⟨v, hv⟩ <;> simp [hv, BNode.isConst]
      have hec1 : ec ∈ L1 := by
        rcases List.mem_append.1 hec with h1 | h1
        · exact h1
        · obtain ⟨ty', c', d', hl', _⟩ := T.prev2 ec h1
          simp [hl', BNode.isConst] at hconst
      obtain ⟨m', hm'⟩ := put_ok m (m.vals (cell ec.1)) hcell
      obtain ⟨p1, p2, p3, p4⟩ := put_get hm'
      have hload : m.load1 ops lim (ev e) = some m' := by
        rw [hev]
        simp only [BzMon.load1, BzMon.get, if_pos hcc, Option.bind_some]
        exact hm'
      obtain ⟨m'', q1, q2, q3, q4⟩ := T.load2 hr hfit hflat hF b (a ++ [e]) m' hs' (by
          intro e' he' hc' w hw
          have hne : cell e'.1 ≠ cell e.1 := by
            intro hh
            have := T.inj e' (by simp [he']) e he hh
            rw [this, hl] at hc'
            simp [BNode.isConst] at hc'
          rw [p2 _ hne]
          exact h e' he' hc' w hw) (by
          intro e' he' w hw
          by_cases hx : e'.1 = e.1
          · rw [hx] at hw ⊢
            rw [p1]
            refine h ec hec1 hconst w ?_
            generalize hz : e.1 = z at hw hl hk
            cases hw with
            | first h1 h2 h3 => rw [hk] at h2; simp only [List.cons.injEq] at h2; rw [h2.1]; exact h3
            | int1 h1 h2 h3 h4 => rw [hk] at h2; simp at h2
            | flt1 h1 h2 h3 h4 => rw [hk] at h2; simp at h2
            | int2 h1 h2 h3 h4 h5 => rw [hl] at h1; simp only [BNode.op.injEq] at h1; rw [← h1.1] at h5; simp [OpK.int2] at h5
            | flt2 h1 h2 h3 h4 h5 => rw [hl] at h1; simp only [BNode.op.injEq] at h1; rw [← h1.1] at h5; simp [OpK.flt2] at h5
            | _ => simp_all
          · rcases List.mem_append.1 he' with h1 | h1
            · have hne : cell e'.1 ≠ cell e.1 := fun hh => hx (T.inj e' (by rw [hs]; simp [h1]) e he hh)
              rw [p2 _ hne]
              exact h' e' h1 w hw
            · simp only [List.mem_singleton] at h1
              rw [h1] at hx
              exact absurd rfl hx)
      exact ⟨m'', by simp only [List.map_cons, load, hload, Option.bind_some, q1], by rw [q2, p3], q3, q4⟩


def rec? : LoadEv → Option BzRec
  | .bz r => some r
  | _ => none

theorem table_eq (es : List LoadEv) : BzMon.table es = es.filterMap rec? := by
  unfold BzMon.table
  congr 1

/-- The ordinary instructions: every cell and every atomic gets its value. -/
theorem BzTable.pass1 (T : P.BzTable A cell L1 L2) (hr : P.Ready) (hfit : P.BzFits A lim)
    (hF : ∀ i ∈ A.bz, (Instr.bz i).Fits) {t : Nat} (hdef : P.BzDefined ops σ t) :
    ∀ (b a : List (Nat × BzInstr)) (m : BzMon F), L1 = a ++ b → m.time = t →
      (∀ e ∈ L1 ++ L2, ((P.heap.lab e.1).isConst = true ∨ e ∈ L2 ∨ e ∈ a) → P.Good ops σ cell t m e.1) →
      (∀ e ∈ a, P.GoodAtom ops σ t m e.1) →
      ∃ m', pass ops lim (σ t) ((b.map ev).filterMap rec?) m = some m' ∧ m'.time = t ∧
        (∀ e ∈ L1 ++ L2, P.Good ops σ cell t m' e.1) ∧ (∀ e ∈ L1, P.GoodAtom ops σ t m' e.1)
  | [], a, m, hs, ht, h, h' => by
      simp only [List.append_nil] at hs
      subst hs
      refine ⟨m, rfl, ht, ?_, h'⟩
      intro e he
      rcases List.mem_append.1 he with h1 | h1
      · exact h e he (.inr (.inr h1))
      · exact h e he (.inr (.inl h1))
  | e :: b, a, m, hs, ht, h, h' => by
      have he1 : e ∈ L1 := by rw [hs]; simp
      have he : e ∈ L1 ++ L2 := by simp [he1]
      have hneed : P.NeedsCell e.1 := (T.needs e.1).1 ⟨e, he, rfl⟩
      have hcell := Nat.lt_of_lt_of_le (T.lt e he) hfit.cells
      have hs' : L1 = (a ++ [e]) ++ b := by rw [hs]; simp
      have hfits : (Instr.bz e.2).Fits := hF e.2 (by rw [T.code]; exact List.mem_map.2 ⟨e, he, rfl⟩)
      have hkid : ∀ c ∈ P.cellKids e.1, ∀ w, P.Value ops σ t c w → m.get lim (cell c) = some w := by
        intro c hc w hw
        have hcm : ∃ e' ∈ L1 ++ L2, e'.1 = c ∧ (e' ∈ L2 ∨ e' ∈ a) := by
          rcases T.before a e b hs c hc with ⟨e', h1, h2⟩ | ⟨e', h1, h2⟩
          · exact ⟨e', by rw [hs]; simp [h1], h2, .inr h1⟩
          · exact ⟨e', by simp [h1], h2, .inl h1⟩
        obtain ⟨e', h1, rfl, h2⟩ := hcm
        have := h e' h1 (.inr h2) w hw
        simp only [BzMon.get, Nat.lt_of_lt_of_le (T.lt e' h1) hfit.cells, if_true, this]
      cases hc : (P.heap.lab e.1).isConst with
      | true =>
        have hev : rec? (ev e) = none := by
          rcases const_event (T.means e he) hc (no_bool (T.means e he)) with ⟨v, hl, hev⟩ | ⟨v, hl, hev⟩ <;> rw [hev] <;> rfl
        obtain ⟨m', q1, q2⟩ := T.pass1 hr hfit hF hdef b (a ++ [e]) m hs' ht (by
          intro e' he' hh
          rcases hh with hh | hh | hh
          · exact h e' he' (.inl hh)
          · exact h e' he' (.inr (.inl hh))
          · rcases List.mem_append.1 hh with h1 | h1
            · exact h e' he' (.inr (.inr h1))
            · simp only [List.mem_singleton] at h1
              subst h1
              exact h e' he' (.inl hc)) (by
          intro e' he'
          rcases List.mem_append.1 he' with h1 | h1
          · exact h' e' h1
          · simp only [List.mem_singleton] at h1
            subst h1
            intro x c cs b hl
            simp [hl, BNode.isConst] at hc)
        exact ⟨m', by simp only [List.map_cons, List.filterMap_cons, hev]; exact q1, q2⟩
      | false =>
        by_cases hat : P.heap.lab e.1 = .atomic
        · -- store
          obtain ⟨c, cs, v, hk, hv⟩ := hdef.atom e.1 hneed hat
          obtain ⟨x, hx, hxl⟩ := hfit.atomics e.1 hneed hat
          have hm := T.means e he
          unfold BzMeans at hm
          rw [hat, hk] at hm
          simp only [hx, Option.getD_some] at hm
          have hev : ev e = .bz ⟨cell c, x, cell e.1, some .store⟩ := by
            have := event_var (i := e.2) (by rw [hm]; simp)
            rw [ev, this, word_cell (c := cell c) hfits (by rw [hm]), hm]
          have hg := hkid c (by simp [cellKids, hat, hk]) _ hv
          obtain ⟨m', hm', hup⟩ : ∃ m', m' = { m with atoms := fun y => if y = x then decide (v ≠ 0) else m.atoms y } ∧
              m.update ops lim (σ t) ⟨cell c, x, cell e.1, some .store⟩ = some m' := by
            refine ⟨_, rfl, ?_⟩
            simp only [update, hg, Option.bind_some, Cell.i, hxl, if_true]
          have hvals : m'.vals = m.vals := by rw [hm']
          obtain ⟨m'', q1, q2⟩ := T.pass1 hr hfit hF hdef b (a ++ [e]) m' hs' (by rw [hm']; exact ht) (by
            intro e' he' hh w hw
            rw [hvals]
            rcases hh with hh | hh | hh
            · exact h e' he' (.inl hh) w hw
            · exact h e' he' (.inr (.inl hh)) w hw
            · rcases List.mem_append.1 hh with h1 | h1
              · exact h e' he' (.inr (.inr h1)) w hw
              · simp only [List.mem_singleton] at h1
                subst h1
                exact absurd hw (atomic_no_value hat)) (by
            intro e' he' y c' cs' w hl' hy hk' hw
            by_cases hxy : y = x
            · subst hxy
              have heq : e'.1 = e.1 := by
                refine hfit.own e'.1 e.1 y ?_ hneed hl' hat hy hx
                refine (T.needs e'.1).1 ⟨e', ?_, rfl⟩
                rw [hs']; simp only [List.mem_append] at he' ⊢; tauto
              rw [heq, hk] at hk'
              simp only [List.cons.injEq] at hk'
              rw [← hk'.1] at hw
              have h2 := hkid c (by simp [cellKids, hat, hk]) _ hw
              rw [hg] at h2
              simp only [Option.some.injEq, Cell.int.injEq] at h2
              rw [hm', h2]
              simp
            · rw [hm']
              simp only [hxy, if_false]
              rcases List.mem_append.1 he' with h1 | h1
              · exact h' e' h1 y c' cs' w hl' hy hk' hw
              · simp only [List.mem_singleton] at h1
                subst h1
                rw [hx] at hy
                simp only [Option.some.injEq] at hy
                exact absurd hy.symm hxy)
          refine ⟨m'', ?_, q2⟩
          simp only [List.map_cons, List.filterMap_cons, hev, rec?, pass, hup, Option.bind_some]
          exact q1
        · obtain ⟨v, hv⟩ := hdef.value e.1 hneed hat
          have hkid' : ∀ w, P.Value ops σ t e.1 w → ∃ r, ev e = .bz r ∧ m.update ops lim (σ t) r = m.put lim (cell e.1) w := by
            intro w hw
            exact exec_node (T.means e he) hfits hkid (fun ty s hl => hfit.signals e.1 ty s hneed hl) ht (T.prev1 e he1) hc hw
          obtain ⟨r, hev, hup⟩ := hkid' v hv
          obtain ⟨m', hm'⟩ := put_ok m v hcell
          obtain ⟨p1, p2, p3, p4⟩ := put_get hm'
          have hu : ∀ w, P.Value ops σ t e.1 w → w = v := by
            intro w hw
            obtain ⟨r', hev', hup'⟩ := hkid' w hw
            rw [hev] at hev'
            simp only [LoadEv.bz.injEq] at hev'
            rw [← hev', hup, hm'] at hup'
            obtain ⟨p1', -⟩ := put_get hup'.symm
            rw [← p1', p1]
          obtain ⟨m'', q1, q2⟩ := T.pass1 hr hfit hF hdef b (a ++ [e]) m' hs' (by rw [p3]; exact ht) (by
            intro e' he' hh w hw
            by_cases hx : e'.1 = e.1
            · rw [hx] at hw ⊢
              rw [p1, hu w hw]
            · have hne : cell e'.1 ≠ cell e.1 := fun hh => hx (T.inj e' he' e he hh)
              rw [p2 _ hne]
              rcases hh with hh | hh | hh
              · exact h e' he' (.inl hh) w hw
              · exact h e' he' (.inr (.inl hh)) w hw
              · rcases List.mem_append.1 hh with h1 | h1
                · exact h e' he' (.inr (.inr h1)) w hw
                · simp only [List.mem_singleton] at h1
                  rw [h1] at hx
                  exact absurd rfl hx) (by
            intro e' he' y c' cs' w hl' hy hk' hw
            rw [p4]
            rcases List.mem_append.1 he' with h1 | h1
            · exact h' e' h1 y c' cs' w hl' hy hk' hw
            · simp only [List.mem_singleton] at h1
              subst h1
              exact absurd hl' hat)
          refine ⟨m'', ?_, q2⟩
          simp only [List.map_cons, List.filterMap_cons, hev, rec?, pass, hup, hm', Option.bind_some]
          exact q1

/-- The previous-value instructions: they hold their values of the next step. -/
theorem BzTable.pass2 (T : P.BzTable A cell L1 L2) (hr : P.Ready) (hfit : P.BzFits A lim) (hflat : P.FlatPrev)
    (hF : ∀ i ∈ A.bz, (Instr.bz i).Fits) {t : Nat} :
    ∀ (b a : List (Nat × BzInstr)) (m : BzMon F), L2 = a ++ b → m.time = t →
      (∀ e ∈ L1, P.Good ops σ cell t m e.1) → (∀ e ∈ L1, P.GoodAtom ops σ t m e.1) →
      (∀ e ∈ a, P.Good ops σ cell (t + 1) m e.1) →
      ∃ m', pass ops lim (σ t) ((b.map ev).filterMap rec?) m = some m' ∧ m'.time = t ∧
        (∀ e ∈ L1, P.Good ops σ cell t m' e.1) ∧ (∀ e ∈ L1, P.GoodAtom ops σ t m' e.1) ∧
        (∀ e ∈ L2, P.Good ops σ cell (t + 1) m' e.1)
  | [], a, m, hs, ht, h, h', h'' => ⟨m, rfl, ht, h, h', by simpa [hs] using h''⟩
  | e :: b, a, m, hs, ht, h, h', h'' => by
      have he2 : e ∈ L2 := by rw [hs]; simp
      have he : e ∈ L1 ++ L2 := by simp [he2]
      have hcell := Nat.lt_of_lt_of_le (T.lt e he) hfit.cells
      have hs' : L2 = (a ++ [e]) ++ b := by rw [hs]; simp
      obtain ⟨ty, c, d, hl, hk, hev⟩ := T.prevEv hr hF he2
      obtain ⟨ed, hed, rfl⟩ := T.ops e he d (by simp [cellKids, hl, hk])
      have hdc := Nat.lt_of_lt_of_le (T.lt ed hed) hfit.cells
      have hed1 : ed ∈ L1 := by
        rcases List.mem_append.1 hed with h1 | h1
        · exact h1
        · obtain ⟨ty', c', d', hl', _⟩ := T.prev2 ed h1
          exact absurd hl' ((hflat _ _ _ _ ((T.needs _).1 ⟨e, he, rfl⟩) hl hk).2 ty')
      obtain ⟨m', hm'⟩ := put_ok m (m.vals (cell ed.1)) hcell
      obtain ⟨p1, p2, p3, p4⟩ := put_get hm'
      have hup : m.update ops lim (σ t) ⟨cell c, cell ed.1, cell e.1, some .prev⟩ = some m' := by
        simp only [update, BzMon.get, if_pos hdc, Option.bind_some]
        exact hm'
      have hne1 : ∀ e' ∈ L1, cell e'.1 ≠ cell e.1 := by
        intro e' he' hh
        have := T.inj e' (by simp [he']) e he hh
        exact T.prev1 e' he' ty (by rw [this]; exact hl)
      obtain ⟨m'', q1, q2⟩ := T.pass2 hr hfit hflat hF (t := t) b (a ++ [e]) m' hs' (p3.trans ht) (by
          intro e' he' w hw
          rw [p2 _ (hne1 e' he')]
          exact h e' he' w hw) (by
          intro e' he' y c' cs' w hl' hy hk' hw
          rw [p4]
          exact h' e' he' y c' cs' w hl' hy hk' hw) (by
          intro e' he' w hw
          by_cases hx : e'.1 = e.1
          · rw [hx] at hw ⊢
            rw [p1]
            refine h ed hed1 w ?_
            generalize hz : e.1 = z at hw hl hk
            cases hw with
            | next h1 h2 h3 =>
              rw [hk] at h2; simp only [List.cons.injEq] at h2; rw [h2.2.1]; exact h3
            | int1 h1 h2 h3 h4 => rw [hk] at h2; simp at h2
            | flt1 h1 h2 h3 h4 => rw [hk] at h2; simp at h2
            | int2 h1 h2 h3 h4 h5 => rw [hl] at h1; simp only [BNode.op.injEq] at h1; rw [← h1.1] at h5; simp [OpK.int2] at h5
            | flt2 h1 h2 h3 h4 h5 => rw [hl] at h1; simp only [BNode.op.injEq] at h1; rw [← h1.1] at h5; simp [OpK.flt2] at h5
            | _ => simp_all
          · rcases List.mem_append.1 he' with h1 | h1
            · have hne : cell e'.1 ≠ cell e.1 := fun hh => hx (T.inj e' (by rw [hs]; simp [h1]) e he hh)
              rw [p2 _ hne]
              exact h'' e' h1 w hw
            · simp only [List.mem_singleton] at h1
              rw [h1] at hx
              exact absurd rfl hx)
      refine ⟨m'', ?_, q2⟩
      simp only [List.map_cons, List.filterMap_cons, hev, rec?, pass, hup, Option.bind_some]
      exact q1

/-- The state between steps. -/
structure Between (P : BProg) (ops : FloatOps F) (σ : Nat → Nat → Cell F) (cell : Nat → Nat) (L1 L2 : List (Nat × BzInstr))
    (t : Nat) (m : BzMon F) : Prop where
  time : m.time = t
  const : ∀ e ∈ L1, (P.heap.lab e.1).isConst = true → P.Good ops σ cell t m e.1
  prev : ∀ e ∈ L2, P.Good ops σ cell t m e.1
  atom : ∀ s, t = s + 1 → ∀ e ∈ L1, P.GoodAtom ops σ s m e.1

theorem BzTable.started (T : P.BzTable A cell L1 L2) (hr : P.Ready) (hfit : P.BzFits A lim) (hflat : P.FlatPrev)
    (hF : ∀ i ∈ A.bz, (Instr.bz i).Fits) :
    ∃ m, load ops lim (A.bz.map fun i => (Instr.bz i).event) (BzMon.zero F) = some m ∧ P.Between ops σ cell L1 L2 0 m := by
  obtain ⟨m1, a1, a2, a3⟩ := T.load1 (ops := ops) (σ := σ) hr hfit L1 [] (BzMon.zero F) rfl (by simp)
  obtain ⟨m2, b1, b2, b3, b4⟩ := T.load2 (ops := ops) (σ := σ) hr hfit hflat hF L2 [] m1 rfl a3 (by simp)
  refine ⟨m2, ?_, by rw [b2, a2]; rfl, b3, b4, fun s hs => by omega⟩
  have : (A.bz.map fun i => (Instr.bz i).event) = L1.map ev ++ L2.map ev := by
    rw [T.code, List.map_map, List.map_append]; rfl
  rw [this, load_append, a1]
  exact b1

theorem BzTable.step (T : P.BzTable A cell L1 L2) (hr : P.Ready) (hfit : P.BzFits A lim) (hflat : P.FlatPrev)
    (hF : ∀ i ∈ A.bz, (Instr.bz i).Fits) {t : Nat} (hdef : P.BzDefined ops σ t) {m : BzMon F}
    (h : P.Between ops σ cell L1 L2 t m) :
    ∃ m', pass ops lim (σ t) (table (A.bz.map fun i => (Instr.bz i).event)) m = some m' ∧
      P.Between ops σ cell L1 L2 (t + 1) { m' with time := m'.time + 1 } := by
  obtain ⟨m1, a1, a2, a3, a4⟩ := T.pass1 (ops := ops) (σ := σ) hr hfit hF hdef L1 [] m rfl h.time (by
    intro e he hh
    rcases hh with hh | hh | hh
    · rcases List.mem_append.1 he with h1 | h1
      · exact h.const e h1 hh
      · exact h.prev e h1
    · exact h.prev e hh
    · simp at hh) (by simp)
  obtain ⟨m2, b1, b2, b3, b4, b5⟩ := T.pass2 (ops := ops) (σ := σ) hr hfit hflat hF L2 [] m1 rfl a2
    (fun e he => a3 e (by simp [he])) a4 (by simp)
  refine ⟨m2, ?_, by simp [b2], ?_, ?_, ?_⟩
  · have : (A.bz.map fun i => (Instr.bz i).event) = L1.map ev ++ L2.map ev := by
      rw [T.code, List.map_map, List.map_append]; rfl
    rw [this, table_eq, List.filterMap_append, pass_append, a1]
    exact b1
  · intro e he hc v hv
    exact b3 e he v (const_value hc hv)
  · exact b5
  · intro s hs e he
    simp only [Nat.add_right_cancel_iff] at hs
    subst hs
    exact b4 e he

theorem BzTable.run (T : P.BzTable A cell L1 L2) (hr : P.Ready) (hfit : P.BzFits A lim) (hflat : P.FlatPrev)
    (hF : ∀ i ∈ A.bz, (Instr.bz i).Fits) {m : BzMon F} (h : P.Between ops σ cell L1 L2 0 m) :
    ∀ n, (∀ t, t < n → P.BzDefined ops σ t) →
      ∃ m', BzMon.run ops lim (table (A.bz.map fun i => (Instr.bz i).event)) σ n m = some m' ∧ P.Between ops σ cell L1 L2 n m'
  | 0, _ => ⟨m, rfl, h⟩
  | n + 1, hd => by
      obtain ⟨m1, a1, a2⟩ := T.run hr hfit hflat hF h n (fun t ht => hd t (by omega))
      obtain ⟨m2, b1, b2⟩ := T.step hr hfit hflat hF (hd n (by omega)) a2
      exact ⟨_, by simp only [BzMon.run, a1, Option.bind_some, b1, Option.map_some], b2⟩

end

end BProg
end R2U2
