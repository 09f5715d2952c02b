import Verif.Lemmas.Config
import Verif.Lemmas.AsmFacts
import Verif.Model.Bounds
import Verif.Spec.Binary
/-
The configuration records of a compiled program have the shape `start_ok` asks for.
-/
namespace R2U2
open BProg

def BNode.isTemp : BNode → Bool
  | .temp _ _ _ => true
  | _ => false

def BNode.lo : BNode → Nat
  | .temp _ l _ => l
  | _ => 0

def BNode.hi : BNode → Nat
  | .temp _ _ u => u
  | _ => 0

/-- The functions agree with the nodes of a table whose first index is `n`. -/
structure Fits4 (P : BProg) (scq : Nat → Option (Int × Int)) (n : Nat) (d : Dict TlInstr) (len : Nat → Nat)
    (tmp : Nat → Bool) (lb ub : Nat → Nat) : Prop where
  len : ∀ (i : Nat) e, d[i]? = some e → len (n + i) = (queueLen scq e.1).toNat
  tmp : ∀ (i : Nat) e, d[i]? = some e → tmp (n + i) = (P.heap.lab e.1).isTemp
  lb : ∀ (i : Nat) e, d[i]? = some e → lb (n + i) = (P.heap.lab e.1).lo
  ub : ∀ (i : Nat) e, d[i]? = some e → ub (n + i) = (P.heap.lab e.1).hi

theorem Fits4.tail {P : BProg} {scq} {n : Nat} {e : Nat × TlInstr} {d : Dict TlInstr} {len : Nat → Nat}
    {tmp : Nat → Bool} {lb ub : Nat → Nat} (h : Fits4 P scq n (e :: d) len tmp lb ub) : Fits4 P scq (n + 1) d len tmp lb ub := by
  refine ⟨fun i e' hi => ?_, fun i e' hi => ?_, fun i e' hi => ?_, fun i e' hi => ?_⟩
  · have := h.len (i + 1) e' hi; rw [← this]; congr 1; omega
  · have := h.tmp (i + 1) e' hi; rw [← this]; congr 1; omega
  · have := h.lb (i + 1) e' hi; rw [← this]; congr 1; omega
  · have := h.ub (i + 1) e' hi; rw [← this]; congr 1; omega

/-- All configuration records of a table, before the interval records are moved. -/
def cgOf (P : BProg) (scq : Nat → Option (Int × Int)) (d : Dict TlInstr) : List CgInstr :=
  (d.map (fun e => P.genScq scq e.2.id e.1)).flatten

theorem cgOf_cons (P : BProg) (scq : Nat → Option (Int × Int)) (e : Nat × TlInstr) (d : Dict TlInstr) :
    cgOf P scq (e :: d) = P.genScq scq e.2.id e.1 ++ cgOf P scq d := rfl

theorem shape {P : BProg} {scq : Nat → Option (Int × Int)} {len : Nat → Nat} {tmp : Nat → Bool} {lb ub : Nat → Nat} :
    ∀ (d : Dict TlInstr) (n : Nat), Ids (·.2.id) n d → Fits4 P scq n d len tmp lb ub →
    (((cgOf P scq d).filter fun c => !c.temp).map fun c => c.instr.asRec) =
      (List.range' n d.length).map (sizeRec len tmp) ∧
    (((cgOf P scq d).filter fun c => c.temp).map fun c => c.instr.asRec) =
      ((List.range' n d.length).filter tmp).map (tempRec lb ub) := by
  intro d
  induction d with
  | nil => intro n _ _; exact ⟨rfl, rfl⟩
  | cons e d ih =>
      intro n hi hf
      obtain ⟨i1, i2⟩ := ih (n + 1) hi.2 hf.tail
      have h1 := hf.len 0 e rfl
      have h2 := hf.tmp 0 e rfl
      have h3 := hf.lb 0 e rfl
      have h4 := hf.ub 0 e rfl
      have h5 : e.2.id = n := hi.1
      simp only [Nat.add_zero] at h1 h2 h3 h4
      simp only [cgOf_cons, List.filter_append, List.map_append, i1, i2, List.length_cons, List.map_cons,
        List.range'_succ, List.filter_cons, h5, h2]
      unfold genScq
      cases hl : P.heap.lab e.1 with
      | temp o l u =>
          rw [hl] at h2 h3 h4
          simp only [BNode.isTemp] at h2 ⊢
          refine ⟨?_, ?_⟩
          · simp [TlInstr.asRec, sizeRec, h1, h2]
          · simp [TlInstr.asRec, tempRec, h3, h4, BNode.lo, BNode.hi]
      | _ =>
          rw [hl] at h2
          simp only [BNode.isTemp] at h2 ⊢
          refine ⟨?_, ?_⟩
          · simp [TlInstr.asRec, sizeRec, h1, h2]
          · simp

/-- The node whose verdicts instruction `i` computes. -/
def nodeAt (d : Dict TlInstr) (i : Nat) : Nat := (d[i]?.map (·.1)).getD 0

def lenAt (scq : Nat → Option (Int × Int)) (d : Dict TlInstr) (i : Nat) : Nat :=
  if i < d.length then (queueLen scq (nodeAt d i)).toNat else 1

theorem nodeAt_some {d : Dict TlInstr} {i : Nat} {e : Nat × TlInstr} (h : d[i]? = some e) : nodeAt d i = e.1 := by
  simp [nodeAt, h]

theorem fits4 (P : BProg) (scq : Nat → Option (Int × Int)) (d : Dict TlInstr) :
    Fits4 P scq 0 d (lenAt scq d) (fun i => (P.heap.lab (nodeAt d i)).isTemp) (fun i => (P.heap.lab (nodeAt d i)).lo)
      (fun i => (P.heap.lab (nodeAt d i)).hi) := by
  refine ⟨fun i e hi => ?_, fun i e hi => ?_, fun i e hi => ?_, fun i e hi => ?_⟩ <;> simp only [Nat.zero_add]
  · have := (List.getElem?_eq_some_iff.1 hi).1
    rw [lenAt, if_pos this, nodeAt_some hi]
  · rw [nodeAt_some hi]
  · rw [nodeAt_some hi]
  · rw [nodeAt_some hi]

theorem ids_getElem {β : Type} {f : β → Nat} : ∀ {n : Nat} {l : List β}, Ids f n l → ∀ {i : Nat} {b : β}, l[i]? = some b → f b = n + i
  | _, [], _, i, b, h => by simp at h
  | n, c :: l, hI, 0, b, h => by simp only [List.getElem?_cons_zero, Option.some.injEq] at h; rw [← h]; exact hI.1
  | n, c :: l, hI, i + 1, b, h => by
      simp only [List.getElem?_cons_succ] at h
      have := ids_getElem hI.2 h
      omega

def slotSum (l : List CgInstr) : Int := ((l.filter fun c => !c.temp).map fun c => c.instr.v1).sum

def tempCount (l : List CgInstr) : Nat := (l.filter fun c => c.temp).length

/-- The sum of the recorded lengths is what the queues take. -/
theorem sum_slots {P : BProg} {scq : Nat → Option (Int × Int)} {len : Nat → Nat} {tmp : Nat → Bool} {lb ub : Nat → Nat} :
    ∀ (d : Dict TlInstr) (n : Nat), Fits4 P scq n d len tmp lb ub → (∀ e ∈ d, 0 ≤ queueLen scq e.1) →
    (slotSum (cgOf P scq d)).toNat + tempCount (cgOf P scq d) * 4 + Flat.offOf len tmp n =
      Flat.offOf len tmp (n + d.length) ∧ 0 ≤ slotSum (cgOf P scq d) := by
  intro d
  induction d with
  | nil => intro n _ _; simp [slotSum, tempCount, cgOf]
  | cons e d ih =>
      intro n hf hp
      obtain ⟨i1, i2⟩ := ih (n + 1) hf.tail fun e' he' => hp e' (List.mem_cons_of_mem _ he')
      have h1 := hf.len 0 e rfl
      have h2 := hf.tmp 0 e rfl
      simp only [Nat.add_zero] at h1 h2
      have hpe := hp e List.mem_cons_self
      have hoff : Flat.offOf len tmp (n + 1) = Flat.offOf len tmp n + Flat.szOf len tmp n := rfl
      have hlen : n + (e :: d).length = n + 1 + d.length := by simp; omega
      have hs : slotSum (cgOf P scq (e :: d)) = queueLen scq e.1 + slotSum (cgOf P scq d) := by
        rw [cgOf_cons]
        unfold slotSum genScq
        cases P.heap.lab e.1 <;> simp
      have ht : tempCount (cgOf P scq (e :: d)) = (if (P.heap.lab e.1).isTemp then 1 else 0) + tempCount (cgOf P scq d) := by
        rw [cgOf_cons]
        unfold tempCount genScq
        cases P.heap.lab e.1 <;> simp [BNode.isTemp]
        omega
      rw [hlen, ← i1, hoff, hs, ht]
      unfold Flat.szOf
      rw [h1, h2]
      split <;> omega

namespace BProg

/-- Exactly the temporal nodes have instructions with an interval. -/
theorem temp_op {P : BProg} (hr : P.Ready) (past : Bool) (d : Dict TlInstr) (e : Nat × TlInstr) (he : P.TlFor past d e.1 e.2) :
    e.2.op.isTemporal = true ↔ ∃ o lb ub, P.heap.lab e.1 = .temp o lb ub := by
  unfold TlFor at he
  cases ha : P.atomicId e.1 with
  | some a =>
    rw [ha] at he
    simp only at he
    rw [he.1]
    have hne := hr.atoms_tl e.1 (by simp [ha])
    refine ⟨fun h => by simp [TlOp.isTemporal] at h, ?_⟩
    rintro ⟨o, lb, ub, hl⟩
    exact absurd (by simp [engine, hl, BNode.engine]) hne
  | none =>
    rw [ha] at he
    simp only at he
    have hop : (∃ n, P.heap.lab e.1 = .formula n ∧ e.2.op = .ret) ∨
        tlOperator past (P.heap.lab e.1) = some e.2.op := by
      unfold tlAt genTl at he
      split at he
      · next n hl =>
        left
        refine ⟨n, hl, ?_⟩
        split at he
        · simp at he
        · split at he
          · simp at he
          · simp only [Option.map_map, Option.map_eq_some_iff, Function.comp] at he
            obtain ⟨j, _, h2⟩ := he
            rw [← h2]
      · right
        split at he
        · next h1 _ => simp only [Option.map_some, Option.some.injEq] at he; rw [h1, ← he]
        · next h1 _ => simp only [Option.map_some, Option.some.injEq] at he; rw [h1, ← he]
        · next h1 _ => simp only [Option.map_some, Option.some.injEq] at he; rw [h1, ← he]
        · simp at he
    rcases hop with ⟨n, hl, ho⟩ | ho
    · rw [ho, hl]; simp [TlOp.isTemporal]
    · generalize e.2.op = k at ho
      cases hl : P.heap.lab e.1 with
      | op o t =>
        rw [hl] at ho
        cases o <;> simp [tlOperator] at ho <;> subst ho <;> simp [TlOp.isTemporal]
      | temp o lb ub =>
        rw [hl] at ho
        cases o <;> cases past <;> simp [tlOperator] at ho <;> subst ho <;> simp [TlOp.isTemporal]
      | _ => rw [hl] at ho; simp [tlOperator] at ho

/-- What is known of the temporal instruction table: `d` pairs each instruction with its node,
`q` is the queue of a node. -/
structure Table (P : BProg) (scq : Nat → Option (Int × Int)) (A : Assembly) (q : Nat → Nat) (d : Dict TlInstr) : Prop where
  instrs : A.ft ++ A.pt = d.map (·.2)
  cg : A.cg = ((cgOf P scq d).filter fun c => !c.temp) ++ ((cgOf P scq d).filter fun c => c.temp)
  ids : Ids (·.2.id) 0 d
  nodup : (Dict.keys d).Nodup
  needs : ∀ x, x ∈ Dict.keys d ↔ P.NeedsTl P.ft x ∨ P.NeedsTl P.pt x
  queue : ∀ e ∈ d, q e.1 = e.2.id
  means : ∀ e ∈ d, (P.NeedsTl P.ft e.1 ∧ P.TlMeans false q e.1 e.2) ∨ (P.NeedsTl P.pt e.1 ∧ P.TlMeans true q e.1 e.2)
  temp : ∀ e ∈ d, e.2.op.isTemporal = true ↔ ∃ o lb ub, P.heap.lab e.1 = .temp o lb ub

theorem table (P : BProg) (hr : P.Ready) (hsep : P.Separate) (hcov : P.Covered)
    (fuel : Nat) (scq : Nat → Option (Int × Int)) (A : Assembly) (h : genAssembly fuel P scq = some A) :
    ∃ q d, Table P scq A q d := by
  obtain ⟨o1, o2, bzd, ftd, ptd, hf, n1, n2, m1, m2, k1, k2⟩ := facts hr hsep h
  -- temporal side
  have hnc : ∀ x, P.engine x = .tl → ((P.heap.lab x).isConst = (P.heap.lab x).isBoolConst) := by
    intro x hx
    unfold engine at hx
    cases hl : P.heap.lab x <;> simp_all [BNode.isConst, BNode.isBoolConst, BNode.engine]
  have hneedsF : ∀ x, x ∈ Dict.keys ftd ↔ P.NeedsTl P.ft x := by
    intro x
    rw [hf.ftKeys]
    simp only [List.mem_filter, m1, decide_eq_true_eq, hr.keyTl_iff hr.ftSet, NeedsTl]
    have := hnc x
    constructor
    · rintro ⟨a, b | b⟩
      · exact ⟨a, .inl b⟩
      · exact ⟨a, .inr ⟨b.1, by rw [← this b.1]; exact b.2⟩⟩
    · rintro ⟨a, b | b⟩
      · exact ⟨a, .inl b⟩
      · exact ⟨a, .inr ⟨b.1, by rw [this b.1]; exact b.2⟩⟩
  have hneedsP : ∀ x, x ∈ Dict.keys ptd ↔ P.NeedsTl P.pt x := by
    intro x
    rw [hf.ptKeys]
    simp only [List.mem_filter, m2, decide_eq_true_eq, hr.keyTl_iff hr.ptSet, NeedsTl]
    have := hnc x
    constructor
    · rintro ⟨a, b | b⟩
      · exact ⟨a, .inl b⟩
      · exact ⟨a, .inr ⟨b.1, by rw [← this b.1]; exact b.2⟩⟩
    · rintro ⟨a, b | b⟩
      · exact ⟨a, .inl b⟩
      · exact ⟨a, .inr ⟨b.1, by rw [this b.1]; exact b.2⟩⟩
  have hdisj : ∀ x, P.NeedsTl P.ft x → P.NeedsTl P.pt x → False := by
    intro x hx hy
    have hb := hsep x hx.1 hy.1
    rcases hx.2 with h | h
    · refine hr.atoms_tl x h ?_
      unfold engine; cases hl : P.heap.lab x <;> simp_all [BNode.isBoolConst, BNode.engine]
    · rw [hb] at h; simp at h
  have hndF : (Dict.keys ftd).Nodup := by rw [hf.ftKeys]; exact n1.filter _
  have hndP : (Dict.keys ptd).Nodup := by rw [hf.ptKeys]; exact n2.filter _
  have hnd : (Dict.keys (ftd ++ ptd)).Nodup := by
    rw [Dict.keys_append, List.nodup_append]
    refine ⟨hndF, hndP, ?_⟩
    rintro a ha b hb rfl
    exact hdisj a ((hneedsF a).1 ha) ((hneedsP a).1 hb)
  have hids : Ids (·.2.id) 0 (ftd ++ ptd) := Ids.concat hf.ftIds (by simpa using hf.ptIds)
  let q := cellOf (fun i : TlInstr => i.id) (ftd ++ ptd)
  have hq : ∀ c j, (ftd ++ ptd).lookup c = some j → q c = j.id := fun c j hj => cellOf_lookup hj
  have hqF : ∀ c j, ftd.lookup c = some j → q c = j.id := fun c j hj =>
    hq c j (Dict.lookup_append_left hj)
  have hqP : ∀ c j, ptd.lookup c = some j → q c = j.id := by
    intro c j hj
    exact hq c j (Dict.mem_lookup hnd (List.mem_append_right _ (Dict.lookup_mem hj)))
  -- operands of temporal nodes
  have hkid : ∀ r x c, (r = P.ft ∨ r = P.pt) → P.heap.Reachable [r] x → P.engine x = .tl → c ∈ P.heap.kids x →
      (P.heap.lab c).isBoolConst = true ∨ ((P.heap.lab c).isConst = false ∧ P.NeedsTl r c) := by
    intro r x c hrt hx ht hc
    have hany : P.heap.Reachable [P.ft] x ∨ P.heap.Reachable [P.pt] x := by
      rcases hrt with rfl | rfl
      · exact .inl hx
      · exact .inr hx
    rcases Bool.eq_false_or_eq_true (P.heap.lab c).isBoolConst with hb | hb
    · exact .inl hb
    · right
      rcases hcov x c hany ht hc with h | h | h
      · rw [h] at hb; simp at hb
      · refine ⟨?_, .kid hx hc, .inl h⟩
        cases hbz' : P.bz with
        | true => have := hr.atomsBz hbz' c h; simp [this, BNode.isConst]
        | false => obtain ⟨t, s, this⟩ := hr.atomsNo hbz' c h; simp [this, BNode.isConst]
      · exact ⟨by rw [hnc c h]; exact hb, .kid hx hc, .inr ⟨h, hb⟩⟩
  have hmF : ∀ e ∈ ftd, P.TlMeans false q e.1 e.2 := by
    intro e he
    have hne := (hneedsF e.1).1 (List.mem_map.2 ⟨e, he, rfl⟩)
    by_cases hat : P.atomicId e.1 = none
    · refine tlFor_means hqF (hqF _ _ (Dict.mem_lookup hndF he)) ?_ (hf.ftFor e he)
      intro c hc
      have ht : P.engine e.1 = .tl := by
        rcases hne.2 with h | h
        · exact absurd hat h
        · exact h.1
      rcases hkid _ _ c (by simp) hne.1 ht hc with h | ⟨h, h'⟩
      · exact .inl h
      · exact .inr ⟨h, Dict.mem_keys.1 ((hneedsF c).2 h')⟩
    · obtain ⟨a, ha⟩ := Option.ne_none_iff_exists'.1 hat
      have h1 := hf.ftFor e he
      unfold TlFor at h1
      unfold TlMeans
      rw [ha] at h1 ⊢
      simp only at h1 ⊢
      obtain ⟨h1, h2, h3, h4, h5⟩ := h1
      rw [hqF _ _ (Dict.mem_lookup hndF he), ← h1, ← h2, ← h3, ← h4, ← h5]
  have hmP : ∀ e ∈ ptd, P.TlMeans true q e.1 e.2 := by
    intro e he
    have hne := (hneedsP e.1).1 (List.mem_map.2 ⟨e, he, rfl⟩)
    by_cases hat : P.atomicId e.1 = none
    · refine tlFor_means hqP (hqP _ _ (Dict.mem_lookup hndP he)) ?_ (hf.ptFor e he)
      intro c hc
      have ht : P.engine e.1 = .tl := by
        rcases hne.2 with h | h
        · exact absurd hat h
        · exact h.1
      rcases hkid _ _ c (by simp) hne.1 ht hc with h | ⟨h, h'⟩
      · exact .inl h
      · exact .inr ⟨h, Dict.mem_keys.1 ((hneedsP c).2 h')⟩
    · obtain ⟨a, ha⟩ := Option.ne_none_iff_exists'.1 hat
      have h1 := hf.ptFor e he
      unfold TlFor at h1
      unfold TlMeans
      rw [ha] at h1 ⊢
      simp only at h1 ⊢
      obtain ⟨h1, h2, h3, h4, h5⟩ := h1
      rw [hqP _ _ (Dict.mem_lookup hndP he), ← h1, ← h2, ← h3, ← h4, ← h5]
  refine ⟨q, ftd ++ ptd, ⟨by rw [hf.ft, hf.pt, List.map_append], hf.cg, hids, hnd, ?_, ?_, ?_, ?_⟩⟩
  · intro x
    rw [Dict.keys_append, List.mem_append, hneedsF, hneedsP]
  · intro e he
    exact hq _ _ (Dict.mem_lookup hnd he)
  · intro e he
    rcases List.mem_append.1 he with he | he
    · exact .inl ⟨(hneedsF e.1).1 (List.mem_map.2 ⟨e, he, rfl⟩), hmF e he⟩
    · exact .inr ⟨(hneedsP e.1).1 (List.mem_map.2 ⟨e, he, rfl⟩), hmP e he⟩
  · intro e he
    rcases List.mem_append.1 he with he | he
    · exact temp_op hr _ _ _ (hf.ftFor e he)
    · exact temp_op hr _ _ _ (hf.ptFor e he)

theorem Table.atom {P : BProg} {scq : Nat → Option (Int × Int)} {A : Assembly} {q : Nat → Nat} {d : Dict TlInstr}
    (T : Table P scq A q d) {e : Nat × TlInstr} (he : e ∈ d) {k : Bool} {a : Nat} (h : e.2.asRec.ReadsAtom k a) :
    P.atomicId e.1 = some a := by
  have aux : ∀ past, P.TlMeans past q e.1 e.2 → P.atomicId e.1 = some a := by
    intro past hm
    have hop : ∀ c, (P.operandFor q c).1 ≠ .atomic := by
      intro c; unfold operandFor; cases P.heap.lab c <;> simp
    unfold TlMeans at hm
    obtain ⟨h1, h2⟩ := h
    split at hm
    · rename_i a' ha
      rw [hm] at h1 h2
      cases k <;> simp [TlInstr.asRec] at h1 h2
      rw [ha, h2]
    · rw [hm] at h1; cases k <;> simp [TlInstr.asRec] at h1
    · obtain ⟨o, _, hm⟩ := hm; rw [hm] at h1; cases k <;> simp [TlInstr.asRec] at h1
    · obtain ⟨o, _, hm⟩ := hm
      rw [hm] at h1
      cases k <;> simp [TlInstr.asRec] at h1
      exact absurd h1 (hop _)
    · obtain ⟨o, _, hm⟩ := hm
      rw [hm] at h1
      cases k <;> simp [TlInstr.asRec] at h1
      · exact absurd h1 (hop _)
      · exact absurd h1 (hop _)
    · exact hm.elim
  rcases T.means e he with h | h
  · exact aux _ h.2
  · exact aux _ h.2

theorem Table.length {P : BProg} {scq : Nat → Option (Int × Int)} {A : Assembly} {q : Nat → Nat} {d : Dict TlInstr}
    (T : Table P scq A q d) : (A.ft ++ A.pt).length = d.length := by rw [T.instrs, List.length_map]

theorem Table.at {P : BProg} {scq : Nat → Option (Int × Int)} {A : Assembly} {q : Nat → Nat} {d : Dict TlInstr}
    (T : Table P scq A q d) {i : Nat} {r : TlRec} (h : ((A.ft ++ A.pt).map TlInstr.asRec)[i]? = some r) :
    ∃ e, d[i]? = some e ∧ e ∈ d ∧ e.2.asRec = r ∧ e.2.id = i ∧ nodeAt d i = e.1 := by
  rw [T.instrs, List.map_map, List.getElem?_map, Option.map_eq_some_iff] at h
  obtain ⟨e, h1, h2⟩ := h
  refine ⟨e, h1, List.mem_of_getElem? h1, h2, ?_, nodeAt_some h1⟩
  have := ids_getElem T.ids h1
  simpa using this

theorem Table.isTemp {P : BProg} {scq : Nat → Option (Int × Int)} {A : Assembly} {q : Nat → Nat} {d : Dict TlInstr}
    (T : Table P scq A q d) {e : Nat × TlInstr} (he : e ∈ d) : (P.heap.lab e.1).isTemp = e.2.op.isTemporal := by
  cases h : e.2.op.isTemporal with
  | true => obtain ⟨o, l, u, h⟩ := (T.temp e he).1 h; rw [h]; rfl
  | false =>
      cases hl : P.heap.lab e.1 with
      | temp o l u => have := (T.temp e he).2 ⟨o, l, u, hl⟩; rw [h] at this; cases this
      | _ => rfl

/-- Loading a compiled program. -/
theorem Table.start {P : BProg} {scq : Nat → Option (Int × Int)} {A : Assembly} {q : Nat → Nat} {d : Dict TlInstr}
    (T : Table P scq A q d) (hreads : ∀ pre i post, A.ft ++ A.pt = pre ++ i :: post → ∀ r ∈ i.reads, ∃ j ∈ pre, (j.id : Int) = r)
    (hlen : ∀ e ∈ d, 1 ≤ queueLen scq e.1) (bz : Bool) (signals : Nat) (ids : List Nat)
    (hid : ∀ e ∈ d, ∀ a, P.atomicId e.1 = some a → a < countDistinct ids) :
    InTable ((A.ft ++ A.pt).map TlInstr.asRec) (computeBounds bz signals ids A).limits ∧
    ∃ F, Flat.start (computeBounds bz signals ids A).limits (A.cg.map (·.instr.asRec)) ((A.ft ++ A.pt).map TlInstr.asRec) = some F ∧
      F.lim = (computeBounds bz signals ids A).limits ∧ Flat.Wf ((A.ft ++ A.pt).map TlInstr.asRec) F ∧
      Flat.Rel ((A.ft ++ A.pt).map TlInstr.asRec) F (Mon.init ((A.ft ++ A.pt).map TlInstr.asRec) (lenAt scq d)
        (fun i => (P.heap.lab (nodeAt d i)).lo) (fun i => (P.heap.lab (nodeAt d i)).hi)) := by
  have hl := T.length
  have tb : InTable ((A.ft ++ A.pt).map TlInstr.asRec) (computeBounds bz signals ids A).limits := by
    refine ⟨?_, ?_, ?_, ?_⟩
    · intro i r hr
      obtain ⟨e, _, _, h, h2, _⟩ := T.at hr
      rw [← h]; exact h2
    · intro i r k c hr hk
      rw [List.length_map]
      rw [List.getElem?_map, Option.map_eq_some_iff] at hr
      obtain ⟨t, ht, rfl⟩ := hr
      obtain ⟨pre, post, hs, hpl⟩ := List.append_of_mem (List.mem_of_getElem? ht) |> fun ⟨a, b, h⟩ => (⟨a, b, h, trivial⟩ : ∃ a b, A.ft ++ A.pt = a ++ t :: b ∧ True)
      have hv : ∃ v : Int, v ∈ t.reads ∧ v.toNat = c := by
        obtain ⟨h1, h2⟩ := hk
        cases k <;> simp [TlInstr.asRec] at h1 h2
        · exact ⟨t.v1, by simp [TlInstr.reads, h1], h2⟩
        · exact ⟨t.v2, by simp [TlInstr.reads, h1], h2⟩
      obtain ⟨v, hv, rfl⟩ := hv
      obtain ⟨j, hj, hj2⟩ := hreads pre t post hs v hv
      have hjm : j ∈ A.ft ++ A.pt := by rw [hs]; simp [hj]
      rw [T.instrs, List.mem_map] at hjm
      obtain ⟨e, he, rfl⟩ := hjm
      obtain ⟨n, hn⟩ := List.getElem?_of_mem he
      have h3 := ids_getElem T.ids hn
      have h4 := (List.getElem?_eq_some_iff.1 hn).1
      rw [hl]
      omega
    · intro i r k a hr hk
      obtain ⟨e, _, he, h, _, _⟩ := T.at hr
      subst h
      exact hid e he a (T.atom he hk)
    · simp [computeBounds, Bounds.limits]
  refine ⟨tb, ?_⟩
  have hfit := fits4 P scq d
  have hpos : ∀ j, 0 < lenAt scq d j := by
    intro j
    unfold lenAt
    split
    · rename_i h
      have he : d[j]? = some d[j] := List.getElem?_eq_getElem h
      rw [nodeAt_some he]
      have := hlen d[j] (List.getElem_mem h)
      omega
    · omega
  obtain ⟨c1, c2⟩ := shape d 0 T.ids hfit
  obtain ⟨s1, _⟩ := sum_slots d 0 hfit (fun e he => by have := hlen e he; omega)
  have hcfg : A.cg.map (·.instr.asRec) = (List.range ((A.ft ++ A.pt).map TlInstr.asRec).length).map
        (sizeRec (lenAt scq d) (fun i => (P.heap.lab (nodeAt d i)).isTemp)) ++
      ((List.range ((A.ft ++ A.pt).map TlInstr.asRec).length).filter (fun i => (P.heap.lab (nodeAt d i)).isTemp)).map
        (tempRec (fun i => (P.heap.lab (nodeAt d i)).lo) (fun i => (P.heap.lab (nodeAt d i)).hi)) := by
    rw [T.cg, List.map_append, c1, c2, List.length_map, hl, List.range_eq_range']
  have hslots : Flat.offOf (lenAt scq d) (fun i => (P.heap.lab (nodeAt d i)).isTemp) ((A.ft ++ A.pt).map TlInstr.asRec).length ≤
      (computeBounds bz signals ids A).limits.slots := by
    rw [List.length_map, hl]
    have g1 : A.cg.filter (fun c => !c.temp) = (cgOf P scq d).filter (fun c => !c.temp) := by
      rw [T.cg, List.filter_append, List.filter_filter, List.filter_filter]; simp
    have g2 : A.cg.filter (fun c => c.temp) = (cgOf P scq d).filter (fun c => c.temp) := by
      rw [T.cg, List.filter_append, List.filter_filter, List.filter_filter]; simp
    simp only [computeBounds, Bounds.limits, g1, g2]
    have h0 : Flat.offOf (lenAt scq d) (fun i => (P.heap.lab (nodeAt d i)).isTemp) 0 = 0 := rfl
    rw [h0] at s1
    simp only [Nat.zero_add, Nat.add_zero] at s1
    exact Nat.le_of_eq s1.symm
  obtain ⟨F, h1, h2, h3, h4⟩ := Flat.start_ok (lb := fun i => (P.heap.lab (nodeAt d i)).lo)
    (ub := fun i => (P.heap.lab (nodeAt d i)).hi) tb hpos hslots (by
      intro i r hr ht
      obtain ⟨e, _, he, h, _, hn⟩ := T.at hr
      rw [hn, T.isTemp he]
      subst h
      simp only [TlInstr.asRec] at ht
      revert ht
      cases e.2.op <;> simp [Flat.isTemporal, TlOp.isTemporal])
  rw [hcfg]
  exact ⟨F, h1, h2, h3, h4⟩

end BProg
end R2U2
