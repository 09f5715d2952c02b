import Verif.Lemmas.AsmFacts
/-
Properties of the generated assembly: C22, C23, C26, C53.
-/
namespace R2U2
namespace BProg

/-- C53: the generated code mirrors the expression graph.  Every booleanizer node has
an instruction with the node's operator that reads the cells of its operands, every
temporal node one that reads the queues of its operands, no two nodes share a cell
or a queue, there are no other instructions, and every queue has a record with its
size and, for temporal operators, a record with its interval. -/
theorem C53_code (P : BProg) (hr : P.Ready) (hsep : P.Separate) (hcov : P.Covered)
    (fuel : Nat) (scq : Nat → Option (Int × Int)) (A : Assembly) (h : genAssembly fuel P scq = some A) :
    ∃ cell queue : Nat → Nat,
      (∀ x, P.NeedsCell x → ∃ i ∈ A.bz, P.BzMeans cell x i) ∧
      (∀ i ∈ A.bz, ∃ x, P.NeedsCell x ∧ P.BzMeans cell x i) ∧
      (∀ x y, P.NeedsCell x → P.NeedsCell y → cell x = cell y → x = y) ∧
      (∀ x, P.NeedsTl P.ft x → ∃ i ∈ A.ft, P.TlMeans false queue x i) ∧
      (∀ i ∈ A.ft, ∃ x, P.NeedsTl P.ft x ∧ P.TlMeans false queue x i) ∧
      (∀ x, P.NeedsTl P.pt x → ∃ i ∈ A.pt, P.TlMeans true queue x i) ∧
      (∀ i ∈ A.pt, ∃ x, P.NeedsTl P.pt x ∧ P.TlMeans true queue x i) ∧
      (∀ x y, (P.NeedsTl P.ft x ∨ P.NeedsTl P.pt x) → (P.NeedsTl P.ft y ∨ P.NeedsTl P.pt y) →
        queue x = queue y → x = y) ∧
      (∀ x, (P.NeedsTl P.ft x ∨ P.NeedsTl P.pt x) → ∃ c ∈ A.cg, c.temp = false ∧
        c.instr.id = queue x ∧ c.instr.v1 = queueLen scq x) ∧
      (∀ x o lb ub, (P.NeedsTl P.ft x ∨ P.NeedsTl P.pt x) → P.heap.lab x = .temp o lb ub →
        ∃ c ∈ A.cg, c.temp = true ∧ c.instr.id = queue x ∧ c.instr.v1 = lb ∧ c.instr.v2 = ub) := by
  obtain ⟨o1, o2, bzd, ftd, ptd, hf, n1, n2, m1, m2, k1, k2⟩ := facts hr hsep h
  have hbz : ∀ e ∈ bzd, bzd.lookup e.1 = some e.2 := fun e he => Dict.mem_lookup hf.bzNodup he
  have hneeds : ∀ x, x ∈ Dict.keys bzd ↔ P.NeedsCell x := by
    intro x
    rw [hf.bzKeys]
    simp only [List.mem_append, List.mem_filter, m1, m2, decide_eq_true_eq,
      hr.keyBz_iff hr.ftSet, hr.keyBz_iff hr.ptSet, NeedsCell, onlyTlParents, List.all_eq_true]
    tauto
  have hbzA : ∀ i, i ∈ A.bz ↔ ∃ e ∈ bzd, e.2 = i := by
    intro i
    rw [hf.bz, List.mem_map]
    constructor
    · rintro ⟨e, he, rfl⟩
      rcases List.mem_append.1 he with he | he
      · exact ⟨e, (List.mem_filter.1 he).1, rfl⟩
      · exact ⟨e, (List.mem_filter.1 he).1, rfl⟩
    · rintro ⟨e, he, rfl⟩
      refine ⟨e, ?_, rfl⟩
      rw [List.mem_append, List.mem_filter, List.mem_filter]
      by_cases hp : e.2.op = .prev <;> simp [hp, he]
  have hmeans : ∀ e ∈ bzd, P.BzMeans (cellOf (·.id) bzd) e.1 e.2 := by
    intro e he
    refine bzAt_means (hr.arity _ ((hneeds e.1).1 (List.mem_map.2 ⟨e, he, rfl⟩)).1) ?_ (hbz e he) (hf.bzFor e he)
    exact ((hneeds e.1).1 (List.mem_map.2 ⟨e, he, rfl⟩)).2.1
  -- temporal side
  have hnc : ∀ x, P.engine x = .tl → ((P.heap.lab x).isConst = (P.heap.lab x).isBoolConst) := by
    intro x hx
    unfold engine at hx
    cases hl : P.heap.lab x <;> simp_all [BNode.isConst, BNode.isBoolConst, BNode.engine]
  have hneedsF : ∀ x, x ∈ Dict.keys ftd ↔ P.NeedsTl P.ft x := by
    intro x
    rw [hf.ftKeys]
    simp only [List.mem_filter, m1, decide_eq_true_eq, hr.keyTl_iff hr.ftSet, NeedsTl]
    have := hnc x
    constructor
    · rintro ⟨a, b | b⟩
      · exact ⟨a, .inl b⟩
      · exact ⟨a, .inr ⟨b.1, by rw [← this b.1]; exact b.2⟩⟩
    · rintro ⟨a, b | b⟩
      · exact ⟨a, .inl b⟩
      · exact ⟨a, .inr ⟨b.1, by rw [this b.1]; exact b.2⟩⟩
  have hneedsP : ∀ x, x ∈ Dict.keys ptd ↔ P.NeedsTl P.pt x := by
    intro x
    rw [hf.ptKeys]
    simp only [List.mem_filter, m2, decide_eq_true_eq, hr.keyTl_iff hr.ptSet, NeedsTl]
    have := hnc x
    constructor
    · rintro ⟨a, b | b⟩
      · exact ⟨a, .inl b⟩
      · exact ⟨a, .inr ⟨b.1, by rw [← this b.1]; exact b.2⟩⟩
    · rintro ⟨a, b | b⟩
      · exact ⟨a, .inl b⟩
      · exact ⟨a, .inr ⟨b.1, by rw [this b.1]; exact b.2⟩⟩
  have hdisj : ∀ x, P.NeedsTl P.ft x → P.NeedsTl P.pt x → False := by
    intro x hx hy
    have hb := hsep x hx.1 hy.1
    rcases hx.2 with h | h
    · refine hr.atoms_tl x h ?_
      unfold engine; cases hl : P.heap.lab x <;> simp_all [BNode.isBoolConst, BNode.engine]
    · rw [hb] at h; simp at h
  have hndF : (Dict.keys ftd).Nodup := by rw [hf.ftKeys]; exact n1.filter _
  have hndP : (Dict.keys ptd).Nodup := by rw [hf.ptKeys]; exact n2.filter _
  have hnd : (Dict.keys (ftd ++ ptd)).Nodup := by
    rw [Dict.keys_append, List.nodup_append]
    refine ⟨hndF, hndP, ?_⟩
    rintro a ha b hb rfl
    exact hdisj a ((hneedsF a).1 ha) ((hneedsP a).1 hb)
  have hids : Ids (·.2.id) 0 (ftd ++ ptd) := Ids.concat hf.ftIds (by simpa using hf.ptIds)
  let q := cellOf (fun i : TlInstr => i.id) (ftd ++ ptd)
  have hq : ∀ c j, (ftd ++ ptd).lookup c = some j → q c = j.id := fun c j hj => cellOf_lookup hj
  have hqF : ∀ c j, ftd.lookup c = some j → q c = j.id := fun c j hj =>
    hq c j (Dict.lookup_append_left hj)
  have hqP : ∀ c j, ptd.lookup c = some j → q c = j.id := by
    intro c j hj
    exact hq c j (Dict.mem_lookup hnd (List.mem_append_right _ (Dict.lookup_mem hj)))
  -- operands of temporal nodes
  have hkid : ∀ r x c, (r = P.ft ∨ r = P.pt) → P.heap.Reachable [r] x → P.engine x = .tl → c ∈ P.heap.kids x →
      (P.heap.lab c).isBoolConst = true ∨ ((P.heap.lab c).isConst = false ∧ P.NeedsTl r c) := by
    intro r x c hrt hx ht hc
    have hany : P.heap.Reachable [P.ft] x ∨ P.heap.Reachable [P.pt] x := by
      rcases hrt with rfl | rfl
      · exact .inl hx
      · exact .inr hx
    rcases Bool.eq_false_or_eq_true (P.heap.lab c).isBoolConst with hb | hb
    · exact .inl hb
    · right
      rcases hcov x c hany ht hc with h | h | h
      · rw [h] at hb; simp at hb
      · refine ⟨?_, .kid hx hc, .inl h⟩
        cases hbz' : P.bz with
        | true => have := hr.atomsBz hbz' c h; simp [this, BNode.isConst]
        | false => obtain ⟨t, s, this⟩ := hr.atomsNo hbz' c h; simp [this, BNode.isConst]
      · exact ⟨by rw [hnc c h]; exact hb, .kid hx hc, .inr ⟨h, hb⟩⟩
  have hmF : ∀ e ∈ ftd, P.TlMeans false q e.1 e.2 := by
    intro e he
    have hne := (hneedsF e.1).1 (List.mem_map.2 ⟨e, he, rfl⟩)
    by_cases hat : P.atomicId e.1 = none
    · refine tlFor_means hqF (hqF _ _ (Dict.mem_lookup hndF he)) ?_ (hf.ftFor e he)
      intro c hc
      have ht : P.engine e.1 = .tl := by
        rcases hne.2 with h | h
        · exact absurd hat h
        · exact h.1
      rcases hkid _ _ c (by simp) hne.1 ht hc with h | ⟨h, h'⟩
      · exact .inl h
      · exact .inr ⟨h, Dict.mem_keys.1 ((hneedsF c).2 h')⟩
    · obtain ⟨a, ha⟩ := Option.ne_none_iff_exists'.1 hat
      have h1 := hf.ftFor e he
      unfold TlFor at h1
      unfold TlMeans
      rw [ha] at h1 ⊢
      simp only at h1 ⊢
      obtain ⟨h1, h2, h3, h4, h5⟩ := h1
      rw [hqF _ _ (Dict.mem_lookup hndF he), ← h1, ← h2, ← h3, ← h4, ← h5]
  have hmP : ∀ e ∈ ptd, P.TlMeans true q e.1 e.2 := by
    intro e he
    have hne := (hneedsP e.1).1 (List.mem_map.2 ⟨e, he, rfl⟩)
    by_cases hat : P.atomicId e.1 = none
    · refine tlFor_means hqP (hqP _ _ (Dict.mem_lookup hndP he)) ?_ (hf.ptFor e he)
      intro c hc
      have ht : P.engine e.1 = .tl := by
        rcases hne.2 with h | h
        · exact absurd hat h
        · exact h.1
      rcases hkid _ _ c (by simp) hne.1 ht hc with h | ⟨h, h'⟩
      · exact .inl h
      · exact .inr ⟨h, Dict.mem_keys.1 ((hneedsP c).2 h')⟩
    · obtain ⟨a, ha⟩ := Option.ne_none_iff_exists'.1 hat
      have h1 := hf.ptFor e he
      unfold TlFor at h1
      unfold TlMeans
      rw [ha] at h1 ⊢
      simp only at h1 ⊢
      obtain ⟨h1, h2, h3, h4, h5⟩ := h1
      rw [hqP _ _ (Dict.mem_lookup hndP he), ← h1, ← h2, ← h3, ← h4, ← h5]
  have hall : ∀ x, (P.NeedsTl P.ft x ∨ P.NeedsTl P.pt x) → ∃ j, (x, j) ∈ ftd ++ ptd ∧ q x = j.id := by
    rintro x (hx | hx)
    · obtain ⟨j, hj⟩ := Dict.mem_keys.1 ((hneedsF x).2 hx)
      exact ⟨j, List.mem_append_left _ (Dict.lookup_mem hj), hqF x j hj⟩
    · obtain ⟨j, hj⟩ := Dict.mem_keys.1 ((hneedsP x).2 hx)
      exact ⟨j, List.mem_append_right _ (Dict.lookup_mem hj), hqP x j hj⟩
  have hcg : ∀ c, (∃ e ∈ ftd ++ ptd, c ∈ P.genScq scq e.2.id e.1) → c ∈ A.cg := by
    rintro c ⟨e, he, hc⟩
    have : c ∈ ((ftd ++ ptd).map (fun e => P.genScq scq e.2.id e.1)).flatten := by
      rw [List.mem_flatten]
      exact ⟨_, List.mem_map.2 ⟨e, he, rfl⟩, hc⟩
    rw [hf.cg, List.mem_append, List.mem_filter, List.mem_filter]
    cases ht : c.temp <;> simp only [this, ht, Bool.not_false, Bool.not_true, and_true, and_false, true_or, or_true]
  refine ⟨cellOf (·.id) bzd, q, ?_, ?_, ?_, ?_, ?_, ?_, ?_, ?_, ?_, ?_⟩
  · intro x hx
    obtain ⟨i, hi⟩ := Dict.mem_keys.1 ((hneeds x).2 hx)
    have hm := Dict.lookup_mem hi
    exact ⟨i, (hbzA i).2 ⟨_, hm, rfl⟩, hmeans _ hm⟩
  · intro i hi
    obtain ⟨e, he, rfl⟩ := (hbzA i).1 hi
    exact ⟨e.1, (hneeds e.1).1 (List.mem_map.2 ⟨e, he, rfl⟩), hmeans e he⟩
  · intro x y hx hy hxy
    obtain ⟨i, hi⟩ := Dict.mem_keys.1 ((hneeds x).2 hx)
    obtain ⟨j, hj⟩ := Dict.mem_keys.1 ((hneeds y).2 hy)
    rw [cellOf_lookup hi, cellOf_lookup hj] at hxy
    have := hf.bzIds.inj _ (Dict.lookup_mem hi) _ (Dict.lookup_mem hj) hxy
    exact (Prod.mk.inj this).1
  · intro x hx
    obtain ⟨j, hj⟩ := Dict.mem_keys.1 ((hneedsF x).2 hx)
    have hm := Dict.lookup_mem hj
    exact ⟨j, by rw [hf.ft]; exact List.mem_map.2 ⟨_, hm, rfl⟩, hmF _ hm⟩
  · intro i hi
    rw [hf.ft] at hi
    obtain ⟨e, he, rfl⟩ := List.mem_map.1 hi
    exact ⟨e.1, (hneedsF e.1).1 (List.mem_map.2 ⟨e, he, rfl⟩), hmF e he⟩
  · intro x hx
    obtain ⟨j, hj⟩ := Dict.mem_keys.1 ((hneedsP x).2 hx)
    have hm := Dict.lookup_mem hj
    exact ⟨j, by rw [hf.pt]; exact List.mem_map.2 ⟨_, hm, rfl⟩, hmP _ hm⟩
  · intro i hi
    rw [hf.pt] at hi
    obtain ⟨e, he, rfl⟩ := List.mem_map.1 hi
    exact ⟨e.1, (hneedsP e.1).1 (List.mem_map.2 ⟨e, he, rfl⟩), hmP e he⟩
  · intro x y hx hy hxy
    obtain ⟨i, hi, ei⟩ := hall x hx
    obtain ⟨j, hj, ej⟩ := hall y hy
    rw [ei, ej] at hxy
    have := hids.inj _ hi _ hj hxy
    exact (Prod.mk.inj this).1
  · intro x hx
    obtain ⟨i, hi, ei⟩ := hall x hx
    by_cases ht : ∃ o lb ub, P.heap.lab x = .temp o lb ub
    · obtain ⟨o, lb, ub, ht⟩ := ht
      exact ⟨⟨false, ⟨i.id, .config, .atomic, queueLen scq x, .atomic, 0⟩⟩,
        hcg _ ⟨_, hi, by simp [genScq, ht]⟩, rfl, ei.symm, rfl⟩
    · refine ⟨⟨false, ⟨i.id, .config, .atomic, queueLen scq x, .none, 0⟩⟩,
        hcg _ ⟨_, hi, ?_⟩, rfl, ei.symm, rfl⟩
      unfold genScq
      split
      · next h => exact absurd ⟨_, _, _, h⟩ ht
      · simp
  · intro x o lb ub hx hl
    obtain ⟨i, hi, ei⟩ := hall x hx
    exact ⟨⟨true, ⟨i.id, .config, .subformula, lb, .subformula, ub⟩⟩,
      hcg _ ⟨_, hi, by simp [genScq, hl]⟩, rfl, ei.symm, rfl, rfl⟩

/-- C23: if the future-time and past-time specifications share no node but boolean
constants, every booleanizer instruction has its own cell among the first
`A.bz.length` ones, and the temporal instructions have the identifiers 0, 1, 2, ...
in order. -/
theorem C23_ids_partial (P : BProg) (hr : P.Ready) (hsep : P.Separate)
    (fuel : Nat) (scq : Nat → Option (Int × Int)) (A : Assembly) (h : genAssembly fuel P scq = some A) :
    (A.bz.map (·.id)).Nodup ∧ (∀ i ∈ A.bz, i.id < A.bz.length) ∧
    (A.ft ++ A.pt).map (·.id) = List.range (A.ft ++ A.pt).length := by
  obtain ⟨o1, o2, bzd, ftd, ptd, hf, n1, n2, m1, m2, k1, k2⟩ := facts hr hsep h
  have hperm : A.bz.Perm (bzd.map (·.2)) := by
    rw [hf.bz]
    apply List.Perm.map
    have := List.filter_append_perm (fun e : Nat × BzInstr => decide (e.2.op ≠ .prev)) bzd
    simpa using this
  have hidl : (bzd.map (·.2)).map (·.id) = List.range bzd.length := by
    rw [List.map_map, List.range_eq_range']
    exact hf.bzIds.map
  have hp := (hperm.map (·.id))
  rw [hidl] at hp
  have hlen : A.bz.length = bzd.length := by rw [hperm.length_eq]; simp
  refine ⟨hp.nodup_iff.2 List.nodup_range, ?_, ?_⟩
  · intro i hi
    have := hp.mem_iff.1 (List.mem_map.2 ⟨i, hi, rfl⟩)
    rw [hlen]
    exact List.mem_range.1 this
  · have : Ids (·.2.id) 0 (ftd ++ ptd) := Ids.concat hf.ftIds (by simpa using hf.ptIds)
    have := this.map
    rw [hf.ft, hf.pt, ← List.map_append, List.map_map, List.range_eq_range', List.length_map]
    exact this

/-- C22: every booleanizer instruction comes after the instructions whose cells it
reads, unless it reads a previous-value instruction; a previous-value instruction
comes after everything it reads.  Every temporal instruction comes after those whose
queues it reads. -/
theorem C22_operands (P : BProg) (hr : P.Ready) (hsep : P.Separate)
    (fuel : Nat) (scq : Nat → Option (Int × Int)) (A : Assembly) (h : genAssembly fuel P scq = some A) :
    (∀ pre i post, A.bz = pre ++ i :: post → ∀ r ∈ i.reads,
      (∃ j ∈ pre, (j.id : Int) = r) ∨
      (i.op ≠ .prev ∧ ∃ j ∈ post, (j.id : Int) = r ∧ j.op = .prev)) ∧
    (∀ pre i post, A.ft ++ A.pt = pre ++ i :: post → ∀ r ∈ i.reads, ∃ j ∈ pre, (j.id : Int) = r) := by
  obtain ⟨o1, o2, bzd, ftd, ptd, hf, n1, n2, m1, m2, k1, k2⟩ := facts hr hsep h
  have hbefore : ∀ a e b, bzd = a ++ e :: b → ∀ r ∈ e.2.reads, ∃ e' ∈ a, (e'.2.id : Int) = r := by
    intro a e b hs r hr'
    have he : e ∈ bzd := by rw [hs]; simp
    have hk : e.1 ∈ Dict.keys bzd := List.mem_map.2 ⟨e, he, rfl⟩
    have hlive : P.heap.Reachable [P.ft] e.1 ∨ P.heap.Reachable [P.pt] e.1 := by
      have hk' := hk
      rw [hf.bzKeys] at hk'
      rcases List.mem_append.1 hk' with hk' | hk'
      · exact .inl ((m1 _).1 (List.mem_filter.1 hk').1)
      · exact .inr ((m2 _).1 (List.mem_filter.1 hk').1)
    have heng : P.engine e.1 = .bz := by
      rw [hf.bzKeys] at hk
      rcases List.mem_append.1 hk with hk | hk
      · have := (List.mem_filter.1 hk).2
        exact ((hr.keyBz_iff hr.ftSet).1 (by simpa using this)).1
      · have := (List.mem_filter.1 hk).2
        exact ((hr.keyBz_iff hr.ptSet).1 (by simpa using this)).1
    obtain ⟨c, hc, j, hj, rfl⟩ := bzAt_reads (hr.arity _ hlive) heng (hf.bzFor e he) r hr'
    have hkeys := hf.bzKeys
    rw [hs] at hkeys
    simp only [Dict.keys, List.map_append, List.map_cons] at hkeys
    have hcm : c ∈ Dict.keys bzd := Dict.mem_keys.2 ⟨j, hj⟩
    rw [hf.bzKeys] at hcm
    have := keys_before k1 k2 (fun c hc => by
      simp only [decide_eq_true_eq] at hc ⊢
      exact (hr.keyBz_iff hr.ftSet).2 ((hr.keyBz_iff hr.ptSet).1 hc)) hkeys.symm c hc hcm
    obtain ⟨e', he', rfl⟩ := List.mem_map.1 this
    have hj' : e' ∈ bzd := by rw [hs]; simp [he']
    have : bzd.lookup e'.1 = some e'.2 := Dict.mem_lookup hf.bzNodup hj'
    rw [this] at hj
    simp only [Option.some.injEq] at hj
    exact ⟨e', he', by rw [hj]⟩
  have hndF : (Dict.keys ftd).Nodup := by rw [hf.ftKeys]; exact n1.filter _
  have hndP : (Dict.keys ptd).Nodup := by rw [hf.ptKeys]; exact n2.filter _
  have hF : ∀ a e b, ftd = a ++ e :: b → ∀ r ∈ e.2.reads, ∃ e' ∈ a, (e'.2.id : Int) = r := by
    intro a e b hs r hr'
    have he : e ∈ ftd := by rw [hs]; simp
    obtain ⟨c, hc, j, hj, rfl⟩ := tlFor_reads (hf.ftFor e he) r hr'
    have hkeys := hf.ftKeys
    rw [hs] at hkeys
    simp only [Dict.keys, List.map_append, List.map_cons] at hkeys
    have hcm : c ∈ Dict.keys ftd := Dict.mem_keys.2 ⟨j, hj⟩
    rw [hf.ftKeys] at hcm
    obtain ⟨e', he', rfl⟩ := List.mem_map.1 (filter_before k1 hkeys.symm c hc (List.mem_filter.1 hcm).2)
    rw [Dict.mem_lookup hndF (show e' ∈ ftd by rw [hs]; simp [he'])] at hj
    simp only [Option.some.injEq] at hj
    exact ⟨e', he', by rw [hj]⟩
  have hP : ∀ a e b, ptd = a ++ e :: b → ∀ r ∈ e.2.reads, ∃ e' ∈ a, (e'.2.id : Int) = r := by
    intro a e b hs r hr'
    have he : e ∈ ptd := by rw [hs]; simp
    obtain ⟨c, hc, j, hj, rfl⟩ := tlFor_reads (hf.ptFor e he) r hr'
    have hkeys := hf.ptKeys
    rw [hs] at hkeys
    simp only [Dict.keys, List.map_append, List.map_cons] at hkeys
    have hcm : c ∈ Dict.keys ptd := Dict.mem_keys.2 ⟨j, hj⟩
    rw [hf.ptKeys] at hcm
    obtain ⟨e', he', rfl⟩ := List.mem_map.1 (filter_before k2 hkeys.symm c hc (List.mem_filter.1 hcm).2)
    rw [Dict.mem_lookup hndP (show e' ∈ ptd by rw [hs]; simp [he'])] at hj
    simp only [Option.some.injEq] at hj
    exact ⟨e', he', by rw [hj]⟩
  constructor
  · intro pre i post hs r hr'
    rw [hf.bz, List.map_eq_append_iff] at hs
    obtain ⟨l1, l2, e1, rfl, e2⟩ := hs
    rw [List.map_eq_cons_iff] at e2
    obtain ⟨e, l3, rfl, rfl, rfl⟩ := e2
    have e1' : bzd.filter (fun e => !decide (e.2.op = .prev)) ++ bzd.filter (fun e => decide (e.2.op = .prev)) =
        l1 ++ e :: l3 := by
      rw [← e1]; simp
    rcases partition_before (need := fun e r => r ∈ e.2.reads) (give := fun e r => (e.2.id : Int) = r)
      hbefore e1' hr' with ⟨e', he', hg⟩ | ⟨hp, e', he', hg, hp'⟩
    · exact .inl ⟨e'.2, List.mem_map.2 ⟨e', he', rfl⟩, hg⟩
    · exact .inr ⟨by simpa using hp, e'.2, List.mem_map.2 ⟨e', he', rfl⟩, hg, by simpa using hp'⟩
  · intro pre i post hs r hr'
    rw [hf.ft, hf.pt] at hs
    rcases List.append_eq_append_iff.1 hs with ⟨a', e1, e2⟩ | ⟨b', e1, e2⟩
    · rw [List.map_eq_append_iff] at e2
      obtain ⟨l1, l2, e3, rfl, e4⟩ := e2
      rw [List.map_eq_cons_iff] at e4
      obtain ⟨e, l3, rfl, rfl, rfl⟩ := e4
      obtain ⟨e', he', hg⟩ := hP l1 e l3 e3 r hr'
      exact ⟨e'.2, by rw [e1]; exact List.mem_append_right _ (List.mem_map.2 ⟨e', he', rfl⟩), hg⟩
    · cases b' with
      | nil =>
        simp only [List.nil_append] at e2
        have e2 := e2.symm
        rw [List.map_eq_cons_iff] at e2
        obtain ⟨e, l3, rfl, rfl, rfl⟩ := e2
        obtain ⟨e', he', hg⟩ := hP [] e l3 rfl r hr'
        simp at he'
      | cons y b' =>
        simp only [List.cons_append, List.cons.injEq] at e2
        obtain ⟨rfl, e2⟩ := e2
        rw [List.map_eq_append_iff] at e1
        obtain ⟨l1, l2, e3, rfl, e4⟩ := e1
        rw [List.map_eq_cons_iff] at e4
        obtain ⟨e, l3, rfl, rfl, rfl⟩ := e4
        obtain ⟨e', he', hg⟩ := hF l1 e l3 e3 r hr'
        exact ⟨e'.2, List.mem_map.2 ⟨e', he', rfl⟩, hg⟩

/-- C26: for every program, all queue-size records come before all interval records,
and each kind keeps the order in which the records were generated. -/
theorem C26_order (l : List CgInstr) :
    moveTemps l.length [] l = l.filter (fun c => !c.temp) ++ l.filter (fun c => c.temp) := by
  have := moveTemps_eq l [] []
  simpa using this

theorem C26_config_first (P : BProg) (fuel : Nat) (scq : Nat → Option (Int × Int)) (A : Assembly)
    (h : genAssembly fuel P scq = some A) :
    ∃ S T, A.cg = S ++ T ∧ (∀ c ∈ S, c.temp = false) ∧ (∀ c ∈ T, c.temp = true) := by
  unfold genAssembly at h
  split at h
  · simp only [Option.bind_eq_some_iff, Option.map_eq_some_iff] at h
    obtain ⟨s1, _, s2, _, rfl⟩ := h
    refine ⟨_, _, C26_order _, ?_, ?_⟩
    · intro c hc; simpa using (List.mem_filter.1 hc).2
    · intro c hc; exact (List.mem_filter.1 hc).2
  · simp at h

/-- C26: without sharing between the two sets there is exactly one size record for each
temporal instruction, in the order of the instructions (the monitor places a queue
right after the one configured before it), then one interval record for each temporal
operator, in that order. -/
theorem C26_aligned (P : BProg) (hr : P.Ready) (hsep : P.Separate)
    (fuel : Nat) (scq : Nat → Option (Int × Int)) (A : Assembly) (h : genAssembly fuel P scq = some A) :
    (A.cg.filter (fun c => !c.temp)).map (·.instr.id) = (A.ft ++ A.pt).map (·.id) ∧
    (A.cg.filter (fun c => c.temp)).map (·.instr.id) =
      ((A.ft ++ A.pt).filter (fun i => i.op.isTemporal)).map (·.id) := by
  obtain ⟨o1, o2, bzd, ftd, ptd, hf, n1, n2, m1, m2, k1, k2⟩ := facts hr hsep h
  have hcg := hf.cg
  have hall : ∀ e ∈ ftd ++ ptd, e.2.op.isTemporal = true ↔ ∃ o lb ub, P.heap.lab e.1 = .temp o lb ub := by
    have aux : ∀ (past : Bool) (d : Dict TlInstr) (e : Nat × TlInstr), P.TlFor past d e.1 e.2 →
        (e.2.op.isTemporal = true ↔ ∃ o lb ub, P.heap.lab e.1 = .temp o lb ub) := by
      intro past d e he
      unfold TlFor at he
      cases ha : P.atomicId e.1 with
      | some a =>
        rw [ha] at he
        simp only at he
        rw [he.1]
        have hne := hr.atoms_tl e.1 (by simp [ha])
        refine ⟨fun h => by simp [TlOp.isTemporal] at h, ?_⟩
        rintro ⟨o, lb, ub, hl⟩
        exact absurd (by simp [engine, hl, BNode.engine]) hne
      | none =>
        rw [ha] at he
        simp only at he
        have hop : (∃ n, P.heap.lab e.1 = .formula n ∧ e.2.op = .ret) ∨
            tlOperator past (P.heap.lab e.1) = some e.2.op := by
          unfold tlAt genTl at he
          split at he
          · next n hl =>
            left
            refine ⟨n, hl, ?_⟩
            split at he
            · simp at he
            · split at he
              · simp at he
              · simp only [Option.map_map, Option.map_eq_some_iff, Function.comp] at he
                obtain ⟨j, _, h2⟩ := he
                rw [← h2]
          · right
            split at he
            · next h1 _ => simp only [Option.map_some, Option.some.injEq] at he; rw [h1, ← he]
            · next h1 _ => simp only [Option.map_some, Option.some.injEq] at he; rw [h1, ← he]
            · next h1 _ => simp only [Option.map_some, Option.some.injEq] at he; rw [h1, ← he]
            · simp at he
        rcases hop with ⟨n, hl, ho⟩ | ho
        · rw [ho, hl]; simp [TlOp.isTemporal]
        · generalize e.2.op = k at ho
          cases hl : P.heap.lab e.1 with
          | op o t =>
            rw [hl] at ho
            cases o <;> simp [tlOperator] at ho <;> subst ho <;> simp [TlOp.isTemporal]
          | temp o lb ub =>
            rw [hl] at ho
            cases o <;> cases past <;> simp [tlOperator] at ho <;> subst ho <;> simp [TlOp.isTemporal]
          | _ => rw [hl] at ho; simp [tlOperator] at ho
    intro e he
    rcases List.mem_append.1 he with he | he
    · exact aux _ _ _ (hf.ftFor e he)
    · exact aux _ _ _ (hf.ptFor e he)
  have hfl : A.ft ++ A.pt = (ftd ++ ptd).map (·.2) := by rw [hf.ft, hf.pt, List.map_append]
  rw [hfl, hcg]
  generalize ftd ++ ptd = d at hall
  have g1 : ∀ l : List CgInstr, (l.filter (fun c => !c.temp) ++ l.filter (fun c => c.temp)).filter (fun c => !c.temp) =
      l.filter (fun c => !c.temp) := by
    intro l; rw [List.filter_append, List.filter_filter, List.filter_filter]; simp
  have g2 : ∀ l : List CgInstr, (l.filter (fun c => !c.temp) ++ l.filter (fun c => c.temp)).filter (fun c => c.temp) =
      l.filter (fun c => c.temp) := by
    intro l; rw [List.filter_append, List.filter_filter, List.filter_filter]; simp
  rw [g1, g2]
  induction d with
  | nil => simp
  | cons e d ih =>
    obtain ⟨ih1, ih2⟩ := ih fun e' he' => hall e' (List.mem_cons_of_mem _ he')
    have he := hall e List.mem_cons_self
    simp only [List.map_cons, List.flatten_cons, List.filter_append, List.map_append, ih1, ih2,
      List.filter_cons]
    unfold genScq
    split
    · next o lb ub hl =>
      have : e.2.op.isTemporal = true := he.2 ⟨o, lb, ub, hl⟩
      simp [this]
    · next hl =>
      have : e.2.op.isTemporal = false := by
        cases hc : e.2.op.isTemporal
        · rfl
        · obtain ⟨o, lb, ub, h⟩ := he.1 hc
          exact absurd h (hl o lb ub)
      simp [this]

/-! ### A program that meets the hypotheses

`x > prev(0, x) && G[0,3] b` as future-time, `H[0,2] c` as past-time specification. -/

def axLab : Nat → BNode
  | 1 => .formula 0 | 2 => .op .and true | 3 => .atomic | 4 => .temp .G 0 3
  | 5 => .op .gt true | 6 => .signal true 0 | 7 => .op .prev true | 8 => .int 0
  | 9 => .atomic | 10 => .signal true 1
  | 12 => .formula 1 | 13 => .temp .H 0 2 | 14 => .atomic | 15 => .signal true 2
  | _ => .specSet
def axKids : Nat → List Nat
  | 0 => [1] | 1 => [2] | 2 => [3, 4] | 3 => [5] | 4 => [9] | 5 => [6, 7] | 7 => [8, 6]
  | 9 => [10] | 11 => [12] | 12 => [13] | 13 => [14] | 14 => [15]
  | _ => []
def axPars : Nat → List Nat
  | 1 => [0] | 2 => [1] | 3 => [2] | 4 => [2] | 5 => [3] | 6 => [5, 7] | 7 => [5] | 8 => [7]
  | 9 => [4] | 10 => [9] | 12 => [11] | 13 => [12] | 14 => [13] | 15 => [14]
  | _ => []
def axProg : BProg where
  heap := ⟨axLab, axKids, axPars⟩
  bpd := fun _ => 0
  wpd := fun _ => 0
  ft := 0
  pt := 11
  bz := true
  atomicId := fun | 3 => some 0 | 9 => some 1 | 14 => some 2 | _ => none

theorem axProg_acyclic : axProg.heap.Acyclic
  | 0 => ⟨_, 7, rfl⟩ | 1 => ⟨_, 6, rfl⟩ | 2 => ⟨_, 6, rfl⟩ | 3 => ⟨_, 4, rfl⟩ | 4 => ⟨_, 3, rfl⟩
  | 5 => ⟨_, 3, rfl⟩ | 6 => ⟨_, 1, rfl⟩ | 7 => ⟨_, 2, rfl⟩ | 8 => ⟨_, 1, rfl⟩ | 9 => ⟨_, 2, rfl⟩
  | 10 => ⟨_, 1, rfl⟩ | 11 => ⟨_, 5, rfl⟩ | 12 => ⟨_, 4, rfl⟩ | 13 => ⟨_, 3, rfl⟩ | 14 => ⟨_, 2, rfl⟩
  | 15 => ⟨_, 1, rfl⟩ | _ + 16 => ⟨_, 1, rfl⟩

theorem axProg_ready : axProg.Ready where
  acyclic := axProg_acyclic
  ftSet := rfl
  ptSet := rfl
  arity := by
    intro x _ o t
    rcases x with _|_|_|_|_|_|_|_|_|_|_|_|_|_|_|_|x <;> simp [axProg, axLab, axKids] <;>
      (try (intro h1 h2; subst h1 h2; simp [OpK.isLogical, OpK.bzArity]))
  atomsBz := by
    intro _ x
    rcases x with _|_|_|_|_|_|_|_|_|_|_|_|_|_|_|_|x <;> simp [axProg, axLab]
  atomsNo := by simp [axProg]

theorem reachable_mem {L : Type} {h : Heap L} {roots S : List Nat} (h1 : ∀ r ∈ roots, r ∈ S)
    (h2 : ∀ p ∈ S, ∀ c ∈ h.kids p, c ∈ S) {x : Nat} (hx : h.Reachable roots x) : x ∈ S := by
  induction hx with
  | root hr => exact h1 _ hr
  | kid _ hc ih => exact h2 _ ih _ hc

theorem axProg_separate : axProg.Separate := by
  intro x h1 h2
  have a := reachable_mem (S := [0, 1, 2, 3, 4, 5, 6, 7, 8, 9, 10]) (by decide) (by decide) h1
  have b := reachable_mem (S := [11, 12, 13, 14, 15]) (by decide) (by decide) h2
  simp at a b
  omega

theorem axProg_covered : axProg.Covered := by
  rintro p c -
  rcases p with _|_|_|_|_|_|_|_|_|_|_|_|_|_|_|_|p <;>
    simp [axProg, axKids, axLab, BProg.engine, BNode.engine, OpK.isLogical] <;>
    (intro h; first | (rcases h with rfl | rfl <;> simp [BNode.isBoolConst]) | (subst h; simp [BNode.isBoolConst]))

/-- The assembly of the example, with queues of one slot. -/
example : axProg.Ready ∧ axProg.Separate ∧ axProg.Covered ∧
    genAssembly 100 axProg (fun _ => some (0, 1)) = some
      { bz := [⟨0, .iload, .int 0, 0⟩, ⟨1, .iconst, .int 0, 0⟩, ⟨3, .igt, .int 0, 2⟩, ⟨4, .store, .int 3, 0⟩,
          ⟨5, .iload, .int 1, 0⟩, ⟨6, .store, .int 5, 1⟩, ⟨7, .iload, .int 2, 0⟩, ⟨8, .store, .int 7, 2⟩,
          ⟨2, .prev, .int 1, 0⟩]
        ft := [⟨0, .load, .atomic, 0, .none, 0⟩, ⟨1, .load, .atomic, 1, .none, 0⟩,
          ⟨2, .global, .subformula, 1, .none, 0⟩, ⟨3, .and, .subformula, 0, .subformula, 2⟩,
          ⟨4, .ret, .subformula, 3, .direct, 0⟩]
        pt := [⟨5, .load, .atomic, 2, .none, 0⟩, ⟨6, .hist, .subformula, 5, .none, 0⟩,
          ⟨7, .ret, .subformula, 6, .direct, 1⟩]
        cg := [⟨false, ⟨0, .config, .atomic, 1, .none, 0⟩⟩, ⟨false, ⟨1, .config, .atomic, 1, .none, 0⟩⟩,
          ⟨false, ⟨2, .config, .atomic, 1, .atomic, 0⟩⟩, ⟨false, ⟨3, .config, .atomic, 1, .none, 0⟩⟩,
          ⟨false, ⟨4, .config, .atomic, 1, .none, 0⟩⟩, ⟨false, ⟨5, .config, .atomic, 1, .none, 0⟩⟩,
          ⟨false, ⟨6, .config, .atomic, 1, .atomic, 0⟩⟩, ⟨false, ⟨7, .config, .atomic, 1, .none, 0⟩⟩,
          ⟨true, ⟨2, .config, .subformula, 0, .subformula, 3⟩⟩,
          ⟨true, ⟨6, .config, .subformula, 0, .subformula, 2⟩⟩] } :=
  ⟨axProg_ready, axProg_separate, axProg_covered, by decide +kernel⟩

/-! ### Sharing between the two sets breaks C23

`DEFINE d := x > 0; FTSPEC d; PTSPEC d;`: expanding the definition puts one node object
under both sets. -/

def shLab : Nat → BNode
  | 1 => .formula 0 | 2 => .atomic | 3 => .op .gt true | 4 => .signal true 0 | 5 => .int 0
  | 7 => .formula 1
  | _ => .specSet
def shKids : Nat → List Nat
  | 0 => [1] | 1 => [2] | 2 => [3] | 3 => [4, 5] | 6 => [7] | 7 => [2]
  | _ => []
def shPars : Nat → List Nat
  | 1 => [0] | 2 => [1, 7] | 3 => [2] | 4 => [3] | 5 => [3] | 7 => [6]
  | _ => []
def shProg : BProg where
  heap := ⟨shLab, shKids, shPars⟩
  bpd := fun _ => 0
  wpd := fun _ => 0
  ft := 0
  pt := 6
  bz := true
  atomicId := fun | 2 => some 0 | _ => none

theorem shProg_ready : shProg.Ready where
  acyclic
    | 0 => ⟨_, 5, rfl⟩ | 1 => ⟨_, 4, rfl⟩ | 2 => ⟨_, 3, rfl⟩ | 3 => ⟨_, 2, rfl⟩ | 4 => ⟨_, 1, rfl⟩
    | 5 => ⟨_, 1, rfl⟩ | 6 => ⟨_, 5, rfl⟩ | 7 => ⟨_, 4, rfl⟩ | _ + 8 => ⟨_, 1, rfl⟩
  ftSet := rfl
  ptSet := rfl
  arity := by
    intro x _ o t
    rcases x with _|_|_|_|_|_|_|_|x <;> simp [shProg, shLab, shKids] <;>
      (try (intro h1 h2; subst h1 h2; simp [OpK.isLogical, OpK.bzArity]))
  atomsBz := by
    intro _ x
    rcases x with _|_|_|_|_|_|_|_|x <;> simp [shProg, shLab]
  atomsNo := by simp [shProg]

theorem shProg_covered : shProg.Covered := by
  rintro p c -
  rcases p with _|_|_|_|_|_|_|_|p <;>
    simp [shProg, shKids, shLab, BProg.engine, BNode.engine, OpK.isLogical] <;>
    (intro h; subst h; simp)

/-- C23 fails when a definition is used from a future-time and a past-time
specification: the signal, the constant, the comparison and the store all get cell 4
(so the comparison compares a cell with itself), and queue 0, which the first
specification reads, is never configured. -/
theorem C23_shared_ids_fail : ∃ (P : BProg) (A : Assembly), P.Ready ∧ P.Covered ∧
    genAssembly 100 P (fun _ => some (0, 1)) = some A ∧ ¬ (A.bz.map (·.id)).Nodup ∧
    (∃ i ∈ A.bz, i = ⟨4, .iload, .int 0, 0⟩) ∧ (∃ i ∈ A.bz, i = ⟨4, .igt, .int 4, 4⟩) ∧
    (∃ i ∈ A.ft, i.id = 0) ∧ ∀ c ∈ A.cg, c.instr.id ≠ 0 := by
  refine ⟨shProg, { bz := [⟨4, .iload, .int 0, 0⟩, ⟨4, .iconst, .int 0, 0⟩, ⟨4, .igt, .int 4, 4⟩, ⟨4, .store, .int 4, 0⟩]
                    ft := [⟨0, .load, .atomic, 0, .none, 0⟩, ⟨1, .ret, .subformula, 0, .direct, 0⟩]
                    pt := [⟨2, .load, .atomic, 0, .none, 0⟩, ⟨3, .ret, .subformula, 2, .direct, 1⟩]
                    cg := [⟨false, ⟨2, .config, .atomic, 1, .none, 0⟩⟩, ⟨false, ⟨1, .config, .atomic, 1, .none, 0⟩⟩,
                      ⟨false, ⟨3, .config, .atomic, 1, .none, 0⟩⟩] },
    shProg_ready, shProg_covered, by decide +kernel, by decide, by decide, by decide, by decide, by decide⟩

end BProg
end R2U2
