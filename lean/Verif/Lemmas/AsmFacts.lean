import Verif.Lemmas.Assembly
import Verif.Spec.Assembly
import Verif.Props.Graph
/-
From the generator's invariants to facts about its result.
-/
namespace R2U2

theorem Heap.walk_fuel {L σ : Type} {visit : Heap L → σ → Nat → Option (Heap L × σ)} :
    ∀ {n m : Nat} {w v : Heap.Walk L σ}, n ≤ m → Heap.walk visit n w = some v → Heap.walk visit m w = some v
  | 0, _, _, _, _, h => by simp [Heap.walk] at h
  | n + 1, 0, _, _, hm, _ => by omega
  | n + 1, m + 1, w, v, hm, h => by
      simp only [Heap.walk] at h ⊢
      split at h
      · next hs => rw [if_pos hs]; exact h
      · next hs =>
        rw [if_neg hs]
        split at h
        · simp at h
        · next w' hw => exact Heap.walk_fuel (by omega) h

theorem Heap.postorder_fuel {L : Type} {h : Heap L} {r : List Nat} {n m : Nat} {o o' : List Nat}
    (h1 : Heap.postorder n h r = some o) (h2 : Heap.postorder m h r = some o') : o = o' := by
  unfold Heap.postorder at h1 h2
  simp only [Option.map_eq_some_iff] at h1 h2
  obtain ⟨w1, e1, rfl⟩ := h1
  obtain ⟨w2, e2, rfl⟩ := h2
  have e1' := Heap.walk_fuel (Nat.le_max_left n m) e1
  have e2' := Heap.walk_fuel (Nat.le_max_right n m) e2
  rw [e1'] at e2'
  simp only [Option.some.injEq] at e2'
  rw [e2']

namespace BProg

theorem Ready.atoms_tl {P : BProg} (hr : P.Ready) (x : Nat) (h : P.atomicId x ≠ none) : P.engine x ≠ .tl := by
  cases hb : P.bz with
  | true => have := hr.atomsBz hb x h; simp [engine, this, BNode.engine]
  | false => obtain ⟨t, s, this⟩ := hr.atomsNo hb x h; simp [engine, this, BNode.engine, hb]

theorem facts {P : BProg} {scq} {A : Assembly} {fuel : Nat} (hr : P.Ready) (hsep : P.Separate)
    (h : genAssembly fuel P scq = some A) :
    ∃ o1 o2 bzd ftd ptd, P.AsmFacts scq o1 o2 bzd ftd ptd A ∧ o1.Nodup ∧ o2.Nodup ∧
      (∀ x, x ∈ o1 ↔ P.heap.Reachable [P.ft] x) ∧ (∀ x, x ∈ o2 ↔ P.heap.Reachable [P.pt] x) ∧
      (∀ done x rest, o1 = done ++ x :: rest → ∀ c ∈ P.heap.kids x, c ∈ done) ∧
      (∀ done x rest, o2 = done ++ x :: rest → ∀ c ∈ P.heap.kids x, c ∈ done) := by
  obtain ⟨o1, N1, a1, a2, a3, a4⟩ := C48_postorder P.heap hr.acyclic [P.ft]
  obtain ⟨o2, N2, b1, b2, b3, b4⟩ := C48_postorder P.heap hr.acyclic [P.pt]
  cases h1 : Heap.postorder fuel P.heap [P.ft] with
  | none => simp [genAssembly, h1] at h
  | some p1 =>
    cases h2 : Heap.postorder fuel P.heap [P.pt] with
    | none => simp [genAssembly, h1, h2] at h
    | some p2 =>
      have e1 := Heap.postorder_fuel h1 (a1 N1 (Nat.le_refl _))
      have e2 := Heap.postorder_fuel h2 (b1 N2 (Nat.le_refl _))
      subst e1 e2
      obtain ⟨bzd, ftd, ptd, hf⟩ := asm_facts hr.atoms_tl a2 b2 a4 b4
        (fun x hx hy => hsep x ((a3 x).1 hx) ((b3 x).1 hy)) h1 h2 h
      exact ⟨_, _, bzd, ftd, ptd, hf, a2, b2, a3, b3, a4, b4⟩


/-! ### Cells and queues -/

def cellOf {β : Type} (f : β → Nat) (d : Dict β) (x : Nat) : Nat := ((d.lookup x).map f).getD 0

theorem cellOf_lookup {β : Type} {f : β → Nat} {d : Dict β} {x : Nat} {i : β} (h : d.lookup x = some i) :
    cellOf f d x = f i := by simp [cellOf, h]

theorem bzAt_means {P : BProg} {d : Dict BzInstr} {x : Nat} {i : BzInstr}
    (harity : ∀ o t, P.heap.lab x = .op o t → o.isLogical = false → (P.heap.kids x).length ∈ o.bzArity)
    (he : P.engine x = .bz)
    (hx : d.lookup x = some i) (h : P.bzAt i.id d x = some i) :
    P.BzMeans (cellOf (·.id) d) x i := by
  have hc : cellOf (·.id) d x = i.id := cellOf_lookup hx
  have hc' : ∀ {c j}, d.lookup c = some j → cellOf (·.id) d c = j.id := fun h => cellOf_lookup h
  unfold bzAt genBz at h
  unfold BzMeans
  rw [hc]
  cases hl : P.heap.lab x with
  | signal t s =>
    rw [hl] at h
    cases t <;> simp only [Option.map_some, Option.some.injEq] at h <;> exact h.symm
  | int v => rw [hl] at h; simp only [Option.map_some, Option.some.injEq] at h; exact h.symm
  | float v => rw [hl] at h; simp only [Option.map_some, Option.some.injEq] at h; exact h.symm
  | tau => rw [hl] at h; simp only [Option.map_some, Option.some.injEq] at h; exact h.symm
  | atomic =>
    rw [hl] at h
    cases hk : P.heap.kids x with
    | nil => rw [hk] at h; simp at h
    | cons c cs =>
      rw [hk] at h
      simp only [Option.map_map, Option.map_eq_some_iff, Function.comp] at h ⊢
      obtain ⟨j, h1, h2⟩ := h
      rw [hc' h1, ← h2]
  | op o t =>
    rw [hl] at h
    have hlog : o.isLogical = false := by
      unfold engine at he
      rw [hl] at he
      cases ho : o.isLogical
      · rfl
      · simp [BNode.engine, ho] at he
    have har := harity o t hl hlog
    cases hk : P.heap.kids x with
    | nil => rw [hk] at har; cases o <;> simp [OpK.bzArity] at har
    | cons c cs =>
      rw [hk] at h har
      cases cs with
      | nil =>
        simp only at h
        split at h
        · next j k h1 h2 =>
          simp only [Option.map_some, Option.some.injEq] at h
          by_cases hs : o = .sub
          · subst hs
            simp only [if_true, Option.some.injEq] at h2
            cases t <;> simp at h2 ⊢ <;> rw [hc' h1, ← h, h2]
          · rw [if_neg hs] at h2
            cases o <;> first | (exact absurd rfl hs) | (exact ⟨k, h2, by rw [hc' h1, ← h]⟩)
        · simp at h
      | cons c' cs =>
        cases cs with
        | nil =>
          simp only at h
          split at h
          · next j j' k h1 h2 h3 =>
            simp only [Option.map_some, Option.some.injEq] at h
            cases o <;> cases t <;> exact ⟨k, h3, by rw [hc' h1, hc' h2, ← h]⟩
          · simp at h
        | cons c'' cs => cases o <;> simp [OpK.bzArity] at har
  | specSet => rw [hl] at h; simp at h
  | formula n => rw [hl] at h; simp at h
  | bool b => rw [hl] at h; simp at h
  | temp o lb ub => rw [hl] at h; simp at h

theorem tlFor_means {P : BProg} {past : Bool} {d : Dict TlInstr} {q : Nat → Nat} {x : Nat} {i : TlInstr}
    (hq : ∀ c j, d.lookup c = some j → q c = j.id) (hx : q x = i.id)
    (hkids : ∀ c ∈ P.heap.kids x, (P.heap.lab c).isBoolConst = true ∨
      ((P.heap.lab c).isConst = false ∧ ∃ j, d.lookup c = some j))
    (h : P.TlFor past d x i) : P.TlMeans past q x i := by
  have hop : ∀ c ∈ P.heap.kids x, P.tlOperand d (some c) = P.operandFor q c := by
    intro c hc
    rcases hkids c hc with hb | ⟨hb, j, hj⟩
    · unfold operandFor
      simp only [tlOperand]
      cases hl : P.heap.lab c <;> simp_all [BNode.isBoolConst]
    · unfold operandFor
      simp only [tlOperand, hj]
      rw [hq c j hj]
      cases hl : P.heap.lab c <;> simp_all [BNode.isConst]
  unfold TlFor at h
  unfold TlMeans
  cases ha : P.atomicId x with
  | some a =>
    rw [ha] at h
    simp only at h ⊢
    obtain ⟨h1, h2, h3, h4, h5⟩ := h
    rw [hx, ← h1, ← h2, ← h3, ← h4, ← h5]
  | none =>
    rw [ha] at h
    simp only at h ⊢
    unfold tlAt genTl at h
    rw [hx]
    cases hl : P.heap.lab x with
    | formula n =>
      rw [hl] at h
      cases hk : P.heap.kids x with
      | nil => rw [hk] at h; simp at h
      | cons c cs =>
        rw [hk] at h
        simp only at h ⊢
        split at h
        · simp at h
        · simp only [Option.map_map, Option.map_eq_some_iff, Function.comp] at h
          obtain ⟨j, h1, h2⟩ := h
          rw [hq c j h1, ← h2]
    | _ =>
      rw [hl] at h
      simp only at h
      split at h
      · next o h1 h2 =>
        simp only [Option.map_some, Option.some.injEq] at h
        simp only [h2]
        exact ⟨o, h1, by rw [← h]⟩
      · next o c h1 h2 =>
        simp only [Option.map_some, Option.some.injEq] at h
        have := hop c (by rw [h2]; simp)
        simp only [h2]
        exact ⟨o, h1, by rw [← h, this]⟩
      · next o c c' h1 h2 =>
        simp only [Option.map_some, Option.some.injEq] at h
        have e1 := hop c (by rw [h2]; simp)
        have e2 := hop c' (by rw [h2]; simp)
        simp only [h2]
        exact ⟨o, h1, by rw [← h, e1, e2]⟩
      · simp at h

theorem Ids.mem_ge {β : Type} {f : β → Nat} : ∀ {n : Nat} {l : List β}, Ids f n l → ∀ b ∈ l, n ≤ f b
  | n, [], _, _, h => by simp at h
  | n, c :: l, hi, b, hb => by
      simp only [Ids] at hi
      rcases List.mem_cons.1 hb with rfl | hb
      · exact Nat.le_of_eq hi.1.symm
      · have := Ids.mem_ge hi.2 b hb; omega

theorem Ids.inj {β : Type} {f : β → Nat} : ∀ {n : Nat} {l : List β}, Ids f n l → ∀ b ∈ l, ∀ b' ∈ l, f b = f b' → b = b'
  | n, [], _, _, h, _, _, _ => by simp at h
  | n, c :: l, hi, b, hb, b', hb', he => by
      simp only [Ids] at hi
      rcases List.mem_cons.1 hb with h1 | h1 <;> rcases List.mem_cons.1 hb' with h2 | h2
      · rw [h1, h2]
      · subst h1; have := Ids.mem_ge hi.2 b' h2; omega
      · subst h2; have := Ids.mem_ge hi.2 b h1; omega
      · exact Ids.inj hi.2 b h1 b' h2 he

/-- What an instruction reads are the cells of the node's operands. -/
theorem bzAt_reads {P : BProg} {d : Dict BzInstr} {x n : Nat} {i : BzInstr}
    (harity : ∀ o t, P.heap.lab x = .op o t → o.isLogical = false → (P.heap.kids x).length ∈ o.bzArity)
    (he : P.engine x = .bz) (h : P.bzAt n d x = some i) :
    ∀ r ∈ i.reads, ∃ c ∈ P.heap.kids x, ∃ j, d.lookup c = some j ∧ r = j.id := by
  unfold bzAt genBz at h
  cases hl : P.heap.lab x with
  | signal t s =>
    rw [hl] at h
    cases t <;> simp only [Option.map_some, Option.some.injEq] at h <;> subst h <;> simp [BzInstr.reads]
  | int v => rw [hl] at h; simp only [Option.map_some, Option.some.injEq] at h; subst h; simp [BzInstr.reads]
  | float v => rw [hl] at h; simp only [Option.map_some, Option.some.injEq] at h; subst h; simp [BzInstr.reads]
  | tau => rw [hl] at h; simp only [Option.map_some, Option.some.injEq] at h; subst h; simp [BzInstr.reads]
  | atomic =>
    rw [hl] at h
    cases hk : P.heap.kids x with
    | nil => rw [hk] at h; simp at h
    | cons c cs =>
      rw [hk] at h
      simp only [Option.map_map, Option.map_eq_some_iff, Function.comp] at h
      obtain ⟨j, h1, h2⟩ := h
      subst h2
      intro r hr
      simp only [BzInstr.reads, List.mem_singleton] at hr
      exact ⟨c, by simp, j, h1, hr⟩
  | op o t =>
    rw [hl] at h
    have hlog : o.isLogical = false := by
      unfold engine at he
      rw [hl] at he
      cases ho : o.isLogical
      · rfl
      · simp [BNode.engine, ho] at he
    have har := harity o t hl hlog
    cases hk : P.heap.kids x with
    | nil => rw [hk] at har; cases o <;> simp [OpK.bzArity] at har
    | cons c cs =>
      rw [hk] at h har
      cases cs with
      | nil =>
        simp only at h
        split at h
        · next j k h1 h2 =>
          simp only [Option.map_some, Option.some.injEq] at h
          subst h
          intro r hr
          refine ⟨c, by simp, j, h1, ?_⟩
          cases o <;> simp [OpK.bzArity] at har <;> cases t <;> simp [bzOperator] at h2 <;> subst h2 <;>
            simpa [BzInstr.reads] using hr
        · simp at h
      | cons c' cs =>
        cases cs with
        | nil =>
          simp only at h
          split at h
          · next j j' k h1 h2 h3 =>
            simp only [Option.map_some, Option.some.injEq] at h
            subst h
            intro r hr
            have : r = j.id ∨ r = j'.id := by
              cases k <;> simp [BzInstr.reads] at hr <;> tauto
            rcases this with rfl | rfl
            · exact ⟨c, by simp, j, h1, rfl⟩
            · exact ⟨c', by simp, j', h2, rfl⟩
          · simp at h
        | cons c'' cs => cases o <;> simp [OpK.bzArity] at har
  | specSet => rw [hl] at h; simp at h
  | formula n => rw [hl] at h; simp at h
  | bool b => rw [hl] at h; simp at h
  | temp o lb ub => rw [hl] at h; simp at h

/-- The same for queues. -/
theorem tlFor_reads {P : BProg} {past : Bool} {d : Dict TlInstr} {x : Nat} {i : TlInstr}
    (h : P.TlFor past d x i) : ∀ r ∈ i.reads, ∃ c ∈ P.heap.kids x, ∃ j, d.lookup c = some j ∧ r = j.id := by
  have hop : ∀ c, (P.tlOperand d (some c)).1 = .subformula →
      ∃ j, d.lookup c = some j ∧ (P.tlOperand d (some c)).2 = j.id := by
    intro c hc
    simp only [tlOperand] at hc ⊢
    cases hj : d.lookup c with
    | none => rw [hj] at hc; cases hl : P.heap.lab c <;> simp_all
    | some j => rw [hj] at hc; cases hl : P.heap.lab c <;> simp_all
  unfold TlFor at h
  split at h
  · obtain ⟨h1, h2, h3, h4, h5⟩ := h
    simp [TlInstr.reads, h2, h4]
  · unfold tlAt genTl at h
    split at h
    · split at h
      · simp at h
      · next c cs hk =>
        split at h
        · simp at h
        · simp only [Option.map_map, Option.map_eq_some_iff, Function.comp] at h
          obtain ⟨j, h1, h2⟩ := h
          intro r hr
          rw [← h2] at hr
          simp [TlInstr.reads] at hr
          exact ⟨c, by simp [hk], j, h1, hr⟩
    · split at h
      · next h1 h2 =>
        simp only [Option.map_some, Option.some.injEq] at h
        intro r hr
        rw [← h] at hr
        simp [TlInstr.reads] at hr
      · next o c h1 h2 =>
        simp only [Option.map_some, Option.some.injEq] at h
        intro r hr
        rw [← h] at hr
        simp only [TlInstr.reads, List.mem_append] at hr
        rcases hr with hr | hr
        · split at hr
          · next hs =>
            obtain ⟨j, hj, e⟩ := hop c hs
            simp only [List.mem_singleton] at hr
            exact ⟨c, by simp [h2], j, hj, by rw [hr, e]⟩
          · simp at hr
        · simp at hr
      · next o c c' h1 h2 =>
        simp only [Option.map_some, Option.some.injEq] at h
        intro r hr
        rw [← h] at hr
        simp only [TlInstr.reads, List.mem_append] at hr
        rcases hr with hr | hr
        · split at hr
          · next hs =>
            obtain ⟨j, hj, e⟩ := hop c hs
            simp only [List.mem_singleton] at hr
            exact ⟨c, by simp [h2], j, hj, by rw [hr, e]⟩
          · simp at hr
        · split at hr
          · next hs =>
            obtain ⟨j, hj, e⟩ := hop c' hs
            simp only [List.mem_singleton] at hr
            exact ⟨c', by simp [h2], j, hj, by rw [hr, e]⟩
          · simp at hr
      · simp at h

theorem filter_before {p : Nat → Bool} {o A B : List Nat} {x : Nat} {kids : Nat → List Nat}
    (ho : ∀ done x rest, o = done ++ x :: rest → ∀ c ∈ kids x, c ∈ done)
    (h : o.filter p = A ++ x :: B) : ∀ c ∈ kids x, p c = true → c ∈ A := by
  rw [List.filter_eq_append_iff] at h
  obtain ⟨l1, l2, rfl, rfl, h2⟩ := h
  rw [List.filter_eq_cons_iff] at h2
  obtain ⟨l3, l4, rfl, h3, -, -⟩ := h2
  intro c hc hp
  have := ho (l1 ++ l3) x l4 (by simp) c hc
  rcases List.mem_append.1 this with h | h
  · exact List.mem_filter.2 ⟨h, hp⟩
  · exact absurd hp (h3 c h)

/-- Operands come before the node in the order of a dictionary that lists keys of two
traversals. -/
theorem keys_before {p q : Nat → Bool} {o o' A B : List Nat} {x : Nat} {kids : Nat → List Nat}
    (ho : ∀ done x rest, o = done ++ x :: rest → ∀ c ∈ kids x, c ∈ done)
    (ho' : ∀ done x rest, o' = done ++ x :: rest → ∀ c ∈ kids x, c ∈ done)
    (hpq : ∀ c, q c = true → p c = true)
    (h : o.filter p ++ o'.filter q = A ++ x :: B) :
    ∀ c ∈ kids x, c ∈ o.filter p ++ o'.filter q → c ∈ A := by
  intro c hc hm
  rcases List.append_eq_append_iff.1 h with ⟨a', e1, e2⟩ | ⟨b', e1, e2⟩
  · -- x in the second part
    rcases List.mem_append.1 hm with h1 | h1
    · rw [e1]; simp [h1]
    · have := filter_before ho' e2 c hc (List.mem_filter.1 h1).2
      rw [e1]; simp [this]
  · cases b' with
    | nil =>
      simp only [List.nil_append] at e2
      simp only [List.append_nil] at e1
      rcases List.mem_append.1 hm with h1 | h1
      · rw [← e1]; exact h1
      · have := filter_before ho' (A := []) (B := B) (x := x) e2.symm c hc (List.mem_filter.1 h1).2
        simp at this
    | cons y b' =>
      simp only [List.cons_append, List.cons.injEq] at e2
      obtain ⟨rfl, e2⟩ := e2
      rcases List.mem_append.1 hm with h1 | h1
      · exact filter_before ho e1 c hc (List.mem_filter.1 h1).2
      · -- an operand of a node of the first traversal is in the first traversal
        have hx : x ∈ o := by
          have : x ∈ o.filter p := by rw [e1]; simp
          exact (List.mem_filter.1 this).1
        obtain ⟨l1, l2, e⟩ := List.append_of_mem hx
        have hco : c ∈ l1 := ho l1 x l2 e c hc
        have hq := (List.mem_filter.1 h1).2
        exact filter_before ho e1 c hc (hpq c hq)

theorem Ready.keyBz_iff {P : BProg} (hr : P.Ready) {r x : Nat} (h : P.heap.lab r = .specSet) :
    P.keyBz r x ↔ P.engine x = .bz ∧ ¬ ((P.heap.lab x).isConst = true ∧ P.onlyTlParents x = true) := by
  unfold keyBz
  constructor
  · exact fun h => h.2
  · intro h'
    refine ⟨?_, h'⟩
    rintro rfl
    simp [engine, h, BNode.engine] at h'

theorem Ready.keyTl_iff {P : BProg} (hr : P.Ready) {r x : Nat} (h : P.heap.lab r = .specSet) :
    P.keyTl r x ↔ (P.atomicId x ≠ none ∨ (P.engine x = .tl ∧ (P.heap.lab x).isConst = false)) := by
  unfold keyTl
  constructor
  · exact fun h => h.2
  · intro h'
    refine ⟨?_, h'⟩
    rintro rfl
    rcases h' with h' | h'
    · cases hb : P.bz with
      | true => have := hr.atomsBz hb x h'; simp [h] at this
      | false => obtain ⟨t, s, this⟩ := hr.atomsNo hb x h'; simp [h] at this
    · simp [engine, h, BNode.engine] at h'

/-- What came before still does after a stable partition, or is in the second part. -/
theorem partition_before {β : Type} {L : List β} {p : β → Bool} {need give : β → Int → Prop}
    (h : ∀ a e b, L = a ++ e :: b → ∀ r, need e r → ∃ e' ∈ a, give e' r) {pre post : List β} {e : β}
    (hs : L.filter (fun e => !p e) ++ L.filter p = pre ++ e :: post) {r : Int} (hr : need e r) :
    (∃ e' ∈ pre, give e' r) ∨ (p e = false ∧ ∃ e' ∈ post, give e' r ∧ p e' = true) := by
  have key : ∀ {q : β → Bool} {A B : List β}, L.filter q = A ++ e :: B →
      q e = true ∧ ∃ e' ∈ L, give e' r ∧ (q e' = true → e' ∈ A) := by
    intro q A B hq
    rw [List.filter_eq_append_iff] at hq
    obtain ⟨m1, m2, hb, hA, e3⟩ := hq
    rw [List.filter_eq_cons_iff] at e3
    obtain ⟨m3, m4, rfl, hneg, hqe, -⟩ := e3
    obtain ⟨e', he', hg⟩ := h (m1 ++ m3) e m4 (by rw [hb]; simp) r hr
    refine ⟨hqe, e', by rw [hb]; simp at he' ⊢; tauto, hg, ?_⟩
    intro hq'
    rcases List.mem_append.1 he' with h1 | h1
    · rw [← hA]; exact List.mem_filter.2 ⟨h1, hq'⟩
    · exact absurd hq' (hneg e' h1)
  have second : ∀ {A B : List β}, L.filter p = A ++ e :: B → pre = L.filter (fun e => !p e) ++ A →
      ∃ e' ∈ pre, give e' r := by
    intro A B h1 h2
    obtain ⟨-, e', he', hg, hA⟩ := key h1
    refine ⟨e', ?_, hg⟩
    rw [h2, List.mem_append]
    cases hp : p e' with
    | true => exact .inr (hA hp)
    | false => exact .inl (List.mem_filter.2 ⟨he', by simp [hp]⟩)
  rcases List.append_eq_append_iff.1 hs with ⟨a', e1, e2⟩ | ⟨b', e1, e2⟩
  · exact .inl (second e2 e1)
  · cases b' with
    | nil =>
      simp only [List.nil_append] at e2
      simp only [List.append_nil] at e1
      exact .inl (second (A := []) e2.symm (by simp [e1]))
    | cons y b' =>
      simp only [List.cons_append, List.cons.injEq] at e2
      obtain ⟨rfl, e2⟩ := e2
      obtain ⟨hpe, e', he', hg, hA⟩ := key e1
      cases hp : p e' with
      | false => exact .inl ⟨e', hA (by simp [hp]), hg⟩
      | true =>
        right
        refine ⟨by simpa using hpe, e', ?_, hg, hp⟩
        rw [e2]
        exact List.mem_append_right _ (List.mem_filter.2 ⟨he', hp⟩)

end BProg
end R2U2
