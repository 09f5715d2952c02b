import Verif.Model.Assembly
import Verif.Lemmas.Heap
/-
Facts about the code generator.
-/
namespace R2U2
namespace Dict
variable {β : Type}

def keys (d : Dict β) : List Nat := d.map (·.1)

@[simp] theorem keys_append (d d' : Dict β) : keys (d ++ d') = keys d ++ keys d' := by simp [keys]
@[simp] theorem keys_length (d : Dict β) : (keys d).length = d.length := by simp [keys]

theorem set_fresh {k : Nat} {v : β} : ∀ {d : Dict β}, k ∉ keys d → Dict.set k v d = d ++ [(k, v)]
  | [], _ => rfl
  | (k', v') :: d, h => by
      simp only [keys, List.map_cons, List.mem_cons, not_or] at h
      simp only [Dict.set, if_neg (Ne.symm h.1), List.cons_append]
      rw [set_fresh (d := d) h.2]

theorem lookup_none {k : Nat} {d : Dict β} : d.lookup k = none ↔ k ∉ keys d := by
  induction d with
  | nil => simp [keys]
  | cons e d ih =>
    obtain ⟨k', v⟩ := e
    rw [List.lookup_cons]
    by_cases h : k = k'
    · subst h; simp [keys]
    · have : (k == k') = false := by simpa using h
      rw [this, ih]; simp [keys, h]

theorem lookup_mem {k : Nat} {v : β} {d : Dict β} (h : d.lookup k = some v) : (k, v) ∈ d := by
  induction d with
  | nil => simp at h
  | cons e d ih =>
    obtain ⟨k', v'⟩ := e
    rw [List.lookup_cons] at h
    by_cases hk : k = k'
    · subst hk; simp at h; subst h; simp
    · have : (k == k') = false := by simpa using hk
      rw [this] at h
      exact List.mem_cons_of_mem _ (ih h)

theorem mem_lookup {k : Nat} {v : β} {d : Dict β} (hd : (keys d).Nodup) (h : (k, v) ∈ d) :
    d.lookup k = some v := by
  induction d with
  | nil => simp at h
  | cons e d ih =>
    obtain ⟨k', v'⟩ := e
    simp only [keys, List.map_cons, List.nodup_cons] at hd
    rw [List.lookup_cons]
    rcases List.mem_cons.1 h with h2 | h2
    · cases h2; simp
    · have : k ≠ k' := by
        rintro rfl
        exact hd.1 (List.mem_map.2 ⟨(k, v), h2, rfl⟩)
      have : (k == k') = false := by simpa using this
      rw [this]
      exact ih hd.2 h2

theorem mem_keys {k : Nat} {d : Dict β} : k ∈ keys d ↔ ∃ v, d.lookup k = some v := by
  constructor
  · intro h
    cases hl : d.lookup k with
    | none => exact absurd h (lookup_none.1 hl)
    | some v => exact ⟨v, rfl⟩
  · rintro ⟨v, h⟩
    exact List.mem_map.2 ⟨_, lookup_mem h, rfl⟩

theorem lookup_append_left {k : Nat} {v : β} {d d' : Dict β} (h : d.lookup k = some v) :
    (d ++ d').lookup k = some v := by
  rw [List.lookup_append, h]; rfl

theorem lookup_append_fresh {k : Nat} {v : β} {c : Nat} {d : Dict β} (h : c ≠ k) :
    (d ++ [(k, v)]).lookup c = d.lookup c := by
  rw [List.lookup_append]
  have : (c == k) = false := by simpa using h
  simp [List.lookup_cons, this]

theorem lookup_append_self {k : Nat} {v : β} {d : Dict β} (h : k ∉ keys d) :
    (d ++ [(k, v)]).lookup k = some v := by
  rw [List.lookup_append, lookup_none.2 h]
  simp

theorem toEnd_eq {k : Nat} {v : β} {a b : Dict β} (ha : k ∉ keys a) (hb : k ∉ keys b) :
    Dict.toEnd k (a ++ (k, v) :: b) = a ++ b ++ [(k, v)] := by
  have h1 : (a ++ (k, v) :: b).lookup k = some v := by
    rw [List.lookup_append, lookup_none.2 ha]; simp
  have hf : ∀ {d : Dict β}, k ∉ keys d → d.filter (fun e => decide (e.1 ≠ k)) = d := by
    intro d hd
    rw [List.filter_eq_self]
    intro e he
    simp only [decide_eq_true_eq]
    rintro rfl
    exact hd (List.mem_map.2 ⟨_, he, rfl⟩)
  unfold Dict.toEnd
  rw [h1]
  simp only [List.filter_append, List.filter_cons, ne_eq, not_true_eq_false, decide_false,
    Bool.false_eq_true, if_false]
  have h2 := hf ha; have h3 := hf hb
  simp only [ne_eq] at h2 h3
  rw [h2, h3]

end Dict

namespace BProg

/-! ### Moving instructions -/

theorem moveTemps_eq : ∀ (l pre done : List CgInstr),
    moveTemps l.length pre (l ++ done) =
      pre ++ l.filter (fun c => !c.temp) ++ done ++ l.filter (fun c => c.temp)
  | [], pre, done => by simp [moveTemps]
  | c :: l, pre, done => by
      simp only [List.length_cons, List.cons_append, moveTemps]
      by_cases h : c.temp
      · rw [if_pos h]
        have := moveTemps_eq l pre (done ++ [c])
        rw [← List.append_assoc] at this
        rw [this]
        simp [h]
      · rw [if_neg h, moveTemps_eq l (pre ++ [c]) done]
        simp [h]

theorem movePrev_fold : ∀ (todo keep moved : Dict BzInstr),
    (Dict.keys (keep ++ todo ++ moved)).Nodup →
    (todo.map (·.1)).foldl
      (fun d k => if (d.lookup k).map (·.op) = some .prev then Dict.toEnd k d else d)
      (keep ++ todo ++ moved) =
      keep ++ todo.filter (fun e => decide (e.2.op ≠ .prev)) ++ moved ++
        todo.filter (fun e => decide (e.2.op = .prev))
  | [], keep, moved, _ => by simp
  | (k, i) :: todo, keep, moved, hn => by
      simp only [List.map_cons, List.foldl_cons]
      have hk : (keep ++ (k, i) :: todo ++ moved).lookup k = some i :=
        Dict.mem_lookup hn (by simp)
      have hn' := hn
      simp only [Dict.keys, List.map_append, List.map_cons, List.append_assoc, List.cons_append] at hn'
      have hmid := (List.nodup_append.1 hn')
      rw [hk]
      by_cases hp : i.op = .prev
      · have hka : k ∉ Dict.keys keep := by
          intro hc
          exact hmid.2.2 k hc k (by simp) rfl
        have hkb : k ∉ Dict.keys (todo ++ moved) := by
          have := (List.nodup_cons.1 hmid.2.1).1
          simpa [Dict.keys] using this
        simp only [Option.map_some, hp, if_true]
        have e1 : keep ++ (k, i) :: todo ++ moved = keep ++ (k, i) :: (todo ++ moved) := by simp
        rw [e1, Dict.toEnd_eq hka hkb]
        have e2 : keep ++ (todo ++ moved) ++ [(k, i)] = keep ++ todo ++ (moved ++ [(k, i)]) := by simp
        rw [e2, movePrev_fold todo keep (moved ++ [(k, i)])]
        · simp [hp]
        · have : (Dict.keys (keep ++ todo ++ (moved ++ [(k, i)]))).Perm
              (Dict.keys (keep ++ (k, i) :: todo ++ moved)) := by
            simp only [Dict.keys]
            apply List.Perm.map
            have e3 : keep ++ todo ++ (moved ++ [(k, i)]) = (keep ++ (todo ++ moved)) ++ [(k, i)] := by simp
            have e4 : keep ++ (k, i) :: todo ++ moved = keep ++ (k, i) :: (todo ++ moved) := by simp
            rw [e3, e4]
            exact (List.perm_append_singleton _ _).trans List.perm_middle.symm
          exact this.nodup_iff.2 hn
      · have : ¬ (Option.map (fun x => x.op) (some i) = some BzOp.prev) := by simpa using hp
        rw [if_neg this]
        have e1 : keep ++ (k, i) :: todo ++ moved = (keep ++ [(k, i)]) ++ todo ++ moved := by simp
        rw [e1] at hn ⊢
        rw [movePrev_fold todo (keep ++ [(k, i)]) moved hn]
        simp [hp]

/-- Moving the previous-value instructions is a stable partition. -/
theorem movePrev_eq {d : Dict BzInstr} (hd : (Dict.keys d).Nodup) :
    movePrev d = d.filter (fun e => decide (e.2.op ≠ .prev)) ++ d.filter (fun e => decide (e.2.op = .prev)) := by
  have := movePrev_fold d [] [] (by simpa using hd)
  simpa [movePrev] using this

/-! ### The instruction of a node, relative to a dictionary -/

/-- `genBz` with the identifier as a parameter. -/
def bzAt (P : BProg) (n : Nat) (d : Dict BzInstr) (x : Nat) : Option BzInstr :=
  (P.genBz d x).map fun i => { i with id := n }

theorem genBz_id {P : BProg} {d : Dict BzInstr} {x : Nat} {i : BzInstr} (h : P.genBz d x = some i) :
    i.id = d.length := by
  unfold genBz at h
  repeat' split at h
  all_goals first
    | (simp only [Option.some.injEq] at h; subst h; rfl)
    | (simp only [Option.map_eq_some_iff] at h; obtain ⟨j, _, rfl⟩ := h; rfl)
    | simp at h

theorem bzAt_self {P : BProg} {d : Dict BzInstr} {x : Nat} {i : BzInstr} (h : P.genBz d x = some i) :
    P.bzAt i.id d x = some i := by
  simp [bzAt, h]

/-- Lookups that succeeded keep succeeding, so the instruction stays the same. -/
theorem bzAt_mono {P : BProg} {d d' : Dict BzInstr} {x n : Nat} {i : BzInstr}
    (hd : ∀ c ∈ P.heap.kids x, ∀ v, d.lookup c = some v → d'.lookup c = some v)
    (h : P.bzAt n d x = some i) : P.bzAt n d' x = some i := by
  unfold bzAt genBz at h ⊢
  split at h
  · simpa using h
  · simpa using h
  · simpa using h
  · simpa using h
  · split at h
    · simp at h
    · next c cs hk =>
      rw [hk] at hd
      simp only [Option.map_map, Option.map_eq_some_iff] at h ⊢
      obtain ⟨j, h1, h2⟩ := h
      exact ⟨j, hd c (by simp) j h1, by simpa using h2⟩
  · next o isInt _ =>
    split at h
    · next c hk =>
      rw [hk] at hd
      split at h
      · next j k h1 h2 =>
        rw [hd c (by simp) j h1, h2]
        simpa using h
      · simp at h
    · next c c' hk =>
      rw [hk] at hd
      split at h
      · next j j' k h1 h2 h3 =>
        rw [hd c (by simp) j h1, hd c' (by simp) j' h2, h3]
        simpa using h
      · simp at h
    · simp only [Option.map_map, Option.map_eq_some_iff] at h ⊢
      obtain ⟨k, h1, h2⟩ := h
      exact ⟨k, h1, by simpa using h2⟩
  · simp at h

/-- `genTl` with the identifier as a parameter. -/
def tlAt (P : BProg) (past : Bool) (n : Nat) (d : Dict TlInstr) (x : Nat) : Option TlInstr :=
  (P.genTl past 0 d x).map fun i => { i with id := n }

theorem genTl_id {P : BProg} {past : Bool} {off : Nat} {d : Dict TlInstr} {x : Nat} {i : TlInstr}
    (h : P.genTl past off d x = some i) : i.id = d.length + off ∧ P.tlAt past i.id d x = some i := by
  unfold tlAt
  unfold genTl at h ⊢
  split at h
  · split at h
    · simp at h
    · split at h
      · simp at h
      · next hc =>
        simp only [Option.map_eq_some_iff] at h
        obtain ⟨j, h1, rfl⟩ := h
        simp_all
  · split at h
    · next h1 h2 => simp only [Option.some.injEq] at h; subst h; simp_all
    · next h1 h2 => simp only [Option.some.injEq] at h; subst h; simp_all
    · next h1 h2 => simp only [Option.some.injEq] at h; subst h; simp_all
    · simp at h

theorem tlOperand_congr {P : BProg} {d d' : Dict TlInstr} {c : Nat} (h : d'.lookup c = d.lookup c) :
    P.tlOperand d' (some c) = P.tlOperand d (some c) := by
  simp only [tlOperand]; rw [h]

theorem tlAt_congr {P : BProg} {past : Bool} {n : Nat} {d d' : Dict TlInstr} {x : Nat}
    (hd : ∀ c ∈ P.heap.kids x, d'.lookup c = d.lookup c) : P.tlAt past n d' x = P.tlAt past n d x := by
  unfold tlAt genTl
  cases hk : P.heap.kids x with
  | nil =>
    split
    · rfl
    · cases tlOperator past (P.heap.lab x) <;> rfl
  | cons c cs =>
    have hc : d'.lookup c = d.lookup c := hd c (by simp [hk])
    cases cs with
    | nil =>
      have := tlOperand_congr (P := P) hc
      split
      · simp only [hc]; split <;> simp [Option.map_map, Function.comp_def]
      · split <;> simp_all
    | cons c' cs =>
      have hc' : d'.lookup c' = d.lookup c' := hd c' (by simp [hk])
      have h1 := tlOperand_congr (P := P) hc
      have h2 := tlOperand_congr (P := P) hc'
      split
      · simp only [hc]; split <;> simp [Option.map_map, Function.comp_def]
      · cases cs <;> (split <;> simp_all)

/-! ### One pass -/

structure PassSt where
  bzs : Dict BzInstr
  tls : Dict TlInstr
  cgs : Dict (List CgInstr)

/-- A pass over one specification set: what `ftStep` and `ptStep` share. -/
def passStep (P : BProg) (scq : Nat → Option (Int × Int)) (past : Bool) (r off : Nat) (s : PassSt) (x : Nat) :
    Option PassSt :=
  if x = r then some s
  else
    let s1 := match P.atomicId x with
      | none => s
      | some a => { s with
          tls := s.tls.set x ⟨s.tls.length + off, .load, .atomic, a, .none, 0⟩
          cgs := s.cgs.set x (P.genScq scq (s.tls.length + off) x) }
    if (P.heap.lab x).isConst ∧ P.onlyTlParents x then some s1
    else match P.engine x with
      | .bz => (P.genBz s1.bzs x).map fun i => { s1 with bzs := s1.bzs.set x i }
      | .tl => (P.genTl past off s1.tls x).map fun i => { s1 with
          tls := s1.tls.set x i
          cgs := s1.cgs.set x (P.genScq scq i.id x) }
      | .none => some s1

/-- Nodes that get a temporal instruction. -/
def keyTl (P : BProg) (r x : Nat) : Prop :=
  x ≠ r ∧ (P.atomicId x ≠ none ∨ (P.engine x = .tl ∧ (P.heap.lab x).isConst = false))

/-- Nodes that get a booleanizer instruction. -/
def keyBz (P : BProg) (r x : Nat) : Prop :=
  x ≠ r ∧ P.engine x = .bz ∧ ¬ ((P.heap.lab x).isConst = true ∧ P.onlyTlParents x = true)

instance (P : BProg) (r x : Nat) : Decidable (keyTl P r x) := by unfold keyTl; infer_instance
instance (P : BProg) (r x : Nat) : Decidable (keyBz P r x) := by unfold keyBz; infer_instance

/-- The identifiers are consecutive from `n`. -/
def Ids {β : Type} (f : β → Nat) : Nat → List β → Prop
  | _, [] => True
  | n, b :: bs => f b = n ∧ Ids f (n + 1) bs

theorem Ids.append {β : Type} {f : β → Nat} : ∀ {n : Nat} {l : List β} {b : β}, Ids f n l →
    f b = n + l.length → Ids f n (l ++ [b])
  | n, [], b, _, h => by simpa [Ids] using h
  | n, c :: l, b, hl, h => by
      simp only [List.cons_append, Ids] at hl ⊢
      exact ⟨hl.1, Ids.append hl.2 (by simp at h; omega)⟩

theorem Ids.map {β : Type} {f : β → Nat} : ∀ {n : Nat} {l : List β}, Ids f n l →
    l.map f = List.range' n l.length
  | n, [], _ => rfl
  | n, b :: l, h => by
      simp only [Ids] at h
      simp [List.range'_succ, h.1, Ids.map h.2]

/-- The instruction a temporal key should have. -/
def TlFor (P : BProg) (past : Bool) (d : Dict TlInstr) (x : Nat) (i : TlInstr) : Prop :=
  match P.atomicId x with
  | some a => i.op = .load ∧ i.t1 = .atomic ∧ i.v1 = a ∧ i.t2 = .none ∧ i.v2 = 0
  | none => P.tlAt past i.id d x = some i

structure PassInv (P : BProg) (scq : Nat → Option (Int × Int)) (past : Bool) (r off : Nat) (s0 : PassSt)
    (done : List Nat) (s : PassSt) : Prop where
  bzEq : ∃ B : Dict BzInstr, s.bzs = s0.bzs ++ B ∧ Dict.keys B = done.filter (fun x => decide (P.keyBz r x)) ∧
    Ids (·.2.id) s0.bzs.length B ∧ ∀ e ∈ B, P.bzAt e.2.id s.bzs e.1 = some e.2
  tlKeys : Dict.keys s.tls = done.filter (fun x => decide (P.keyTl r x))
  tlIds : Ids (·.2.id) off s.tls
  tlFor : ∀ e ∈ s.tls, P.TlFor past s.tls e.1 e.2
  cgEq : s.cgs = s0.cgs ++ s.tls.map (fun e => (e.1, P.genScq scq e.2.id e.1))

theorem PassInv.start {P : BProg} {scq past r off} {s0 : PassSt} (h : s0.tls = []) :
    P.PassInv scq past r off s0 [] s0 := by
  refine ⟨⟨[], by simp [Dict.keys, Ids]⟩, by simp [h, Dict.keys], by simp [h, Ids], by simp [h], by simp [h]⟩

/-- Adding a temporal instruction. -/
theorem PassInv.addTl {P : BProg} {scq past r off} {s0 : PassSt} {done : List Nat} {s : PassSt}
    (hi : P.PassInv scq past r off s0 done s) {x : Nat} {i : TlInstr} (hx : x ∉ done) (hb : ¬ P.keyBz r x)
    (hkey : P.keyTl r x) (h0 : x ∉ Dict.keys s0.cgs) (hk : ∀ y ∈ done, ∀ c ∈ P.heap.kids y, c ∈ done)
    (hkx : x ∉ P.heap.kids x)
    (hid : i.id = s.tls.length + off) (hf : P.TlFor past s.tls x i) :
    P.PassInv scq past r off s0 (done ++ [x])
      ⟨s.bzs, s.tls.set x i, s.cgs.set x (P.genScq scq i.id x)⟩ := by
  have hxt : x ∉ Dict.keys s.tls := by
    rw [hi.tlKeys]; intro h; exact hx (List.mem_filter.1 h).1
  have hxc : x ∉ Dict.keys s.cgs := by
    rw [hi.cgEq, Dict.keys_append]
    simp only [List.mem_append, not_or]
    refine ⟨h0, ?_⟩
    intro h
    apply hxt
    simpa [Dict.keys] using h
  have hcongr : ∀ y, x ∉ P.heap.kids y → ∀ j, P.TlFor past s.tls y j → P.TlFor past (s.tls ++ [(x, i)]) y j := by
    intro y hy j hj
    unfold TlFor at hj ⊢
    split
    · next a ha => rw [ha] at hj; exact hj
    · next ha =>
      rw [ha] at hj
      rw [tlAt_congr (d := s.tls)]
      · exact hj
      · intro c hc
        exact Dict.lookup_append_fresh (by rintro rfl; exact hy hc)
  rw [Dict.set_fresh hxt, Dict.set_fresh hxc]
  obtain ⟨B, hB1, hB2, hB3, hB4⟩ := hi.bzEq
  refine ⟨⟨B, hB1, ?_, hB3, hB4⟩, ?_, ?_, ?_, ?_⟩
  · rw [hB2, List.filter_append]; simp [hb]
  · rw [Dict.keys_append, hi.tlKeys, List.filter_append]; simp [hkey, Dict.keys]
  · exact Ids.append hi.tlIds (by simp [hid]; omega)
  · intro e he
    rcases List.mem_append.1 he with he | he
    · apply hcongr
      · intro hc
        have : e.1 ∈ Dict.keys s.tls := List.mem_map.2 ⟨e, he, rfl⟩
        rw [hi.tlKeys] at this
        exact hx (hk e.1 (List.mem_filter.1 this).1 x hc)
      · exact hi.tlFor e he
    · simp only [List.mem_singleton] at he
      subst he
      exact hcongr x hkx i hf
  · rw [hi.cgEq]; simp

/-- Adding a booleanizer instruction, on top of what was done for the node before. -/
theorem PassInv.addBz {P : BProg} {scq past r off} {s0 : PassSt} {done : List Nat} {s : PassSt}
    {B : Dict BzInstr} {x : Nat} {i : BzInstr} (hx : x ∉ done) (hb : P.keyBz r x)
    (h0 : x ∉ Dict.keys s0.bzs) (hB1 : s.bzs = s0.bzs ++ B)
    (hB2 : Dict.keys B = done.filter (fun x => decide (P.keyBz r x)))
    (hB3 : Ids (·.2.id) s0.bzs.length B) (hB4 : ∀ e ∈ B, P.bzAt e.2.id s.bzs e.1 = some e.2)
    (hg : P.genBz s.bzs x = some i)
    (tlKeys : Dict.keys s.tls = (done ++ [x]).filter (fun x => decide (P.keyTl r x)))
    (tlIds : Ids (·.2.id) off s.tls)
    (tlFor : ∀ e ∈ s.tls, P.TlFor past s.tls e.1 e.2)
    (cgEq : s.cgs = s0.cgs ++ s.tls.map (fun e => (e.1, P.genScq scq e.2.id e.1))) :
    P.PassInv scq past r off s0 (done ++ [x]) ⟨s.bzs.set x i, s.tls, s.cgs⟩ := by
  have hxb : x ∉ Dict.keys s.bzs := by
    rw [hB1, Dict.keys_append, List.mem_append, not_or]
    refine ⟨h0, ?_⟩
    rw [hB2]; intro h; exact hx (List.mem_filter.1 h).1
  have hm : ∀ y n j, P.bzAt n s.bzs y = some j → P.bzAt n (s.bzs ++ [(x, i)]) y = some j := by
    intro y n j h
    exact bzAt_mono (fun c _ v hv => Dict.lookup_append_left hv) h
  rw [Dict.set_fresh hxb]
  refine ⟨⟨B ++ [(x, i)], by simp [hB1], ?_, ?_, ?_⟩, tlKeys, tlIds, tlFor, cgEq⟩
  · rw [Dict.keys_append, hB2, List.filter_append]; simp [hb, Dict.keys]
  · refine Ids.append hB3 ?_
    show i.id = _
    rw [genBz_id hg, hB1]; simp
  · intro e he
    rcases List.mem_append.1 he with he | he
    · exact hm _ _ _ (hB4 e he)
    · simp only [List.mem_singleton] at he
      subst he
      exact hm _ _ _ (bzAt_self hg)

theorem bool_of_tl_const {l : BNode} {bz : Bool} (h : l.engine bz = .tl) (hc : l.isConst = true) :
    l.isBoolConst = true := by
  cases l <;> simp_all [BNode.engine, BNode.isConst, BNode.isBoolConst]

theorem genTl_notConst {P : BProg} {past off d x} {i : TlInstr} (h : P.genTl past off d x = some i) :
    (P.heap.lab x).isConst = false := by
  unfold genTl at h
  cases hl : P.heap.lab x <;> simp_all [BNode.isConst, tlOperator]

theorem PassInv.step {P : BProg} {scq past r off} {s0 : PassSt} {done : List Nat} {s s' : PassSt}
    (hi : P.PassInv scq past r off s0 done s) {x : Nat} (hx : x ∉ done)
    (hat : P.atomicId x ≠ none → P.engine x ≠ .tl)
    (h0b : P.keyBz r x → x ∉ Dict.keys s0.bzs) (h0c : P.keyTl r x → x ∉ Dict.keys s0.cgs)
    (hk : ∀ y ∈ done, ∀ c ∈ P.heap.kids y, c ∈ done) (hkx : x ∉ P.heap.kids x)
    (h : P.passStep scq past r off s x = some s') : P.PassInv scq past r off s0 (done ++ [x]) s' := by
  unfold passStep at h
  by_cases hr : x = r
  · rw [if_pos hr] at h
    simp only [Option.some.injEq] at h
    subst h
    have hb : ¬ P.keyBz r x := fun h => h.1 hr
    have ht : ¬ P.keyTl r x := fun h => h.1 hr
    obtain ⟨B, hB1, hB2, hB3, hB4⟩ := hi.bzEq
    exact ⟨⟨B, hB1, by rw [hB2, List.filter_append]; simp [hb], hB3, hB4⟩,
      by rw [hi.tlKeys, List.filter_append]; simp [ht], hi.tlIds, hi.tlFor, hi.cgEq⟩
  rw [if_neg hr] at h
  obtain ⟨B, hB1, hB2, hB3, hB4⟩ := hi.bzEq
  cases ha : P.atomicId x with
  | none =>
    rw [ha] at h
    simp only at h
    by_cases hs : (P.heap.lab x).isConst = true ∧ P.onlyTlParents x = true
    · rw [if_pos hs] at h
      simp only [Option.some.injEq] at h
      subst h
      have hb : ¬ P.keyBz r x := fun h => h.2.2 hs
      have ht : ¬ P.keyTl r x := by
        rintro ⟨_, h | h⟩
        · exact h ha
        · rw [hs.1] at h; simp at h
      exact ⟨⟨B, hB1, by rw [hB2, List.filter_append]; simp [hb], hB3, hB4⟩,
        by rw [hi.tlKeys, List.filter_append]; simp [ht], hi.tlIds, hi.tlFor, hi.cgEq⟩
    · rw [if_neg hs] at h
      cases he : P.engine x with
      | none =>
        rw [he] at h
        simp only [Option.some.injEq] at h
        subst h
        have hb : ¬ P.keyBz r x := fun h => by rw [keyBz, he] at h; simp at h
        have ht : ¬ P.keyTl r x := by
          rintro ⟨_, h | h⟩
          · exact h ha
          · rw [he] at h; simp at h
        exact ⟨⟨B, hB1, by rw [hB2, List.filter_append]; simp [hb], hB3, hB4⟩,
          by rw [hi.tlKeys, List.filter_append]; simp [ht], hi.tlIds, hi.tlFor, hi.cgEq⟩
      | bz =>
        rw [he] at h
        simp only [Option.map_eq_some_iff] at h
        obtain ⟨i, hg, rfl⟩ := h
        have hb : P.keyBz r x := ⟨hr, he, hs⟩
        have ht : ¬ P.keyTl r x := by
          rintro ⟨_, h | h⟩
          · exact h ha
          · rw [he] at h; simp at h
        exact PassInv.addBz hx hb (h0b hb) hB1 hB2 hB3 hB4 hg
          (by rw [hi.tlKeys, List.filter_append]; simp [ht]) hi.tlIds hi.tlFor hi.cgEq
      | tl =>
        rw [he] at h
        simp only [Option.map_eq_some_iff] at h
        obtain ⟨i, hg, rfl⟩ := h
        have hb : ¬ P.keyBz r x := fun h => by rw [keyBz, he] at h; simp at h
        have ht : P.keyTl r x := ⟨hr, Or.inr ⟨he, genTl_notConst hg⟩⟩
        refine PassInv.addTl hi hx hb ht (h0c ht) hk hkx (genTl_id hg).1 ?_
        unfold TlFor
        rw [ha]
        exact (genTl_id hg).2
  | some a =>
    rw [ha] at h
    simp only at h
    have hen : P.engine x ≠ .tl := hat (by simp [ha])
    have ht : P.keyTl r x := ⟨hr, Or.inl (by simp [ha])⟩
    have hxt : x ∉ Dict.keys s.tls := by
      rw [hi.tlKeys]; intro h; exact hx (List.mem_filter.1 h).1
    have hload : P.TlFor past s.tls x ⟨s.tls.length + off, .load, .atomic, a, .none, 0⟩ := by
      unfold TlFor; rw [ha]; simp
    by_cases hs : (P.heap.lab x).isConst = true ∧ P.onlyTlParents x = true
    · rw [if_pos hs] at h
      simp only [Option.some.injEq] at h
      subst h
      have hb : ¬ P.keyBz r x := fun h => h.2.2 hs
      exact PassInv.addTl hi (i := ⟨s.tls.length + off, .load, .atomic, a, .none, 0⟩)
        hx hb ht (h0c ht) hk hkx rfl hload
    · rw [if_neg hs] at h
      cases he : P.engine x with
      | tl => exact absurd he hen
      | none =>
        rw [he] at h
        simp only [Option.some.injEq] at h
        subst h
        have hb : ¬ P.keyBz r x := fun h => by rw [keyBz, he] at h; simp at h
        exact PassInv.addTl hi (i := ⟨s.tls.length + off, .load, .atomic, a, .none, 0⟩)
          hx hb ht (h0c ht) hk hkx rfl hload
      | bz =>
        rw [he] at h
        simp only [Option.map_eq_some_iff] at h
        obtain ⟨i, hg, rfl⟩ := h
        have hb : P.keyBz r x := ⟨hr, he, hs⟩
        -- first the load, as if the node had no booleanizer part
        have hxc : x ∉ Dict.keys s.cgs := by
          rw [hi.cgEq, Dict.keys_append]
          simp only [List.mem_append, not_or]
          exact ⟨h0c ht, by intro h; apply hxt; simpa [Dict.keys] using h⟩
        have hcongr : ∀ y, x ∉ P.heap.kids y → ∀ j, P.TlFor past s.tls y j →
            P.TlFor past (s.tls ++ [(x, ⟨s.tls.length + off, .load, .atomic, a, .none, 0⟩)]) y j := by
          intro y hy j hj
          unfold TlFor at hj ⊢
          split
          · next b hb' => rw [hb'] at hj; exact hj
          · next hb' =>
            rw [hb'] at hj
            rw [tlAt_congr (d := s.tls)]
            · exact hj
            · intro c hc
              exact Dict.lookup_append_fresh (by rintro rfl; exact hy hc)
        refine PassInv.addBz (s := ⟨s.bzs, s.tls.set x _, s.cgs.set x _⟩) hx hb (h0b hb) hB1 hB2 hB3 hB4 hg
          ?_ ?_ ?_ ?_
        · simp only [Dict.set_fresh hxt]
          rw [Dict.keys_append, hi.tlKeys, List.filter_append]; simp [ht, Dict.keys]
        · simp only [Dict.set_fresh hxt]
          exact Ids.append hi.tlIds (by simp; omega)
        · simp only [Dict.set_fresh hxt]
          intro e he'
          rcases List.mem_append.1 he' with he' | he'
          · apply hcongr
            · intro hc
              have : e.1 ∈ Dict.keys s.tls := List.mem_map.2 ⟨e, he', rfl⟩
              rw [hi.tlKeys] at this
              exact hx (hk e.1 (List.mem_filter.1 this).1 x hc)
            · exact hi.tlFor e he'
          · simp only [List.mem_singleton] at he'
            subst he'
            exact hcongr x hkx _ hload
        · simp only [Dict.set_fresh hxt, Dict.set_fresh hxc]
          rw [hi.cgEq]; simp

theorem PassInv.fold {P : BProg} {scq past r off} {s0 : PassSt} {order : List Nat} (hn : order.Nodup)
    (hat : ∀ x, P.atomicId x ≠ none → P.engine x ≠ .tl)
    (h0b : ∀ x ∈ order, P.keyBz r x → x ∉ Dict.keys s0.bzs)
    (h0c : ∀ x ∈ order, P.keyTl r x → x ∉ Dict.keys s0.cgs)
    (hk : ∀ done x rest, order = done ++ x :: rest → ∀ c ∈ P.heap.kids x, c ∈ done) :
    ∀ (rest done : List Nat) (s s' : PassSt), order = done ++ rest → P.PassInv scq past r off s0 done s →
      foldOpt (P.passStep scq past r off) rest s = some s' → P.PassInv scq past r off s0 order s'
  | [], done, s, s', ho, hi, h => by
      simp only [foldOpt, Option.some.injEq] at h
      subst h
      rw [ho]; simpa using hi
  | x :: rest, done, s, s', ho, hi, h => by
      simp only [foldOpt, Option.bind_eq_some_iff] at h
      obtain ⟨s1, h1, h2⟩ := h
      have hx : x ∉ done := by
        rw [ho] at hn
        intro hc
        exact (List.nodup_append.1 hn).2.2 x hc x (by simp) rfl
      have hmem : x ∈ order := by rw [ho]; simp
      have hdone : ∀ y ∈ done, ∀ c ∈ P.heap.kids y, c ∈ done := by
        intro y hy c hc
        obtain ⟨a, b, rfl⟩ := List.append_of_mem hy
        have := hk a y (b ++ x :: rest) (by rw [ho]; simp) c hc
        simp [this]
      have hkx : x ∉ P.heap.kids x := fun hc => hx (hk done x rest ho x hc)
      have := PassInv.step hi hx (hat x) (h0b x hmem) (h0c x hmem) hdone hkx h1
      exact PassInv.fold hn hat h0b h0c hk rest (done ++ [x]) s1 s' (by rw [ho]; simp) this h2

/-! ### The two passes -/

theorem ftStep_pass {P : BProg} {scq} {s s' : AsmState} {x : Nat}
    (hat : P.atomicId x ≠ none → P.engine x ≠ .tl)
    (h : P.ftStep scq s x = some s') :
    P.passStep scq false P.ft 0 ⟨s.bzs, s.fts, s.cgs⟩ x = some ⟨s'.bzs, s'.fts, s'.cgs⟩ ∧
    s'.pts = s.pts ∧ s'.ftScqs = s.ftScqs + (if P.keyTl P.ft x then 1 else 0) := by
  unfold ftStep at h
  unfold passStep
  by_cases hr : x = P.ft
  · rw [if_pos hr] at h ⊢
    simp only [Option.some.injEq] at h
    subst h
    have ht : ¬ P.keyTl P.ft x := fun h => h.1 hr
    simp [ht]
  rw [if_neg hr] at h ⊢
  cases ha : P.atomicId x with
  | none =>
    rw [ha] at h
    simp only at h ⊢
    by_cases hs : (P.heap.lab x).isConst = true ∧ P.onlyTlParents x = true
    · rw [if_pos hs] at h ⊢
      simp only [Option.some.injEq] at h
      subst h
      have ht : ¬ P.keyTl P.ft x := by
        rintro ⟨_, h | h⟩
        · exact h ha
        · rw [hs.1] at h; simp at h
      simp [ht]
    · rw [if_neg hs] at h ⊢
      cases he : P.engine x with
      | none =>
        rw [he] at h
        simp only [Option.some.injEq] at h
        subst h
        have ht : ¬ P.keyTl P.ft x := by
          rintro ⟨_, h | h⟩
          · exact h ha
          · rw [he] at h; simp at h
        simp [ht]
      | bz =>
        rw [he] at h
        simp only [Option.map_eq_some_iff] at h
        obtain ⟨i, hg, rfl⟩ := h
        have ht : ¬ P.keyTl P.ft x := by
          rintro ⟨_, h | h⟩
          · exact h ha
          · rw [he] at h; simp at h
        simp [ht, hg]
      | tl =>
        rw [he] at h
        simp only [Option.map_eq_some_iff] at h
        obtain ⟨i, hg, rfl⟩ := h
        have ht : P.keyTl P.ft x := ⟨hr, Or.inr ⟨he, genTl_notConst hg⟩⟩
        simp [ht, hg]
  | some a =>
    rw [ha] at h
    simp only at h ⊢
    have hen : P.engine x ≠ .tl := hat (by simp [ha])
    have ht : P.keyTl P.ft x := ⟨hr, Or.inl (by simp [ha])⟩
    by_cases hs : (P.heap.lab x).isConst = true ∧ P.onlyTlParents x = true
    · rw [if_pos hs] at h ⊢
      simp only [Option.some.injEq] at h
      subst h
      simp [ht]
    · rw [if_neg hs] at h ⊢
      cases he : P.engine x with
      | tl => exact absurd he hen
      | none =>
        rw [he] at h
        simp only [Option.some.injEq] at h
        subst h
        simp [ht]
      | bz =>
        rw [he] at h
        simp only [Option.map_eq_some_iff] at h
        obtain ⟨i, hg, rfl⟩ := h
        simp [ht, hg]

theorem ft_fold {P : BProg} {scq} (hat : ∀ x, P.atomicId x ≠ none → P.engine x ≠ .tl) :
    ∀ (o : List Nat) (s s' : AsmState), foldOpt (P.ftStep scq) o s = some s' →
      foldOpt (P.passStep scq false P.ft 0) o ⟨s.bzs, s.fts, s.cgs⟩ = some ⟨s'.bzs, s'.fts, s'.cgs⟩ ∧
      s'.pts = s.pts ∧ s'.ftScqs = s.ftScqs + (o.filter (fun x => decide (P.keyTl P.ft x))).length
  | [], s, s', h => by
      simp only [foldOpt, Option.some.injEq] at h
      subst h
      simp [foldOpt]
  | x :: o, s, s', h => by
      simp only [foldOpt, Option.bind_eq_some_iff] at h ⊢
      obtain ⟨s1, h1, h2⟩ := h
      obtain ⟨e1, e2, e3⟩ := ftStep_pass (hat x) h1
      obtain ⟨f1, f2, f3⟩ := ft_fold hat o s1 s' h2
      refine ⟨⟨_, e1, f1⟩, by rw [f2, e2], ?_⟩
      rw [f3, e3, List.filter_cons]
      by_cases hk : P.keyTl P.ft x
      · simp [hk]; omega
      · simp [hk]

theorem ptStep_pass {P : BProg} {scq} {s s' : AsmState} {x : Nat} (h : P.ptStep scq s x = some s') :
    P.passStep scq true P.pt s.ftScqs ⟨s.bzs, s.pts, s.cgs⟩ x = some ⟨s'.bzs, s'.pts, s'.cgs⟩ ∧
    s'.fts = s.fts ∧ s'.ftScqs = s.ftScqs := by
  unfold ptStep at h
  unfold passStep
  by_cases hr : x = P.pt
  · rw [if_pos hr] at h ⊢
    simp only [Option.some.injEq] at h
    subst h; simp
  rw [if_neg hr] at h ⊢
  cases ha : P.atomicId x <;> rw [ha] at h <;> simp only at h ⊢
  all_goals
    by_cases hs : (P.heap.lab x).isConst = true ∧ P.onlyTlParents x = true
    · rw [if_pos hs] at h ⊢
      simp only [Option.some.injEq] at h
      subst h; simp
    · rw [if_neg hs] at h ⊢
      cases he : P.engine x <;> rw [he] at h
      · simp only [Option.some.injEq] at h
        subst h; simp
      all_goals
        simp only [Option.map_eq_some_iff] at h
        obtain ⟨i, hg, rfl⟩ := h
        simp [hg]

theorem pt_fold {P : BProg} {scq} : ∀ (o : List Nat) (s s' : AsmState), foldOpt (P.ptStep scq) o s = some s' →
      foldOpt (P.passStep scq true P.pt s.ftScqs) o ⟨s.bzs, s.pts, s.cgs⟩ = some ⟨s'.bzs, s'.pts, s'.cgs⟩ ∧
      s'.fts = s.fts
  | [], s, s', h => by
      simp only [foldOpt, Option.some.injEq] at h
      subst h
      simp [foldOpt]
  | x :: o, s, s', h => by
      simp only [foldOpt, Option.bind_eq_some_iff] at h ⊢
      obtain ⟨s1, h1, h2⟩ := h
      obtain ⟨e1, e2, e3⟩ := ptStep_pass h1
      obtain ⟨f1, f2⟩ := pt_fold o s1 s' h2
      rw [e3] at f1
      exact ⟨⟨_, e1, f1⟩, by rw [f2, e2]⟩

end BProg
end R2U2

namespace R2U2
namespace BProg

/-- Everything known about a successful run of `genAssembly`. -/
structure AsmFacts (P : BProg) (scq : Nat → Option (Int × Int)) (o1 o2 : List Nat)
    (bzd : Dict BzInstr) (ftd ptd : Dict TlInstr) (A : Assembly) : Prop where
  bzKeys : Dict.keys bzd = o1.filter (fun x => decide (P.keyBz P.ft x)) ++
    o2.filter (fun x => decide (P.keyBz P.pt x))
  bzNodup : (Dict.keys bzd).Nodup
  bzIds : Ids (·.2.id) 0 bzd
  bzFor : ∀ e ∈ bzd, P.bzAt e.2.id bzd e.1 = some e.2
  bz : A.bz = (bzd.filter (fun e => decide (e.2.op ≠ .prev)) ++
    bzd.filter (fun e => decide (e.2.op = .prev))).map (·.2)
  ftKeys : Dict.keys ftd = o1.filter (fun x => decide (P.keyTl P.ft x))
  ptKeys : Dict.keys ptd = o2.filter (fun x => decide (P.keyTl P.pt x))
  ftIds : Ids (·.2.id) 0 ftd
  ptIds : Ids (·.2.id) ftd.length ptd
  ftFor : ∀ e ∈ ftd, P.TlFor false ftd e.1 e.2
  ptFor : ∀ e ∈ ptd, P.TlFor true ptd e.1 e.2
  ft : A.ft = ftd.map (·.2)
  pt : A.pt = ptd.map (·.2)
  cg : A.cg =
    (((ftd ++ ptd).map (fun e => P.genScq scq e.2.id e.1)).flatten.filter (fun c => !c.temp)) ++
    (((ftd ++ ptd).map (fun e => P.genScq scq e.2.id e.1)).flatten.filter (fun c => c.temp))

theorem Ids.concat {β : Type} {f : β → Nat} : ∀ {n : Nat} {a b : List β}, Ids f n a → Ids f (n + a.length) b →
    Ids f n (a ++ b)
  | n, [], b, _, h => by simpa using h
  | n, c :: a, b, ha, h => by
      simp only [List.cons_append, Ids] at ha ⊢
      refine ⟨ha.1, Ids.concat ha.2 ?_⟩
      simp only [List.length_cons] at h
      have e : n + 1 + a.length = n + (a.length + 1) := by omega
      rw [e]; exact h

theorem asm_facts {P : BProg} {scq} {A : Assembly} {fuel : Nat} {o1 o2 : List Nat}
    (hat : ∀ x, P.atomicId x ≠ none → P.engine x ≠ .tl)
    (hn1 : o1.Nodup) (hn2 : o2.Nodup)
    (hk1 : ∀ done x rest, o1 = done ++ x :: rest → ∀ c ∈ P.heap.kids x, c ∈ done)
    (hk2 : ∀ done x rest, o2 = done ++ x :: rest → ∀ c ∈ P.heap.kids x, c ∈ done)
    (hsep : ∀ x, x ∈ o1 → x ∈ o2 → (P.heap.lab x).isBoolConst = true)
    (h1 : Heap.postorder fuel P.heap [P.ft] = some o1) (h2 : Heap.postorder fuel P.heap [P.pt] = some o2)
    (h : genAssembly fuel P scq = some A) : ∃ bzd ftd ptd, P.AsmFacts scq o1 o2 bzd ftd ptd A := by
  unfold genAssembly at h
  rw [h1, h2] at h
  simp only [Option.bind_eq_some_iff, Option.map_eq_some_iff] at h
  obtain ⟨s1, hs1, s2, hs2, rfl⟩ := h
  obtain ⟨p1, -, p3⟩ := ft_fold hat o1 _ _ hs1
  obtain ⟨q1, q2⟩ := pt_fold o2 _ _ hs2
  have i1 : P.PassInv scq false P.ft 0 ⟨[], [], []⟩ o1 ⟨s1.bzs, s1.fts, s1.cgs⟩ :=
    PassInv.fold hn1 hat (by simp [Dict.keys]) (by simp [Dict.keys]) hk1 o1 [] _ _ rfl
      (PassInv.start rfl) p1
  have hbool : ∀ x, (P.heap.lab x).isBoolConst = true → ¬ P.keyBz P.pt x ∧ ¬ P.keyTl P.pt x := by
    intro x hx
    have ht : P.engine x = .tl := by
      unfold engine; cases hl : P.heap.lab x <;> simp_all [BNode.isBoolConst, BNode.engine]
    have hc : (P.heap.lab x).isConst = true := by
      cases hl : P.heap.lab x <;> simp_all [BNode.isBoolConst, BNode.isConst]
    refine ⟨fun h => by rw [keyBz, ht] at h; simp at h, ?_⟩
    rintro ⟨_, h | h⟩
    · exact hat x h ht
    · rw [hc] at h; simp at h
  obtain ⟨B1, b1, b2, b3, b4⟩ := i1.bzEq
  simp only [List.nil_append, List.length_nil] at b1 b2 b3 b4
  have hpts : s1.pts = [] := by
    obtain ⟨-, h, -⟩ := ft_fold hat o1 _ _ hs1
    exact h
  have i2 : P.PassInv scq true P.pt s1.ftScqs ⟨s1.bzs, s1.pts, s1.cgs⟩ o2 ⟨s2.bzs, s2.pts, s2.cgs⟩ := by
    refine PassInv.fold hn2 hat ?_ ?_ hk2 o2 [] _ _ rfl (PassInv.start hpts) q1
    · intro x hx hkey hm
      simp only [b1, b2] at hm
      exact (hbool x (hsep x (List.mem_filter.1 hm).1 hx)).1 hkey
    · intro x hx hkey hm
      have : x ∈ Dict.keys s1.fts := by
        have := i1.cgEq
        simp only [List.nil_append] at this
        simp only [this] at hm
        simpa [Dict.keys] using hm
      have e := i1.tlKeys
      simp only at e
      rw [e] at this
      exact (hbool x (hsep x (List.mem_filter.1 this).1 hx)).2 hkey
  obtain ⟨B2, c1, c2, c3, c4⟩ := i2.bzEq
  simp only at c1 c2 c3 c4
  have hlen : s1.ftScqs = s1.fts.length := by
    rw [p3]
    simp only [Nat.zero_add]
    have := i1.tlKeys
    simp only at this
    rw [← this, Dict.keys_length]
  have hkeys : Dict.keys s2.bzs = o1.filter (fun x => decide (P.keyBz P.ft x)) ++
      o2.filter (fun x => decide (P.keyBz P.pt x)) := by
    rw [c1, Dict.keys_append, b1, b2, c2]
  have hnodup : (Dict.keys s2.bzs).Nodup := by
    rw [hkeys, List.nodup_append]
    refine ⟨hn1.filter _, hn2.filter _, ?_⟩
    rintro a ha b hb rfl
    have hb' := List.mem_filter.1 hb
    exact (hbool a (hsep a (List.mem_filter.1 ha).1 hb'.1)).1 (by simpa using hb'.2)
  have hcg : (s2.cgs.map (·.2)).flatten =
      ((s1.fts ++ s2.pts).map (fun e => P.genScq scq e.2.id e.1)).flatten := by
    have e1 := i1.cgEq
    have e2 := i2.cgEq
    simp only [List.nil_append] at e1 e2
    rw [e2, e1]
    simp [List.map_map, Function.comp_def]
  refine ⟨s2.bzs, s1.fts, s2.pts, ?_⟩
  constructor
  · exact hkeys
  · exact hnodup
  · rw [c1]
    refine Ids.concat ?_ ?_
    · rw [b1]; exact b3
    · simpa using c3
  · intro e he
    rw [c1] at he
    rcases List.mem_append.1 he with he | he
    · rw [b1] at he
      refine bzAt_mono ?_ (b4 e he)
      intro c _ v hv
      rw [c1]
      exact Dict.lookup_append_left hv
    · exact c4 e he
  · simp only [movePrev_eq hnodup]
  · exact i1.tlKeys
  · exact i2.tlKeys
  · exact i1.tlIds
  · rw [← hlen]; exact i2.tlIds
  · exact i1.tlFor
  · exact i2.tlFor
  · simp only [q2]
  · rfl
  · simp only
    have := moveTemps_eq ((s2.cgs.map (·.2)).flatten) [] []
    simp only [List.append_nil, List.nil_append] at this
    rw [this, hcg]

end BProg
end R2U2
