import Verif.Lemmas.Load
import Verif.Lemmas.RustRun
import Verif.Model.Booleanizer
/-
Loading a binary into the Rust monitor.
-/
namespace R2U2
namespace Rs
open Monitor

/-! ### From bytes to records -/

/-- What a frame does. -/
def Monitor.event (M : Monitor) : LoadEv → Option Monitor
  | .config r => M.configure r
  | .iconst mem _ => if mem < M.lim.bz then some M else none
  | .fconst mem _ => if mem < M.lim.bz then some M else none
  | .bz r => M.storeBz r
  | .tl r => M.storeTl r

def Monitor.events : List LoadEv → Monitor → Option Monitor
  | [], M => some M
  | e :: es, M => (M.event e).bind (events es)

theorem events_append : ∀ (l l' : List LoadEv) (M : Monitor), events (l ++ l') M = (events l M).bind (events l')
  | [], _, M => rfl
  | e :: l, l', M => by
      simp only [List.cons_append, events]
      cases h : M.event e with
      | none => rfl
      | some M1 => simp only [Option.bind_some]; exact events_append l l' M1

theorem frame_event {s : List Nat} {o : Nat} {es : List LoadEv} (h : loadFrame s o = some es) (h2 : s[o + 1]? = some 2 → s[o + 2]? ≠ none)
    (M : Monitor) : M.frame s o = events es M := by
  unfold loadFrame at h
  unfold frame
  cases ht : s[o + 1]? with
  | none => rw [ht] at h; cases h
  | some tag =>
      rw [ht] at h h2
      simp only at h ⊢
      rw [if_neg (by rintro ⟨rfl, h'⟩; exact h2 rfl h')]
      by_cases hc : tag = 2 ∧ s[o + 2]? = some 4
      · rw [if_pos hc] at h ⊢
        rw [Option.map_eq_some_iff] at h
        obtain ⟨r, hr, rfl⟩ := h
        rw [hr]
        simp only [Option.bind_some, events, event]
        cases M.configure r <;> rfl
      · rw [if_neg hc] at h ⊢
        by_cases h5 : tag = 5
        · rw [if_pos h5] at h ⊢
          cases hb : bzRecAt s (o + 2) with
          | none => rw [hb] at h; cases h
          | some r =>
              rw [hb] at h
              simp only [Option.bind_some] at h ⊢
              by_cases hi : r.opcode = some .iconst
              · rw [if_pos hi, Option.map_eq_some_iff] at h
                obtain ⟨v, _, rfl⟩ := h
                simp only [storeBz, if_pos (Or.inl hi), events, event]
                split <;> rfl
              · rw [if_neg hi] at h
                by_cases hf : r.opcode = some .fconst
                · rw [if_pos hf, Option.map_eq_some_iff] at h
                  obtain ⟨v, _, rfl⟩ := h
                  simp only [storeBz, if_pos (Or.inr hf), events, event]
                  split <;> rfl
                · rw [if_neg hf, Option.some.injEq] at h
                  subst h
                  simp only [events, event]
                  cases M.storeBz r <;> rfl
        · rw [if_neg h5] at h ⊢
          by_cases h4 : tag = 4
          · rw [if_pos h4, Option.map_eq_some_iff] at h
            rw [if_pos h4]
            obtain ⟨r, hr, rfl⟩ := h
            rw [hr]
            simp only [Option.bind_some, events, event]
            cases M.storeTl r <;> rfl
          · rw [if_neg h4, Option.some.injEq] at h
            rw [if_neg h4]
            subst h
            rfl

theorem loadLoop_head {n : Nat} {s : List Nat} {o : Nat} {x : List LoadEv × Nat} (h : loadLoop n s o = some x) : s[o]? ≠ none := by
  cases n with
  | zero => cases h
  | succ n =>
      intro h0
      simp [loadLoop, h0] at h

theorem frames_load {s : List Nat} : ∀ (n o : Nat) (es : List LoadEv) (stop : Nat), loadLoop n s o = some (es, stop) →
    ∀ M : Monitor, frames n s o M = events es M := by
  intro n
  induction n with
  | zero => intro o es stop h; cases h
  | succ n ih =>
      intro o es stop h M
      simp only [loadLoop] at h
      simp only [frames]
      cases hs : s[o]? with
      | none => rw [hs] at h; cases h
      | some len =>
          rw [hs] at h
          simp only at h ⊢
          by_cases h0 : len = 0
          · rw [if_pos h0] at h ⊢
            cases h
            rfl
          · rw [if_neg h0] at h ⊢
            cases hf : loadFrame s o with
            | none => rw [hf] at h; cases h
            | some e1 =>
                cases hl : loadLoop n s (o + len) with
                | none => rw [hf, hl] at h; cases h
                | some x =>
                    obtain ⟨rest, o'⟩ := x
                    rw [hf, hl] at h
                    cases h
                    have h2 : s[o + 1]? = some 2 → s[o + 2]? ≠ none := by
                      intro ht hn
                      have hlen : s.length ≤ o + 2 := List.getElem?_eq_none_iff.1 hn
                      have hh := loadLoop_head hl
                      have hlt : o + len < s.length := by
                        by_contra hge
                        exact hh (List.getElem?_eq_none_iff.2 (by omega))
                      have h1 : len = 1 := by omega
                      subst h1
                      cases n with
                      | zero => cases hl
                      | succ n =>
                          simp only [loadLoop, ht] at hl
                          rw [if_neg (by omega)] at hl
                          cases h3 : loadLoop n s (o + 1 + 2) with
                          | none => rw [h3] at hl; cases h4 : loadFrame s (o + 1) <;> rw [h4] at hl <;> cases hl
                          | some y =>
                              have := loadLoop_head h3
                              exact this (List.getElem?_eq_none_iff.2 (by omega))
                    rw [frame_event hf h2, events_append]
                    cases events e1 M with
                    | none => rfl
                    | some M1 => simp only [Option.bind_some]; exact ih _ _ _ hl M1

/-! ### Records -/

def Monitor.configureAll : List TlRec → Monitor → Option Monitor
  | [], M => some M
  | r :: rs, M => (M.configure r).bind (configureAll rs)

theorem configureAll_append : ∀ (l l' : List TlRec) (M : Monitor), configureAll (l ++ l') M = (configureAll l M).bind (configureAll l')
  | [], _, M => rfl
  | e :: l, l', M => by
      simp only [List.cons_append, configureAll]
      cases h : M.configure e with
      | none => rfl
      | some M1 => simp only [Option.bind_some]; exact configureAll_append l l' M1

/-- Configuration changes control blocks, and looks at nothing but control blocks and limits. -/
theorem configure_set (M : Monitor) (r : TlRec) (T : Nat → TlRec) (n k : Nat) :
    ({ M with table := T, max := n, bzMax := k } : Monitor).configure r = (M.configure r).map fun M' => { M' with table := T, max := n, bzMax := k } := by
  unfold configure
  split
  · simp only [block]
    by_cases h0 : r.mem = 0
    · rw [if_pos h0]
      simp only [Option.bind_some]
      split
      · split <;> rfl
      · rfl
    · rw [if_neg h0]
      split
      · simp only [Option.map_some, Option.bind_some]
        split
        · split <;> rfl
        · rfl
      · rfl
  · simp only [block]
    split <;> rfl
  · rfl

theorem configure_same {M M' : Monitor} {r : TlRec} (h : M.configure r = some M') : M'.table = M.table ∧ M'.max = M.max ∧ M'.lim = M.lim ∧ M'.bzMax = M.bzMax := by
  have := configure_set M r M.table M.max M.bzMax
  rw [show ({ M with table := M.table, max := M.max, bzMax := M.bzMax } : Monitor) = M from rfl, h] at this
  simp only [Option.map_some, Option.some.injEq] at this
  refine ⟨by rw [this], by rw [this], ?_, by rw [this]⟩
  unfold configure at h
  split at h
  · simp only [Option.bind_eq_some_iff] at h
    obtain ⟨ref, _, h⟩ := h
    split at h
    · rw [Option.map_eq_some_iff] at h; obtain ⟨b, _, rfl⟩ := h; rfl
    · cases h
  · rw [Option.map_eq_some_iff] at h; obtain ⟨b, _, rfl⟩ := h; rfl
  · cases h; rfl

theorem configureAll_set : ∀ (l : List TlRec) (M : Monitor) (T : Nat → TlRec) (n k : Nat),
    configureAll l { M with table := T, max := n, bzMax := k } = (configureAll l M).map fun M' => { M' with table := T, max := n, bzMax := k }
  | [], _, _, _, _ => rfl
  | r :: l, M, T, n, k => by
      simp only [configureAll, configure_set]
      cases M.configure r with
      | none => rfl
      | some M1 => simp only [Option.map_some, Option.bind_some]; exact configureAll_set l M1 T n k

/-- A table with `l` written from index `n`. -/
def withTable (T : Nat → TlRec) (n : Nat) (l : List TlRec) (k : Nat) : TlRec :=
  if n ≤ k then (l[k - n]?).getD (T k) else T k

theorem withTable_cons (T : Nat → TlRec) (n : Nat) (r : TlRec) (l : List TlRec) :
    withTable (fun k => if k = n then r else T k) (n + 1) l = withTable T n (r :: l) := by
  funext k
  simp only [withTable]
  by_cases h : n + 1 ≤ k
  · rw [if_pos h, if_pos (show n ≤ k by omega), if_neg (show ¬ k = n by omega), show k - n = (k - (n + 1)) + 1 by omega, List.getElem?_cons_succ]
  · rw [if_neg h]
    by_cases hk : k = n
    · subst hk; rw [if_pos rfl, if_pos (Nat.le_refl _)]; simp
    · rw [if_neg hk, if_neg (show ¬ n ≤ k by omega)]

/-- The array of booleanizer instructions has room for those of the file. -/
structure BzRoom (lim : Limits) (es : List LoadEv) : Prop where
  table : (BzMon.table es).length ≤ lim.bz
  ints : ∀ a v, .iconst a v ∈ es → a < lim.bz
  floats : ∀ a v, .fconst a v ∈ es → a < lim.bz
  recs : ∀ r, .bz r ∈ es → (r.opcode ≠ some .iconst ∧ r.opcode ≠ some .fconst) ∧ (r.opcode = some .prev → r.mem < lim.bz ∧ r.param1 < lim.bz)

theorem BzRoom.none {lim : Limits} {es : List LoadEv} (h : LoadEv.bzPart es = []) : BzRoom lim es := by
  have hno : ∀ e ∈ es, e ∉ LoadEv.bzPart es := by intro e _; rw [h]; simp
  refine ⟨?_, fun a v he => absurd (List.mem_filter.2 ⟨he, rfl⟩) (hno _ he), fun a v he => absurd (List.mem_filter.2 ⟨he, rfl⟩) (hno _ he),
    fun r he => absurd (List.mem_filter.2 ⟨he, rfl⟩) (hno _ he)⟩
  have : BzMon.table es = [] := by
    unfold BzMon.table
    rw [List.filterMap_eq_nil_iff]
    intro e he
    cases e with
    | bz r => exact absurd (List.mem_filter.2 ⟨he, rfl⟩) (hno _ he)
    | _ => rfl
  rw [this]; simp

theorem events_split : ∀ (es : List LoadEv) (M Mc : Monitor), M.bzMax + (BzMon.table es).length ≤ M.lim.bz →
    (∀ a v, .iconst a v ∈ es → a < M.lim.bz) → (∀ a v, .fconst a v ∈ es → a < M.lim.bz) →
    (∀ r, .bz r ∈ es → (r.opcode ≠ some .iconst ∧ r.opcode ≠ some .fconst) ∧ (r.opcode = some .prev → r.mem < M.lim.bz ∧ r.param1 < M.lim.bz)) →
    M.max + (LoadEv.tlTable es).length ≤ M.lim.tl →
    configureAll (LoadEv.configs es) M = some Mc →
    events es M = some { Mc with table := withTable M.table M.max (LoadEv.tlTable es), max := M.max + (LoadEv.tlTable es).length,
                                 bzMax := M.bzMax + (BzMon.table es).length } := by
  intro es
  induction es with
  | nil =>
      intro M Mc _ _ _ _ _ hc
      cases hc
      have : withTable M.table M.max [] = M.table := by funext k; unfold withTable; split <;> simp
      simp [events, LoadEv.tlTable, BzMon.table, this]
  | cons e es ih =>
      intro M Mc hb1 hb2 hb3 hb4 hm hc
      have hb2' : ∀ a v, .iconst a v ∈ es → a < M.lim.bz := fun a v h => hb2 a v (List.mem_cons_of_mem _ h)
      have hb3' : ∀ a v, .fconst a v ∈ es → a < M.lim.bz := fun a v h => hb3 a v (List.mem_cons_of_mem _ h)
      have hb4' : ∀ r, .bz r ∈ es → (r.opcode ≠ some .iconst ∧ r.opcode ≠ some .fconst) ∧ (r.opcode = some .prev → r.mem < M.lim.bz ∧ r.param1 < M.lim.bz) :=
        fun r h => hb4 r (List.mem_cons_of_mem _ h)
      cases e with
      | config r =>
          have ht : LoadEv.tlTable (.config r :: es) = LoadEv.tlTable es := rfl
          have hcs : LoadEv.configs (.config r :: es) = r :: LoadEv.configs es := rfl
          have hbt : BzMon.table (.config r :: es) = BzMon.table es := rfl
          rw [hcs] at hc
          rw [ht] at hm ⊢
          rw [hbt] at hb1 ⊢
          simp only [configureAll, Option.bind_eq_some_iff] at hc
          obtain ⟨M1, h1, h2⟩ := hc
          obtain ⟨a1, a2, a3, a4⟩ := configure_same h1
          have := ih M1 Mc (by rw [a4, a3]; exact hb1) (by rw [a3]; exact hb2') (by rw [a3]; exact hb3') (by rw [a3]; exact hb4') (by rw [a2, a3]; exact hm) h2
          simp only [events, event, h1, Option.bind_some, this, a1, a2, a4]
      | tl r =>
          have ht : LoadEv.tlTable (.tl r :: es) = r :: LoadEv.tlTable es := rfl
          have hcs : LoadEv.configs (.tl r :: es) = LoadEv.configs es := rfl
          have hbt : BzMon.table (.tl r :: es) = BzMon.table es := rfl
          rw [hcs] at hc
          rw [ht] at hm ⊢
          rw [hbt] at hb1 ⊢
          rw [List.length_cons] at hm ⊢
          simp only [events, event, storeTl]
          rw [if_pos (by omega)]
          simp only [Option.bind_some]
          have := ih { M with table := fun k => if k = M.max then r else M.table k, max := M.max + 1 }
            { Mc with table := fun k => if k = M.max then r else M.table k, max := M.max + 1, bzMax := M.bzMax } hb1 hb2' hb3' hb4' (by simp only []; omega)
            (by have := configureAll_set (LoadEv.configs es) M (fun k => if k = M.max then r else M.table k) (M.max + 1) M.bzMax
                rw [hc] at this; exact this)
          rw [this]
          simp only [withTable_cons]
          congr 2
          omega
      | iconst a b =>
          simp only [events, event, if_pos (hb2 a b List.mem_cons_self), Option.bind_some]
          exact ih M Mc hb1 hb2' hb3' hb4' hm hc
      | fconst a b =>
          simp only [events, event, if_pos (hb3 a b List.mem_cons_self), Option.bind_some]
          exact ih M Mc hb1 hb2' hb3' hb4' hm hc
      | bz r =>
          have hbt : BzMon.table (.bz r :: es) = r :: BzMon.table es := rfl
          rw [hbt, List.length_cons] at hb1 ⊢
          obtain ⟨⟨g1, g2⟩, g3⟩ := hb4 r List.mem_cons_self
          simp only [events, event, storeBz]
          rw [if_neg (by rintro (h | h); exact g1 h; exact g2 h), if_neg (by rintro ⟨h, h'⟩; exact h' (g3 h)), if_pos (by omega)]
          simp only [Option.bind_some]
          have := ih { M with bzMax := M.bzMax + 1 } { Mc with table := M.table, max := M.max, bzMax := M.bzMax + 1 } (by simp only []; omega) hb2' hb3' hb4' hm
            (by have := configureAll_set (LoadEv.configs es) M M.table M.max (M.bzMax + 1)
                rw [show LoadEv.configs (.bz r :: es) = LoadEv.configs es from rfl] at hc
                rw [hc] at this; exact this)
          rw [this]
          simp only [show LoadEv.tlTable (.bz r :: es) = LoadEv.tlTable es from rfl]
          congr 2
          omega

/-! ### Queues side by side -/

/-- A control block after configuration. -/
def placedBlock (len : Nat → Nat) (lb ub : Nat → Nat) (D : Nat → Bool) (j : Nat) : Block :=
  { Block.dflt with len := len j, ref := sumTo len j, lb := if D j then lb j else maxTime, ub := if D j then ub j else maxTime }

theorem sumTo_mono {f : Nat → Nat} {i j : Nat} (h : i ≤ j) : sumTo f i ≤ sumTo f j := by
  induction j with
  | zero => rw [show i = 0 by omega]
  | succ j ih =>
      by_cases hj : i = j + 1
      · rw [hj]
      · have := ih (by omega); simp only [sumTo]; omega

theorem sizes_ok {lim : Limits} {len : Nat → Nat} {tmp : Nat → Bool} {lb ub : Nat → Nat} : ∀ (n : Nat), n ≤ lim.tl → sumTo len n ≤ lim.slots → (∀ j, 0 < len j) →
    lim.slots ≤ 2 ^ 32 →
    configureAll ((List.range n).map (sizeRec len tmp)) (Monitor.dflt lim) =
      some { Monitor.dflt lim with blocks := fun j => if j < n then placedBlock len lb ub (fun _ => false) j else .dflt } := by
  intro n
  induction n with
  | zero => intro _ _ _ _; simp [configureAll, Monitor.dflt]
  | succ n ih =>
      intro hn hs hp hm
      have hs' : sumTo len n + len n ≤ lim.slots := hs
      have hpn := hp n
      rw [List.range_succ, List.map_append, configureAll_append, ih (by omega) (by omega) hp hm]
      simp only [Option.bind_some, List.map_cons, List.map_nil, configureAll, configure, sizeRec]
      have href : (if n = 0 then some 0 else (({ Monitor.dflt lim with blocks := fun j => if j < n then placedBlock len lb ub (fun _ => false) j else .dflt } : Monitor).block
          (n - 1)).map fun p => p.ref + p.len) = some (sumTo len n) := by
        by_cases h0 : n = 0
        · subst h0; rfl
        · rw [if_neg h0]
          obtain ⟨k, rfl⟩ : ∃ k, n = k + 1 := ⟨n - 1, by omega⟩
          simp only [block, Nat.add_sub_cancel]
          rw [if_pos (by show k < lim.tl; omega), if_pos (by omega)]
          rfl
      rw [href]
      simp only [Option.bind_some]
      rw [if_pos (by omega)]
      simp only [block]
      rw [if_pos (by show n < lim.tl; omega)]
      simp only [Option.map_some, Option.bind_some, setBlock, if_neg (Nat.lt_irrefl n)]
      congr 2
      funext j
      by_cases hj : j = n
      · subst hj; rw [if_pos rfl, if_pos (by omega)]; rfl
      · rw [if_neg hj]
        by_cases hlt : j < n
        · rw [if_pos hlt, if_pos (by omega)]
        · rw [if_neg hlt, if_neg (by omega)]

theorem temps_ok {lim : Limits} {n : Nat} {len lb ub : Nat → Nat} (hn : n ≤ lim.tl) : ∀ (T : List Nat) (D : Nat → Bool), (∀ k ∈ T, k < n) →
    configureAll (T.map (tempRec lb ub)) { Monitor.dflt lim with blocks := fun j => if j < n then placedBlock len lb ub D j else .dflt } =
      some { Monitor.dflt lim with blocks := fun j => if j < n then placedBlock len lb ub (fun j => D j || decide (j ∈ T)) j else .dflt } := by
  intro T
  induction T with
  | nil => intro D _; simp [configureAll]
  | cons k T ih =>
      intro D hT
      have hk := hT k (by simp)
      simp only [List.map_cons, configureAll, configure, tempRec, block]
      rw [if_pos (by show k < lim.tl; omega)]
      simp only [Option.map_some, Option.bind_some, if_pos hk, setBlock]
      have : (fun j => if j = k then ({ placedBlock len lb ub D k with lb := lb k, ub := ub k } : Block) else
          if j < n then placedBlock len lb ub D j else .dflt) =
          fun j => if j < n then placedBlock len lb ub (fun j => D j || decide (j = k)) j else .dflt := by
        funext j
        by_cases hj : j = k
        · subst hj; rw [if_pos rfl, if_pos hk]; simp [placedBlock]
        · rw [if_neg hj]
          simp [placedBlock, hj]
      have hD : (fun j => D j || decide (j ∈ k :: T)) = fun j => (D j || decide (j = k)) || decide (j ∈ T) := by
        funext j
        simp only [Bool.or_assoc, List.mem_cons, Bool.decide_or]
      rw [hD, this]
      exact ih _ fun j hj => hT j (by simp [hj])

theorem setNext_ok {lim : Limits} (is : List TlRec) : ∀ (M : Monitor), M.lim = lim → (∀ r ∈ is, r.mem < lim.tl) →
    setNext is M = some { M with blocks := fun j => if ∃ r ∈ is, r.mem = j ∧ (r.opcode = some .until ∨ r.opcode = some .release) then
      { M.blocks j with next := (M.blocks j).lb } else M.blocks j } := by
  induction is with
  | nil => intro M _ _; simp [setNext]
  | cons r is ih =>
      intro M hl hm
      have hr := hm r (by simp)
      simp only [setNext]
      by_cases ht : r.opcode = some .until ∨ r.opcode = some .release
      · rw [if_pos ht]
        simp only [block]
        rw [if_pos (by rw [hl]; exact hr)]
        simp only [Option.bind_some]
        rw [ih (M.setBlock _ _) hl fun r' hr' => hm r' (by simp [hr'])]
        congr 2
        funext j
        simp only [setBlock]
        by_cases hj : j = r.mem
        · subst hj
          rw [if_pos rfl]
          rw [if_pos (⟨r, by simp, rfl, ht⟩ : ∃ r' ∈ r :: is, r'.mem = r.mem ∧ (r'.opcode = some .until ∨ r'.opcode = some .release))]
          split <;> rfl
        · rw [if_neg hj]
          have : (∃ r' ∈ r :: is, r'.mem = j ∧ (r'.opcode = some .until ∨ r'.opcode = some .release)) ↔
              (∃ r' ∈ is, r'.mem = j ∧ (r'.opcode = some .until ∨ r'.opcode = some .release)) := by
            simp only [List.mem_cons]
            constructor
            · rintro ⟨r', rfl | h, h2, h3⟩
              · exact absurd h2.symm hj
              · exact ⟨r', h, h2, h3⟩
            · rintro ⟨r', h, h2⟩; exact ⟨r', Or.inr h, h2⟩
          by_cases hx : ∃ r' ∈ is, r'.mem = j ∧ (r'.opcode = some .until ∨ r'.opcode = some .release)
          · rw [if_pos hx, if_pos (this.2 hx)]
          · rw [if_neg hx, if_neg fun h => hx (this.1 h)]
      · rw [if_neg ht, ih M hl fun r' hr' => hm r' (by simp [hr'])]
        congr 2
        funext j
        have : (∃ r' ∈ r :: is, r'.mem = j ∧ (r'.opcode = some .until ∨ r'.opcode = some .release)) ↔
            (∃ r' ∈ is, r'.mem = j ∧ (r'.opcode = some .until ∨ r'.opcode = some .release)) := by
          simp only [List.mem_cons]
          constructor
          · rintro ⟨r', rfl | h, h2, h3⟩
            · exact absurd h3 ht
            · exact ⟨r', h, h2, h3⟩
          · rintro ⟨r', h, h2⟩; exact ⟨r', Or.inr h, h2⟩
        by_cases hx : ∃ r' ∈ is, r'.mem = j ∧ (r'.opcode = some .until ∨ r'.opcode = some .release)
        · rw [if_pos hx, if_pos (this.2 hx)]
        · rw [if_neg hx, if_neg fun h => hx (this.1 h)]

/-- A loaded monitor. -/
theorem load_ok {S : Setup} {lim : Limits} {tmp : Nat → Bool} {s : List Nat} {es : List LoadEv} {stop fuel : Nat}
    (hl : loadBinary fuel s = some (es, stop)) (hb : BzRoom lim es) (ht : LoadEv.tlTable es = S.prog)
    (hc : LoadEv.configs es = (List.range S.prog.length).map (sizeRec S.len tmp) ++ ((List.range S.prog.length).filter tmp).map (tempRec S.lb S.ub))
    (tb : InTable S.prog lim) (hpos : ∀ j, 0 < S.len j) (hs : sumTo S.len S.prog.length ≤ lim.slots) (h32 : lim.slots ≤ 2 ^ 32)
    (htm : ∀ i r, S.prog[i]? = some r → r.temporal = true ∨ r.past = true → tmp i = true) :
    ∃ M, getMonitor lim fuel s = some M ∧ Loaded S M ∧ M.lim = lim ∧ Placed S.prog.length lim M.blocks := by
  have hcfg := configureAll_append ((List.range S.prog.length).map (sizeRec S.len tmp)) (((List.range S.prog.length).filter tmp).map (tempRec S.lb S.ub)) (Monitor.dflt lim)
  rw [sizes_ok (lb := S.lb) (ub := S.ub) _ tb.blocks hs hpos h32] at hcfg
  simp only [Option.bind_some] at hcfg
  rw [temps_ok tb.blocks _ _ (by intro k hk; rw [List.mem_filter, List.mem_range] at hk; exact hk.1), ← hc] at hcfg
  have hev := events_split es (Monitor.dflt lim) _ (by show 0 + _ ≤ lim.bz; have := hb.table; omega) hb.ints hb.floats hb.recs (by rw [ht]; show 0 + _ ≤ lim.tl; have := tb.blocks; omega) hcfg
  have hprog : ∀ (M : Monitor), M.table = withTable (Monitor.dflt lim).table 0 S.prog → M.max = S.prog.length → M.program = S.prog := by
    intro M h1 h2
    unfold program
    rw [h1, h2]
    apply List.ext_getElem?
    intro k
    rw [List.getElem?_map]
    by_cases hk : k < S.prog.length
    · rw [List.getElem?_range hk, List.getElem?_eq_getElem hk]
      simp [withTable, hk]
    · rw [List.getElem?_eq_none_iff.2 (by simp; omega), List.getElem?_eq_none_iff.2 (by omega)]
      rfl
  rw [ht] at hev
  unfold loadBinary at hl
  unfold getMonitor process
  cases h0 : s[0]? with
  | none => rw [h0] at hl; cases hl
  | some o =>
      rw [h0] at hl
      simp only at hl ⊢
      rw [frames_load _ _ _ _ hl, hev]
      simp only [Option.bind_some]
      rw [hprog _ rfl (by show 0 + S.prog.length = _; omega)]
      rw [setNext_ok (lim := lim) _ _ rfl (by
        intro r hr
        obtain ⟨i, hi⟩ := List.getElem?_of_mem hr
        rw [tb.mem i r hi]
        have := (List.getElem?_eq_some_iff.1 hi).1
        have := tb.blocks
        omega)]
      have hnext : ∀ i r, S.prog[i]? = some r → ((∃ r' ∈ S.prog, r'.mem = i ∧ (r'.opcode = some .until ∨ r'.opcode = some .release)) ↔ r.temporal = true) := by
        intro i r hr
        constructor
        · rintro ⟨r', h1, h2, h3⟩
          obtain ⟨i', hi'⟩ := List.getElem?_of_mem h1
          have := tb.mem i' r' hi'
          rw [h2] at this
          subst this
          rw [hr] at hi'
          cases hi'
          unfold TlRec.temporal
          rcases h3 with h | h <;> rw [h]
        · intro h
          refine ⟨r, List.mem_of_getElem? hr, tb.mem i r hr, ?_⟩
          unfold TlRec.temporal at h
          split at h
          · exact Or.inl (by assumption)
          · exact Or.inr (by assumption)
          · cases h
      refine ⟨_, rfl, ⟨rfl, rfl, hprog _ rfl (by show 0 + S.prog.length = _; omega), fun _ => rfl, ?_, ?_⟩, rfl, ?_, ?_, ?_⟩
      · intro i r hr
        have hi := (List.getElem?_eq_some_iff.1 hr).1
        simp only [if_pos hi]
        by_cases hx : ∃ r' ∈ S.prog, r'.mem = i ∧ (r'.opcode = some .until ∨ r'.opcode = some .release)
        · simp only [if_pos hx, if_pos ((hnext i r hr).1 hx), placedBlock, Block.dflt]
          have := htm i r hr (Or.inl ((hnext i r hr).1 hx))
          simp [hi, this]
        · simp only [if_neg hx, if_neg fun h => hx ((hnext i r hr).2 h), placedBlock, Block.dflt]
          simp
      · intro i r hr hh
        have hi := (List.getElem?_eq_some_iff.1 hr).1
        have := htm i r hr hh
        simp only [if_pos hi]
        split <;> simp [placedBlock, hi, this]
      · intro i hi
        simp only [if_pos hi]
        split <;> exact hpos i
      · intro i hi
        have h1 : sumTo S.len (i + 1) ≤ sumTo S.len S.prog.length := sumTo_mono (by omega)
        simp only [sumTo] at h1
        simp only [if_pos hi]
        split <;> (simp only [placedBlock]; omega)
      · intro i j hij hj
        have h1 : sumTo S.len (i + 1) ≤ sumTo S.len j := sumTo_mono (by omega)
        simp only [sumTo] at h1
        simp only [if_pos hj, if_pos (show i < S.prog.length by omega)]
        split <;> split <;> (simp only [placedBlock]; omega)

end Rs
end R2U2
