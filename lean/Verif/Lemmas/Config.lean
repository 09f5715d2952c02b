import Verif.Lemmas.Refine
/-
Configuration records place the queues.
-/
namespace R2U2

/-- The record that gives queue `i` its length; `tmp i`: with a temporal block. -/
def sizeRec (len : Nat → Nat) (tmp : Nat → Bool) (i : Nat) : TlRec :=
  ⟨len i, 0, i, some .atomic, some (if tmp i then .atomic else .none), some .config⟩

/-- The record that gives temporal operator `i` its interval. -/
def tempRec (lb ub : Nat → Nat) (i : Nat) : TlRec :=
  ⟨lb i, ub i, i, some .subformula, some .subformula, some .config⟩

namespace Flat

def szOf (len : Nat → Nat) (tmp : Nat → Bool) (i : Nat) : Nat := len i + if tmp i then 4 else 0

def offOf (len : Nat → Nat) (tmp : Nat → Bool) (i : Nat) : Nat := sumTo (szOf len tmp) i

theorem off_le {len : Nat → Nat} {tmp : Nat → Bool} {i j : Nat} (h : i < j) :
    offOf len tmp i + szOf len tmp i ≤ offOf len tmp j := by
  induction j with
  | zero => omega
  | succ j ih =>
      show _ ≤ offOf len tmp j + szOf len tmp j
      by_cases hj : i = j
      · subst hj; omega
      · have := ih (by omega); omega

theorem off_mono {len : Nat → Nat} {tmp : Nat → Bool} {i j : Nat} (h : i ≤ j) : offOf len tmp i ≤ offOf len tmp j := by
  rcases Nat.lt_or_eq_of_le h with h | rfl
  · have := off_le (len := len) (tmp := tmp) h; omega
  · omega

theorem off_ne {len : Nat → Nat} {tmp : Nat → Bool} {i j k k' : Nat} (hk : k < szOf len tmp i) (hk' : k' < szOf len tmp j)
    (h : ¬ (i = j ∧ k = k')) : offOf len tmp i + k ≠ offOf len tmp j + k' := by
  rcases Nat.lt_trichotomy i j with hlt | rfl | hgt
  · have := off_le (len := len) (tmp := tmp) hlt; omega
  · omega
  · have := off_le (len := len) (tmp := tmp) hgt; omega

/-- The parts that configuration leaves alone. -/
structure Fresh (lim : Limits) (F : Flat) : Prop where
  lim : F.lim = lim
  time : F.time = 0
  progress : F.progress = .first
  atoms : F.atoms = fun _ => false
  out : F.out = []

structure Ph1 (lim : Limits) (len : Nat → Nat) (tmp : Nat → Bool) (k : Nat) (F : Flat) : Prop where
  fresh : Fresh lim F
  done : ∀ j, j < k → F.blocks j = ⟨szOf len tmp j, 0, 0, 0, 0, offOf len tmp j⟩
  rest : ∀ j, k ≤ j → F.blocks j = ⟨0, 0, 0, 0, 0, 0⟩
  inf : ∀ j, j < k → F.mem (offOf len tmp j) = infWord
  zero : ∀ j i, 0 < i → i < szOf len tmp j → F.mem (offOf len tmp j + i) = 0

theorem size_step {lim : Limits} {len : Nat → Nat} {tmp : Nat → Bool} {k : Nat} {F : Flat} (h : Ph1 lim len tmp k F)
    (hpos : ∀ j, 0 < len j) (hk : k < lim.blocks) (hs : offOf len tmp k < lim.slots) :
    ∃ F', F.configure (sizeRec len tmp k) = some F' ∧ Ph1 lim len tmp (k + 1) F' := by
  have hsz : ∀ j, 0 < szOf len tmp j := fun j => by have := hpos j; unfold szOf; omega
  have hl := h.fresh.lim
  have hoff : (if k = 0 then some 0 else (F.block (k - 1)).map fun p => p.off + p.len) = some (offOf len tmp k) := by
    split
    · rename_i h0; subst h0; rfl
    · rename_i h0
      rw [block_lt (by rw [hl]; omega), h.done (k - 1) (by omega)]
      obtain ⟨k, rfl⟩ : ∃ n, k = n + 1 := ⟨k - 1, by omega⟩
      rfl
  unfold configure
  simp only [sizeRec]
  rw [block_lt (by rw [hl]; exact hk)]
  simp only [Option.bind_some]
  erw [hoff]
  simp only [Option.bind_some]
  rw [store_lt (by show offOf len tmp k < F.lim.slots; rw [hl]; exact hs)]
  refine ⟨_, rfl, ⟨hl, h.fresh.time, h.fresh.progress, h.fresh.atoms, h.fresh.out⟩, ?_, ?_, ?_, ?_⟩
  · intro j hj
    simp only [Flat.setBlock]
    by_cases hjk : j = k
    · subst hjk
      rw [if_pos rfl, h.rest j (Nat.le_refl _)]
      simp only [szOf]
      have e : (if some (if tmp j = true then OperandT.atomic else OperandT.none) = some OperandT.atomic then 4 else 0) =
          (if tmp j = true then 4 else 0) := by
        by_cases h : tmp j = true <;> simp [h]
      exact congrArg (fun x => Block.mk (len j + x) 0 0 0 0 (offOf len tmp j)) e
    · rw [if_neg hjk]; exact h.done j (by omega)
  · intro j hj
    simp only [Flat.setBlock]
    rw [if_neg (by omega)]
    exact h.rest j (by omega)
  · intro j hj
    simp only []
    by_cases hjk : j = k
    · subst hjk; rw [if_pos rfl]
    · have := off_ne (i := j) (j := k) (k := 0) (k' := 0) (hsz j) (hsz k) (by omega)
      rw [if_neg (by simpa using this)]
      exact h.inf j (by omega)
  · intro j i hi hi2
    simp only []
    have := off_ne (i := j) (j := k) (k := i) (k' := 0) hi2 (hsz k) (by omega)
    rw [if_neg (by simpa using this)]
    exact h.zero j i hi hi2

structure Ph2 (lim : Limits) (n : Nat) (len : Nat → Nat) (tmp : Nat → Bool) (lb ub : Nat → Nat) (D : List Nat) (F : Flat) : Prop where
  fresh : Fresh lim F
  done : ∀ j, j < n → F.blocks j = ⟨if j ∈ D then len j else szOf len tmp j, 0, 0, 0, 0, offOf len tmp j⟩
  inf : ∀ j, j < n → F.mem (offOf len tmp j) = infWord
  zero : ∀ j i, 0 < i → i < szOf len tmp j → ¬ (j ∈ D ∧ (i = len j + 2 ∨ i = len j + 3)) → F.mem (offOf len tmp j + i) = 0
  int : ∀ j, j ∈ D → F.mem (offOf len tmp j + (len j + 2)) = lb j ∧ F.mem (offOf len tmp j + (len j + 3)) = ub j
  ok : ∀ j, j ∈ D → tmp j = true

theorem temp_step {lim : Limits} {n : Nat} {len : Nat → Nat} {tmp : Nat → Bool} {lb ub : Nat → Nat} {D : List Nat} {F : Flat}
    (h : Ph2 lim n len tmp lb ub D F) (hpos : ∀ j, 0 < len j) (hn : n ≤ lim.blocks) {k : Nat} (hkn : k < n) (ht : tmp k = true)
    (hD : k ∉ D) (hs : offOf len tmp k + szOf len tmp k ≤ lim.slots) :
    ∃ F', F.configure (tempRec lb ub k) = some F' ∧ Ph2 lim n len tmp lb ub (D ++ [k]) F' := by
  have hsz : szOf len tmp k = len k + 4 := by unfold szOf; rw [if_pos ht]
  have hszD : ∀ j, j ∈ D → szOf len tmp j = len j + 4 := fun j hj => by unfold szOf; rw [if_pos (h.ok j hj)]
  have hl := h.fresh.lim
  unfold configure
  simp only [tempRec]
  rw [block_lt (by rw [hl]; omega), h.done k hkn, if_neg hD, hsz]
  simp only [Option.bind_some, Nat.add_sub_cancel]
  rw [store_lt (by show _ < F.lim.slots; rw [hl]; omega)]
  simp only [Option.bind_some]
  rw [store_lt (by show _ < F.lim.slots; rw [hl]; omega)]
  have hpk := hpos k
  have hne : ∀ j i, i < szOf len tmp j → ¬ (j = k ∧ (i = len k + 2 ∨ i = len k + 3)) →
      offOf len tmp j + i ≠ offOf len tmp k + len k + 2 ∧ offOf len tmp j + i ≠ offOf len tmp k + len k + 3 := by
    intro j i hi hj
    have a := off_ne (i := j) (j := k) (k := i) (k' := len k + 2) hi (by omega) (by omega)
    have b := off_ne (i := j) (j := k) (k := i) (k' := len k + 3) hi (by omega) (by omega)
    omega
  refine ⟨_, rfl, ⟨hl, h.fresh.time, h.fresh.progress, h.fresh.atoms, h.fresh.out⟩, ?_, ?_, ?_, ?_, ?_⟩
  · intro j hj
    simp only [Flat.setBlock]
    by_cases hjk : j = k
    · subst hjk
      rw [if_pos rfl, if_pos (by simp)]
    · rw [if_neg hjk, h.done j hj]
      simp [hjk]
  · intro j hj
    have h0 : 0 < szOf len tmp j := by have := hpos j; unfold szOf; omega
    have := hne j 0 h0 (by omega)
    rw [Nat.add_zero] at this
    simp only [Flat.setBlock]
    rw [if_neg this.2, if_neg this.1]
    exact h.inf j hj
  · intro j i hi hi2 hno
    have := hne j i hi2 (by rintro ⟨rfl, h⟩; exact hno ⟨by simp, h⟩)
    simp only [Flat.setBlock]
    rw [if_neg this.2, if_neg this.1]
    exact h.zero j i hi hi2 (fun ⟨a, b⟩ => hno ⟨by simp [a], b⟩)
  · intro j hj
    simp only [Flat.setBlock]
    by_cases hjk : j = k
    · subst hjk
      refine ⟨?_, ?_⟩
      · rw [if_neg (by omega), if_pos (by omega)]
      · rw [if_pos (by omega)]
    · have hj' : j ∈ D := by simpa [hjk] using hj
      have e := hszD j hj'
      have a := hne j (len j + 2) (by omega) (by omega)
      have b := hne j (len j + 3) (by omega) (by omega)
      rw [if_neg a.2, if_neg a.1, if_neg b.2, if_neg b.1]
      exact h.int j hj'
  · intro j hj
    by_cases hjk : j = k
    · subst hjk; exact ht
    · exact h.ok j (by simpa [hjk] using hj)

theorem configureAll_append : ∀ (l l' : List TlRec) (F : Flat),
    configureAll (l ++ l') F = (configureAll l F).bind (configureAll l')
  | [], _, F => rfl
  | r :: l, l', F => by
      simp only [List.cons_append, configureAll]
      cases h : F.configure r with
      | none => rfl
      | some F1 => simp only [Option.bind_some]; exact configureAll_append l l' F1

theorem sizes_ok {lim : Limits} {len : Nat → Nat} {tmp : Nat → Bool} (hpos : ∀ j, 0 < len j) : ∀ (n : Nat), n ≤ lim.blocks →
    offOf len tmp n ≤ lim.slots → ∃ F, configureAll ((List.range n).map (sizeRec len tmp)) (zero lim) = some F ∧ Ph1 lim len tmp n F := by
  intro n
  induction n with
  | zero =>
      intro _ _
      exact ⟨_, rfl, ⟨rfl, rfl, rfl, rfl, rfl⟩, fun j h => by omega, fun _ _ => rfl, fun j h => by omega, fun _ _ _ _ => rfl⟩
  | succ n ih =>
      intro hb hs
      have hp : 0 < szOf len tmp n := by have := hpos n; unfold szOf; omega
      have hs' : offOf len tmp n + szOf len tmp n ≤ lim.slots := hs
      obtain ⟨F, h1, h2⟩ := ih (by omega) (by omega)
      obtain ⟨F', h3, h4⟩ := size_step h2 hpos (by omega) (by omega)
      refine ⟨F', ?_, h4⟩
      rw [List.range_succ, List.map_append, configureAll_append, h1]
      simp only [Option.bind_some, List.map_cons, List.map_nil, configureAll, h3]

theorem temps_ok {lim : Limits} {n : Nat} {len : Nat → Nat} {tmp : Nat → Bool} {lb ub : Nat → Nat} (hpos : ∀ j, 0 < len j)
    (hn : n ≤ lim.blocks) (hs : offOf len tmp n ≤ lim.slots) : ∀ (T D : List Nat) (F : Flat), (∀ k ∈ T, k < n ∧ tmp k = true) →
    (D ++ T).Nodup → Ph2 lim n len tmp lb ub D F →
    ∃ F', configureAll (T.map (tempRec lb ub)) F = some F' ∧ Ph2 lim n len tmp lb ub (D ++ T) F' := by
  intro T
  induction T with
  | nil => intro D F _ _ h; exact ⟨F, rfl, by simpa using h⟩
  | cons k T ih =>
      intro D F hT hnd h
      obtain ⟨hk, ht⟩ := hT k (by simp)
      have hD : k ∉ D := by
        intro hk
        have := List.nodup_append.1 hnd
        exact this.2.2 k hk k (by simp) rfl
      have := off_le (len := len) (tmp := tmp) hk
      obtain ⟨F1, h1, h2⟩ := temp_step h hpos hn hk ht hD (by omega)
      obtain ⟨F2, h3, h4⟩ := ih (D ++ [k]) F1 (fun j hj => hT j (by simp [hj])) (by simpa using hnd) h2
      refine ⟨F2, ?_, by simpa using h4⟩
      simp only [List.map_cons, configureAll, h1, Option.bind_some, h3]

/-- The desired time of instruction `i` after loading. -/
def nextOf (prog : List TlRec) (lb : Nat → Nat) (i : Nat) : Nat :=
  if prog[i]?.bind TlRec.opcode = some .until ∨ prog[i]?.bind TlRec.opcode = some .release then lb i else 0

theorem setNext_ok {lim : Limits} {prog : List TlRec} {len : Nat → Nat} {tmp : Nat → Bool} {lb ub : Nat → Nat} {D : List Nat}
    (hn : prog.length ≤ lim.blocks) (hs : offOf len tmp prog.length ≤ lim.slots)
    (hD : ∀ j, j ∈ D ↔ j < prog.length ∧ tmp j = true)
    (htm : ∀ (i : Nat) (r : TlRec), prog[i]? = some r → isTemporal r.opcode = true → tmp i = true)
    {F0 : Flat} (h0 : Ph2 lim prog.length len tmp lb ub D F0) :
    ∀ (is : List TlRec) (i : Nat) (F : Flat), prog.drop i = is → i ≤ prog.length → F.lim = F0.lim → F.time = F0.time →
    F.progress = F0.progress → F.atoms = F0.atoms → F.out = F0.out → F.mem = F0.mem →
    (∀ j, j < prog.length → F.blocks j = ⟨len j, 0, 0, 0, if j < i then nextOf prog lb j else 0, offOf len tmp j⟩) →
    ∃ F', setNext i is F = some F' ∧ F'.lim = F0.lim ∧ F'.time = F0.time ∧
      F'.progress = F0.progress ∧ F'.atoms = F0.atoms ∧ F'.out = F0.out ∧ F'.mem = F0.mem ∧
      ∀ j, j < prog.length → F'.blocks j = ⟨len j, 0, 0, 0, nextOf prog lb j, offOf len tmp j⟩ := by
  intro is
  induction is with
  | nil =>
      intro i F hd hi a1 a2 a3 a4 a5 a6 hb
      refine ⟨F, rfl, a1, a2, a3, a4, a5, a6, fun j hj => ?_⟩
      have : prog.length ≤ i := by simpa using hd
      rw [hb j hj, if_pos (by omega)]
  | cons r is ih =>
      intro i F hd hi a1 a2 a3 a4 a5 a6 hb
      obtain ⟨hr, hd'⟩ := drop_cons hd
      have hlt := (List.getElem?_eq_some_iff.1 hr).1
      have hop : prog[i]?.bind TlRec.opcode = r.opcode := by rw [hr]; rfl
      have hlim : F.lim = lim := by rw [a1]; exact h0.fresh.lim
      by_cases ht : r.opcode = some .until ∨ r.opcode = some .release
      · have hti : tmp i = true := htm i r hr (by rcases ht with h | h <;> rw [h] <;> rfl)
        have hiD : i ∈ D := (hD i).2 ⟨hlt, hti⟩
        have hsz : szOf len tmp i = len i + 4 := by unfold szOf; rw [if_pos hti]
        have := off_le (len := len) (tmp := tmp) hlt
        have hld : F.load ((F.blocks i).off + (F.blocks i).len + 2) = some (lb i) := by
          rw [hb i hlt]
          simp only []
          rw [load_lt (by rw [hlim]; omega), a6, Nat.add_assoc, (h0.int i hiD).1]
        simp only [setNext]
        rw [if_pos ht, block_lt (by rw [hlim]; omega)]
        simp only [Option.bind_some]
        rw [hld]
        simp only [Option.map_some, Option.bind_some]
        refine ih (i + 1) _ hd' hlt a1 a2 a3 a4 a5 a6 ?_
        intro j hj
        simp only [Flat.setBlock]
        by_cases hji : j = i
        · subst hji
          rw [if_pos rfl, hb j hj]
          simp only [nextOf, hop, if_pos ht, if_pos (Nat.lt_succ_self j)]
        · rw [if_neg hji, hb j hj]
          by_cases hlt' : j < i
          · rw [if_pos hlt', if_pos (by omega)]
          · rw [if_neg hlt', if_neg (by omega)]
      · simp only [setNext]
        rw [if_neg ht]
        simp only [Option.bind_some]
        refine ih (i + 1) F hd' hlt a1 a2 a3 a4 a5 a6 ?_
        intro j hj
        rw [hb j hj]
        by_cases hji : j = i
        · subst hji
          rw [if_neg (by omega), if_pos (by omega)]
          simp only [nextOf, hop, if_neg ht]
        · by_cases hlt' : j < i
          · rw [if_pos hlt', if_pos (by omega)]
          · rw [if_neg hlt', if_neg (by omega)]

/-- Configuration puts the queues side by side, with everything inside the array, and leaves
the monitor in its initial state. -/
theorem start_ok {lim : Limits} {prog : List TlRec} {len lb ub : Nat → Nat} {tmp : Nat → Bool} (tb : InTable prog lim)
    (hpos : ∀ j, 0 < len j) (hs : offOf len tmp prog.length ≤ lim.slots)
    (htm : ∀ (i : Nat) (r : TlRec), prog[i]? = some r → isTemporal r.opcode = true → tmp i = true) :
    ∃ F, start lim ((List.range prog.length).map (sizeRec len tmp) ++
        ((List.range prog.length).filter tmp).map (tempRec lb ub)) prog = some F ∧ F.lim = lim ∧
      Wf prog F ∧ Rel prog F (Mon.init prog len lb ub) := by
  obtain ⟨F1, h1, p1⟩ := sizes_ok hpos prog.length tb.blocks hs
  have p2 : Ph2 lim prog.length len tmp lb ub [] F1 :=
    ⟨p1.fresh, fun j hj => by rw [p1.done j hj]; simp, p1.inf, fun j i h h' _ => p1.zero j i h h', by simp, by simp⟩
  obtain ⟨F2, h2, p3⟩ := temps_ok (lb := lb) (ub := ub) hpos tb.blocks hs ((List.range prog.length).filter tmp) [] F1
    (by intro k hk; rw [List.mem_filter, List.mem_range] at hk; exact hk) (by rw [List.nil_append]; exact List.nodup_range.filter _) p2
  rw [List.nil_append] at p3
  have hD : ∀ j, j ∈ (List.range prog.length).filter tmp ↔ j < prog.length ∧ tmp j = true := by
    intro j; rw [List.mem_filter, List.mem_range]
  have hb2 : ∀ j, j < prog.length → F2.blocks j = ⟨len j, 0, 0, 0, 0, offOf len tmp j⟩ := by
    intro j hj
    rw [p3.done j hj]
    cases htj : tmp j with
    | true => rw [if_pos ((hD j).2 ⟨hj, htj⟩)]
    | false =>
        rw [if_neg (fun h => by rw [((hD j).1 h).2] at htj; cases htj)]
        simp [szOf, htj]
  obtain ⟨F, h3, b1, b2, b3, b4, b5, b6, b7⟩ := setNext_ok tb.blocks hs hD htm p3 prog 0 F2 (by simp) (Nat.zero_le _) rfl rfl rfl rfl rfl rfl
    (fun j hj => by rw [hb2 j hj]; simp)
  have hlim : F.lim = lim := b1.trans p3.fresh.lim
  have hw : ∀ (i : Nat) (r : TlRec), prog[i]? = some r → r.words (len i) ≤ szOf len tmp i := by
    intro i r hr
    unfold TlRec.words szOf
    by_cases ht : isTemporal r.opcode = true
    · rw [if_pos ht, if_pos (htm i r hr ht)]
    · rw [if_neg ht]; omega
  refine ⟨F, ?_, hlim, ⟨⟨?_, ?_, ?_⟩, ?_, ?_⟩, ?_⟩
  · unfold start
    rw [configureAll_append, h1]
    simp only [Option.bind_some]
    rw [h2]
    simp only [Option.bind_some]
    exact h3
  · intro i hi; rw [b7 i hi]; exact hpos i
  · intro i r hr
    have hi := (List.getElem?_eq_some_iff.1 hr).1
    rw [b7 i hi, hlim]
    have := off_le (len := len) (tmp := tmp) hi
    have := hw i r hr
    show offOf len tmp i + r.words (len i) ≤ _
    omega
  · intro i j r hr hij hj
    have hi := (List.getElem?_eq_some_iff.1 hr).1
    rw [b7 i hi, b7 j hj]
    have := off_le (len := len) (tmp := tmp) hij
    have := hw i r hr
    show offOf len tmp i + r.words (len i) ≤ offOf len tmp j
    omega
  · intro i hi; rw [b7 i hi]; exact hpos i
  · intro i r k c hr hk
    have hi := (List.getElem?_eq_some_iff.1 hr).1
    rw [b7 i hi, b7 c (tb.sub i r k c hr hk)]
    cases k <;> exact hpos c
  · refine ⟨b2.trans p3.fresh.time, b3.trans p3.fresh.progress, b4.trans p3.fresh.atoms, b5.trans p3.fresh.out, ?_, ?_, fun _ => rfl⟩
    · intro q hq
      have hlq : len q ≤ szOf len tmp q := by unfold szOf; omega
      have hmem : ∀ k, k < len q → F.mem (offOf len tmp q + k) = if k = 0 then infWord else 0 := by
        intro k hk
        rw [b6]
        by_cases h0 : k = 0
        · subst h0; rw [if_pos rfl]; exact p3.inf q hq
        · rw [if_neg h0]; exact p3.zero q k (by omega) (by omega) (by omega)
      refine ⟨?_, ?_, ?_, ?_, ?_, ?_, ?_⟩ <;> rw [b7 q hq]
      · rfl
      · rfl
      · rfl
      · rfl
      · rfl
      · intro k hk
        simp only [Mon.init, Ctrl.init]
        rw [hmem k hk]
        by_cases h0 : k = 0
        · subst h0; rfl
        · rw [if_neg h0, if_neg (by simp [h0])]; decide +kernel
      · intro k hk
        simp only []
        rw [hmem k hk]
        split
        · decide
        · decide
    · intro q r hr ht
      have hq := (List.getElem?_eq_some_iff.1 hr).1
      have htq := htm q r hr ht
      have hsz : szOf len tmp q = len q + 4 := by unfold szOf; rw [if_pos htq]
      have hqD := (hD q).2 ⟨hq, htq⟩
      have hp := hpos q
      refine ⟨?_, ?_, ?_, ?_⟩ <;> rw [b7 q hq, b6]
      · simp only [Mon.init, Ctrl.init]
        rw [p3.zero q (len q) hp (by omega) (by omega)]; decide +kernel
      · simp only [Mon.init, Ctrl.init]
        rw [Nat.add_assoc, p3.zero q (len q + 1) (by omega) (by omega) (by omega)]; decide +kernel
      · simp only [Mon.init, Ctrl.init]
        rw [Nat.add_assoc, (p3.int q hqD).1]
      · simp only [Mon.init, Ctrl.init]
        rw [Nat.add_assoc, (p3.int q hqD).2]

end Flat
end R2U2
