import Verif.Lemmas.Map
/-
Property theorems about signal maps: C35.
-/
namespace R2U2
open Map

/-- C35: a file of well-formed lines (`LineMeans`) gives every signal of the program that it maps exactly the index it maps
it to, the last one counting; it changes no other number; the mapping kept for later commands is the one of the file; the
command succeeds if and only if the file maps every signal of the program, and otherwise it reports precisely the ones it
does not map.

Partial: indices of array elements have at most two digits and the first index of a range has one; see `C35_index_fails`
and `C35_range_fails` for the others. -/
theorem C35_mapping_partial (s : St) (ha : s.heap.Acyclic) (lines : List (List Char)) (ess : List (List (List Char × Nat)))
    (hl : List.Forall₂ (LineMeans true) lines ess) :
    ∃ s' ret N, (∀ fuel, N ≤ fuel → parseMap fuel s lines = some (s', ret)) ∧
      (∀ x n i, s.Has x n → final ess n = some i → s'.ids x = i) ∧
      (∀ x, (∀ n i, s.Has x n → final ess n ≠ some i) → s'.ids x = s.ids x) ∧
      (∀ n, s'.mapping.lookup n = final ess n) ∧
      s'.heap = s.heap ∧ s'.defs = s.defs ∧ s'.specs = s.specs ∧
      (ret = .success ↔ ∀ x n, s.Has x n → final ess n ≠ none) ∧
      ∀ missing, ret = .error missing → ∀ n, n ∈ missing ↔ (∃ x, s.Has x n) ∧ final ess n = none := by
  have hl' : List.Forall₂ (fun l es => lineEntries l = some es) lines ess := by
    refine hl.imp ?_
    rintro l es (⟨h1, h2⟩ | ⟨h1, h2, h3, h4⟩ | ⟨h1, h2, h3, h4, h5⟩)
    · exact lineEntries_name h1 h2
    · exact lineEntries_element h1 h2 (h3 rfl) h4
    · exact lineEntries_range h1 h2 (h3 rfl) h4 h5
  obtain ⟨m, hm, hlook⟩ := mapLines_lookup [] hl'
  have hfin : ∀ n, m.lookup n = final ess n := by
    intro n; rw [hlook]; simp [final]
  obtain ⟨xs, N, hN, hxs⟩ := nodesOf_mem ha (s.defs ++ s.specs)
  obtain ⟨h1, h2⟩ := assignTo_spec s.heap m xs s.ids
  refine ⟨{ s with ids := (assignTo s.heap m s.ids xs).1, mapping := m },
    if (assignTo s.heap m s.ids xs).2 = [] then .success else .error (assignTo s.heap m s.ids xs).2, N,
    ?_, ?_, ?_, hfin, rfl, rfl, rfl, ?_, ?_⟩
  · intro fuel hf
    simp only [parseMap, hm, assign, hN fuel hf, Option.map_some]
    split <;> rfl
  · intro x n i hx hi
    show (assignTo s.heap m s.ids xs).1 x = i
    rw [h1, if_pos ((hxs x).2 hx.1), hx.2]
    simp [hfin, hi]
  · intro x hx
    show (assignTo s.heap m s.ids xs).1 x = s.ids x
    rw [h1]
    split
    · rename_i hxm
      cases hlab : s.heap.lab x with
      | none => simp
      | some n =>
        have : final ess n = none := by
          cases hf : final ess n with
          | none => rfl
          | some i => exact absurd hf (hx n i ⟨(hxs x).1 hxm, hlab⟩)
        simp [hfin, this]
    · rfl
  · have : (assignTo s.heap m s.ids xs).2 = [] ↔ ∀ x n, s.Has x n → final ess n ≠ none := by
      rw [List.eq_nil_iff_forall_not_mem]
      constructor
      · intro h x n hx hf
        exact h n ((h2 n).2 ⟨x, (hxs x).2 hx.1, hx.2, by rw [hfin]; exact hf⟩)
      · intro h n hn
        obtain ⟨x, hx, hlab, hf⟩ := (h2 n).1 hn
        exact h x n ⟨(hxs x).1 hx, hlab⟩ (by rw [← hfin]; exact hf)
    rw [← this]
    split <;> rename_i hc
    · exact ⟨fun _ => hc, fun _ => rfl⟩
    · exact ⟨fun h => (by cases h), fun h => absurd h hc⟩
  · intro missing hr n
    split at hr
    · cases hr
    · cases hr
      rw [h2]
      constructor
      · rintro ⟨x, hx, hlab, hf⟩
        exact ⟨⟨x, (hxs x).1 hx, hlab⟩, by rw [← hfin]; exact hf⟩
      · rintro ⟨⟨x, hx, hlab⟩, hf⟩
        exact ⟨x, (hxs x).2 hx, hlab, by rw [hfin]; exact hf⟩

/-- The program `p` (node 0), `a[1]` (node 1) and an operator on them (node 2), in one specification. -/
def exMapHeap : Heap (Option (List Char)) where
  lab := fun x => if x = 0 then some "p".toList else if x = 1 then some "a[1]".toList else none
  kids := fun x => if x = 2 then [0, 1] else []
  pars := fun x => if x = 0 ∨ x = 1 then [2] else []

theorem exMapHeap_acyclic : exMapHeap.Acyclic := by
  intro x
  by_cases h : x = 2
  · subst h
    exact ⟨_, 2, rfl⟩
  · exact ⟨.node (exMapHeap.lab x) [], 1, by simp [Heap.unfold, exMapHeap, h, Heap.collect]⟩

def exMapSt : St := { heap := exMapHeap, defs := [], specs := [2], ids := fun _ => -1, mapping := [] }

/-- The lines `p:7`, `a[0..2]:3`, `p:9`: `p` gets 9 and `a[1]` gets 4. -/
example : List.Forall₂ (LineMeans true) ["p:7".toList, "a[0..2]:3".toList, "p:9".toList]
    [[("p".toList, 7)], [("a[0]".toList, 3), ("a[1]".toList, 4), ("a[2]".toList, 5)], [("p".toList, 9)]] := by
  have hp : Ident "p".toList := ⟨'p', [], rfl, rfl, by simp⟩
  have ha : Ident "a".toList := ⟨'a', [], rfl, rfl, by simp⟩
  have hn : ∀ k : Nat, k < 10 → Number (natStr k) k := fun k _ => number_natStr k
  refine .cons (.name hp (hn 7 (by decide))) (.cons ?_ (.cons (.name hp (hn 9 (by decide))) .nil))
  exact .range (short := true) ha (hn 0 (by decide)) (fun _ => rfl) (hn 2 (by decide)) (hn 3 (by decide))

example : ∃ s', parseMap 50 exMapSt ["p:7".toList, "a[0..2]:3".toList, "p:9".toList] = some (s', .success) ∧
    s'.ids 0 = 9 ∧ s'.ids 1 = 4 ∧ s'.ids 2 = -1 := ⟨_, rfl, rfl, rfl, rfl⟩
example : ∃ s', parseMap 50 exMapSt ["p:7".toList] = some (s', .error ["a[1]".toList]) ∧ s'.ids 0 = 7 := ⟨_, rfl, rfl⟩

/-- C35: whatever the file, if the command succeeds then every signal of the program is in the mapping kept for later
commands and carries the index that says. -/
theorem C35_success (s s' : St) (ha : s.heap.Acyclic) (lines : List (List Char)) (fuel : Nat)
    (h : parseMap fuel s lines = some (s', .success)) (x : Nat) (n : List Char) (hx : s.Has x n) :
    ∃ i, s'.mapping.lookup n = some i ∧ s'.ids x = i := by
  unfold parseMap at h
  cases hm : mapLines [] lines with
  | none => simp [hm] at h
  | some m =>
    simp only [hm, assign] at h
    cases hn : nodesOf fuel s.heap (s.defs ++ s.specs) with
    | none => simp [hn] at h
    | some xs =>
      have hxs := nodesOf_some ha hn
      obtain ⟨h1, h2⟩ := assignTo_spec s.heap m xs s.ids
      simp only [hn, Option.map_some] at h
      split at h
      · rename_i hmiss
        simp only [Option.some.injEq, Prod.mk.injEq] at h
        obtain ⟨rfl, _⟩ := h
        cases hl : m.lookup n with
        | none =>
          have := (h2 n).2 ⟨x, (hxs x).2 hx.1, hx.2, hl⟩
          rw [show (assignTo s.heap m s.ids xs).2 = [] from hmiss] at this
          cases this
        | some i =>
          refine ⟨i, rfl, ?_⟩
          show (assignTo s.heap m s.ids xs).1 x = i
          rw [h1, if_pos ((hxs x).2 hx.1), hx.2]
          simp [hl]
      · simp at h

/-- C35: every line of a file the command succeeds on begins with a name, a colon and a digit.

Partial: nothing more; see `C35_junk_fails`. -/
theorem C35_accepted_partial (s s' : St) (lines : List (List Char)) (fuel : Nat)
    (h : parseMap fuel s lines = some (s', .success)) (l : List Char) (hl : l ∈ lines) :
    ∃ c name d rest, l = c :: name ++ ':' :: d :: rest ∧ isLetter c = true ∧ (∀ x ∈ name, isNameC x = true) ∧
      isDig d = true := by
  unfold parseMap at h
  cases hm : mapLines [] lines with
  | none => simp [hm] at h
  | some m =>
    obtain ⟨ess, hess⟩ := mapLines_some hm
    obtain ⟨es, he⟩ : ∃ es, lineEntries l = some es := by
      clear h hm
      induction hess with
      | nil => cases hl
      | cons h1 _ ih =>
        rcases List.mem_cons.1 hl with rfl | hl
        · exact ⟨_, h1⟩
        · exact ih hl
    unfold lineEntries at he
    split at he
    · rename_i hlm
      cases l with
      | nil => simp [lineMatches] at hlm
      | cons c cs =>
        simp only [lineMatches, Bool.and_eq_true] at hlm
        obtain ⟨hc, hlm⟩ := hlm
        have hcs := List.takeWhile_append_dropWhile (p := isNameC) (l := cs)
        generalize hd : cs.dropWhile isNameC = r at hlm hcs
        split at hlm
        · rename_i d rest
          exact ⟨c, cs.takeWhile isNameC, d, rest, by rw [List.cons_append, hcs], hc, takeWhile_mem cs, hlm⟩
        · cases hlm
    · cases he

/-- C35 fails: `p:1:junk` is not of the form SYMBOL ':' NUMERAL, and the command succeeds on it. -/
theorem C35_junk_fails : ∃ (line : List Char) (s s' : St), s.heap.Acyclic ∧ parseMap 50 s [line] = some (s', .success) ∧
    ∀ es, ¬ LineMeans false line es := by
  refine ⟨"p:1:junk".toList, { exMapSt with specs := [0] }, _, exMapHeap_acyclic, rfl, ?_⟩
  intro es h
  obtain ⟨d, h1, h2⟩ := h.last
  have h3 : some 'k' = some d := h1
  cases h3
  exact absurd h2 (by decide)

/-- C35 fails: `a[10..12]:0` maps three elements, and the command maps a name that no signal can have; the program's
element `a[11]` is reported as missing. -/
theorem C35_range_fails : ∃ (line : List Char) (es : List (List Char × Nat)) (s s' : St) (n : List Char), s.heap.Acyclic ∧
    LineMeans false line es ∧ s.Has 0 n ∧ final [es] n = some 1 ∧ parseMap 50 s [line] = some (s', .error [n]) := by
  let h : Heap (Option (List Char)) := { exMapHeap with lab := fun _ => some "a[11]".toList, kids := fun _ => [] }
  let s : St := { exMapSt with heap := h, specs := [0] }
  have hn : ∀ k, Number (natStr k) k := number_natStr
  refine ⟨_, _, s, _, "a[11]".toList, ?_, .range (a := "a".toList) ⟨'a', [], rfl, rfl, by simp⟩ (hn 10) (by simp) (hn 12) (hn 0),
    ⟨⟨0, by simp [s], .root (by simp)⟩, rfl⟩, rfl, rfl⟩
  intro x
  exact ⟨.node (some "a[11]".toList) [], 1, rfl⟩

/-- C35 fails: `a[100]:5` is well formed, and the command fails without reporting any signal as missing. -/
theorem C35_index_fails : ∃ (line : List Char) (es : List (List Char × Nat)) (s s' : St) (n : List Char), s.heap.Acyclic ∧
    LineMeans false line es ∧ s.Has 0 n ∧ final [es] n = some 5 ∧ parseMap 50 s [line] = some (s', .error []) := by
  let h : Heap (Option (List Char)) := { exMapHeap with lab := fun _ => some "a[100]".toList, kids := fun _ => [] }
  let s : St := { exMapSt with heap := h, specs := [0] }
  have hn : ∀ k, Number (natStr k) k := number_natStr
  refine ⟨_, _, s, _, "a[100]".toList, ?_, .element (a := "a".toList) ⟨'a', [], rfl, rfl, by simp⟩ (hn 100) (by simp) (hn 5),
    ⟨⟨0, by simp [s], .root (by simp)⟩, rfl⟩, rfl, rfl⟩
  intro x
  exact ⟨.node (some "a[100]".toList) [], 1, rfl⟩

/-- The names of the signals a `generate_map` file can be read back for: identifiers, and elements of arrays with an index
below 100. -/
def NameOk (n : List Char) : Prop := Ident n ∨ ∃ a i, Ident a ∧ i < 100 ∧ n = a ++ '[' :: (natStr i ++ [']'])

/-- C35: when some signal of a specification does not have the index the mapping gives it, or the mapping gives it none,
`generate_map` gives every signal of the program its
position in the order of declaration, so different signals different indices; and `parse_map` of the file it writes, run
on that program with whatever indices, succeeds and restores these indices and the mapping.

Partial: for array elements with an index below 100 (`C35_index_fails`). -/
theorem C35_generate_partial (s : St) (ha : s.heap.Acyclic) (signals : List (List Char)) (hd : signals.Nodup)
    (hok : ∀ n ∈ signals, NameOk n) (hall : ∀ x n, s.Has x n → n ∈ signals)
    (hnew : ∃ x n, (∃ r ∈ s.specs, s.heap.Reachable [r] x) ∧ s.heap.lab x = some n ∧
      ∀ i : Nat, s.mapping.lookup n = some i → s.ids x ≠ i) :
    ∃ s' lines N, (∀ fuel, N ≤ fuel → generateMap fuel s signals = some (s', .success, lines)) ∧
      s'.heap = s.heap ∧ s'.defs = s.defs ∧ s'.specs = s.specs ∧
      (∀ x n (i : Nat), s.Has x n → signals[i]? = some n → s'.ids x = i) ∧
      ∀ t : St, t.heap = s.heap → t.defs = s.defs → t.specs = s.specs →
        ∃ t' M, (∀ fuel, M ≤ fuel → parseMap fuel t lines = some (t', .success)) ∧
          (∀ x n, s.Has x n → t'.ids x = s'.ids x) ∧ ∀ n, t'.mapping.lookup n = s'.mapping.lookup n := by
  obtain ⟨xs, N, hN, hxs⟩ := nodesOf_mem ha (s.defs ++ s.specs)
  obtain ⟨ys, M, hM, hys⟩ := nodesOf_mem ha s.specs
  obtain ⟨h1, h2⟩ := assignTo_spec s.heap signals.zipIdx xs s.ids
  have hlook : ∀ (n : List Char) (i : Nat), signals.zipIdx.lookup n = some i ↔ signals[i]? = some n := by
    intro n i
    rw [lookup_iff_mem (zipIdx_keys hd)]
    simp [List.mem_zipIdx_iff_getElem?]
  have hmem : ∀ n ∈ signals, ∃ i, signals[i]? = some n := fun n hn => by
    obtain ⟨i, hi, he⟩ := List.getElem_of_mem hn
    exact ⟨i, by rw [List.getElem?_eq_getElem hi, he]⟩
  have hvalid : hasValid s ys = false := by
    obtain ⟨x, n, hr, hl, hm⟩ := hnew
    simp only [hasValid, List.all_eq_false]
    refine ⟨x, (hys x).2 hr, ?_⟩
    cases hk : s.mapping.lookup n with
    | none => simp [hl, hk]
    | some i => simpa [hl, hk] using hm i hk
  have hmiss : (assignTo s.heap signals.zipIdx s.ids xs).2 = [] := by
    rw [List.eq_nil_iff_forall_not_mem]
    intro n hn
    obtain ⟨x, hx, hl, hm⟩ := (h2 n).1 hn
    obtain ⟨i, hi⟩ := hmem n (hall x n ⟨(hxs x).1 hx, hl⟩)
    rw [(hlook n i).2 hi] at hm
    cases hm
  have hids : ∀ x n (i : Nat), s.Has x n → signals[i]? = some n → (assignTo s.heap signals.zipIdx s.ids xs).1 x = i := by
    intro x n i hx hi
    rw [h1, if_pos ((hxs x).2 hx.1), hx.2]
    simp [(hlook n i).2 hi]
  refine ⟨{ s with ids := (assignTo s.heap signals.zipIdx s.ids xs).1, mapping := signals.zipIdx },
    signals.zipIdx.map fun e => e.1 ++ ':' :: natStr e.2, max N M, ?_, rfl, rfl, rfl, hids, ?_⟩
  · intro fuel hf
    simp [generateMap, hM fuel (by omega), hvalid, assign, hN fuel (by omega), hmiss]
  · intro t ht1 ht2 ht3
    have hl : List.Forall₂ (LineMeans true) (signals.zipIdx.map fun e => e.1 ++ ':' :: natStr e.2) (signals.zipIdx.map fun e => [e]) := by
      rw [List.forall₂_map_left_iff, List.forall₂_map_right_iff, List.forall₂_same]
      rintro ⟨n, i⟩ he
      have hn : n ∈ signals := by
        rw [List.mem_zipIdx_iff_getElem?] at he
        exact List.mem_of_getElem? he
      rcases hok n hn with h | ⟨a, k, h, hk, rfl⟩
      · exact .name h (number_natStr i)
      · have := LineMeans.element (short := true) h (number_natStr k) (fun _ => natStr_length hk) (number_natStr i)
        simpa using this
    have hfin : ∀ n, final (signals.zipIdx.map fun e => [e]) n = signals.zipIdx.lookup n := by
      intro n
      have : (signals.zipIdx.map fun e => [e]).flatten = signals.zipIdx := by
        induction signals.zipIdx with
        | nil => rfl
        | cons e l ih => simp [ih]
      unfold final
      rw [this, lookup_reverse (zipIdx_keys hd)]
    have hHas : ∀ x n, t.Has x n ↔ s.Has x n := by
      intro x n
      simp only [St.Has, ht1, ht2, ht3]
    obtain ⟨t', ret, K, h3, h4, _, h5, _, _, _, h6, _⟩ := C35_mapping_partial t (ht1 ▸ ha) _ _ hl
    have hret : ret = .success := by
      rw [h6]
      intro x n hx hf
      obtain ⟨i, hi⟩ := hmem n (hall x n ((hHas x n).1 hx))
      rw [hfin, (hlook n i).2 hi] at hf
      cases hf
    subst hret
    refine ⟨t', K, h3, ?_, ?_⟩
    · intro x n hx
      obtain ⟨i, hi⟩ := hmem n (hall x n hx)
      rw [h4 x n i ((hHas x n).2 hx) (by rw [hfin, (hlook n i).2 hi])]
      exact (hids x n i hx hi).symm
    · intro n
      rw [h5, hfin]

/-- The program of the examples with its signals declared in the order `a[1]`, `p`. -/
example : ∃ s' lines, generateMap 50 exMapSt ["a[1]".toList, "p".toList] = some (s', .success, lines) ∧
    lines = ["a[1]:0".toList, "p:1".toList] ∧ s'.ids 1 = 0 ∧ s'.ids 0 = 1 := ⟨_, _, rfl, rfl, rfl, rfl⟩
example : ∃ x n, (∃ r ∈ exMapSt.specs, exMapSt.heap.Reachable [r] x) ∧ exMapSt.heap.lab x = some n ∧
    ∀ i : Nat, exMapSt.mapping.lookup n = some i → exMapSt.ids x ≠ i :=
  ⟨0, "p".toList, ⟨2, by simp [exMapSt], .kid (p := 2) (.root (by simp)) (by simp [exMapSt, exMapHeap])⟩, rfl,
    fun i h => by cases h⟩
example : NameOk "a[1]".toList ∧ NameOk "p".toList :=
  ⟨.inr ⟨"a".toList, 1, ⟨'a', [], rfl, rfl, by simp⟩, by decide, rfl⟩, .inl ⟨'p', [], rfl, rfl, by simp⟩⟩

/-- C35: when every signal of a specification has the index the mapping gives it, `generate_map` changes nothing and
writes the mapping, one line `NAME:NUMBER` for each entry. -/
theorem C35_generate_kept (s : St) (ha : s.heap.Acyclic) (signals : List (List Char))
    (hold : ∀ x n, (∃ r ∈ s.specs, s.heap.Reachable [r] x) → s.heap.lab x = some n →
      ∃ i : Nat, s.mapping.lookup n = some i ∧ s.ids x = i) :
    ∃ N, ∀ fuel, N ≤ fuel → generateMap fuel s signals =
      some (s, .success, s.mapping.map fun e => e.1 ++ [':'] ++ natStr e.2) := by
  obtain ⟨ys, M, hM, hys⟩ := nodesOf_mem ha s.specs
  have hvalid : hasValid s ys = true := by
    simp only [hasValid, List.all_eq_true]
    intro x hx
    cases hl : s.heap.lab x with
    | none => rfl
    | some n =>
        obtain ⟨i, h1, h2⟩ := hold x n ((hys x).1 hx) hl
        simp [h1, h2]
  refine ⟨M, fun fuel hf => ?_⟩
  simp [generateMap, hM fuel hf, hvalid]

/-- The program of the examples with the indices and the mapping of a map file: the order of declaration does not
matter. -/
example : ∃ s', (∃ lines, parseMap 50 exMapSt lines = some (s', .success)) ∧
    generateMap 50 s' ["a[1]".toList, "p".toList] = some (s', .success, ["p:7".toList, "a[1]:4".toList]) :=
  ⟨_, ⟨["p:7".toList, "a[1]:4".toList], rfl⟩, rfl⟩

end R2U2
