import Verif.Lemmas.Trace
import Verif.Props.Map
/-
C70: the header of a trace file as a signal mapping.
-/
namespace R2U2
open Map

/-- C70: a trace file with a header of distinct names gives every signal of the program whose name is in the header the index of its column, counted
from zero, and changes no other number; the mapping kept for later commands is that of the header; the command succeeds if and only if every
signal of the program is in the header.

Partial: no name occurs twice (see `C70_twice_fails`). -/
theorem C70_header_partial (s : St) (ha : s.heap.Acyclic) (header : List Char) (names : List (List Char)) (hh : HeaderMeans header names) (hd : names.Nodup)
    (lines : List (List Char)) :
    ∃ s' ret N, (∀ fuel, N ≤ fuel → parseTrace fuel s (('#' :: header) :: lines) = some (s', ret)) ∧
      (∀ x n (i : Nat), s.Has x n → names[i]? = some n → s'.ids x = i) ∧
      (∀ x, (∀ n, s.Has x n → n ∉ names) → s'.ids x = s.ids x) ∧
      (∀ n i, s'.mapping.lookup n = some i ↔ names[i]? = some n) ∧
      s'.heap = s.heap ∧ s'.defs = s.defs ∧ s'.specs = s.specs ∧
      (ret = .success ↔ ∀ x n, s.Has x n → n ∈ names) := by
  obtain ⟨m, hm, hin, hout⟩ := headerMap_lookup names 0 [] hd (by simp)
  simp only [Nat.zero_add, List.lookup_nil] at hin hout
  have hfin : ∀ n, m.lookup n = none ↔ n ∉ names := by
    intro n
    refine ⟨fun h hn => ?_, hout n⟩
    obtain ⟨i, hi⟩ := List.getElem?_of_mem hn
    rw [hin i n hi] at h; cases h
  obtain ⟨xs, N, hN, hxs⟩ := nodesOf_mem ha (s.defs ++ s.specs)
  obtain ⟨h1, h2⟩ := assignTo_spec s.heap m xs s.ids
  refine ⟨{ s with ids := (assignTo s.heap m s.ids xs).1, mapping := m },
    if (assignTo s.heap m s.ids xs).2 = [] then .success else .error [], N, ?_, ?_, ?_, ?_, rfl, rfl, rfl, ?_⟩
  · intro fuel hf
    simp only [parseTrace, headerNames_eq hh, hm, assign, hN fuel hf, Option.map_some, if_true]
    split <;> rfl
  · intro x n i hx hi
    show (assignTo s.heap m s.ids xs).1 x = i
    rw [h1, if_pos ((hxs x).2 hx.1), hx.2]
    simp [hin i n hi]
  · intro x hx
    show (assignTo s.heap m s.ids xs).1 x = s.ids x
    rw [h1]
    split
    · rename_i hxm
      cases hlab : s.heap.lab x with
      | none => simp
      | some n => simp [(hfin n).2 (hx n ⟨(hxs x).1 hxm, hlab⟩)]
    · rfl
  · intro n i
    show m.lookup n = some i ↔ _
    refine ⟨fun h => ?_, hin i n⟩
    by_cases hn : n ∈ names
    · obtain ⟨j, hj⟩ := List.getElem?_of_mem hn
      rw [hin j n hj] at h; cases h; exact hj
    · rw [hout n hn] at h; cases h
  · have : (assignTo s.heap m s.ids xs).2 = [] ↔ ∀ x n, s.Has x n → n ∈ names := by
      rw [List.eq_nil_iff_forall_not_mem]
      constructor
      · intro h x n hx
        by_contra hf
        exact h n ((h2 n).2 ⟨x, (hxs x).2 hx.1, hx.2, (hfin n).2 hf⟩)
      · intro h n hn
        obtain ⟨x, hx, hlab, hf⟩ := (h2 n).1 hn
        exact (hfin n).1 hf (h x n ⟨(hxs x).1 hx, hlab⟩)
    rw [← this]
    split <;> rename_i hc
    · exact ⟨fun _ => hc, fun _ => rfl⟩
    · exact ⟨fun h => (by cases h), fun h => absurd h hc⟩

/-- The header `# q, a[1] ,p` is one, and gives `p` column 2 and `a[1]` column 1. -/
example : HeaderMeans " q, a[1] ,p".toList ["q".toList, "a[1]".toList, "p".toList] :=
  .more (l := [' ']) (n := ['q']) (r := []) (rest := " a[1] ,p".toList) (by simp [Blank, isSpace]) ⟨by decide, by decide⟩ (by simp [Blank])
    (.more (l := [' ']) (n := "a[1]".toList) (r := [' ']) (rest := ['p']) (by simp [Blank, isSpace]) ⟨by decide, by decide⟩ (by simp [Blank, isSpace])
      (.last (l := []) (n := ['p']) (r := []) (by simp [Blank]) ⟨by decide, by decide⟩ (by simp [Blank])))
example : ∃ s', parseTrace 50 exMapSt ["# q, a[1] ,p".toList, "0,1,1".toList] = some (s', .success) ∧ s'.ids 0 = 2 ∧ s'.ids 1 = 1 ∧ s'.ids 2 = -1 :=
  ⟨_, rfl, rfl, rfl, rfl⟩

/-- C70 fails: a name that occurs twice is said to get its right-most column; the command fails instead, and maps nothing. -/
theorem C70_twice_fails : ∃ s', parseTrace 50 exMapSt ["# p,a[1],p".toList, "0,1,1".toList] = some (s', .error []) ∧ s'.mapping = [] := ⟨_, rfl, rfl⟩

/-- C70 fails: the signals that are missing are not reported, and the incomplete mapping is kept. -/
theorem C70_missing_fails : ∃ s', parseTrace 50 exMapSt ["# p".toList, "0".toList] = some (s', .error []) ∧ s'.mapping = [("p".toList, 0)] := ⟨_, rfl, rfl⟩

/-- Without a header the command succeeds and maps nothing (the documentation says that a header is required). -/
theorem C70_no_header (fuel : Nat) (s : St) (c : Char) (l : List Char) (lines : List (List Char)) (hc : c ≠ '#') :
    parseTrace fuel s ((c :: l) :: lines) = some (s, .success) := by simp [parseTrace, hc]

end R2U2
