import Verif.Spec.Queue
import Verif.Lemmas.Queue
import Mathlib.Data.List.Forall2
/-
The ring buffer under any supported schedule.
-/
namespace R2U2

/-- The entries `h` in the ring stand for the verdicts `ws` written. -/
structure Lasts (ws h : List Verdict) : Prop where
  sub : h.Sublist ws
  sorted : Sorted h
  sortedW : Sorted ws
  last : endOf h = endOf ws
  value : ∀ k v s, h[k]? = some v → (∀ (j : Nat) (u : Verdict), j < k → h[j]? = some u → u.time < s) → s ≤ v.time →
    writtenFor ws s = some v.truth

theorem lt_endOf_mem {h : List Verdict} (s : Sorted h) {w : Verdict} (hw : w ∈ h) : w.time < endOf h := by
  obtain ⟨k, hk⟩ := List.getElem?_of_mem hw
  exact lt_endOf s hk

theorem writtenFor_old {ws : List Verdict} {v : Verdict} {s : Nat} {b : Bool} (h : writtenFor ws s = some b) :
    writtenFor (ws ++ [v]) s = some b := by
  unfold writtenFor at *
  rw [Option.map_eq_some_iff] at *
  obtain ⟨a, h1, h2⟩ := h
  exact ⟨a, by rw [List.find?_append, h1]; rfl, h2⟩

theorem writtenFor_new {ws : List Verdict} {v : Verdict} {s : Nat} (h : ∀ w ∈ ws, w.time < s) (hs : s ≤ v.time) :
    writtenFor (ws ++ [v]) s = some v.truth := by
  unfold writtenFor
  rw [List.find?_append, List.find?_eq_none.2 (by intro w hw; have := h w hw; simp; omega)]
  simp [hs]

theorem Lasts.write {ws h h' : List Verdict} {v : Verdict} (S : Lasts ws h) (e : Ext h v h')
    (hv : ∀ w ∈ ws, w.time < v.time) : Lasts (ws ++ [v]) h' := by
  have hh : endOf h ≤ v.time := by
    rw [S.last]
    unfold endOf
    split
    · omega
    · rename_i w hw
      have := hv w (List.mem_of_getLast? hw)
      omega
  refine ⟨?_, e.sorted S.sorted hh, ?_, by rw [e.endOf, endOf_append], ?_⟩
  · rcases e with rfl | ⟨l, u, rfl, _, rfl⟩
    · exact S.sub.append (List.Sublist.refl _)
    · exact ((List.sublist_append_left l [u]).trans S.sub).append (List.Sublist.refl _)
  · refine List.pairwise_append.2 ⟨S.sortedW, List.pairwise_singleton _ _, ?_⟩
    intro u hu w hw
    simp only [List.mem_singleton] at hw
    subst hw
    exact hv u hu
  · intro k x s hk hlt hs
    have hcov : ∀ s, s < endOf h → ∃ (k : Nat) (u : Verdict), h[k]? = some u ∧ s ≤ u.time ∧
        ∀ (j : Nat) (w : Verdict), j < k → h[j]? = some w → w.time < s := by
      intro s hs
      have hex : ∃ k : Nat, ∃ u : Verdict, h[k]? = some u ∧ s ≤ u.time := by
        unfold endOf at hs
        split at hs
        · omega
        · rename_i w hw
          obtain ⟨k, hk⟩ := List.getElem?_of_mem (List.mem_of_getLast? hw)
          exact ⟨k, w, hk, by omega⟩
      have key : ∀ k : Nat, (∃ u : Verdict, h[k]? = some u ∧ s ≤ u.time) → ∃ (k : Nat) (u : Verdict), h[k]? = some u ∧ s ≤ u.time ∧
          ∀ (j : Nat) (w : Verdict), j < k → h[j]? = some w → w.time < s := by
        intro k
        induction k using Nat.strongRecOn with
        | _ k ih =>
            rintro ⟨u, h1, h2⟩
            by_cases hj : ∃ j, j < k ∧ ∃ w : Verdict, h[j]? = some w ∧ s ≤ w.time
            · obtain ⟨j, hj, hw⟩ := hj
              exact ih j hj hw
            · refine ⟨k, u, h1, h2, fun j w hjk hw => ?_⟩
              rcases Nat.lt_or_ge w.time s with h3 | h3
              · exact h3
              · exact absurd ⟨j, hjk, w, hw, h3⟩ hj
      obtain ⟨k, hk⟩ := hex
      exact key k hk
    rcases e with rfl | ⟨l, u, rfl, ht, rfl⟩
    · rcases Nat.lt_or_ge k h.length with hk' | hk'
      · rw [List.getElem?_append_left hk'] at hk
        refine writtenFor_old (S.value k x s hk (fun j u hj hu => hlt j u hj ?_) hs)
        rw [List.getElem?_append_left (by omega)]; exact hu
      · have hk2 : k = h.length := by
          have := (List.getElem?_eq_some_iff.1 hk).1
          simp at this; omega
        subst hk2
        simp at hk
        subst hk
        refine writtenFor_new (fun w hw => ?_) hs
        have h1 := lt_endOf_mem S.sortedW hw
        rw [← S.last] at h1
        rcases Nat.lt_or_ge w.time s with h2 | h2
        · exact h2
        · obtain ⟨k', u', g1, g2, g3⟩ := hcov s (by omega)
          have hk'l := (List.getElem?_eq_some_iff.1 g1).1
          have := hlt k' u' hk'l (by rw [List.getElem?_append_left hk'l]; exact g1)
          omega
    · rcases Nat.lt_or_ge k l.length with hk' | hk'
      · rw [List.getElem?_append_left hk'] at hk
        refine writtenFor_old (S.value k x s (by rw [List.getElem?_append_left hk']; exact hk)
          (fun j u hj hu => hlt j u hj ?_) hs)
        rw [List.getElem?_append_left (by omega)] at hu ⊢; exact hu
      · have hk2 : k = l.length := by
          have := (List.getElem?_eq_some_iff.1 hk).1
          simp at this; omega
        subst hk2
        simp at hk
        subst hk
        rcases Nat.lt_or_ge u.time s with h1 | h1
        · refine writtenFor_new (fun w hw => ?_) hs
          have h2 := lt_endOf_mem S.sortedW hw
          rw [← S.last, endOf_append] at h2
          omega
        · rw [← ht]
          refine writtenFor_old (S.value l.length u s (by simp) (fun j x hj hx => hlt j x hj ?_) h1)
          rw [List.getElem?_append_left (by omega)] at hx ⊢; exact hx

/-- The read pointer stands at entry `ρ`. -/
def At (len : Nat) (ws h : List Verdict) (n r b : Nat) : Prop :=
  (h = [] ∧ r = 0) ∨ ∃ ρ u, h[ρ]? = some u ∧ h.length ≤ ρ + len ∧ r = ρ % len ∧
    (∀ k w, k < ρ → h[k]? = some w → w.time < n) ∧ h.length - ρ ≤ ws.length - b ∧ b < ws.length

theorem At.ptr {len : Nat} {ws h : List Verdict} {n r b : Nat} (a : At len ws h n r b) :
    Ptr len h n r (fun _ => True) := by
  rcases a with ⟨h1, h2⟩ | ⟨ρ, u, h1, h2, h3, h4, _, _⟩
  · exact Or.inl ⟨h1, h2⟩
  · exact Or.inr ⟨ρ, u, h1, h2, h3, h4, Or.inr trivial⟩

theorem At.write {len : Nat} {ws h h' : List Verdict} {n r b : Nat} {v : Verdict} (hl : 0 < len)
    (a : At len ws h n r b) (hb : b ≤ ws.length) (S : Lasts ws h) (e : Ext h v h') (_hv : ∀ w ∈ ws, w.time < v.time)
    (hroom : (∀ w ∈ ws, w.time < n) ∨ ws.length - b < len) : At len (ws ++ [v]) h' n r b := by
  rcases a with ⟨rfl, rfl⟩ | ⟨ρ, u, h1, h2, h3, h4, h5, h6⟩
  · have : h' = [v] := by
      rcases e with rfl | ⟨l, u, hl, _⟩
      · rfl
      · simp at hl
    subst this
    exact Or.inr ⟨0, v, rfl, by simp; omega, by simp, by simp, by simp; omega, by simp; omega⟩
  · have hρ := (List.getElem?_eq_some_iff.1 h1).1
    rcases e with rfl | ⟨l, x, rfl, _, rfl⟩
    · rcases Nat.lt_or_ge h.length (ρ + len) with hlt | hge
      · refine Or.inr ⟨ρ, u, by rw [List.getElem?_append_left hρ]; exact h1, by simp; omega, h3, ?_, by simp; omega,
          by simp; omega⟩
        intro k w hk hw
        rw [List.getElem?_append_left (by omega)] at hw
        exact h4 k w hk hw
      · have he : h.length = ρ + len := by omega
        rcases hroom with hroom | hroom
        · refine Or.inr ⟨h.length, v, by simp, by simp; omega, by rw [h3, he]; simp, ?_, by simp; omega, by simp; omega⟩
          intro k w hk hw
          rw [List.getElem?_append_left (by omega)] at hw
          exact hroom w (S.sub.subset (List.mem_of_getElem? hw))
        · omega
    · simp only [List.length_append, List.length_singleton] at hρ h2 h5
      rcases Nat.lt_or_ge ρ l.length with hlt | hge
      · refine Or.inr ⟨ρ, u, by rw [List.getElem?_append_left hlt] at h1 ⊢; exact h1, by simp; omega, h3, ?_,
          by simp; omega, by simp; omega⟩
        intro k w hk hw
        rw [List.getElem?_append_left (by omega)] at hw
        exact h4 k w hk (by rw [List.getElem?_append_left (by omega)]; exact hw)
      · obtain rfl : ρ = l.length := by omega
        refine Or.inr ⟨l.length, v, by simp, by simp; omega, h3, ?_, by simp; omega, by simp; omega⟩
        intro k w hk hw
        rw [List.getElem?_append_left (by omega)] at hw
        exact h4 k w hk (by rw [List.getElem?_append_left (by omega)]; exact hw)

theorem filter_le (p : Verdict → Bool) (ws : List Verdict) : (ws.filter p).length ≤ ws.length - ws.findIdx p := by
  induction ws with
  | nil => simp
  | cons a ws ih =>
      simp only [List.filter_cons, List.findIdx_cons]
      cases hp : p a
      · simp
        exact ih
      · simp
        exact List.length_filter_le _ _

/-- After a read. -/
theorem At.read {c : Ctrl} {ws h : List Verdict} {n r b : Nat} (R : Ring c h) (S : Lasts ws h)
    (a : At c.len ws h n r b) :
    ∃ r' res, c.read r n = some (r', res) ∧ At c.len ws h n r' (heldAt ws n) ∧ RightAnswer ws n res := by
  rcases a with ⟨rfl, rfl⟩ | ⟨ρ, u, h1, h2, h3, h4, h5, h6⟩
  · refine ⟨0, none, ?_, Or.inl ⟨rfl, rfl⟩, ?_⟩
    · simp [Ctrl.read, R.empty rfl]
    · intro w hw
      have := lt_endOf_mem S.sortedW hw
      rw [← S.last] at this
      simp [endOf] at this
  · have hρ := (List.getElem?_eq_some_iff.1 h1).1
    have hs := R.slot ρ u h1 h2
    have hpos := R.pos
    obtain ⟨r', res, e1, ρ', u', g1, g2, g3, g4, g5⟩ := scan_spec R S.sorted n (h.length - ρ) ρ (c.len + 1) u (by omega) h1
      h2 (by omega) h4
    have hws : 0 < ws.length := by omega
    refine ⟨r', res, ?_, Or.inr ⟨ρ', u', g1, g2, g3, g4, ?_, ?_⟩, ?_⟩
    · simp only [Ctrl.read, h3, hs]
      exact e1
    · -- the entries from `ρ'` on
      unfold heldAt
      have hρ' := (List.getElem?_eq_some_iff.1 g1).1
      rcases g5 with ⟨_, g5⟩ | ⟨_, g5⟩
      · have hall : ∀ w ∈ h.drop ρ', decide (n ≤ w.time) = true := by
          intro w hw
          obtain ⟨k, hk⟩ := List.getElem?_of_mem hw
          rw [List.getElem?_drop] at hk
          have := S.sorted.gap g1 hk (by omega)
          simp; omega
        have h7 : (h.drop ρ').length ≤ (ws.filter fun w => decide (n ≤ w.time)).length := by
          have hsub : (h.drop ρ').Sublist ws := (List.drop_sublist _ _).trans S.sub
          have := (hsub.filter (fun w => decide (n ≤ w.time))).length_le
          rwa [List.filter_eq_self.2 hall] at this
        have h8 := filter_le (fun w => decide (n ≤ w.time)) ws
        rw [List.length_drop] at h7
        have hlen : h.length ≤ ws.length := S.sub.length_le
        omega
      · have hlast := g5.2
        omega
    · unfold heldAt; omega
    · rcases g5 with ⟨rfl, g5⟩ | ⟨rfl, g5⟩
      · refine ⟨g5, fun s hs1 hs2 => S.value ρ' u' s g1 (fun j w hj hw => ?_) hs2⟩
        have := g4 j w hj hw
        omega
      · intro w hw
        have := lt_endOf_mem S.sortedW hw
        rw [← S.last] at this
        have := g5.1
        omega

end R2U2
