import Verif.Spec.Trace
import Verif.Lemmas.Map
/-
Lemmas about the headers of trace files.
-/
namespace R2U2
namespace Map

theorem splitComma_word : ∀ {w : List Char}, ',' ∉ w → splitComma w = [w]
  | [], _ => rfl
  | c :: w, h => by
      simp only [List.mem_cons, not_or] at h
      simp [splitComma, splitComma_word h.2, Ne.symm h.1]

theorem splitComma_more : ∀ {w rest : List Char}, ',' ∉ w → splitComma (w ++ ',' :: rest) = w :: splitComma rest
  | [], _, _ => by simp [splitComma]
  | c :: w, rest, h => by
      simp only [List.mem_cons, not_or] at h
      simp [splitComma, splitComma_more h.2, Ne.symm h.1]

theorem strip_name {l n r : List Char} (hl : Blank l) (hn : ColName n) (hr : Blank r) : strip (l ++ n ++ r) = n := by
  have h1 : ∀ (l : List Char) (t : List Char), Blank l → (l ++ t).dropWhile isSpace = t.dropWhile isSpace := by
    intro l t h
    induction l with
    | nil => rfl
    | cons c l ih => simp only [List.cons_append, List.dropWhile_cons, h c (by simp), if_true]; exact ih fun x hx => h x (by simp [hx])
  have h2 : ∀ (m t : List Char), m ≠ [] → (∀ c ∈ m, isSpace c = false) → (m ++ t).dropWhile isSpace = m ++ t := by
    intro m t hm h
    cases m with
    | nil => exact absurd rfl hm
    | cons c m => simp [h c (by simp)]
  unfold strip
  rw [List.append_assoc, h1 _ _ hl, h2 n r hn.1 fun c hc => (hn.2 c hc).2, List.reverse_append, h1 _ _ (fun c hc => hr c (by simpa using hc))]
  have := h2 n.reverse [] (by simpa using hn.1) fun c hc => (hn.2 c (by simpa using hc)).2
  simp only [List.append_nil] at this
  rw [this, List.reverse_reverse]

theorem blank_comma {l n r : List Char} (hl : Blank l) (hn : ColName n) (hr : Blank r) : ',' ∉ l ++ n ++ r := by
  simp only [List.mem_append, not_or]
  refine ⟨⟨fun h => ?_, fun h => (hn.2 _ h).1 rfl⟩, fun h => ?_⟩
  · exact absurd (hl _ h) (by decide)
  · exact absurd (hr _ h) (by decide)

theorem headerNames_eq {header : List Char} {names : List (List Char)} (h : HeaderMeans header names) : headerNames header = names := by
  induction h with
  | last hl hn hr => simp only [headerNames, splitComma_word (blank_comma hl hn hr), List.map_cons, List.map_nil, strip_name hl hn hr]
  | more hl hn hr _ ih =>
    simp only [headerNames] at ih
    simp only [headerNames, splitComma_more (blank_comma hl hn hr), List.map_cons, strip_name hl hn hr, ih]

theorem headerMap_lookup : ∀ (ns : List (List Char)) (cnt : Nat) (m : List (List Char × Nat)), ns.Nodup → (∀ n ∈ ns, m.lookup n = none) →
    ∃ m', headerMap cnt ns m = some m' ∧ (∀ i n, ns[i]? = some n → m'.lookup n = some (cnt + i)) ∧ ∀ n, n ∉ ns → m'.lookup n = m.lookup n
  | [], cnt, m, _, _ => ⟨m, rfl, by simp, fun _ _ => rfl⟩
  | n :: ns, cnt, m, hd, hm => by
      simp only [List.nodup_cons] at hd
      have hk : ∀ k ∈ ns, (set n cnt m).lookup k = none := by
        intro k hk
        rw [lookup_set, if_neg (by rintro rfl; exact hd.1 hk), hm k (by simp [hk])]
      obtain ⟨m', h1, h2, h3⟩ := headerMap_lookup ns (cnt + 1) (set n cnt m) hd.2 hk
      refine ⟨m', by simp [headerMap, hm n (by simp), h1], ?_, ?_⟩
      · intro i k hi
        cases i with
        | zero =>
          simp only [List.getElem?_cons_zero, Option.some.injEq] at hi
          subst hi
          rw [h3 _ hd.1, lookup_set, if_pos rfl]
          rfl
        | succ i =>
          simp only [List.getElem?_cons_succ] at hi
          rw [h2 i k hi]
          congr 1; omega
      · intro k hk
        simp only [List.mem_cons, not_or] at hk
        rw [h3 k hk.2, lookup_set, if_neg hk.1]

end Map
end R2U2
