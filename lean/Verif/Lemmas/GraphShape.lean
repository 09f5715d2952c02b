import Verif.Lemmas.GraphPass
/-
Passes on the object graph: what the graph looks like afterwards.  At the end of a postorder
pass, every node that can be reached has been visited and kept, or is new.
-/
namespace R2U2
variable {L : Type}

mutual
/-- Labels and numbers of operands of the new nodes in a piece of graph. -/
def Bud.news : Bud L → List (L × Nat)
  | .old _ => []
  | .new l cs => (l, cs.length) :: Bud.newsL cs
def Bud.newsL : List (Bud L) → List (L × Nat)
  | [] => []
  | c :: cs => Bud.news c ++ Bud.newsL cs
end

theorem Bud.newsL_eq (cs : List (Bud L)) : Bud.newsL cs = cs.flatMap Bud.news := by
  induction cs with
  | nil => rfl
  | cons c cs ih => simp [Bud.newsL, ih]

namespace Heap

theorem growL_length : ∀ (cs : List (Bud L)) (h : Heap L) (n : Nat), (growL cs h n).2.2.length = cs.length
  | [], _, _ => rfl
  | c :: cs, h, n => by simp [growL, growL_length cs]


mutual
theorem grow_keeps : ∀ (b : Bud L) (h : Heap L) (n : Nat), n ≤ (grow b h n).2.1 ∧
    ∀ z, z < n → (grow b h n).1.lab z = h.lab z ∧ (grow b h n).1.kids z = h.kids z
  | .old x, h, n => ⟨le_refl _, fun _ _ => ⟨rfl, rfl⟩⟩
  | .new l cs, h, n => by
      obtain ⟨h1, h2⟩ := growL_keeps cs h n
      refine ⟨Nat.le_succ_of_le h1, fun z hz => ?_⟩
      have : z ≠ (growL cs h n).2.1 := by omega
      simp [grow, Heap.add, this, h2 z hz]
theorem growL_keeps : ∀ (cs : List (Bud L)) (h : Heap L) (n : Nat), n ≤ (growL cs h n).2.1 ∧
    ∀ z, z < n → (growL cs h n).1.lab z = h.lab z ∧ (growL cs h n).1.kids z = h.kids z
  | [], h, n => ⟨le_refl _, fun _ _ => ⟨rfl, rfl⟩⟩
  | c :: cs, h, n => by
      obtain ⟨h1, h2⟩ := grow_keeps c h n
      obtain ⟨h3, h4⟩ := growL_keeps cs (grow c h n).1 (grow c h n).2.1
      refine ⟨le_trans h1 h3, fun z hz => ?_⟩
      obtain ⟨h5, h6⟩ := h4 z (by omega)
      exact ⟨h5.trans (h2 z hz).1, h6.trans (h2 z hz).2⟩
end

mutual
theorem grow_news : ∀ (b : Bud L) (h : Heap L) (n : Nat) (z : Nat), n ≤ z → z < (grow b h n).2.1 →
    ((grow b h n).1.lab z, ((grow b h n).1.kids z).length) ∈ b.news
  | .old x, h, n, z, h1, h2 => by simp only [grow] at h2; omega
  | .new l cs, h, n, z, h1, h2 => by
      simp only [grow, Bud.news] at h2 ⊢
      by_cases hz : z = (growL cs h n).2.1
      · subst hz; simp [Heap.add, growL_length]
      · have := growL_news cs h n z h1 (by omega)
        simp only [Heap.add, if_neg hz]
        exact List.mem_cons_of_mem _ this
theorem growL_news : ∀ (cs : List (Bud L)) (h : Heap L) (n : Nat) (z : Nat), n ≤ z → z < (growL cs h n).2.1 →
    ((growL cs h n).1.lab z, ((growL cs h n).1.kids z).length) ∈ Bud.newsL cs
  | [], h, n, z, h1, h2 => by simp only [growL] at h2; omega
  | c :: cs, h, n, z, h1, h2 => by
      simp only [growL, Bud.newsL] at h2 ⊢
      by_cases hz : z < (grow c h n).2.1
      · obtain ⟨h3, h4⟩ := (growL_keeps cs (grow c h n).1 (grow c h n).2.1).2 z hz
        rw [h3, h4]
        exact List.mem_append_left _ (grow_news c h n z h1 hz)
      · exact List.mem_append_right _ (growL_news cs _ _ z (by omega) h2)
end

/-- What one replacement does to the graph. -/
structure Step (Q : L → Nat → Prop) (h : Heap L) (n x : Nat) (h' : Heap L) (n' : Nat) : Prop where
  le : n ≤ n'
  below : h'.Below n'
  lab : ∀ z, z < n → h'.lab z = h.lab z
  len : ∀ z, z < n → (h'.kids z).length = (h.kids z).length
  fresh : ∀ z, n ≤ z → z < n' → Q (h'.lab z) (h'.kids z).length
  kidsOld : ∀ p c, p < n → c ∈ h'.kids p → c ∈ h.kids p ∨ (x ∈ h.kids p ∧ (n ≤ c ∨ h.Under x c))
  kidsNew : ∀ p c, n ≤ p → c ∈ h'.kids p → (n ≤ c ∧ c < p) ∨ h.Under x c
  live : ∀ D, Live h D → (∀ d ∈ D, d < n) → x ∉ D → Live h' (x :: D)
  parsNil : ∀ D z, Live h D → x ∉ D → z < n → h.pars z = [] → h'.pars z = []
  kidsEq : ∀ p, p < n → x ∉ h.kids p → h'.kids p = h.kids p

theorem Under.live {h : Heap L} {D : List Nat} (hl : Live h D) {x z : Nat} (hx : x ∉ D) (hu : h.Under x z) :
    z ∉ D ∧ h.pars z ≠ [] := by
  obtain ⟨k, hk, hr⟩ := hu
  have hk0 : k ∉ D ∧ h.pars k ≠ [] :=
    ⟨hl.refs x hx k hk, fun h0 => by have := hl.parents x hx k hk; rw [h0] at this; cases this⟩
  induction hr with
  | root h => rw [List.mem_singleton.1 h]; exact hk0
  | @kid p c _ hc ih =>
    exact ⟨hl.refs p ih.1 c hc, fun h0 => by have := hl.parents p ih.1 c hc; rw [h0] at this; cases this⟩

theorem step_of_rule {S : Tree L → Tree L → Prop} {rule : Rule L} (hR : RuleOk rule S) {Q : L → Nat → Prop} {h : Heap L} {n x : Nat}
    {b : Bud L} (hb : h.Below n) (ha : h.Acyclic) (hx : x < n) (hr : rule h x = some (some b))
    (hQ : ∀ p ∈ b.news, Q p.1 p.2) :
    Step Q h n x ((grow b h n).1.replace x (grow b h n).2.2) (grow b h n).2.1 := by
  obtain ⟨tr, ht, _⟩ := ha.rank
  have hu := hR.olds hr
  have hlt : ∀ o ∈ b.olds, o < n := fun o ho => (hu o ho).lt hb
  obtain ⟨g, h1, h2, h3⟩ := grow_spec b h n tr hb (fun z _ => ht z) hlt
  have hxx : ¬ h.Under x x := fun hxu => hxu.irrefl ha .self
  have hxk : ∀ p, n ≤ p → x ∉ (grow b h n).1.kids p := by
    intro p hp hc
    rcases g.fresh p hp x hc with ⟨h4, _⟩ | h4
    · omega
    · exact hxx (hu x h4)
  have hxr : x ≠ (grow b h n).2.2 := by
    intro he
    rcases h3 with h4 | h4
    · omega
    · rw [← he] at h4; exact hxx (hu x h4)
  have hru : n ≤ (grow b h n).2.2 ∨ h.Under x (grow b h n).2.2 := h3.imp id (hu _)
  have hlive : ∀ D, Live h D → (∀ d ∈ D, d < n) → x ∉ D → Live (grow b h n).1 D := by
    intro D hl hD hxD
    constructor
    · intro p hp c hc
      by_cases hpn : p < n
      · rw [g.kids p hpn] at hc; exact hl.refs p hp c hc
      · rcases g.fresh p (by omega) c hc with ⟨h4, _⟩ | h4
        · intro hd; have := hD c hd; omega
        · exact ((hu c h4).live hl hxD).1
    · intro p hp c hc
      by_cases hpn : p < n
      · rw [g.kids p hpn] at hc
        exact g.parsOld c p (hb.kids p c hc) (hl.parents p hp c hc)
      · exact g.parsNew p (by omega) c hc
  refine ⟨g.le, ⟨?_, ?_⟩, ?_, ?_, ?_, ?_, ?_, ?_, ?_, ?_⟩
  · intro p c hc
    rcases mem_replace_kids hc with hc | ⟨rfl, _⟩
    · exact g.below.kids p c hc
    · exact h1
  · intro p hp
    have := replace_kids_length (grow b h n).1 x (grow b h n).2.2 p
    rw [g.below.none p hp] at this
    exact List.length_eq_zero_iff.1 this
  · intro z hz; rw [replace_lab, g.lab z hz]
  · intro z hz; rw [replace_kids_length, g.kids z hz]
  · intro z hz hz'
    rw [replace_lab, replace_kids_length]
    exact hQ _ (grow_news b h n z hz hz')
  · intro p c hp hc
    rcases mem_replace_kids hc with hc | ⟨rfl, hq⟩
    · rw [g.kids p hp] at hc; exact .inl hc
    · rw [g.kids p hp] at hq; exact .inr ⟨hq, hru⟩
  · intro p c hp hc
    rcases mem_replace_kids hc with hc | ⟨rfl, hq⟩
    · exact (g.fresh p hp c hc).imp id (hu c)
    · exact absurd hq (hxk p hp)
  · intro D hl hD hxD
    have hl1 := hlive D hl hD hxD
    constructor
    · intro p hp c hc
      simp only [List.mem_cons, not_or] at hp ⊢
      refine ⟨?_, ?_⟩
      · rintro rfl
        exact replace_not_mem hxr (fun h => hl1.parents p hp.2 _ h) hc
      · rcases mem_replace_kids hc with h | ⟨rfl, h⟩
        · exact hl1.refs p hp.2 c h
        · rcases hru with h4 | h4
          · intro hd; have := hD _ hd; omega
          · exact (h4.live hl hxD).1
    · intro p hp c hc
      simp only [List.mem_cons, not_or] at hp
      exact replace_parents (hl1.parents p hp.2) hp.1 hc
  · intro D z hl hxD hz hpz
    refine replace_pars_nil ?_ ?_
    · rw [List.eq_nil_iff_forall_not_mem]
      intro p hp
      rcases g.parsOnly z p (lt_of_lt_of_le hz g.le) hp with ⟨_, h4⟩ | ⟨h4, _, h6⟩
      · rw [hpz] at h4; cases h4
      · rcases g.fresh p h4 z h6 with ⟨h7, _⟩ | h7
        · omega
        · exact ((hu z h7).live hl hxD).2 hpz
    · rintro rfl
      rcases hru with h4 | h4
      · omega
      · exact (h4.live hl hxD).2 hpz
  · intro p hp hxp
    rw [← g.kids p hp] at hxp ⊢
    unfold replace
    rw [if_neg hxr]
    simp only
    split
    · conv => rhs; rw [← List.map_id ((grow b h n).1.kids p)]
      refine List.map_congr_left fun c hc => ?_
      rw [if_neg (fun he : c = x => hxp (he ▸ hc))]; rfl
    · rfl

theorem Under.rank {h : Heap L} {rank : Nat → Nat} (hr : ∀ p c, c ∈ h.kids p → rank c < rank p) {x z : Nat} (hu : h.Under x z) :
    rank z < rank x := by
  obtain ⟨k, hk, hz⟩ := hu
  induction hz with
  | root h => rw [List.mem_singleton.1 h]; exact hr _ _ hk
  | kid _ hc ih => exact lt_trans (hr _ _ hc) ih

/-- Room is made for the new nodes. -/
theorem Step.rank {Q : L → Nat → Prop} {h h' : Heap L} {n n' x : Nat} (hs : Step Q h n x h' n') (hb : h.Below n)
    {rank : Nat → Nat} (hr : ∀ p c, c ∈ h.kids p → rank c < rank p) :
    ∃ rank' : Nat → Nat, (∀ p c, c ∈ h'.kids p → rank' c < rank' p) ∧
      ∀ a b, a < n → b < n → rank a < rank b → rank' a < rank' b := by
  obtain ⟨K, hK⟩ : ∃ K, K = n' - n + 1 := ⟨_, rfl⟩
  have mono : ∀ a b : Nat, a < b → K * (a + 1) < K * (b + 1) := fun a b hab => Nat.mul_lt_mul_of_pos_left (by omega) (by omega)
  have mono' : ∀ a b : Nat, a < b → K * (a + 1) ≤ K * b := fun a b hab => Nat.mul_le_mul_left _ (by omega)
  have succ : ∀ a : Nat, K * (a + 1) = K * a + K := fun a => by ring
  refine ⟨fun z => if z < n then K * (rank z + 1) else K * rank x + 1 + (z - n), ?_, ?_⟩
  · intro p c hc
    have hcn := hs.below.kids p c hc
    by_cases hp : p < n
    · simp only [if_pos hp]
      rcases hs.kidsOld p c hp hc with h1 | ⟨h1, h2⟩
      · rw [if_pos (hb.kids p c h1)]; exact mono _ _ (hr p c h1)
      · have hxp := hr p x h1
        rcases h2 with h2 | h2
        · rw [if_neg (by omega)]
          have := mono' _ _ hxp
          have := succ (rank x)
          have := succ (rank p)
          omega
        · rw [if_pos (h2.lt hb)]
          exact mono _ _ (lt_trans (h2.rank hr) hxp)
    · simp only [if_neg hp]
      rcases hs.kidsNew p c (by omega) hc with ⟨h1, h2⟩ | h1
      · rw [if_neg (by omega)]; omega
      · rw [if_pos (h1.lt hb)]
        have := mono' _ _ (h1.rank hr)
        omega
  · intro a b ha hb hab
    simp only [if_pos ha, if_pos hb]
    exact mono _ _ hab

theorem reach_under {h : Heap L} {roots : List Nat} {x z : Nat} (hx : Reachable h roots x) (hu : h.Under x z) : Reachable h roots z := by
  obtain ⟨k, hk, hr⟩ := hu
  induction hr with
  | root h => rw [List.mem_singleton.1 h]; exact .kid hx hk
  | kid _ hc ih => exact .kid ih hc

/-- A step keeps shapes that its new nodes have. -/
theorem Step.shaped {Q Q' : L → Nat → Prop} {h h' : Heap L} {n n' x : Nat} (hs : Step Q h n x h' n') (hb : h.Below n) {roots : List Nat}
    (hr : ∀ r ∈ roots, r < n) (hQ : ∀ l k, Q l k → Q' l k) (hS : Shaped Q' h roots) : Shaped Q' h' roots := by
  have key : ∀ z, Reachable h' roots z → (z < n ∧ Reachable h roots z) ∨ (n ≤ z ∧ z < n' ∧ Reachable h roots x) := by
    intro z hz
    induction hz with
    | root h1 => exact .inl ⟨hr _ h1, .root h1⟩
    | @kid p c _ hc ih =>
      have hcn := hs.below.kids p c hc
      rcases ih with ⟨hp, hpr⟩ | ⟨hp, _, hpr⟩
      · rcases hs.kidsOld p c hp hc with h1 | ⟨h1, h2⟩
        · exact .inl ⟨hb.kids p c h1, .kid hpr h1⟩
        · have hxr : Reachable h roots x := .kid hpr h1
          rcases h2 with h2 | h2
          · exact .inr ⟨h2, hcn, hxr⟩
          · exact .inl ⟨h2.lt hb, reach_under hxr h2⟩
      · rcases hs.kidsNew p c hp hc with ⟨h1, _⟩ | h1
        · exact .inr ⟨h1, hcn, hpr⟩
        · exact .inl ⟨h1.lt hb, reach_under hpr h1⟩
  intro z hz
  rcases key z hz with ⟨h1, h2⟩ | ⟨h1, h2, _⟩
  · rw [hs.lab z h1, hs.len z h1]; exact hS z h2
  · exact hQ _ _ (hs.fresh z h1 h2)

/-! ### Traversals of a growing graph -/

/-- What a traversal maintains when nodes numbered from `n0` on are new. -/
structure GInv {σ : Type} (n0 : Nat) (rank : Nat → Nat) (roots : List Nat) (w : Walk L σ) : Prop where
  vis : ∀ x, x ∈ w.visited ↔ x ∈ w.out ∨ (true, x) ∈ w.stack
  nodup : (w.out ++ grays w.stack).Nodup
  rankKids : ∀ p c, c ∈ w.heap.kids p → rank c < rank p
  ordered : w.stack.Pairwise fun e f => f.1 = true → rank e.2 < rank f.2
  grayKids : ∀ A x B, w.stack = A ++ (true, x) :: B →
    ∀ c ∈ w.heap.kids x, c ∈ w.visited ∨ (false, c) ∈ A ∨ n0 ≤ c
  blackKids : ∀ x, x ∈ w.out ∨ n0 ≤ x → ∀ c ∈ w.heap.kids x, c ∈ w.out ∨ n0 ≤ c
  rootsIn : ∀ r ∈ roots, r ∈ w.visited ∨ (false, r) ∈ w.stack

section
variable {σ : Type} {n0 : Nat} {rank : Nat → Nat} {roots : List Nat}

theorem GInv.start {h : Heap L} (hr : ∀ p c, c ∈ h.kids p → rank c < rank p) (hb : h.Below n0)
    (roots : List Nat) (a : σ) : GInv n0 rank roots (start h roots a) where
  vis := by simp [Heap.start]
  nodup := by
    simp only [Heap.start, List.nil_append, ← List.map_reverse, grays_white]; simp
  rankKids := hr
  ordered := by
    simp only [Heap.start, ← List.map_reverse]
    rw [List.pairwise_map]
    exact pairwise_all _ (by simp)
  grayKids := by
    intro A x B hst
    simp only [Heap.start, ← List.map_reverse] at hst
    have : (true, x) ∈ (roots.reverse.map fun r => (false, r)) := by rw [hst]; simp
    simp at this
  blackKids := by
    intro x hx c hc
    simp only [Heap.start, List.not_mem_nil, false_or] at hx hc
    rw [hb.none x hx] at hc; cases hc
  rootsIn := by simp [Heap.start]

theorem GInv.skip {w : Walk L σ} {x : Nat} {st} (hw : GInv n0 rank roots w) (hs : w.stack = (false, x) :: st)
    (hv : x ∈ w.visited) : GInv n0 rank roots { w with stack := st } where
  vis := by intro y; have := hw.vis y; rw [hs] at this; simpa using this
  nodup := by have := hw.nodup; rw [hs] at this; simpa [grays] using this
  rankKids := hw.rankKids
  ordered := by have := hw.ordered; rw [hs] at this; exact this.of_cons
  grayKids := by
    intro A y B hst c hc
    have := hw.grayKids ((false, x) :: A) y B (by rw [hs]; simp at hst; simp [hst]) c hc
    rcases this with h | h | h
    · exact .inl h
    · simp only [List.mem_cons, Prod.mk.injEq, true_and] at h
      rcases h with rfl | h
      · exact .inl hv
      · exact .inr (.inl h)
    · exact .inr (.inr h)
  blackKids := hw.blackKids
  rootsIn := by
    intro r hr
    have := hw.rootsIn r hr
    rw [hs] at this
    simp only [List.mem_cons, Prod.mk.injEq, true_and] at this
    rcases this with h | rfl | h
    · exact .inl h
    · exact .inl hv
    · exact .inr h

theorem GInv.expand {w : Walk L σ} {x : Nat} {st} (hw : GInv n0 rank roots w) (hs : w.stack = (false, x) :: st)
    (hv : x ∉ w.visited) : GInv n0 rank roots { w with
        stack := (w.heap.kids x).map (fun c => (false, c)) ++ (true, x) :: st
        visited := x :: w.visited } where
  vis := by
    intro y
    have := hw.vis y
    rw [hs] at this
    simp only [List.mem_cons, Prod.mk.injEq, Bool.true_eq_false, false_and, false_or] at this
    simp only [List.mem_cons, List.mem_append, List.mem_map, Prod.mk.injEq, Bool.false_eq_true, false_and,
      and_false, exists_false, true_and, false_or, this]
    tauto
  nodup := by
    have h1 := hw.nodup
    rw [hs] at h1
    have hx : x ∉ w.out ++ grays st := by
      intro hx
      apply hv
      rw [hw.vis, hs]
      rcases List.mem_append.1 hx with h | h
      · exact .inl h
      · exact .inr (List.mem_cons_of_mem _ (mem_grays.1 h))
    have h2 : (w.out ++ grays st).Nodup := by simpa [grays] using h1
    simp only [grays_append, grays_white, List.nil_append]
    have : grays ((true, x) :: st) = x :: grays st := by simp [grays]
    rw [this]
    exact (List.perm_middle.nodup_iff).2 (List.nodup_cons.2 ⟨hx, h2⟩)
  rankKids := hw.rankKids
  ordered := by
    have h1 := hw.ordered
    rw [hs, List.pairwise_cons] at h1
    simp only
    rw [List.pairwise_append]
    refine ⟨?_, ?_, ?_⟩
    · rw [List.pairwise_map]; exact pairwise_all _ (by simp)
    · rw [List.pairwise_cons]
      exact ⟨fun a ha ht => h1.1 a ha ht, h1.2⟩
    · rintro ⟨b, c⟩ hc ⟨b', d⟩ hd ht
      simp only [List.mem_map, Prod.mk.injEq] at hc
      obtain ⟨c', hc', _, rfl⟩ := hc
      have hr := hw.rankKids _ _ hc'
      rcases List.mem_cons.1 hd with h | h
      · cases h; exact hr
      · exact Nat.lt_trans hr (h1.1 _ h ht)
  grayKids := by
    intro A y B hst c hc
    simp only at hst
    by_cases hy : y = x
    · subst hy
      have hnot : (true, y) ∉ st := by
        intro h; apply hv; rw [hw.vis, hs]; exact .inr (List.mem_cons_of_mem _ h)
      have hA : A = (w.heap.kids y).map (fun c => (false, c)) := by
        rcases List.append_eq_append_iff.1 hst with ⟨as, h1, h2⟩ | ⟨bs, h1, h2⟩
        · cases as with
          | nil => simpa using h1
          | cons a as =>
            exfalso
            simp only [List.cons_append, List.cons.injEq] at h2
            exact hnot (by rw [h2.2]; simp)
        · cases bs with
          | nil => simpa using h1.symm
          | cons b bs =>
            exfalso
            simp only [List.cons_append, List.cons.injEq] at h2
            have : (true, y) ∈ (w.heap.kids y).map (fun c => (false, c)) := by
              rw [h1, ← h2.1]; simp
            simp at this
      right; left
      rw [hA]
      exact List.mem_map.2 ⟨c, hc, rfl⟩
    · rcases List.append_eq_append_iff.1 hst with ⟨as, h1, h2⟩ | ⟨bs, h1, h2⟩
      · cases as with
        | nil => simp only [List.nil_append, List.cons.injEq, Prod.mk.injEq, true_and] at h2; exact absurd h2.1.symm hy
        | cons a as =>
          simp only [List.cons_append, List.cons.injEq] at h2
          have := hw.grayKids ((false, x) :: as) y B (by rw [hs, h2.2]; simp) c hc
          rcases this with h | h | h
          · exact .inl (List.mem_cons_of_mem _ h)
          · simp only [List.mem_cons, Prod.mk.injEq, true_and] at h
            rcases h with rfl | h
            · exact .inl List.mem_cons_self
            · right; left; rw [h1]; simp [h]
          · exact .inr (.inr h)
      · cases bs with
        | nil => simp only [List.nil_append, List.cons.injEq, Prod.mk.injEq, true_and] at h2; exact absurd h2.1 hy
        | cons b bs =>
          exfalso
          simp only [List.cons_append, List.cons.injEq] at h2
          have : (true, y) ∈ (w.heap.kids x).map (fun c => (false, c)) := by rw [h1, ← h2.1]; simp
          simp at this
  blackKids := hw.blackKids
  rootsIn := by
    intro r hr
    have := hw.rootsIn r hr
    rw [hs] at this
    simp only [List.mem_cons, Prod.mk.injEq, true_and] at this
    rcases this with h | rfl | h
    · exact .inl (List.mem_cons_of_mem _ h)
    · exact .inl List.mem_cons_self
    · right; simp [h]

theorem GInv.kids_out {w : Walk L σ} {x : Nat} {st} (hw : GInv n0 rank roots w) (hs : w.stack = (true, x) :: st)
    {c : Nat} (hc : c ∈ w.heap.kids x) : c ∈ w.out ∨ n0 ≤ c := by
  have h1 := hw.grayKids [] x st (by rw [hs]; rfl) c hc
  simp only [List.not_mem_nil, false_or] at h1
  refine h1.imp (fun h1 => ?_) id
  rcases (hw.vis c).1 h1 with h | h
  · exact h
  · exfalso
    have hr := hw.rankKids _ _ hc
    rw [hs] at h
    rcases List.mem_cons.1 h with h | h
    · simp only [Prod.mk.injEq, true_and] at h; subst h; omega
    · have ho := hw.ordered
      rw [hs, List.pairwise_cons] at ho
      have := ho.1 _ h rfl
      simp only at this; omega

/-- All that is under a node has been dealt with when the node is yielded. -/
theorem GInv.under_out {w : Walk L σ} {x : Nat} {st} (hw : GInv n0 rank roots w) (hs : w.stack = (true, x) :: st)
    {c : Nat} (hc : w.heap.Under x c) : c ∈ w.out ∨ n0 ≤ c := by
  obtain ⟨k, hk, hr⟩ := hc
  induction hr with
  | root h => rw [List.mem_singleton.1 h]; exact hw.kids_out hs hk
  | kid _ hc ih => exact hw.blackKids _ ih _ hc

theorem GInv.yield {w : Walk L σ} {x : Nat} {st} (hw : GInv n0 rank roots w) (hs : w.stack = (true, x) :: st)
    {h' : Heap L} {a' : σ} {rank' : Nat → Nat} (hr : ∀ p c, c ∈ h'.kids p → rank' c < rank' p)
    (hm : ∀ e ∈ w.stack, ∀ f ∈ w.stack, rank e.2 < rank f.2 → rank' e.2 < rank' f.2)
    (hk : ∀ p c, c ∈ h'.kids p → c ∈ w.heap.kids p ∨ c ∈ w.out ∨ n0 ≤ c) :
    GInv n0 rank' roots { heap := h', stack := st, visited := w.visited, out := w.out ++ [x], acc := a' } where
  vis := by
    intro y
    have := hw.vis y
    rw [hs] at this
    simp only [List.mem_cons, Prod.mk.injEq, true_and] at this
    simp only [this, List.mem_append, List.mem_singleton]
    tauto
  nodup := by
    have := hw.nodup
    rw [hs] at this
    simpa [grays] using this
  rankKids := hr
  ordered := by
    have := hw.ordered
    rw [hs] at this hm
    refine List.Pairwise.imp_of_mem ?_ this.of_cons
    intro e f he hf hef ht
    exact hm e (List.mem_cons_of_mem _ he) f (List.mem_cons_of_mem _ hf) (hef ht)
  grayKids := by
    intro A y B hst c hc
    simp only at hst
    rcases hk y c hc with h | h | h
    · have := hw.grayKids ((true, x) :: A) y B (by rw [hs, hst]; rfl) c h
      simpa using this
    · exact .inl ((hw.vis c).2 (.inl h))
    · exact .inr (.inr h)
  blackKids := by
    intro y hy c hc
    simp only [List.mem_append, List.mem_singleton] at hy ⊢
    have key : c ∈ w.out ∨ n0 ≤ c := by
      rcases hk y c hc with h | h
      · rcases hy with (hy | rfl) | hy
        · exact hw.blackKids y (.inl hy) c h
        · exact hw.kids_out hs h
        · exact hw.blackKids y (.inr hy) c h
      · exact h
    tauto
  rootsIn := by
    intro r hr
    have := hw.rootsIn r hr
    rw [hs] at this
    simpa using this

theorem GInv.reachable {w : Walk L σ} (hw : GInv n0 rank roots w) (hs : w.stack = []) {x : Nat}
    (hx : Reachable w.heap roots x) : x ∈ w.out ∨ n0 ≤ x := by
  induction hx with
  | root h =>
    have := hw.rootsIn _ h
    rw [hs] at this
    simp only [List.not_mem_nil, or_false] at this
    have := (hw.vis _).1 this
    rw [hs] at this
    left; simpa using this
  | kid _ hc ih => exact hw.blackKids _ ih _ hc
end

/-- A rule whose new nodes have shape `N` and that leaves no node without shape `Q`, and that
never replaces a node labelled in `F`. -/
structure RuleShape (rule : Rule L) (F : L → Prop) (N Q : L → Nat → Prop) : Prop where
  news : ∀ h x b, rule h x = some (some b) → ∀ p ∈ b.news, N p.1 p.2
  frame : ∀ h x b, rule h x = some (some b) → ¬ F (h.lab x)
  rest : ∀ h x, rule h x = some none → Q (h.lab x) (h.kids x).length
  incl : ∀ l k, N l k → Q l k

/-- What a pass leaves behind. -/
structure Left (F : L → Prop) (N : L → Nat → Prop) (h : Heap L) (n : Nat) (D : List Nat) (h' : Heap L) (n' : Nat) (D' : List Nat) : Prop where
  le : n ≤ n'
  below : h'.Below n'
  acyclic : ∃ rank : Nat → Nat, ∀ p c, c ∈ h'.kids p → rank c < rank p
  live : Live h' D'
  dead : ∀ d ∈ D, d ∈ D'
  lt : ∀ d ∈ D', d < n'
  frame : ∀ d ∈ D', d ∈ D ∨ ¬ F (h'.lab d)
  lab : ∀ z, z < n → h'.lab z = h.lab z
  len : ∀ z, z < n → (h'.kids z).length = (h.kids z).length
  pars : ∀ z, z < n → h.pars z = [] → h'.pars z = []
  shaped : ∀ (Q : L → Nat → Prop) roots, (∀ l k, N l k → Q l k) → (∀ r ∈ roots, r < n) → Shaped Q h roots → Shaped Q h' roots
  fresh : ∀ z, n ≤ z → z < n' → N (h'.lab z) (h'.kids z).length
  kidsEq : ∀ p, p < n → (∀ c ∈ h.kids p, c < n ∧ F (h.lab c)) → h'.kids p = h.kids p

theorem Left.trans {F : L → Prop} {N : L → Nat → Prop} {h h1 h2 : Heap L} {n n1 n2 : Nat} {D D1 D2 : List Nat}
    (a : Left F N h n D h1 n1 D1) (b : Left F N h1 n1 D1 h2 n2 D2) : Left F N h n D h2 n2 D2 where
  le := le_trans a.le b.le
  below := b.below
  acyclic := b.acyclic
  live := b.live
  dead d hd := b.dead d (a.dead d hd)
  lt := b.lt
  frame d hd := by
    rcases b.frame d hd with h3 | h3
    · rcases a.frame d h3 with h4 | h4
      · exact .inl h4
      · rw [← b.lab d (a.lt d h3)] at h4; exact .inr h4
    · exact .inr h3
  lab z hz := by rw [b.lab z (lt_of_lt_of_le hz a.le), a.lab z hz]
  len z hz := by rw [b.len z (lt_of_lt_of_le hz a.le), a.len z hz]
  pars z hz hp := b.pars z (lt_of_lt_of_le hz a.le) (a.pars z hz hp)
  shaped Q roots hQ hr hS := b.shaped Q roots hQ (fun r h => lt_of_lt_of_le (hr r h) a.le) (a.shaped Q roots hQ hr hS)
  fresh z hz hz' := by
    by_cases h3 : z < n1
    · rw [b.lab z h3, b.len z h3]; exact a.fresh z hz h3
    · exact b.fresh z (by omega) hz'
  kidsEq p hp hc := by
    have h3 := a.kidsEq p hp hc
    rw [b.kidsEq p (lt_of_lt_of_le hp a.le), h3]
    intro c hcp
    rw [h3] at hcp
    obtain ⟨h4, h5⟩ := hc c hcp
    rw [a.lab c h4]; exact ⟨lt_of_lt_of_le h4 a.le, h5⟩

theorem Left.refl {F : L → Prop} {N : L → Nat → Prop} {h : Heap L} {n : Nat} {D : List Nat} (hb : h.Below n)
    (ha : ∃ rank : Nat → Nat, ∀ p c, c ∈ h.kids p → rank c < rank p) (hl : Live h D) (hD : ∀ d ∈ D, d < n) :
    Left F N h n D h n D :=
  ⟨le_refl _, hb, ha, hl, fun _ h => h, hD, fun _ h => .inl h, fun _ _ => rfl, fun _ _ => rfl, fun _ _ h => h,
    fun _ _ _ _ h => h, fun z h1 h2 => by omega, fun _ _ _ => rfl⟩

theorem Step.left {F : L → Prop} {N : L → Nat → Prop} {h h' : Heap L} {n n' x : Nat} (hs : Step N h n x h' n') (hb : h.Below n)
    (ha : ∃ rank : Nat → Nat, ∀ p c, c ∈ h.kids p → rank c < rank p) (hx : x < n) (hF : ¬ F (h.lab x)) {D : List Nat} (hl : Live h D)
    (hD : ∀ d ∈ D, d < n) (hxD : x ∉ D) : Left F N h n D h' n' (x :: D) where
  le := hs.le
  below := hs.below
  acyclic := by
    obtain ⟨rank, hr⟩ := ha
    obtain ⟨rank', h1, _⟩ := hs.rank hb hr
    exact ⟨rank', h1⟩
  live := hs.live D hl hD hxD
  dead d hd := List.mem_cons_of_mem _ hd
  lt d hd := by
    rcases List.mem_cons.1 hd with rfl | hd
    · exact lt_of_lt_of_le hx hs.le
    · exact lt_of_lt_of_le (hD d hd) hs.le
  frame d hd := by
    rcases List.mem_cons.1 hd with rfl | hd
    · rw [hs.lab _ hx]; exact .inr hF
    · exact .inl hd
  lab := hs.lab
  len := hs.len
  pars z hz hp := hs.parsNil D z hl hxD hz hp
  shaped Q roots hQ hr hS := hs.shaped hb hr hQ hS
  fresh := hs.fresh
  kidsEq p hp hc := hs.kidsEq p hp fun hx => hF (hc x hx).2

/-- The traversal of one specification set. -/
theorem postRule_left {S : Tree L → Tree L → Prop} {rule : Rule L} (hR : RuleOk rule S) {F : L → Prop} {N Q : L → Nat → Prop}
    (hS : RuleShape rule F N Q) {fuel root n n' : Nat} {h h' : Heap L} {D : List Nat} (hb : h.Below n)
    (ha : h.Acyclic) (hl : Live h D) (hD : ∀ d ∈ D, d < n) (hr : root < n) (hF : F (h.lab root))
    (hk : ∀ c ∈ h.kids root, c ∉ D ∧ F (h.lab c)) (hp : postRule rule fuel root (h, n) = some (h', n')) :
    ∃ D', Left F N h n D h' n' D' ∧ Shaped Q h' [root] := by
  simp only [postRule, Option.map_eq_some_iff, Prod.mk.injEq] at hp
  obtain ⟨w', hw, rfl, rfl⟩ := hp
  obtain ⟨tr, ht, hrk⟩ := ha.rank
  have hkl : ∀ (w : Heap L) (m : Nat) (D' : List Nat), Left F N h n D w m D' → ∀ c ∈ w.kids root, c ∉ D' := by
    intro w m D' hL c hc hcD
    rw [hL.kidsEq root hr fun c hc => ⟨hb.kids _ _ hc, (hk c hc).2⟩] at hc
    rcases hL.frame c hcD with h2 | h2
    · exact (hk c hc).1 h2
    · rw [hL.lab c (hb.kids _ _ hc)] at h2; exact h2 (hk c hc).2
  have := walk_inv (I := fun w => ∃ rank D', GInv n rank [root] w ∧ PassInv S h n w.heap w.acc ∧ Left F N h n D w.heap w.acc D' ∧
      (∀ d ∈ D', d ∈ D ∨ d ∈ w.out) ∧ (∀ e ∈ w.stack, e.2 < w.acc ∧ (e.2 = root ∨ e.2 ∉ D)) ∧ (∀ x ∈ w.out, x < w.acc) ∧
      (∀ x ∈ w.out, x = root ∨ x ∉ D' → Q (w.heap.lab x) (w.heap.kids x).length)) ?_ fuel _ _ ?_ hw
  · obtain ⟨⟨rank, D', hg, hi, hL, hd, hst, ho, hq⟩, hs⟩ := this
    refine ⟨D', hL, fun z hz => ?_⟩
    have hzD : z = root ∨ z ∉ D' := by
      induction hz with
      | root h => exact .inl (List.mem_singleton.1 h)
      | kid _ hc ih =>
        right
        rcases ih with rfl | ih
        · exact hkl _ _ _ hL _ hc
        · exact hL.live.refs _ ih _ hc
    rcases hg.reachable hs hz with h1 | h1
    · exact hq z h1 hzD
    · have hlt : z < w'.acc := by
        clear hzD
        induction hz with
        | root h => rw [List.mem_singleton.1 h]; exact lt_of_lt_of_le hr hL.le
        | kid _ hc _ => exact hL.below.kids _ _ hc
      exact hS.incl _ _ (hL.fresh z h1 hlt)
  · rintro w w' ⟨rank, D', hg, hi, hL, hd, hst, ho, hq⟩ hne hstep
    rcases walkStep_cases hne hstep with ⟨x, st, hstk, hvis, rfl⟩ | ⟨x, st, hstk, hvis, rfl⟩ |
      ⟨x, st, h1, a1, hstk, hvis, rfl⟩
    · exact ⟨rank, D', hg.skip hstk hvis, hi, hL, hd, fun e he => hst e (by rw [hstk]; exact List.mem_cons_of_mem _ he), ho, hq⟩
    · refine ⟨rank, D', hg.expand hstk hvis, hi, hL, hd, ?_, ho, hq⟩
      have hx := hst (false, x) (by rw [hstk]; exact List.mem_cons_self)
      intro e he
      simp only [List.mem_append, List.mem_map, List.mem_cons] at he
      rcases he with ⟨c, hc, rfl⟩ | rfl | he
      · refine ⟨hL.below.kids _ _ hc, .inr fun hcD => ?_⟩
        rcases hx.2 with h2 | h2
        · simp only at h2
          subst h2
          exact hkl _ _ _ hL c hc (hL.dead c hcD)
        · refine hL.live.refs x ?_ c hc (hL.dead c hcD)
          intro hxD
          rcases hd x hxD with h3 | h3
          · exact h2 h3
          · exact hvis ((hg.vis x).2 (.inl h3))
      · exact hx
      · exact hst e (by rw [hstk]; exact List.mem_cons_of_mem _ he)
    · have hx := hst (true, x) (by rw [hstk]; exact List.mem_cons_self)
      have hxo : x ∉ w.out := by
        intro h2
        have := hg.nodup
        rw [hstk, show grays ((true, x) :: st) = x :: grays st by simp [grays]] at this
        exact (List.nodup_append.1 this).2.2 x h2 x List.mem_cons_self rfl
      have hxD : x ≠ root → x ∉ D' := by
        intro hxr h2
        rcases hd x h2 with h3 | h3
        · exact hx.2.resolve_left hxr h3
        · exact hxo h3
      have hi' := ruleVisit_ok hR hi.below hi.acyclic hx.1 hvis
      unfold ruleVisit at hvis
      split at hvis
      · cases hvis
      · rename_i hrule
        cases hvis
        refine ⟨rank, D', hg.yield hstk hg.rankKids (fun _ _ _ _ h => h) (fun _ _ h => .inl h), hi, hL, ?_, ?_, ?_, ?_⟩
        · intro d h2; rcases hd d h2 with h3 | h3
          · exact .inl h3
          · exact .inr (List.mem_append_left _ h3)
        · exact fun e he => hst e (by rw [hstk]; exact List.mem_cons_of_mem _ he)
        · intro y hy
          rcases List.mem_append.1 hy with hy | hy
          · exact ho y hy
          · rw [List.mem_singleton.1 hy]; exact hx.1
        · intro y hy hyD
          rcases List.mem_append.1 hy with hy | hy
          · exact hq y hy hyD
          · rw [List.mem_singleton.1 hy]; exact hS.rest _ _ hrule
      · rename_i b hrule
        cases hvis
        have hnF := hS.frame _ _ _ hrule
        have hxr : x ≠ root := by
          rintro rfl
          rw [hL.lab x hr] at hnF; exact hnF hF
        have hs := step_of_rule hR hi.below hi.acyclic hx.1 hrule (hS.news _ _ _ hrule)
        obtain ⟨rank', hr1, hr2⟩ := hs.rank hi.below hg.rankKids
        have hL' := hL.trans (hs.left (F := F) hi.below ⟨rank, hg.rankKids⟩ hx.1 hnF hL.live hL.lt (hxD hxr))
        refine ⟨rank', x :: D', hg.yield hstk hr1 (fun e he f hf => hr2 _ _ (hst e he).1 (hst f hf).1) ?_, hi.trans hi', hL', ?_, ?_, ?_, ?_⟩
        · intro p c hc
          have hun : ∀ c, n ≤ w.acc → (w.acc ≤ c ∨ w.heap.Under x c) → c ∈ w.out ∨ n ≤ c := by
            intro c hn hc
            rcases hc with hc | hc
            · exact .inr (le_trans hn hc)
            · exact hg.under_out hstk hc
          by_cases hp : p < w.acc
          · rcases hs.kidsOld p c hp hc with h2 | ⟨_, h2⟩
            · exact .inl h2
            · exact .inr (hun c hL.le h2)
          · rcases hs.kidsNew p c (by omega) hc with ⟨h2, _⟩ | h2
            · exact .inr (hun c hL.le (.inl h2))
            · exact .inr (hun c hL.le (.inr h2))
        · intro d h2
          rcases List.mem_cons.1 h2 with rfl | h2
          · exact .inr (by simp)
          · rcases hd d h2 with h3 | h3
            · exact .inl h3
            · exact .inr (List.mem_append_left _ h3)
        · intro e he
          have := hst e (by rw [hstk]; exact List.mem_cons_of_mem _ he)
          exact ⟨lt_of_lt_of_le this.1 hs.le, this.2⟩
        · intro y hy
          rcases List.mem_append.1 hy with hy | hy
          · exact lt_of_lt_of_le (ho y hy) hs.le
          · rw [List.mem_singleton.1 hy]; exact lt_of_lt_of_le hx.1 hs.le
        · intro y hy hyD
          simp only [List.mem_cons, not_or] at hyD
          rcases List.mem_append.1 hy with hy | hy
          · simp only
            rw [hs.lab y (ho y hy), hs.len y (ho y hy)]
            exact hq y hy (hyD.imp id And.right)
          · rcases hyD with h2 | h2
            · exact absurd ((List.mem_singleton.1 hy).symm.trans h2) hxr
            · exact absurd (List.mem_singleton.1 hy) h2.1
  · refine ⟨fun x => (tr x).size, D, .start hrk hb _ _, .refl hb ha, .refl hb ⟨_, hrk⟩ hl hD, fun d h => .inl h, ?_, ?_, ?_⟩
    · intro e he
      simp only [start, List.map_cons, List.map_nil, List.reverse_cons, List.reverse_nil, List.nil_append,
        List.mem_singleton] at he
      subst he; exact ⟨hr, .inl rfl⟩
    · simp [start]
    · simp [start]

/-- A specification set: its node and those of its specifications are never replaced. -/
structure IsRoot (F : L → Prop) (h : Heap L) (n : Nat) (D : List Nat) (root : Nat) : Prop where
  lt : root < n
  frame : F (h.lab root)
  kids : ∀ c ∈ h.kids root, c ∉ D ∧ F (h.lab c)

theorem Left.root {F : L → Prop} {N : L → Nat → Prop} {h h' : Heap L} {n n' : Nat} {D D' : List Nat} (hb : h.Below n)
    (a : Left F N h n D h' n' D') {r : Nat} (hr : IsRoot F h n D r) : IsRoot F h' n' D' r ∧ h'.kids r = h.kids r := by
  have hk := a.kidsEq r hr.lt fun c hc => ⟨hb.kids _ _ hc, (hr.kids c hc).2⟩
  refine ⟨⟨lt_of_lt_of_le hr.lt a.le, by rw [a.lab r hr.lt]; exact hr.frame, ?_⟩, hk⟩
  intro c hc
  rw [hk] at hc
  rw [a.lab c (hb.kids _ _ hc)]
  refine ⟨fun hcD => ?_, (hr.kids c hc).2⟩
  rcases a.frame c hcD with h2 | h2
  · exact (hr.kids c hc).1 h2
  · rw [a.lab c (hb.kids _ _ hc)] at h2; exact h2 (hr.kids c hc).2

/-- A pass over both specification sets. -/
theorem postPass_left {S : Tree L → Tree L → Prop} {rule : Rule L} (hR : RuleOk rule S) {F : L → Prop} {N Q : L → Nat → Prop}
    (hS : RuleShape rule F N Q) {fuel ft pt n n' : Nat} {h h' : Heap L} {D : List Nat} (hb : h.Below n)
    (ha : h.Acyclic) (hl : Live h D) (hD : ∀ d ∈ D, d < n) (hf : IsRoot F h n D ft) (hpt : IsRoot F h n D pt)
    (hp : postPass rule fuel ft pt (h, n) = some (h', n')) :
    ∃ D', Left F N h n D h' n' D' ∧ Shaped Q h' [ft] ∧ Shaped Q h' [pt] := by
  simp only [postPass, Option.bind_eq_some_iff] at hp
  obtain ⟨⟨h1, n1⟩, hp1, hp2⟩ := hp
  have a := postRule_ok hR hb ha hf.lt hp1
  obtain ⟨D1, hL1, hq1⟩ := postRule_left hR hS hb ha hl hD hf.lt hf.frame hf.kids hp1
  obtain ⟨hr1, _⟩ := hL1.root hb hpt
  obtain ⟨D2, hL2, hq2⟩ := postRule_left hR hS a.below a.acyclic hL1.live hL1.lt hr1.lt hr1.frame hr1.kids hp2
  exact ⟨D2, hL1.trans hL2, hL2.shaped Q [ft] hS.incl (by simpa using lt_of_lt_of_le hf.lt hL1.le) hq1, hq2⟩

end Heap
end R2U2
