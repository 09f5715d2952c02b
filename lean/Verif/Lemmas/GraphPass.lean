import Verif.Model.GraphPass
import Verif.Spec.GraphPass
import Verif.Lemmas.Heap
import Verif.Lemmas.Cse
/-
Passes on the object graph: whatever the order of the visits and however nodes are shared,
a pass that replaces nodes by related ones leaves every node related to what it was.
-/
namespace R2U2
variable {L : Type}

mutual
/-- The tree a new piece of graph stands for, given the trees of the existing nodes. -/
def Bud.read (tr : Nat → Tree L) : Bud L → Tree L
  | .old x => tr x
  | .new l cs => .node l (Bud.readL tr cs)
def Bud.readL (tr : Nat → Tree L) : List (Bud L) → List (Tree L)
  | [] => []
  | c :: cs => Bud.read tr c :: Bud.readL tr cs
end

mutual
/-- The existing nodes a new piece of graph refers to. -/
def Bud.olds : Bud L → List Nat
  | .old x => [x]
  | .new _ cs => Bud.oldsL cs
def Bud.oldsL : List (Bud L) → List Nat
  | [] => []
  | c :: cs => Bud.olds c ++ Bud.oldsL cs
end

theorem Bud.readL_eq (tr : Nat → Tree L) (cs : List (Bud L)) : Bud.readL tr cs = cs.map (Bud.read tr) := by
  induction cs with
  | nil => rfl
  | cons c cs ih => simp [Bud.readL, ih]

mutual
theorem Bud.read_congr {tr tr' : Nat → Tree L} : ∀ (b : Bud L), (∀ o ∈ b.olds, tr o = tr' o) → b.read tr = b.read tr'
  | .old x, h => h x (by simp [Bud.olds])
  | .new l cs, h => by simp only [Bud.read]; rw [Bud.readL_congr cs h]
theorem Bud.readL_congr {tr tr' : Nat → Tree L} : ∀ (cs : List (Bud L)), (∀ o ∈ Bud.oldsL cs, tr o = tr' o) →
    Bud.readL tr cs = Bud.readL tr' cs
  | [], _ => rfl
  | c :: cs, h => by
      simp only [Bud.oldsL, List.mem_append] at h
      simp only [Bud.readL]
      rw [Bud.read_congr c fun o ho => h o (.inl ho), Bud.readL_congr cs fun o ho => h o (.inr ho)]
end

theorem Bud.oldsL_eq (cs : List (Bud L)) : Bud.oldsL cs = cs.flatMap Bud.olds := by
  induction cs with
  | nil => rfl
  | cons c cs ih => simp [Bud.oldsL, ih]

/-- The least reflexive, transitive relation on trees containing `S` and closed under
changing children. -/
inductive Cong (S : Tree L → Tree L → Prop) : Tree L → Tree L → Prop
  | refl (t) : Cong S t t
  | step {t u} : S t u → Cong S t u
  | trans {t u v} : Cong S t u → Cong S u v → Cong S t v
  | kids {l ts us} : List.Forall₂ (Cong S) ts us → Cong S (.node l ts) (.node l us)

namespace Heap

theorem Reachable.trans {h : Heap L} {a b c : Nat} (h1 : Reachable h [a] b) (h2 : Reachable h [b] c) :
    Reachable h [a] c := by
  induction h2 with
  | root hr => rw [List.mem_singleton.1 hr]; exact h1
  | kid _ hc ih => exact .kid ih hc

theorem Reachable.self {h : Heap L} {a : Nat} : Reachable h [a] a := .root (by simp)

/-- A reachable node's tree is not larger. -/
theorem Reachable.size_le {h : Heap L} {tr : Nat → Tree L} (hr : ∀ p c, c ∈ h.kids p → (tr c).size < (tr p).size)
    {a b : Nat} (hb : Reachable h [a] b) : (tr b).size ≤ (tr a).size := by
  induction hb with
  | root h => rw [List.mem_singleton.1 h]
  | kid _ hc ih => exact le_trans (le_of_lt (hr _ _ hc)) ih

theorem Under.irrefl {h : Heap L} (ha : h.Acyclic) {x y : Nat} (hy : h.Under x y) : ¬ Reachable h [y] x := by
  intro hx
  obtain ⟨tr, _, hr⟩ := ha.rank
  obtain ⟨k, hk, hky⟩ := hy
  have h1 := hx.size_le hr
  have h2 := hky.size_le hr
  have h3 := hr _ _ hk
  omega

/-- Nodes from which the replaced node cannot be reached keep their tree. -/
theorem replace_keep {h : Heap L} {x y : Nat} : ∀ u z, h.Denotes z u → ¬ Reachable h [z] x →
    (h.replace x y).Denotes z u := by
  intro u
  induction u using Tree.childInduction with
  | h l us ih =>
    intro z hz hr
    rw [denotes_node] at hz ⊢
    refine ⟨by rw [replace_lab]; exact hz.1, ?_⟩
    have hk : (h.replace x y).kids z = h.kids z := by
      unfold replace; split
      · rfl
      · simp only
        split
        · conv_rhs => rw [← List.map_id (h.kids z)]
          refine List.map_congr_left fun c hc => ?_
          rw [if_neg]; rfl
          rintro rfl
          exact hr (.kid .self hc)
        · rfl
    rw [hk]
    have : ∀ (cs : List Nat) (vs : List (Tree L)), (∀ v ∈ vs, v ∈ us) → (∀ c ∈ cs, c ∈ h.kids z) →
        List.Forall₂ h.Denotes cs vs → List.Forall₂ (h.replace x y).Denotes cs vs := by
      intro cs vs hv hc hf
      induction hf with
      | nil => exact .nil
      | cons hd hf ihf =>
        refine .cons (ih _ (hv _ List.mem_cons_self) _ hd fun hrx => ?_)
          (ihf (fun v hv' => hv v (List.mem_cons_of_mem _ hv')) (fun c hc' => hc c (List.mem_cons_of_mem _ hc')))
        exact hr (Reachable.trans (.kid .self (hc _ List.mem_cons_self)) hrx)
    exact this _ _ (fun v hv => hv) (fun c hc => hc) hz.2

/-- Replacing a node by a related one leaves every node related to what it was. -/
theorem replace_cong {S : Tree L → Tree L → Prop} {h : Heap L} {x y : Nat} {tx ty : Tree L}
    (hx : h.Denotes x tx) (hy : h.Denotes y ty) (hS : Cong S tx ty) (hr : ¬ Reachable h [y] x) :
    ∀ u z, h.Denotes z u → ∃ u', (h.replace x y).Denotes z u' ∧ Cong S u u' := by
  have hy' := replace_keep (y := y) ty y hy hr
  intro u
  induction u using Tree.childInduction with
  | h l us ih =>
    intro z hz
    by_cases hxy : x = y
    · exact ⟨_, by simpa [replace, hxy] using hz, .refl _⟩
    rw [denotes_node] at hz
    have key : ∀ (cs : List Nat) (vs : List (Tree L)), (∀ v ∈ vs, v ∈ us) →
        List.Forall₂ h.Denotes cs vs →
        (∃ vs', List.Forall₂ (h.replace x y).Denotes (cs.map (fun c => if c = x then y else c)) vs' ∧
          List.Forall₂ (Cong S) vs vs') ∧
        ∃ vs', List.Forall₂ (h.replace x y).Denotes cs vs' ∧ List.Forall₂ (Cong S) vs vs' := by
      intro cs vs hv hf
      induction hf with
      | nil => exact ⟨⟨[], .nil, .nil⟩, ⟨[], .nil, .nil⟩⟩
      | @cons c v cs vs hc hf ihf =>
        obtain ⟨⟨vs1, a1, a2⟩, ⟨vs2, b1, b2⟩⟩ := ihf (fun v hv' => hv v (List.mem_cons_of_mem _ hv'))
        obtain ⟨v', c1, c2⟩ := ih v (hv v List.mem_cons_self) c hc
        refine ⟨?_, ⟨v' :: vs2, .cons c1 b1, .cons c2 b2⟩⟩
        by_cases hcx : c = x
        · subst hcx
          have := hc.unique hx
          subst this
          exact ⟨ty :: vs1, by rw [List.map_cons, if_pos rfl]; exact .cons hy' a1, .cons hS a2⟩
        · exact ⟨v' :: vs1, by rw [List.map_cons, if_neg hcx]; exact .cons c1 a1, .cons c2 a2⟩
    obtain ⟨⟨vs1, a1, a2⟩, ⟨vs2, b1, b2⟩⟩ := key _ _ (fun v hv => hv) hz.2
    have hl := hz.1
    by_cases hp : z ∈ h.pars x
    · refine ⟨.node l vs1, denotes_node.2 ⟨by rw [replace_lab]; exact hl, ?_⟩, .kids a2⟩
      rw [show (h.replace x y).kids z = (h.kids z).map (fun c => if c = x then y else c) by
        simp [replace, hxy, hp]]
      exact a1
    · refine ⟨.node l vs2, denotes_node.2 ⟨by rw [replace_lab]; exact hl, ?_⟩, .kids b2⟩
      rw [show (h.replace x y).kids z = h.kids z by simp [replace, hxy, hp]]
      exact b1

/-! ### Building new nodes -/

/-- `h'` is `h` with new nodes `n, …, n' - 1` above the nodes `olds`. -/
structure Grown (h : Heap L) (n : Nat) (olds : List Nat) (h' : Heap L) (n' : Nat) : Prop where
  le : n ≤ n'
  lab : ∀ z, z < n → h'.lab z = h.lab z
  kids : ∀ z, z < n → h'.kids z = h.kids z
  below : h'.Below n'
  fresh : ∀ z, n ≤ z → ∀ c ∈ h'.kids z, (n ≤ c ∧ c < z) ∨ c ∈ olds
  parsOld : ∀ c p, c < n → p ∈ h.pars c → p ∈ h'.pars c
  parsNew : ∀ z, n ≤ z → ∀ c ∈ h'.kids z, z ∈ h'.pars c
  parsOnly : ∀ c p, c < n' → p ∈ h'.pars c → (c < n ∧ p ∈ h.pars c) ∨ (n ≤ p ∧ p < n' ∧ c ∈ h'.kids p)

theorem Grown.refl {h : Heap L} {n : Nat} (hb : h.Below n) : Grown h n [] h n where
  le := le_refl _
  lab _ _ := rfl
  kids _ _ := rfl
  below := hb
  fresh z hz c hc := by rw [hb.none z hz] at hc; cases hc
  parsOld _ _ _ h := h
  parsNew z hz c hc := by rw [hb.none z hz] at hc; cases hc
  parsOnly c p hc hp := .inl ⟨hc, hp⟩

theorem Grown.mono {h h' : Heap L} {n n' : Nat} {o o' : List Nat} (hg : Grown h n o h' n') (ho : ∀ x ∈ o, x ∈ o') :
    Grown h n o' h' n' :=
  { hg with fresh := fun z hz c hc => (hg.fresh z hz c hc).imp id (ho c) }

theorem Grown.trans {h h1 h2 : Heap L} {n n1 n2 : Nat} {o : List Nat} (a : Grown h n o h1 n1)
    (b : Grown h1 n1 o h2 n2) : Grown h n o h2 n2 where
  le := le_trans a.le b.le
  lab z hz := by rw [b.lab z (lt_of_lt_of_le hz a.le), a.lab z hz]
  kids z hz := by rw [b.kids z (lt_of_lt_of_le hz a.le), a.kids z hz]
  below := b.below
  fresh z hz c hc := by
    by_cases h : z < n1
    · rw [b.kids z h] at hc; exact a.fresh z hz c hc
    · rcases b.fresh z (by omega) c hc with ⟨h1, h2⟩ | h1
      · exact .inl ⟨le_trans a.le h1, h2⟩
      · exact .inr h1
  parsOld c p hc hp := b.parsOld c p (lt_of_lt_of_le hc a.le) (a.parsOld c p hc hp)
  parsNew z hz c hc := by
    by_cases h : z < n1
    · rw [b.kids z h] at hc
      exact b.parsOld c z (a.below.kids z c hc) (a.parsNew z hz c hc)
    · exact b.parsNew z (by omega) c hc
  parsOnly c p hc hp := by
    rcases b.parsOnly c p hc hp with ⟨h1, h2⟩ | ⟨h1, h2, h3⟩
    · rcases a.parsOnly c p h1 h2 with h | ⟨h3, h4, h5⟩
      · exact .inl h
      · exact .inr ⟨h3, lt_of_lt_of_le h4 b.le, by rw [b.kids p h4]; exact h5⟩
    · exact .inr ⟨le_trans a.le h1, h2, h3⟩

theorem Grown.add {h : Heap L} {n : Nat} (hb : h.Below n) (l : L) {xs : List Nat} (hx : ∀ x ∈ xs, x < n) :
    Grown h n xs (h.add n l xs) (n + 1) where
  le := Nat.le_succ n
  lab z hz := by simp [Heap.add, Nat.ne_of_lt hz]
  kids z hz := by simp [Heap.add, Nat.ne_of_lt hz]
  below := by
    constructor
    · intro p c hc
      simp only [Heap.add] at hc
      split at hc
      · exact Nat.lt_succ_of_lt (hx c hc)
      · exact Nat.lt_succ_of_lt (hb.kids p c hc)
    · intro p hp
      simp only [Heap.add]
      rw [if_neg (by omega)]
      exact hb.none p (by omega)
  fresh z hz c hc := by
    simp only [Heap.add] at hc
    split at hc
    · exact .inr hc
    · rw [hb.none z hz] at hc; cases hc
  parsOld c p hc hp := by
    simp only [Heap.add, Nat.ne_of_lt hc, if_false]
    exact List.mem_append_left _ hp
  parsNew z hz c hc := by
    simp only [Heap.add] at hc ⊢
    split at hc
    · rename_i h; subst h
      rw [if_pos hc]; simp
    · rw [hb.none z hz] at hc; cases hc
  parsOnly c p hc hp := by
    simp only [Heap.add, List.mem_append] at hp ⊢
    rcases hp with hp | hp
    · split at hp
      · cases hp
      · exact .inl ⟨by omega, hp⟩
    · split at hp
      · rename_i h
        rw [List.mem_singleton.1 hp]
        exact .inr ⟨le_refl _, by omega, by simpa using h⟩
      · cases hp

/-- Existing nodes keep their trees. -/
theorem Grown.denotes {h h' : Heap L} {n n' : Nat} {o : List Nat} (hb : h.Below n) (hg : Grown h n o h' n') :
    ∀ t z, z < n → h.Denotes z t → h'.Denotes z t := by
  intro t
  induction t using Tree.childInduction with
  | h l us ih =>
    intro z hz hd
    rw [denotes_node] at hd ⊢
    refine ⟨by rw [hg.lab z hz]; exact hd.1, ?_⟩
    rw [hg.kids z hz]
    have : ∀ (cs : List Nat) (vs : List (Tree L)), (∀ v ∈ vs, v ∈ us) → (∀ c ∈ cs, c < n) →
        List.Forall₂ h.Denotes cs vs → List.Forall₂ h'.Denotes cs vs := by
      intro cs vs hv hc hf
      induction hf with
      | nil => exact .nil
      | cons hd hf ihf =>
        exact .cons (ih _ (hv _ List.mem_cons_self) _ (hc _ List.mem_cons_self) hd)
          (ihf (fun v hv' => hv v (List.mem_cons_of_mem _ hv')) (fun c hc' => hc c (List.mem_cons_of_mem _ hc')))
    exact this _ _ (fun v hv => hv) (fun c hc => hb.kids z c hc) hd.2

mutual
theorem grow_spec : ∀ (b : Bud L) (h : Heap L) (n : Nat) (tr : Nat → Tree L), h.Below n →
    (∀ z, z < n → h.Denotes z (tr z)) → (∀ o ∈ b.olds, o < n) →
    Grown h n b.olds (grow b h n).1 (grow b h n).2.1 ∧ (grow b h n).2.2 < (grow b h n).2.1 ∧
    (grow b h n).1.Denotes (grow b h n).2.2 (b.read tr) ∧
    (n ≤ (grow b h n).2.2 ∨ (grow b h n).2.2 ∈ b.olds)
  | .old x, h, n, tr, hb, ht, ho => by
      simp only [grow, Bud.olds, Bud.read]
      exact ⟨(Grown.refl hb).mono (by simp), ho x (by simp [Bud.olds]), ht x (ho x (by simp [Bud.olds])), by simp⟩
  | .new l cs, h, n, tr, hb, ht, ho => by
      obtain ⟨g, h1, h2, h3⟩ := growL_spec cs h n tr hb ht ho
      simp only [grow, Bud.olds, Bud.read]
      have ga := Grown.add g.below l h1
      have gd := Grown.denotes g.below ga
      refine ⟨⟨le_trans g.le ga.le, ?_, ?_, ga.below, ?_, ?_, ?_, ?_⟩, Nat.lt_succ_self _, ?_, .inl g.le⟩
      · intro z hz; rw [ga.lab z (lt_of_lt_of_le hz g.le), g.lab z hz]
      · intro z hz; rw [ga.kids z (lt_of_lt_of_le hz g.le), g.kids z hz]
      · intro z hz c hc
        by_cases hzn : z < (growL cs h n).2.1
        · rw [ga.kids z hzn] at hc; exact g.fresh z hz c hc
        · have : z = (growL cs h n).2.1 := by
            by_contra hne
            rw [ga.below.none z (by omega)] at hc; cases hc
          subst this
          have hc' : c ∈ (growL cs h n).2.2 := by simpa [Heap.add] using hc
          exact (h3 c hc').imp (fun h => ⟨h, h1 c hc'⟩) id
      · intro c p hc hp; exact ga.parsOld c p (lt_of_lt_of_le hc g.le) (g.parsOld c p hc hp)
      · intro z hz c hc
        by_cases hzn : z < (growL cs h n).2.1
        · rw [ga.kids z hzn] at hc
          exact ga.parsOld c z (g.below.kids z c hc) (g.parsNew z hz c hc)
        · exact ga.parsNew z (by omega) c hc
      · intro c p hc hp
        rcases ga.parsOnly c p hc hp with ⟨h1, h2⟩ | ⟨h1, h2, h3⟩
        · rcases g.parsOnly c p h1 h2 with h | ⟨h3, h4, h5⟩
          · exact .inl h
          · exact .inr ⟨h3, lt_of_lt_of_le h4 ga.le, by rw [ga.kids p h4]; exact h5⟩
        · exact .inr ⟨le_trans g.le h1, h2, h3⟩
      · refine denotes_node.2 ⟨by simp [Heap.add], ?_⟩
        rw [show ((growL cs h n).1.add (growL cs h n).2.1 l (growL cs h n).2.2).kids (growL cs h n).2.1
          = (growL cs h n).2.2 by simp [Heap.add]]
        have : ∀ (xs : List Nat) (ts : List (Tree L)), (∀ x ∈ xs, x < (growL cs h n).2.1) →
            List.Forall₂ (growL cs h n).1.Denotes xs ts →
            List.Forall₂ ((growL cs h n).1.add (growL cs h n).2.1 l (growL cs h n).2.2).Denotes xs ts := by
          intro xs ts hx hf
          induction hf with
          | nil => exact .nil
          | cons hd hf ih =>
            exact .cons (gd _ _ (hx _ List.mem_cons_self) hd) (ih fun x hx' => hx x (List.mem_cons_of_mem _ hx'))
        exact this _ _ h1 h2
theorem growL_spec : ∀ (cs : List (Bud L)) (h : Heap L) (n : Nat) (tr : Nat → Tree L), h.Below n →
    (∀ z, z < n → h.Denotes z (tr z)) → (∀ o ∈ Bud.oldsL cs, o < n) →
    Grown h n (Bud.oldsL cs) (growL cs h n).1 (growL cs h n).2.1 ∧
    (∀ x ∈ (growL cs h n).2.2, x < (growL cs h n).2.1) ∧
    List.Forall₂ (growL cs h n).1.Denotes (growL cs h n).2.2 (Bud.readL tr cs) ∧
    ∀ x ∈ (growL cs h n).2.2, n ≤ x ∨ x ∈ Bud.oldsL cs
  | [], h, n, tr, hb, ht, ho => by
      simp only [growL, Bud.oldsL, Bud.readL]
      exact ⟨Grown.refl hb, by simp, .nil, by simp⟩
  | c :: cs, h, n, tr, hb, ht, ho => by
      simp only [Bud.oldsL, List.mem_append] at ho
      obtain ⟨g, h1, h2, h3⟩ := grow_spec c h n tr hb ht (fun o h => ho o (.inl h))
      have hold : ∀ z, z < n → (grow c h n).1.Denotes z (tr z) := fun z hz => g.denotes hb _ _ hz (ht z hz)
      obtain ⟨ta, hta⟩ : ∃ tr' : Nat → Tree L, (∀ z, z < (grow c h n).2.1 → (grow c h n).1.Denotes z (tr' z)) ∧
          ∀ z, z < n → tr' z = tr z := by
        have hac : ∀ z, z < (grow c h n).2.1 → ∃ t, (grow c h n).1.Denotes z t := by
          intro z
          induction z using Nat.strongRecOn with
          | _ z ih =>
            intro hz
            by_cases hzn : z < n
            · exact ⟨_, hold z hzn⟩
            have : ∀ cs' : List Nat, (∀ c' ∈ cs', c' ∈ (grow c h n).1.kids z) → ∃ ts, List.Forall₂ (grow c h n).1.Denotes cs' ts := by
              intro cs' hcs
              induction cs' with
              | nil => exact ⟨[], .nil⟩
              | cons d ds ihd =>
                obtain ⟨ts, hts⟩ := ihd (fun c' h => hcs c' (List.mem_cons_of_mem _ h))
                have hd := hcs d List.mem_cons_self
                rcases g.fresh z (by omega) d hd with ⟨_, hlt⟩ | ho'
                · obtain ⟨t, ht'⟩ := ih d hlt (by omega)
                  exact ⟨t :: ts, .cons ht' hts⟩
                · exact ⟨_ :: ts, .cons (hold d (ho d (.inl ho'))) hts⟩
            obtain ⟨ts, hts⟩ := this _ (fun _ h => h)
            exact ⟨.node _ ts, denotes_node.2 ⟨rfl, hts⟩⟩
        classical
        refine ⟨fun z => if hz : z < (grow c h n).2.1 ∧ ¬ z < n then (hac z hz.1).choose else tr z, ?_, ?_⟩
        · intro z hz
          by_cases hzn : z < n
          · simp only [hzn, not_true, and_false, dite_false]; exact hold z hzn
          · simp only [hz, hzn, not_false_eq_true, and_self, dite_true]; exact (hac z hz).choose_spec
        · intro z hz; simp [hz]
      have ho2 : ∀ o ∈ Bud.oldsL cs, o < n := fun o h => ho o (.inr h)
      obtain ⟨g', h1', h2', h3'⟩ := growL_spec cs (grow c h n).1 (grow c h n).2.1 ta g.below hta.1
        (fun o h => lt_of_lt_of_le (ho2 o h) g.le)
      have hread : Bud.readL ta cs = Bud.readL tr cs := Bud.readL_congr cs fun o h => hta.2 o (ho2 o h)
      rw [hread] at h2'
      simp only [growL, Bud.oldsL, Bud.readL]
      refine ⟨(g.mono (by simp +contextual)).trans (g'.mono (by simp +contextual)), ?_, .cons ?_ h2', ?_⟩
      · intro x hx
        rcases List.mem_cons.1 hx with rfl | hx
        · exact lt_of_lt_of_le h1 g'.le
        · exact h1' x hx
      · exact g'.denotes g.below _ _ h1 h2
      · intro x hx
        rcases List.mem_cons.1 hx with rfl | hx
        · exact h3.imp id (List.mem_append_left _)
        · exact (h3' x hx).imp (fun h => le_trans g.le h) (List.mem_append_right _)
end

/-! ### Passes -/

/-- What a rule must satisfy: it refers only to nodes strictly below the visited one, and the
tree of the replacement is `S`-related to the tree of the visited node. -/
structure RuleOk (rule : Rule L) (S : Tree L → Tree L → Prop) : Prop where
  olds : ∀ {h x b}, rule h x = some (some b) → ∀ o ∈ b.olds, h.Under x o
  step : ∀ {h x b tr}, (∀ z, h.Denotes z (tr z)) → rule h x = some (some b) → S (tr x) (b.read tr)

/-- State of the heap during a pass. -/
structure PassInv (S : Tree L → Tree L → Prop) (h0 : Heap L) (n0 : Nat) (h : Heap L) (n : Nat) : Prop where
  le : n0 ≤ n
  below : h.Below n
  acyclic : h.Acyclic
  lab : ∀ z, z < n0 → h.lab z = h0.lab z
  cong : ∀ z, z < n0 → ∀ t, h0.Denotes z t → ∃ t', h.Denotes z t' ∧ Cong S t t'

theorem PassInv.refl {S : Tree L → Tree L → Prop} {h : Heap L} {n : Nat} (hb : h.Below n) (ha : h.Acyclic) :
    PassInv S h n h n :=
  ⟨le_refl _, hb, ha, fun _ _ => rfl, fun _ _ t ht => ⟨t, ht, .refl t⟩⟩

theorem PassInv.trans {S : Tree L → Tree L → Prop} {h h1 h2 : Heap L} {n n1 n2 : Nat} (a : PassInv S h n h1 n1)
    (b : PassInv S h1 n1 h2 n2) : PassInv S h n h2 n2 where
  le := le_trans a.le b.le
  below := b.below
  acyclic := b.acyclic
  lab z hz := by rw [b.lab z (lt_of_lt_of_le hz a.le), a.lab z hz]
  cong z hz t ht := by
    obtain ⟨t1, h1, c1⟩ := a.cong z hz t ht
    obtain ⟨t2, h2, c2⟩ := b.cong z (lt_of_lt_of_le hz a.le) t1 h1
    exact ⟨t2, h2, c1.trans c2⟩

theorem Under.lt {h : Heap L} {n x z : Nat} (hb : h.Below n) (hz : h.Under x z) : z < n := by
  obtain ⟨k, hk, hr⟩ := hz
  have : ∀ z, Reachable h [k] z → z < n := by
    intro z hz
    induction hz with
    | root h => rw [List.mem_singleton.1 h]; exact hb.kids _ _ hk
    | kid _ hc _ => exact hb.kids _ _ hc
  exact this z hr

theorem Grown.acyclic {h h' : Heap L} {n n' : Nat} {o : List Nat} (hb : h.Below n) (ha : h.Acyclic)
    (ho : ∀ x ∈ o, x < n) (g : Grown h n o h' n') : h'.Acyclic := by
  intro z
  induction z using Nat.strongRecOn with
  | _ z ih =>
    by_cases hzn : z < n
    · obtain ⟨t, ht⟩ := ha z
      exact ⟨t, g.denotes hb t z hzn ht⟩
    have : ∀ cs' : List Nat, (∀ c' ∈ cs', c' ∈ h'.kids z) → ∃ ts, List.Forall₂ h'.Denotes cs' ts := by
      intro cs' hcs
      induction cs' with
      | nil => exact ⟨[], .nil⟩
      | cons d ds ihd =>
        obtain ⟨ts, hts⟩ := ihd (fun c' h => hcs c' (List.mem_cons_of_mem _ h))
        rcases g.fresh z (by omega) d (hcs d List.mem_cons_self) with ⟨_, hlt⟩ | ho'
        · obtain ⟨t, ht'⟩ := ih d hlt
          exact ⟨t :: ts, .cons ht' hts⟩
        · obtain ⟨t, ht⟩ := ha d
          exact ⟨t :: ts, .cons (g.denotes hb t d (ho d ho') ht) hts⟩
    obtain ⟨ts, hts⟩ := this _ (fun _ h => h)
    exact ⟨.node _ ts, denotes_node.2 ⟨rfl, hts⟩⟩

/-- Reaching down from a new node, one meets new nodes and nodes below the old ones. -/
theorem Grown.reach {h h' : Heap L} {n n' : Nat} {o : List Nat} (hb : h.Below n)
    (ho : ∀ x ∈ o, x < n) (g : Grown h n o h' n') {y : Nat} (hy : n ≤ y ∨ y ∈ o) {z : Nat} (hz : Reachable h' [y] z) :
    n ≤ z ∨ ∃ x ∈ o, Reachable h [x] z := by
  induction hz with
  | root hr =>
    rw [List.mem_singleton.1 hr]
    exact hy.imp id fun h => ⟨_, h, .self⟩
  | @kid p c _ hc ih =>
    rcases ih with hp | ⟨x, hx, hp⟩
    · rcases g.fresh p hp c hc with ⟨h1, _⟩ | h1
      · exact .inl h1
      · exact .inr ⟨c, h1, .self⟩
    · have hpn : p < n := by
        cases hp with
        | root hr => rw [List.mem_singleton.1 hr]; exact ho x hx
        | kid _ hc' => exact hb.kids _ _ hc'
      rw [g.kids p hpn] at hc
      exact .inr ⟨x, hx, .kid hp hc⟩

/-- One visit. -/
theorem ruleVisit_ok {S : Tree L → Tree L → Prop} {rule : Rule L} (hR : RuleOk rule S) {h h' : Heap L} {n n' x : Nat}
    (hb : h.Below n) (ha : h.Acyclic) (hx : x < n) (hv : ruleVisit rule h n x = some (h', n')) :
    PassInv S h n h' n' := by
  unfold ruleVisit at hv
  split at hv
  · cases hv
  · cases hv; exact .refl hb ha
  · rename_i b hrule
    cases hv
    obtain ⟨tr, ht, _⟩ := ha.rank
    have hu := hR.olds hrule
    have hlt : ∀ o ∈ b.olds, o < n := fun o ho => (hu o ho).lt hb
    obtain ⟨g, h1, h2, h3⟩ := grow_spec b h n tr hb (fun z _ => ht z) hlt
    have hS := hR.step ht hrule
    have hga := g.acyclic hb ha hlt
    have hnr : ¬ Reachable (grow b h n).1 [(grow b h n).2.2] x := by
      intro hr
      rcases g.reach hb hlt h3 hr with hx' | ⟨o, ho, hr'⟩
      · omega
      · exact (hu o ho).irrefl ha hr'
    have hrc := replace_cong (g.denotes hb _ _ hx (ht x)) h2 (.step hS) hnr
    refine ⟨g.le, ⟨?_, ?_⟩, ?_, ?_, ?_⟩
    · intro p c hc
      rcases mem_replace_kids hc with hc | ⟨rfl, _⟩
      · exact g.below.kids p c hc
      · exact h1
    · intro p hp
      have := replace_kids_length (grow b h n).1 x (grow b h n).2.2 p
      rw [g.below.none p hp] at this
      exact List.length_eq_zero_iff.1 this
    · intro z
      obtain ⟨t, ht⟩ := hga z
      obtain ⟨t', ht', _⟩ := hrc t z ht
      exact ⟨t', ht'⟩
    · intro z hz; rw [replace_lab, g.lab z hz]
    · intro z hz t hd
      exact hrc t z (g.denotes hb t z hz hd)

/-- A postorder pass. -/
theorem postRule_ok {S : Tree L → Tree L → Prop} {rule : Rule L} (hR : RuleOk rule S) {fuel root n n' : Nat} {h h' : Heap L}
    (hb : h.Below n) (ha : h.Acyclic) (hr : root < n) (hp : postRule rule fuel root (h, n) = some (h', n')) :
    PassInv S h n h' n' := by
  simp only [postRule, Option.map_eq_some_iff, Prod.mk.injEq] at hp
  obtain ⟨w', hw, rfl, rfl⟩ := hp
  refine (walk_inv (I := fun w => PassInv S h n w.heap w.acc ∧ ∀ b x, (b, x) ∈ w.stack → x < w.acc) ?_ fuel _ _ ?_ hw).1.1
  · rintro w w' ⟨hi, hs⟩ hne hst
    rcases walkStep_cases hne hst with ⟨x, st, hstk, hvis, rfl⟩ | ⟨x, st, hstk, hvis, rfl⟩ |
      ⟨x, st, h1, a1, hstk, hvis, rfl⟩
    · exact ⟨hi, fun b y hy => hs b y (by rw [hstk]; exact List.mem_cons_of_mem _ hy)⟩
    · refine ⟨hi, fun b y hy => ?_⟩
      simp only [List.mem_append, List.mem_map, Prod.mk.injEq, List.mem_cons] at hy
      rcases hy with ⟨c, hc, _, rfl⟩ | ⟨_, rfl⟩ | hy
      · exact hi.below.kids _ _ hc
      · exact hs false _ (by rw [hstk]; exact List.mem_cons_self)
      · exact hs b y (by rw [hstk]; exact List.mem_cons_of_mem _ hy)
    · have hv := ruleVisit_ok hR hi.below hi.acyclic (hs true x (by rw [hstk]; exact List.mem_cons_self)) hvis
      exact ⟨hi.trans hv, fun b y hy => lt_of_lt_of_le (hs b y (by rw [hstk]; exact List.mem_cons_of_mem _ hy)) hv.le⟩
  · refine ⟨.refl hb ha, ?_⟩
    intro b x hx
    simp only [start, List.map_cons, List.map_nil, List.reverse_cons, List.reverse_nil, List.nil_append,
      List.mem_singleton, Prod.mk.injEq] at hx
    show x < n
    rw [hx.2]; exact hr

theorem postPass_ok {S : Tree L → Tree L → Prop} {rule : Rule L} (hR : RuleOk rule S) {fuel ft pt n n' : Nat} {h h' : Heap L}
    (hb : h.Below n) (ha : h.Acyclic) (hf : ft < n) (hpt : pt < n) (hp : postPass rule fuel ft pt (h, n) = some (h', n')) :
    PassInv S h n h' n' := by
  simp only [postPass, Option.bind_eq_some_iff] at hp
  obtain ⟨⟨h1, n1⟩, hp1, hp2⟩ := hp
  have a := postRule_ok hR hb ha hf hp1
  exact a.trans (postRule_ok hR a.below a.acyclic (lt_of_lt_of_le hpt a.le) hp2)

/-- A preorder pass. -/
theorem preRule_ok {S : Tree L → Tree L → Prop} {rule : Rule L} (hR : RuleOk rule S) {fuel root : Nat} {w w' : PreState L}
    (hb : w.heap.Below w.next) (ha : w.heap.Acyclic) (hr : root < w.next) (hp : preRule rule fuel root w = some w') :
    PassInv S w.heap w.next w'.heap w'.next := by
  unfold preRule at hp
  have key : ∀ (fuel : Nat) (v v' : PreState L), PassInv S w.heap w.next v.heap v.next → (∀ x ∈ v.stack, x < v.next) →
      preWalk rule fuel v = some v' → PassInv S w.heap w.next v'.heap v'.next := by
    intro fuel
    induction fuel with
    | zero => intro v v' _ _ h; simp [preWalk] at h
    | succ fuel ih =>
      intro v v' hi hs h
      simp only [preWalk] at h
      split at h
      · cases h; exact hi
      · split at h
        · cases h
        · rename_i v1 h1
          suffices hh : PassInv S w.heap w.next v1.heap v1.next ∧ ∀ x ∈ v1.stack, x < v1.next from ih v1 v' hh.1 hh.2 h
          unfold preStep at h1
          split at h1
          · cases h1; exact ⟨hi, hs⟩
          · rename_i x st hstk
            have hx : x < v.next := hs x (by rw [hstk]; exact List.mem_cons_self)
            have hst : ∀ y ∈ st, y < v.next := fun y hy => hs y (by rw [hstk]; exact List.mem_cons_of_mem _ hy)
            split at h1
            · cases h1; exact ⟨hi, hst⟩
            · split at h1
              · cases h1
              · rename_i o hrule
                cases o with
                | none =>
                  cases h1
                  refine ⟨hi, fun y hy => ?_⟩
                  rcases List.mem_append.1 hy with hy | hy
                  · exact hi.below.kids _ _ hy
                  · exact hst y hy
                | some b =>
                  cases h1
                  have hv : ruleVisit rule v.heap v.next x = some ((grow b v.heap v.next).1.replace x (grow b v.heap v.next).2.2,
                      (grow b v.heap v.next).2.1) := by
                    unfold ruleVisit; rw [hrule]
                  have hv' := ruleVisit_ok hR hi.below hi.acyclic hx hv
                  refine ⟨hi.trans hv', fun y hy => ?_⟩
                  rcases List.mem_append.1 hy with hy | hy
                  · exact hv'.below.kids _ _ hy
                  · exact lt_of_lt_of_le (hst y hy) hv'.le
  exact key fuel ⟨[root], [], w.repl, w.heap, w.next⟩ _ (.refl hb ha) (by simpa using hr) hp

theorem prePass_ok {S : Tree L → Tree L → Prop} {rule : Rule L} (hR : RuleOk rule S) {fuel ft pt n n' : Nat} {h h' : Heap L}
    (hb : h.Below n) (ha : h.Acyclic) (hf : ft < n) (hpt : pt < n) (hp : prePass rule fuel ft pt (h, n) = some (h', n')) :
    PassInv S h n h' n' := by
  simp only [prePass, Option.map_eq_some_iff, Option.bind_eq_some_iff, Prod.mk.injEq] at hp
  obtain ⟨w2, ⟨w1, h1, h2⟩, rfl, rfl⟩ := hp
  have a := preRule_ok hR (w := ⟨[], [], [], h, n⟩) hb ha hf h1
  exact a.trans (preRule_ok hR a.below a.acyclic (lt_of_lt_of_le hpt a.le) h2)

end Heap
end R2U2
