import Verif.Lemmas.Pipeline
import Verif.Spec.Compile
/-
The passes do not make the future-time and the past-time specifications share nodes.
-/
namespace R2U2
open Heap GraphPass
variable {L : Type}

namespace Heap

/-- Two parts of the graph with no edge out of them and no common node. -/
structure Zones (h : Heap L) (n : Nat) (A B : Nat → Prop) : Prop where
  disj : ∀ x, A x → ¬ B x
  closedA : ∀ p c, A p → c ∈ h.kids p → A c
  closedB : ∀ p c, B p → c ∈ h.kids p → B c
  ltA : ∀ x, A x → x < n
  ltB : ∀ x, B x → x < n

theorem Zones.symm {h : Heap L} {n : Nat} {A B : Nat → Prop} (z : Zones h n A B) : Zones h n B A :=
  ⟨fun x hb ha => z.disj x ha hb, z.closedB, z.closedA, z.ltB, z.ltA⟩

theorem closed_reach {h : Heap L} {A : Nat → Prop} (hA : ∀ p c, A p → c ∈ h.kids p → A c) {x z : Nat} (hx : A x)
    (hz : Reachable h [x] z) : A z := by
  induction hz with
  | root h => rw [List.mem_singleton.1 h]; exact hx
  | kid _ hc ih => exact hA _ _ ih hc

theorem Zones.replace {h : Heap L} {n x y : Nat} {A B : Nat → Prop} (z : Zones h n A B) (hx : A x) (hy : A y) :
    Zones (h.replace x y) n A B where
  disj := z.disj
  closedA p c hp hc := by
    rcases mem_replace_kids hc with h1 | ⟨rfl, _⟩
    · exact z.closedA p c hp h1
    · exact hy
  closedB p c hp hc := by
    rcases mem_replace_kids hc with h1 | ⟨_, h2⟩
    · exact z.closedB p c hp h1
    · exact absurd (z.closedB p x hp h2) (z.disj x hx)
  ltA := z.ltA
  ltB := z.ltB

theorem Grown.zones {h h' : Heap L} {n n' : Nat} {o : List Nat} {A B : Nat → Prop} (g : Grown h n o h' n') (z : Zones h n A B)
    (ho : ∀ x ∈ o, A x) : Zones h' n' (fun x => A x ∨ (n ≤ x ∧ x < n')) B where
  disj x ha hb := by
    rcases ha with ha | ha
    · exact z.disj x ha hb
    · have := z.ltB x hb; omega
  closedA p c hp hc := by
    rcases hp with hp | hp
    · rw [g.kids p (z.ltA p hp)] at hc; exact .inl (z.closedA p c hp hc)
    · rcases g.fresh p hp.1 c hc with h1 | h1
      · exact .inr ⟨h1.1, g.below.kids p c hc⟩
      · exact .inl (ho c h1)
  closedB p c hp hc := by
    rw [g.kids p (z.ltB p hp)] at hc; exact z.closedB p c hp hc
  ltA x hx := by
    rcases hx with hx | hx
    · exact lt_of_lt_of_le (z.ltA x hx) g.le
    · exact hx.2
  ltB x hx := lt_of_lt_of_le (z.ltB x hx) g.le

theorem ruleVisit_zones {S : Tree L → Tree L → Prop} {rule : Rule L} (hR : RuleOk rule S) {h h' : Heap L} {n n' x : Nat}
    {A B : Nat → Prop} (hb : h.Below n) (ha : h.Acyclic) (z : Zones h n A B) (hx : A x)
    (hv : ruleVisit rule h n x = some (h', n')) : ∃ A', (∀ x, A x → A' x) ∧ Zones h' n' A' B := by
  unfold ruleVisit at hv
  split at hv
  · cases hv
  · cases hv; exact ⟨A, fun _ h => h, z⟩
  · rename_i b hrule
    cases hv
    obtain ⟨tr, ht, _⟩ := ha.rank
    have hu := hR.olds hrule
    have hlt : ∀ o ∈ b.olds, o < n := fun o ho => (hu o ho).lt hb
    have hoA : ∀ o ∈ b.olds, A o := by
      intro o ho
      obtain ⟨k, hk, hr⟩ := hu o ho
      exact closed_reach z.closedA (z.closedA x k hx hk) hr
    obtain ⟨g, h1, _, h3⟩ := grow_spec b h n tr hb (fun z _ => ht z) hlt
    refine ⟨_, fun _ h => .inl h, (g.zones z hoA).replace (.inl hx) ?_⟩
    rcases h3 with h3 | h3
    · exact .inr ⟨h3, h1⟩
    · exact .inl (hoA _ h3)

theorem postRule_zones {S : Tree L → Tree L → Prop} {rule : Rule L} (hR : RuleOk rule S) {fuel root n n' : Nat} {h h' : Heap L}
    {A B : Nat → Prop} (hb : h.Below n) (ha : h.Acyclic) (z : Zones h n A B) (hr : A root)
    (hp : postRule rule fuel root (h, n) = some (h', n')) : ∃ A', (∀ x, A x → A' x) ∧ Zones h' n' A' B := by
  simp only [postRule, Option.map_eq_some_iff, Prod.mk.injEq] at hp
  obtain ⟨w', hw, rfl, rfl⟩ := hp
  obtain ⟨⟨_, A', h1, h2, _⟩, _⟩ := walk_inv (I := fun w => PassInv S h n w.heap w.acc ∧ ∃ A', (∀ x, A x → A' x) ∧
    Zones w.heap w.acc A' B ∧ ∀ b x, (b, x) ∈ w.stack → A' x) (by
      rintro w w' ⟨hi, A1, hA, z1, hs⟩ hne hst
      rcases walkStep_cases hne hst with ⟨x, st, hstk, hvis, rfl⟩ | ⟨x, st, hstk, hvis, rfl⟩ |
        ⟨x, st, h1, a1, hstk, hvis, rfl⟩
      · exact ⟨hi, A1, hA, z1, fun b y hy => hs b y (by rw [hstk]; exact List.mem_cons_of_mem _ hy)⟩
      · refine ⟨hi, A1, hA, z1, fun b y hy => ?_⟩
        have hx : A1 x := hs false x (by rw [hstk]; exact List.mem_cons_self)
        simp only [List.mem_append, List.mem_map, Prod.mk.injEq, List.mem_cons] at hy
        rcases hy with ⟨c, hc, _, rfl⟩ | ⟨_, rfl⟩ | hy
        · exact z1.closedA _ _ hx hc
        · exact hx
        · exact hs b y (by rw [hstk]; exact List.mem_cons_of_mem _ hy)
      · have hx : A1 x := hs true x (by rw [hstk]; exact List.mem_cons_self)
        have hi' := ruleVisit_ok hR hi.below hi.acyclic (z1.ltA x hx) hvis
        obtain ⟨A2, hA2, z2⟩ := ruleVisit_zones hR hi.below hi.acyclic z1 hx hvis
        exact ⟨hi.trans hi', A2, fun y hy => hA2 y (hA y hy), z2,
          fun b y hy => hA2 y (hs b y (by rw [hstk]; exact List.mem_cons_of_mem _ hy))⟩)
    fuel _ _ ⟨.refl hb ha, A, fun _ h => h, z, by
      intro b x hx
      simp only [Heap.start, List.map_cons, List.map_nil, List.reverse_singleton, List.mem_singleton, Prod.mk.injEq] at hx
      rw [hx.2]; exact hr⟩ hw
  exact ⟨A', h1, h2⟩

theorem Apart.zones {h : Heap L} {n a b : Nat} (hb : h.Below n) (ha : a < n) (hb' : b < n) (hx : Apart h a b) :
    Zones h n (fun x => Reachable h [a] x) (fun x => Reachable h [b] x) where
  disj := hx
  closedA _ _ hp hc := .kid hp hc
  closedB _ _ hp hc := .kid hp hc
  ltA _ := hb.reach ha
  ltB _ := hb.reach hb'

theorem Zones.apart {h : Heap L} {n a b : Nat} {A B : Nat → Prop} (z : Zones h n A B) (ha : A a) (hb : B b) : Apart h a b :=
  fun x h1 h2 => z.disj x (closed_reach z.closedA ha h1) (closed_reach z.closedB hb h2)

theorem postPass_apart {S : Tree L → Tree L → Prop} {rule : Rule L} (hR : RuleOk rule S) {fuel ft pt n n' : Nat} {h h' : Heap L}
    (hb : h.Below n) (ha : h.Acyclic) (hf : ft < n) (hp : pt < n) (hx : Apart h ft pt)
    (hc : postPass rule fuel ft pt (h, n) = some (h', n')) : Apart h' ft pt := by
  simp only [postPass, Option.bind_eq_some_iff, Prod.exists] at hc
  obtain ⟨h1, n1, e1, e2⟩ := hc
  have i1 := postRule_ok hR hb ha hf e1
  obtain ⟨A, hA, z1⟩ := postRule_zones hR hb ha (hx.zones hb hf hp) .self e1
  obtain ⟨B, hB, z2⟩ := postRule_zones hR i1.below i1.acyclic z1.symm .self e2
  exact z2.symm.apart (hA _ .self) (hB _ .self)

theorem cse_zones {κ : Type} [DecidableEq κ] {key : Tree L → κ} {h h' : Heap L} {n root fuel : Nat} {A B : Nat → Prop}
    (z : Zones h n A B) (hr : A root) (hc : cse key fuel h root = some h') : Zones h' n A B := by
  simp only [cse, Option.map_eq_some_iff] at hc
  obtain ⟨w', h1, rfl⟩ := hc
  have := walk_inv (I := fun w : Walk L (List (κ × Nat)) => Zones w.heap n A B ∧ (∀ e ∈ w.stack, A e.2) ∧ ∀ e ∈ w.acc, A e.2)
    (by
      rintro w w1 ⟨h2, h3, h4⟩ hne hst
      rcases walkStep_cases hne hst with ⟨x, st, hs, hv, rfl⟩ | ⟨x, st, hs, hv, rfl⟩ | ⟨x, st, h', a', hs, hv, rfl⟩
      · refine ⟨h2, fun e he => h3 e (by rw [hs]; exact List.mem_cons_of_mem _ he), h4⟩
      · have hx : A x := h3 (false, x) (by rw [hs]; exact List.mem_cons_self)
        refine ⟨h2, fun e he => ?_, h4⟩
        simp only [List.mem_append, List.mem_map, List.mem_cons] at he
        rcases he with ⟨c, hc, rfl⟩ | rfl | he
        · exact h2.closedA _ _ hx hc
        · exact hx
        · exact h3 _ (by rw [hs]; exact List.mem_cons_of_mem _ he)
      · have hst' : ∀ e ∈ st, A e.2 := fun e he => h3 e (by rw [hs]; exact List.mem_cons_of_mem _ he)
        have hx : A x := h3 (true, x) (by rw [hs]; exact List.mem_cons_self)
        unfold cseVisit at hv
        split at hv
        · cases hv
        · split at hv
          · rename_i y hy
            cases hv
            exact ⟨h2.replace hx (h4 _ (assoc_mem hy)), hst', h4⟩
          · cases hv
            refine ⟨h2, hst', fun e he => ?_⟩
            rcases List.mem_cons.1 he with rfl | he
            · exact hx
            · exact h4 e he) fuel _ w' (by
      refine ⟨z, ?_, by simp [Heap.start]⟩
      simp [Heap.start, hr]) h1
  exact this.1.1

theorem optimizeCse_apart {κ : Type} [DecidableEq κ] {key : Tree L → κ} {h h' : Heap L} {n ft pt fuel : Nat} (hb : h.Below n)
    (hf : ft < n) (hp : pt < n) (hx : Apart h ft pt) (hc : optimizeCse key fuel h ft pt = some h') : Apart h' ft pt := by
  simp only [optimizeCse, Option.bind_eq_some_iff] at hc
  obtain ⟨h1, e1, e2⟩ := hc
  have z1 := cse_zones (hx.zones hb hf hp) .self e1
  have z2 := cse_zones z1.symm .self e2
  exact z2.symm.apart .self .self

end Heap
end R2U2
