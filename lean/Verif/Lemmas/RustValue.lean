import Verif.Spec.RustValue
import Verif.Lemmas.RustBz
/-
Numbers for the C booleanizer with which it computes what the Rust one does.
-/
namespace R2U2
namespace Rs
variable {F : Type}

/-- A number, or one of the terms the C monitor forms in its comparisons. -/
inductive Num (F : Type) where
  | num (a : F)
  | eps
  | zero
  | minusOne
  /-- the number less the tolerance -/
  | low (a : F)
  /-- the number and the tolerance -/
  | high (a : F)

def Num.val (ops : Ops F) : Num F → F
  | .num a => a
  | .minusOne => ops.minusOne
  | .eps => ops.eps
  | _ => ops.zero

/-- The operations. -/
def Ops.asC (ops : Ops F) : FloatOps (Num F) where
  ofBits n := .num (ops.ofBits n)
  lt
    | .num a, .num b => Rs.flt ops a b
    | .num a, .zero => ops.lt a ops.zero
    | .num a, .eps => ops.le (Rs.fabs ops a) ops.eps
    | .low b, .num a => Rs.fgte ops a b
    | .num a, .high b => Rs.flte ops a b
    | _, _ => false
  neg a := .num (ops.neg (a.val ops))
  add
    | .num a, .eps => .high a
    | a, b => .num (ops.add (a.val ops) (b.val ops))
  sub
    | .num a, .eps => .low a
    | a, b => .num (ops.sub (a.val ops) (b.val ops))
  mul a b := .num (ops.mul (a.val ops) (b.val ops))
  div a b := .num (ops.div (a.val ops) (b.val ops))
  pow a b := .num (ops.pow (a.val ops) (b.val ops))
  sqrt a := .num (ops.sqrt (a.val ops))
  zero := .zero
  minusOne := .minusOne
  eps := .eps
  ipow a b := if 0 ≤ b ∧ b < 2 ^ 31 then int32 (a ^ b.toNat) else none
  isqrt a := some (Nat.sqrt a.toNat)

def notFneq : BzOp → Bool
  | .fneq => false
  | _ => true

theorem feq_comm {ops : Ops F} (hs : Symmetric ops) (a b : F) : Rs.feq ops a b = Rs.feq ops b a := (hs a b).1
theorem fneq_comm {ops : Ops F} (hs : Symmetric ops) (a b : F) : Rs.fneq ops a b = Rs.fneq ops b a := (hs a b).2

theorem asC_feq {ops : Ops F} (hs : Symmetric ops) (a b : F) : R2U2.BzMon.feq ops.asC (.num a) (.num b) = Rs.feq ops a b := by
  have h1 : ops.asC.lt (ops.asC.sub (.num a) (.num b)) ops.asC.eps = Rs.feq ops a b := rfl
  have h2 : ops.asC.lt (ops.asC.sub (.num b) (.num a)) ops.asC.eps = Rs.feq ops b a := rfl
  unfold R2U2.BzMon.feq
  rw [h1, h2, feq_comm hs b a]
  split <;> rfl

theorem asC_like {ops : Ops F} (hs : Symmetric ops) : LikeC Num.num ops.asC ops notFneq where
  ofBits _ := rfl
  neg _ := rfl
  sqrt _ := rfl
  abs a := by
    show (if ops.lt a ops.zero = true then Num.num (ops.mul ops.minusOne a) else .num a) = .num (fabs ops a)
    unfold fabs
    split <;> rfl
  add _ _ := rfl
  sub _ _ := rfl
  mul _ _ := rfl
  div _ _ := rfl
  pow _ _ := rfl
  eq _ := asC_feq hs
  ne h := by cases h
  gt _ a b := by
    show Rs.flt ops b a = Rs.fgt ops a b
    unfold Rs.flt Rs.fgt
    rw [fneq_comm hs]
  ge _ _ _ := rfl
  lt _ _ _ := rfl
  le _ _ _ := rfl
  ipow _ a b v h := by
    simp only [Ops.asC] at h
    split at h
    · next hb =>
      unfold intPow
      rw [show b % 2 ^ 32 = b by omega, h]
    · cases h
  isqrt _ a v h := by
    cases h
    unfold intSqrt
    split
    · next ha => rw [show a.toNat = 0 by omega]; rfl
    · rfl

/-- A cell with its float written as C's. -/
def lift : Cell F → Cell (Num F)
  | .int v => .int v
  | .flt a => .flt (.num a)

theorem int1_lift (ops : Ops F) (o : OpK) (a : Int) : o.int1 ops.asC a = o.rsInt1 ops a := by cases o <;> rfl
theorem int2_lift (ops : Ops F) (o : OpK) (a b : Int) : o.int2 ops.asC a b = o.rsInt2 ops a b := by cases o <;> rfl

theorem flt1_lift (ops : Ops F) (o : OpK) (a : F) : o.flt1 ops.asC (.num a) = (o.flt1 ops.toFloatOps a).map lift := by
  cases o <;> try rfl
  show some (Cell.flt (if ops.lt a ops.zero = true then Num.num (ops.mul ops.minusOne a) else .num a)) =
    some (lift (Cell.flt (if ops.lt a ops.zero = true then ops.mul ops.minusOne a else a)))
  split <;> rfl

theorem near_feq {G : Type} (c : FloatOps G) (a b : G) : Near c a b ↔ R2U2.BzMon.feq c a b = true := by
  unfold Near R2U2.BzMon.feq
  cases c.lt b a <;> simp

theorem flt2_lift {ops : Ops F} (hs : Symmetric ops) (o : OpK) (ho : o ≠ .ne) (a b : F) :
    o.flt2 ops.asC (.num a) (.num b) = (o.rsFlt2 ops a b).map lift := by
  have e : ∀ x : Bool, ∀ p : Prop, [Decidable p] → (x = true ↔ p) → (if x = true then (1 : Int) else 0) = if p then 1 else 0 := by
    intro x p _ h
    by_cases hp : p
    · rw [if_pos hp, if_pos (h.2 hp)]
    · rw [if_neg hp, if_neg (fun h' => hp (h.1 h'))]
  cases o
  case ne => exact absurd rfl ho
  case eq =>
    simp only [OpK.flt2, OpK.rsFlt2, Option.map_some, lift, near_feq, asC_feq hs]
    rfl
  case gt =>
    simp only [OpK.flt2, OpK.rsFlt2, Option.map_some, lift]
    congr 2
    refine e _ _ ?_
    show Rs.flt ops b a = true ↔ _
    unfold Rs.flt
    rw [fneq_comm hs b a, Bool.and_eq_true]
    rfl
  case ge =>
    simp only [OpK.flt2, OpK.rsFlt2, Option.map_some, lift]
    congr 2
    refine e _ _ ?_
    show Rs.fgte ops a b = true ↔ _
    unfold Rs.fgte
    rw [Bool.or_eq_true]
    rfl
  case lt =>
    simp only [OpK.flt2, OpK.rsFlt2, Option.map_some, lift]
    congr 2
    refine e _ _ ?_
    show Rs.flt ops a b = true ↔ _
    unfold Rs.flt
    rw [Bool.and_eq_true]
    rfl
  case le =>
    simp only [OpK.flt2, OpK.rsFlt2, Option.map_some, lift]
    congr 2
    refine e _ _ ?_
    show Rs.flte ops a b = true ↔ _
    unfold Rs.flte
    rw [Bool.or_eq_true]
    rfl
  all_goals rfl

end Rs
open Rs
variable {F : Type}

/-- What the Rust monitor computes is what the C monitor computes with such numbers. -/
theorem Ast.RsValue.lift {ops : Ops F} (hs : Symmetric ops) {ty : Ast → Bool} {bits : String → Nat} {σ : Nat → String → Cell F} {t : Nat} {e : Ast} {v : Cell F}
    (h : Ast.RsValue ops ty bits σ t e v) : (∀ ts, Tree.Within (.node (.op .ne) ts) e → ty (.node (.op .ne) ts) = true) →
    Ast.Value ops.asC ty bits (fun t s => Rs.lift (σ t s)) t e (Rs.lift v) := by
  induction h with
  | sigI h1 h2 => intro _; exact .sigI h1 (by rw [h2]; rfl)
  | sigF h1 h2 => intro _; exact .sigF h1 (by rw [h2]; rfl)
  | int => intro _; exact .int
  | float => intro _; exact .float
  | int1 h1 _ h3 ih =>
    intro hn
    exact .int1 h1 (ih fun ts hw => hn ts (.kid (by simp) hw)) ((int1_lift ops _ _).trans h3)
  | int2 h1 _ _ h4 ih1 ih2 =>
    intro hn
    exact .int2 h1 (ih1 fun ts hw => hn ts (.kid (by simp) hw)) (ih2 fun ts hw => hn ts (.kid (by simp) hw)) ((int2_lift ops _ _ _).trans h4)
  | flt1 h1 _ h3 ih =>
    intro hn
    exact .flt1 h1 (ih fun ts hw => hn ts (.kid (by simp) hw)) (by rw [flt1_lift, h3]; rfl)
  | flt2 h1 _ _ h4 ih1 ih2 =>
    intro hn
    refine .flt2 h1 (ih1 fun ts hw => hn ts (.kid (by simp) hw)) (ih2 fun ts hw => hn ts (.kid (by simp) hw)) ?_
    rw [flt2_lift hs _ ?_, h4]
    · rfl
    · rintro rfl
      have := hn _ .self
      rw [h1] at this
      cases this
  | first _ ih => intro hn; exact .first (ih fun ts hw => hn ts (.kid (by simp) hw))
  | next _ ih => intro hn; exact .next (ih fun ts hw => hn ts (.kid (by simp) hw))

/-- An expression has one value. -/
theorem Ast.Value.unique {G : Type} {c : FloatOps G} {ty : Ast → Bool} {bits : String → Nat} {σ : Nat → String → Cell G} {t : Nat} {e : Ast} {v : Cell G}
    (h : Ast.Value c ty bits σ t e v) : ∀ w, Ast.Value c ty bits σ t e w → w = v := by
  induction h with
  | sigI h1 h2 =>
    intro w hw
    cases hw with
    | sigI _ h => rw [h2] at h; cases h; rfl
    | sigF h _ => rw [h1] at h; cases h
  | sigF h1 h2 =>
    intro w hw
    cases hw with
    | sigF _ h => rw [h2] at h; cases h; rfl
    | sigI h _ => rw [h1] at h; cases h
  | int => intro w hw; cases hw; rfl
  | float => intro w hw; cases hw; rfl
  | int1 h1 _ h3 ih =>
    intro w hw
    cases hw with
    | int1 _ g2 g3 => cases ih _ g2; rw [h3] at g3; cases g3; rfl
    | flt1 g1 _ _ => rw [h1] at g1; cases g1
  | int2 h1 _ _ h4 ih1 ih2 =>
    intro w hw
    cases hw with
    | int2 _ g2 g3 g4 => cases ih1 _ g2; cases ih2 _ g3; rw [h4] at g4; cases g4; rfl
    | flt2 g1 _ _ _ => rw [h1] at g1; cases g1
    | first _ => cases h4
    | next _ => cases h4
  | flt1 h1 _ h3 ih =>
    intro w hw
    cases hw with
    | flt1 _ g2 g3 => cases ih _ g2; rw [h3] at g3; cases g3; rfl
    | int1 g1 _ _ => rw [h1] at g1; cases g1
  | flt2 h1 _ _ h4 ih1 ih2 =>
    intro w hw
    cases hw with
    | flt2 _ g2 g3 g4 => cases ih1 _ g2; cases ih2 _ g3; rw [h4] at g4; cases g4; rfl
    | int2 g1 _ _ _ => rw [h1] at g1; cases g1
    | first _ => cases h4
    | next _ => cases h4
  | first _ ih =>
    intro w hw
    cases hw with
    | int2 _ _ _ g4 => cases g4
    | flt2 _ _ _ g4 => cases g4
    | first g => exact ih w g
  | next _ ih =>
    intro w hw
    cases hw with
    | int2 _ _ _ g4 => cases g4
    | flt2 _ _ _ g4 => cases g4
    | next g => exact ih w g

theorem Rs.lift_inj {u v : Cell F} (h : Rs.lift u = Rs.lift v) : u = v := by
  cases u <;> cases v <;> cases h <;> rfl

theorem Ast.RsValue.unique {ops : Ops F} (hs : Symmetric ops) {ty : Ast → Bool} {bits : String → Nat} {σ : Nat → String → Cell F} {t : Nat} {e : Ast}
    {v w : Cell F} (hn : ∀ ts, Tree.Within (.node (.op .ne) ts) e → ty (.node (.op .ne) ts) = true)
    (h : Ast.RsValue ops ty bits σ t e v) (h' : Ast.RsValue ops ty bits σ t e w) : w = v :=
  Rs.lift_inj ((h.lift hs hn).unique _ (h'.lift hs hn))

end R2U2
