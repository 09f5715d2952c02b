import Verif.Model.Mltl
import Verif.Spec.Shapes
/-
What the round trip through the MLTL standard format is about.
-/
namespace R2U2

mutual
/-- The formula with its atoms renamed. -/
def Expr.rename {α β : Type} (f : α → β) : Expr α → Expr β
  | .const b => .const b
  | .atom a => .atom (f a)
  | .neg e => .neg (e.rename f)
  | .and cs => .and (Expr.renameL f cs)
  | .or cs => .or (Expr.renameL f cs)
  | .xor l r => .xor (l.rename f) (r.rename f)
  | .imp l r => .imp (l.rename f) (r.rename f)
  | .iff l r => .iff (l.rename f) (r.rename f)
  | .equal l r => .equal (l.rename f) (r.rename f)
  | .fut lb ub e => .fut lb ub (e.rename f)
  | .glob lb ub e => .glob lb ub (e.rename f)
  | .untl lb ub l r => .untl lb ub (l.rename f) (r.rename f)
  | .rel lb ub l r => .rel lb ub (l.rename f) (r.rename f)
  | .once lb ub e => .once lb ub (e.rename f)
  | .hist lb ub e => .hist lb ub (e.rename f)
  | .since lb ub l r => .since lb ub (l.rename f) (r.rename f)
  | .trig lb ub l r => .trig lb ub (l.rename f) (r.rename f)
def Expr.renameL {α β : Type} (f : α → β) : List (Expr α) → List (Expr β)
  | [] => []
  | c :: cs => c.rename f :: Expr.renameL f cs
end

/-- Operands grouped to the left, two at a time. -/
def leftmost {α : Type} (mk : List (Expr α) → Expr α) : List (Expr α) → Expr α
  | [] => mk []
  | [c] => mk [c]
  | c :: d :: cs => cs.foldl (fun a b => mk [a, b]) (mk [c, d])

mutual
/-- The formula with its conjunctions and disjunctions grouped to the left. -/
def Expr.leftNested {α : Type} : Expr α → Expr α
  | .const b => .const b
  | .atom a => .atom a
  | .neg e => .neg e.leftNested
  | .and cs => leftmost .and (Expr.leftNestedL cs)
  | .or cs => leftmost .or (Expr.leftNestedL cs)
  | .xor l r => .xor l.leftNested r.leftNested
  | .imp l r => .imp l.leftNested r.leftNested
  | .iff l r => .iff l.leftNested r.leftNested
  | .equal l r => .equal l.leftNested r.leftNested
  | .fut lb ub e => .fut lb ub e.leftNested
  | .glob lb ub e => .glob lb ub e.leftNested
  | .untl lb ub l r => .untl lb ub l.leftNested r.leftNested
  | .rel lb ub l r => .rel lb ub l.leftNested r.leftNested
  | .once lb ub e => .once lb ub e.leftNested
  | .hist lb ub e => .hist lb ub e.leftNested
  | .since lb ub l r => .since lb ub l.leftNested r.leftNested
  | .trig lb ub l r => .trig lb ub l.leftNested r.leftNested
def Expr.leftNestedL {α : Type} : List (Expr α) → List (Expr α)
  | [] => []
  | c :: cs => c.leftNested :: Expr.leftNestedL cs
end

namespace Mltl
variable {α : Type}

/-- What the format cannot express in a program of the given tense: exclusive or, `==` between formulas, conjunctions and
disjunctions of fewer than two, atoms without a number, operators of the other tense. -/
def Inexpressible (id : α → Option Nat) (past : Bool) : Expr α → Prop
  | .atom a => id a = none
  | .xor _ _ | .equal _ _ => True
  | .and cs | .or cs => cs.length < 2
  | .fut _ _ _ | .glob _ _ _ | .untl _ _ _ _ | .rel _ _ _ _ => past = true
  | .once _ _ _ | .hist _ _ _ | .since _ _ _ _ | .trig _ _ _ _ => past = false
  | _ => False

/-- The formula with the numbers of its atoms. -/
def numbered (id : α → Option Nat) (e : Expr α) : Expr Nat := e.rename fun a => (id a).getD 0

/-! ### What a text of the format means

The grammar, with the precedence table written as levels: implication and equivalence 1, disjunction 2, conjunction 3,
binary temporal operators 4, negation and unary temporal operators 5, leaves and brackets 6.  Binary operators associate to
the left: their left operand may be of the operator's own level, their right operand is of a higher one. -/

/-- A bound and its value: a numeral, or `M` for the mission time, if there is one. -/
inductive BoundIs (mission : Int) : Tok → Nat → Prop
  | num (n : Nat) : BoundIs mission (.num n) n
  | mission (n : Nat) (h : mission = n) : BoundIs mission .mission n

/-- `[b]` means from 0 to b, `[a,b]` from a to b. -/
inductive IntervalIs (mission : Int) : List Tok → Nat → Nat → Prop
  | upto {b : Tok} {ub : Nat} (h : BoundIs mission b ub) : IntervalIs mission [.lbrack, b, .rbrack] 0 ub
  | between {a b : Tok} {lb ub : Nat} (ha : BoundIs mission a lb) (hb : BoundIs mission b ub) :
      IntervalIs mission [.lbrack, a, .comma, b, .rbrack] lb ub

/-- `Reads mission past n ts e`: the tokens `ts` are an expression of level `n` or higher, and mean `e`, whose temporal operators
are all of the given tense. -/
inductive Reads (mission : Int) (past : Bool) : Nat → List Tok → Expr Nat → Prop
  | tru : Reads mission past 6 [.tru] (.const true)
  | fls : Reads mission past 6 [.fls] (.const false)
  | atomic (n : Nat) : Reads mission past 6 [.atomic n] (.atom n)
  | bracket {ts e} (h : Reads mission past 1 ts e) : Reads mission past 6 (.lparen :: (ts ++ [.rparen])) e
  | higher {n ts e} (h : Reads mission past (n + 1) ts e) : Reads mission past n ts e
  | neg {ts e} (h : Reads mission past 5 ts e) : Reads mission past 5 (.neg :: ts) (.neg e)
  | glob {is lb ub ts e} (p : past = false) (i : IntervalIs mission is lb ub) (h : Reads mission past 5 ts e) :
      Reads mission past 5 (.tl .G :: (is ++ ts)) (.glob lb ub e)
  | fut {is lb ub ts e} (p : past = false) (i : IntervalIs mission is lb ub) (h : Reads mission past 5 ts e) :
      Reads mission past 5 (.tl .F :: (is ++ ts)) (.fut lb ub e)
  | hist {is lb ub ts e} (p : past = true) (i : IntervalIs mission is lb ub) (h : Reads mission past 5 ts e) :
      Reads mission past 5 (.tl .H :: (is ++ ts)) (.hist lb ub e)
  | once {is lb ub ts e} (p : past = true) (i : IntervalIs mission is lb ub) (h : Reads mission past 5 ts e) :
      Reads mission past 5 (.tl .O :: (is ++ ts)) (.once lb ub e)
  | untl {ls l is lb ub rs r} (p : past = false) (hl : Reads mission past 4 ls l) (i : IntervalIs mission is lb ub)
      (hr : Reads mission past 5 rs r) : Reads mission past 4 (ls ++ .tl .U :: (is ++ rs)) (.untl lb ub l r)
  | rel {ls l is lb ub rs r} (p : past = false) (hl : Reads mission past 4 ls l) (i : IntervalIs mission is lb ub)
      (hr : Reads mission past 5 rs r) : Reads mission past 4 (ls ++ .tl .R :: (is ++ rs)) (.rel lb ub l r)
  | since {ls l is lb ub rs r} (p : past = true) (hl : Reads mission past 4 ls l) (i : IntervalIs mission is lb ub)
      (hr : Reads mission past 5 rs r) : Reads mission past 4 (ls ++ .tl .S :: (is ++ rs)) (.since lb ub l r)
  | trig {ls l is lb ub rs r} (p : past = true) (hl : Reads mission past 4 ls l) (i : IntervalIs mission is lb ub)
      (hr : Reads mission past 5 rs r) : Reads mission past 4 (ls ++ .tl .T :: (is ++ rs)) (.trig lb ub l r)
  | and {ls l rs r} (hl : Reads mission past 3 ls l) (hr : Reads mission past 4 rs r) :
      Reads mission past 3 (ls ++ .and :: rs) (.and [l, r])
  | or {ls l rs r} (hl : Reads mission past 2 ls l) (hr : Reads mission past 3 rs r) :
      Reads mission past 2 (ls ++ .or :: rs) (.or [l, r])
  | imp {ls l rs r} (hl : Reads mission past 1 ls l) (hr : Reads mission past 2 rs r) :
      Reads mission past 1 (ls ++ .imp :: rs) (.imp l r)
  | iff {ls l rs r} (hl : Reads mission past 1 ls l) (hr : Reads mission past 2 rs r) :
      Reads mission past 1 (ls ++ .iff :: rs) (.iff l r)

end Mltl
end R2U2
