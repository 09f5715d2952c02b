import Verif.Model.Unroll
/-
Model of the satisfiability and equivalence checks of `/repo/compiler/c2po/sat.py`: the three
SMT encodings (QF_BV, QF_UFLIA, UFLIA), `to_smt_equiv`, and the decisions of `check_equiv` and
`check_sat` from the solver's answers.

The encodings are lists of `define-fun` commands, one per sub-expression, each naming the ones
defined before it.  Here a use of a defined name is replaced by its definition (for the
functions of `k` and `len` by a `call`), which is what `define-fun` means.  Leaves are Boolean
signals (or `Atomic` wrappers of Boolean sub-expressions, kept opaque): integer arithmetic,
symbolic interval bounds, the mission time and the text of the commands are not modelled.
-/
namespace R2U2
variable {α : Type}

/-! ### QF_BV -/

/-- The bit-vector terms the encoding writes.  All have the sort `(_ BitVec w)` of
sat.py:182. -/
inductive BvTerm (α : Type) where
  /-- `(_ bvN w)` -/
  | lit (n : Nat)
  /-- `f_a`, a declared constant (sat.py:206-213) -/
  | var (a : α)
  | bvnot (t : BvTerm α)
  | bvand (t u : BvTerm α)
  | bvor (t u : BvTerm α)
  | bvxnor (t u : BvTerm α)
  | bvshl (t u : BvTerm α)

/-- The two assertions (sat.py:397-400). -/
inductive BvAssert (α : Type) where
  /-- `(= ((_ extract p p) t) (_ bv1 1))` -/
  | bit (t : BvTerm α) (p : Nat)
  /-- `(bvugt t (_ bv0 w))` -/
  | nonzero (t : BvTerm α)

/-- A QF_BV script: the width of its bit vectors and its assertion. -/
structure BvScript (α : Type) where
  width : Nat
  assertion : BvAssert α

namespace Smt
open Expr Unroll

/-- `to_bv` (sat.py:188-190). -/
def toBv (w value : Nat) : BvTerm α := .lit (min value (2 ^ w - 1))

/-- `ones` (sat.py:192-194). -/
def ones (w : Nat) : BvTerm α := .lit (2 ^ w - 1)

/-- `zeros` (sat.py:196-198). -/
def zeros : BvTerm α := .lit 0

/-- `op = (f c0 c1); for child in children[2:]: op = (f op child)` (sat.py:249-252,
254-257); with fewer than two children `children[1]` raises. -/
def foldOp (f : BvTerm α → BvTerm α → BvTerm α) : List (BvTerm α) → Option (BvTerm α)
  | c0 :: c1 :: cs => some (cs.foldl f (f c0 c1))
  | _ => none

/-- G (sat.py:262-299).  `int(math.log2(ub+1))` is taken to be the exact integer logarithm. -/
def bvGlob (w lb ub : Nat) (c : BvTerm α) : BvTerm α :=
  let shifted (cur : BvTerm α) (amt : Nat) : BvTerm α :=
    .bvor (.bvshl cur (toBv w amt)) (toBv w (2 ^ amt - 1))
  if ub = 0 then c                                              -- 269-274
  else
    let start := if lb > 0 then shifted c lb else c             -- 275-282
    let ub := if lb > 0 then ub - lb else ub                    -- 283
    (List.range (Nat.log2 (ub + 1))).foldl                      -- 285-295
      (fun cur j => .bvand (shifted cur (2 ^ j)) cur) start

/-- F (sat.py:300-333). -/
def bvFut (w lb ub : Nat) (c : BvTerm α) : BvTerm α :=
  if ub = 0 then c                                              -- 307-311
  else
    let start := if lb > 0 then .bvshl c (toBv w lb) else c     -- 312-317
    let ub := if lb > 0 then ub - lb else ub                    -- 318
    (List.range (Nat.log2 (ub + 1))).foldl                      -- 320-329
      (fun cur j => .bvor (.bvshl cur (toBv w (2 ^ j))) cur) start

/-- U (sat.py:334-388): the pair is (`L`, `R`). -/
def bvUntl (w lb ub : Nat) (l r : BvTerm α) : BvTerm α :=
  if ub = 0 then r                                              -- 343-347
  else
    let start := if lb > 0 then (BvTerm.bvshl l (toBv w lb), BvTerm.bvshl r (toBv w lb))
      else (l, r)                                               -- 348-356
    let ub := if lb > 0 then ub - lb else ub                    -- 357
    ((List.range (Nat.log2 (ub + 1))).foldl                     -- 359-384
      (fun (L, R) k =>
        (.bvand (.bvshl L (toBv w (2 ^ k))) L,
         .bvor (.bvand (.bvshl R (toBv w (2 ^ k))) L) R)) start).2

mutual
/-- The loop of `to_qf_bv_smtlib2` (sat.py:218-395).  `none`: an unsupported expression
(389-392) or an exception. -/
def encBv (w : Nat) : Expr α → Option (BvTerm α)
  | .const true => some (ones w)                                -- 238-239
  | .const false => some zeros                                  -- 240-241
  | .atom a => some (.var a)                                    -- 242-243, 223-225
  | .neg e => do pure (.bvnot (← encBv w e))                    -- 244-247
  | .and cs => do foldOp .bvand (← encBvL w cs)                 -- 248-252
  | .or cs => do foldOp .bvor (← encBvL w cs)                   -- 253-257
  | .iff l r => do pure (.bvxnor (← encBv w l) (← encBv w r))   -- 258-261
  | .glob lb ub e => do pure (bvGlob w lb ub (← encBv w e))
  | .fut lb ub e => do pure (bvFut w lb ub (← encBv w e))
  | .untl lb ub l r => do pure (bvUntl w lb ub (← encBv w l) (← encBv w r))
  | _ => none
def encBvL (w : Nat) : List (Expr α) → Option (List (BvTerm α))
  | [] => some []
  | c :: cs => do pure ((← encBv w c) :: (← encBvL w cs))
end

/-- `to_qf_bv_smtlib2` (sat.py:171-406), without symbolic bounds and constraints. -/
def toQfBv (e : Expr α) (strict : Bool) : Option (BvScript α) := do
  let w := (e.wpd + 1).toNat                                    -- 181
  let t ← encBv w (decompose e)                                 -- 216-395
  pure { width := w, assertion := if strict then .nonzero t else .bit t e.wpd.toNat }

end Smt

/-! ### QF_UFLIA and UFLIA -/

/-- The integer terms of the two encodings. -/
inductive IntTerm where
  | k | len | i | j
  | num (n : Nat)
  | add (s t : IntTerm)

/-- A quantified variable. -/
inductive QVar where
  | i | j

/-- The Boolean terms of the two encodings. -/
inductive LiaTerm (α : Type) where
  | bool (b : Bool)
  /-- `(f_a t)` for a declared function `f_a : Int → Bool` -/
  | sig (a : α) (t : IntTerm)
  | gt (s t : IntTerm)
  | le (s t : IntTerm)
  | lt (s t : IntTerm)
  | not (t : LiaTerm α)
  | and (ts : List (LiaTerm α))
  | or (ts : List (LiaTerm α))
  | imp (s t : LiaTerm α)
  | eq (s t : LiaTerm α)
  | all (x : QVar) (t : LiaTerm α)
  | ex (x : QVar) (t : LiaTerm α)
  /-- `(f t len)` where `f` was defined by `(define-fun f ((k Int) (len Int)) Bool body)` -/
  | call (body : LiaTerm α) (t : IntTerm)

/-- A script `(assert (f 0 len))`: the body of `f` and the value of `len`, `none` when `len`
is a declared constant the solver may choose. -/
structure LiaScript (α : Type) where
  body : LiaTerm α
  len : Option Int

namespace Smt
open Expr

/-- `for i in reversed(range(lb, ub)): unroll = (or r(i) (and l(i) unroll))`
(sat.py:574-576): `n` iterations left, ending with `i = lb`. -/
def qfUnroll (lb : Nat) (l r : LiaTerm α) : Nat → LiaTerm α → LiaTerm α
  | 0, unroll => unroll
  | n + 1, unroll =>
      qfUnroll lb l r n
        (.or [.call r (.add (.num (lb + n)) .k),
          .and [.call l (.add (.num (lb + n)) .k), unroll]])

mutual
/-- The loop of `to_qf_uflia_smtlib2` (sat.py:434-590): the body of the function defined for
the expression.  An `Atomic` is its operand (444-446); `EQUAL` is 495-498. -/
def encQf : Expr α → Option (LiaTerm α)
  | .const b => some (.bool b)                                             -- 456-459
  | .atom a => some (.and [.gt .len .k, .sig a .k])                        -- 462-465
  | .neg e => do pure (.and [.gt .len .k, .not (.call (← encQf e) .k)])    -- 519-522
  | .and cs => do                                                          -- 523-527
      pure (.and (.gt .len .k :: (← encQfL cs).map (fun c => .call c .k)))
  | .or cs => do                                                           -- 528-534
      pure (.and [.gt .len .k, .or ((← encQfL cs).map (fun c => .call c .k))])
  | .imp l r => do                                                         -- 535-538
      pure (.and [.gt .len .k, .imp (.call (← encQf l) .k) (.call (← encQf r) .k)])
  | .iff l r | .equal l r => do                                            -- 539-542, 495-498
      pure (.and [.gt .len .k, .eq (.call (← encQf l) .k) (.call (← encQf r) .k)])
  | .glob lb ub e => do                                                    -- 543-555
      let c ← encQf e
      let conds := (List.range' lb (ub + 1 - lb)).map fun i =>
        LiaTerm.imp (.gt .len (.add .k (.num i))) (.call c (.add .k (.num i)))
      pure (.and [.gt .len .k, .or [.le .len (.add (.num lb) .k), .and conds]])
  | .fut lb ub e => do                                                     -- 556-568
      let c ← encQf e
      let conds := (List.range' lb (ub + 1 - lb)).map fun i =>
        LiaTerm.call c (.add .k (.num i))
      pure (.and [.gt .len (.add (.num lb) .k), .or conds])
  | .untl lb ub l r => do                                                  -- 569-580
      let l ← encQf l
      let r ← encQf r
      pure (.and [.gt .len (.add (.num lb) .k),
        qfUnroll lb l r (ub - lb) (.call r (.add (.num ub) .k))])
  | _ => none                                                              -- 581-590
def encQfL : List (Expr α) → Option (List (LiaTerm α))
  | [] => some []
  | c :: cs => do pure ((← encQf c) :: (← encQfL cs))
end

/-- `to_qf_uflia_smtlib2` (sat.py:408-610). -/
def toQfUflia (e : Expr α) (strict : Bool) : Option (LiaScript α) := do
  let body ← encQf e
  pure { body := body, len := if strict then none else some e.wpd }        -- 595-600

/-- G and F of UFLIA over the intervals `[0,0]` and `[1,1]` (sat.py:786-789, 813-816: the
same text for both operators). -/
def liaPoint (c : LiaTerm α) : Nat → LiaTerm α
  | 0 => .or [.le .len .k, .call c .k]
  | _ => .or [.le .len (.add (.num 1) .k), .call c (.add (.num 1) .k)]

mutual
/-- `expr_to_smt` (sat.py:681-852) for intervals with numeral bounds.  Sub-expressions with
equal text share one definition (698-700); since equal texts mean equal expressions
(`C17_str_unambiguous`) this changes nothing here. -/
def encLia : Expr α → Option (LiaTerm α)
  | .const b => some (.bool b)                                             -- 710-713
  | .atom a => some (.and [.gt .len .k, .sig a .k])                        -- 716-717, 720-721
  | .neg e => do pure (.not (.call (← encLia e) .k))                       -- 752-753
  | .and cs => do pure (.and ((← encLiaL cs).map (fun c => .call c .k)))   -- 754-756
  | .or cs => do pure (.or ((← encLiaL cs).map (fun c => .call c .k)))     -- 757-759
  | .imp l r => do pure (.imp (.call (← encLia l) .k) (.call (← encLia r) .k))   -- 760-761
  | .iff l r | .equal l r => do                                            -- 762-763, 740-741
      pure (.eq (.call (← encLia l) .k) (.call (← encLia r) .k))
  | .glob lb ub e => do                                                    -- 764-791
      let c ← encLia e
      if lb = 0 ∧ ub = 0 then pure (liaPoint c 0)
      else if lb = 1 ∧ ub = 1 then pure (liaPoint c 1)
      else
        pure (.or [.le .len (.add (.num lb) .k),
          .all .i (.imp (.and [.le (.add (.num lb) .k) .i, .le .i (.add (.num ub) .k)])
            (.call c .i))])
  | .fut lb ub e => do                                                     -- 792-818
      let c ← encLia e
      if lb = 0 ∧ ub = 0 then pure (liaPoint c 0)
      else if lb = 1 ∧ ub = 1 then pure (liaPoint c 1)
      else
        pure (.and [.gt .len (.add (.num lb) .k),
          .ex .i (.and [.le (.add (.num lb) .k) .i, .le .i (.add (.num ub) .k), .call c .i])])
  | .untl lb ub l r => do                                                  -- 819-833
      let l ← encLia l
      let r ← encLia r
      pure (.and [.gt .len (.add (.num lb) .k),
        .ex .i (.and [.le (.add (.num lb) .k) .i, .le .i (.add (.num ub) .k), .call r .i,
          .all .j (.imp (.and [.le (.add (.num lb) .k) .j, .lt .j .i]) (.call l .j))])])
  | .rel lb ub l r => do                                                   -- 834-848
      let l ← encLia l
      let r ← encLia r
      pure (.or [.le .len (.add (.num lb) .k),
        .all .i (.imp (.and [.le (.add (.num lb) .k) .i, .le .i (.add (.num ub) .k)])
          (.or [.call r .i,
            .ex .j (.and [.le (.add (.num lb) .k) .j, .lt .j .i, .call l .j])]))])
  | _ => none                                                              -- 849-852
def encLiaL : List (Expr α) → Option (List (LiaTerm α))
  | [] => some []
  | c :: cs => do pure ((← encLia c) :: (← encLiaL cs))
end

mutual
/-- `expr_to_cplen` (sat.py:854-937): the value of the (closed) term it writes.  `none`: an
exception or an unsupported expression. -/
def cplen : Expr α → Option Int
  | .const _ | .atom _ => some 1                                           -- 878-883
  | .equal l r => do let _ ← cplen l; let _ ← cplen r; pure 1              -- 886-887
  | .neg e => cplen e                                                      -- 888-889
  | .and cs | .or cs => do                                                 -- 890-893
      match ← cplenL cs with
      | c0 :: c1 :: _ => pure (if c0 ≥ c1 then c0 else c1)
      | _ => none
  | .imp l r | .iff l r => do                                              -- 894-897
      let c0 ← cplen l; let c1 ← cplen r
      pure (if c0 ≥ c1 then c0 else c1)
  | .glob _ ub e | .fut _ ub e => do pure ((← cplen e) + ub)               -- 898-913
  | .untl _ ub l r | .rel _ ub l r => do                                   -- 914-929
      let c0 ← cplen l; let c1 ← cplen r
      pure ((if c0 - 1 > c1 then c0 else c1) + ub)
  | _ => none                                                              -- 930-933
def cplenL : List (Expr α) → Option (List Int)
  | [] => some []
  | c :: cs => do pure ((← cplen c) :: (← cplenL cs))
end

/-- `to_uflia_smtlib2` (sat.py:612-1001), without symbolic bounds and mission time. -/
def toUflia (e : Expr α) (strict : Bool) : Option (LiaScript α) := do
  let body ← encLia e                                                      -- 972-979
  if strict then pure { body := body, len := none }                        -- 986-988
  else pure { body := body, len := some (← cplen e) }                      -- 981-985

/-! ### The equivalence check -/

/-- `to_smt_equiv` (sat.py:1260-1279) encodes this expression. -/
def notEquiv (e1 e2 : Expr α) : Expr α := .neg (.iff e1 e2)

/-- `SatResult` (sat.py:14-20). -/
inductive SatResult where
  | sat | unsat | unknown | timeout | memout | failure
  deriving DecidableEq

/-- `EquivResult` (sat.py:1376-1379). -/
inductive EquivResult where
  | equiv | notEquiv | unknown
  deriving DecidableEq

/-- The specifications of a program, for the equivalence check: a contract or a formula. -/
inductive EqSpec (α : Type) where
  | contract
  | formula (e : Expr α)

/-- What `check_equiv` prints and whether it returns `SUCCESS`. -/
structure EquivReport where
  printed : EquivResult
  ok : Bool
  deriving DecidableEq

/-- `check_sat_result` (sat.py:22-24). -/
def SatResult.isAnswer : SatResult → Bool
  | .sat | .unsat | .unknown => true
  | _ => false

/-- One iteration of the loop of `check_equiv` (sat.py:1385-1421).  `enc` is `to_smt` for the
chosen theory and strictness, `solve` is `run_smt_solver`. -/
def equivStep {σ : Type} (enc : Expr α → Option σ) (solve : σ → SatResult) (r : EquivReport) :
    EqSpec α × EqSpec α → EquivReport
  | (.formula e1, .formula e2) =>
      match enc (notEquiv e1 e2) with                                      -- 1398
      | none => { r with ok := false }                                     -- 1399-1402
      | some s =>
        let ok := r.ok && (solve s).isAnswer                               -- 1411
        match solve s with
        | .sat => { printed := .notEquiv, ok := ok }                       -- 1414-1416
        | .unsat => { r with ok := ok }                                    -- 1417-1418
        | _ => { printed := if r.printed = .notEquiv then r.printed else .unknown, ok := ok }
  | _ => r                                                                 -- 1386-1392

/-- `check_equiv` (sat.py:1363-1426) on the list `program.get_specs()`. -/
def checkEquiv {σ : Type} (enc : Expr α → Option σ) (solve : σ → SatResult)
    (specs : List (EqSpec α)) : EquivReport :=
  (specs.zip specs.tail).foldl (equivStep enc solve) { printed := .equiv, ok := true }

/-- The formulas among the specifications. -/
def formulasOf : List (EqSpec α) → List (Expr α)
  | [] => []
  | .contract :: ss => formulasOf ss
  | .formula e :: ss => e :: formulasOf ss

/-- What `check_sat` reports: the answers for the single formulas, the answer for the
conjunction when there is one, and whether it returns `SUCCESS`. -/
structure SatReport where
  each : List SatResult
  all : Option SatResult
  ok : Bool

/-- The loop of `check_sat` over the specifications (sat.py:1152-1184); the flag is false when
it returned early. -/
def satEach {σ : Type} (enc : Expr α → Option σ) (solve : σ → SatResult) :
    List (Expr α) → List SatResult × Bool
  | [] => ([], true)
  | e :: es =>
      match enc e with
      | none => ([], false)                                                -- 1163-1165
      | some s =>
        if (solve s).isAnswer then
          let r := satEach enc solve es
          (solve s :: r.1, r.2)
        else ([], false)                                                   -- 1178-1180

/-- `check_sat` (sat.py:1133-1214), with the `print` option. -/
def checkSat {σ : Type} (enc : Expr α → Option σ) (solve : σ → SatResult)
    (specs : List (EqSpec α)) : SatReport :=
  let es := formulasOf specs
  let r := satEach enc solve es
  if !r.2 then { each := r.1, all := none, ok := false }
  else if es.length ≤ 1 then { each := r.1, all := none, ok := true }      -- 1187-1188
  else
    match enc (.and es) with                                               -- 1190-1191
    | none => { each := r.1, all := none, ok := false }                    -- 1192-1194
    | some s =>
      { each := r.1, all := if (solve s).isAnswer then some (solve s) else none,
        ok := (solve s).isAnswer }                                         -- 1196-1214

end Smt
end R2U2
