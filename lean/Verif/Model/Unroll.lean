import Verif.Model.Cpt
/-
Model of `unroll_temporal_operators` and `decompose_intervals`
(`/repo/compiler/c2po/cpt.py:1794-1942`).
-/
namespace R2U2
namespace Unroll
open Expr
variable {α : Type}

/-- The loop over `range(ub-1, lb-1, -1)` of the until case (cpt.py:1826-1840):
`steps` iterations starting at `b = lb + steps - 1` going down to `lb`. -/
def untilLoop (lb : Nat) (l r : Expr α) : Nat → Expr α → Expr α
  | 0, repl => repl
  | n + 1, repl =>
      untilLoop lb l r n
        (.or [.fut (lb + n) (lb + n) r, .and [.fut (lb + n) (lb + n) l, repl]])

/-- `unrolled_expr` (cpt.py:1798-1848); `none` is the `NotImplementedError`. -/
def unrollStep : Expr α → Option (Expr α)
  | .fut lb ub e =>                                             -- 1799-1809
      if lb = ub then some (.fut lb ub e)
      else some (.or ((List.range' lb (ub + 1 - lb)).map fun b => .fut b b e))
  | .glob lb ub e =>                                            -- 1810-1820
      if lb = ub then some (.glob lb ub e)
      else some (.and ((List.range' lb (ub + 1 - lb)).map fun b => .glob b b e))
  | .untl lb ub l r =>                                          -- 1821-1842
      some (untilLoop lb l r (ub - lb) (.fut ub ub r))
  | .rel _ _ _ _ => none                                        -- 1843-1846
  | e => some e

/-- `unroll_temporal_operators` (cpt.py:1794-1854), on a copy of the expression. -/
def unroll (e : Expr α) : Option (Expr α) := postM unrollStep e

/-- Python's `int.bit_length`. -/
def bitLength (n : Nat) : Nat := if n = 0 then 0 else Nat.log2 n + 1

/-- `while s >= a: amounts.append(a); s -= a` (cpt.py:1875-1877).  `a = 2**n - 1`
with `n ≥ 1`, so `a > 0`; for `a = 0` Python would not terminate. -/
def whileSub (a s : Nat) : List Nat × Nat :=
  if _h : 0 < a ∧ a ≤ s then
    let r := whileSub a (s - a)
    (a :: r.1, r.2)
  else ([], s)
termination_by s

/-- `for n in reversed(range(1, N))` (cpt.py:1874-1877): `n = N-1, …, 1`. -/
def amountsLoop : Nat → Nat → List Nat
  | 0, _ => []
  | n + 1, s =>
      let r := whileSub (2 ^ (n + 1) - 1) s
      r.1 ++ amountsLoop n r.2

/-- The list `amounts` (cpt.py:1872-1877, 1897-1902, 1923-1928). -/
def amounts (lb ub : Nat) : List Nat := amountsLoop (bitLength (ub - lb + 1) - 1) (ub - lb)

/-- `decompose` (cpt.py:1861-1936).  Intervals are assumed ordered (as
`type_check` enforces): for `ub < lb` Python's negative `s` is not modelled. -/
def decomposeStep : Expr α → Expr α
  | .fut lb ub e =>
      if lb = ub then .fut lb ub e else
      let repl := (amounts lb ub).foldr (fun a repl => .fut 0 a repl) e
      if lb > 0 then .fut lb lb repl else repl
  | .glob lb ub e =>
      if lb = ub then .glob lb ub e else
      let repl := (amounts lb ub).foldr (fun a repl => .glob 0 a repl) e
      if lb > 0 then .glob lb lb repl else repl
  | .untl lb ub l r =>
      if lb = ub then .untl lb ub l r else
      let repl := (amounts lb ub).foldr (fun a repl => .untl 0 a l repl) r
      if lb > 0 then .untl lb lb l repl else repl
  | e => e

/-- `decompose_intervals` (cpt.py:1856-1942). -/
def decompose (e : Expr α) : Expr α := post decomposeStep e

end Unroll
end R2U2
