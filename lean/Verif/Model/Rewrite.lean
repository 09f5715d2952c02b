import Verif.Model.Cpt
/-
Model of `/repo/compiler/c2po/rewrite.py`.
-/

namespace R2U2
namespace Rewrite
open Expr
variable {α : Type}

/-- `!p` (rewrite.py:13-48). -/
def negRule : Expr α → Expr α
  | .const true => .const false                           -- 16-18
  | .const false => .const true                           -- 19-21
  | .neg p => p                                           -- 22-24
  | .glob l u (.neg p) => .fut l u p                      -- 25-36
  | .fut l u (.neg p) => .glob l u p                      -- 37-48
  | e => .neg e

/-- `l == r` (rewrite.py:49-59): any Boolean constant on one side is dropped. -/
def equalRule : Expr α → Expr α → Expr α
  | .const b, .const c => .equal (.const b) (.const c)    -- 52-53
  | .const _, r => r                                      -- 54-56
  | l, .const _ => l                                      -- 57-59
  | l, r => .equal l r

/-- `G[lb,ub] e` (rewrite.py:60-95).  The first test only provides a default
that the later ones override. -/
def globRule (lb ub : Nat) (e : Expr α) : Expr α :=
  let dflt := if lb = 0 ∧ ub = 0 then e else .glob lb ub e          -- 64-66
  match e with
  | .const true => .const true                                       -- 67-70
  | .const false => dflt                                             -- 71-75
  | .glob l u p => .glob (lb + l) (ub + u) p                         -- 76-82
  | .fut l u p =>
      if lb = ub then .fut (lb + l) (ub + u) p                       -- 86-90
      else if l = u then .glob (lb + l) (ub + u) p                   -- 91-95
      else dflt
  | _ => dflt

/-- `F[lb,ub] e` (rewrite.py:96-131). -/
def futRule (lb ub : Nat) (e : Expr α) : Expr α :=
  let dflt := if lb = 0 ∧ ub = 0 then e else .fut lb ub e            -- 100-102
  match e with
  | .const true => dflt                                              -- 103-108
  | .const false => .const false                                     -- 109-111
  | .fut l u p => .fut (lb + l) (ub + u) p                           -- 112-118
  | .glob l u p =>
      if lb = ub then .glob (lb + l) (ub + u) p                      -- 122-126
      else if l = u then .fut (lb + l) (ub + u) p                    -- 127-131
      else dflt
  | _ => dflt

/-- `G[lb1,ub1]p && G[lb2,ub2]q` (rewrite.py:136-178).  `key` is `str`.
`dflt` is the unchanged conjunction.  Python's integer subtractions are
non-negative for ordered intervals, which `type_check` enforces. -/
def andGlob {κ : Type} [DecidableEq κ] (key : Expr α → κ) (dflt : Expr α)
    (lb1 ub1 : Nat) (p : Expr α) (lb2 ub2 : Nat) (q : Expr α) : Expr α :=
  if key p = key q then                                              -- 150
    if lb1 ≤ lb2 ∧ ub1 ≥ ub2 then .glob lb1 ub1 p                    -- 152-154
    else if lb2 ≤ lb1 ∧ ub2 ≥ ub1 then .glob lb2 ub2 p               -- 155-157
    else if lb1 ≤ lb2 ∧ lb2 ≤ ub1 + 1 then .glob lb1 (max ub1 ub2) p -- 158-160
    else if lb2 ≤ lb1 ∧ lb1 ≤ ub2 + 1 then .glob lb2 (max ub1 ub2) p -- 161-163
    else dflt
  else
    let lb3 := min lb1 lb2                                           -- 165
    let ub3 := lb3 + min (ub1 - lb1) (ub2 - lb2)                     -- 166
    .glob lb3 ub3 (.and [.glob (lb1 - lb3) (ub1 - ub3) p,            -- 168-178
      .glob (lb2 - lb3) (ub2 - ub3) q])

/-- `F[lb1,ub1]p && F[lb2,ub2]q` (rewrite.py:179-200). -/
def andFut {κ : Type} [DecidableEq κ] (key : Expr α → κ) (dflt : Expr α)
    (lb1 ub1 : Nat) (p : Expr α) (lb2 ub2 : Nat) (q : Expr α) : Expr α :=
  if key p = key q then                                              -- 188
    if lb1 ≤ lb2 ∧ ub1 ≥ ub2 then .fut lb2 ub2 p                     -- 195-197
    else if lb2 ≤ lb1 ∧ ub2 ≥ ub1 then .fut lb1 ub1 p                -- 198-200
    else dflt
  else dflt

/-- `(p U[l1,u1] q) && (r U[l2,u2] s)` (rewrite.py:201-221). -/
def andUntl {κ : Type} [DecidableEq κ] (key : Expr α → κ) (dflt : Expr α)
    (l1 u1 : Nat) (p q : Expr α) (l2 u2 : Nat) (r s : Expr α) : Expr α :=
  if key q = key s ∧ l1 = l2 then .untl l1 (min u1 u2) (.and [p, r]) q   -- 213-221
  else dflt

/-- `F[lb1,ub1]p || F[lb2,ub2]q` (rewrite.py:226-270). -/
def orFut {κ : Type} [DecidableEq κ] (key : Expr α → κ) (dflt : Expr α)
    (lb1 ub1 : Nat) (p : Expr α) (lb2 ub2 : Nat) (q : Expr α) : Expr α :=
  if key p = key q then                                              -- 240
    if lb1 ≤ lb2 ∧ ub1 ≥ ub2 then .fut lb1 ub1 p                     -- 242-244
    else if lb2 ≤ lb1 ∧ ub2 ≥ ub1 then .fut lb2 ub2 p                -- 245-247
    else if lb1 ≤ lb2 ∧ lb2 ≤ ub1 + 1 then .fut lb1 (max ub1 ub2) p  -- 248-250
    else if lb2 ≤ lb1 ∧ lb1 ≤ ub2 + 1 then .fut lb2 (max ub1 ub2) p  -- 251-253
    else dflt
  else
    let lb3 := min lb1 lb2                                           -- 257
    let ub3 := lb3 + min (ub1 - lb1) (ub2 - lb2)                     -- 258
    .fut lb3 ub3 (.or [.fut (lb1 - lb3) (ub1 - ub3) p,               -- 260-270
      .fut (lb2 - lb3) (ub2 - ub3) q])

/-- `G[lb1,ub1]p || G[lb2,ub2]q` (rewrite.py:271-293). -/
def orGlob {κ : Type} [DecidableEq κ] (key : Expr α → κ) (dflt : Expr α)
    (lb1 ub1 : Nat) (p : Expr α) (lb2 ub2 : Nat) (q : Expr α) : Expr α :=
  if key p = key q then                                              -- 280
    if lb1 ≥ lb2 ∧ ub1 ≤ ub2 then .glob lb1 ub1 p                    -- 286-288
    else if lb2 ≥ lb1 ∧ ub2 ≤ ub1 then .glob lb2 ub2 p               -- 289-291
    else dflt
  else dflt

/-- Conjunction: only `children[0]` and `children[1]` are looked at; with fewer
than two children the indexing raises (rewrite.py:132-221). -/
def andRule {κ : Type} [DecidableEq κ] (key : Expr α → κ) : List (Expr α) → Option (Expr α)
  | lhs :: rhs :: rest =>
      let dflt := .and (lhs :: rhs :: rest)
      match lhs, rhs with
      | .glob lb1 ub1 p, .glob lb2 ub2 q => some (andGlob key dflt lb1 ub1 p lb2 ub2 q)
      | .fut lb1 ub1 p, .fut lb2 ub2 q => some (andFut key dflt lb1 ub1 p lb2 ub2 q)
      | .untl l1 u1 p q, .untl l2 u2 r s => some (andUntl key dflt l1 u1 p q l2 u2 r s)
      | _, _ => some dflt
  | _ => none

/-- Disjunction (rewrite.py:222-293). -/
def orRule {κ : Type} [DecidableEq κ] (key : Expr α → κ) : List (Expr α) → Option (Expr α)
  | lhs :: rhs :: rest =>
      let dflt := .or (lhs :: rhs :: rest)
      match lhs, rhs with
      | .fut lb1 ub1 p, .fut lb2 ub2 q => some (orFut key dflt lb1 ub1 p lb2 ub2 q)
      | .glob lb1 ub1 p, .glob lb2 ub2 q => some (orGlob key dflt lb1 ub1 p lb2 ub2 q)
      | _, _ => some dflt
  | _ => none

/-- Body of the loop (rewrite.py:10-299); `none` is an `IndexError`. -/
def optStep {κ : Type} [DecidableEq κ] (key : Expr α → κ) : Expr α → Option (Expr α)
  | .neg e => some (negRule e)
  | .equal l r => some (equalRule l r)
  | .glob lb ub e => some (globRule lb ub e)
  | .fut lb ub e => some (futRule lb ub e)
  | .and cs => andRule key cs
  | .or cs => orRule key cs
  | e => some e

/-- `optimize_rewrites` (rewrite.py:4-302): one postorder pass. -/
def optimize {κ : Type} [DecidableEq κ] (key : Expr α → κ) (e : Expr α) : Option (Expr α) :=
  postM (optStep key) e

end Rewrite
end R2U2
