import Verif.Model.Cpt
/-
Model of equality saturation: the egglog terms and rewrite rules of
`/repo/compiler/c2po/egglog/`, what saturation with them can equate, the export
(`/repo/compiler/c2po/eqsat.py: to_egglog`) and the import
(`/repo/compiler/c2po/parse_egglog_output.py`).

egglog itself is not modelled: `EqG` below over-approximates what its e-graph can equate.
`:subsume` and rule sets only restrict which matches egglog tries, and are left out.  The
`i64` arithmetic of the rules is on unbounded integers.
-/
namespace R2U2

/-- `(datatype MLTL ...)` (egglog/ilp/mltl.egg:1-20, egglog/greedy/mltl.egg:1-23).  An interval
is a pair of `i64`; the name of `(Var "aN")` is the number `N`. -/
inductive Egg where
  | bool (b : Bool)
  | var (n : Nat)
  | not (a : Egg)
  | implies (a b : Egg)
  | equiv (a b : Egg)
  | and2 (a b : Egg)
  | and3 (a b c : Egg)
  | and4 (a b c d : Egg)
  | or2 (a b : Egg)
  | or3 (a b c : Egg)
  | or4 (a b c d : Egg)
  | global (lb ub : Int) (a : Egg)
  | future (lb ub : Int) (a : Egg)
  | until (lb ub : Int) (a b : Egg)
  | release (lb ub : Int) (a b : Egg)
  deriving DecidableEq

namespace Egg

/-- The direct sub-terms. -/
def children : Egg → List Egg
  | .bool _ | .var _ => []
  | .not a | .global _ _ a | .future _ _ a => [a]
  | .implies a b | .equiv a b | .and2 a b | .or2 a b | .until _ _ a b | .release _ _ a b => [a, b]
  | .and3 a b c | .or3 a b c => [a, b, c]
  | .and4 a b c d | .or4 a b c d => [a, b, c, d]

/-- The operator of a term, without its sub-terms. -/
def op : Egg → Egg
  | .bool b => .bool b
  | .var n => .var n
  | .not _ => .not (.bool true)
  | .implies _ _ => .implies (.bool true) (.bool true)
  | .equiv _ _ => .equiv (.bool true) (.bool true)
  | .and2 _ _ => .and2 (.bool true) (.bool true)
  | .and3 _ _ _ => .and3 (.bool true) (.bool true) (.bool true)
  | .and4 _ _ _ _ => .and4 (.bool true) (.bool true) (.bool true) (.bool true)
  | .or2 _ _ => .or2 (.bool true) (.bool true)
  | .or3 _ _ _ => .or3 (.bool true) (.bool true) (.bool true)
  | .or4 _ _ _ _ => .or4 (.bool true) (.bool true) (.bool true) (.bool true)
  | .global lb ub _ => .global lb ub (.bool true)
  | .future lb ub _ => .future lb ub (.bool true)
  | .until lb ub _ _ => .until lb ub (.bool true) (.bool true)
  | .release lb ub _ _ => .release lb ub (.bool true) (.bool true)

end Egg

/-! ### The rules

One constructor per rule, in the order of the file.  A `birewrite` has two constructors, the
second with the suffix `'`. -/

/-- `egglog/rewrites/associative.egg`. -/
inductive AssocRule : Egg → Egg → Prop
  | and (a0 a1 a2) : AssocRule (.and2 (.and2 a0 a1) a2) (.and2 a0 (.and2 a1 a2))     -- 1-5
  | and' (a0 a1 a2) : AssocRule (.and2 a0 (.and2 a1 a2)) (.and2 (.and2 a0 a1) a2)
  | or (a0 a1 a2) : AssocRule (.or2 (.or2 a0 a1) a2) (.or2 a0 (.or2 a1 a2))          -- 7-11
  | or' (a0 a1 a2) : AssocRule (.or2 a0 (.or2 a1 a2)) (.or2 (.or2 a0 a1) a2)

/-- `egglog/rewrites/commutative.egg`. -/
inductive CommRule : Egg → Egg → Prop
  | and (a0 a1) : CommRule (.and2 a0 a1) (.and2 a1 a0)                               -- 1-5
  | or (a0 a1) : CommRule (.or2 a0 a1) (.or2 a1 a0)                                  -- 7-11

/-- `egglog/rewrites/multi_arity.egg`. -/
inductive ArityRule : Egg → Egg → Prop
  | and3 (a0 a1 a2) : ArityRule (.and2 (.and2 a0 a1) a2) (.and3 a0 a1 a2)            -- 1-5
  | and3' (a0 a1 a2) : ArityRule (.and3 a0 a1 a2) (.and2 (.and2 a0 a1) a2)
  | and4 (a0 a1 a2 a3) : ArityRule (.and2 (.and3 a0 a1 a2) a3) (.and4 a0 a1 a2 a3)   -- 7-11
  | and4' (a0 a1 a2 a3) : ArityRule (.and4 a0 a1 a2 a3) (.and2 (.and3 a0 a1 a2) a3)
  | and34 (a0 a1 a2 a3) : ArityRule (.and3 (.and2 a0 a1) a2 a3) (.and4 a0 a1 a2 a3)  -- 13-17
  | and34' (a0 a1 a2 a3) : ArityRule (.and4 a0 a1 a2 a3) (.and3 (.and2 a0 a1) a2 a3)
  | and3_aab (a0 a1) : ArityRule (.and3 a0 a0 a1) (.and2 a0 a1)                      -- 19-24
  | and3_baa (a0 a1) : ArityRule (.and3 a1 a0 a0) (.and2 a1 a0)                      -- 26-31
  | and3_aba (a0 a1) : ArityRule (.and3 a0 a1 a0) (.and2 a1 a0)                      -- 33-38
  | and4_aabc (a0 a1 a2) : ArityRule (.and4 a0 a0 a1 a2) (.and3 a0 a1 a2)            -- 40-45
  | and4_abac (a0 a1 a2) : ArityRule (.and4 a0 a1 a0 a2) (.and3 a0 a1 a2)            -- 47-52
  | and4_abca (a0 a1 a2) : ArityRule (.and4 a0 a1 a2 a0) (.and3 a0 a1 a2)            -- 54-59
  | and4_aaab (a0 a1) : ArityRule (.and4 a0 a0 a0 a1) (.and2 a0 a1)                  -- 61-66
  | and4_baaa (a0 a1) : ArityRule (.and4 a1 a0 a0 a0) (.and2 a1 a0)                  -- 68-73
  | and4_aaaa (a0) : ArityRule (.and4 a0 a0 a0 a0) a0                                -- 75-80
  | or3 (a0 a1 a2) : ArityRule (.or2 (.or2 a0 a1) a2) (.or3 a0 a1 a2)                -- 82-86
  | or3' (a0 a1 a2) : ArityRule (.or3 a0 a1 a2) (.or2 (.or2 a0 a1) a2)
  | or34 (a0 a1 a2 a3) : ArityRule (.or3 (.or2 a0 a1) a2 a3) (.or4 a0 a1 a2 a3)      -- 88-92
  | or34' (a0 a1 a2 a3) : ArityRule (.or4 a0 a1 a2 a3) (.or3 (.or2 a0 a1) a2 a3)
  | or3_aab (a0 a1) : ArityRule (.or3 a0 a0 a1) (.or2 a0 a1)                         -- 94-99
  | or3_baa (a0 a1) : ArityRule (.or3 a1 a0 a0) (.or2 a1 a0)                         -- 101-106
  | or3_aba (a0 a1) : ArityRule (.or3 a0 a1 a0) (.or2 a1 a0)                         -- 108-113
  | or4_aabc (a0 a1 a2) : ArityRule (.or4 a0 a0 a1 a2) (.or3 a0 a1 a2)               -- 115-120
  | or4_abac (a0 a1 a2) : ArityRule (.or4 a0 a1 a0 a2) (.or3 a0 a1 a2)               -- 122-127
  | or4_abca (a0 a1 a2) : ArityRule (.or4 a0 a1 a2 a0) (.or3 a0 a1 a2)               -- 129-134
  | or4_aaab (a0 a1) : ArityRule (.or4 a0 a0 a0 a1) (.or2 a0 a1)                     -- 136-141
  | or4_baaa (a0 a1) : ArityRule (.or4 a1 a0 a0 a0) (.or2 a1 a0)                     -- 143-148
  | or4_aaaa (a0) : ArityRule (.or4 a0 a0 a0 a0) a0                                  -- 150-155

/-- `egglog/rewrites/const_folding.egg`. -/
inductive ConstRule : Egg → Egg → Prop
  | not_true : ConstRule (.not (.bool true)) (.bool false)                           -- 1-5
  | not_false : ConstRule (.not (.bool false)) (.bool true)                          -- 7-11
  | and_false (a0) : ConstRule (.and2 a0 (.bool false)) (.bool false)                -- 13-18
  | or_true (a0) : ConstRule (.or2 a0 (.bool true)) (.bool true)                     -- 20-25
  | and_not (a0) : ConstRule (.and2 a0 (.not a0)) (.bool false)                      -- 27-31
  | or_not (a0) : ConstRule (.or2 a0 (.not a0)) (.bool true)                         -- 33-37
  | global_false (b0 b1) : ConstRule (.global b0 b1 (.bool false)) (.bool false)     -- 39-44
  | global_true (b0 b1) : ConstRule (.global b0 b1 (.bool true)) (.bool true)        -- 46-51
  | future_false (b0 b1) : ConstRule (.future b0 b1 (.bool false)) (.bool false)     -- 53-58
  | future_true (b0 b1) : ConstRule (.future b0 b1 (.bool true)) (.bool true)        -- 60-65
  | excluded (b0 b1 a0) :                                                            -- 67-71
      ConstRule (.or2 (.future b0 b1 a0) (.global b0 b1 (.not a0))) (.bool true)
  | conflict (b0 b1 b2 b3 a0) : b0 ≤ b2 → b3 ≤ b1 →                                  -- 73-78
      ConstRule (.and2 (.global b0 b1 (.not a0)) (.future b2 b3 a0)) (.bool false)
  | conflict_not (b0 b1 b2 b3 a0) : b0 ≤ b2 → b3 ≤ b1 →                              -- 80-85
      ConstRule (.and2 (.global b0 b1 a0) (.future b2 b3 (.not a0))) (.bool false)

/-- `egglog/rewrites/temporal.egg`. -/
inductive TemporalRule : Egg → Egg → Prop
  | and_true (a0) : TemporalRule (.and2 a0 (.bool true)) a0                          -- 1-6
  | or_false (a0) : TemporalRule (.or2 a0 (.bool false)) a0                          -- 8-13
  | not_not (a0) : TemporalRule (.not (.not a0)) a0                                  -- 15-20
  | or_same (a0) : TemporalRule (.or2 a0 a0) a0                                      -- 22-27
  | and_same (a0) : TemporalRule (.and2 a0 a0) a0                                    -- 29-34
  | equiv (a0 a1) :                                                                  -- 36-40
      TemporalRule (.equiv a0 a1) (.or2 (.and2 a0 a1) (.and2 (.not a0) (.not a1)))
  | equiv' (a0 a1) :
      TemporalRule (.or2 (.and2 a0 a1) (.and2 (.not a0) (.not a1))) (.equiv a0 a1)
  | not_and (a0 a1) : TemporalRule (.not (.and2 a0 a1)) (.or2 (.not a0) (.not a1))   -- 42-46
  | not_and' (a0 a1) : TemporalRule (.or2 (.not a0) (.not a1)) (.not (.and2 a0 a1))
  | not_or (a0 a1) : TemporalRule (.not (.or2 a0 a1)) (.and2 (.not a0) (.not a1))    -- 48-52
  | not_or' (a0 a1) : TemporalRule (.and2 (.not a0) (.not a1)) (.not (.or2 a0 a1))
  | not_until (b0 b1 a0 a1) :                                                        -- 54-58
      TemporalRule (.not (.until b0 b1 a0 a1)) (.release b0 b1 (.not a0) (.not a1))
  | not_until' (b0 b1 a0 a1) :
      TemporalRule (.release b0 b1 (.not a0) (.not a1)) (.not (.until b0 b1 a0 a1))
  | not_release (b0 b1 a0 a1) :                                                      -- 60-64
      TemporalRule (.not (.release b0 b1 a0 a1)) (.until b0 b1 (.not a0) (.not a1))
  | not_release' (b0 b1 a0 a1) :
      TemporalRule (.until b0 b1 (.not a0) (.not a1)) (.not (.release b0 b1 a0 a1))
  | until_true (b0 b1 a0) :                                                          -- 66-70
      TemporalRule (.until b0 b1 (.bool true) a0) (.future b0 b1 a0)
  | until_true' (b0 b1 a0) :
      TemporalRule (.future b0 b1 a0) (.until b0 b1 (.bool true) a0)
  | release_false (b0 b1 a0) :                                                       -- 72-76
      TemporalRule (.release b0 b1 (.bool false) a0) (.global b0 b1 a0)
  | release_false' (b0 b1 a0) :
      TemporalRule (.global b0 b1 a0) (.release b0 b1 (.bool false) a0)
  | and_until (b0 b1 b2 a0 a1 a2) : b1 ≤ b2 →                                        -- 78-83
      TemporalRule (.and2 (.until b0 b1 a0 a1) (.until b0 b2 a2 a1))
        (.until b0 b1 (.and2 a0 a2) a1)
  | until_point (b0 a0 a1) : TemporalRule (.until b0 b0 a0 a1) (.future b0 b0 a1)    -- 85-89
  | until_zero (a0 a1) : TemporalRule (.until 0 0 a0 a1) a1                          -- 91-96
  | release_zero (a0 a1) : TemporalRule (.release 0 0 a0 a1) a1                      -- 98-103
  | implies (a0 a1) : TemporalRule (.implies a0 a1) (.or2 (.not a0) a1)              -- 105-109
  | implies' (a0 a1) : TemporalRule (.or2 (.not a0) a1) (.implies a0 a1)
  | not_future (b0 b1 a0) :                                                          -- 111-115
      TemporalRule (.not (.future b0 b1 a0)) (.global b0 b1 (.not a0))
  | not_future' (b0 b1 a0) :
      TemporalRule (.global b0 b1 (.not a0)) (.not (.future b0 b1 a0))
  | not_global (b0 b1 a0) :                                                          -- 117-121
      TemporalRule (.not (.global b0 b1 a0)) (.future b0 b1 (.not a0))
  | not_global' (b0 b1 a0) :
      TemporalRule (.future b0 b1 (.not a0)) (.not (.global b0 b1 a0))
  | global_global (b0 b1 b2 b3 a0) :                                                 -- 123-127
      TemporalRule (.global b0 b1 (.global b2 b3 a0)) (.global (b0 + b2) (b1 + b3) a0)
  | future_future (b0 b1 b2 b3 a0) :                                                 -- 129-133
      TemporalRule (.future b0 b1 (.future b2 b3 a0)) (.future (b0 + b2) (b1 + b3) a0)
  | and_global (b0 b1 b2 b3 b4 b5 a0 a1) :                                           -- 135-140
      b4 = min b0 b2 → b5 = b4 + min (b1 - b0) (b3 - b2) →
      TemporalRule (.and2 (.global b0 b1 a0) (.global b2 b3 a1))
        (.global b4 b5 (.and2 (.global (b0 - b4) (b1 - b5) a0) (.global (b2 - b4) (b3 - b5) a1)))
  | or_future (b0 b1 b2 b3 b4 b5 a0 a1) :                                            -- 142-147
      b4 = min b0 b2 → b5 = b4 + min (b1 - b0) (b3 - b2) →
      TemporalRule (.or2 (.future b0 b1 a0) (.future b2 b3 a1))
        (.future b4 b5 (.or2 (.future (b0 - b4) (b1 - b5) a0) (.future (b2 - b4) (b3 - b5) a1)))
  | global_future (b0 b1 b2 a0) :                                                    -- 149-153
      TemporalRule (.global b0 b1 (.future b2 b2 a0)) (.global (b2 + b0) (b2 + b1) a0)
  | future_global (b0 b1 b2 a0) :                                                    -- 155-159
      TemporalRule (.future b0 b1 (.global b2 b2 a0)) (.future (b2 + b0) (b2 + b1) a0)
  | global_point (b0 b1 b2 a0) :                                                     -- 161-165
      TemporalRule (.global b0 b0 (.future b1 b2 a0)) (.future (b0 + b1) (b0 + b2) a0)
  | future_point (b0 b1 b2 a0) :                                                     -- 167-171
      TemporalRule (.future b0 b0 (.global b1 b2 a0)) (.global (b0 + b1) (b0 + b2) a0)
  | and_global_union (b0 b1 b2 b3 a0) : b0 ≤ b2 → b2 ≤ b1 + 1 →                      -- 173-178
      TemporalRule (.and2 (.global b0 b1 a0) (.global b2 b3 a0)) (.global b0 (max b1 b3) a0)
  | or_future_union (b0 b1 b2 b3 a0) : b0 ≤ b2 → b2 ≤ b1 + 1 →                       -- 180-185
      TemporalRule (.or2 (.future b0 b1 a0) (.future b2 b3 a0)) (.future b0 (max b1 b3) a0)
  | or_global_inner (b0 b1 b2 b3 a0) : b2 ≥ b0 → b3 ≤ b1 →                           -- 187-193
      TemporalRule (.or2 (.global b0 b1 a0) (.global b2 b3 a0)) (.global b2 b3 a0)
  | and_future_inner (b0 b1 b2 b3 a0) : b2 ≥ b0 → b3 ≤ b1 →                          -- 195-201
      TemporalRule (.and2 (.future b0 b1 a0) (.future b2 b3 a0)) (.future b2 b3 a0)
  | future_until (b0 b1 b2 a0 a1) :                                                  -- 203-207
      TemporalRule (.future b0 b0 (.until b1 b2 a0 a1)) (.until (b1 + b0) (b2 + b0) a0 a1)
  | until_shift (b0 b1 b2 a0 a1) :                                                   -- 209-213
      TemporalRule (.until b0 b1 (.future b2 b2 a0) (.future b2 b2 a1))
        (.until (b0 + b2) (b1 + b2) a0 a1)
  | until_global (b0 b1 b2 a0) :                                                     -- 215-219
      TemporalRule (.until b0 b1 a0 (.global 0 b2 a0)) (.global b0 (b0 + b2) a0)
  | until_future (b0 b1 b2 a0) :                                                     -- 221-225
      TemporalRule (.until b0 b1 a0 (.future 0 b2 a0)) (.future b0 (b0 + b2) a0)
  | global_zero (a0) : TemporalRule (.global 0 0 a0) a0                              -- 227-232
  | future_zero (a0) : TemporalRule (.future 0 0 a0) a0                              -- 234-239
  | point (b0 a0) : TemporalRule (.future b0 b0 a0) (.global b0 b0 a0)               -- 241-245
  | point' (b0 a0) : TemporalRule (.global b0 b0 a0) (.future b0 b0 a0)
  | and_future (b0 b1 b2 b3 a0 a1) : b0 ≤ b2 →                                       -- 247-252
      TemporalRule (.and2 (.future b0 b1 a0) (.future b2 b3 a1))
        (.future b0 b0 (.and2 (.future 0 (b1 - b0) a0) (.future (b2 - b0) (b3 - b0) a1)))
  | or_global (b0 b1 b2 b3 a0 a1) : b0 ≤ b2 →                                        -- 254-259
      TemporalRule (.or2 (.global b0 b1 a0) (.global b2 b3 a1))
        (.global b0 b0 (.or2 (.global 0 (b1 - b0) a0) (.global (b2 - b0) (b3 - b0) a1)))
  | or_release (b0 b1 b2 b3 a0 a1) : b1 ≤ b3 → b2 ≤ b0 →                             -- 261-266
      TemporalRule (.or2 (.global b0 b1 a0) (.release b2 b3 a1 a0))
        (.or2 (.global b0 b1 a0) (.release b2 b1 a1 a0))
  | and_until_future (b0 b1 b2 b3 a0 a1) : b1 ≤ b3 → b2 ≤ b0 →                       -- 268-274
      TemporalRule (.and2 (.until b0 b1 a0 a1) (.future b2 b3 a1)) (.until b0 b1 a0 a1)
  | trim_below (b0 b1 b2 b3 a0) : b0 ≤ b2 → b2 ≤ b1 + 1 → b1 < b3 →                  -- 276-281
      TemporalRule (.and2 (.global b0 b1 (.not a0)) (.future b2 b3 a0))
        (.and2 (.global b0 b1 (.not a0)) (.future (b1 + 1) b3 a0))
  | trim_above (b0 b1 b2 b3 a0) : b2 < b0 → b0 ≤ b3 → b3 ≤ b1 →                      -- 283-288
      TemporalRule (.and2 (.global b0 b1 (.not a0)) (.future b2 b3 a0))
        (.and2 (.global b0 b1 (.not a0)) (.future b2 (b0 - 1) a0))
  | weak_until (b0 b1 a0 a1 a2) :                                                    -- 290-294
      TemporalRule (.implies (.and2 a0 (.future b0 b1 a1))
          (.or2 (.until b0 b1 a2 a1) (.global b0 b1 a2)))
        (.implies (.and2 a0 (.future b0 b1 a1)) (.until b0 b1 a2 a1))

/-- Which rule files are loaded (eqsat.py:119-123); the option names are those of
`REWRITE_PATHS` (38-44). -/
structure EggOptions where
  associative : Bool
  commutative : Bool
  multiArity : Bool
  constFolding : Bool
  temporal : Bool

/-- The rules handed to egglog. -/
def EggOptions.rule (o : EggOptions) (l r : Egg) : Prop :=
  (o.associative = true ∧ AssocRule l r) ∨ (o.commutative = true ∧ CommRule l r) ∨
  (o.multiArity = true ∧ ArityRule l r) ∨ (o.constFolding = true ∧ ConstRule l r) ∨
  (o.temporal = true ∧ TemporalRule l r)

/-- What an e-graph can represent and equate, when it is built from `root` and the rules `R` are
run any number of times in any order (`run-schedule (saturate ...)`, eqsat.py:174-175):
`EqG R root t t` says that `t` is represented, `EqG R root t u` that `t` and `u` are in the same
class.  `congr` is congruence closure: replacing sub-terms by equal ones gives an equal term. -/
inductive EqG (R : Egg → Egg → Prop) (root : Egg) : Egg → Egg → Prop
  | root : EqG R root root root
  | sub {t c : Egg} : EqG R root t t → c ∈ t.children → EqG R root c c
  | symm {t u : Egg} : EqG R root t u → EqG R root u t
  | trans {t u v : Egg} : EqG R root t u → EqG R root u v → EqG R root t v
  | rule {l r : Egg} : EqG R root l l → R l r → EqG R root l r
  | congr {t u : Egg} : EqG R root t t → t.op = u.op → t.children.length = u.children.length →
      (∀ (k : Nat) (c d : Egg), t.children[k]? = some c → u.children[k]? = some d → EqG R root c d) →
      EqG R root t u

/-! ### Export and import -/

namespace Eqsat
open Expr

mutual
/-- The term `$eN` bound for an expression (eqsat.py:134-171).  `atomId` is
`context.atomic_id_map`.  `none`: no `let` is written for some sub-expression, or an operator
`AndN`, `OrN` that the datatype lacks, so egglog rejects the file. -/
def toEgg {α : Type} (atomId : α → Nat) : Expr α → Option Egg
  | .const b => some (.bool b)                                                       -- 144-145
  | .atom a => some (.var (atomId a))                                                -- 146-147
  | .neg e => do pure (.not (← toEgg atomId e))                                      -- 148-149
  | .and cs => do                                                                    -- 150-152
      match ← toEggL atomId cs with
      | [a, b] => some (.and2 a b)
      | [a, b, c] => some (.and3 a b c)
      | [a, b, c, d] => some (.and4 a b c d)
      | _ => none
  | .or cs => do                                                                     -- 153-155
      match ← toEggL atomId cs with
      | [a, b] => some (.or2 a b)
      | [a, b, c] => some (.or3 a b c)
      | [a, b, c, d] => some (.or4 a b c d)
      | _ => none
  | .imp l r => do pure (.implies (← toEgg atomId l) (← toEgg atomId r))             -- 156-157
  | .iff l r => do pure (.equiv (← toEgg atomId l) (← toEgg atomId r))               -- 158-159
  | .glob lb ub e => do pure (.global lb ub (← toEgg atomId e))                      -- 160-162
  | .fut lb ub e => do pure (.future lb ub (← toEgg atomId e))                       -- 163-165
  | .untl lb ub l r => do pure (.until lb ub (← toEgg atomId l) (← toEgg atomId r))  -- 166-168
  | .rel lb ub l r => do pure (.release lb ub (← toEgg atomId l) (← toEgg atomId r)) -- 169-171
  | _ => none
def toEggL {α : Type} (atomId : α → Nat) : List (Expr α) → Option (List Egg)
  | [] => some []
  | c :: cs => do pure ((← toEgg atomId c) :: (← toEggL atomId cs))
end

/-- The expression a term stands for (`build_expr_recur`, egraph.py:577-655); signals are kept as
the number in their name.  A bound is used as a number; that it is never negative is part of the
theorems. -/
def ofEgg : Egg → Expr Nat
  | .bool b => .const b
  | .var n => .atom n
  | .not a => .neg (ofEgg a)
  | .implies a b => .imp (ofEgg a) (ofEgg b)
  | .equiv a b => .iff (ofEgg a) (ofEgg b)
  | .and2 a b => .and [ofEgg a, ofEgg b]
  | .and3 a b c => .and [ofEgg a, ofEgg b, ofEgg c]
  | .and4 a b c d => .and [ofEgg a, ofEgg b, ofEgg c, ofEgg d]
  | .or2 a b => .or [ofEgg a, ofEgg b]
  | .or3 a b c => .or [ofEgg a, ofEgg b, ofEgg c]
  | .or4 a b c d => .or [ofEgg a, ofEgg b, ofEgg c, ofEgg d]
  | .global lb ub a => .glob lb.natAbs ub.natAbs (ofEgg a)
  | .future lb ub a => .fut lb.natAbs ub.natAbs (ofEgg a)
  | .until lb ub a b => .untl lb.natAbs ub.natAbs (ofEgg a) (ofEgg b)
  | .release lb ub a b => .rel lb.natAbs ub.natAbs (ofEgg a) (ofEgg b)

/-- Tokens of egglog's output (parse_egglog_output.py:8-51).  The text itself is not
modelled. -/
inductive Tok where
  | implies | not | equiv | and (n : Nat) | or (n : Nat)
  | future | global | until | release
  | var | interval | bool
  | string (n : Nat) | numeral (n : Nat) | true | false
  | lparen | rparen
  deriving DecidableEq

/-- An integer as egglog prints it; a negative one has no token (`-` is an illegal character,
skipped by parse_egglog_output.py:57-59). -/
def numTok (i : Int) : Tok := .numeral i.natAbs

/-- egglog's output for `(extract ...)`: the term as an S-expression. -/
def print : Egg → List Tok
  | .bool b => [.lparen, .bool, if b then .true else .false, .rparen]
  | .var n => [.lparen, .var, .string n, .rparen]
  | .not a => .lparen :: .not :: print a ++ [.rparen]
  | .implies a b => .lparen :: .implies :: print a ++ print b ++ [.rparen]
  | .equiv a b => .lparen :: .equiv :: print a ++ print b ++ [.rparen]
  | .and2 a b => .lparen :: .and 2 :: print a ++ print b ++ [.rparen]
  | .and3 a b c => .lparen :: .and 3 :: print a ++ print b ++ print c ++ [.rparen]
  | .and4 a b c d => .lparen :: .and 4 :: print a ++ print b ++ print c ++ print d ++ [.rparen]
  | .or2 a b => .lparen :: .or 2 :: print a ++ print b ++ [.rparen]
  | .or3 a b c => .lparen :: .or 3 :: print a ++ print b ++ print c ++ [.rparen]
  | .or4 a b c d => .lparen :: .or 4 :: print a ++ print b ++ print c ++ print d ++ [.rparen]
  | .global lb ub a =>
      .lparen :: .global :: .lparen :: .interval :: numTok lb :: numTok ub :: .rparen ::
        print a ++ [.rparen]
  | .future lb ub a =>
      .lparen :: .future :: .lparen :: .interval :: numTok lb :: numTok ub :: .rparen ::
        print a ++ [.rparen]
  | .until lb ub a b =>
      .lparen :: .until :: .lparen :: .interval :: numTok lb :: numTok ub :: .rparen ::
        print a ++ print b ++ [.rparen]
  | .release lb ub a b =>
      .lparen :: .release :: .lparen :: .interval :: numTok lb :: numTok ub :: .rparen ::
        print a ++ print b ++ [.rparen]

/-- `interval` (parse_egglog_output.py:145-149). -/
def parseInterval : List Tok → Option ((Nat × Nat) × List Tok)
  | .lparen :: .interval :: .numeral lb :: .numeral ub :: .rparen :: ts => some ((lb, ub), ts)
  | _ => none

/-- The closing parenthesis of a rule. -/
def parseClose {β : Type} (x : β) : List Tok → Option (β × List Tok)
  | .rparen :: ts => some (x, ts)
  | _ => none

mutual
/-- `expr` (parse_egglog_output.py:89-142); signals are kept as the number in their name.  The
LR parser is written as a recursive-descent one, with fuel. -/
def parseExpr : Nat → List Tok → Option (Expr Nat × List Tok)
  | 0, _ => none
  | n + 1, .lparen :: .implies :: ts => do
      let (a, ts) ← parseExpr n ts; let (b, ts) ← parseExpr n ts; parseClose (.imp a b) ts
  | n + 1, .lparen :: .equiv :: ts => do
      let (a, ts) ← parseExpr n ts; let (b, ts) ← parseExpr n ts; parseClose (.iff a b) ts
  | n + 1, .lparen :: .not :: ts => do
      let (a, ts) ← parseExpr n ts; parseClose (.neg a) ts
  | n + 1, .lparen :: .and _ :: ts => do
      let (as, ts) ← parseList n ts; pure (.and as, ts)
  | n + 1, .lparen :: .or _ :: ts => do
      let (as, ts) ← parseList n ts; pure (.or as, ts)
  | n + 1, .lparen :: .future :: ts => do
      let (i, ts) ← parseInterval ts; let (a, ts) ← parseExpr n ts; parseClose (.fut i.1 i.2 a) ts
  | n + 1, .lparen :: .global :: ts => do
      let (i, ts) ← parseInterval ts; let (a, ts) ← parseExpr n ts; parseClose (.glob i.1 i.2 a) ts
  | n + 1, .lparen :: .until :: ts => do
      let (i, ts) ← parseInterval ts; let (a, ts) ← parseExpr n ts; let (b, ts) ← parseExpr n ts
      parseClose (.untl i.1 i.2 a b) ts
  | n + 1, .lparen :: .release :: ts => do
      let (i, ts) ← parseInterval ts; let (a, ts) ← parseExpr n ts; let (b, ts) ← parseExpr n ts
      parseClose (.rel i.1 i.2 a b) ts
  | _ + 1, .lparen :: .bool :: .true :: .rparen :: ts => some (.const true, ts)
  | _ + 1, .lparen :: .bool :: .false :: .rparen :: ts => some (.const false, ts)
  | _ + 1, .lparen :: .var :: .string k :: .rparen :: ts => some (.atom k, ts)
  | _ + 1, _ => none
/-- `expr_list RPAREN` (152-158): one or more expressions. -/
def parseList : Nat → List Tok → Option (List (Expr Nat) × List Tok)
  | 0, _ => none
  | n + 1, ts => do
      let (a, ts) ← parseExpr n ts
      match ts with
      | .rparen :: ts => pure ([a], ts)
      | ts => do let (as, ts) ← parseList n ts; pure (a :: as, ts)
end

/-- `parser.parse` (173): the whole output is one expression. -/
def parseAll (ts : List Tok) : Option (Expr Nat) := do
  match ← parseExpr (ts.length + 1) ts with
  | (e, []) => pure e
  | _ => none

mutual
/-- Replace the signals below the root by the expressions they stand for
(parse_egglog_output.py:183-189).  `none`: a `KeyError`. -/
def replaceAtoms {α : Type} (atomOf : Nat → Option α) : Expr Nat → Option (Expr α)
  | .const b => some (.const b)
  | .atom n => do pure (.atom (← atomOf n))
  | .neg e => do pure (.neg (← replaceAtoms atomOf e))
  | .and cs => do pure (.and (← replaceAtomsL atomOf cs))
  | .or cs => do pure (.or (← replaceAtomsL atomOf cs))
  | .xor l r => do pure (.xor (← replaceAtoms atomOf l) (← replaceAtoms atomOf r))
  | .imp l r => do pure (.imp (← replaceAtoms atomOf l) (← replaceAtoms atomOf r))
  | .iff l r => do pure (.iff (← replaceAtoms atomOf l) (← replaceAtoms atomOf r))
  | .equal l r => do pure (.equal (← replaceAtoms atomOf l) (← replaceAtoms atomOf r))
  | .fut lb ub e => do pure (.fut lb ub (← replaceAtoms atomOf e))
  | .glob lb ub e => do pure (.glob lb ub (← replaceAtoms atomOf e))
  | .untl lb ub l r => do pure (.untl lb ub (← replaceAtoms atomOf l) (← replaceAtoms atomOf r))
  | .rel lb ub l r => do pure (.rel lb ub (← replaceAtoms atomOf l) (← replaceAtoms atomOf r))
  | .once lb ub e => do pure (.once lb ub (← replaceAtoms atomOf e))
  | .hist lb ub e => do pure (.hist lb ub (← replaceAtoms atomOf e))
  | .since lb ub l r => do pure (.since lb ub (← replaceAtoms atomOf l) (← replaceAtoms atomOf r))
  | .trig lb ub l r => do pure (.trig lb ub (← replaceAtoms atomOf l) (← replaceAtoms atomOf r))
def replaceAtomsL {α : Type} (atomOf : Nat → Option α) : List (Expr Nat) → Option (List (Expr α))
  | [] => some []
  | c :: cs => do pure ((← replaceAtoms atomOf c) :: (← replaceAtomsL atomOf cs))
end

/-- `parse` (parse_egglog_output.py:161-204).  `atomOf` is `context.atomic_expr_map`;
`signalNamed n` is the declared signal whose name is `aN`, if there is one.  `replace` works
through the parents of a node, so when the whole output is one signal nothing is replaced: the
result is the new `Signal` object with the name `aN` (`KeyError` in the type check when no such
signal is declared, type_check.py:63-80). -/
def importEgg {α : Type} (atomOf signalNamed : Nat → Option α) (ts : List Tok) : Option (Expr α) := do
  match ← parseAll ts with
  | .atom n => do
      let _ ← atomOf n
      pure (.atom (← signalNamed n))
  | e => replaceAtoms atomOf e

end Eqsat
end R2U2
