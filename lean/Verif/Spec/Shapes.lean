import Verif.Model.Cpt
/-
Syntactic normal forms, stated directly on expressions.
-/
namespace R2U2
variable {α : Type}

/-- Boolean Normal Form: "only negation, conjunction, and until operators". -/
inductive IsBNF : Expr α → Prop
  | const (b) : IsBNF (.const b)
  | atom (a) : IsBNF (.atom a)
  | neg {e} : IsBNF e → IsBNF (.neg e)
  | and {cs} : (∀ c ∈ cs, IsBNF c) → IsBNF (.and cs)
  | untl {lb ub l r} : IsBNF l → IsBNF r → IsBNF (.untl lb ub l r)

/-- Negative Normal Form: negation only in front of literals (atoms and
constants), and no implication / exclusive or.  (`<->` without negation in front
of it is kept by the compiler and allowed here.) -/
inductive IsNNF : Expr α → Prop
  | const (b) : IsNNF (.const b)
  | atom (a) : IsNNF (.atom a)
  | negConst (b) : IsNNF (.neg (.const b))
  | negAtom (a) : IsNNF (.neg (.atom a))
  | and {cs} : (∀ c ∈ cs, IsNNF c) → IsNNF (.and cs)
  | or {cs} : (∀ c ∈ cs, IsNNF c) → IsNNF (.or cs)
  | iff {l r} : IsNNF l → IsNNF r → IsNNF (.iff l r)
  | fut {lb ub e} : IsNNF e → IsNNF (.fut lb ub e)
  | glob {lb ub e} : IsNNF e → IsNNF (.glob lb ub e)
  | untl {lb ub l r} : IsNNF l → IsNNF r → IsNNF (.untl lb ub l r)
  | rel {lb ub l r} : IsNNF l → IsNNF r → IsNNF (.rel lb ub l r)

/-- Only future-time operators, Boolean connectives other than `==`. -/
inductive IsFuture : Expr α → Prop
  | const (b) : IsFuture (.const b)
  | atom (a) : IsFuture (.atom a)
  | neg {e} : IsFuture e → IsFuture (.neg e)
  | and {cs} : (∀ c ∈ cs, IsFuture c) → IsFuture (.and cs)
  | or {cs} : (∀ c ∈ cs, IsFuture c) → IsFuture (.or cs)
  | xor {l r} : IsFuture l → IsFuture r → IsFuture (.xor l r)
  | imp {l r} : IsFuture l → IsFuture r → IsFuture (.imp l r)
  | iff {l r} : IsFuture l → IsFuture r → IsFuture (.iff l r)
  | fut {lb ub e} : IsFuture e → IsFuture (.fut lb ub e)
  | glob {lb ub e} : IsFuture e → IsFuture (.glob lb ub e)
  | untl {lb ub l r} : IsFuture l → IsFuture r → IsFuture (.untl lb ub l r)
  | rel {lb ub l r} : IsFuture l → IsFuture r → IsFuture (.rel lb ub l r)

/-- No node of `e` satisfies `bad`. -/
inductive Nowhere (bad : Expr α → Prop) : Expr α → Prop
  | intro (e) : ¬ bad e → (∀ c ∈ e.children, Nowhere bad c) → Nowhere bad e

def isIff : Expr α → Prop
  | .iff _ _ => True
  | _ => False

def isXor : Expr α → Prop
  | .xor _ _ => True
  | _ => False

def isRelease : Expr α → Prop
  | .rel _ _ _ _ => True
  | _ => False

/-- xor, ->, F, G, O or H: the operators the monitor does not execute. -/
def isExtended : Expr α → Prop
  | .xor _ _ | .imp _ _ | .fut _ _ _ | .glob _ _ _ | .once _ _ _ | .hist _ _ _ => True
  | _ => False

/-- an operator with more than two operands -/
def isWide (e : Expr α) : Prop := 2 < e.children.length

/-- `!(p -> q)`, `!(p xor q)`, or `!!p` with `p` neither atom nor constant -/
def isHardNeg : Expr α → Prop
  | .neg (.imp _ _) | .neg (.xor _ _) => True
  | .neg (.neg (.atom _)) | .neg (.neg (.const _)) => False
  | .neg (.neg _) => True
  | _ => False

/-- an operator whose interval `[lb,ub]` has `lb > ub` -/
def isDisordered : Expr α → Prop
  | .fut lb ub _ | .glob lb ub _ | .once lb ub _ | .hist lb ub _ => ub < lb
  | .untl lb ub _ _ | .rel lb ub _ _ | .since lb ub _ _ | .trig lb ub _ _ => ub < lb
  | _ => False

/-- `&&` or `||` with other than two operands -/
def isNonBinary : Expr α → Prop
  | .and cs | .or cs => cs.length ≠ 2
  | _ => False

def isConst : Expr α → Prop
  | .const _ => True
  | _ => False

/-- `l == r` where some side contains a constant without being `true` itself -/
def isConstEqual : Expr α → Prop
  | .equal l r => ¬ ((l = .const true ∨ Nowhere isConst l) ∧ (r = .const true ∨ Nowhere isConst r))
  | _ => False

mutual
/-- The leaves of an expression from left to right. -/
def leaves : Expr α → List (Bool ⊕ α)
  | .const b => [.inl b]
  | .atom a => [.inr a]
  | .neg e => leaves e
  | .and cs | .or cs => leavesL cs
  | .xor l r | .imp l r | .iff l r | .equal l r => leaves l ++ leaves r
  | .fut _ _ e | .glob _ _ e | .once _ _ e | .hist _ _ e => leaves e
  | .untl _ _ l r | .rel _ _ l r | .since _ _ l r | .trig _ _ l r => leaves l ++ leaves r
def leavesL : List (Expr α) → List (Bool ⊕ α)
  | [] => []
  | c :: cs => leaves c ++ leavesL cs
end

/-- `e'` is `e` with the operands of `&&`, `||`, `xor`, `<->`, `==` reordered,
at any depth. -/
inductive Reordered : Expr α → Expr α → Prop
  | refl (e) : Reordered e e
  | trans {a b c} : Reordered a b → Reordered b c → Reordered a c
  | and {cs cs'} : cs.Perm cs' → Reordered (.and cs) (.and cs')
  | or {cs cs'} : cs.Perm cs' → Reordered (.or cs) (.or cs')
  | xor (l r) : Reordered (.xor l r) (.xor r l)
  | iff (l r) : Reordered (.iff l r) (.iff r l)
  | equal (l r) : Reordered (.equal l r) (.equal r l)
  | inside {g : Expr α → Expr α} (e) :
      (∀ c ∈ e.children, Reordered c (g c)) → Reordered e (e.mapChildren g)

/-- The operators whose operands may be reordered. -/
def isCommutative : Expr α → Prop
  | .and _ | .or _ | .xor _ _ | .iff _ _ | .equal _ _ => True
  | _ => False

/-- A commutative operator with an operand of larger `key` before one of
smaller `key`. -/
def isUnsorted (key : Expr α → Int) (e : Expr α) : Prop :=
  isCommutative e ∧ ¬ e.children.Pairwise (fun a b => key a ≤ key b)

/-- F or G over more than one time step, or U, R -/
def isUnrollable : Expr α → Prop
  | .fut lb ub _ | .glob lb ub _ => lb ≠ ub
  | .untl _ _ _ _ | .rel _ _ _ _ => True
  | _ => False

/-- F, G or U whose interval is neither a point nor `[0, 2^n - 1]` -/
def isUndecomposed : Expr α → Prop
  | .fut lb ub _ | .glob lb ub _ | .untl lb ub _ _ => ¬ (lb = ub ∨ (lb = 0 ∧ ∃ n, ub = 2 ^ n - 1))
  | _ => False

/-- O, H, S or T -/
def isPast : Expr α → Prop
  | .once _ _ _ | .hist _ _ _ | .since _ _ _ _ | .trig _ _ _ _ => True
  | _ => False

/-- F, G, U or R -/
def isFutureOp : Expr α → Prop
  | .fut _ _ _ | .glob _ _ _ | .untl _ _ _ _ | .rel _ _ _ _ => True
  | _ => False

/-- Past operators for which the constructors record a delay that does not cover
the inputs they look at: O, H over an operand with a delay range, S, T over more
than one time step. -/
def isMisdelayed : Expr α → Prop
  | .once _ _ e | .hist _ _ e => e.bpd ≠ e.wpd
  | .since lb ub _ _ | .trig lb ub _ _ => lb ≠ ub
  | _ => False

end R2U2
