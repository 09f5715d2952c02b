import Verif.Model.Parser
/-
The C2PO language, stated apart from the parser: which sequences of tokens are programs, and what they mean.

The tokens and the trees are those of the model; nothing here mentions a stack, a step or a lookahead.
-/
namespace R2U2
namespace C2po

/-- The operators written between their operands, from the loosest, 1, to the tightest, 13 (parse_c2po.py:122-138).  Between them,
4 are the temporal operators with two operands, 5 those with one. -/
def infixAt : Nat → List OpK
  | 1 => [.imp, .xor, .iff]
  | 2 => [.or]
  | 3 => [.and]
  | 6 => [.bitOr]
  | 7 => [.bitXor]
  | 8 => [.bitAnd]
  | 9 => [.eq, .ne]
  | 10 => [.gt, .lt, .ge, .le]
  | 11 => [.shl, .shr]
  | 12 => [.add, .sub]
  | 13 => [.mul, .div, .mod, .pow]
  | _ => []

/-- A bound of an interval: a number that is not negative, or `M`, the mission time, if there is one. -/
inductive BoundIs (mission : Int) : Tok → Nat → Prop
  | num (n : Nat) : BoundIs mission (.num n) n
  | mission (n : Nat) : mission = n → BoundIs mission .mission n

/-- `[ub]` or `[lb, ub]`. -/
inductive IntervalIs (mission : Int) : List Tok → Nat → Nat → Prop
  | upto {b : Tok} {ub : Nat} : BoundIs mission b ub → IntervalIs mission [.lbrack, b, .rbrack] 0 ub
  | between {a b : Tok} {lb ub : Nat} : BoundIs mission a lb → BoundIs mission b ub →
      IntervalIs mission [.lbrack, a, .comma, b, .rbrack] lb ub

/-- `Reads lo hi ts e`: the tokens are an expression and mean `e`.

`lo` is the level of the loosest operator whose left operand starts the text, `hi` that of the loosest operator whose right operand
ends it; 15 if there is none.  An operator takes operands whose operators, on the side where they touch it, bind more tightly;
on the left as tightly is enough, so operators of one level group to the left.  On the other side operands are free: in `a == G[0,1] b | c`
the operator `G`, looser than `==`, still ends the right operand of `==`, and takes `b | c`. -/
inductive Reads (lits : List String) (mission : Int) : Nat → Nat → List Tok → Src → Prop
  | tru : Reads lits mission 15 15 [.tru] (mkLit (.bool true))
  | fls : Reads lits mission 15 15 [.fls] (mkLit (.bool false))
  | num (i : Int) : Reads lits mission 15 15 [.num i] (mkLit (.int i))
  | dec (s : String) : Reads lits mission 15 15 [.dec s] (mkLit (.float s))
  | tau : Reads lits mission 15 15 [.tau] (.node .tau .none [])
  | signal (s : String) : s ∈ lits → Reads lits mission 15 15 [.sym s] (.node (.sig s) .none [])
  | name (s : String) : s ∉ lits → Reads lits mission 15 15 [.sym s] (.node (.var s) .none [])
  | paren {lo hi : Nat} {t : List Tok} {e : Src} : Reads lits mission lo hi t e → Reads lits mission 15 15 (.lparen :: (t ++ [.rparen])) e
  | unit (f : String) : Reads lits mission 15 15 [.sym f, .lparen, .rparen] (mkCall f [])
  | call {lo hi : Nat} {t : List Tok} {e : Src} (f : String) (more : List (Nat × Nat × List Tok × Src)) :
      Reads lits mission lo hi t e → (∀ i ∈ more, Reads lits mission i.1 i.2.1 i.2.2.1 i.2.2.2) →
      Reads lits mission 15 15 (.sym f :: .lparen :: (t ++ (more.flatMap (fun i => .comma :: i.2.2.1) ++ [.rparen])))
        (mkCall f (e :: more.map fun i => i.2.2.2))
  | array {lo hi : Nat} {t : List Tok} {e : Src} (more : List (Nat × Nat × List Tok × Src)) :
      Reads lits mission lo hi t e → (∀ i ∈ more, Reads lits mission i.1 i.2.1 i.2.2.1 i.2.2.2) →
      Reads lits mission 15 15 (.lbrace :: (t ++ (more.flatMap (fun i => .comma :: i.2.2.1) ++ [.rbrace])))
        (mkArray (e :: more.map fun i => i.2.2.2))
  | fn {lo hi : Nat} {t : List Tok} {e : Src} (o : OpK) : o ∈ [OpK.sqrt, .abs] → Reads lits mission lo hi t e →
      Reads lits mission 15 15 (.op o :: .lparen :: (t ++ [.rparen])) (mkOp o [e])
  | prev {lo hi lo' hi' : Nat} {t u : List Tok} {e d : Src} : Reads lits mission lo hi t e → Reads lits mission lo' hi' u d →
      Reads lits mission 15 15 (.op .prev :: .lparen :: (t ++ .comma :: (u ++ [.rparen]))) (mkOp .prev [e, d])
  | all {lo hi lo' hi' : Nat} {t u : List Tok} {e d : Src} (k : AggK) (v : String) : k ∈ [AggK.each, .some] →
      Reads lits mission lo hi t e → Reads lits mission lo' hi' u d →
      Reads lits mission 15 15 (.agg k :: .lparen :: .sym v :: .colon :: (t ++ .rparen :: .lparen :: (u ++ [.rparen]))) (mkAgg k v [e, d])
  | count {lo hi lo' hi' lo'' hi'' : Nat} {t n u : List Tok} {e c d : Src} (k : AggK) (v : String) : k ∈ [AggK.exactly, .atLeast, .atMost] →
      Reads lits mission lo hi t e → Reads lits mission lo'' hi'' n c → Reads lits mission lo' hi' u d →
      Reads lits mission 15 15
        (.agg k :: .lparen :: .sym v :: .colon :: (t ++ .comma :: (n ++ .rparen :: .lparen :: (u ++ [.rparen])))) (mkAgg k v [e, c, d])
  | access {t : List Tok} {e : Src} (m : String) : Reads lits mission 15 15 t e →
      Reads lits mission 15 15 (t ++ [.dot, .sym m]) (.node (.access m) .none [e])
  | index {t : List Tok} {e : Src} (i : Int) : Reads lits mission 15 15 t e →
      Reads lits mission 15 15 (t ++ [.lbrack, .num i, .rbrack]) (.node (.index i) .none [e])
  | slice {t : List Tok} {e : Src} (i j : Int) : Reads lits mission 15 15 t e →
      Reads lits mission 15 15 (t ++ [.lbrack, .num i, .ddot, .num j, .rbrack]) (.node (.slice i j) .none [e])
  | «prefix» {lo hi : Nat} {t : List Tok} {e : Src} (o : OpK) : o ∈ [OpK.neg, .bitNeg, .sub] → Reads lits mission lo hi t e → 14 < lo →
      Reads lits mission 15 (min 14 hi) (.op o :: t) (mkOp o [e])
  | during {lo hi lb ub : Nat} {i t : List Tok} {e : Src} (k : TmpK) : k ∈ [TmpK.G, .F, .H, .O] → IntervalIs mission i lb ub →
      Reads lits mission lo hi t e → 5 < lo → Reads lits mission 15 (min 5 hi) (.tl k :: (i ++ t)) (mkTmp k lb ub [e])
  | «infix» {lo hi lo' hi' n : Nat} {t u : List Tok} {e d : Src} (o : OpK) : o ∈ infixAt n →
      Reads lits mission lo hi t e → Reads lits mission lo' hi' u d → n ≤ hi → n < lo' →
      Reads lits mission (min lo n) (min n hi') (t ++ .op o :: u) (mkOp o [e, d])
  | between {lo hi lo' hi' lb ub : Nat} {i t u : List Tok} {e d : Src} (k : TmpK) : k ∈ [TmpK.U, .R, .S, .T] → IntervalIs mission i lb ub →
      Reads lits mission lo hi t e → Reads lits mission lo' hi' u d → 4 ≤ hi → 4 < lo' →
      Reads lits mission (min lo 4) (min 4 hi') (t ++ .tl k :: (i ++ u)) (mkTmp k lb ub [e, d])

/-- The tokens are an expression that means `e`. -/
def IsExpr (lits : List String) (mission : Int) (ts : List Tok) (e : Src) : Prop := ∃ lo hi, Reads lits mission lo hi ts e

/-- The tokens are entries, one after another. -/
def Entries {A : Type} (p : List Tok → A → Prop) (ts : List Tok) (as : List A) : Prop :=
  ∃ is : List (List Tok × A), (∀ i ∈ is, p i.1 i.2) ∧ ts = is.flatMap (·.1) ∧ as = is.map (·.2)

/-- A type: a name, then `[]` or `[n]` any number of times. -/
inductive IsType : List Tok → Typ → Prop
  | bool : IsType [.sym "bool"] .bool
  | int : IsType [.sym "int"] .int
  | float : IsType [.sym "float"] .float
  | struct (s : String) : s ∉ ["bool", "int", "float"] → IsType [.sym s] (.struct s)
  | arr {ts : List Tok} {t : Typ} : IsType ts t → IsType (ts ++ [.lbrack, .rbrack]) (.arr t (-1))
  | sized {ts : List Tok} {t : Typ} (n : Nat) : IsType ts t → IsType (ts ++ [.lbrack, .num n, .rbrack]) (.arr t n)

/-- `a, b, c: type;` -/
inductive IsDecl : List Tok → List String × Typ → Prop
  | mk {tt : List Tok} {t : Typ} (s : String) (more : List String) : IsType tt t →
      IsDecl (.sym s :: (more.flatMap (fun x => [.comma, .sym x]) ++ .colon :: (tt ++ [.semi]))) (s :: more, t)

/-- `S: { a, b: type; c: type; };` -/
inductive IsStruct : List Tok → String × List (List String × Typ) → Prop
  | mk {ds : List Tok} {as : List (List String × Typ)} (s : String) : Entries IsDecl ds as →
      IsStruct (.sym s :: .colon :: .lbrace :: (ds ++ [.rbrace, .semi])) (s, as)

/-- A member of an enumeration: `a` or `a: value`. -/
inductive IsMember (lits : List String) (mission : Int) : List Tok → String × Option Src → Prop
  | bare (s : String) : IsMember lits mission [.sym s] (s, none)
  | value {t : List Tok} {e : Src} (s : String) : IsExpr lits mission t e → IsMember lits mission (.sym s :: .colon :: t) (s, some e)

/-- The members' values: those given, and for the others 0, 1, 2, ... in order. -/
inductive Valued : Nat → List (String × Option Src) → List (String × Src) → Prop
  | nil (n : Nat) : Valued n [] []
  | given {n : Nat} {ms : List (String × Option Src)} {vs : List (String × Src)} (s : String) (e : Src) :
      Valued n ms vs → Valued n ((s, some e) :: ms) ((s, e) :: vs)
  | next {n : Nat} {ms : List (String × Option Src)} {vs : List (String × Src)} (s : String) :
      Valued (n + 1) ms vs → Valued n ((s, none) :: ms) ((s, mkLit (.int n)) :: vs)

/-- `E: { a, b: 5, c };` -/
inductive IsEnum (lits : List String) (mission : Int) : List Tok → String × List (String × Src) → Prop
  | mk {t : List Tok} {m : String × Option Src} {vs : List (String × Src)} (s : String) (front : List (List Tok × (String × Option Src))) :
      (∀ i ∈ front, IsMember lits mission i.1 i.2) → IsMember lits mission t m → Valued 0 (front.map (·.2) ++ [m]) vs →
      IsEnum lits mission (.sym s :: .colon :: .lbrace :: (front.flatMap (fun i => i.1 ++ [.comma]) ++ (t ++ [.rbrace, .semi]))) (s, vs)

/-- `a := value;` -/
inductive IsDef (lits : List String) (mission : Int) : List Tok → String × Src → Prop
  | mk {t : List Tok} {e : Src} (s : String) : IsExpr lits mission t e → IsDef lits mission (.sym s :: .assign :: (t ++ [.semi])) (s, e)

/-- The name of the specification with number `n` if it has no label: `__f`, the number in decimal, `__`. -/
def nameless (n : Nat) : String := "__f" ++ String.ofList (natStr n) ++ "__"

/-- A specification with the number `n`, and the next number: `e;`, `label: e;` or `label: e => e;`.  A contract has three numbers. -/
inductive IsSpec (lits : List String) (mission : Int) (n : Nat) : List Tok → Spec → Nat → Prop
  | plain {t : List Tok} {e : Src} : IsExpr lits mission t e → IsSpec lits mission n (t ++ [.semi]) (.formula (nameless n) n e) (n + 1)
  | label {t : List Tok} {e : Src} (s : String) : IsExpr lits mission t e →
      IsSpec lits mission n (.sym s :: .colon :: (t ++ [.semi])) (.formula s n e) (n + 1)
  | contract {t u : List Tok} {a g : Src} (s : String) : IsExpr lits mission t a → IsExpr lits mission u g →
      IsSpec lits mission n (.sym s :: .colon :: (t ++ .gives :: (u ++ [.semi]))) (.contract s n (n + 1) (n + 2) a g) (n + 3)

/-- Specifications, numbered from `n` on. -/
inductive IsSpecs (lits : List String) (mission : Int) : Nat → List Tok → List Spec → Nat → Prop
  | nil (n : Nat) : IsSpecs lits mission n [] [] n
  | cons {n k m : Nat} {t u : List Tok} {s : Spec} {ss : List Spec} : IsSpec lits mission n t s k → IsSpecs lits mission k u ss m →
      IsSpecs lits mission n (t ++ u) (s :: ss) m

/-- The names declared as signals: those of the declarations whose type is not an array. -/
def signalsOf (ds : List (List String × Typ)) : List String :=
  ds.flatMap fun d => match d.2 with
    | .arr _ _ => []
    | _ => d.1

/-- Sections, one after another, each with at least one entry.  `lits` are the signals declared in earlier sections, `n` the number of
the next specification. -/
inductive IsProgram (mission : Int) : List String → Nat → List Tok → List Section → Prop
  | nil (lits : List String) (n : Nat) : IsProgram mission lits n [] []
  | input {lits : List String} {n : Nat} {t u : List Tok} {ds : List (List String × Typ)} {ss : List Section} : ds ≠ [] →
      Entries IsDecl t ds → IsProgram mission (signalsOf ds ++ lits) n u ss →
      IsProgram mission lits n (.kw .input :: (t ++ u)) (.input ds :: ss)
  | define {lits : List String} {n : Nat} {t u : List Tok} {ds : List (String × Src)} {ss : List Section} : ds ≠ [] →
      Entries (IsDef lits mission) t ds → IsProgram mission lits n u ss → IsProgram mission lits n (.kw .define :: (t ++ u)) (.define ds :: ss)
  | struct {lits : List String} {n : Nat} {t u : List Tok} {ds : List (String × List (List String × Typ))} {ss : List Section} : ds ≠ [] →
      Entries IsStruct t ds → IsProgram mission lits n u ss → IsProgram mission lits n (.kw .struct :: (t ++ u)) (.struct ds :: ss)
  | enum {lits : List String} {n : Nat} {t u : List Tok} {ds : List (String × List (String × Src))} {ss : List Section} : ds ≠ [] →
      Entries (IsEnum lits mission) t ds → IsProgram mission lits n u ss → IsProgram mission lits n (.kw .enum :: (t ++ u)) (.enum ds :: ss)
  | ftspec {lits : List String} {n k : Nat} {t u : List Tok} {sp : List Spec} {ss : List Section} : sp ≠ [] →
      IsSpecs lits mission n t sp k → IsProgram mission lits k u ss → IsProgram mission lits n (.kw .ftspec :: (t ++ u)) (.spec true sp :: ss)
  | ptspec {lits : List String} {n k : Nat} {t u : List Tok} {sp : List Spec} {ss : List Section} : sp ≠ [] →
      IsSpecs lits mission n t sp k → IsProgram mission lits k u ss → IsProgram mission lits n (.kw .ptspec :: (t ++ u)) (.spec false sp :: ss)

end C2po
end R2U2
