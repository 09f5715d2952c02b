import Verif.Model.Cpt
/-
Model of the C program that `generate_sabre_code` writes (sabre.py:18-437).

The formula is the list of its nodes in the order of `cpt.postorder`: an operand is given by the
position of an earlier node, so sub-formulas may be shared.  A word has `2^L` bits (`L` is 3, 4, 5
or 6); its most significant bit is the earliest time.  `uint64_t` counters are not bounded: `word`
stays below 2^64.  Where the C program's behaviour is undefined - reading past the end of a buffer,
shifting by more than the width of a word - the model takes an arbitrary value (`Undef`).
-/
namespace R2U2
namespace Sabre

/-- The nodes `gen_compute_expr_code_func` handles (sabre.py:55-128), and signals (sabre.py:139-141).
A signal is the number in its name. -/
inductive Node where
  | atom (aid : Nat)
  | const (b : Bool)
  | neg (k : Nat)
  | and (ks : List Nat)
  | or (ks : List Nat)
  | imp (l r : Nat)
  | iff (l r : Nat)
  | xor (l r : Nat)
  | fut (lb ub k : Nat)
  | glob (lb ub k : Nat)
  | untl (lb ub l r : Nat)
deriving DecidableEq

/-- `expr.children`. -/
def Node.kids : Node → List Nat
  | .atom _ | .const _ => []
  | .neg k | .fut _ _ k | .glob _ _ k => [k]
  | .and ks | .or ks => ks
  | .imp l r | .iff l r | .xor l r | .untl _ _ l r => [l, r]

/-- `expr.interval.ub`, or 0 (sabre.py:153). -/
def Node.ub : Node → Nat
  | .fut _ ub _ | .glob _ ub _ | .untl _ ub _ _ => ub
  | _ => 0

/-- A loop `for expr in cpt.postorder(formula)` that records something about each node, using what
it recorded for the operands. -/
def scan {β : Type} (f : List β → Node → β) (ns : List Node) : List β :=
  ns.foldl (fun bs n => bs ++ [f bs n]) []

/-- `word_wpd` of a node from the operands' (sabre.py:152-154). -/
def nodeWpd (L : Nat) (ws : List Nat) (n : Node) : Nat :=
  ((2 ^ L - 1) + n.ub) / 2 ^ L + (n.kids.map fun c => ws.getD c 0).foldr max 0

/-- `word_wpd` of the node at position `k`. -/
def wordWpd (L : Nat) (ns : List Node) (k : Nat) : Nat := (scan (nodeWpd L) ns).getD k 0

/-- `bit_length` of an `int`. -/
def bitLength (n : Nat) : Nat := if n = 0 then 0 else n.log2 + 1

/-- `size[expr]`, the same for all nodes (sabre.py:156-160, `BUFSZ2` is `True`). -/
def ringSize (L : Nat) (ns : List Node) : Nat := 1 <<< bitLength (wordWpd L ns (ns.length - 1))

/-- `buffer_size[expr]` (sabre.py:344). -/
def bufferSize (L lb ub : Nat) : Nat := ((2 ^ L - 1) + ub) / 2 ^ L - lb / 2 ^ L + 1

/-- Values where C has undefined behaviour: `buf[i]` beyond the buffer (`read`), and
`(x << r) | (y >> (W - r))` with `r` at least the word size (`look`). -/
structure Undef (W : Nat) where
  read : Nat → BitVec W
  look : BitVec W → BitVec W → Nat → BitVec W

/-- Index of word `x` in an array of `S` words: `x % S` on `uint64_t` (`S` is a power of two). -/
def slot (S : Nat) (x : Int) : Nat := (x % (S : Int)).toNat

/-- Assignment to an array element. -/
def upd {β : Type} (b : Nat → β) (i : Nat) (v : β) : Nat → β := fun k => if k = i then v else b k

/-- `for(i = 0; i < n; ++i) b[i] = f(b, i)`, in place. -/
def forUp {β : Type} (n : Nat) (f : (Nat → β) → Nat → β) (b : Nat → β) : Nat → β :=
  (List.range n).foldl (fun b i => upd b i (f b i)) b

/-- `for(; j <= bound; j <<= 1) buf = body(j, buf)`; the fuel `bound + 1` is enough. -/
def loopFrom {γ : Type} (body : Nat → γ → γ) (bound : Nat) : Nat → Nat → γ → Nat × γ
  | 0, j, b => (j, b)
  | fuel + 1, j, b =>
      if j ≤ bound then loopFrom body bound fuel (j <<< 1) (body j b) else (j, b)

/-- Bound of the first loop (sabre.py:216, 250, 292): half a word, or half the window. -/
def firstBound (L n : Nat) : Nat := if 2 ^ L / 2 < n >>> 1 then 2 ^ L / 2 else n >>> 1

/-- `(x << r) | (y >> (W - r))`. -/
def look {W : Nat} (U : Undef W) (x y : BitVec W) (r : Nat) : BitVec W :=
  if r < W then (x <<< r) ||| (y >>> (W - r)) else U.look x y r

/-- Word `i` of `buf` after the first loop of `future` (sabre.py:206-213): the operand's words from
`base` on, moved `lb` positions to the front. -/
def shifted (L S : Nat) (a : Nat → BitVec (2 ^ L)) (base : Int) (lb i : Nat) : BitVec (2 ^ L) :=
  if lb &&& (2 ^ L - 1) = 0 then a (slot S (base + i + (lb >>> L : Nat)))
  else (a (slot S (base + i + (lb >>> L : Nat))) <<< (lb &&& (2 ^ L - 1))) |||
    (a (slot S (base + i + (lb >>> L : Nat) + 1)) >>> (2 ^ L - (lb &&& (2 ^ L - 1))))

/-- The three loops that `future`, `global` and `until` have in common (sabre.py:192-199, 215-233,
249-266, 291-318).  `N` bounds the first two, `n` gives the last step. -/
def phases {γ : Type} (L N n : Nat) (body1 body2 body3 : Nat → γ → γ) (b : γ) : γ :=
  let (j, b) := loopFrom body1 (firstBound L N) (firstBound L N + 1) 1 b
  let (j, b) := loopFrom body2 (N >>> 1) (N >>> 1 + 1) j b
  let r := n &&& (j - 1)
  if r ≠ 0 then body3 r b else b

/-- `future` and `global` (sabre.py:202-268): the same text, with `|=` for `future` and `&=` for
`global`. -/
def window (L : Nat) (op : BitVec (2 ^ L) → BitVec (2 ^ L) → BitVec (2 ^ L)) (S : Nat)
    (U : Undef (2 ^ L)) (a : Nat → BitVec (2 ^ L)) (nbuf : Nat) (base : Int) (lb ub : Nat) :
    BitVec (2 ^ L) :=
  phases L (ub - lb + 1) (ub - lb + 1)
    (fun j buf =>
      let buf := forUp (nbuf - 1)
        (fun b i => op (b i) ((b i <<< j) ||| (b (i + 1) >>> (2 ^ L - j)))) buf
      upd buf (nbuf - 1) (op (buf (nbuf - 1)) (buf (nbuf - 1) <<< j)))
    (fun j buf => forUp (nbuf - (j >>> L)) (fun b i => op (b i) (b (i + (j >>> L)))) buf)
    (fun r buf => forUp nbuf (fun b i => op (b i)
        (if r &&& (2 ^ L - 1) = 0 then b (i + (r >>> L)) else look U (b i) (b (i + 1)) r)) buf)
    (fun i => if i < nbuf then shifted L S a base lb i else U.read i) 0

/-- `buf1[i]` and `buf2[i]` of `until`, updated by one step that looks `x1`, `x2` ahead. -/
def untilStep {W : Nat} (b : BitVec W × BitVec W) (x1 x2 : BitVec W) : BitVec W × BitVec W :=
  (b.1 &&& x1, b.2 ||| (b.1 &&& x2))

/-- `until` (sabre.py:270-321).  The first two loops go by `ub + 1`, the last step by
`ub - lb + 1`, as in the C text. -/
def untilFn (L S : Nat) (U1 U2 : Undef (2 ^ L)) (a1 a2 : Nat → BitVec (2 ^ L)) (nbuf : Nat)
    (base : Int) (lb ub : Nat) : BitVec (2 ^ L) :=
  (phases L (ub + 1) (ub - lb + 1)
    (fun j buf =>
      let buf := forUp (nbuf - 1) (fun b i => untilStep (b i)
        (((b i).1 <<< j) ||| ((b (i + 1)).1 >>> (2 ^ L - j)))
        (((b i).2 <<< j) ||| ((b (i + 1)).2 >>> (2 ^ L - j)))) buf
      upd buf (nbuf - 1) (untilStep (buf (nbuf - 1)) ((buf (nbuf - 1)).1 <<< j)
        ((buf (nbuf - 1)).2 <<< j)))
    (fun j buf => forUp (nbuf - (j >>> L)) (fun b i => untilStep (b i) (b (i + (j >>> L))).1
        (b (i + (j >>> L))).2) buf)
    (fun r buf => forUp nbuf (fun b i => untilStep (b i)
        (if r &&& (2 ^ L - 1) = 0 then (b (i + (r >>> L))).1 else look U1 (b i).1 (b (i + 1)).1 r)
        (if r &&& (2 ^ L - 1) = 0 then (b (i + (r >>> L))).2 else look U2 (b i).2 (b (i + 1)).2 r))
      buf)
    (fun i => if i < nbuf then (shifted L S a1 base lb i, shifted L S a2 base lb i)
      else (U1.read i, U2.read i)) 0).2

/-- The arrays of `main`: `atomics[aid]` and `f_k` (sabre.py:329-334). -/
structure St (L : Nat) where
  atm : Nat → Nat → BitVec (2 ^ L)
  mem : Nat → Nat → BitVec (2 ^ L)

/-- The array called `fid[expr]` (sabre.py:139-144). -/
def arr {L : Nat} (ns : List Node) (s : St L) (k : Nat) : Nat → BitVec (2 ^ L) :=
  match ns[k]? with
  | some (.atom a) => s.atm a
  | _ => s.mem k

/-- The right-hand side of the assignment generated for a node (sabre.py:43-128); `base` is
`word - word_wpd[expr]`.  A conjunction or disjunction without operands is not generated (the C
text would not compile). -/
def value {L : Nat} (U1 U2 : Undef (2 ^ L)) (ns : List Node) (s : St L) (base : Int) :
    Node → BitVec (2 ^ L)
  | .atom _ => 0
  | .const b => if b then 1 else 0
  | .neg k => ~~~ (arr ns s k (slot (ringSize L ns) base))
  | .and ks => match ks.map fun k => arr ns s k (slot (ringSize L ns) base) with
      | [] => 0
      | x :: xs => xs.foldl (fun a b => a &&& b) x
  | .or ks => match ks.map fun k => arr ns s k (slot (ringSize L ns) base) with
      | [] => 0
      | x :: xs => xs.foldl (fun a b => a ||| b) x
  | .imp l r => (~~~ (arr ns s l (slot (ringSize L ns) base))) ||| arr ns s r (slot (ringSize L ns) base)
  | .iff l r =>
      if arr ns s l (slot (ringSize L ns) base) = arr ns s r (slot (ringSize L ns) base) then 1 else 0
  | .xor l r => arr ns s l (slot (ringSize L ns) base) ^^^ arr ns s r (slot (ringSize L ns) base)
  | .fut lb ub k => window L (fun x y => x ||| y) (ringSize L ns) U1 (arr ns s k)
      (bufferSize L lb ub) base lb ub
  | .glob lb ub k => window L (fun x y => x &&& y) (ringSize L ns) U1 (arr ns s k)
      (bufferSize L lb ub) base lb ub
  | .untl lb ub l r => untilFn L (ringSize L ns) U1 U2 (arr ns s l) (arr ns s r)
      (bufferSize L lb ub) base lb ub

/-- Reading one word of each signal (sabre.py:383-392): row `t` of the input has the number
`rows t i` in column `i`. -/
def readInputs (L nsigs S : Nat) (rows : Nat → Nat → Int) (word : Nat) (s : St L) : St L where
  atm i k :=
    if i < nsigs ∧ k = word % S then
      (List.range (2 ^ L)).foldl
        (fun x q => (x <<< 1) ||| (if rows (word * 2 ^ L + q) i = 1 then 1 else 0)) (s.atm i k)
    else s.atm i k
  mem := s.mem

/-- The assignment generated for the node at position `k` (sabre.py:397-400). -/
def assign {L : Nat} (U : Nat → Nat → Undef (2 ^ L) × Undef (2 ^ L)) (ns : List Node) (word : Nat)
    (s : St L) (k : Nat) : St L :=
  match ns[k]? with
  | none | some (.atom _) => s
  | some n =>
      let base : Int := word - wordWpd L ns k
      { s with mem := upd s.mem k (upd (s.mem k) (slot (ringSize L ns) base)
          (value (U word k).1 (U word k).2 ns s base n)) }

/-- `fid[expr][(word + 1) % size] = 0` for the node at position `k` (sabre.py:421-422). -/
def clear {L : Nat} (ns : List Node) (word : Nat) (s : St L) (k : Nat) : St L :=
  match ns[k]? with
  | none => s
  | some (.atom a) => { s with atm := upd s.atm a (upd (s.atm a) ((word + 1) % ringSize L ns) 0) }
  | some _ => { s with mem := upd s.mem k (upd (s.mem k) ((word + 1) % ringSize L ns) 0) }

/-- The state before the outputs of an iteration of `while(1)` (sabre.py:362-400). -/
def compute {L : Nat} (U : Nat → Nat → Undef (2 ^ L) × Undef (2 ^ L)) (ns : List Node) (nsigs : Nat)
    (rows : Nat → Nat → Int) (word : Nat) (s : St L) : St L :=
  (List.range ns.length).foldl (assign U ns word) (readInputs L nsigs (ringSize L ns) rows word s)

/-- `while(1)`, after `n` whole words of input: the arrays and the words printed so far
(sabre.py:355-437). -/
def run {L : Nat} (U : Nat → Nat → Undef (2 ^ L) × Undef (2 ^ L)) (ns : List Node) (nsigs : Nat)
    (rows : Nat → Nat → Int) (init : St L) : Nat → St L × List (BitVec (2 ^ L))
  | 0 => (init, [])
  | word + 1 =>
      let (s, out) := run U ns nsigs rows init word
      let s := compute U ns nsigs rows word s
      let root := ns.length - 1
      let out := if wordWpd L ns root ≤ word then
          out ++ [arr ns s root (slot (ringSize L ns) ((word : Int) - wordWpd L ns root))] else out
      ((List.range ns.length).foldl (clear ns word) s, out)

end Sabre
end R2U2
