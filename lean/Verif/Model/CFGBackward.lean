import Verif.Model.CKY
import Verif.Model.TreeBackward

/-! Model of `SentCFG.marginals` on potentials that may be `-inf`: the backward pass of `CKY.marginals` (cky.py:106-112) through `CKY.logpartition`
(cky.py:8-79), tensor by tensor, with NaN.  See Model/TreeBackward.lean.

The pass works on every row of the batch separately; `b` is fixed below.  It is written for any type of numbers `G` with an addition and a multiplication, and run
on `IEEE`. -/

noncomputable section

namespace CFGBackward
open CKY

/-- The arithmetic of gradients. (helpers.py:32-34; torch adds and multiplies gradients) -/
structure Ops (G : Type) where
  zero : G
  one : G
  add : G → G → G
  mul : G → G → G

/-- The sum over `f 0, …, f (n - 1)`. (a broadcast dimension of semirings.py:15-16 backwards) -/
def Ops.all {G : Type} (D : Ops G) (n : ℕ) (f : ℕ → G) : G := ((List.range n).map f).foldr D.add D.zero

/-- Floating point without rounding. (torch tensors of gradients, cky.py:106-112) -/
def ieee : Ops IEEE := ⟨.ofReal 0, .ofReal 1, IEEE.add, IEEE.mul⟩

/-- The factors in the backward formulas of the `logsumexp`s of the forward pass.  The four products `X1`, `X2`, `X3`, `X4` (cky.py:55, 62, 65, 69) are told apart
by `l r`: whether the left and whether the right child is a preterminal.
* `part l r w i X`: of `X1 … X4` in `span[w]` (cky.py:72);
* `entry l r w i X y z`: of the pair of children `y z` in `X1 … X4`;
* `split w i u y z`: of the position `u` in `matmul(Y.transpose(-2, -1), Z)` (cky.py:55);
* `top X`: of the root symbol in `dot(top, roots)` (cky.py:78). -/
structure Factors (G : Type) where
  part : Bool → Bool → ℕ → ℕ → ℕ → G
  entry : Bool → Bool → ℕ → ℕ → ℕ → ℕ → ℕ → G
  split : ℕ → ℕ → ℕ → ℕ → ℕ → G
  top : ℕ → G

/-- The gradients that have arrived so far: at the charts, at the three tables and at the intermediate tensors `span[w]`. (cky.py:29-31, 79, 131) -/
structure Adj (G : Type) where
  A : ℕ → ℕ → ℕ → G
  B : ℕ → ℕ → ℕ → G
  term : ℕ → ℕ → G
  rule : ℕ → ℕ → ℕ → G
  root : ℕ → G
  span : ℕ → ℕ → ℕ → G

section pass
variable {G : Type} (D : Ops G) (f : Factors G) (N NT T : ℕ)

/-- Lines 76-78 of cky.py backwards: the gradient of `log_Z` is 1 (cky.py:107); entry `last` of the first row of `beta[A]` was read. -/
def start (last : ℕ) : Adj G where
  A i v X := if i = 0 ∧ v = last then D.mul D.one (f.top X) else D.zero
  B _ _ _ := D.zero
  term _ _ := D.zero
  rule _ _ _ := D.zero
  root X := D.mul D.one (f.top X)
  span _ _ _ := D.zero

/-- The gradient of `span[w]`: what has arrived at the two slices that it is assigned to (cky.py:73-74). -/
def newGrad (g : Adj G) (w i X : ℕ) : G := D.add (g.A i w X) (g.B (i + w) (N - w - 1) X)

/-- The gradient of an entry of `X1 … X4`, times the factor of the pair of children (cky.py:55, 62, 65, 69, 72 backwards). -/
def useGrad (g : Adj G) (l r : Bool) (w i X y z : ℕ) : G := D.mul (D.mul (newGrad D N g w i X) (f.part l r w i X)) (f.entry l r w i X y z)

/-- The gradient of the left operand of the second `matmul` (cky.py:55, 62, 65, 69): all parents are collected. -/
def pairGrad (g : Adj G) (l r : Bool) (w i y z : ℕ) : G := D.all NT fun X => useGrad D f N g l r w i X y z

/-- The gradient of the rules in an iteration: all positions are collected. (cky.py:39-40, 55, 62, 65, 69 backwards) -/
def ruleGrad (g : Adj G) (l r : Bool) (w X y z : ℕ) : G := D.all (N - w) fun i => useGrad D f N g l r w i X y z

/-- The body of the loop (cky.py:49-74) backwards. -/
def backStep (g : Adj G) (w : ℕ) : Adj G where
  A i v X :=
    if i < N - w then
      if v < w then
        D.add (D.add (g.A i v X) (D.all NT fun z => D.mul (pairGrad D f N NT g false false w i X z) (f.split w i v X z)))
          (if v = w - 1 then D.all T fun z => pairGrad D f N NT g false true w i X z else D.zero)
      else if v = w then D.zero
      else g.A i v X
    else g.A i v X
  B j v X :=
    if w ≤ j ∧ j < N then
      if N - w ≤ v ∧ v < N then
        D.add (D.add (g.B j v X) (D.all NT fun y => D.mul (pairGrad D f N NT g false false w (j - w) y X) (f.split w (j - w) (v - (N - w)) y X)))
          (if v = N - w then D.all T fun y => pairGrad D f N NT g true false w (j - w) y X else D.zero)
      else if v = N - w - 1 then D.zero
      else g.B j v X
    else g.B j v X
  term n t :=
    D.add (D.add (g.term n t) (D.add
      (if w ≤ n ∧ n < N then D.all NT fun y => pairGrad D f N NT g false true w (n - w) y t else D.zero)
      (if n < N - w then D.all NT fun z => pairGrad D f N NT g true false w n t z else D.zero)))
      (if w = 1 then D.add
        (if n < N - w then D.all T fun z => pairGrad D f N NT g true true w n t z else D.zero)
        (if w ≤ n ∧ n < N then D.all T fun y => pairGrad D f N NT g true true w (n - w) y t else D.zero)
      else D.zero)
  rule X y z :=
    if NT ≤ y then
      if NT ≤ z then (if w = 1 then D.add (g.rule X y z) (ruleGrad D f N g true true w X (y - NT) (z - NT)) else g.rule X y z)
      else D.add (g.rule X y z) (ruleGrad D f N g true false w X (y - NT) z)
    else
      if NT ≤ z then D.add (g.rule X y z) (ruleGrad D f N g false true w X y (z - NT))
      else D.add (g.rule X y z) (ruleGrad D f N g false false w X y z)
  root X := g.root X
  span v i X := if v = w ∧ i < N - w then newGrad D N g w i X else g.span v i X

/-- The loop (cky.py:49) backwards. -/
def backLoop (last : ℕ) : Adj G := (List.range (N - 1)).reverse.foldl (fun g w => backStep D f N NT T g (w + 1)) (start D f last)

end pass

/-- The semiring of the forward pass: `LogSemiring` on extended reals. (semirings.py:98-108, 138-150) -/
def sr : SR EReal := Semirings.logE (Semirings.negInf : ℝ)

/-- The charts before iteration `w` of the loop (cky.py:49). -/
def before (p : Scores EReal) (w : ℕ) : Charts EReal := (List.range (w - 1)).foldl (fun st v => step sr p st (v + 1)) (init sr)

/-- The left operand of the second `matmul` of `X1 … X4` (cky.py:55, 62, 65, 69), one entry. -/
def pairAt (p : Scores EReal) (b : ℕ) : Bool → Bool → ℕ → ℕ → ℕ → ℕ → EReal
  | false, false, w, i, y, z => CKY.split sr p.N (before p w) b i w y z
  | false, true, w, i, y, z => sr.times ((before p w).1 b i (w - 1) y) [p.term b (w + i) z]
  | true, false, w, i, y, z => sr.times (p.term b i y) [(before p w).2 b (w + i) (p.N - w) z]
  | true, true, w, i, y, z => sr.times (p.term b i y) [p.term b (w + i) z]

/-- `X1 … X4` (cky.py:55, 62, 65, 69). -/
def partAt (p : Scores EReal) (b : ℕ) : Bool → Bool → ℕ → ℕ → ℕ → EReal
  | false, false, w, i, X => x1 sr p (before p w) w b i X
  | false, true, w, i, X => x2 sr p (before p w) w b i X
  | true, false, w, i, X => x3 sr p (before p w) w b i X
  | true, true, w, i, X => x4 sr p w b i X

/-- Where the slices `NTs` and `Ts` begin (cky.py:35-36). -/
def off (NT : ℕ) (l : Bool) : ℕ := if l then NT else 0

/-- The factors of row `b`. (semirings.py:104 backwards; cky.py:55-78) -/
def factors (σ : Slope) (p : Scores EReal) (lens : List ℕ) (b : ℕ) : Factors IEEE where
  part l r w i X := σ (partAt p b l r w i X) (spanOf sr p (before p w) w b i X)
  entry l r w i X y z := σ (sr.mul (pairAt p b l r w i y z) (p.rule b X (off p.NT l + y) (off p.NT r + z))) (partAt p b l r w i X)
  split w i u y z := σ (sr.mul ((before p w).1 b i u y) ((before p w).2 b (w + i) (p.N - w + u) z)) (CKY.split sr p.N (before p w) b i w y z)
  top X := σ (sr.mul (top sr p lens b X) (p.root b X)) (logZ sr p lens b b)

/-- What `marginals` returns (cky.py:129), read by index. -/
structure Marginals where
  term : ℕ → ℕ → ℕ → IEEE
  rule : ℕ → ℕ → ℕ → ℕ → IEEE
  root : ℕ → ℕ → IEEE
  spans : ℕ → ℕ → ℕ → ℕ → IEEE

/-- `SentCFG.marginals` (distributions.py:171-183, cky.py:81-143).  `spans_marg` (cky.py:114-120) is 0 except at `[:, w, : N - w - 1]`, which holds the gradient of
`span[w + 1]`.  With a single word `autograd.grad` raises, since the rules are not used.  Other errors are those of the forward pass.
Simplification: one length per batch row. -/
def marginals (σ : Slope) (p : Scores EReal) (lengths : Option (List ℕ)) : Except PyErr Marginals :=
  if p.N = 1 then .error .runtime
  else (logpartition sr p lengths).map fun _ =>
    let lens := CKYCRF.lensOr p.batch p.N lengths
    let g b := backLoop ieee (factors σ p lens b) p.N p.NT p.T (CKYCRF.lastIndex p.N (lens.getD b 0))
    ⟨fun b => (g b).term, fun b => (g b).rule, fun b => (g b).root,
      fun b w i X => if w < p.N - 1 ∧ i < p.N - w - 1 then (g b).span (w + 1) i X else .ofReal 0⟩

end CFGBackward
