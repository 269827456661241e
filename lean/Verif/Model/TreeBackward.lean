import Verif.Model.LogProb

/-! Model of `TreeCRF.marginals` on potentials that may be `-inf`: the backward pass of `_Struct.marginals` (helpers.py:111-115) through
`CKY_CRF.logpartition` (cky_crf.py:17-43), tensor by tensor, with NaN.

`Dist.marginals` (Model/Distributions.lean) carries exact derivatives of real numbers.  Here every tensor operation of the forward pass is undone
by its backward formula in torch, in floating point without rounding, so that `0 * NaN = NaN` also for entries that do not reach the result.

Trusted: the backward formulas of the torch operations that are used (slicing, `diagonal` and indexing pad with zeros; an assignment to a slice
clears the gradient of what it overwrites; addition passes the gradient on; `logsumexp` multiplies it by a `Slope`). -/

noncomputable section

/-- Floating-point `exp` without rounding. (in the backward pass of semirings.py:104) -/
def IEEE.exp : IEEE → IEEE
  | some x => some ((EReal.exp x : ENNReal) : EReal)
  | none => none

/-- The factor in the backward formula of `torch.logsumexp`, from the entry and the result. (semirings.py:104 under helpers.py:112-114) -/
abbrev Slope := EReal → EReal → IEEE

namespace Slope

/-- `grad * (self - result).exp()`. (semirings.py:104 under helpers.py:112-114) -/
def plain : Slope := fun x r => IEEE.exp (IEEE.sub (some x) (some r))

/-- The variant that treats a result of `-inf` as 0: `grad * (self - result.masked_fill(result == -inf, 0)).exp()`. (semirings.py:104 under helpers.py:112-114) -/
def guarded : Slope := fun x r => IEEE.exp (IEEE.sub (some x) (some (if r = ⊥ then 0 else r)))

end Slope

namespace TreeBackward
open CKYCRF

/-- The gradients that have arrived so far at the two charts and at `reduced_scores`. (cky_crf.py:20, 24 under helpers.py:112-114) -/
structure Adj where
  A : ℕ → ℕ → ℕ → IEEE
  B : ℕ → ℕ → ℕ → IEEE
  score : ℕ → ℕ → ℕ → IEEE

/-- The semiring of the forward pass: `LogSemiring` on extended reals. (semirings.py:98-108, 138-150) -/
def sr : SR EReal := Semirings.logE (Semirings.negInf : ℝ)

/-- The charts before iteration `w` of the loop (cky_crf.py:31). -/
def before (N : ℕ) (red : ℕ → ℕ → ℕ → EReal) (w : ℕ) : Charts EReal :=
  (List.range (w - 1)).foldl (fun st v => step sr N red st (v + 1)) (init sr N red)

/-- Entry `u` of the dimension that `dot(Y, Z)` sums over (cky_crf.py:34-37; semirings.py:43-48, 12-20). -/
def product (N : ℕ) (red : ℕ → ℕ → ℕ → EReal) (w b i u : ℕ) : EReal :=
  sr.mul ((before N red w).1 b i u) ((before N red w).2 b (w + i) (N - w + u))

/-- `dot(Y, Z)` (cky_crf.py:37). -/
def dotAt (N : ℕ) (red : ℕ → ℕ → ℕ → EReal) (w b i : ℕ) : EReal :=
  sr.dot ((List.range w).map fun u => (before N red w).1 b i u) ((List.range w).map fun u => (before N red w).2 b (w + i) (N - w + u))

/-- `obj = v.sum(dim=0)` (helpers.py:111) sends 1 to every `log_Z`, and lines 41-42 of cky_crf.py to entry `lengths - 1` of the first row of `beta[A]`.
Simplification: one length per batch row. -/
def start (batch N : ℕ) (lengths : Option (List ℕ)) : Adj where
  A b i v := if b < batch ∧ i = 0 ∧ v = lastIndex N ((lensOr batch N lengths).getD b 0) then .ofReal 1 else .ofReal 0
  B _ _ _ := .ofReal 0
  score _ _ _ := .ofReal 0

/-- The gradient of `new` (cky_crf.py:37): what has arrived at the two slices that it is assigned to (38-39). -/
def newGrad (N w : ℕ) (g : Adj) (b i : ℕ) : IEEE := IEEE.add (g.A b i w) (g.B b (i + w) (N - w - 1))

/-- The body of the loop (cky_crf.py:32-39) backwards: `new` takes the gradient of the slices it was assigned to and they are cleared; `score` gets the gradient
of `new` (36-37), and so does every entry of `Y` and `Z` (34-35) times the factor of the `logsumexp` in `dot`. -/
def backStep (σ : Slope) (N : ℕ) (red : ℕ → ℕ → ℕ → EReal) (g : Adj) (w : ℕ) : Adj where
  A b i v :=
    if i < N - w then
      if v < w then IEEE.add (g.A b i v) (IEEE.mul (newGrad N w g b i) (σ (product N red w b i v) (dotAt N red w b i)))
      else if v = w then .ofReal 0
      else g.A b i v
    else g.A b i v
  B b k v :=
    if w ≤ k ∧ k < N then
      if N - w ≤ v ∧ v < N then
        IEEE.add (g.B b k v) (IEEE.mul (newGrad N w g b (k - w)) (σ (product N red w b (k - w) (v - (N - w))) (dotAt N red w b (k - w))))
      else if v = N - w - 1 then .ofReal 0
      else g.B b k v
    else g.B b k v
  score b i j := if i < N - w ∧ j = i + w then IEEE.add (g.score b i j) (newGrad N w g b i) else g.score b i j

/-- The loop (cky_crf.py:31) backwards. -/
def backLoop (σ : Slope) (batch N : ℕ) (red : ℕ → ℕ → ℕ → EReal) (lengths : Option (List ℕ)) : Adj :=
  (List.range (N - 1)).reverse.foldl (fun g w => backStep σ N red g (w + 1)) (start batch N lengths)

/-- The gradient of `reduced_scores`: lines 25-28 of cky_crf.py backwards. -/
def scoreGrad (N : ℕ) (g : Adj) (b i j : ℕ) : IEEE :=
  if i = j ∧ i < N then IEEE.add (g.score b i j) (IEEE.add (g.A b i 0) (g.B b i (N - 1))) else g.score b i j

/-- `TreeCRF.marginals` (distributions.py:171-183; helpers.py:83-116): the gradient of `scores`, line 24 of cky_crf.py backwards.  Errors are those of the
forward pass. -/
def marginals (σ : Slope) (p : T4 EReal) (lengths : Option (List ℕ)) : Except PyErr (List ℕ → IEEE) :=
  (logpartition sr p lengths).map fun _ e =>
    let b := e.getD 0 0
    let i := e.getD 1 0
    let j := e.getD 2 0
    let red := reduced sr p
    IEEE.mul (scoreGrad p.d1 (backLoop σ p.d0 p.d1 red lengths) b i j) (σ (p.get b i j (e.getD 3 0)) (red b i j))

end TreeBackward
