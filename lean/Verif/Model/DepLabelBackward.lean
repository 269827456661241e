import Verif.Model.DepBackward

/-! Model of `DependencyCRF.marginals` (several roots allowed, labelled arcs) on potentials that may be `-inf`: the backward pass of Model/DepBackward.lean, followed by
the one of `semiring.sum(arc_scores_in)` over the labels (deptree.py:61). -/

noncomputable section
namespace DepBackward
open DepTree

/-- The gradient of entry `(b, h, m, l)` of the converted and masked table: `logsumexp` over the labels multiplies the gradient of the arc by a `Slope`.
(deptree.py:60-61, semirings.py:104 backwards) -/
def labelGrad (σ : Slope) (p : Arcs EReal) (lens : List ℕ) (b h m l : ℕ) : IEEE :=
  IEEE.mul ((backLoop σ p.d0 p.d1 (arcScores sr p lens) lens).arc b h m) (σ (masked sr p lens b h m l) (arcScores sr p lens b h m))

/-- `DependencyCRF.marginals` of a table of rank 4 (distributions.py:171-183; helpers.py:83-116; deptree.py:143-144).  Errors are those of the forward pass. -/
def labelMarginals (σ : Slope) (q : Arcs EReal) (lengths : Option (List ℕ)) : Except PyErr (List ℕ → IEEE) := do
  let p ← convert (negBig : EReal) q
  let _ ← logpartition true sr p lengths
  .ok fun e => unconvertCell (labelGrad σ p (lensOr p.d0 p.d1 lengths)) (e.getD 0 0) (e.getD 1 0) (e.getD 2 0) (e.getD 3 0)

end DepBackward
