import Verif.Model.DepTree
import Verif.Model.TreeBackward

/-! Model of `DependencyCRF.marginals` (several roots allowed, unlabelled arcs) on potentials that may be `-inf`: the backward pass of `_Struct.marginals`
(helpers.py:111-115) through `DepTree.logpartition` (deptree.py:49-124), tensor by tensor, with NaN.  See Model/TreeBackward.lean.

Simplification: tables of rank 3 and `multiroot=True` (the default) only. -/

noncomputable section

namespace DepBackward
open DepTree

/-- The gradients that have arrived so far at the charts that are read (deptree.py:94-97, 104-105) and at `arc_scores`.  `alpha[A][I][L]` and `alpha[B][I][R]` are
written but never read, so no gradient arrives there. (deptree.py:61-68 under helpers.py:112-114) -/
structure Adj where
  (acl acr bcl bcr air bil arc : ℕ → ℕ → ℕ → IEEE)

/-- The semiring of the forward pass: `LogSemiring` on extended reals. (semirings.py:98-108, 138-150) -/
def sr : SR EReal := Semirings.logE (Semirings.negInf : ℝ)

/-- The charts before iteration `k` of the loop (deptree.py:91). -/
def before (N : ℕ) (arc : ℕ → ℕ → ℕ → EReal) (k : ℕ) : Charts EReal :=
  (List.range (k - 1)).foldl (fun st v => step sr 0 N arc st (v + 1)) (init sr N)

/-- The charts in iteration `k` after the incomplete spans are written (deptree.py:92-103). -/
def mid (N : ℕ) (arc : ℕ → ℕ → ℕ → EReal) (k : ℕ) : Charts EReal := stepI sr 0 N arc (before N arc k) k

/-- The factor of entry `u` of the dimension that `dot(xs, ys)` sums over. (semirings.py:43-48, 12-20, 104 backwards) -/
def factor (σ : Slope) (k : ℕ) (xs ys : ℕ → EReal) (u : ℕ) : IEEE :=
  σ (sr.mul (xs u) (ys u)) (sr.dot ((List.range k).map xs) ((List.range k).map ys))

/-- The factors of `dot(ACR, BCL)` (deptree.py:98). -/
def factorX (σ : Slope) (N : ℕ) (arc : ℕ → ℕ → ℕ → EReal) (k b i u : ℕ) : IEEE :=
  factor σ k (fun u => (before N arc k).acr b i u) (fun u => (before N arc k).bcl b (k + i) (N - k + u)) u

/-- The factors of `dot(ACL, BIL)` (deptree.py:106). -/
def factorL (σ : Slope) (N : ℕ) (arc : ℕ → ℕ → ℕ → EReal) (k b i u : ℕ) : IEEE :=
  factor σ k (fun u => (mid N arc k).acl b i u) (fun u => (mid N arc k).bil b (k + i) (N - k - 1 + u)) u

/-- The factors of `dot(AIR, BCR)` (deptree.py:109). -/
def factorR (σ : Slope) (N : ℕ) (arc : ℕ → ℕ → ℕ → EReal) (k b i u : ℕ) : IEEE :=
  factor σ k (fun u => (mid N arc k).air b i (1 + u)) (fun u => (mid N arc k).bcr b (k + i) (N - k + u)) u

/-- `obj = v.sum(dim=0)` (helpers.py:111) sends 1 to every `log_Z`, and lines 122-123 of deptree.py to entry `lengths` of the first row of `alpha[A][C][R]`. -/
def start (batch : ℕ) (lens : List ℕ) : Adj where
  acl _ _ _ := .ofReal 0
  acr b i w := if b < batch ∧ i = 0 ∧ w = lens.getD b 0 then .ofReal 1 else .ofReal 0
  bcl _ _ _ := .ofReal 0
  bcr _ _ _ := .ofReal 0
  air _ _ _ := .ofReal 0
  bil _ _ _ := .ofReal 0
  arc _ _ _ := .ofReal 0

/-- An assignment to `[: N - k, k]` of an `A` chart backwards: the slice is cleared. (helpers.py:22-24 backwards) -/
def clearA (N k : ℕ) (g : ℕ → ℕ → ℕ → IEEE) : ℕ → ℕ → ℕ → IEEE := fun b i w => if i < N - k ∧ w = k then .ofReal 0 else g b i w

/-- An assignment to `[k :, N - k - 1]` of a `B` chart backwards: the slice is cleared. (helpers.py:22-24 backwards) -/
def clearB (N k : ℕ) (g : ℕ → ℕ → ℕ → IEEE) : ℕ → ℕ → ℕ → IEEE := fun b j w => if k ≤ j ∧ j < N ∧ w = N - k - 1 then .ofReal 0 else g b j w

/-- Reading `[: N - k, c : c + k]` of an `A` chart into a `dot` backwards: every entry gets the gradient of the `dot` times its factor. (deptree.py:94-95, 104) -/
def addA (N k c : ℕ) (new : ℕ → ℕ → IEEE) (f : ℕ → ℕ → ℕ → IEEE) (g : ℕ → ℕ → ℕ → IEEE) : ℕ → ℕ → ℕ → IEEE :=
  fun b i w => if i < N - k ∧ c ≤ w ∧ w < c + k then IEEE.add (g b i w) (IEEE.mul (new b i) (f b i (w - c))) else g b i w

/-- Reading `[k :, c : c + k]` of a `B` chart into a `dot` backwards. (deptree.py:96-97, 105) -/
def addB (N k c : ℕ) (new : ℕ → ℕ → IEEE) (f : ℕ → ℕ → ℕ → IEEE) (g : ℕ → ℕ → ℕ → IEEE) : ℕ → ℕ → ℕ → IEEE :=
  fun b j w => if k ≤ j ∧ j < N ∧ c ≤ w ∧ w < c + k then IEEE.add (g b j w) (IEEE.mul (new b (j - k)) (f b (j - k) (w - c))) else g b j w

/-- Lines 109-111 of deptree.py backwards. -/
def backR (σ : Slope) (N : ℕ) (arc : ℕ → ℕ → ℕ → EReal) (g : Adj) (k : ℕ) : Adj :=
  let new b i := IEEE.add (g.acr b i k) (g.bcr b (i + k) (N - k - 1))
  { g with
    acr := clearA N k g.acr
    bcr := addB N k (N - k) new (factorR σ N arc k) (clearB N k g.bcr)
    air := addA N k 1 new (factorR σ N arc k) g.air }

/-- Lines 106-108 of deptree.py backwards.  What the last iteration writes here is never read, so that it is not part of the graph. -/
def backL (σ : Slope) (N : ℕ) (arc : ℕ → ℕ → ℕ → EReal) (g : Adj) (k : ℕ) : Adj :=
  let new b i := IEEE.add (g.acl b i k) (g.bcl b (i + k) (N - k - 1))
  if k = N - 1 then g
  else { g with
    acl := addA N k 0 new (factorL σ N arc k) (clearA N k g.acl)
    bcl := clearB N k g.bcl
    bil := addB N k (N - k - 1) new (factorL σ N arc k) g.bil }

/-- Lines 98-103 of deptree.py backwards: the gradients of `arcs_r` and `arcs_l` go to the scores of the arcs, and their sum to `dot(ACR, BCL)`. -/
def backI (σ : Slope) (N : ℕ) (arc : ℕ → ℕ → ℕ → EReal) (g : Adj) (k : ℕ) : Adj :=
  let arcsR b i := g.air b i k
  let arcsL b i := g.bil b (i + k) (N - k - 1)
  let x b i := IEEE.add (arcsR b i) (arcsL b i)
  { g with
    air := clearA N k g.air
    bil := clearB N k g.bil
    acr := addA N k 0 x (factorX σ N arc k) g.acr
    bcl := addB N k (N - k) x (factorX σ N arc k) g.bcl
    arc := fun b h m =>
      if h < N - k ∧ m = h + k then IEEE.add (g.arc b h m) (arcsR b h)
      else if m < N - k ∧ h = m + k then IEEE.add (g.arc b h m) (arcsL b m)
      else g.arc b h m }

/-- The body of the loop (deptree.py:92-111) backwards. -/
def backStep (σ : Slope) (N : ℕ) (arc : ℕ → ℕ → ℕ → EReal) (g : Adj) (k : ℕ) : Adj := backI σ N arc (backL σ N arc (backR σ N arc g k) k) k

/-- The loop (deptree.py:91) backwards. -/
def backLoop (σ : Slope) (batch N : ℕ) (arc : ℕ → ℕ → ℕ → EReal) (lens : List ℕ) : Adj :=
  (List.range (N - 1)).reverse.foldl (fun g k => backStep σ N arc g (k + 1)) (start batch lens)

/-- `DependencyCRF.marginals` (distributions.py:171-183; helpers.py:83-116; deptree.py:143-144): `unconvert` of the gradient of the converted and masked table
(deptree.py:56-60).  Errors are those of the forward pass. -/
def marginals (σ : Slope) (q : Arcs EReal) (lengths : Option (List ℕ)) : Except PyErr (List ℕ → IEEE) := do
  let p ← convert (negBig : EReal) q
  let _ ← logpartition true sr p lengths
  let lens := lensOr p.d0 p.d1 lengths
  .ok fun e => unconvertCell (fun b h m _ => (backLoop σ p.d0 p.d1 (arcScores sr p lens) lens).arc b h m) (e.getD 0 0) (e.getD 1 0) (e.getD 2 0) 0

end DepBackward
