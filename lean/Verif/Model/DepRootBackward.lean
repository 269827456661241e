import Verif.Model.DepLabelBackward

/-! Model of `DependencyCRF(…, multiroot=False).marginals` on potentials that may be `-inf`: the backward pass of `_Struct.marginals` (helpers.py:111-115) through
`DepTree.logpartition` (deptree.py:49-124) with `start_idx = 1`, tensor by tensor, with NaN.  See Model/DepBackward.lean for several roots.

Every chart that is written is read later, except for `alpha[A][I][L]`, `alpha[B][I][R]` and what the last iteration writes into `alpha[B][C][L]`; their gradients
are 0. -/

noncomputable section

namespace DepRootBackward
open DepTree DepBackward

/-- The charts before iteration `k` of the loop (deptree.py:91). -/
def before (N : ℕ) (arc : ℕ → ℕ → ℕ → EReal) (k : ℕ) : Charts EReal :=
  (List.range (k - 1)).foldl (fun st v => step sr 1 N arc st (v + 1)) (init sr N)

/-- The charts in iteration `k` after the incomplete spans are written (deptree.py:92-103). -/
def mid (N : ℕ) (arc : ℕ → ℕ → ℕ → EReal) (k : ℕ) : Charts EReal := stepI sr 1 N arc (before N arc k) k

/-- The factors of `dot(ACR, BCL)` (deptree.py:98). -/
def factorX (σ : Slope) (N : ℕ) (arc : ℕ → ℕ → ℕ → EReal) (k b i u : ℕ) : IEEE :=
  factor σ k (fun u => (before N arc k).acr b i u) (fun u => (before N arc k).bcl b (k + i) (N - k + u)) u

/-- The factors of `dot(ACL, BIL)` (deptree.py:106). -/
def factorL (σ : Slope) (N : ℕ) (arc : ℕ → ℕ → ℕ → EReal) (k b i u : ℕ) : IEEE :=
  factor σ k (fun u => (mid N arc k).acl b i u) (fun u => (mid N arc k).bil b (k + i) (N - k - 1 + u)) u

/-- The factors of `dot(AIR, BCR)` (deptree.py:109). -/
def factorR (σ : Slope) (N : ℕ) (arc : ℕ → ℕ → ℕ → EReal) (k b i u : ℕ) : IEEE :=
  factor σ k (fun u => (mid N arc k).air b i (1 + u)) (fun u => (mid N arc k).bcr b (k + i) (N - k + u)) u

/-- `root_incomplete_span` (deptree.py:114-116). -/
def span (N : ℕ) (arc : ℕ → ℕ → ℕ → EReal) (b m : ℕ) : EReal := sr.times ((charts sr 1 N arc).acl b 1 m) [arc b 0 (1 + m)]

/-- The factors of `dot(AIR, BCR)` in the loop over the words below the root (deptree.py:117-120), which leaves `alpha[B][C][R]` as it is. -/
def factorRoot (σ : Slope) (N : ℕ) (arc : ℕ → ℕ → ℕ → EReal) (k b u : ℕ) : IEEE :=
  factor σ k (fun u => span N arc b u) (fun u => (charts sr 1 N arc).bcr b k (N - k + u)) u

/-- Lines 118-120 of deptree.py backwards; the second component is the gradient of `root_incomplete_span`. -/
def backRoot (σ : Slope) (N : ℕ) (arc : ℕ → ℕ → ℕ → EReal) (g : Adj × (ℕ → ℕ → IEEE)) (k : ℕ) : Adj × (ℕ → ℕ → IEEE) :=
  let new b := g.1.acr b 0 k
  ({ g.1 with
    acr := fun b i w => if i = 0 ∧ w = k then .ofReal 0 else g.1.acr b i w
    bcr := fun b j w => if j = k ∧ N - k ≤ w ∧ w < N then IEEE.add (g.1.bcr b j w) (IEEE.mul (new b) (factorRoot σ N arc k b (w - (N - k)))) else g.1.bcr b j w },
   fun b m => if m < k then IEEE.add (g.2 b m) (IEEE.mul (new b) (factorRoot σ N arc k b m)) else g.2 b m)

/-- The loop over the words below the root (deptree.py:117) backwards. -/
def rootLoop (σ : Slope) (batch N : ℕ) (arc : ℕ → ℕ → ℕ → EReal) (lens : List ℕ) : Adj × (ℕ → ℕ → IEEE) :=
  (List.range (N - 1)).reverse.foldl (fun g k => backRoot σ N arc g (k + 1)) (start batch lens, fun _ _ => .ofReal 0)

/-- Lines 114-116 of deptree.py backwards: the gradient of `root_incomplete_span` goes to row 1 of `alpha[A][C][L]` and to the scores of the arcs from the root. -/
def backSpan (N : ℕ) (g : Adj × (ℕ → ℕ → IEEE)) : Adj :=
  { g.1 with
    acl := fun b i w => if i = 1 ∧ w < N - 1 then IEEE.add (g.1.acl b i w) (g.2 b w) else g.1.acl b i w
    arc := fun b h m => if h = 0 ∧ 1 ≤ m ∧ m < N then IEEE.add (g.1.arc b h m) (g.2 b (m - 1)) else g.1.arc b h m }

/-- An assignment to `[1 : N - k, k]` of an `A` chart backwards: the slice is cleared. (helpers.py:22-24 backwards) -/
def clearA (N k : ℕ) (g : ℕ → ℕ → ℕ → IEEE) : ℕ → ℕ → ℕ → IEEE := fun b i w => if 1 ≤ i ∧ i < N - k ∧ w = k then .ofReal 0 else g b i w

/-- An assignment to `[k + 1 : N, N - k - 1]` of a `B` chart backwards: the slice is cleared. (helpers.py:22-24 backwards) -/
def clearB (N k : ℕ) (g : ℕ → ℕ → ℕ → IEEE) : ℕ → ℕ → ℕ → IEEE := fun b j w => if k + 1 ≤ j ∧ j < N ∧ w = N - k - 1 then .ofReal 0 else g b j w

/-- Reading `[1 : N - k, c : c + k]` of an `A` chart into a `dot` backwards: every entry gets the gradient of the `dot` times its factor. (deptree.py:93-94, 104) -/
def addA (N k c : ℕ) (new : ℕ → ℕ → IEEE) (f : ℕ → ℕ → ℕ → IEEE) (g : ℕ → ℕ → ℕ → IEEE) : ℕ → ℕ → ℕ → IEEE :=
  fun b i w => if 1 ≤ i ∧ i < N - k ∧ c ≤ w ∧ w < c + k then IEEE.add (g b i w) (IEEE.mul (new b i) (f b i (w - c))) else g b i w

/-- Reading `[k + 1 :, c : c + k]` of a `B` chart into a `dot` backwards. (deptree.py:95-96, 105) -/
def addB (N k c : ℕ) (new : ℕ → ℕ → IEEE) (f : ℕ → ℕ → ℕ → IEEE) (g : ℕ → ℕ → ℕ → IEEE) : ℕ → ℕ → ℕ → IEEE :=
  fun b j w => if k + 1 ≤ j ∧ j < N ∧ c ≤ w ∧ w < c + k then IEEE.add (g b j w) (IEEE.mul (new b (j - k)) (f b (j - k) (w - c))) else g b j w

/-- Lines 109-111 of deptree.py backwards. -/
def backR (σ : Slope) (N : ℕ) (arc : ℕ → ℕ → ℕ → EReal) (g : Adj) (k : ℕ) : Adj :=
  let new b i := IEEE.add (g.acr b i k) (g.bcr b (i + k) (N - k - 1))
  { g with
    acr := clearA N k g.acr
    bcr := addB N k (N - k) new (factorR σ N arc k) (clearB N k g.bcr)
    air := addA N k 1 new (factorR σ N arc k) g.air }

/-- Lines 106-108 of deptree.py backwards. -/
def backL (σ : Slope) (N : ℕ) (arc : ℕ → ℕ → ℕ → EReal) (g : Adj) (k : ℕ) : Adj :=
  let new b i := IEEE.add (g.acl b i k) (g.bcl b (i + k) (N - k - 1))
  { g with
    acl := addA N k 0 new (factorL σ N arc k) (clearA N k g.acl)
    bcl := clearB N k g.bcl
    bil := addB N k (N - k - 1) new (factorL σ N arc k) g.bil }

/-- Lines 98-103 of deptree.py backwards: the gradients of `arcs_r` and `arcs_l` go to the scores of the arcs, and their sum to `dot(ACR, BCL)`. -/
def backI (σ : Slope) (N : ℕ) (arc : ℕ → ℕ → ℕ → EReal) (g : Adj) (k : ℕ) : Adj :=
  let arcsR b i := g.air b i k
  let arcsL b i := g.bil b (i + k) (N - k - 1)
  let x b i := IEEE.add (arcsR b i) (arcsL b i)
  { g with
    air := clearA N k g.air
    bil := clearB N k g.bil
    acr := addA N k 0 x (factorX σ N arc k) g.acr
    bcl := addB N k (N - k) x (factorX σ N arc k) g.bcl
    arc := fun b h m =>
      if 1 ≤ h ∧ h < N - k ∧ m = h + k then IEEE.add (g.arc b h m) (arcsR b h)
      else if 1 ≤ m ∧ m < N - k ∧ h = m + k then IEEE.add (g.arc b h m) (arcsL b m)
      else g.arc b h m }

/-- The body of the loop (deptree.py:92-111) backwards. -/
def backStep (σ : Slope) (N : ℕ) (arc : ℕ → ℕ → ℕ → EReal) (g : Adj) (k : ℕ) : Adj := backI σ N arc (backL σ N arc (backR σ N arc g k) k) k

/-- The gradients of all charts and scores: the loop (deptree.py:91) backwards, after the lines below it. -/
def backLoop (σ : Slope) (batch N : ℕ) (arc : ℕ → ℕ → ℕ → EReal) (lens : List ℕ) : Adj :=
  (List.range (N - 2)).reverse.foldl (fun g k => backStep σ N arc g (k + 1)) (backSpan N (rootLoop σ batch N arc lens))

/-- `DependencyCRF(…, multiroot=False).marginals` (distributions.py:171-183, 393-396; helpers.py:83-116; deptree.py:143-144): `unconvert` of the gradient of the converted
and masked table (deptree.py:56-60).  Errors are those of the forward pass. -/
def marginals (σ : Slope) (q : Arcs EReal) (lengths : Option (List ℕ)) : Except PyErr (List ℕ → IEEE) := do
  let p ← convert (negBig : EReal) q
  let _ ← logpartition false sr p lengths
  let lens := lensOr p.d0 p.d1 lengths
  .ok fun e => unconvertCell (fun b h m _ => (backLoop σ p.d0 p.d1 (arcScores sr p lens) lens).arc b h m) (e.getD 0 0) (e.getD 1 0) (e.getD 2 0) 0

/-- The gradient of entry `(b, h, m, l)` of the converted and masked table with labels. (deptree.py:60-61, semirings.py:104 backwards) -/
def labelGrad (σ : Slope) (p : Arcs EReal) (lens : List ℕ) (b h m l : ℕ) : IEEE :=
  IEEE.mul ((backLoop σ p.d0 p.d1 (arcScores sr p lens) lens).arc b h m) (σ (masked sr p lens b h m l) (arcScores sr p lens b h m))

/-- `DependencyCRF(…, multiroot=False).marginals` of a table of rank 4, see `DepBackward.labelMarginals`. (distributions.py:171-183, 393-396) -/
def labelMarginals (σ : Slope) (q : Arcs EReal) (lengths : Option (List ℕ)) : Except PyErr (List ℕ → IEEE) := do
  let p ← convert (negBig : EReal) q
  let _ ← logpartition false sr p lengths
  .ok fun e => unconvertCell (labelGrad σ p (lensOr p.d0 p.d1 lengths)) (e.getD 0 0) (e.getD 1 0) (e.getD 2 0) (e.getD 3 0)

end DepRootBackward
