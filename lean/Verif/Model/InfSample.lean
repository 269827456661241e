import Verif.Model.InfEntropy
import Verif.Model.Sampling
import Verif.Model.SemiMarkov

/-! Model of `sample` on potentials that may be `-inf`: whether the backward pass of `SampledSemiring` and `MultiSampledSemiring` raises, and which events can be drawn.

`torch.multinomial` raises `RuntimeError` if a probability is NaN.  It is called once for the whole tensor of a `sum`, with the entries of all rows and cells, also of those that
no structure uses; so one bad cell makes `sample` raise.  It never draws an index of probability 0. -/

noncomputable section

/-- What the backward pass below a value does: `val` is the forward value, `ok` says that no call of `torch.multinomial` for the sums that `val` was computed from raises, and `events`
holds the gradients that can be drawn (how often each entry of the potentials is used).  Simplification: the draws of a sum that is used twice are taken to be independent, so `events` may
hold more than what can be drawn. (sample.py:6-39, 156-221) -/
structure Drawn where
  val : EReal
  ok : Prop
  events : Set (List ℕ →₀ ℕ)

namespace Semirings

/-- An entry of `ls.softmax(-1)`. (sample.py:21, 175) -/
def drawProb (x part : EReal) : IEEE := IEEE.exp (logSmE x part)

/-- `SampledSemiring` and `MultiSampledSemiring` (sample.py:6-53, 156-221) on numbers that may be `-inf`. -/
def drawE : SR Drawn where
  zero := ⟨(negInf : ℝ), True, {0}⟩
  one := ⟨0, True, {0}⟩
  mul a b := ⟨a.val + b.val, a.ok ∧ b.ok, {e | ∃ u ∈ a.events, ∃ v ∈ b.events, e = u + v}⟩
  sum xs :=
    let part := lseE (xs.map Drawn.val)
    ⟨part, (∀ x ∈ xs, x.ok) ∧ ∀ x ∈ xs, drawProb x.val part ≠ none, {e | ∃ x ∈ xs, drawProb x.val part ≠ some 0 ∧ e ∈ x.events}⟩
  raw0 := ⟨0, True, {0}⟩
  detach x := ⟨x.val, True, {0}⟩
  setData x v := ⟨v.val, x.ok, x.events⟩

end Semirings

/-- An entry of the potentials. (helpers.py:111-116) -/
def drawLeaf (v : EReal) (id : List ℕ) : Drawn := ⟨v, True, {Finsupp.single id 1}⟩

namespace CKYCRF
open Semirings

/-- No call of `torch.multinomial` in the backward pass of `CKY_CRF.logpartition` raises: not for `reduced_scores` (cky_crf.py:24), which has an entry for every row and every pair of
positions, and not for the spans of width 2 and more (line 36) of any row, whatever its length. -/
def sampleOk (p : T4 Drawn) : Prop :=
  (∀ b < p.d0, ∀ i < p.d1, ∀ j < p.d1, (reduced drawE p b i j).ok) ∧
  ∀ b < p.d0, ∀ i w, i + w < p.d1 → ((charts drawE p.d1 (reduced drawE p)).1 b i w).ok

open Classical in
/-- `TreeCRF.sample` (distributions.py:212-233) on potentials that may be `-inf`: the events that can be drawn for each row. -/
def sampleE (p : T4 EReal) (lengths : Option (List ℕ)) : Except PyErr (List (Set (List ℕ →₀ ℕ))) := do
  let q := algo.map (fun x : EReal × List ℕ => drawLeaf x.1 x.2) (algo.index p)
  let vs ← logpartition drawE q lengths
  if sampleOk q then .ok (vs.map Drawn.events) else .error .runtime

end CKYCRF

namespace DepTree
open Semirings

/-- The charts at the end of the loops. (deptree.py:86-122) -/
def lastCharts {α : Type} (multiroot : Bool) (S : SR α) (N : ℕ) (arc : ℕ → ℕ → ℕ → α) : Charts α :=
  if multiroot then charts S 0 N arc else rootCharts S N arc (charts S 1 N arc)

/-- No call of `torch.multinomial` in the backward pass of `DepTree.logpartition` raises: not for the sum over labels (deptree.py:61), which has an entry for every row and every pair of
positions, and not for the spans (lines 95, 105, 109, 118) of any row, whatever its length. -/
def sampleOk (multiroot : Bool) (p : Arcs Drawn) (lens : List ℕ) : Prop :=
  (∀ b < p.d0, ∀ h < p.d1, ∀ m < p.d1, (arcScores drawE p lens b h m).ok) ∧
  let st := lastCharts multiroot drawE p.d1 (arcScores drawE p lens)
  ∀ b < p.d0, ∀ i w, i + w < p.d1 → (st.ail b i w).ok ∧ (st.air b i w).ok ∧ (st.acl b i w).ok ∧ (st.acr b i w).ok

open Classical in
/-- `DependencyCRF.sample` (deptree.py:49-56, distributions.py:212-233) on potentials that may be `-inf`: the events that can be drawn for each row. -/
def sampleE (multiroot : Bool) (q : Arcs EReal) (lengths : Option (List ℕ)) : Except PyErr (List (Set (List ℕ →₀ ℕ))) := do
  let p ← convert ((negBig : ℝ) : EReal) q
  let p := (algo multiroot).map (fun x : EReal × List ℕ => drawLeaf x.1 x.2) ((algo multiroot).index p)
  let vs ← logpartition multiroot drawE p lengths
  if sampleOk multiroot p (lensOr p.d0 p.d1 lengths) then .ok (vs.map Drawn.events) else .error .runtime

end DepTree

namespace LinearChain
open Semirings

/-- No call of `torch.multinomial` raises in the backward pass of the scan and of the sums that fill its first level: these are the cells of all levels. (linearchain.py:79-84) -/
def scanOk {m : ℕ} (logN : ℕ) (chart : ℕ → Fin m → Fin m → Drawn) : Prop :=
  ∀ k ≤ logN, ∀ n < 2 ^ (logN - k), ∀ i j, (scan drawE k chart n i j).ok

/-- see `scanOk`; the last two sums are those of line 84 of linearchain.py. -/
def rowOk {C : ℕ} (N logN : ℕ) (lens : ℕ → ℕ) (lp : ℕ → ℕ → Fin C → Fin C → Drawn) (b : ℕ) : Prop :=
  scanOk logN (masked drawE N (2 ^ logN) lens lp b) ∧ (core drawE N logN lens lp b).ok

open Classical in
/-- `LinearChainCRF.sample` (distributions.py:212-233) on potentials that may be `-inf`: the events that can be drawn for each row. -/
def sampleE (p : T4 EReal) (lengths : Option (List ℕ)) : Except PyErr (List (Set (List ℕ →₀ ℕ))) := do
  let q := algo.map (fun x : EReal × List ℕ => drawLeaf x.1 x.2) (algo.index p)
  let vs ← logpartition drawE q lengths
  let lens ← checkPotentials q lengths
  let (logN, _) ← Struct.binLength q.d1
  if ∀ b < q.d0, rowOk (C := q.d2) (q.d1 + 1) logN (fun b => lens.getD b 0) (fun b n i j => q.get b n i j) b then .ok (vs.map Drawn.events) else .error .runtime

end LinearChain

namespace SemiMarkov
open Semirings

/-- No call of `torch.multinomial` in the backward pass of row `b` raises: not in the scan or in the sums that fill its first level (semimarkov.py:60-83), and not in the last two sums
(line 86). -/
def rowOk {K1 : ℕ} (C : ℕ) (hK : 0 < K1) (N logN : ℕ) (lens : ℕ → ℕ) (lp : ℕ → ℕ → ℕ → ℕ → ℕ → Drawn) (b : ℕ) : Prop :=
  LinearChain.scanOk logN (chart drawE K1 C N (2 ^ logN) lens lp b) ∧ (core drawE C hK N logN lens lp b).ok

open Classical in
/-- `SemiMarkovCRF.sample` (distributions.py:212-233) on potentials that may be `-inf`: the events that can be drawn for each row. -/
def sampleE (p : T5 EReal) (lengths : Option (List ℕ)) : Except PyErr (List (Set (List ℕ →₀ ℕ))) := do
  let q := algo.map (fun x : EReal × List ℕ => drawLeaf x.1 x.2) (algo.index p)
  let vs ← logpartition drawE q lengths
  let lens ← checkPotentials q lengths
  let (logN, _) ← Struct.binLength q.d1
  if ∀ hK : 0 < q.d2 - 1, ∀ b < q.d0, rowOk q.d3 hK (q.d1 + 1) logN (fun b => lens.getD b 0) q.get b then .ok (vs.map Drawn.events) else .error .runtime

end SemiMarkov
