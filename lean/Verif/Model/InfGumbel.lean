import Verif.Model.InfSample
import Verif.Model.Distributions

/-! Model of `gumbel_crf` on potentials that may be `-inf`: which events the backward pass of `GumbelCRFSemiring` (torch_struct/semirings/sample.py:97-153) can return. -/

noncomputable section
namespace Semirings

/-- Index `k` can be the one that `logits.max(-1)[1]` returns (sample.py:101, 128-131): for some noise it is an index of a largest `(ls + noise) / temp`.  Simplification: which of several
largest entries is taken is left open; the noise is any list of numbers. -/
def CanSelect (temp : ℝ) (ls : List EReal) (k : ℕ) : Prop :=
  ∃ hk : k < ls.length, ∃ noise : ℕ → ℝ, ∀ j (hj : j < ls.length), (ls[j] + (noise j : EReal)) / (temp : EReal) ≤ (ls[k] + (noise k : EReal)) / (temp : EReal)

/-- `GumbelCRFSemiring(temp)` (sample.py:97-153) on numbers that may be `-inf`; `GumbelMaxSemiring(temp)` (lines 56-94) selects the same.  See `Drawn`; `ok` is always true, since neither
`max` nor `one_hot` raises.  Simplification: the noise of different calls, and of different cells of one call, is taken to be unrelated, so `events` may hold more than what can be returned. -/
def gumbelE (temp : ℝ) : SR Drawn where
  zero := ⟨(negInf : ℝ), True, {0}⟩
  one := ⟨0, True, {0}⟩
  mul a b := ⟨a.val + b.val, True, {e | ∃ u ∈ a.events, ∃ v ∈ b.events, e = u + v}⟩
  sum xs := ⟨lseE (xs.map Drawn.val), True, {e | ∃ k, ∃ hk : k < xs.length, CanSelect temp (xs.map Drawn.val) k ∧ e ∈ xs[k].events}⟩
  raw0 := ⟨0, True, {0}⟩
  detach x := ⟨x.val, True, {0}⟩
  setData x v := ⟨v.val, True, x.events⟩

end Semirings

namespace Dist
open Semirings

/-- `StructDistribution.gumbel_crf` (distributions.py:192-197, helpers.py:83-116) on potentials that may be `-inf`: the events that can be returned for each row. -/
def gumbelE (A : Algo) (p : A.T EReal) (lengths : Option (List ℕ)) (temp : ℝ) : Except PyErr (List (Set (List ℕ →₀ ℕ))) :=
  (A.run (Semirings.gumbelE temp) (A.map (fun x : EReal × List ℕ => drawLeaf x.1 x.2) (A.index p)) lengths).map fun vs => vs.map Drawn.events

end Dist

/-- `DependencyCRF.gumbel_crf` (deptree.py:49-56, distributions.py:192-197) on potentials that may be `-inf`: the events that can be returned for each row. -/
def DepTree.gumbelE (multiroot : Bool) (q : DepTree.Arcs EReal) (lengths : Option (List ℕ)) (temp : ℝ) : Except PyErr (List (Set (List ℕ →₀ ℕ))) := do
  let p ← DepTree.convert ((DepTree.negBig : ℝ) : EReal) q
  Dist.gumbelE (DepTree.algo multiroot) p lengths temp
