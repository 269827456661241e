import Mathlib.Algebra.Order.Floor.Ring
import Mathlib.Data.Real.Archimedean
import Verif.Model.SemiMarkov

/-! The scans of `LinearChain` and `SemiMarkov` with the logarithm that the code computes.  `_bin_length` (helpers.py:36-39) calls `math.log(length, 2)`, whose
result is rounded: CPython returns `29.000000000000004` for `math.log(2 ** 29, 2)`, so that `math.ceil` gives 30.  Here the result of that call is a parameter
`lg`, and nothing is assumed about it; `Struct.binLength` is the case of an exact logarithm. -/

noncomputable section

namespace Struct

/-- `_Struct._bin_length` (helpers.py:36-39) for the value `lg n` of `math.log(n, 2)`: `log_N = ceil(lg length)` and `bin_N = int(2 ** log_N)`, which is 0 for a
negative `log_N`; `math.log(0, 2)` raises. -/
def binLengthF (lg : ℕ → ℝ) (length : ℕ) : Except PyErr (ℤ × ℕ) :=
  if length = 0 then .error .value
  else
    let logN := ⌈lg length⌉
    .ok (logN, if 0 ≤ logN then 2 ^ logN.toNat else 0)

/-- `big[:, :, : N - 1] = log_potentials` (linearchain.py:70, semimarkov.py:52), where `big` has `bin_N` positions and the potentials `N - 1`: the slice has
`min(bin_N, N - 1)` positions, and the assignment raises if there are too few.  A single position would be broadcast to `bin_N = 0` positions; `e` is the error
that comes later in that case. -/
def fits (e : PyErr) (binN edges : ℕ) : Except PyErr Unit :=
  if edges ≤ binN then .ok () else if edges = 1 then .error e else .error .runtime

end Struct

namespace LinearChain
open Struct
variable {α : Type}

/-- `LinearChain.logpartition` (linearchain.py:44-85), as `logpartition`, with the computed logarithm `lg`. -/
def logpartitionF (lg : ℕ → ℝ) (S : SR α) (edge : T4 α) (lengths : Option (List ℕ)) : Except PyErr (List α) := do
  let lens ← checkPotentials edge lengths
  let (logN, binN) ← binLengthF lg edge.d1
  fits .index binN edge.d1           -- `chart[:, :, 0]` without positions
  if lens.length = edge.d0 then      -- `(lengths - 1).view(batch, 1)`
    .ok ((List.range edge.d0).map fun b =>
      core S (C := edge.d2) (edge.d1 + 1) logN.toNat (fun b => lens.getD b 0) (fun b n i j => edge.get b n i j) b)
  else .error .runtime

/-- `LinearChainCRF` / `HMM` (distributions.py:247-277, 320-341) with the computed logarithm `lg`. -/
def algoF (lg : ℕ → ℝ) : Algo where
  T := T4
  run S p lengths := logpartitionF lg S p lengths
  map f p := ⟨p.d0, p.d1, p.d2, p.d3, fun a b c d => f (p.get a b c d)⟩
  index p := ⟨p.d0, p.d1, p.d2, p.d3, fun a b c d => (p.get a b c d, [a, b, c, d])⟩

end LinearChain

namespace SemiMarkov
open Struct
variable {α : Type}

/-- `SemiMarkov.logpartition` (semimarkov.py:21-87), as `logpartition`, with the computed logarithm `lg`. -/
def logpartitionF (lg : ℕ → ℝ) (S : SR α) (edge : T5 α) (lengths : Option (List ℕ)) : Except PyErr (List α) := do
  let lens ← checkPotentials edge lengths
  let (logN, binN) ← binLengthF lg edge.d1
  if edge.d2 = 0 then .error .runtime
  else if hK : 0 < edge.d2 - 1 then
    fits .runtime binN edge.d1       -- `view(-1, ...)` without entries
    if lens.length = edge.d0 then      -- `(lengths - 1).view(batch, 1)`
      .ok ((List.range edge.d0).map fun b => core S edge.d3 hK (edge.d1 + 1) logN.toNat (fun b => lens.getD b 0) edge.get b)
    else .error .runtime
  else .error .index

/-- `SemiMarkovCRF` (distributions.py:344-364) with the computed logarithm `lg`. -/
def algoF (lg : ℕ → ℝ) : Algo where
  T := T5
  run S p lengths := logpartitionF lg S p lengths
  map f p := ⟨p.d0, p.d1, p.d2, p.d3, p.d4, fun a b c d e => f (p.get a b c d e)⟩
  index p := ⟨p.d0, p.d1, p.d2, p.d3, p.d4, fun a b c d e => (p.get a b c d e, [a, b, c, d, e])⟩

end SemiMarkov
