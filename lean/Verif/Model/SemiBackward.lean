import Verif.Model.ChainBackward
import Verif.Model.SemiMarkov

/-! Model of `SemiMarkovCRF.marginals` on potentials that may be `-inf`: the backward pass of `_Struct.marginals` (helpers.py:111-115) through
`SemiMarkov.logpartition` (semimarkov.py:21-87), tensor by tensor, with NaN.  See Model/TreeBackward.lean and Model/ChainBackward.lean. -/

noncomputable section

namespace SemiBackward
open SemiMarkov ChainBackward

/-- Lines 85-86 of semimarkov.py backwards: the gradient of `chart` after the scan when the gradient of `v` is 1 (helpers.py:111); only the entries
`final[:, :, 0, :, 0, :]` are used. -/
def totalBack (σ : Slope) (S : SR EReal) {K1 : ℕ} (C : ℕ) (hK : 0 < K1) (x : Fin (K1 * C) → Fin (K1 * C) → EReal) (i j : Fin (K1 * C)) : IEEE :=
  let state (c : Fin C) : Fin (K1 * C) := ⟨c, Nat.lt_of_lt_of_le c.2 (Nat.le_mul_of_pos_left C hK)⟩
  let rows := fun i : Fin C => S.sum (List.ofFn fun j : Fin C => x (state i) (state j))
  if h : (i : ℕ) < C ∧ (j : ℕ) < C then
    IEEE.mul (IEEE.mul (.ofReal 1) (σ (rows ⟨i, h.1⟩) (S.sum (List.ofFn rows)))) (σ (x i j) (rows ⟨i, h.1⟩))
  else .ofReal 0

/-- The entry of `lp` that line 62 of semimarkov.py adds: the potential, overwritten with `zero` by line 59 from the end of the row on. -/
def entry (S : SR EReal) (N len : ℕ) (lp : ℕ → ℕ → ℕ → ℕ → EReal) (n k c1 c2 : ℕ) : EReal :=
  SR.fill (if n < N - 1 then lp n k c1 c2 else S.raw0) (decide (n ≥ len - 1)) S.zero

/-- The gradient of `log_potentials[:, b, n, k1 + 1, c1, c2]`: lines 42-86 of semimarkov.py backwards.  Column `k2 = 0` of `init` holds the sums of lines
61-63, of whose two summands only `lp` has a history; the fill of line 71 does not touch this column.  Lines 76-80: the row of the matrix is the pair
`(k1, c1)`, the column the pair `(0, c2)`. -/
def rowBack (σ : Slope) (S : SR EReal) {K1 : ℕ} (C : ℕ) (hK : 0 < K1) (N logN : ℕ) (lens : ℕ → ℕ) (lp : ℕ → ℕ → ℕ → ℕ → ℕ → EReal) (b n : ℕ)
    (k1 : Fin K1) (c1 c2 : Fin C) : IEEE :=
  let chart := SemiMarkov.chart S K1 C N (2 ^ logN) lens lp b
  IEEE.mul (scanBack σ S logN chart (totalBack σ S C hK (LinearChain.scan S logN chart 0)) n (finProdFinEquiv (k1, c1)) (finProdFinEquiv (⟨0, hK⟩, c2)))
    (σ (entry S N (lens b) (lp b) n (k1 + 1) c1 c2) (written S N (2 ^ logN) lens lp b n k1 0 c1 c2))

/-- `SemiMarkovCRF.marginals` (distributions.py:171-183; helpers.py:83-116): the gradient of the potentials; errors are those of the forward pass.
`lp[:, :, 1:K]` (line 62) leaves out the potentials of length 0. -/
def marginals (σ : Slope) (z : ℝ) (p : T5 EReal) (lengths : Option (List ℕ)) : Except PyErr (List ℕ → IEEE) := do
  let _ ← logpartition (sr z) p lengths
  let lens ← checkPotentials p lengths
  let (logN, _) ← Struct.binLength p.d1
  .ok fun e =>
    let b := e.getD 0 0
    let n := e.getD 1 0
    let k := e.getD 2 0
    if h : 1 ≤ k ∧ k - 1 < p.d2 - 1 ∧ e.getD 3 0 < p.d3 ∧ e.getD 4 0 < p.d3 then
      rowBack σ (sr z) p.d3 (Nat.zero_lt_of_lt h.2.1) (p.d1 + 1) logN (fun b => lens.getD b 0) p.get b n ⟨k - 1, h.2.1⟩ ⟨_, h.2.2.1⟩ ⟨_, h.2.2.2⟩
    else .ofReal 0

end SemiBackward
