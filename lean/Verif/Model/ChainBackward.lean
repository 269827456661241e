import Verif.Model.TreeBackward

/-! Model of `LinearChainCRF.marginals` on potentials that may be `-inf`: the backward pass of `_Struct.marginals` (helpers.py:111-115) through
`LinearChain.logpartition` (linearchain.py:44-85), tensor by tensor, with NaN.

As in Model/TreeBackward.lean, every tensor operation of the forward pass is undone by its backward formula in torch, in floating point without
rounding.  Writes through `.data` (linearchain.py:76-77) change the numbers that the backward pass reads and leave no trace in the graph. -/

noncomputable section

namespace ChainBackward
open LinearChain

/-- The semiring of the forward pass: `LogSemiring` on extended reals with a given `zero`. (semirings.py:98-108, 138-150) -/
def sr (z : ℝ) : SR EReal := Semirings.logE (z : EReal)

/-- The sum of a list of gradients. (a broadcast dimension of semirings.py:15-16 backwards) -/
def addAll (l : List IEEE) : IEEE := l.foldr IEEE.add (.ofReal 0)

/-- Line 84 of linearchain.py backwards: the gradient of `chart[:, :, 0]` when the gradient of `v` is 1 (helpers.py:111). -/
def totalBack (σ : Slope) (S : SR EReal) {m : ℕ} (x : Fin m → Fin m → EReal) (i j : Fin m) : IEEE :=
  let rows := fun i => S.sum (List.ofFn fun j => x i j)
  IEEE.mul (IEEE.mul (.ofReal 1) (σ (rows i) (S.sum (List.ofFn rows)))) (σ (x i j) (rows i))

/-- Line 83 of linearchain.py backwards: an entry of `chart[:, :, 1::2]` is the left operand, an entry of `chart[:, :, 0::2]` the right operand of `matmul`
(semirings.py:12-20); each collects the gradient of the entries of the product that it was used for, times the factor of their `logsumexp`. -/
def stepBack (σ : Slope) (S : SR EReal) {m : ℕ} (chart : ℕ → Fin m → Fin m → EReal) (g : ℕ → Fin m → Fin m → IEEE) : ℕ → Fin m → Fin m → IEEE :=
  fun n i j =>
    if n % 2 = 1 then
      addAll (List.ofFn fun c => IEEE.mul (g (n / 2) i c) (σ (S.mul (chart n i j) (chart (n - 1) j c)) (scanStep S chart (n / 2) i c)))
    else
      addAll (List.ofFn fun r => IEEE.mul (g (n / 2) r j) (σ (S.mul (chart (n + 1) r i) (chart n i j)) (scanStep S chart (n / 2) r j)))

/-- Lines 82-84 of linearchain.py backwards: the gradient of the chart that enters the scan, from that of the chart after it. -/
def scanBack (σ : Slope) (S : SR EReal) {m : ℕ} : ℕ → (ℕ → Fin m → Fin m → EReal) → (Fin m → Fin m → IEEE) → (ℕ → Fin m → Fin m → IEEE)
  | 0, _, g => fun n i j => if n = 0 then g i j else .ofReal 0
  | k + 1, chart, g => stepBack σ S chart (scanBack σ S k (scanStep S chart) g)

/-- The entry of `lp` that line 79 of linearchain.py adds: the potential, overwritten with `zero` by line 76 from the end of the row on. -/
def entry (S : SR EReal) {C : ℕ} (N len : ℕ) (lp : ℕ → Fin C → Fin C → EReal) (n : ℕ) (i j : Fin C) : EReal :=
  SR.fill (if n < N - 1 then lp n i j else S.raw0) (decide (n ≥ len - 1)) S.zero

/-- The gradient of `log_potentials` in row `b`: lines 52-84 of linearchain.py backwards.  Of the two summands of line 79 only `lp` has a history. -/
def rowBack (σ : Slope) (S : SR EReal) {C : ℕ} (N logN : ℕ) (lens : ℕ → ℕ) (lp : ℕ → ℕ → Fin C → Fin C → EReal) (b n : ℕ) (i j : Fin C) : IEEE :=
  let chart := masked S N (2 ^ logN) lens lp b
  IEEE.mul (scanBack σ S logN chart (totalBack σ S (scan S logN chart 0)) n i j) (σ (entry S N (lens b) (lp b) n i j) (chart n i j))

/-- `LinearChainCRF.marginals` (distributions.py:171-183; helpers.py:83-116): the gradient of the potentials; errors are those of the forward pass. -/
def marginals (σ : Slope) (z : ℝ) (p : T4 EReal) (lengths : Option (List ℕ)) : Except PyErr (List ℕ → IEEE) := do
  let _ ← logpartition (sr z) p lengths
  let lens ← checkPotentials p lengths
  let (logN, _) ← Struct.binLength p.d1
  .ok fun e =>
    let b := e.getD 0 0
    let n := e.getD 1 0
    if h : e.getD 2 0 < p.d2 ∧ e.getD 3 0 < p.d2 then
      rowBack σ (sr z) (C := p.d2) (p.d1 + 1) logN (fun b => lens.getD b 0) (fun b n i j => p.get b n i j) b n ⟨_, h.1⟩ ⟨_, h.2⟩
    else .ofReal 0

end ChainBackward
