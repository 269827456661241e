import Verif.Model.LinearChainParts
import Verif.Model.LogProb
import Verif.Model.Distributions

/-! Model of the part-of-speech tagger in notebooks/BertTagger.ipynb: the potentials (cell 7), the evaluation and the training loss (cell 9).
The pretrained network is a parameter. -/

open Finset

noncomputable section
namespace BertTagger
open LinearChain (algo toParts)

/-- Lines 12-14 of cell 7 (`out`, `final`): the scores of the tags of each word.  `mapper` has entry `(row, piece, word)`, `vec` is the output of the pretrained network
`(row, piece, feature)` after dropout, `lin` the matrix `self.linear.weight` (tag, feature); the bias of `self.linear` is not used by the code. -/
def final (H P : ℕ) (lin : ℕ → ℕ → ℝ) (mapper vec : ℕ → ℕ → ℕ → ℝ) (b n c : ℕ) : ℝ :=
  let out : ℕ → ℕ → ℝ := fun a h => ∑ i ∈ range P, mapper b i a * vec b i h
  ∑ h ∈ range H, out n h * lin c h

/-- `Model.forward` (cell 7, lines 11-18) from `final` on: `N` words, `C` tags, `tr` is `self.transition.weight`.  With fewer than two words `vals[:, 0]` raises
`IndexError`. -/
def forward (batch N C : ℕ) (final : ℕ → ℕ → ℕ → ℝ) (tr : ℕ → ℕ → ℝ) : Except PyErr (T4 ℝ) :=
  if N ≤ 1 then .error .index
  else
    -- vals = final.view(batch, N, C, 1)[:, 1:N] + transition.weight.view(1, 1, C, C)
    let vals : ℕ → ℕ → ℕ → ℕ → ℝ := fun b n i j => final b (n + 1) i + tr i j
    -- vals[:, 0, :, :] += final.view(batch, N, 1, C)[:, 0]
    let vals' : ℕ → ℕ → ℕ → ℕ → ℝ := fun b n i j => if n = 0 then vals b n i j + final b 0 j else vals b n i j
    .ok ⟨batch, N - 1, C, C, vals'⟩

/-- `label.transpose(0, 1)`. (BertTagger.ipynb, `train` and `validate`) -/
def transpose (s : T2 ℕ) : T2 ℕ := ⟨s.d1, s.d0, fun b n => s.get n b⟩

/-- One batch of `validate` (cell 9, lines 5-14): what is added to `incorrect_edges` and to `total`.  `label` has shape words × rows.  Simplification: the subtraction of
tables of different sizes raises (PyTorch would repeat a table of size 1). -/
def validate (pick : List (Autograd.Grad (List ℕ)) → Autograd.Grad (List ℕ)) (p : T4 ℝ) (label : T2 ℕ) (lengths : List ℕ) : Except PyErr (ℝ × ℝ) := do
  let μ ← Dist.argmax algo p (some lengths) pick
  let gold ← toParts (transpose label) p.d2 (some lengths)
  if gold.d0 ≠ p.d0 ∨ gold.d1 ≠ p.d1 then .error .runtime
  else
    let predicted : ℕ → ℕ → ℕ → ℝ := fun b n i => ∑ j ∈ range p.d3, μ [b, n, i, j]
    let correct : ℕ → ℕ → ℕ → ℝ := fun b n i => ∑ j ∈ range gold.d3, (gold.get b n i j : ℝ)
    .ok ((∑ b ∈ range p.d0, ∑ n ∈ range p.d1, ∑ i ∈ range p.d2, |predicted b n i - correct b n i|) / 2,
      ∑ b ∈ range p.d0, ∑ n ∈ range p.d1, ∑ i ∈ range p.d2, ∑ j ∈ range p.d3, μ [b, n, i, j])

/-- One batch of `train` (cell 9, lines 25-42): nothing if the batch is skipped (line 32), else the sum `loss` whose negative is minimised. -/
def trainLoss (p : T4 ℝ) (label : T2 ℕ) (lengths : List ℕ) : Except PyErr (Option ℝ) :=
  if ∃ l ∈ lengths, p.d1 + 1 < l then .ok none
  else do
    let gold ← toParts (transpose label) p.d2 (some lengths)
    let ps ← (List.range p.d0).mapM fun b => LinearChain.logProb p (some lengths) b fun n i j => (gold.get b n i j : ℝ)
    .ok (some ps.sum)

end BertTagger
