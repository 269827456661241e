import Verif.Model.CKYParts

/-! Model of the function `split` of the notebook Unsupervised_CFG (notebooks/Unsupervised_CFG.ipynb, lines 204-228), which is meant to find the split points of the trees
of a batch.  Python's loop variables live on after their loops: the variable `k` that line 226 stores is the one of the loop of line 219.

Not modelled: the variables `B` and `C`, which are never read. -/

noncomputable section
namespace SplitNotebook
open CKY

/-- The variables that outlive an iteration: `k`, `k_final` (absent at first) and `batch_split`. (Unsupervised_CFG.ipynb:209-226) -/
structure St where
  k : Option ℕ
  kFinal : Option ℕ
  splits : ℕ × ℕ → Option ℕ

/-- The two inner loops for the span `(i, j)`. (Unsupervised_CFG.ipynb:219-224) -/
def inner (cov : List Cell) (i j : ℕ) (s : St) : St :=
  (leftOf cov i).foldl (fun s x =>
    { s with
      k := some x.2.1
      kFinal := if (rightOf cov j).any fun y => decide (y.2.1 = x.2.1 + 1 ∧ x.2.2 + y.2.2 = (j : ℤ) - i + 1) then some x.2.1 else s.kFinal }) s

/-- One iteration of the second loop over the spans.  If `k` had never been assigned, line 226 would raise an error; this cannot happen, since `left[i]` contains the span itself.
(Unsupervised_CFG.ipynb:216-226) -/
def step (cov : List Cell) (s : St) (c : Cell) : St :=
  let s := inner cov c.1 c.2.1 s
  if c.1 < c.2.1 then { s with splits := Function.update s.splits (c.1, c.2.1) s.k } else s

/-- `split(spans)[b]` for a row `f` of the batch with tables of shape `N x N x S`. (Unsupervised_CFG.ipynb:207-227) -/
def splitRow (N S : ℕ) (f : ℕ → ℕ → ℕ → ℝ) : ℕ × ℕ → Option ℕ :=
  ((cover N S f).foldl (step (cover N S f)) ⟨none, none, fun _ => none⟩).splits

/-- `split(spans)`. (Unsupervised_CFG.ipynb:204-228) -/
def split (batch N S : ℕ) (spans : ℕ → ℕ → ℕ → ℕ → ℝ) : List (ℕ × ℕ → Option ℕ) := (List.range batch).map fun b => splitRow N S (spans b)

end SplitNotebook
