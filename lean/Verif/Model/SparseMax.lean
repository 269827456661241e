import Verif.Model.Semirings
import Mathlib.Analysis.SpecialFunctions.Sqrt

/-! Model of torch_struct/semirings/sparse_max.py. -/

noncomputable section
namespace SparseMax

/-- `torch.sort(v, descending=True)[0]` (sparse_max.py:54). -/
def sortDesc (v : List ℝ) : List ℝ := v.insertionSort (· ≥ ·)

/-- `torch.cumsum(xs) - 1` (sparse_max.py:55, with `z = 1`, the only value that is used). -/
def cssv (xs : List ℝ) : List ℝ := (List.range xs.length).map fun i => (xs.take (i + 1)).sum - 1

/-- `(v_sorted - cssv / ind >= 0).sum()` with the divisors `ind` (sparse_max.py:56-58). -/
def support (ind : ℕ → ℝ) (vs : List ℝ) : ℕ :=
  ((List.range vs.length).filter fun i => decide (0 ≤ vs.getD i 0 - (cssv vs).getD i 0 / ind i)).length

/-- Lines 59-60 of sparse_max.py for one vector, given the count `k`.  For `k = 0` the code would gather at index -1 and raise; here the default. -/
def threshold (v : List ℝ) (k : ℕ) : List ℝ :=
  let tau := (cssv (sortDesc v)).getD (k - 1) 0 / k
  v.map fun x => max (x - tau) 0

/-- `project_simplex(v, dim=-1)` (sparse_max.py:53-61), one vector. -/
def projectSimplex (v : List ℝ) : List ℝ := threshold v (support (fun i => (i : ℝ) + 1) (sortDesc v))

/-- `project_simplex(v, dim=0)` (sparse_max.py:53-61) of an `n x n` matrix, given by its columns: `ind` has shape `n` and is broadcast along the last
dimension, so that all of column `j` is divided by `j + 1`. -/
def projectSimplexCols (cols : List (List ℝ)) : List (List ℝ) :=
  (List.range cols.length).map fun j =>
    let v := cols.getD j []
    threshold v (support (fun _ => (j : ℝ) + 1) (sortDesc v))

/-- `SparseMaxSemiring.sum` (sparse_max.py:17-27). -/
def sum (xs : List ℝ) : ℝ :=
  let w := projectSimplex xs
  (List.zipWith (· * ·) xs w).sum - Real.sqrt (w.map fun x => x ^ 2).sum

/-- The gradient that `_SimplexProject.backward` returns (sparse_max.py:30-38). -/
def sumBackward (xs : List ℝ) (g : ℝ) : List ℝ := (projectSimplex xs).map fun w => g * w

/-- `sparsemax_grad(dout, w_star)` (sparse_max.py:64-71), the second derivative of `sum` (sparse_max.py:41-50). -/
def sparsemaxGrad (dout w : List ℝ) : List ℝ :=
  let out := List.zipWith (fun d w => if w ≤ 0 then 0 else d) dout w
  let nnz : ℝ := (w.filter fun x => decide (0 < x)).length
  List.zipWith (fun o w => if w ≤ 0 then 0 else o - out.sum / nnz) out w

end SparseMax
