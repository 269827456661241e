import Verif.Model.Semiring
import Mathlib.LinearAlgebra.Matrix.NonsingularInverse
import Mathlib.Analysis.SpecialFunctions.Log.Basic

/-! Model of `deptree_part` and `deptree_nonproj` (torch_struct/deptree.py:192-302) and of `NonProjectiveDependencyCRF`
(distributions.py:459-522). -/

noncomputable section
namespace NonProj

/-- `arc_scores`, of shape `batch x N x N`.  Simplification: the last two dimensions are equal (otherwise `masked_fill` raises). (deptree.py:192-194) -/
structure Table where
  batch : ℕ
  N : ℕ
  get : ℕ → ℕ → ℕ → ℝ

/-- `mask` (deptree.py:195-205, 243-253) for one row: both words are inside the sentence. -/
def inside (len : Option ℕ) (h m : ℕ) : Prop :=
  match len with
  | none => True
  | some l => h < l ∧ m < l

open Classical in
/-- `input.exp()` (deptree.py:206-209, 254-258) for one row: the mask adds `-inf` to the scores outside, and `exp(-inf) = 0`. -/
def expIn (s : ℕ → ℕ → ℝ) (len : Option ℕ) (h m : ℕ) : ℝ := if inside len h m then Real.exp (s h m) else 0

/-- `laplacian.masked_fill(eye != 0, 0)` with `laplacian = input.exp() + eps` (deptree.py:209-210, 258-259). -/
def offDiag (eps : ℝ) (s : ℕ → ℕ → ℝ) (len : Option ℕ) (h m : ℕ) : ℝ := if h = m then 0 else expIn s len h m + eps

/-- `det_offset` (deptree.py:200, 212-213, 248, 261-262): 1 for the words outside the sentence. -/
def offset (len : Option ℕ) (m : ℕ) : ℝ :=
  match len with
  | none => 0
  | some l => if m < l then 0 else 1

/-- `-lap + diag_embed(lap.sum(1))`, then `lap += det_offset` (deptree.py:211-213, 260-262); `sum(1)` sums over the heads. -/
def lap (eps : ℝ) (s : ℕ → ℕ → ℝ) (len : Option ℕ) (N h m : ℕ) : ℝ :=
  -offDiag eps s len h m + (if h = m then ((List.range N).map fun k => offDiag eps s len k m).sum else 0) + if h = m then offset len m else 0

/-- Lines 215-219 (264-266, 283) of deptree.py: with several roots the root scores are added to the diagonal, with a single root they replace row 0. -/
def full (multiroot : Bool) (eps : ℝ) (s : ℕ → ℕ → ℝ) (len : Option ℕ) (N h m : ℕ) : ℝ :=
  if multiroot then lap eps s len N h m + (if h = m then expIn s len m m else 0)
  else if h = 0 then expIn s len m m else lap eps s len N h m

/-- The matrix of one row. (deptree.py:193-219) -/
def matrix (multiroot : Bool) (eps : ℝ) (s : ℕ → ℕ → ℝ) (len : Option ℕ) (N : ℕ) : Matrix (Fin N) (Fin N) ℝ :=
  Matrix.of fun h m => full multiroot eps s len N h m

open Classical in
/-- `torch.logdet` of one matrix: the logarithm of the determinant; `none` stands for `-inf` and `nan` (determinant 0 or negative). (deptree.py:220) -/
def logdet {N : ℕ} (M : Matrix (Fin N) (Fin N) ℝ) : Option ℝ := if 0 < M.det then some (Real.log M.det) else none

/-- The rows of the result, with the row of the scores and the length that each one reads.  `x < lengths.unsqueeze(1)` (deptree.py:195-199, 243-247) broadcasts
a single length to all rows and a single row to all lengths, and raises if the sizes differ otherwise. -/
def rows (batch : ℕ) (lengths : Option (List ℕ)) : Except PyErr (List (ℕ × Option ℕ)) :=
  match lengths with
  | none => .ok ((List.range batch).map fun b => (b, none))
  | some l =>
    if l.length = batch then .ok ((List.range batch).map fun b => (b, some (l.getD b 0)))
    else if l.length = 1 then .ok ((List.range batch).map fun b => (b, some (l.getD 0 0)))
    else if batch = 1 then .ok ((List.range l.length).map fun b => (0, some (l.getD b 0)))
    else .error .runtime

/-- `deptree_part(arc_scores, multi_root, lengths, eps)` (deptree.py:192-220).  `lap[:, 0] = ...` raises without words. -/
def part (multiroot : Bool) (eps : ℝ) (p : Table) (lengths : Option (List ℕ)) : Except PyErr (List (Option ℝ)) :=
  if multiroot = false ∧ p.N = 0 then .error .index
  else (rows p.batch lengths).map fun rs => rs.map fun r => logdet (matrix multiroot eps (p.get r.1) r.2 p.N)

/-- `output + diag_embed(roots_output)` (deptree.py:264-302), one entry; `inv` is `inv_laplacian`. -/
def marginal (multiroot : Bool) (s : ℕ → ℕ → ℝ) (len : Option ℕ) {N : ℕ} (inv : Matrix (Fin N) (Fin N) ℝ) (h m : Fin N) : ℝ :=
  if multiroot then
    expIn s len h m * inv m m - expIn s len h m * inv m h + if h = m then expIn s len m m * inv m m else 0
  else
    (if (m : ℕ) = 0 then 0 else expIn s len h m * inv m m) - (if (h : ℕ) = 0 then 0 else expIn s len h m * inv m h) +
      if h = m then expIn s len m m * inv m ⟨0, Nat.lt_of_le_of_lt (Nat.zero_le _) m.2⟩ else 0

open Classical in
/-- The marginals of one row; `lap.inverse()` raises for a singular matrix. (deptree.py:241-302) -/
def marginalsRow (multiroot : Bool) (eps : ℝ) (s : ℕ → ℕ → ℝ) (len : Option ℕ) (N : ℕ) : Except PyErr (Fin N → Fin N → ℝ) :=
  if (matrix multiroot eps s len N).det = 0 then .error .runtime
  else .ok (marginal multiroot s len (matrix multiroot eps s len N)⁻¹)

/-- `deptree_nonproj(arc_scores, multi_root, lengths, eps)` (deptree.py:223-302). -/
def marginals (multiroot : Bool) (eps : ℝ) (p : Table) (lengths : Option (List ℕ)) : Except PyErr (List (Fin p.N → Fin p.N → ℝ)) :=
  if multiroot = false ∧ p.N = 0 then .error .index
  else (rows p.batch lengths).bind fun rs => rs.mapM fun r => marginalsRow multiroot eps (p.get r.1) r.2 p.N

/-- The default `eps=1e-5` (deptree.py:192, 223). -/
def eps0 : ℝ := 1 / 100000

/-- `NonProjectiveDependencyCRF(p, lengths, multiroot=...).partition` (distributions.py:504-509). -/
def partition (multiroot : Bool) (p : Table) (lengths : Option (List ℕ)) : Except PyErr (List (Option ℝ)) := part multiroot eps0 p lengths

/-- `NonProjectiveDependencyCRF(p, lengths, multiroot=...).marginals` (distributions.py:489-499). -/
def distMarginals (multiroot : Bool) (p : Table) (lengths : Option (List ℕ)) : Except PyErr (List (Fin p.N → Fin p.N → ℝ)) :=
  marginals multiroot eps0 p lengths

end NonProj
