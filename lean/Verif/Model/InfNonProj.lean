import Verif.Model.NonProj
import Mathlib.Data.EReal.Basic

/-! Model of `deptree_part` and `deptree_nonproj` (torch_struct/deptree.py:192-302) on scores some of which are `-inf`.

`-inf` is `⊥ : EReal`; scores are never `+inf` or NaN.  The only operations on the scores are the addition of the mask and `exp`, and `exp(-inf) = 0`: after that all
numbers are finite, so that the functions below work on the table `w = input.exp()`. -/

noncomputable section
namespace InfNonProj
open NonProj (inside offset logdet rows eps0)

/-- `arc_scores`, of shape `batch x N x N`, see `NonProj.Table`. (deptree.py:192-194) -/
structure Table where
  batch : ℕ
  N : ℕ
  get : ℕ → ℕ → ℕ → EReal

/-- `torch.exp` of a score. (deptree.py:209, 216, 219, 258, 265, 283) -/
def expE (x : EReal) : ℝ := if x = ⊥ then 0 else Real.exp x.toReal

open Classical in
/-- `input.exp()` (deptree.py:206-209, 254-258) for one row: the mask adds `-inf` outside of the sentence. -/
def expIn (s : ℕ → ℕ → EReal) (len : Option ℕ) (h m : ℕ) : ℝ := if inside len h m then expE (s h m) else 0

/-- `laplacian.masked_fill(eye != 0, 0)` with `laplacian = input.exp() + eps` (deptree.py:209-210, 258-259). -/
def offDiag (eps : ℝ) (w : ℕ → ℕ → ℝ) (h m : ℕ) : ℝ := if h = m then 0 else w h m + eps

/-- `-lap + diag_embed(lap.sum(1))`, then `lap += det_offset` (deptree.py:211-213, 260-262). -/
def lap (eps : ℝ) (w : ℕ → ℕ → ℝ) (len : Option ℕ) (N h m : ℕ) : ℝ :=
  -offDiag eps w h m + (if h = m then ((List.range N).map fun k => offDiag eps w k m).sum else 0) + if h = m then offset len m else 0

/-- The root scores: added to the diagonal, or in place of row 0. (deptree.py:215-219, 264-266, 283) -/
def full (multiroot : Bool) (eps : ℝ) (w : ℕ → ℕ → ℝ) (len : Option ℕ) (N h m : ℕ) : ℝ :=
  if multiroot then lap eps w len N h m + (if h = m then w m m else 0)
  else if h = 0 then w m m else lap eps w len N h m

/-- The matrix of one row. (deptree.py:193-219) -/
def matrix (multiroot : Bool) (eps : ℝ) (w : ℕ → ℕ → ℝ) (len : Option ℕ) (N : ℕ) : Matrix (Fin N) (Fin N) ℝ :=
  Matrix.of fun h m => full multiroot eps w len N h m

/-- `deptree_part(arc_scores, multi_root, lengths, eps)` (deptree.py:192-220). -/
def part (multiroot : Bool) (eps : ℝ) (p : Table) (lengths : Option (List ℕ)) : Except PyErr (List (Option ℝ)) :=
  if multiroot = false ∧ p.N = 0 then .error .index
  else (rows p.batch lengths).map fun rs => rs.map fun r => logdet (matrix multiroot eps (expIn (p.get r.1) r.2) r.2 p.N)

/-- `output + diag_embed(roots_output)` (deptree.py:264-302), one entry; `inv` is `inv_laplacian`. -/
def marginal (multiroot : Bool) (w : ℕ → ℕ → ℝ) {N : ℕ} (inv : Matrix (Fin N) (Fin N) ℝ) (h m : Fin N) : ℝ :=
  if multiroot then w h m * inv m m - w h m * inv m h + if h = m then w m m * inv m m else 0
  else
    (if (m : ℕ) = 0 then 0 else w h m * inv m m) - (if (h : ℕ) = 0 then 0 else w h m * inv m h) +
      if h = m then w m m * inv m ⟨0, Nat.lt_of_le_of_lt (Nat.zero_le _) m.2⟩ else 0

open Classical in
/-- The marginals of one row; `lap.inverse()` raises for a singular matrix. (deptree.py:241-302) -/
def marginalsRow (multiroot : Bool) (eps : ℝ) (s : ℕ → ℕ → EReal) (len : Option ℕ) (N : ℕ) : Except PyErr (Fin N → Fin N → ℝ) :=
  if (matrix multiroot eps (expIn s len) len N).det = 0 then .error .runtime
  else .ok (marginal multiroot (expIn s len) (matrix multiroot eps (expIn s len) len N)⁻¹)

/-- `deptree_nonproj(arc_scores, multi_root, lengths, eps)` (deptree.py:223-302). -/
def marginals (multiroot : Bool) (eps : ℝ) (p : Table) (lengths : Option (List ℕ)) : Except PyErr (List (Fin p.N → Fin p.N → ℝ)) :=
  if multiroot = false ∧ p.N = 0 then .error .index
  else (rows p.batch lengths).bind fun rs => rs.mapM fun r => marginalsRow multiroot eps (p.get r.1) r.2 p.N

/-- `NonProjectiveDependencyCRF(p, lengths, multiroot=...).partition` (distributions.py:504-509). -/
def partition (multiroot : Bool) (p : Table) (lengths : Option (List ℕ)) : Except PyErr (List (Option ℝ)) := part multiroot eps0 p lengths

/-- `NonProjectiveDependencyCRF(p, lengths, multiroot=...).marginals` (distributions.py:489-499). -/
def distMarginals (multiroot : Bool) (p : Table) (lengths : Option (List ℕ)) : Except PyErr (List (Fin p.N → Fin p.N → ℝ)) :=
  marginals multiroot eps0 p lengths

end InfNonProj
