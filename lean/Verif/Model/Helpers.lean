import Mathlib.Data.Nat.Log
import Verif.Model.Semiring

/-! Model of torch_struct/helpers.py (class `_Struct`) : the parts shared by all dynamic programs. -/

/-- A 3-dimensional tensor: dimensions and entries (entries outside the dimensions are never read). (the tensors of deptree.py and linearchain.py) -/
structure T3 (α : Type) where
  (d0 d1 d2 : ℕ)
  get : ℕ → ℕ → ℕ → α

/-- A 4-dimensional tensor: dimensions and entries (entries outside the dimensions are never read). (the potentials of linearchain.py:31, cky_crf.py:9) -/
structure T4 (α : Type) where
  (d0 d1 d2 d3 : ℕ)
  get : ℕ → ℕ → ℕ → ℕ → α

/-- A 5-dimensional tensor. (the potentials of semimarkov.py:11) -/
structure T5 (α : Type) where
  (d0 d1 d2 d3 d4 : ℕ)
  get : ℕ → ℕ → ℕ → ℕ → ℕ → α

namespace Struct

/-- `_Struct._bin_length` (helpers.py:36-39): `log_N = ceil(log2 length)`, `bin_N = 2 ** log_N`; `math.log(0, 2)` raises.
Simplification: the code computes the logarithm in floating point; here it is exact (`Nat.clog`).  `Model/BinLength.lean`
has the scans with an arbitrary computed logarithm, and `Props/BinLength.lean` (C79) shows that they agree. -/
def binLength (length : ℕ) : Except PyErr (ℕ × ℕ) :=
  if length = 0 then .error .value else .ok (Nat.clog 2 length, 2 ^ Nat.clog 2 length)

/-- `x.view(batch * n, ...)` of a tensor whose first two dimensions are `batch, n` (linearchain.py:71-72,
semimarkov.py:53-54): row-major flattening. -/
def flat {β : Type} (n : ℕ) (x : ℕ → ℕ → β) (r : ℕ) : β := x (r / n) (r % n)

/-- Reading a row-major flattened tensor through its original two indices (the views share memory). (linearchain.py:71-75) -/
def unflat {β : Type} (n : ℕ) (x : ℕ → β) (b i : ℕ) : β := x (b * n + i)

/-- `torch.mul(potentials, parts)` and `semiring.prod` over everything but the batch dimension
(`_Struct.score`, helpers.py:31-34), for semirings whose `prod` is a sum (`_BaseLog.prod`, semirings.py:110-112):
given the flattened entries of one batch row. -/
def score {R : Type} [Mul R] [Add R] [Zero R] (potentials parts : List R) : R :=
  (List.zipWith (· * ·) potentials parts).sum

end Struct
