import Verif.Model.Checkpoint

/-! Model of torch_struct/semirings/fast_semirings.py: `FastLogSemiring`, `FastMaxSemiring` and the forward pass of `FastSampleSemiring`,
whose `matmul` hands a stack of matrices to the optional module `genbmm`.

Simplifications: as in `Model/Checkpoint`, the operands have the same number of dimensions; the banded matrices of `genbmm` (line 41-42) and the backward pass of
`genbmm.samplebmm` are not modelled. -/

noncomputable section
namespace FastSemirings
open Checkpoint

/-- One of the products of `genbmm`: given the number `n` of matrices, the sizes `r`, `m`, `c`, and two stacks of `r x m` and `m x c` matrices,
a stack of `r x c` matrices. (fast_semirings.py:45, 56, 67) -/
abbrev Bmm := ℕ → ℕ → ℕ → ℕ → (ℕ → Mat) → (ℕ → Mat) → ℕ → Mat

/-- The module `genbmm` (fast_semirings.py:6-9). -/
structure Genbmm where
  logbmm : Bmm
  maxbmm : Bmm
  samplebmm : Bmm

open Classical in
/-- `broadcast(a, b)` (fast_semirings.py:12-26): the two stacks of matrices and the leading dimensions `size[:-2]` of the result. -/
def broadcast (a b : Tensor) : Except PyErr ((ℕ → Mat) × (ℕ → Mat) × List ℕ) :=
  let size := matmulSize a b
  if Expandable a.shape size ∧ Expandable b.shape size then .ok (flat size a, flat size b, size) else .error .runtime

/-- `genbmm.xbmm(a2, b2).view(size)` (fast_semirings.py:45, 56, 67).  The product of matrices that do not fit is taken to be a
`RuntimeError`. -/
def call (f : Bmm) (a b : Tensor) (x : (ℕ → Mat) × (ℕ → Mat) × List ℕ) : Except PyErr Tensor :=
  if a.cols = b.rows then
    .ok ⟨x.2.2, a.rows, b.cols, fun idx => f x.2.2.prod a.rows a.cols b.cols x.1 x.2.1 (ravel x.2.2 idx)⟩
  else .error .runtime

/-- `FastLogSemiring.matmul` (fast_semirings.py:39-45) on tensors.  Line 41 reads the module before anything else; `none` is a session in which
`import genbmm` failed (lines 6-9). -/
def logMatmul (g : Option Genbmm) (a b : Tensor) : Except PyErr Tensor :=
  match g with
  | none => .error .name
  | some g => do
    let x ← broadcast a b
    call g.logbmm a b x

/-- `FastMaxSemiring.matmul` (fast_semirings.py:53-56). -/
def maxMatmul (g : Option Genbmm) (a b : Tensor) : Except PyErr Tensor := do
  let x ← broadcast a b
  match g with
  | none => .error .name
  | some g => call g.maxbmm a b x

/-- `FastSampleSemiring.matmul` (fast_semirings.py:64-67), forward. -/
def sampleMatmul (g : Option Genbmm) (a b : Tensor) : Except PyErr Tensor := do
  let x ← broadcast a b
  match g with
  | none => .error .name
  | some g => call g.samplebmm a b x

/-- A tensor of at least one dimension. (fast_semirings.py:37, 51) -/
structure Vec where
  shape : List ℕ
  len : ℕ
  get : List ℕ → ℕ → ℝ

/-- `a.unsqueeze(-2)` (semirings.py:46). -/
def Vec.row (a : Vec) : Tensor := ⟨a.shape, 1, a.len, fun idx _ k => a.get idx k⟩

/-- `b.unsqueeze(-1)` (semirings.py:47). -/
def Vec.col (b : Vec) : Tensor := ⟨b.shape, b.len, 1, fun idx k _ => b.get idx k⟩

/-- `Semiring.dot` (semirings.py:43-48), given the `matmul` of the class; the result is read at the last two indices, which are squeezed. -/
def dot (mm : Tensor → Tensor → Except PyErr Tensor) (a b : Vec) : Except PyErr (List ℕ × (List ℕ → ℝ)) := do
  let c ← mm a.row b.col
  .ok (c.shape, fun idx => c.get idx 0 0)

end FastSemirings
