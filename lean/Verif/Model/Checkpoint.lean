import Verif.Model.Semirings

/-! Model of torch_struct/semirings/checkpoint.py: the semirings whose `matmul` recomputes its work in the backward pass, in one
piece (`CheckpointSemiring`) or shard by shard (`CheckpointShardSemiring`).

Simplifications: the operands have the same number of dimensions (in the code, `zip` over the shapes), the banded matrices of
`genbmm` (lines 38-53, 58-62) are not modelled, nor is the memory layout (`contiguous`, `view`). -/

noncomputable section
namespace Checkpoint

/-- A tensor of at least two dimensions: the leading (batch) dimensions, then `rows` and `cols`.  `get idx i j` is the entry; indices out of
range are never read. (the tensors of checkpoint.py:13-189) -/
structure Tensor where
  shape : List ℕ
  rows : ℕ
  cols : ℕ
  get : List ℕ → ℕ → ℕ → ℝ

/-- A matrix, as a function of row and column. (checkpoint.py:141-145) -/
abbrev Mat := ℕ → ℕ → ℝ

/-- Torch's rule for reading a tensor of batch shape `shape` at a broadcast index: a dimension of size one is read at `0`. (checkpoint.py:138-139, 166-167) -/
def bidx (shape idx : List ℕ) : List ℕ := List.zipWith (fun d i => if d = 1 then 0 else i) shape idx

/-- Torch's rule for when two batch shapes can be broadcast. (checkpoint.py:13-21, 29) -/
def Compatible (s t : List ℕ) : Prop := List.Forall₂ (fun d e => d = e ∨ d = 1 ∨ e = 1) s t

/-- Torch's rule for when a tensor can be expanded to a shape. (checkpoint.py:138-139) -/
def Expandable (s t : List ℕ) : Prop := List.Forall₂ (fun d e => d = e ∨ d = 1) s t

/-- All the indices of a shape, in row-major order. (checkpoint.py:141-142) -/
def indices : List ℕ → List (List ℕ)
  | [] => [[]]
  | d :: ds => (List.range d).flatMap fun i => (indices ds).map (i :: ·)

/-- The position of an index in memory after `.contiguous()`. (checkpoint.py:141-142) -/
def ravel : List ℕ → List ℕ → ℕ
  | _ :: ds, i :: is => i * ds.prod + ravel ds is
  | _, _ => 0

/-- The index at a position in memory. (checkpoint.py:141-142, 146) -/
def unravel : List ℕ → ℕ → List ℕ
  | [], _ => []
  | _ :: ds, q => q / ds.prod :: unravel ds (q % ds.prod)

/-- An operation on pairs of matrices (`r x m` and `m x c`) with its vector-Jacobian products: `fwd m A B`, and the gradients of
`<G, fwd A B>` with respect to `A` and to `B`. (`cls.matmul` and `torch.autograd.grad`, checkpoint.py:29, 35-36) -/
structure MatOp where
  fwd : ℕ → Mat → Mat → Mat
  gradA : ℕ → ℕ → ℕ → Mat → Mat → Mat → Mat
  gradB : ℕ → ℕ → ℕ → Mat → Mat → Mat → Mat

/-- `cls.matmul` (semirings.py:12-20, 128-135) of a semiring of size one on a pair of matrices. -/
def matFwd (S : SR ℝ) (m : ℕ) (A B : Mat) : Mat := fun i j => S.sum ((List.range m).map fun k => S.mul (A i k) (B k j))

open Classical in
/-- `cls.matmul(a, b)` on tensors (semirings.py:12-20): matrix by matrix, the leading dimensions broadcast.  (The code would also broadcast
a contracted dimension of size one; here it must agree.) -/
def batched (op : MatOp) (a b : Tensor) : Except PyErr Tensor :=
  if Compatible a.shape b.shape ∧ a.cols = b.rows then
    .ok ⟨List.zipWith (fun d e => if d = 1 then e else d) a.shape b.shape, a.rows, b.cols,
      fun idx => op.fwd a.cols (a.get (bidx a.shape idx)) (b.get (bidx b.shape idx))⟩
  else .error .runtime

/-- `matmul_size` (checkpoint.py:17-21), without the last two entries (`a.rows`, `b.cols`). -/
def matmulSize (a b : Tensor) : List ℕ := List.zipWith max a.shape b.shape

/-- `broadcast_size` (checkpoint.py:13-14; line 103). -/
def broadcastSize (a b : Tensor) : ℕ :=
  (List.zipWith max (a.shape ++ [a.rows, a.cols]) (b.shape ++ [b.rows, b.cols])).prod

/-- `x.expand(*size[:-2], ..).contiguous().view(-1, rows, cols)` (checkpoint.py:138-142, 166-169): the `q`-th matrix. -/
def flat (size : List ℕ) (x : Tensor) (q : ℕ) : Mat := x.get (bidx x.shape (unravel size q))

/-- The slice `x2[p : p + step]` of a tensor with `n` matrices. (checkpoint.py:145, 177-178) -/
def slice (x2 : ℕ → Mat) (n p step rows cols : ℕ) : Tensor :=
  ⟨[min step (n - p)], rows, cols, fun idx => x2 (p + idx.headD 0)⟩

/-- Python's `range(0, n, step)`. (checkpoint.py:144, 175) -/
def starts (n step : ℕ) : List ℕ := (List.range ((n + step - 1) / step)).map (· * step)

/-- One iteration of the loop of `accumulate_` (checkpoint.py:144-145). -/
def accumulateStep (fn : Tensor → Tensor → Except PyErr Tensor) (step n : ℕ) (a b : Tensor) (a2 b2 : ℕ → Mat) (ret : ℕ → Mat) (p : ℕ) :
    Except PyErr (ℕ → Mat) := do
  let c ← fn (slice a2 n p step a.rows a.cols) (slice b2 n p step b.rows b.cols)
  if c.shape = [min step (n - p)] ∨ c.shape = [1] then
    .ok fun q => if p ≤ q ∧ q < p + step then c.get (bidx c.shape [q - p]) else ret q
  else .error .runtime

open Classical in
/-- `accumulate_(a, b, size, fn, len(size), step)` (checkpoint.py:127-147) with `size = matmul_size(a, b)`. -/
def accumulate (fn : Tensor → Tensor → Except PyErr Tensor) (step : ℕ) (a b : Tensor) : Except PyErr Tensor :=
  let size := matmulSize a b
  if step > size.prod * a.rows * b.cols then fn a b
  else if Expandable a.shape size ∧ Expandable b.shape size then do
    let ret ← (starts size.prod step).foldlM (accumulateStep fn step size.prod a b (flat size a) (flat size b)) fun _ _ _ => 0
    .ok ⟨size, a.rows, b.cols, fun idx => ret (ravel size idx)⟩
  else .error .runtime

/-- The number of matrices in a shard (checkpoint.py:84, 96). -/
def shardStep (maxSize : ℕ) (a b : Tensor) : ℕ := maxSize / (b.rows * a.cols) + 2

/-- `CheckpointSemiring(cls, min_size).matmul` (checkpoint.py:25-29, 64-69), given `cls.matmul`. -/
def checkpointMatmul (fn : Tensor → Tensor → Except PyErr Tensor) (minSize : ℕ) (a b : Tensor) : Except PyErr Tensor :=
  if broadcastSize a b > minSize then fn a b else fn a b

/-- `CheckpointShardSemiring(cls, max_size, min_size).matmul` (checkpoint.py:74-85, 100-109), given `cls.matmul`.  The division by zero for an
empty contracted dimension is reported as a `runtime` error. -/
def shardMatmul (fn : Tensor → Tensor → Except PyErr Tensor) (maxSize minSize : ℕ) (a b : Tensor) : Except PyErr Tensor :=
  if broadcastSize a b < minSize then fn a b
  else if b.rows * a.cols = 0 then .error .runtime
  else accumulate fn (shardStep maxSize a b) a b

/-! ### The backward pass -/

open Classical in
/-- What torch's autograd returns for `cls.matmul(a, b)` and the output gradient `g`: matrix by matrix, and the gradients of
all the positions that read the same (broadcast) entry are added. (checkpoint.py:36, 67) -/
def autograd (op : MatOp) (a b g : Tensor) : Except PyErr (Tensor × Tensor) :=
  if Compatible a.shape b.shape ∧ a.cols = b.rows then
    .ok (⟨a.shape, a.rows, a.cols, fun ia i k => (((indices g.shape).filter fun idx => decide (bidx a.shape idx = ia)).map fun idx =>
            op.gradA a.rows a.cols b.cols (a.get (bidx a.shape idx)) (b.get (bidx b.shape idx)) (g.get idx) i k).sum⟩,
         ⟨b.shape, b.rows, b.cols, fun ib k j => (((indices g.shape).filter fun idx => decide (bidx b.shape idx = ib)).map fun idx =>
            op.gradB a.rows a.cols b.cols (a.get (bidx a.shape idx)) (b.get (bidx b.shape idx)) (g.get idx) k j).sum⟩)
  else .error .runtime

/-- `x.sum(ones(x0), keepdim=True)` (checkpoint.py:112-117, 186-188) in the leading dimensions: the dimensions in which the shape of
`x0` is one are added up. -/
def sumOnes : List ℕ → List ℕ → (List ℕ → ℝ) → List ℕ → ℝ
  | d :: ds, s :: ss, f, i :: is =>
    if d = 1 then ((List.range s).map fun k => sumOnes ds ss (fun r => f (k :: r)) is).sum
    else sumOnes ds ss (fun r => f (i :: r)) is
  | _, _, f, _ => f []

/-- `x_grad.view(*size[:-2], ..).sum(ones(x), keepdim=True)` (checkpoint.py:184-188).  If `ones(x)` is empty, torch's `sum([])` adds up
every dimension and autograd rejects the resulting shape. -/
def gradSum (size : List ℕ) (x : Tensor) (acc : ℕ → Mat) : Except PyErr Tensor :=
  if 1 ∈ x.shape ∨ x.rows = 1 then
    .ok ⟨x.shape, x.rows, x.cols, fun ix i k =>
      sumOnes x.shape size (fun idx =>
        if x.rows = 1 then ((List.range x.rows).map fun i' => acc (ravel size idx) i' k).sum else acc (ravel size idx) i k) ix⟩
  else .error .runtime

/-- One iteration of the loop of `unaccumulate_` (checkpoint.py:175-182). -/
def unaccumulateStep (vjp : Tensor → Tensor → Tensor → Except PyErr (Tensor × Tensor)) (step n : ℕ) (a b : Tensor)
    (a2 b2 g2 : ℕ → Mat) (acc : (ℕ → Mat) × (ℕ → Mat)) (p : ℕ) : Except PyErr ((ℕ → Mat) × (ℕ → Mat)) := do
  let r ← vjp (slice a2 n p step a.rows a.cols) (slice b2 n p step b.rows b.cols) (slice g2 n p step a.rows b.cols)
  .ok (fun q i k => if p ≤ q ∧ q < p + step then acc.1 q i k + r.1.get [q - p] i k else acc.1 q i k,
       fun q i k => if p ≤ q ∧ q < p + step then acc.2 q i k + r.2.get [q - p] i k else acc.2 q i k)

open Classical in
/-- `unaccumulate_(a, b, grad_output, ndim, fn, step)` (checkpoint.py:150-189), given the autograd of `fn`; lines 158-164 differentiate the saved tensors. -/
def unaccumulate (vjp : Tensor → Tensor → Tensor → Except PyErr (Tensor × Tensor)) (step : ℕ) (a b g : Tensor) :
    Except PyErr (Tensor × Tensor) :=
  let size := g.shape
  if step > size.prod * g.rows * g.cols then vjp a b g
  else if Expandable a.shape size ∧ Expandable b.shape size then do
    let acc ← (starts size.prod step).foldlM
      (unaccumulateStep vjp step size.prod a b (flat size a) (flat size b) (flat size g)) (fun _ _ _ => 0, fun _ _ _ => 0)
    let f1 ← gradSum size a acc.1
    let f2 ← gradSum size b acc.2
    .ok (f1, f2)
  else .error .runtime

/-- `_Check.backward` of the sharded class (checkpoint.py:87-98). -/
def shardBackward (vjp : Tensor → Tensor → Tensor → Except PyErr (Tensor × Tensor)) (maxSize : ℕ) (a b g : Tensor) :
    Except PyErr (Tensor × Tensor) :=
  if b.rows * a.cols = 0 then .error .runtime else unaccumulate vjp (shardStep maxSize a b) a b g

/-! ### A semiring with more than one slot -/

open Classical in
/-- `EntropySemiring.matmul(a, b)` (semirings.py:12-20, 388-399) on raw tensors: the first dimension holds the two slots; `mul` and `sum` read the
slots 0 and 1 and return a stack of two. -/
def entropyMatmul (a b : Tensor) : Except PyErr Tensor :=
  match a.shape, b.shape with
  | d :: ds, e :: es =>
    if d < 2 ∨ e < 2 then .error .index
    else if Compatible ds es ∧ a.cols = b.rows then
      .ok ⟨2 :: List.zipWith (fun d e => if d = 1 then e else d) ds es, a.rows, b.cols, fun idx i j =>
        let r := Semirings.entropy.sum ((List.range a.cols).map fun k =>
          (a.get (0 :: bidx ds idx.tail) i k + b.get (0 :: bidx es idx.tail) k j,
           a.get (1 :: bidx ds idx.tail) i k + b.get (1 :: bidx es idx.tail) k j))
        if idx.headD 0 = 0 then r.1 else r.2⟩
    else .error .runtime
  | _, _ => .error .index

end Checkpoint
