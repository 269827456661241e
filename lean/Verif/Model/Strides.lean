import Verif.Model.LogProb

/-! Model of the memory layout of the results of elementwise torch operations and of `Tensor.view`, as far as `_Struct.score` (torch_struct/helpers.py:31-34)
and `CKY.logpartition` (cky.py:14-80) depend on it.  The other models take tensors as functions of their indices; here a tensor has strides, and `view` raises
when the dimensions it merges do not lie one after the other in memory.

Trusted facts about torch (not part of /repo): an elementwise operation allocates its result densely, in the order of dimensions that `TensorIterator` finds by
`reorder_dimensions` (ATen/native/TensorIterator.cpp) from the strides of the operands, first operand first; `view` succeeds exactly when `computeStride`
(ATen/TensorUtils.cpp) finds strides. -/

namespace Strides

/-- Shape and strides of a tensor. (of helpers.py:31-34 and cky.py:11-79) -/
structure Lay where
  shape : List ℕ
  strides : List ℕ

/-- A contiguous tensor: every stride is the product of the sizes that follow. (helpers.py:34; cky.py:40) -/
def contiguous : List ℕ → Lay
  | [] => ⟨[], []⟩
  | n :: ns => ⟨n :: ns, ns.prod :: (contiguous ns).strides⟩

/-- `t.transpose(i, j)`: a view. (cky.py:40, 55) -/
def Lay.transpose (t : Lay) (i j : ℕ) : Lay :=
  ⟨(t.shape.set i (t.shape.getD j 0)).set j (t.shape.getD i 0), (t.strides.set i (t.strides.getD j 0)).set j (t.strides.getD i 0)⟩

/-- `t.unsqueeze(d)`: the stride of the new dimension is size times stride of the dimension at its place, or 1 at the end. (cky.py:58-64; semirings.py:68) -/
def Lay.unsqueeze (t : Lay) (d : ℕ) : Lay :=
  ⟨t.shape.insertIdx d 1, t.strides.insertIdx d (if d < t.shape.length then t.shape.getD d 0 * t.strides.getD d 0 else 1)⟩

/-- `t.narrow(d, _, n)`: a basic slice with `n` entries at dimension `d`. (cky.py:53-54) -/
def Lay.narrow (t : Lay) (d n : ℕ) : Lay := ⟨t.shape.set d n, t.strides⟩

/-- `t.select(d, _)`. (cky.py:61, 64) -/
def Lay.select (t : Lay) (d : ℕ) : Lay := ⟨t.shape.eraseIdx d, t.strides.eraseIdx d⟩

/-- Result of the comparison of two dimensions in `reorder_dimensions`. (torch code behind helpers.py:31-34 and cky.py:11-79) -/
inductive Cmp where
  | before | after | ambiguous

/-- `should_swap(dim0, dim1)` of `reorder_dimensions`: the first operand in which neither dimension is broadcast and the strides differ decides; at equal
strides the sizes may decide. (torch code behind helpers.py:31-34 and cky.py:11-79) -/
def shouldSwap (shape : List ℕ) (d0 d1 : ℕ) : List (List ℕ) → Cmp
  | [] => .ambiguous
  | st :: rest =>
    let s0 := st.getD d0 0
    let s1 := st.getD d1 0
    if s0 = 0 ∨ s1 = 0 then shouldSwap shape d0 d1 rest
    else if s0 < s1 then .before
    else if s1 < s0 then .after
    else if shape.getD d1 0 < shape.getD d0 0 then .after
    else shouldSwap shape d0 d1 rest

/-- The inner loop of the insertion sort: `dim0` runs down to 0. (torch code behind helpers.py:31-34 and cky.py:11-79) -/
def sink (shape : List ℕ) (ops : List (List ℕ)) (perm : List ℕ) (dim1 : ℕ) : ℕ → List ℕ
  | 0 => perm
  | dim0 + 1 =>
    match shouldSwap shape (perm.getD dim0 0) (perm.getD dim1 0) ops with
    | .after => sink shape ops ((perm.set dim0 (perm.getD dim1 0)).set dim1 (perm.getD dim0 0)) dim0 dim0
    | .before => perm
    | .ambiguous => sink shape ops perm dim1 dim0

/-- `reorder_dimensions`: the dimensions from the innermost to the outermost; it starts with the order of a contiguous tensor. (torch code behind helpers.py:31-34 and cky.py:11-79) -/
def order (shape : List ℕ) (ops : List (List ℕ)) : List ℕ :=
  (List.range (shape.length - 1)).foldl (fun perm i => sink shape ops perm (i + 1) (i + 1)) (List.range shape.length).reverse

/-- The strides of a dense tensor whose dimensions lie in memory in this order. (torch code behind helpers.py:31-34 and cky.py:11-79) -/
def dense (shape perm : List ℕ) : List ℕ :=
  (List.range shape.length).map fun d => ((perm.takeWhile (· ≠ d)).map fun e => shape.getD e 0).prod

/-- The strides of an operand after broadcasting to `out`: 0 for new dimensions and for dimensions of size 1 that are repeated. (helpers.py:32; cky.py:62, 65, 69) -/
def bcast (t : Lay) (out : List ℕ) : List ℕ :=
  List.replicate (out.length - t.shape.length) 0 ++
    List.zipWith (fun p o => if p.1 = 1 ∧ o ≠ 1 then 0 else p.2) (t.shape.zip t.strides) (out.drop (out.length - t.shape.length))

/-- An elementwise operation on two tensors.  Simplification: torch keeps the strides of dimensions of size 1 when all operands have the same layout; `view` does not
depend on those. (helpers.py:32; cky.py:62, 65, 69) -/
def elementwise (a b : Lay) : Except PyErr Lay := do
  let s ← Tensor.dims a.shape.reverse b.shape.reverse
  .ok ⟨s.reverse, dense s.reverse (order s.reverse [bcast a s.reverse, bcast b s.reverse])⟩

/-- An elementwise operation with a number, such as `terms + 0.0`. (cky.py:32) -/
def elementwise1 (a : Lay) : Lay := ⟨a.shape, dense a.shape (order a.shape [a.strides])⟩

/-- The `while` loop of `computeStride`: it takes sizes of the new shape, from the last one, until they fill a chunk of `numel` entries. (torch code behind helpers.py:34 and cky.py:37, 55, 62, 65, 69) -/
def takeView (numel : ℕ) : ℕ → List ℕ → ℕ × List ℕ
  | v, [] => (v, [])
  | v, s :: rest => if v < numel ∨ s = 1 then takeView numel (v * s) rest else (v, s :: rest)

/-- The `for` loop of `computeStride`: the old dimensions (size, stride) from the last one; `base` and `numel` describe the current chunk. (torch code behind helpers.py:34 and cky.py:37, 55, 62, 65, 69) -/
def compat (base numel : ℕ) : List (ℕ × ℕ) → List ℕ → Bool
  | [], new =>
    let r := takeView numel 1 new
    r.1 == numel && r.2.isEmpty
  | (n, st) :: old, new =>
    if n ≠ 1 ∧ st ≠ numel * base then
      let r := takeView numel 1 new
      r.1 == numel && compat st n old r.2
    else compat base (numel * n) old new

/-- `t.view(shape)` is possible.  Simplification: tensors with at least one entry. (helpers.py:34; cky.py:37, 55, 62, 65, 69) -/
def canView (t : Lay) (shape : List ℕ) : Bool :=
  match (t.shape.zip t.strides).reverse with
  | [] => shape.prod == 1
  | (n, st) :: old => t.shape.prod == shape.prod && compat st n old shape.reverse

/-- `t.view(shape)`, or the `RuntimeError` "view size is not compatible with input tensor's size and stride". (helpers.py:34; cky.py:37, 55, 62, 65, 69) -/
def view (t : Lay) (shape : List ℕ) : Except PyErr Unit := if canView t shape then .ok () else .error .runtime

/-- The layout of the tensors in `_Struct.score` (helpers.py:31-34) with `batch_dims = range(k)`: the product of potentials and parts, viewed with the dimensions
from `k` on merged. -/
def score (potentials parts : Lay) (k : ℕ) : Except PyErr Unit := do
  let x ← elementwise potentials parts
  view x (x.shape.take k ++ [(x.shape.drop k).prod])

/-- `StructDistribution.log_prob(value)` (distributions.py:56-75) for tensors with layouts: the `view` in `score` may raise, else the value is the one of
`StructDistribution.logProb`. -/
def logProb {R : Type} (A : Arith R) (logPotentials : Tensor R) (strides : List ℕ) (partition : Except PyErr (Tensor R)) (value : Tensor R)
    (valueStrides : List ℕ) : Except PyErr (Tensor R) := do
  score ⟨logPotentials.shape, strides⟩ ⟨value.shape, valueStrides⟩ (value.shape.length - logPotentials.shape.tail.length)
  StructDistribution.logProb A logPotentials partition value

/-- The views of one round `w` of the loop in `CKY.logpartition` (cky.py:48-70) that depend on the layout of `terms`: `times(Y, Z_term).view(*v2)`,
`times(Y_term, Z).view(*v2)` and, for `w = 1`, `times(Y_term, Z_term).view(*v2)`, where `term_use = terms + 0.0` after `convert` (semirings.py:66-68) and the
charts are contiguous (helpers.py:7-14).  Simplification: `semiring.size() = 1`. -/
def ckyRound (terms : Lay) (batch N T NT w : ℕ) : Except PyErr Unit := do
  let termUse := elementwise1 (terms.unsqueeze 0)
  let beta := contiguous [1, batch, N, N, NT]
  let yTerm := (termUse.narrow 2 (N - w)).unsqueeze 4
  let zTerm := (termUse.narrow 2 (N - w)).unsqueeze 3
  let y := (((beta.narrow 2 (N - w)).narrow 3 w).select 3).unsqueeze 4
  let x2 ← elementwise y zTerm
  view x2 [1, batch, N - w, NT * T]
  let z := (((beta.narrow 2 (N - w)).narrow 3 w).select 3).unsqueeze 3
  let x3 ← elementwise yTerm z
  view x3 [1, batch, N - w, T * NT]
  if w = 1 then
    let x4 ← elementwise yTerm zTerm
    view x4 [1, batch, N - w, T * T]

/-- All rounds. (cky.py:49-69) -/
def ckyViews (terms : Lay) (batch N T NT : ℕ) : Except PyErr Unit := (List.range (N - 1)).forM fun w => ckyRound terms batch N T NT (w + 1)

end Strides
