import Verif.Model.CKYCRF
import Verif.Model.Memory

/-! `CKY_CRF.logpartition` (torch_struct/cky_crf.py:8-43) with its allocations, views and in-place writes. -/

namespace CKYCRF
open View HeapM
variable {α : Type}

/-- The body of the loop (cky_crf.py:32-39).  `Chart.__getitem__` and `__setitem__` (helpers.py:18-24) index `data` after its first two dimensions. -/
def stepM (E : Layout α) (S : SR α) (N : ℕ) (a b red : View) (w : ℕ) : HeapM Unit := do
  let y := (a.slice 2 0 (N - w) 1).slice 3 0 w 1
  let z := (b.slice 2 w N 1).slice 3 (N - w) N 1
  let score := red.diagonal w 2
  let x ← E.dot S y z
  let new ← E.times S x score
  assign ((a.slice 2 0 (N - w) 1).select 3 w) fun h => h.read new
  assign ((b.slice 2 w N 1).select 3 (N - w - 1)) fun h => h.read new

/-- The loop `for w in range(1, N)` (cky_crf.py:31), for the given values of `w`. -/
def loopM (E : Layout α) (S : SR α) (N : ℕ) (a b red : View) : List ℕ → HeapM Unit
  | [] => pure ()
  | w :: ws => do
    stepM E S N a b red w
    loopM E S N a b red ws

/-- `final[:, torch.arange(batch), lengths - 1]` (cky_crf.py:42), as in `gather`: a new tensor. -/
def gatherM (E : Layout α) (batch N : ℕ) (final : View) (lengths : List ℕ) : HeapM View :=
  if ∀ l ∈ lengths, l ≤ N then
    if lengths.length = batch then
      alloc [E.size, batch] fun h ix => h.read final [ix.getD 0 0, ix.getD 1 0, lastIndex N (lengths.getD (ix.getD 1 0) 0)]
    else if lengths.length = 1 then
      alloc [E.size, batch] fun h ix => h.read final [ix.getD 0 0, ix.getD 1 0, lastIndex N (lengths.getD 0 0)]
    else if batch = 1 then
      alloc [E.size, lengths.length] fun h ix => h.read final [ix.getD 0 0, 0, lastIndex N (lengths.getD (ix.getD 1 0) 0)]
    else lift (.error .index)
  else lift (.error .index)

/-- `CKY_CRF.logpartition` (cky_crf.py:16-43) on the heap.  `batch x N x N2 x NT` is the shape of the caller's tensor and `convert` is
`semiring.convert` of it.  The exceptions are those of `logpartition`. -/
def logpartitionM (E : Layout α) (S : SR α) (batch N N2 : ℕ) (convert : HeapM View) (lengths : Option (List ℕ)) : HeapM View := do
  let scores ← convert
  if N ≠ N2 then lift (.error .runtime)
  if N = 0 then lift (.error .index)
  let a ← E.chart S [batch, N, N]
  let b ← E.chart S [batch, N, N]
  let red ← E.reduce S scores
  let term := red.diagonal 0 2
  assign (a.select 3 0) fun h => h.read term
  assign (b.select 3 (N - 1)) fun h => h.read term
  loopM E S N a b red ((List.range (N - 1)).map (· + 1))
  gatherM E batch N (a.select 2 0) (lensOr batch N lengths)

end CKYCRF
