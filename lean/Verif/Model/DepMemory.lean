import Verif.Model.DepTree
import Verif.Model.Memory

/-! `DepTree.logpartition` (torch_struct/deptree.py:50-124) with its allocations, views and in-place writes.

Indexing with two tensors (`arc_scores[:, :, f[1], f[0]]`) copies; assigning to such an index writes into the tensor itself. -/

namespace DepTree
open View HeapM
variable {α : Type}

/-- `t[:, i, i]` for all `i` at once, as the target of an assignment (`new_logits[:, torch.arange(1, N + 1), torch.arange(1, N + 1)] = ...`,
deptree.py:16): dimensions 1 and 2 become one, with the sum of their strides. -/
def diag12 (t : View) : View :=
  { t with shape := (t.shape.eraseIdx 2).set 1 (min (t.shape.getD 1 0) (t.shape.getD 2 0)),
           strides := (t.strides.eraseIdx 2).set 1 (t.strides.getD 1 0 + t.strides.getD 2 0) }

/-- `convert` (deptree.py:5-17) of a tensor of shape `batch x N x N` or `batch x N x N x L` (`ls` is `[]` or `[L]`). -/
def convertM (neg : ℝ) (t : View) (batch N : ℕ) (ls : List ℕ) : HeapM View := do
  let p ← zeros (batch :: (N + 1) :: (N + 1) :: ls)
  assign p fun _ _ => neg
  assign ((p.slice 1 1 (N + 1) 1).slice 2 1 (N + 1) 1) fun h => h.read t
  let d ← alloc (batch :: N :: ls) fun h ix => match ix with
    | b :: i :: l => h.read t (b :: i :: i :: l)
    | _ => 0
  assign ((p.select 1 0).slice 1 1 (N + 1) 1) fun h => h.read d
  assign ((diag12 p).slice 1 1 (N + 1) 1) fun _ _ => neg
  pure p

/-- The eight charts in memory (deptree.py:62-68). -/
structure ChartsM where
  (acl acr bcl bcr ail air bil bir : View)

/-- `alpha[A][..][s : N - k, k] = new` (helpers.py:22-24). -/
def assignA (s N k : ℕ) (c new : View) : HeapM Unit := assign ((c.slice 2 s (N - k) 1).select 3 k) fun h => h.read new

/-- `alpha[B][..][k + s : N, N - k - 1] = new`. (deptree.py:100, 103, 108, 111) -/
def assignB (s N k : ℕ) (c new : View) : HeapM Unit := assign ((c.slice 2 (k + s) N 1).select 3 (N - k - 1)) fun h => h.read new

/-- The body of the loop (deptree.py:92-111). -/
def stepM (E : Layout α) (S : SR α) (batch s N : ℕ) (arcs : View) (c : ChartsM) (k : ℕ) : HeapM Unit := do
  let acl := (c.acl.slice 2 s (N - k) 1).slice 3 0 k 1
  let acr := (c.acr.slice 2 s (N - k) 1).slice 3 0 k 1
  let bcl := (c.bcl.slice 2 (k + s) N 1).slice 3 (N - k) N 1
  let bcr := (c.bcr.slice 2 (k + s) N 1).slice 3 (N - k) N 1
  let x ← E.dot S acr bcl
  let f ← alloc [E.size, batch, N - k - s] fun h ix => h.read arcs [ix.getD 0 0, ix.getD 1 0, s + ix.getD 2 0 + k, s + ix.getD 2 0]
  let arcsL ← E.times S x f
  assignA s N k c.ail arcsL
  assignB s N k c.bil arcsL
  let f ← alloc [E.size, batch, N - k - s] fun h ix => h.read arcs [ix.getD 0 0, ix.getD 1 0, s + ix.getD 2 0, s + ix.getD 2 0 + k]
  let arcsR ← E.times S x f
  assignA s N k c.air arcsR
  assignB s N k c.bir arcsR
  let air := (c.air.slice 2 s (N - k) 1).slice 3 1 (k + 1) 1
  let bil := (c.bil.slice 2 (k + s) N 1).slice 3 (N - k - 1) (N - 1) 1
  let new ← E.dot S acl bil
  assignA s N k c.acl new
  assignB s N k c.bcl new
  let new ← E.dot S air bcr
  assignA s N k c.acr new
  assignB s N k c.bcr new

/-- The loop (deptree.py:91), for the given values of `k`. -/
def loopM (E : Layout α) (S : SR α) (batch s N : ℕ) (arcs : View) (c : ChartsM) : List ℕ → HeapM Unit
  | [] => pure ()
  | k :: ks => do
    stepM E S batch s N arcs c k
    loopM E S batch s N arcs c ks

/-- The loop of the single-root case (deptree.py:117-120), for the given values of `k`. -/
def rootLoopM (E : Layout α) (S : SR α) (N : ℕ) (span : View) (c : ChartsM) : List ℕ → HeapM Unit
  | [] => pure ()
  | k :: ks => do
    let air := span.slice 2 0 k 1
    let bcr := (c.bcr.select 2 k).slice 2 (N - k) N 1
    let new ← E.dot S air bcr
    assign ((c.acr.select 2 0).select 2 k) fun h => h.read new
    rootLoopM E S N span c ks

/-- `alpha[..].data[:] = semiring.fill(alpha[..].data[:], mask, semiring.one)` with a mask that is `True` in column `col` (deptree.py:69-84). -/
def fillColumnM (E : Layout α) (S : SR α) (c : View) (col : ℕ) : HeapM Unit := do
  let x ← E.fill c (fun ix => ix.getD 2 0 == col) S.one
  assign c fun h => h.read x

/-- Lines 86-120: both cases. -/
def mainM (multiroot : Bool) (E : Layout α) (S : SR α) (batch N : ℕ) (arcs : View) (c : ChartsM) : HeapM Unit :=
  if multiroot then loopM E S batch 0 N arcs c ((List.range (N - 0 - 1)).map (· + 1))
  else if N < 2 then lift (.error .index)
  else do
    loopM E S batch 1 N arcs c ((List.range (N - 1 - 1)).map (· + 1))
    let span ← E.times S ((c.acl.select 2 1).slice 2 0 (N - 1) 1) ((arcs.select 2 0).slice 2 1 N 1)
    rootLoopM E S N span c ((List.range (N - 1)).map (· + 1))

/-- Line 61: labels are summed out. -/
def arcsM (E : Layout α) (S : SR α) (ls : List ℕ) (q : View) : HeapM View := if ls = [] then pure q else E.reduce S q

/-- Lines 62-68 and 69-84: the charts. -/
def chartsM (E : Layout α) (S : SR α) (batch N : ℕ) : HeapM ChartsM := do
  let acl ← E.chart S [batch, N, N]
  let acr ← E.chart S [batch, N, N]
  let bcl ← E.chart S [batch, N, N]
  let bcr ← E.chart S [batch, N, N]
  let ail ← E.chart S [batch, N, N]
  let air ← E.chart S [batch, N, N]
  let bil ← E.chart S [batch, N, N]
  let bir ← E.chart S [batch, N, N]
  fillColumnM E S acl 0
  fillColumnM E S acr 0
  fillColumnM E S bcl (N - 1)
  fillColumnM E S bcr (N - 1)
  pure ⟨acl, acr, bcl, bcr, ail, air, bil, bir⟩

/-- `DepTree.logpartition` (deptree.py:50-124) on the heap: `t` is the caller's tensor and `convert` is `semiring.convert`, which line 133 applies to the
new tensor with root arcs.  The exceptions are those of `convert` and `logpartition`. -/
def logpartitionM (multiroot : Bool) (E : Layout α) (S : SR α) (neg : ℝ) (conv : View → HeapM View) (t : View) (lengths : Option (List ℕ)) :
    HeapM View :=
  match t.shape with
  | batch :: d1 :: d2 :: ls => do
    let _ ← lift (convert () ⟨t.shape.length, batch, d1, d2, ls.headD 0, fun _ _ _ _ => ()⟩)
    let p ← convertM neg t batch d1 ls
    -- `_check_potentials` (126-141)
    let N := d1 + 1
    let lens := lensOr batch N lengths
    if lens = [] then lift (.error .value)
    if ∃ l ∈ lens, N < l then lift (.error .assertion)
    let q ← conv p
    if lens.length < batch then lift (.error .index)
    let q ← E.fill q (fun ix => decide (lens.getD (ix.getD 0 0) 0 < ix.getD 1 0 ∨ lens.getD (ix.getD 0 0) 0 < ix.getD 2 0)) S.zero
    let arcs ← arcsM E S ls q
    let c ← chartsM E S batch N
    mainM multiroot E S batch N arcs c
    -- 122-123
    let final := c.acr.select 2 0
    if batch < lens.length ∨ ∃ l ∈ lens, N ≤ l then lift (.error .index)
    alloc [E.size, batch] fun h ix => h.read final [ix.getD 0 0, ix.getD 1 0, lens.getD (ix.getD 1 0) 0]
  | _ => lift (.error .value)

end DepTree
