import Verif.Model.LinearChain
import Verif.Model.Memory
import Verif.Model.Semirings

/-! `LinearChain.logpartition` (torch_struct/linearchain.py:44-85) with its allocations, views and in-place writes, and `semiring.convert` of the
semirings of the library. -/

namespace Memory
open View HeapM

/-- `Semiring.convert` (semirings.py:65-68): a view of the caller's tensor. -/
def convertView (t : View) : HeapM View := pure t.unsqueeze0

/-- `KMaxSemiring.convert` (semirings.py:189-198). -/
noncomputable def convertKMax (k : ℕ) (t : View) : HeapM View := do
  let p ← zeros (k :: t.shape)
  let p ← alloc p.shape fun _ _ => Semirings.negInf
  assign (p.select 0 0) fun h => h.read t
  pure p

/-- `EntropySemiring.convert` (semirings.py:377-382). -/
def convertEntropy (t : View) : HeapM View := do
  let p ← zeros (2 :: t.shape)
  assign (p.select 0 0) fun h => h.read t
  assign (p.select 0 1) fun _ _ => 0
  pure p

/-- `KLDivergenceSemiring.convert`, `CrossEntropySemiring.convert` (semirings.py:263-269, 323-329), of two tensors. -/
def convertPair (t u : View) : HeapM View := do
  let p ← zeros (3 :: t.shape)
  assign (p.select 0 0) fun h => h.read t
  assign (p.select 0 1) fun h => h.read u
  assign (p.select 0 2) fun _ _ => 0
  pure p

end Memory

namespace LinearChain
open View HeapM
variable {α : Type}

/-- Line 75: the length mask for a tensor of shape `batch * bin_N x C x C` (after the first dimension); the mask itself has shape
`batch * bin_N x 1 x 1`. -/
def rowMask (binN : ℕ) (lens : ℕ → ℕ) (ix : List ℕ) : Bool := lengthMask binN lens (ix.getD 0 0)

/-- Lines 82-83: the scan. -/
def scanM (E : Layout α) (S : SR α) (binN : ℕ) : ℕ → View → HeapM View
  | 0, chart => pure chart
  | k + 1, chart => do
    let chart ← E.matmul S (chart.slice 2 1 binN 2) (chart.slice 2 0 binN 2)
    scanM E S (binN / 2) k chart

/-- `LinearChain.logpartition` (linearchain.py:44-85) on the heap.  `batch x N_1 x C x C2` is the shape of the caller's tensor and `convert` is
`semiring.convert` of it. -/
def logpartitionM (E : Layout α) (S : SR α) (batch N1 C C2 : ℕ) (convert : HeapM View) (lengths : Option (List ℕ)) : HeapM View := do
  -- `_check_potentials` (30-42)
  let logPotentials ← convert
  let lens ← lift (checkPotentials (P := Unit) ⟨batch, N1, C, C2, fun _ _ _ _ => ()⟩ lengths)
  let (logN, binN) ← lift (Struct.binLength N1)
  -- 53-58
  let chart ← E.makeChart S [batch, binN, C, C]
  let chart ← E.fill chart (fun ix => decide (ix.getD 2 0 = ix.getD 3 0)) S.one
  -- 61-70
  let big ← zeros [E.size, batch, binN, C, C]
  assign (big.slice 2 0 N1 1) fun h => h.read logPotentials
  -- 71-72
  let c ← view chart [E.size, batch * binN, C, C]
  let lp ← view big [E.size, batch * binN, C, C]
  -- 73-75: `(lengths - 1).view(batch, 1)` raises if there is not one length for every row
  if lens.length ≠ batch then lift (.error .runtime)
  let mask := rowMask binN fun b => lens.getD b 0
  -- 76-77
  let x ← E.fill lp mask S.zero
  assign lp fun h => h.read x
  let x ← E.fill c (fun ix => !mask ix) S.zero
  assign c fun h => h.read x
  -- 79
  let x ← stack c lp
  let x ← E.reduce S x
  assign c fun h => h.read x
  -- 82-85
  let chart ← scanM E S binN logN chart
  let x ← contiguous (chart.select 2 0)
  let x ← E.reduce S x
  E.reduce S x

end LinearChain
