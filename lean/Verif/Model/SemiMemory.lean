import Verif.Model.SemiMarkov
import Verif.Model.ChainMemory
import Verif.Model.Sem

/-! `SemiMarkov.logpartition` (torch_struct/semimarkov.py:21-87) with its allocations, views and in-place writes. -/

namespace Memory

/-- `semiring.convert` of a tensor of booleans (semirings.py:65-68, 189-198, 377-382), slot `s`: `KMaxSemiring` fills the further slots with its zero,
-1e5, which as a boolean is `True`; `EntropySemiring` fills the second slot with 0.  The last two semirings are never used with `SemiMarkov`, as
`cross_entropy` and `kl` raise before that. -/
def Sem.maskSlot : Sem → ℕ → Bool → Bool
  | .kmax _, s, m => if s = 0 then m else true
  | .entropy, s, m => if s = 0 then m else false
  | _, _, m => m

end Memory

namespace SemiMarkov
open View HeapM
variable {α : Type}

/-- `Semiring.fill(c, mask, v)` (semirings.py:50-55) with a mask that differs from slot to slot. -/
def fillSlots (E : Layout α) (c : View) (mask : ℕ → List ℕ → Bool) (v : α) : HeapM View :=
  alloc c.shape fun h ix => match ix with
    | [] => 0
    | s :: ix => if mask s ix then E.enc v s else h.read c (s :: ix)

/-- Lines 37-38: the mask with `True` on the diagonal of the classes where both remaining lengths are 0. -/
def startMask (ix : List ℕ) : Bool := decide (ix.getD 2 0 = 0 ∧ ix.getD 3 0 = 0 ∧ ix.getD 4 0 = ix.getD 5 0)

/-- Lines 64-70: the mask that is `False` but for the entries `(k - 1, k)`, `k` in `1 .. K-2`, on the diagonal of the classes, which are set to `True`
where the converted mask of line 69 is.  The subtraction of line 68 is on integers. -/
def decMask (slot : ℕ → Bool → Bool) (K : ℕ) (lens : ℕ → ℕ) (s : ℕ) (ix : List ℕ) : Bool :=
  (List.range (K - 2)).any fun i =>
    let k := i + 1
    decide (ix.getD 2 0 = k - 1 ∧ ix.getD 3 0 = k ∧ ix.getD 4 0 = ix.getD 5 0) &&
      slot s (decide ((ix.getD 1 0 : ℤ) < (lens (ix.getD 0 0) : ℤ) - 1 - ((k : ℤ) - 1)))

/-- `SemiMarkov.logpartition` (semimarkov.py:21-87) on the heap.  `batch x N_1 x K x C x C2` is the shape of the caller's tensor, `convert` is
`semiring.convert` of it and `slot` the one of a tensor of booleans. -/
def logpartitionM (E : Layout α) (S : SR α) (slot : ℕ → Bool → Bool) (batch N1 K C C2 : ℕ) (convert : HeapM View) (lengths : Option (List ℕ)) :
    HeapM View := do
  -- `_check_potentials` (10-19)
  let logPotentials ← convert
  let lens ← lift (checkPotentials (P := Unit) ⟨batch, N1, K, C, C2, fun _ _ _ _ _ => ()⟩ lengths)
  let (logN, binN) ← lift (Struct.binLength N1)
  -- 32-34: a negative dimension if `K = 0`
  if K = 0 then lift (.error .runtime)
  let init ← E.makeChart S [batch, binN, K - 1, K - 1, C, C]
  -- 37-39: the index 0 is out of range if `K = 1`
  if K - 1 = 0 then lift (.error .index)
  let init ← E.fill init startMask S.one
  -- 42-52
  let big ← zeros [E.size, batch, binN, K, C, C]
  assign (big.slice 2 0 N1 1) fun h => h.read logPotentials
  -- 53-54
  let c ← view init [E.size, batch * binN, K - 1, K - 1, C, C]
  let lp ← view big [E.size, batch * binN, K, C, C]
  -- 55-58: `(lengths - 1).view(batch, 1)` raises if there is not one length for every row
  if lens.length ≠ batch then lift (.error .runtime)
  let mask := LinearChain.rowMask binN fun b => lens.getD b 0
  -- 59-60
  let x ← E.fill lp mask S.zero
  assign lp fun h => h.read x
  let x ← E.fill (c.select 3 0) (fun ix => !mask ix) S.zero
  assign (c.select 3 0) fun h => h.read x
  -- 61-63
  let x ← stack ((c.slice 2 0 (K - 1) 1).select 3 0) (lp.slice 2 1 K 1)
  let x ← E.reduce S x
  assign ((c.slice 2 0 (K - 1) 1).select 3 0) fun h => h.read x
  -- 64-71
  let init ← fillSlots E init (decMask slot K fun b => lens.getD b 0) S.one
  -- 76-80
  let chart ← contiguous (init.permute [0, 1, 2, 3, 5, 4, 6])
  let chart ← view chart [E.size, batch, binN, (K - 1) * C, (K - 1) * C]
  -- 82-86
  let chart ← LinearChain.scanM E S binN logN chart
  let final ← view chart [E.size, batch, K - 1, C, K - 1, C]
  let x ← contiguous ((final.select 2 0).select 3 0)
  let x ← E.reduce S x
  E.reduce S x

end SemiMarkov
