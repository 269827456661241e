import Mathlib.Analysis.SpecialFunctions.Log.Basic
import Mathlib.Analysis.SpecialFunctions.Log.ENNRealLogExp
import Mathlib.Data.List.Sort
import Verif.Model.Semiring

/-! Model of the concrete semirings of torch_struct/semirings/semirings.py (values; gradients are in `Model/Autograd.lean`).
Simplification: exact real arithmetic. -/

noncomputable section
namespace Semirings

/-- `torch.logsumexp` over a list of real numbers. (semirings.py:104, 279-280) -/
def lse (xs : List ℝ) : ℝ := Real.log (xs.map Real.exp).sum

/-- `torch.max(xs, dim)[0]`; torch raises on an empty dimension, here `0`. (semirings.py:169) -/
def listMax : List ℝ → ℝ
  | [] => 0
  | x :: xs => xs.foldl max x

/-- `torch.topk(xs, k)[0]` : the `k` largest entries in decreasing order. (semirings.py:209, 233) -/
def topk (k : ℕ) (xs : List ℝ) : List ℝ := (xs.insertionSort (· ≥ ·)).take k

/-- The library's stand-in for minus infinity (semirings.py:99, 182-183, 256, 316, 370). -/
def negInf : ℝ := -100000

/-- `StdSemiring` (semirings.py:85-95, 119-135), over any type of numbers. -/
def std (R : Type) [Semiring R] : SR R where
  zero := 0
  one := 1
  mul a b := a * b
  sum xs := xs.sum
  raw0 := 0
  detach x := x
  setData _ v := v

/-- `LogSemiring` (semirings.py:98-112, 138-150) with a given value `z` for `zero`. -/
def logZ (z : ℝ) : SR ℝ where
  zero := z
  one := 0
  mul a b := a + b
  sum := lse
  raw0 := 0
  detach x := x
  setData _ v := v

/-- `LogSemiring`: `zero = -1e5`. (semirings.py:98-108, 138-150) -/
def log : SR ℝ := logZ negInf

/-- `LogSemiring` on extended reals, so that potentials (or `zero`) may be `-inf`. (semirings.py:98-108, 138-150) -/
def logE (z : EReal) : SR EReal where
  zero := z
  one := 0
  mul a b := a + b
  sum xs := ENNReal.log (xs.map EReal.exp).sum
  raw0 := 0
  detach x := x
  setData _ v := v

/-- `MaxSemiring` (semirings.py:153-169). -/
def max : SR ℝ where
  zero := negInf
  one := 0
  mul a b := a + b
  sum := listMax
  raw0 := 0
  detach x := x
  setData _ v := v

/-- `KMaxSemiring(k)` (semirings.py:177-237).  An element is its list of `k` slots.  `sum` flattens (summed
dimension, slot) and takes the top `k` (204-213); `mul` takes the top `k` of all pairwise sums (227-235). -/
def kmax (k : ℕ) : SR (List ℝ) where
  zero := List.replicate k negInf
  one := (List.range k).map fun i => if i = 0 then 0 else negInf
  mul a b := topk k (a.flatMap fun x => b.map fun y => x + y)
  sum xs := topk k xs.flatten
  raw0 := List.replicate k 0
  detach x := x
  setData _ v := v

/-- `KMaxSemiring.convert` (semirings.py:189-198): slot 0 holds the potential, the others `zero`. -/
def kmaxConvert (k : ℕ) (x : ℝ) : List ℝ := (List.range k).map fun i => if i = 0 then x else negInf

/-- `EntropySemiring` (semirings.py:357-403): (log-value, running entropy), with a given log-value `z` of `zero`. -/
def entropyZ (z : ℝ) : SR (ℝ × ℝ) where
  zero := (z, 0)
  one := (0, 0)
  mul a b := (a.1 + b.1, a.2 + b.2)
  sum xs :=
    let part := lse (xs.map Prod.fst)
    (part, (xs.map fun x =>
      let logSm := x.1 - part
      let sm := Real.exp logSm
      x.2 * sm - logSm * sm).sum)
  raw0 := (0, 0)
  detach x := x
  setData _ v := v

/-- `EntropySemiring`: `zero = (-1e5, 0)`. (semirings.py:357-404) -/
def entropy : SR (ℝ × ℝ) := entropyZ negInf

/-- `EntropySemiring.convert` (semirings.py:377-382). -/
def entropyConvert (x : ℝ) : ℝ × ℝ := (x, 0)

/-- `CrossEntropySemiring` (semirings.py:303-354): (log p, log q, running cross entropy), with a given log-value `z` of `zero`. -/
def crossEntropyZ (z : ℝ) : SR (ℝ × ℝ × ℝ) where
  zero := (z, z, 0)
  one := (0, 0, 0)
  mul a b := (a.1 + b.1, a.2.1 + b.2.1, a.2.2 + b.2.2)
  sum xs :=
    let partP := lse (xs.map fun x => x.1)
    let partQ := lse (xs.map fun x => x.2.1)
    (partP, partQ, (xs.map fun x =>
      let logSmP := x.1 - partP
      let logSmQ := x.2.1 - partQ
      let smP := Real.exp logSmP
      x.2.2 * smP - logSmQ * smP).sum)
  raw0 := (0, 0, 0)
  detach x := x
  setData _ v := v

/-- `CrossEntropySemiring`: `zero = (-1e5, -1e5, 0)`. (semirings.py:303-354) -/
def crossEntropy : SR (ℝ × ℝ × ℝ) := crossEntropyZ negInf

/-- `KLDivergenceSemiring` (semirings.py:240-300): (log p, log q, running KL), with a given log-value `z` of `zero`. -/
def klZ (z : ℝ) : SR (ℝ × ℝ × ℝ) where
  zero := (z, z, 0)
  one := (0, 0, 0)
  mul a b := (a.1 + b.1, a.2.1 + b.2.1, a.2.2 + b.2.2)
  sum xs :=
    let partP := lse (xs.map fun x => x.1)
    let partQ := lse (xs.map fun x => x.2.1)
    (partP, partQ, (xs.map fun x =>
      let logSmP := x.1 - partP
      let logSmQ := x.2.1 - partQ
      let smP := Real.exp logSmP
      x.2.2 * smP - logSmQ * smP + logSmP * smP).sum)
  raw0 := (0, 0, 0)
  detach x := x
  setData _ v := v

/-- `KLDivergenceSemiring`: `zero = (-1e5, -1e5, 0)`. (semirings.py:240-300) -/
def kl : SR (ℝ × ℝ × ℝ) := klZ negInf

/-- `convert` of the two semirings above (semirings.py:263-269, 323-329) on a pair of potentials. -/
def pairConvert (x : ℝ × ℝ) : ℝ × ℝ × ℝ := (x.1, x.2, 0)

end Semirings
