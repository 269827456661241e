import Verif.Model.Autograd
import Verif.Model.LinearChain

/-! Model of torch_struct/distributions.py (class `StructDistribution`) and of the entry points of helpers.py
(`_Struct.sum`, `_Struct.marginals`). -/

noncomputable section

/-- A dynamic program (`_Struct` subclass): a container `T` of potentials, its `logpartition`, and the operations on containers that
`convert` and autograd need: elementwise map, and tagging each entry with its index. (helpers.py:27-127) -/
structure Algo where
  T : Type → Type
  run : {α : Type} → SR α → T α → Option (List ℕ) → Except PyErr (List α)
  map : {α β : Type} → (α → β) → T α → T β
  index : {α : Type} → T α → T (α × List ℕ)

namespace Dist
open Autograd

variable (A : Algo) (p : A.T ℝ) (lengths : Option (List ℕ))

/-- `StructDistribution.partition` (distributions.py:207-210) = `_Struct.sum` (helpers.py:66-81) with `LogSemiring`;
`unconvert` squeezes the ssize dimension. -/
def partition : Except PyErr (List ℝ) := A.run Semirings.log p lengths

/-- `StructDistribution.max` (distributions.py:117-125). -/
def max : Except PyErr (List ℝ) := A.run Semirings.max p lengths

/-- `StructDistribution.kmax(k)` (distributions.py:137-150), `_raw`: all `k` slots of every row. -/
def kmax (k : ℕ) : Except PyErr (List (List ℝ)) :=
  A.run (Semirings.kmax k) (A.map (Semirings.kmaxConvert k) p) lengths

/-- `StructDistribution.entropy` (distributions.py:77-86); `unconvert` reads the second slot (semirings.py:384-386). -/
def entropy : Except PyErr (List ℝ) :=
  (A.run Semirings.entropy (A.map Semirings.entropyConvert p) lengths).map (List.map Prod.snd)

/-- `StructDistribution.count` (distributions.py:185-190): potentials equal to `-inf` become 0, all others 1. -/
def count (p : A.T EReal) : Except PyErr (List ℝ) :=
  A.run (Semirings.std ℝ) (A.map (fun v : EReal => if v = ⊥ then (0 : ℝ) else 1) p) lengths

/-- `StructDistribution.partition` for potentials that may be `-inf`. (distributions.py:207-210) -/
def partitionE (p : A.T EReal) : Except PyErr (List EReal) :=
  A.run (Semirings.logE (Semirings.negInf : ℝ)) p lengths

/-- Line 111-115 of helpers.py: the gradient of `v.sum(dim=0)` (the sum over the batch). -/
def gradOfSum {E : Type} (vs : List (Grad E)) : E → ℝ := (vs.map Prod.snd).sum

/-- The potentials as autograd leaves. (helpers.py:41-48, 110-116) -/
def leaves : A.T (Grad (List ℕ)) := A.map (fun q : ℝ × List ℕ => leaf q.1 q.2) (A.index p)

/-- `StructDistribution.marginals` (distributions.py:171-183) = `_Struct.marginals` (helpers.py:83-116) with `LogSemiring`.  The
result is read by index. -/
def marginals : Except PyErr (List ℕ → ℝ) :=
  (A.run Autograd.log (leaves A p) lengths).map gradOfSum

/-- `StructDistribution.argmax` (distributions.py:127-135): `marginals` with `MaxSemiring`; `pick` is the choice made by `torch.max`. -/
def argmax (pick : List (Grad (List ℕ)) → Grad (List ℕ)) : Except PyErr (List ℕ → ℝ) :=
  (A.run (Autograd.max pick) (leaves A p) lengths).map gradOfSum

/-- `StructDistribution.topk(k)` (distributions.py:152-165): `marginals(_raw=True)` (helpers.py:96-109) with `KMaxSemiring(k)`;
`sel` is the choice made by `torch.topk`.  Slot `j` of the result is the gradient of `v[j].sum(dim=0)`. -/
def topk (k : ℕ) (sel : List (Grad (List ℕ)) → List (Grad (List ℕ))) (j : ℕ) : Except PyErr (List ℕ → ℝ) :=
  (A.run (Autograd.kmax k sel) (A.map (fun q : ℝ × List ℕ => kmaxConvert k q.1 q.2) (A.index p)) lengths).map
    fun vs => gradOfSum (vs.map fun row => row.getD j (0, 0))

end Dist

namespace LinearChain

/-- `LinearChainCRF` / `HMM` (distributions.py:247-277, 320-341): `struct = LinearChain`. -/
def algo : Algo where
  T := T4
  run S p lengths := logpartition S p lengths
  map f p := ⟨p.d0, p.d1, p.d2, p.d3, fun a b c d => f (p.get a b c d)⟩
  index p := ⟨p.d0, p.d1, p.d2, p.d3, fun a b c d => (p.get a b c d, [a, b, c, d])⟩

/-- `[self.log_potentials, other.log_potentials]` (distributions.py:99-101, 113-115) after `convert` (semirings.py:263-269, 323-329):
`values[1] = xs[1]` needs `xs[1]` to have (broadcast to) the shape of `xs[0]`.  Simplification: shapes must be equal. -/
def pairPotentials (p q : T4 ℝ) : Except PyErr (T4 (ℝ × ℝ × ℝ)) :=
  if p.d0 = q.d0 ∧ p.d1 = q.d1 ∧ p.d2 = q.d2 ∧ p.d3 = q.d3 then
    .ok ⟨p.d0, p.d1, p.d2, p.d3, fun a b c d => Semirings.pairConvert (p.get a b c d, q.get a b c d)⟩
  else .error .runtime

/-- `LinearChainCRF.cross_entropy(other)` (distributions.py:88-101). -/
def crossEntropy (p q : T4 ℝ) (lengths : Option (List ℕ)) : Except PyErr (List ℝ) := do
  let x ← pairPotentials p q
  (logpartition Semirings.crossEntropy x lengths).map (List.map fun a => a.2.2)

/-- `LinearChainCRF.kl(other)` (distributions.py:103-115). -/
def kl (p q : T4 ℝ) (lengths : Option (List ℕ)) : Except PyErr (List ℝ) := do
  let x ← pairPotentials p q
  (logpartition Semirings.kl x lengths).map (List.map fun a => a.2.2)

/-- `LinearChainCRF.log_prob(value)` (distributions.py:56-75) for one batch row `b` and one event: `score` (helpers.py:31-34) of the
row's potentials against the event, minus the partition. -/
def logProb (p : T4 ℝ) (lengths : Option (List ℕ)) (b : ℕ) (value : ℕ → ℕ → ℕ → ℝ) : Except PyErr ℝ := do
  let z ← Dist.partition algo p lengths
  let idx := (List.range p.d1).flatMap fun n => (List.range p.d2).flatMap fun i =>
    (List.range p.d3).map fun j => (n, i, j)
  .ok (Struct.score (idx.map fun x => p.get b x.1 x.2.1 x.2.2) (idx.map fun x => value x.1 x.2.1 x.2.2) - z.getD b 0)

end LinearChain
