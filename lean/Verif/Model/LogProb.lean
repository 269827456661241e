import Mathlib.Data.EReal.Operations
import Verif.Model.DepTree
import Verif.Model.SemiMarkov
import Verif.Model.CKYCRF

/-! Model of `StructDistribution.log_prob` (torch_struct/distributions.py:56-75) and `_Struct.score` (helpers.py:31-34) on whole tensors:
any number of sample dimensions, broadcasting, and arithmetic with infinities and NaN. -/

noncomputable section

/-- A tensor of any rank: its shape and its entries by index (entries outside the shape are never read). (distributions.py:67-75, helpers.py:31-34) -/
structure Tensor (R : Type) where
  shape : List ℕ
  get : List ℕ → R

/-- The arithmetic that `log_prob` uses: `torch.mul`, `torch.sum` over a list of entries, subtraction. (helpers.py:32-34, distributions.py:75) -/
structure Arith (R : Type) where
  mul : R → R → R
  sum : List R → R
  sub : R → R → R

/-- Exact real arithmetic. (helpers.py:32-34, distributions.py:75) -/
def Arith.real : Arith ℝ := ⟨(· * ·), List.sum, (· - ·)⟩

/-- A floating-point number without rounding: a real number, an infinity, or NaN (`none`). (the entries of the tensors of helpers.py:32-34) -/
abbrev IEEE := Option EReal

namespace IEEE

/-- IEEE multiplication: zero times an infinity is NaN. (helpers.py:32) -/
def mul : IEEE → IEEE → IEEE
  | some x, some y => if (x = 0 ∧ (y = ⊤ ∨ y = ⊥)) ∨ (y = 0 ∧ (x = ⊤ ∨ x = ⊥)) then none else some (x * y)
  | _, _ => none

/-- IEEE addition: the sum of infinities of different sign is NaN. (helpers.py:34) -/
def add : IEEE → IEEE → IEEE
  | some x, some y => if (x = ⊤ ∧ y = ⊥) ∨ (x = ⊥ ∧ y = ⊤) then none else some (x + y)
  | _, _ => none

/-- IEEE subtraction. (distributions.py:75) -/
def sub (x y : IEEE) : IEEE := add x (y.map fun v => -v)

/-- A real number. (helpers.py:32-34) -/
def ofReal (x : ℝ) : IEEE := some (x : EReal)

/-- NaN. (helpers.py:32-34) -/
def nan : IEEE := none

end IEEE

/-- Floating point without rounding. (helpers.py:32-34, distributions.py:75) -/
def Arith.ieee : Arith IEEE := ⟨IEEE.mul, fun l => l.foldr IEEE.add (IEEE.ofReal 0), IEEE.sub⟩

namespace Tensor
variable {R : Type}

/-- All indices of a tensor of the given shape, in row-major order (the order of `.view(-1)`). (helpers.py:34) -/
def indices : List ℕ → List (List ℕ)
  | [] => [[]]
  | n :: ns => (List.range n).flatMap fun i => (indices ns).map (i :: ·)

/-- Broadcasting of two dimensions: they must be equal, or one of them must be 1. (helpers.py:32, distributions.py:75) -/
def dim (m n : ℕ) : Except PyErr ℕ :=
  if m = n then .ok m else if m = 1 then .ok n else if n = 1 then .ok m else .error .runtime

/-- Broadcasting of two shapes that are given from the last dimension to the first: missing dimensions count as 1. (helpers.py:32, distributions.py:75) -/
def dims : List ℕ → List ℕ → Except PyErr (List ℕ)
  | [], ns => .ok ns
  | ms, [] => .ok ms
  | m :: ms, n :: ns => do
    let d ← dim m n
    let ds ← dims ms ns
    .ok (d :: ds)

/-- The index at which a tensor of shape `s` is read when it is broadcast to a result with index `ix`: leading dimensions are dropped,
dimensions of size 1 are read at 0. (helpers.py:32, distributions.py:75) -/
def readAt (s ix : List ℕ) : List ℕ :=
  List.zipWith (fun n i => if n = 1 then 0 else i) s (ix.drop (ix.length - s.length))

/-- An elementwise torch operation on two tensors, with broadcasting (`torch.mul`, helpers.py:32; `v - self.partition`,
distributions.py:75). -/
def zip (f : R → R → R) (a b : Tensor R) : Except PyErr (Tensor R) := do
  let s ← dims a.shape.reverse b.shape.reverse
  .ok ⟨s.reverse, fun ix => f (a.get (readAt a.shape ix)) (b.get (readAt b.shape ix))⟩

/-- `_Struct.score(potentials, parts, batch_dims)` (helpers.py:31-34) for `batch_dims = range(k)` and a semiring whose `prod` is a sum
(`_BaseLog.prod`, semirings.py:110-112): `view(batch + (-1,))` keeps the first `k` dimensions and flattens the others; torch cannot infer the
`-1` when a kept dimension is 0. -/
def score (A : Arith R) (potentials parts : Tensor R) (k : ℕ) : Except PyErr (Tensor R) := do
  let x ← zip A.mul potentials parts
  let batch := x.shape.take k
  if k ≤ x.shape.length then
    if 0 ∈ batch then .error .runtime
    else .ok ⟨batch, fun ix => A.sum ((indices (x.shape.drop k)).map fun r => x.get (ix ++ r))⟩
  else .error .index

end Tensor

/-- `StructDistribution.log_prob(value)` (distributions.py:56-75): `event_shape = log_potentials.shape[1:]` (line 46),
`batch_dims = range(value.dim() - len(event_shape))`, the score of the event minus the partition. -/
def StructDistribution.logProb {R : Type} (A : Arith R) (logPotentials : Tensor R) (partition : Except PyErr (Tensor R)) (value : Tensor R) :
    Except PyErr (Tensor R) := do
  let v ← Tensor.score A logPotentials value (value.shape.length - logPotentials.shape.tail.length)
  let z ← partition
  Tensor.zip A.sub v z

namespace Tensor

/-- A tensor of three dimensions and a batch, as a tensor of any rank. (distributions.py:69-75) -/
def of4 {R : Type} (p : T4 R) : Tensor R :=
  ⟨[p.d0, p.d1, p.d2, p.d3], fun ix => p.get (ix.getD 0 0) (ix.getD 1 0) (ix.getD 2 0) (ix.getD 3 0)⟩

/-- A tensor of four dimensions and a batch, as a tensor of any rank. (distributions.py:69-75) -/
def of5 {R : Type} (p : T5 R) : Tensor R :=
  ⟨[p.d0, p.d1, p.d2, p.d3, p.d4], fun ix => p.get (ix.getD 0 0) (ix.getD 1 0) (ix.getD 2 0) (ix.getD 3 0) (ix.getD 4 0)⟩

/-- The potentials of `DependencyCRF` as a tensor of any rank: `batch x N x N`, or `batch x N x N x L` when labelled. (distributions.py:69-75) -/
def ofArcs {R : Type} (q : DepTree.Arcs R) : Tensor R :=
  ⟨if q.rank = 4 then [q.d0, q.d1, q.d2, q.d3] else [q.d0, q.d1, q.d2],
    fun ix => q.get (ix.getD 0 0) (ix.getD 1 0) (ix.getD 2 0) (ix.getD 3 0)⟩

/-- A vector of batch results. (distributions.py:75, 210) -/
def ofList {R : Type} (d : R) (l : List R) : Tensor R := ⟨[l.length], fun ix => l.getD (ix.getD 0 0) d⟩

end Tensor

/-- `LinearChainCRF.log_prob` (distributions.py:56-75) on a stack of events. -/
def LinearChain.logProbT (p : T4 ℝ) (lengths : Option (List ℕ)) (value : Tensor ℝ) : Except PyErr (Tensor ℝ) :=
  StructDistribution.logProb .real (.of4 p) ((Dist.partition LinearChain.algo p lengths).map (.ofList 0)) value

/-- `LinearChainCRF.log_prob` (distributions.py:56-75) on a stack of events, for potentials that may be `-inf`. -/
def LinearChain.logProbE (p : T4 EReal) (lengths : Option (List ℕ)) (value : Tensor ℝ) : Except PyErr (Tensor IEEE) :=
  StructDistribution.logProb .ieee (.of4 ⟨p.d0, p.d1, p.d2, p.d3, fun a b c d => some (p.get a b c d)⟩)
    ((Dist.partitionE LinearChain.algo lengths p).map fun l => .ofList (IEEE.ofReal 0) (l.map some)) ⟨value.shape, fun ix => IEEE.ofReal (value.get ix)⟩

/-- `TreeCRF.log_prob` (distributions.py:56-75) on a stack of events. -/
def CKYCRF.logProbT (p : T4 ℝ) (lengths : Option (List ℕ)) (value : Tensor ℝ) : Except PyErr (Tensor ℝ) :=
  StructDistribution.logProb .real (.of4 p) ((Dist.partition CKYCRF.algo p lengths).map (.ofList 0)) value

/-- `SemiMarkovCRF.log_prob` (distributions.py:56-75) on a stack of events. -/
def SemiMarkov.logProbT (p : T5 ℝ) (lengths : Option (List ℕ)) (value : Tensor ℝ) : Except PyErr (Tensor ℝ) :=
  StructDistribution.logProb .real (.of5 p) ((Dist.partition SemiMarkov.algo p lengths).map (.ofList 0)) value

/-- `DependencyCRF.log_prob` (distributions.py:56-75) on a stack of events. -/
def DepTree.logProbT (multiroot : Bool) (q : DepTree.Arcs ℝ) (lengths : Option (List ℕ)) (value : Tensor ℝ) : Except PyErr (Tensor ℝ) :=
  StructDistribution.logProb .real (.ofArcs q) ((DepTree.partition multiroot q lengths).map (.ofList 0)) value
