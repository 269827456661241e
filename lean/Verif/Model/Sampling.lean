import Mathlib.Data.Finsupp.Basic
import Mathlib.Data.Fintype.BigOperators
import Mathlib.Algebra.BigOperators.Group.Finset.Basic
import Verif.Model.Distributions

/-! Model of torch_struct/semirings/sample.py: `SampledSemiring` and `MultiSampledSemiring`, whose custom backward passes draw samples.

A dynamic program run with one of these semirings records an expression (`Expr`).  PyTorch stores it as a tape, in which equal or shared
sub-expressions may or may not be the same node; the backward pass runs on the tape, with one set of draws per `logsumexp` node.
All theorems hold for every tape that represents the expression. -/

noncomputable section
namespace Sampling
open Semirings Finset

/-- What is recorded by the dynamic program.  `leaf v id` is the entry `id` of the potentials, `mul` is the addition of
`_BaseLog` (semirings.py:106-108), `sum` is `_SampledLogSumExp.apply` (sample.py:51-53) or `_MultiSampledLogSumExp.apply` (218-220),
`setData x v` is `x` after `x.data[...] = v`. -/
inductive Expr where
  | leaf (v : ℝ) (id : List ℕ)
  | const (v : ℝ)
  | mul (a b : Expr)
  | sum (n : ℕ) (f : Fin n → Expr)
  | setData (x : Expr) (v : ℝ)

/-- The forward value (`forward` is `torch.logsumexp`, sample.py:8-10, 161-164). -/
def Expr.value : Expr → ℝ
  | leaf v _ => v
  | const v => v
  | mul a b => a.value + b.value
  | sum _ f => lse (List.ofFn fun i => (f i).value)
  | setData _ v => v

/-- `SampledSemiring` / `MultiSampledSemiring` (sample.py:42-53, 211-220) with a given value `z` of `zero`, recording the expression. -/
def sr (z : ℝ) : SR Expr where
  zero := .const z
  one := .const 0
  mul := .mul
  sum xs := .sum xs.length fun i => xs[i]
  raw0 := .const 0
  detach x := .const x.value
  setData x v := .setData x v.value

/-- One node of the tape. (what autograd records of sample.py:6-39, 156-221) -/
inductive Op (K : Type) where
  | leaf (v : ℝ) (id : List ℕ)
  | const (v : ℝ)
  | add (a b : K)
  | lse (n : ℕ) (c : Fin n → K)
  | data (x : K) (v : ℝ)

/-- The nodes that a node reads. (sample.py:6-39, 156-221) -/
def Op.IsChild {K : Type} (c : K) : Op K → Prop
  | leaf _ _ => False
  | const _ => False
  | add a b => c = a ∨ c = b
  | lse _ ch => ∃ i, c = ch i
  | data x _ => c = x

/-- The autograd tape: nodes are created after the nodes they read (`rank` is the creation time); `val` holds the forward values. (sample.py:6-39, 156-221; helpers.py:110-116) -/
structure Tape (K : Type) where
  op : K → Op K
  rank : K → ℕ
  lt : ∀ k c, (op k).IsChild c → rank c < rank k
  val : K → ℝ

/-- Node `k` of the tape holds the recorded expression. (sample.py:6-39, 156-221) -/
def Repr {K : Type} (T : Tape K) : Expr → K → Prop
  | .leaf v id, k => T.op k = .leaf v id ∧ T.val k = v
  | .const v, k => T.op k = .const v ∧ T.val k = v
  | .mul a b, k => ∃ ka kb, T.op k = .add ka kb ∧ Repr T a ka ∧ Repr T b kb ∧ T.val k = T.val ka + T.val kb
  | .sum n f, k => ∃ c : Fin n → K, T.op k = .lse n c ∧ (∀ i, Repr T (f i) (c i)) ∧ T.val k = lse (List.ofFn fun i => T.val (c i))
  | .setData x v, k => ∃ kx, T.op k = .data kx v ∧ Repr T x kx ∧ T.val k = v

section backward
variable {K : Type} [Fintype K] [DecidableEq K]

/-- `_SampledLogSumExp.backward` (sample.py:12-39) and the backward passes of the other operations: what node `k` with
`grad_output = g` sends to node `c`.  `draw k` is the index drawn at `k` (line 20-22); the drawn entry receives `g`, the others 0 (line 38).
Gradients here are always non-negative integers. -/
def sendOne (T : Tape K) (draw : K → ℕ) (k : K) (g : ℕ) (c : K) : ℕ :=
  match T.op k with
  | .leaf _ _ => 0
  | .const _ => 0
  | .add a b => (if c = a then g else 0) + (if c = b then g else 0)
  | .lse n ch => ∑ i : Fin n, if c = ch i then g * (if draw k = i then 1 else 0) else 0
  | .data x _ => if c = x then g else 0

/-- `bits[i] = 2 ** (i + 1)` (sample.py:156). -/
def bits (i : ℕ) : ℕ := 2 ^ (i + 1)

/-- Lines 196-199 of sample.py: entry `i` of `on + final` for `grad_output = g`.  (The difference is never negative.) -/
def onFinal (g i : ℕ) : ℕ := (g % bits (i + 1) - g % bits i) + g % 2

/-- `_MultiSampledLogSumExp.backward` (sample.py:166-208): what node `k` with `grad_output = g` sends to node `c`.  `draws i k` is
the index of the `i`-th of the 16 draws at `k` (line 175-177). -/
def sendMulti (T : Tape K) (draws : ℕ → K → ℕ) (k : K) (g : ℕ) (c : K) : ℕ :=
  match T.op k with
  | .leaf _ _ => 0
  | .const _ => 0
  | .add a b => (if c = a then g else 0) + (if c = b then g else 0)
  | .lse n ch => ∑ x : Fin n, if c = ch x then
      ∑ i ∈ range 16, bits i * (if onFinal g i = 0 then 0 else if draws i k = x then 1 else 0) else 0
  | .data x _ => if c = x then g else 0

/-- `torch.autograd.grad(obj, ...)` (helpers.py:111-114): `grad_output` of `obj` is 1, and every node accumulates what it is
sent. -/
def IsBackward (send : K → ℕ → K → ℕ) (obj : K) (G : K → ℕ) : Prop :=
  ∀ c, G c = (if c = obj then 1 else 0) + ∑ k, send k (G k) c

/-- The gradient with respect to the entry `id` of the potentials. (helpers.py:111-116) -/
def gradAt (T : Tape K) (G : K → ℕ) (id : List ℕ) : ℕ :=
  open Classical in ∑ k, if ∃ v, T.op k = .leaf v id then G k else 0

end backward

/-- `MultiSampledSemiring.to_discrete(xs, j)` (sample.py:222-227), one entry. -/
def toDiscrete (x j : ℕ) : ℕ := if x % bits (j + 1) - x % bits j + x % 2 = 0 then 0 else 1

/-- `obj = v.sum(dim=0)` (helpers.py:111): the values of all batch rows are added. -/
def batchSum : List Expr → Expr
  | [] => .const 0
  | e :: es => .mul e (batchSum es)

/-- The recorded expression of `struct(SampledSemiring).marginals(potentials, lengths)` (helpers.py:83-116). -/
def record (A : Algo) (z : ℝ) (p : A.T ℝ) (lengths : Option (List ℕ)) : Except PyErr (List Expr) :=
  A.run (sr z) (A.map (fun q : ℝ × List ℕ => Expr.leaf q.1 q.2) (A.index p)) lengths

/-- `StructDistribution.sample(sample_shape)` (distributions.py:212-233): every ten samples a new backward pass is run; `pass r id`
is the gradient that pass number `r` returns for entry `id`.  The result is the list of sampled events; `torch.stack([])` raises. -/
def sample (pass : ℕ → List ℕ → ℕ) (sampleShape : List ℕ) : Except PyErr (List (List ℕ → ℕ)) :=
  match sampleShape with
  | [nsamples] =>
    let samples := ((List.range nsamples).foldl (fun (st : ℕ × List (List ℕ → ℕ)) k =>
        let passes := if k % 10 = 0 then st.1 + 1 else st.1
        (passes, st.2 ++ [fun id => toDiscrete (pass (passes - 1) id) (k % 10 + 1)]))
      (0, [])).2
    if samples = [] then .error .runtime else .ok samples
  | _ => .error .assertion

end Sampling
