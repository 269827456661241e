import Verif.Model.Gumbel

/-! Model of the gradient of a loss on the result of `gumbel_crf` (torch_struct/distributions.py:192-197): the backward pass through the backward pass of
`GumbelCRFSemiring` (semirings/sample.py:98-153). -/

noncomputable section
namespace Sampling
open Finset

/-- `x.softmax(-1)`. (sample.py:112) -/
def softmax {n : ℕ} (x : Fin n → ℝ) (i : Fin n) : ℝ := Real.exp (x i) / ∑ j, Real.exp (x j)

/-- `torch.autograd.grad(x.softmax(-1), x, v)`. (sample.py:111-113) -/
def softmaxGrad {n : ℕ} (x v : Fin n → ℝ) (j : Fin n) : ℝ := softmax x j * (v j - ∑ i, softmax x i * v i)

/-- `ST.forward` (sample.py:101-105), with `k` the index of the largest entry. -/
def stForward {n : ℕ} (k : ℕ) (i : Fin n) : ℝ := if k = i then 1 else 0

/-- `ST.backward` (sample.py:107-114): `x` and `out` are the saved tensors. -/
def stBackward {n : ℕ} (x out gradOutput : Fin n → ℝ) (j : Fin n) : ℝ := softmaxGrad x (fun i => out i * gradOutput i) j

/-- What a call of `gumbel_crf(temp)` has recorded, together with the draws of the later backward pass through it.  The noise is arbitrary (in particular it may be
shared by several nodes). (sample.py:98-153, distributions.py:192-197) -/
structure GumbelRun (es : List Expr) (pick : List ℝ → ℕ) (temp : ℝ) where
  /-- The nodes of the forward pass, and the node of `v.sum(dim=0)`. -/
  K : Type
  fin : Fintype K
  dec : DecidableEq K
  T : Tape K
  obj : K
  /-- The noise and the drawn indices (sample.py:128-133) of the pass that computes the result; -/
  noise : K → ℕ → ℝ
  draw : K → ℕ
  /-- those of the backward pass of the loss, in which `_GumbelCRFLogSumExp.backward` runs again on every node of the forward pass. -/
  noise' : K → ℕ → ℝ
  draw' : K → ℕ
  /-- The gradients of the pass that computes the result. -/
  G : K → ℕ
  repr : Repr T (batchSum es) obj
  drawn : ∀ k n c, T.op k = .lse n c → draw k = pick (List.ofFn fun i : Fin n => (T.val (c i) + noise k i) / temp)
  drawn' : ∀ k n c, T.op k = .lse n c → draw' k = pick (List.ofFn fun i : Fin n => (T.val (c i) + noise' k i) / temp)
  back : IsBackward (sendOne T draw) obj G

namespace GumbelRun
variable {es : List Expr} {pick : List ℝ → ℕ} {temp : ℝ} (R : GumbelRun es pick temp)

/-- (of the nodes of the tape, sample.py:116-153) -/
instance : Fintype R.K := R.fin
/-- (of the nodes of the tape, sample.py:116-153) -/
instance : DecidableEq R.K := R.dec

/-- What `gumbel_crf` returns. (distributions.py:192-197) -/
def result : List ℕ → ℕ := gradAt R.T R.G

/-- `update` (sample.py:129-131) at a node with the children `c`. -/
def update (k : R.K) {n : ℕ} (c : Fin n → R.K) (i : Fin n) : ℝ := (R.T.val (c i) + R.noise k i) / temp

/-- The gradient of the loss with respect to the gradient that node `k` received when the result was computed.  The loss has the gradient `U id` with respect to
entry `id` of the result.  An addition has handed its gradient on to both summands; `grad_output.unsqueeze(dim).mul(s)` (line 145) has multiplied it by `s`. -/
def IsOuter (U : List ℕ → ℝ) (A : R.K → ℝ) : Prop := ∀ k, A k = match R.T.op k with
  | .leaf _ id => U id
  | .const _ => 0
  | .add a b => A a + A b
  | .lse _ c => ∑ i, stForward (R.draw k) i * A (c i)
  | .data x _ => A x

/-- The rule that turns the saved tensors and the gradient with respect to `s` into the gradient with respect to `update`. (sample.py:107-114) -/
abbrev Rule := ∀ {n : ℕ}, (Fin n → ℝ) → (Fin n → ℝ) → (Fin n → ℝ) → Fin n → ℝ

/-- The gradient with respect to the input `i` of a node that comes from `s` (line 145: the gradient with respect to `s` is `grad_output` times that of the product;
line 129-131: `update = (ls + noise) / temp`). -/
def ofDraw (rule : Rule) (A : R.K → ℝ) (k : R.K) {n : ℕ} (c : Fin n → R.K) (i : Fin n) : ℝ :=
  rule (R.update k c) (fun i => stForward (R.draw k) i) (fun i => R.G k * A (c i)) i / temp

/-- What node `k` sends to node `c` in the backward pass of the loss: the gradients that come from the draws, and the gradient `v` of its own value, by
`_GumbelCRFLogSumExp.backward` with new draws. (sample.py:107-114, 145) -/
def sendLoss (rule : Rule) (A : R.K → ℝ) (k : R.K) (v : ℝ) (c : R.K) : ℝ :=
  match R.T.op k with
  | .leaf _ _ => 0
  | .const _ => 0
  | .add a b => (if c = a then v else 0) + (if c = b then v else 0)
  | .lse _ ch => ∑ i, if c = ch i then R.ofDraw rule A k ch i + v * stForward (R.draw' k) i else 0
  | .data x _ => if c = x then v else 0

/-- `grad` is the gradient, with respect to the potentials, of a loss that has the gradient `U` with respect to the result of `gumbel_crf`. (sample.py:98-153) -/
def IsLossGrad (rule : Rule) (U : List ℕ → ℝ) (grad : List ℕ → ℝ) : Prop :=
  ∃ A V : R.K → ℝ, R.IsOuter U A ∧ (∀ c, V c = ∑ k, R.sendLoss rule A k (V k) c) ∧
    grad = fun id => open Classical in ∑ k, if ∃ v, R.T.op k = .leaf v id then V k else 0

/-- `loss.backward()` with the code of the library. (sample.py:98-153) -/
def IsGrad : (List ℕ → ℝ) → (List ℕ → ℝ) → Prop := R.IsLossGrad fun x out g => stBackward x out g

end GumbelRun
end Sampling
