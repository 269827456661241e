import Verif.Model.GumbelGrad

/-! Specification of the straight-through gradient (C88). -/

noncomputable section
namespace Sampling.GumbelRun
variable {es : List Expr} {pick : List ℝ → ℕ} {temp : ℝ} (R : GumbelRun es pick temp)

/-- The straight-through gradient: in the backward pass of the loss every draw counts as the softmax of its logits. -/
def IsRelaxedGrad : (List ℕ → ℝ) → (List ℕ → ℝ) → Prop := R.IsLossGrad fun x _ g => softmaxGrad x g

end Sampling.GumbelRun
