import Verif.Spec.Autoregressive

/-! Specification of sampling without replacement. -/

noncomputable section
namespace Spec
open Classical in
/-- The probability that successive draws without replacement from the distribution `p` give the list: every draw is from what `p` is after the values
`drawn` so far have been taken out. -/
def withoutReplacement {α : Type} (p : α → ℝ) (drawn : List α) : List α → ℝ
  | [] => 1
  | y :: ys => (if y ∈ drawn then 0 else p y / (1 - (drawn.map p).sum)) * withoutReplacement p (y :: drawn) ys

/-- The probability of a sequence of classes by the chain rule, with softmax probabilities. -/
def arProb {St : Type} (step : ARStep St) (s0 : St) (start : ℕ) (y : List ℕ) : ℝ := Real.exp (arScore true step s0 (.hard start) y)

end Spec
