import Mathlib.Probability.Independence.Basic
import Verif.Model.Sampling

/-! Specification: what `torch.multinomial(logits.softmax(-1), ..., replacement=True)` guarantees about the draws. -/

open MeasureTheory ProbabilityTheory

noncomputable section
namespace Spec
open Sampling

/-- The draws at the `logsumexp` nodes of the tape: independent, and at each node index `i` is drawn with its softmax probability. -/
structure Draws {K Ω : Type} [MeasurableSpace Ω] (T : Tape K) (P : Measure Ω) (X : K → Ω → ℕ) : Prop where
  meas : ∀ k, Measurable (X k)
  indep : iIndepFun X P
  range : ∀ k n c, T.op k = .lse n c → 0 < n → ∀ ω, X k ω < n
  law : ∀ k n c, T.op k = .lse n c → ∀ i : Fin n,
    P.real {ω | X k ω = i} = Real.exp (T.val (c i)) / ∑ j, Real.exp (T.val (c j))

end Spec
