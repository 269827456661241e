import Verif.Spec.Gibbs
import Verif.Spec.Gradient

/-! Specification: covariances under a distribution, and the derivative of one entry of a table. -/

noncomputable section
namespace Spec

/-- The covariance of two quantities under the distribution with scores `s`. -/
def Gibbs.cov {ι : Type} [Fintype ι] (s f g : ι → ℝ) : ℝ := expect s (fun y => f y * g y) - expect s f * expect s g

open Classical in
/-- The indicator of an event. -/
def ind (P : Prop) : ℝ := if P then 1 else 0

/-- For every `t` the call `f t` returns, and the derivative at `t = 0` of the number that `get` reads off the result is `d`. -/
def HasEntryDeriv {β : Type} (f : ℝ → Except PyErr β) (get : β → ℝ) (d : ℝ) : Prop :=
  ∃ F : ℝ → ℝ, (∀ t, ∃ μ, f t = .ok μ ∧ get μ = F t) ∧ HasDerivAt F d 0

/-- The derivative is determined. -/
theorem HasEntryDeriv.unique {β : Type} {f : ℝ → Except PyErr β} {get : β → ℝ} {d d' : ℝ} (h : HasEntryDeriv f get d) (h' : HasEntryDeriv f get d') : d = d' := by
  obtain ⟨F, h1, h2⟩ := h
  obtain ⟨G, h3, h4⟩ := h'
  have : F = G := by
    funext t
    obtain ⟨μ, h5, h6⟩ := h1 t
    obtain ⟨μ', h7, h8⟩ := h3 t
    obtain rfl : μ = μ' := Except.ok.inj (h5.symm.trans h7)
    exact h6.symm.trans h8
  subst this
  exact h2.unique h4

end Spec
