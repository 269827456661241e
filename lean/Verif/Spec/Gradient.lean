import Mathlib.Analysis.Calculus.Deriv.Basic
import Verif.Model.Semiring

/-! Specification: the derivative of one row of a result with respect to a number `t` on which the input depends. -/

noncomputable section
namespace Spec

/-- Row `b` of a result. -/
def rowValue {β : Type} (r : Except PyErr (List β)) (b : ℕ) : Option β :=
  match r with
  | .ok vs => vs[b]?
  | .error _ => none

/-- For every `t` the call `f t` returns a row `b`, and the derivative of that row at `t = 0` is `d`. -/
def HasRowDeriv (f : ℝ → Except PyErr (List ℝ)) (b : ℕ) (d : ℝ) : Prop :=
  ∃ F : ℝ → ℝ, (∀ t, rowValue (f t) b = some (F t)) ∧ HasDerivAt F d 0

/-- Row `b` of the result is a convex function of `t`. -/
def ConvexRow (f : ℝ → Except PyErr (List ℝ)) (b : ℕ) : Prop :=
  ∃ F : ℝ → ℝ, (∀ t, rowValue (f t) b = some (F t)) ∧
    ∀ t u, ∀ a ∈ Set.Icc (0 : ℝ) 1, F ((1 - a) * t + a * u) ≤ (1 - a) * F t + a * F u

theorem rowValue_ok {β : Type} (B : ℕ) (f : ℕ → β) (b : ℕ) (hb : b < B) : rowValue (.ok ((List.range B).map f)) b = some (f b) := by
  simp [rowValue, hb]

/-- The derivative is determined. -/
theorem HasRowDeriv.unique {f : ℝ → Except PyErr (List ℝ)} {b : ℕ} {d d' : ℝ} (h : HasRowDeriv f b d) (h' : HasRowDeriv f b d') : d = d' := by
  obtain ⟨F, h1, h2⟩ := h
  obtain ⟨G, h3, h4⟩ := h'
  have : F = G := funext fun t => Option.some.inj ((h1 t).symm.trans (h3 t))
  subst this
  exact h2.unique h4

end Spec
