import Mathlib.Data.Real.Basic
import Verif.Model.Semiring

/-! Specification: a semiring whose operations are computed with rounding errors. -/

namespace Spec

/-- `S'` computes the operations of `S` with an error of at most `ε` for every product and every sum, as long as the exact result lies between `-R` and `R`.  (For
floating-point numbers the errors are proportional to `R`; nothing is assumed outside that range.)  Constants, copies and masks are exact. -/
structure Rounded (S' S : SR ℝ) (R ε : ℝ) : Prop where
  zero : S'.zero = S.zero
  one : S'.one = S.one
  raw0 : S'.raw0 = S.raw0
  detach : ∀ a, S'.detach a = S.detach a
  setData : ∀ a b, S'.setData a b = S.setData a b
  mul : ∀ a b, |S.mul a b| ≤ R → |S'.mul a b - S.mul a b| ≤ ε
  sum : ∀ xs, xs ≠ [] → |S.sum xs| ≤ R → |S'.sum xs - S.sum xs| ≤ ε

/-- `add` computes sums of two numbers with an error of at most `ε`, as long as the exact sum lies between `-R` and `R`. -/
def RoundedAdd (add : ℝ → ℝ → ℝ) (R ε : ℝ) : Prop := ∀ a b, |a + b| ≤ R → |add a b - (a + b)| ≤ ε

end Spec
