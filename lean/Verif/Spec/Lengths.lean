import Mathlib.Data.Nat.Notation

/-! Specification: what the `lengths` argument means. -/

namespace Spec

/-- `lengths` is omitted, or has one entry per batch row, no entry above `N`, and some entry equal to `N`. -/
def ValidLengths (batch N : ℕ) : Option (List ℕ) → Prop
  | none => True
  | some l => l.length = batch ∧ (∀ x ∈ l, x ≤ N) ∧ N ∈ l

/-- The length of row `b`: `N` when `lengths` is omitted. -/
def lenOf (N : ℕ) : Option (List ℕ) → ℕ → ℕ
  | none, _ => N
  | some l, b => l.getD b 0

/-- `lengths` is omitted, or has one entry per batch row, each between 1 and `N`. -/
def LengthsIn (batch N : ℕ) : Option (List ℕ) → Prop
  | none => True
  | some l => l.length = batch ∧ ∀ x ∈ l, 1 ≤ x ∧ x ≤ N

end Spec
