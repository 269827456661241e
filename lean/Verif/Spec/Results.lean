import Mathlib.Data.List.Forall2
import Verif.Model.Semiring

/-! How the results of two calls are compared. -/

/-- Both calls raise the same error, or both return one value per row and the values of each row are related by `ρ`. -/
def RelE {α β : Type} (ρ : α → β → Prop) : Except PyErr (List α) → Except PyErr (List β) → Prop
  | .ok as, .ok xs => List.Forall₂ ρ as xs
  | .error e, .error e' => e = e'
  | _, _ => False
