import Verif.Model.DependencyHistory

/-! Specification: objects that do not influence each other. -/

noncomputable section
namespace Spec
open DependencyHistory

/-- The answer of object `i` to a query after the history `ops`. -/
def answer (pick : List (Autograd.Grad (List ℕ)) → Autograd.Grad (List ℕ)) (ops : List Op) (i : ℕ) (query : Query) : Option (Except PyErr Val) :=
  (step pick (run pick start ops) (.ask i query)).2

/-- The constructor calls of a history, in order. -/
def constructions : List Op → List (DepTree.Arcs ℝ × Option (List ℕ) × Bool)
  | [] => []
  | .new q l m :: ops => (q, l, m) :: constructions ops
  | .ask _ _ :: ops => constructions ops

/-- Every object answers every query as it would if it were the only one and this were the first query. -/
def Isolated (pick : List (Autograd.Grad (List ℕ)) → Autograd.Grad (List ℕ)) (ops : List Op) : Prop :=
  ∀ i q l m, (constructions ops)[i]? = some (q, l, m) → ∀ query, answer pick ops i query = answer pick [.new q l m] 0 query

end Spec
