import Verif.Model.Objects

/-! Specification of histories: what an object answers after a history, and what a new object answers. -/

noncomputable section
namespace Spec.Objects
open _root_.Objects

variable (pick : List (Autograd.Grad (List ℕ)) → Autograd.Grad (List ℕ))

/-- The answer of distribution `i` to a query after the history `ops`. -/
def answer (ops : List Op) (grad : Bool) (i : ℕ) (query : Query) : Option (Except PyErr Val) :=
  (step pick (run pick start ops) (.ask grad i query)).2

/-- The contents of tensor `k` after the history `ops`. -/
def contents (ops : List Op) (k : ℕ) : Option (Tensor ℝ) := (run pick start ops).cells[k]?.map (·.data)

/-- The number of distributions after the history `ops`. -/
def numObjs (ops : List Op) : ℕ := (run pick start ops).objs.length

/-- The answer of a distribution that has just been built over a new tensor with contents `t`, when gradients are enabled. -/
def fresh (cls : Cls) (t : Tensor ℝ) (lengths : Option (List ℕ)) (query : Query) : Option (Except PyErr Val) :=
  answer pick [.tensor t, .new cls 0 lengths] true 0 query

/-- The query is `sample`. -/
def IsSample : Query → Prop
  | .sample _ _ => True
  | _ => False

/-- The history does not write into tensor `k`. -/
def NoUpdate (k : ℕ) (ops : List Op) : Prop := ∀ op ∈ ops, ∀ grad data, op ≠ .update grad k data

end Spec.Objects
