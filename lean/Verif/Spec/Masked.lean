import Verif.Spec.Segmentation
import Verif.Spec.Tree
import Verif.Spec.Dep
import Verif.Spec.Grammar

/-! Structures all of whose parts are allowed. -/

namespace Spec

/-- Every segment `(start, length, class, previous class)` of the segmentation is allowed. -/
def SegAllowed (A : ℕ → ℕ → ℕ → ℕ → Prop) {K C L : ℕ} (y : Segmentation K C L) : Prop :=
  ∀ s ∈ segEdges 0 y.1 y.2.1, A s.1 s.2.1 s.2.2.1 s.2.2.2

/-- Every labelled span `(first word, last word, label)` of the tree is allowed. -/
def TreeAllowed (A : ℕ → ℕ → ℕ → Prop) {NT L : ℕ} (t : Trees NT L) : Prop := ∀ s ∈ t.1.spans 0, A s.1 s.2.1 s.2.2

/-- Every arc of the tree is allowed. -/
def DepAllowed (A : ℕ → ℕ → Prop) {m : Bool} {n : ℕ} (t : ProjTrees m n) : Prop := ∀ i j, HasArc t.1 i j → A i j

/-- Every preterminal, every rule and the root of the derivation are allowed. -/
def DerivAllowed (term : ℕ → ℕ → Prop) (rule : ℕ → ℕ → ℕ → Prop) (root : ℕ → Prop) {NT T L : ℕ} (d : Derivs NT T L) : Prop :=
  (∀ x ∈ d.1.words 0, term x.1 x.2) ∧ (∀ x ∈ d.1.rules, rule x.1 x.2.1 x.2.2) ∧ root d.1.sym

noncomputable instance (A : ℕ → ℕ → ℕ → ℕ → Prop) {K C L : ℕ} : DecidablePred (SegAllowed A : Segmentation K C L → Prop) := fun _ => Classical.dec _

noncomputable instance (A : ℕ → ℕ → ℕ → Prop) {NT L : ℕ} : DecidablePred (TreeAllowed A : Trees NT L → Prop) := fun _ => Classical.dec _

noncomputable instance (A : ℕ → ℕ → Prop) {m : Bool} {n : ℕ} : DecidablePred (DepAllowed A : ProjTrees m n → Prop) := fun _ => Classical.dec _

noncomputable instance (term : ℕ → ℕ → Prop) (rule : ℕ → ℕ → ℕ → Prop) (root : ℕ → Prop) {NT T L : ℕ} :
    DecidablePred (DerivAllowed term rule root : Derivs NT T L → Prop) := fun _ => Classical.dec _

end Spec
