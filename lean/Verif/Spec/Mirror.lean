import Verif.Model.CKY
import Verif.Model.DepTree
import Verif.Spec.Lengths

/-! Specification: the potentials of sentences that are read from right to left.  Row `b` is reversed within its own length `L`: word `i` becomes word
`L - 1 - i`. -/

namespace Spec
variable {γ : Type}

/-- `TreeCRF` potentials of the reversed sentences: the span from word `i` to word `j` becomes the span from `L - 1 - j` to `L - 1 - i`. -/
def mirrorSpans (p : T4 γ) (lengths : Option (List ℕ)) : T4 γ :=
  { p with get := fun b i j a => p.get b (lenOf p.d1 lengths b - 1 - j) (lenOf p.d1 lengths b - 1 - i) a }

/-- Dependency potentials of the reversed sentences: head and word are renumbered, the scores of the root stay on the diagonal. -/
def mirrorArcs (q : DepTree.Arcs γ) (lengths : Option (List ℕ)) : DepTree.Arcs γ :=
  { q with get := fun b i j l => q.get b (lenOf q.d1 lengths b - 1 - i) (lenOf q.d1 lengths b - 1 - j) l }

/-- The grammar and the words of the reversed sentences: the words are renumbered and the two children of every rule are exchanged. -/
def mirrorGrammar (p : CKY.Scores γ) (lengths : Option (List ℕ)) : CKY.Scores γ :=
  { p with
    term := fun b n t => p.term b (lenOf p.N lengths b - 1 - n) t
    rule := fun b X y z => p.rule b X z y
    mark := p.mark.map fun m b w i X => m b w (lenOf p.N lengths b - 1 - (w + 1) - i) X }

end Spec
