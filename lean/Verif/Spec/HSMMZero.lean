import Verif.Spec.HMMZero
import Verif.Spec.Segmentation

/-! Specification: hidden semi-Markov models whose tables may have zeros. -/

open Finset

noncomputable section
namespace Spec

variable {K C L : ℕ}

/-- The joint probability of a segmentation and the observations: the auxiliary first class, then for every segment the transition from the previous class, the duration
given the class, and the emission of the segment given class and duration.  Tables hold probabilities: `T c c'` from `c` to `c'`, `D c k` of duration `k` in class `c`,
`E n k c` of the `k` observations from position `n` on in class `c`. -/
def hsmmWeight (I : ℕ → ℝ) (T D : ℕ → ℕ → ℝ) (E : ℕ → ℕ → ℕ → ℝ) (y : Segmentation K C L) : ℝ :=
  I y.1 * ((segEdges 0 y.1 y.2.1).map fun s => T s.2.2.2 s.2.2.1 * D s.2.2.1 s.2.1 * E s.1 s.2.1 s.2.2.1).prod

/-- The probability of the observations: the sum over all segmentations of `L` steps. -/
def hsmmProb (K C L : ℕ) (I : ℕ → ℝ) (T D : ℕ → ℕ → ℝ) (E : ℕ → ℕ → ℕ → ℝ) : ℝ := ∑ y : Segmentation K C L, hsmmWeight I T D E y

/-- The probability, given the observations, of a segment of class `c` and length `k` from position `n` on, after class `c'`. -/
def hsmmSegProb (K C L : ℕ) (I : ℕ → ℝ) (T D : ℕ → ℕ → ℝ) (E : ℕ → ℕ → ℕ → ℝ) (n k : ℕ) (c c' : Fin C) : ℝ :=
  (∑ y : Segmentation K C L, if (n, k, c, c') ∈ segEdges 0 y.1 y.2.1 then hsmmWeight I T D E y else 0) / hsmmProb K C L I T D E

/-- The segment of class `c` and length `k` from position `n` on, after class `c'`, has probability 0. -/
def hsmmImpossible (I : ℕ → ℝ) (T D : ℕ → ℕ → ℝ) (E : ℕ → ℕ → ℕ → ℝ) (n k c c' : ℕ) : Prop :=
  T c' c = 0 ∨ D c k = 0 ∨ E n k c = 0 ∨ n = 0 ∧ I c' = 0

end Spec
