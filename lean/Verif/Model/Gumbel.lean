import Verif.Model.Sampling
import Verif.Model.Autoregressive

/-! Model of `GumbelMaxSemiring` and `GumbelCRFSemiring` (torch_struct/semirings/sample.py:56-153) and of `StructDistribution.gumbel_crf`
(distributions.py:192-197).

The gradient of a loss on the returned tensor (`ST.backward`, sample.py:107-115) is modelled in `Model/GumbelGrad.lean`. -/

noncomputable section
namespace Sampling

/-- How deeply the calls of `sum` are nested.  In the linear chain the entries computed by one call of `sum` are exactly the entries of one level:
level 1 is line 79 of linearchain.py, levels 2, 3, ... are the rounds of the scan (line 83), the last two levels are line 84. -/
def Expr.level : Expr → ℕ
  | leaf _ _ => 0
  | const _ => 0
  | mul a b => max a.level b.level
  | sum _ f => (Finset.univ.sup fun i => (f i).level) + 1
  | setData x _ => x.level

/-- The draws in the backward pass of `_GumbelMaxLogSumExp` / `_GumbelCRFLogSumExp` (sample.py:69-75, 128-133).  `noise l` is
`Gumbel(0, 1).sample((ls.shape[-1],))` in the call of level `l`: one number per index of the summed dimension, broadcast over all other dimensions, that is
over the batch rows, the positions and the remaining tags.  `one_hot(update.max(-1)[1])` selects an index of the largest `(ls + noise) / temp`. -/
def GumbelDraws {K : Type} (T : Tape K) (pick : List ℝ → ℕ) (noise : ℕ → ℕ → ℝ) (temp : ℝ) (draw : K → ℕ) : Prop :=
  ∀ n f k, Repr T (.sum n f) k →
    draw k = pick (List.ofFn fun i : Fin n => ((f i).value + noise (Expr.level (.sum n f)) i) / temp)

/-- `gumbel_crf(temperature)` (distributions.py:192-197) of a linear chain: the gradient with respect to entry `id` of the potentials.  `T`, `obj`: the tape of the
recorded forward pass (see `Sampling`). -/
def IsGumbelCRF (es : List Expr) (pick : List ℝ → ℕ) (noise : ℕ → ℕ → ℝ) (temp : ℝ) (result : List ℕ → ℕ) : Prop :=
  ∃ (K : Type) (_ : Fintype K) (_ : DecidableEq K) (T : Tape K) (obj : K) (draw : K → ℕ) (G : K → ℕ), Repr T (batchSum es) obj ∧
    GumbelDraws T pick noise temp draw ∧ IsBackward (sendOne T draw) obj G ∧ result = gradAt T G

end Sampling
