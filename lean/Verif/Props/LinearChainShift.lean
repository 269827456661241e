import Verif.Props.LinearChainBest
import Verif.Props.LinearChainEntropy

/-! Property theorems about shifting the potentials of `LinearChainCRF`: C45. -/

open Finset Spec LinearChainProofs

noncomputable section
namespace Props.LinearChain
open _root_.LinearChain

/-- Add `a n` to all potentials of position `n`. -/
def shift (p : T4 ℝ) (a : ℕ → ℝ) : T4 ℝ := { p with get := fun b n i j => p.get b n i j + a n }

theorem shift_valid {p : T4 ℝ} {lengths : Option (List ℕ)} (h : Valid p lengths) (a : ℕ → ℝ) : Valid (shift p a) lengths :=
  ⟨h.square, h.edges, h.classes, h.lens⟩

theorem seqScore_shift {L C : ℕ} (φ : ℕ → Fin C → Fin C → ℝ) (a : ℕ → ℝ) (y : Tags L C) :
    seqScore (fun n i j => φ n i j + a n) y = seqScore φ y + ∑ n ∈ range L, a n := by
  rw [seqScore, sum_add_distrib, Finset.sum_range]; rfl

theorem chainZ_shift {C : ℕ} (L : ℕ) (φ : ℕ → Fin C → Fin C → ℝ) (a : ℕ → ℝ) :
    chainZ L (fun n i j => φ n i j + a n) = chainZ L φ * Real.exp (∑ n ∈ range L, a n) := by
  unfold chainZ
  rw [sum_mul]
  exact sum_congr rfl fun y _ => by rw [seqScore_shift, Real.exp_add]

theorem chainP_shift {L C : ℕ} (φ : ℕ → Fin C → Fin C → ℝ) (a : ℕ → ℝ) (y : Tags L C) :
    chainP (fun n i j => φ n i j + a n) y = chainP φ y := by
  unfold chainP
  rw [chainZ_shift, seqScore_shift, Real.exp_add, mul_div_mul_right _ _ (Real.exp_pos _).ne']

/-- **C45.** The probabilities of tag sequences and edges and the entropy do not change under a shift. -/
theorem shift_truth {C : ℕ} (L : ℕ) (φ : ℕ → Fin C → Fin C → ℝ) (a : ℕ → ℝ) :
    (∀ y : Tags L C, chainP (fun n i j => φ n i j + a n) y = chainP φ y) ∧
    (∀ n i j, edgeProb L (fun n i j => φ n i j + a n) n i j = edgeProb L φ n i j) ∧
    chainEntropy L (fun n i j => φ n i j + a n) = chainEntropy L φ := by
  refine ⟨chainP_shift φ a, fun n i j => ?_, ?_⟩
  · unfold edgeProb; simp only [chainP_shift]
  · unfold chainEntropy; simp only [chainP_shift]

/-- **C45.** `max` of the shifted potentials is `max` plus the sum of the shifts of the row (no potential below the stand-in `-1e5`, before
and after). -/
theorem shift_max (p : T4 ℝ) (a : ℕ → ℝ) (lengths : Option (List ℕ)) (h : Valid p lengths) (hp : LowerBound p lengths (-100000))
    (hp' : LowerBound (shift p a) lengths (-100000)) :
    ∃ vs vs', Dist.max algo p lengths = .ok vs ∧ Dist.max algo (shift p a) lengths = .ok vs' ∧ vs.length = p.d0 ∧ vs'.length = p.d0 ∧
      ∀ b (hb : b < vs.length) (hb' : b < vs'.length), vs'[b] = vs[b] + ∑ n ∈ range (numEdges p lengths b), a n := by
  obtain ⟨vs, h1, h2, h3⟩ := max_spec p lengths h hp
  obtain ⟨vs', h1', h2', h3'⟩ := max_spec (shift p a) lengths (shift_valid h a) hp'
  refine ⟨vs, vs', h1, h1', h2, h2', fun b hb hb' => ?_⟩
  obtain ⟨⟨y, hy⟩, hu⟩ := h3 b hb
  obtain ⟨⟨y', hy'⟩, hu'⟩ := h3' b hb'
  have hs : ∀ y : Tags (numEdges p lengths b) p.d2, seqScore (row (shift p a) b) y =
      seqScore (row p b) y + ∑ n ∈ range (numEdges p lengths b), a n := fun y => seqScore_shift (row p b) a y
  have e1 : seqScore (row (shift p a) b) y ≤ vs'[b] := hu' y
  have e2 : seqScore (row p b) y' ≤ vs[b] := hu y'
  have e3 := hs y
  have e4 : seqScore (row (shift p a) b) y' = seqScore (row p b) y' + ∑ n ∈ range (numEdges p lengths b), a n := hs y'
  linarith

/-- **C45.** Shifting changes the marginals by at most the two error bounds of the stand-in `zero = -1e5` (both vanish as it goes to minus infinity,
`err_tendsto`). -/
theorem shift_marginals (p : T4 ℝ) (a : ℕ → ℝ) (lengths : Option (List ℕ)) (h : Valid p lengths) (m m' : ℝ)
    (hm : LowerBound p lengths m) (hm' : LowerBound (shift p a) lengths m') :
    ∃ μ μ', Dist.marginals algo p lengths = .ok μ ∧ Dist.marginals algo (shift p a) lengths = .ok μ' ∧
      ∀ b < p.d0, ∀ n < p.d1, ∀ i j : Fin p.d2,
        |μ' [b, n, i, j] - μ [b, n, i, j]| ≤ err p lengths (-100000) m b + err p lengths (-100000) m' b := by
  obtain ⟨μ, h1, h2⟩ := marginals_spec p lengths h m hm
  obtain ⟨μ', h1', h2'⟩ := marginals_spec (shift p a) lengths (shift_valid h a) m' hm'
  refine ⟨μ, μ', h1, h1', fun b hb n hn i j => ?_⟩
  have e1 := (h2 b hb n hn i j).2.2
  have e2 : |μ' [b, n, i, j] - edgeProb (numEdges p lengths b) (fun n i j => row p b n i j + a n) n i j| ≤ err p lengths (-100000) m' b :=
    (h2' b hb n hn i j).2.2
  rw [(shift_truth _ _ _).2.1] at e2
  rw [abs_le] at *
  constructor <;> linarith

/-- **C45.** Shifting changes the entropy by at most the two error bounds of the stand-in `zero = -1e5`. -/
theorem shift_entropy (p : T4 ℝ) (a : ℕ → ℝ) (lengths : Option (List ℕ)) (h : Valid p lengths) (B B' : ℝ)
    (hB : AbsBound p lengths B) (hB' : AbsBound (shift p a) lengths B') :
    ∃ vs vs', Dist.entropy algo p lengths = .ok vs ∧ Dist.entropy algo (shift p a) lengths = .ok vs' ∧ vs.length = p.d0 ∧ vs'.length = p.d0 ∧
      ∀ b (hb : b < vs.length) (hb' : b < vs'.length),
        |vs'[b] - vs[b]| ≤ errH p lengths (-100000) B b + errH p lengths (-100000) B' b := by
  obtain ⟨vs, h1, h2, h3⟩ := entropy_spec p lengths h B hB
  obtain ⟨vs', h1', h2', h3'⟩ := entropy_spec (shift p a) lengths (shift_valid h a) B' hB'
  refine ⟨vs, vs', h1, h1', h2, h2', fun b hb hb' => ?_⟩
  have e1 := h3 b hb
  have e2 : |vs'[b] - chainEntropy (numEdges p lengths b) (fun n i j => row p b n i j + a n)| ≤ errH p lengths (-100000) B' b := h3' b hb'
  rw [(shift_truth _ _ _).2.2] at e2
  rw [abs_le] at *
  constructor <;> linarith

/-- **C45.** A sequence is a best sequence of the shifted potentials exactly when it is one of the original potentials, so the argmax of the
shifted potentials (`argmax_spec`) is a valid argmax of the original ones. -/
theorem shift_argmax (p : T4 ℝ) (a : ℕ → ℝ) (lengths : Option (List ℕ)) (h : Valid p lengths)
    (hp : LowerBound p lengths (-100000))
    (hp' : ∀ b < p.d0, ∀ n < numEdges p lengths b, ∀ i j : Fin p.d2, -100000 < row (shift p a) b n i j)
    (pick : List (Autograd.Grad (List ℕ)) → Autograd.Grad (List ℕ)) (hpick : Autograd.IsArgmax Prod.fst pick) :
    ∃ μ vs, Dist.argmax algo (shift p a) lengths pick = .ok μ ∧ Dist.max algo p lengths = .ok vs ∧ vs.length = p.d0 ∧
      ∀ b (hb : b < vs.length), ∃ y : Tags (numEdges p lengths b) p.d2, seqScore (row p b) y = vs[b] ∧
        ∀ n < p.d1, ∀ i j : Fin p.d2, μ [b, n, i, j] = if UsesEdge y n i j then 1 else 0 := by
  obtain ⟨μ, vs', h1, h2, h3, h4⟩ := argmax_spec (shift p a) lengths (shift_valid h a) hp' pick hpick
  obtain ⟨vs, vs'', g1, g2, g3, g4, g5⟩ := shift_max p a lengths h hp (fun b hb n hn i j => (hp' b hb n hn i j).le)
  obtain rfl : vs' = vs'' := by rw [h2] at g2; exact Except.ok.inj g2
  refine ⟨μ, vs, h1, g1, g3, fun b hb => ?_⟩
  obtain ⟨y, hy, hy'⟩ := h4 b (by rw [g4, ← g3]; exact hb)
  refine ⟨y, ?_, hy'⟩
  have e1 := g5 b hb (by rw [g4, ← g3]; exact hb)
  have e2 : seqScore (row (shift p a) b) y = seqScore (row p b) y + ∑ n ∈ range (numEdges p lengths b), a n := seqScore_shift (row p b) a y
  exact add_right_cancel (e2.symm.trans (hy.trans e1))

/-- Non-vacuity: the example potentials, shifted by `n`, satisfy the bounds. -/
example : LowerBound sample (some [3, 2]) (-100000) ∧ LowerBound (shift sample fun n => n) (some [3, 2]) (-100000) := by
  constructor
  · intro b _ n _ i j
    simp only [row, sample]
    have : (j : ℝ) ≤ 2 := by exact_mod_cast (Nat.le_of_lt j.2)
    have h1 := Nat.cast_nonneg (α := ℝ) b; have h2 := Nat.cast_nonneg (α := ℝ) n; have h3 := Nat.cast_nonneg (α := ℝ) (i : ℕ)
    linarith
  · intro b _ n _ i j
    simp only [row, sample, shift]
    have : (j : ℝ) ≤ 2 := by exact_mod_cast (Nat.le_of_lt j.2)
    have h1 := Nat.cast_nonneg (α := ℝ) b; have h2 := Nat.cast_nonneg (α := ℝ) n; have h3 := Nat.cast_nonneg (α := ℝ) (i : ℕ)
    linarith

end Props.LinearChain
