import Verif.Proofs.SampleBatch
import Verif.Proofs.SampleExists

/-! Property theorems about the sampling semirings, for every dynamic program: C38, C50. -/

open Sampling

noncomputable section
namespace Props.Sampling

/-- **C38.** For every computation in which the two factors of a product never use the same entry of the potentials (`Lin`), and for
every tape that represents it: decoding slot `j` of the 16-sample gradient gives exactly the gradient of the single-sample pass that uses the `j`-th draw at
every node, and this is 0 or 1. -/
theorem multi_sample_bits {K : Type} [Fintype K] [DecidableEq K] (T : Tape K) (e : Expr) (hl : e.Lin) (obj : K) (hr : Repr T e obj)
    (draws : ℕ → K → ℕ) (G : K → ℕ) (hG : IsBackward (sendMulti T draws) obj G) (j : ℕ) (hj : j < 16) (G' : K → ℕ)
    (hG' : IsBackward (sendOne T (draws j)) obj G') (id : List ℕ) :
    toDiscrete (gradAt T G id) j = gradAt T G' id ∧ gradAt T G' id ≤ 1 := by
  rw [backward_one (draws j) hr hG' id]
  exact ⟨backward_multi draws hr hl hG id j hj, grad_le_one (draws j) id _ _ hr hl⟩

/-- A computation to which `multi_sample_bits` applies: `logsumexp(x₀ + x₁, x₂)`, with a tape and both kinds of passes. -/
example : ∃ (e : Expr) (K : Type) (_ : Fintype K) (_ : DecidableEq K) (T : Tape K) (obj : K) (draws : ℕ → K → ℕ) (G G' : K → ℕ), e.Lin ∧ Repr T e obj ∧
    IsBackward (sendMulti T draws) obj G ∧ IsBackward (sendOne T (draws 3)) obj G' := by
  classical
  let e : Expr := .sum 2 ![.mul (.leaf 1 [0]) (.leaf 2 [1]), .leaf 3 [2]]
  obtain ⟨K, fK, T, k, h⟩ := tape_exists e
  obtain ⟨G, hG⟩ := backward_exists (T := T) (sendMulti_local fun _ _ => 0) k
  obtain ⟨G', hG'⟩ := backward_exists (T := T) (sendOne_local fun _ => 0) k
  refine ⟨e, K, fK, _, T, k, fun _ _ => 0, G, G', ?_, h, hG, hG'⟩
  intro i
  match i with
  | 0 => exact ⟨by simp [Expr.leaves], trivial, trivial⟩
  | 1 => trivial

/-- **C38**, where the condition `Lin` is needed: in `x₀ + x₀` the packed gradient of the two occurrences overflows into the wrong form - the pass
returns the multiplicity 2, which decodes as "used by sample 0 only". -/
theorem lin_needed : toDiscrete 2 0 = 1 ∧ toDiscrete 2 1 = 0 := by
  constructor <;> rfl

/-- **C50.** `sample((n,))` returns `n` events; event `s` is decoded from slot `s % 10 + 1 ≤ 10` of backward pass `s / 10`. -/
theorem sample_slots (pass : ℕ → List ℕ → ℕ) (n : ℕ) (hn : 0 < n) :
    ∃ smp, sample pass [n] = .ok smp ∧ smp.length = n ∧
      ∀ s (hs : s < smp.length) id, smp[s] id = toDiscrete (pass (s / 10) id) (s % 10 + 1) :=
  ⟨_, sample_eq pass n hn, by simp, fun s hs id => by simp⟩

/-- **C50.** No two samples use the same slot of the same pass, and all slots are among the 16 that the pass fills. -/
theorem slots_distinct (s s' : ℕ) (h : s / 10 = s' / 10 ∧ s % 10 + 1 = s' % 10 + 1) : s = s' ∧ s % 10 + 1 < 16 := by omega

/-- **C50**, limits: `sample()` with the default empty shape, or with a multi-dimensional shape, raises `AssertionError`; `sample((0,))` raises. -/
theorem sample_errors (pass : ℕ → List ℕ → ℕ) :
    sample pass [] = .error .assertion ∧ (∀ a b l, sample pass (a :: b :: l) = .error .assertion) ∧ sample pass [0] = .error .runtime :=
  ⟨rfl, fun _ _ _ => rfl, rfl⟩

end Props.Sampling
