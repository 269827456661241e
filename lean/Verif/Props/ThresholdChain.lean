import Verif.Props.Threshold
import Verif.Props.LinearChainMarginals

/-! Property theorems C145 for `LinearChainCRF`, whose marginals are exact up to the error of the stand-in for minus infinity. -/

open Finset Spec Generic

noncomputable section
namespace Props.Threshold

/-- **C145, `LinearChainCRF`.** Edges whose marginals, lowered by the error `err` of C07, miss one by less than one in total are all in one tag sequence. -/
theorem chain_together (p : T4 ℝ) (lengths : Option (List ℕ)) (h : LinearChain.Valid p lengths) (m : ℝ) (hm : LinearChain.LowerBound p lengths m) :
    ∃ μ, Dist.marginals _root_.LinearChain.algo p lengths = .ok μ ∧ ∀ b < p.d0, ∀ ps : List (ℕ × Fin p.d2 × Fin p.d2), (∀ s ∈ ps, s.1 < p.d1) →
      (ps.map fun s => 1 - μ [b, s.1, s.2.1, s.2.2] + LinearChain.err p lengths (-100000) m b).sum < 1 →
      ∃ y : Tags (LinearChain.numEdges p lengths b) p.d2, ∀ s ∈ ps, UsesEdge y s.1 s.2.1 s.2.2 := by
  obtain ⟨μ, h1, h2⟩ := LinearChain.marginals_spec p lengths h m hm
  refine ⟨μ, h1, fun b hb ps hin hps => ?_⟩
  have : Nonempty (Tags (LinearChain.numEdges p lengths b) p.d2) := ⟨fun _ => ⟨0, h.classes⟩⟩
  refine together_prob (ι := Tags (LinearChain.numEdges p lengths b) p.d2) (seqScore (LinearChain.row p b)) (fun y s => UsesEdge y s.1 s.2.1 s.2.2) ps (lt_of_le_of_lt ?_ hps)
  refine List.sum_le_sum fun s hs => ?_
  have h3 := (abs_le.1 (h2 b hb s.1 (hin s hs) s.2.1 s.2.2).2.2).2
  have e : edgeProb (LinearChain.numEdges p lengths b) (LinearChain.row p b) s.1 s.2.1 s.2.2 =
      ∑ y : Tags (LinearChain.numEdges p lengths b) p.d2, @ite ℝ (UsesEdge y s.1 s.2.1 s.2.2) (Classical.propDecidable _) (Gibbs.prob (seqScore (LinearChain.row p b)) y) 0 := by
    unfold edgeProb
    refine sum_congr rfl fun y _ => ?_
    by_cases hu : UsesEdge y s.1 s.2.1 s.2.2
    · rw [if_pos hu, if_pos hu]; rfl
    · rw [if_neg hu, if_neg hu]
  rw [e] at h3
  linarith

/-- Three tags; two neighbours with tag 0 score 100. -/
def chainSample : T4 ℝ := ⟨1, 2, 2, 2, fun _ _ i j => if i = 0 ∧ j = 0 then 100 else 0⟩

theorem chain_lower : LinearChain.LowerBound chainSample none 0 := fun b _ n _ i j => by
  change (0 : ℝ) ≤ if (i : ℕ) = 0 ∧ (j : ℕ) = 0 then 100 else 0
  split_ifs <;> norm_num

theorem chain_err : LinearChain.err chainSample none (-100000) 0 0 ≤ 2 / 100 := by
  have e : LinearChain.err chainSample none (-100000) 0 0 = (2 : ℕ) * Real.exp (-100000 - 0) + ((2 ^ Nat.clog 2 2 - 2 : ℕ) : ℝ) * ((2 * 2 - 1 : ℕ) * Real.exp (-100000)) := rfl
  have c : 2 ^ Nat.clog 2 2 - 2 = 0 := by rw [show Nat.clog 2 2 = 1 by decide, pow_one]
  rw [e, c, Nat.cast_zero, zero_mul, add_zero, sub_zero]
  have : Real.exp (-100000) ≤ Real.exp (-100) := Real.exp_le_exp.2 (by norm_num)
  push_cast
  linarith [exp_small]

theorem chain_edge (n : ℕ) (hn : n < 2) : 1 - edgeProb 2 (fun _ (i j : Fin 2) => if (i : ℕ) = 0 ∧ (j : ℕ) = 0 then (100 : ℝ) else 0) n 0 0 ≤ 8 / 100 := by
  have : Nonempty (Tags 2 2) := ⟨fun _ => 0⟩
  refine (unlikely (seqScore fun _ (i j : Fin 2) => if (i : ℕ) = 0 ∧ (j : ℕ) = 0 then (100 : ℝ) else 0) (fun y : Tags 2 2 => UsesEdge y n 0 0) (fun _ => 0) 100 ?_).trans ?_
  · intro y hno
    have full : seqScore (fun _ (i j : Fin 2) => if (i : ℕ) = 0 ∧ (j : ℕ) = 0 then (100 : ℝ) else 0) ((fun _ => 0) : Tags 2 2) = 200 := by
      simp [seqScore]; norm_num
    rw [full]
    have le : ∀ i j : Fin 2, (if (i : ℕ) = 0 ∧ (j : ℕ) = 0 then (100 : ℝ) else 0) ≤ 100 := fun i j => by split_ifs <;> norm_num
    rw [seqScore, Fin.sum_univ_two]
    have h0 := le (y 1) (y 0)
    have h1 := le (y 2) (y 1)
    interval_cases n
    · have z : (if (y 1 : ℕ) = 0 ∧ (y 0 : ℕ) = 0 then (100 : ℝ) else 0) = 0 := if_neg fun e => hno ⟨hn, Fin.ext e.1, Fin.ext e.2⟩
      change (if (y 1 : ℕ) = 0 ∧ (y 0 : ℕ) = 0 then (100 : ℝ) else 0) + (if (y 2 : ℕ) = 0 ∧ (y 1 : ℕ) = 0 then (100 : ℝ) else 0) + 100 ≤ 200
      linarith
    · have z : (if (y 2 : ℕ) = 0 ∧ (y 1 : ℕ) = 0 then (100 : ℝ) else 0) = 0 := if_neg fun e => hno ⟨hn, Fin.ext e.1, Fin.ext e.2⟩
      change (if (y 1 : ℕ) = 0 ∧ (y 0 : ℕ) = 0 then (100 : ℝ) else 0) + (if (y 2 : ℕ) = 0 ∧ (y 1 : ℕ) = 0 then (100 : ℝ) else 0) + 100 ≤ 200
      linarith
  · have hc : (Fintype.card (Tags 2 2) : ℝ) = 8 := by
      rw [Fintype.card_fun, Fintype.card_fin, Fintype.card_fin]; norm_num
    rw [hc]
    linarith [exp_small]

example : ∃ μ, Dist.marginals _root_.LinearChain.algo chainSample none = .ok μ ∧
    (([(0, 0, 0), (1, 0, 0)] : List (ℕ × Fin 2 × Fin 2)).map fun s => 1 - μ [0, s.1, s.2.1, s.2.2] + LinearChain.err chainSample none (-100000) 0 0).sum < 1 := by
  obtain ⟨μ, h1, h2⟩ := LinearChain.marginals_spec chainSample none ⟨rfl, by decide, by decide, trivial⟩ 0 chain_lower
  refine ⟨μ, h1, ?_⟩
  have a := (abs_le.1 (h2 0 (by decide) 0 (by decide) (0 : Fin 2) (0 : Fin 2)).2.2).1
  have b := (abs_le.1 (h2 0 (by decide) 1 (by decide) (0 : Fin 2) (0 : Fin 2)).2.2).1
  have a' : 1 - edgeProb (LinearChain.numEdges chainSample none 0) (LinearChain.row chainSample 0) 0 (0 : Fin 2) (0 : Fin 2) ≤ 8 / 100 := chain_edge 0 (by decide)
  have b' : 1 - edgeProb (LinearChain.numEdges chainSample none 0) (LinearChain.row chainSample 0) 1 (0 : Fin 2) (0 : Fin 2) ≤ 8 / 100 := chain_edge 1 (by decide)
  have c := chain_err
  simp only [List.map_cons, List.map_nil, List.sum_cons, List.sum_nil]
  linarith

end Props.Threshold
