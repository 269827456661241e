import Mathlib.Algebra.BigOperators.Field
import Verif.Proofs.ChainBounds
import Verif.Model.Distributions
import Verif.Spec.ChainProb

/-! The linear chain with the log semiring and its gradients, and how far the `zero` stand-in moves the results. -/

open Finset Spec ChainProofs LinearChainProofs ChainBounds

noncomputable section
namespace LinearChainLog
variable {C : ℕ}

/-- Weights contributed by the (masked) identity table. -/
def cw (z : ℝ) (L n : ℕ) (i j : Fin C) : ℝ := if n < L then Real.exp z else if i = j then 1 else Real.exp z

/-- Weights contributed by the (masked) potentials. -/
def lw (z : ℝ) (φ : ℕ → Fin C → Fin C → ℝ) (L n : ℕ) (i j : Fin C) : ℝ :=
  if n < L then Real.exp (φ n i j) else Real.exp z

/-- Weights without any stand-in. -/
def tw (φ : ℕ → Fin C → Fin C → ℝ) (L n : ℕ) (i j : Fin C) : ℝ :=
  if n < L then Real.exp (φ n i j) else if i = j then 1 else 0

/-- The bound on the error caused by the stand-in `z`. -/
def slack (z m : ℝ) (L pad C : ℕ) : ℝ := L * Real.exp (z - m) + pad * ((2 * C - 1 : ℕ) * Real.exp z)

theorem slack_nonneg (z m : ℝ) (L pad C : ℕ) : 0 ≤ slack z m L pad C := by unfold slack; positivity

theorem chainSum_w (hC : 0 < C) (z : ℝ) (φ : ℕ → Fin C → Fin C → ℝ) (L M : ℕ) (h : L ≤ M) :
    chainSum M (fun n i j => cw z L n i j + lw z φ L n i j) =
      (1 + (2 * C - 1 : ℕ) * Real.exp z) ^ (M - L) * chainSum L (fun n i j => Real.exp (φ n i j) + Real.exp z) := by
  rw [← chainSum_smooth hC (Real.exp z) (fun n i j => Real.exp (φ n i j)) L M h]
  refine chainSum_congr fun n _ i j => ?_
  simp only [cw, lw]
  split_ifs <;> rfl

/-- Padding with identity matrices changes nothing. -/
theorem chainSum_idpad {R : Type} [CommSemiring R] (hC : 0 < C) (φ : ℕ → Fin C → Fin C → R) (L M : ℕ) (h : L ≤ M) :
    chainSum M (fun n i j => if n < L then φ n i j else if i = j then 1 else 0) = chainSum L φ := by
  have := chainSum_smooth hC (0 : R) φ L M h
  simpa using this

theorem chainZ_eq (φ : ℕ → Fin C → Fin C → ℝ) (L : ℕ) : chainZ L φ = chainSum L fun n i j => Real.exp (φ n i j) := by
  unfold chainZ chainSum seqScore seqProd
  exact sum_congr rfl fun y _ => Real.exp_sum _ _

theorem chainZ_pos (hC : 0 < C) (φ : ℕ → Fin C → Fin C → ℝ) (L : ℕ) : 0 < chainZ L φ := by
  have : Nonempty (Fin C) := ⟨⟨0, hC⟩⟩
  exact sum_pos (fun y _ => Real.exp_pos _) univ_nonempty

theorem chainSum_tw (hC : 0 < C) (φ : ℕ → Fin C → Fin C → ℝ) (L M : ℕ) (h : L ≤ M) :
    chainSum M (tw φ L) = chainZ L φ := by
  rw [chainZ_eq]; exact chainSum_idpad hC _ L M h

theorem chainSum_only (hC : 0 < C) (φ : ℕ → Fin C → Fin C → ℝ) (L M : ℕ) (h : L ≤ M) (n0 : ℕ) (hn : n0 < L) (i0 j0 : Fin C) :
    chainSum M (only (tw φ L) n0 i0 j0 (Real.exp (φ n0 i0 j0))) =
      ∑ y : Tags L C, if UsesEdge y n0 i0 j0 then Real.exp (seqScore φ y) else 0 := by
  have e : ∀ n, ∀ i j, only (tw φ L) n0 i0 j0 (Real.exp (φ n0 i0 j0)) n i j =
      if n < L then (if n = n0 then (if i = i0 ∧ j = j0 then Real.exp (φ n i j) else 0) else Real.exp (φ n i j))
        else if i = j then 1 else 0 := by
    intro n i j
    simp only [only, tw]
    by_cases h1 : n = n0
    · subst h1
      simp only [hn, if_true]
      by_cases h2 : i = i0 ∧ j = j0
      · rw [if_pos h2, if_pos h2, h2.1, h2.2]
      · rw [if_neg h2, if_neg h2]
    · simp [h1]
  rw [chainSum_congr fun n _ i j => e n i j, chainSum_idpad hC _ L M h]
  refine sum_congr rfl fun y _ => ?_
  rw [seqProd]
  by_cases hy : UsesEdge y n0 i0 j0
  · rw [if_pos hy, seqScore, Real.exp_sum]
    refine prod_congr rfl fun n _ => ?_
    by_cases h1 : (n : ℕ) = n0
    · subst h1
      obtain ⟨_, h2, h3⟩ := hy
      rw [if_pos rfl]
      exact if_pos ⟨h2, h3⟩
    · rw [if_neg h1]
  · rw [if_neg hy]
    refine prod_eq_zero (mem_univ (⟨n0, hn⟩ : Fin L)) ?_
    rw [if_pos rfl]
    exact if_neg fun hc => hy ⟨hn, hc.1, hc.2⟩

/-- The stand-in multiplies the total by at most `exp slack`. -/
theorem chainSum_w_le (hC : 0 < C) (z m : ℝ) (φ : ℕ → Fin C → Fin C → ℝ) (L M : ℕ) (h : L ≤ M)
    (hm : ∀ n < L, ∀ i j, m ≤ φ n i j) :
    chainSum M (fun n i j => cw z L n i j + lw z φ L n i j) ≤ chainZ L φ * Real.exp (slack z m L (M - L) C) := by
  rw [chainSum_w hC z φ L M h, slack, Real.exp_add, chainZ]
  have h1 : (1 + (2 * C - 1 : ℕ) * Real.exp z) ^ (M - L) ≤
      Real.exp (((M - L : ℕ) : ℝ) * ((2 * C - 1 : ℕ) * Real.exp z)) := by
    rw [Real.exp_nat_mul]
    refine pow_le_pow_left₀ (by positivity) ?_ _
    have := Real.add_one_le_exp ((2 * C - 1 : ℕ) * Real.exp z)
    linarith
  have h2 : chainSum L (fun n (i j : Fin C) => Real.exp (φ n i j) + Real.exp z) ≤
      (∑ y : Tags L C, Real.exp (seqScore φ y)) * Real.exp (L * Real.exp (z - m)) := by
    rw [sum_mul]
    apply sum_le_sum
    intro y _
    rw [seqScore, Real.exp_sum, Real.exp_nat_mul, ← Fin.prod_const, ← prod_mul_distrib]
    refine prod_le_prod (fun _ _ => by positivity) fun n _ => ?_
    have e1 : Real.exp z ≤ Real.exp (φ n (y n.succ) (y n.castSucc)) * Real.exp (z - m) := by
      rw [← Real.exp_add]; apply Real.exp_le_exp.2
      have := hm n n.2 (y n.succ) (y n.castSucc)
      linarith
    have e2 := Real.add_one_le_exp (Real.exp (z - m))
    have e3 := Real.exp_pos (φ n (y n.succ) (y n.castSucc))
    nlinarith
  calc _ ≤ Real.exp (((M - L : ℕ) : ℝ) * ((2 * C - 1 : ℕ) * Real.exp z)) *
        ((∑ y : Tags L C, Real.exp (seqScore φ y)) * Real.exp (L * Real.exp (z - m))) :=
        mul_le_mul h1 h2 (chainSum_nonneg fun _ _ _ _ => by positivity) (by positivity)
    _ = _ := by ring

theorem tw_nonneg (φ : ℕ → Fin C → Fin C → ℝ) (L n : ℕ) (i j : Fin C) : 0 ≤ tw φ L n i j := by
  unfold tw; split_ifs <;> positivity

theorem tw_le (z : ℝ) (φ : ℕ → Fin C → Fin C → ℝ) (L n : ℕ) (i j : Fin C) : tw φ L n i j ≤ cw z L n i j + lw z φ L n i j := by
  unfold tw cw lw
  have h1 := Real.exp_pos (φ n i j)
  have h2 := Real.exp_pos z
  split_ifs <;> linarith

theorem chainZ_le (hC : 0 < C) (z : ℝ) (φ : ℕ → Fin C → Fin C → ℝ) (L M : ℕ) (h : L ≤ M) :
    chainZ L φ ≤ chainSum M (fun n i j => cw z L n i j + lw z φ L n i j) := by
  rw [← chainSum_tw hC φ L M h]
  exact chainSum_mono (fun _ _ _ _ => tw_nonneg _ _ _ _ _) fun _ _ _ _ => tw_le _ _ _ _ _ _

/-- The relative growth of the total is at most `slack`. -/
theorem growth_le (hC : 0 < C) (z m : ℝ) (φ : ℕ → Fin C → Fin C → ℝ) (L M : ℕ) (h : L ≤ M)
    (hm : ∀ n < L, ∀ i j, m ≤ φ n i j) :
    (chainSum M (fun n i j => cw z L n i j + lw z φ L n i j) - chainZ L φ) /
      chainSum M (fun n i j => cw z L n i j + lw z φ L n i j) ≤ slack z m L (M - L) C := by
  have h1 := chainSum_w_le hC z m φ L M h hm
  have h2 := chainZ_le hC z φ L M h
  have h3 := chainZ_pos hC φ L
  set Z' := chainSum M (fun n i j => cw z L n i j + lw z φ L n i j)
  set s := slack z m L (M - L) C
  have hp : 0 < Z' := h3.trans_le h2
  rw [div_le_iff₀ hp]
  have e : 1 - s ≤ Real.exp (-s) := by have := Real.add_one_le_exp (-s); linarith
  have e2 : Z' * Real.exp (-s) ≤ chainZ L φ := by
    rw [Real.exp_neg, mul_inv_le_iff₀ (Real.exp_pos _)]; exact h1
  nlinarith

/-- The potentials of one row as autograd leaves. -/
def leafRow (p : ℕ → ℕ → Fin C → Fin C → ℝ) (b n : ℕ) (i j : Fin C) : Autograd.Grad (List ℕ) :=
  Autograd.leaf (p b n i j) [b, n, i, j]

theorem evalDual_mk {E : Type} (e : E) (v : ℝ) (g : E → ℝ) : evalDual e (v, g) = mk (Real.exp v) (Real.exp v * g e) := rfl

theorem mk_add (a d a' d' : ℝ) : mk a d + mk a' d' = mk (a + a') (d + d') := by
  ext <;> simp

theorem row_eval (hC : 0 < C) (z : ℝ) {N logN : ℕ} (lens : ℕ → ℕ) (p : ℕ → ℕ → Fin C → Fin C → ℝ) (b : ℕ)
    (hl : lens b ≤ N) (e : List ℕ) :
    evalDual e (LinearChain.core (Autograd.logZ z) N logN lens (leafRow p) b) =
      chainSum (2 ^ logN) fun n i j => mk (cw z (lens b - 1) n i j + lw z (p b) (lens b - 1) n i j)
        (if e = [b, n, (i : ℕ), (j : ℕ)] ∧ n < N - 1 then lw z (p b) (lens b - 1) n i j else 0) := by
  refine core_rel (evalDual_rel z e) hC N logN lens (leafRow p) b _ fun n hn i j => ?_
  have H := (evalDual_rel (E := List ℕ) z e).sum2 (a := maskedC (Autograd.logZ z) (lens b) n i j)
    (b := maskedL (Autograd.logZ z) N (lens b) (leafRow p b) n i j) rfl rfl
  refine H.trans ?_
  have hc : evalDual e (maskedC (Autograd.logZ z) (lens b) n i j) = mk (cw z (lens b - 1) n i j) 0 := by
    simp only [maskedC, SR.fill, Autograd.logZ, Autograd.detach, Autograd.setData, cw]
    by_cases h1 : n < lens b - 1
    · have : ¬ n ≥ lens b - 1 := by omega
      simp [h1, this, evalDual_mk]
    · have : n ≥ lens b - 1 := by omega
      simp only [h1, this, decide_true, Bool.not_true]
      by_cases h2 : i = j
      · simp [h2, evalDual_mk]
      · simp [h2, evalDual_mk]
  have hlw : evalDual e (maskedL (Autograd.logZ z) N (lens b) (leafRow p b) n i j) =
      mk (lw z (p b) (lens b - 1) n i j)
        (if e = [b, n, (i : ℕ), (j : ℕ)] ∧ n < N - 1 then lw z (p b) (lens b - 1) n i j else 0) := by
    simp only [maskedL, SR.fill, Autograd.logZ, Autograd.detach, Autograd.setData, lw, leafRow, Autograd.leaf]
    by_cases h1 : n < lens b - 1
    · have h2 : ¬ n ≥ lens b - 1 := by omega
      have h3 : n < N - 1 := by omega
      simp only [h1, h2, h3, decide_false, if_true, evalDual_mk, Pi.single_apply]
      simp
    · have h2 : n ≥ lens b - 1 := by omega
      simp only [h1, h2, decide_true, if_true, if_false]
      by_cases h3 : n < N - 1
      · simp [h3, evalDual_mk, Pi.single_apply]
      · simp [h3, evalDual_mk]
  rw [hc, hlw, mk_add, zero_add]

/-- A row's gradient is the share of the paths that take the edge through the potentials. -/
theorem row_share (hC : 0 < C) (z : ℝ) {N logN : ℕ} (hN : N - 1 ≤ 2 ^ logN) (lens : ℕ → ℕ) (p : ℕ → ℕ → Fin C → Fin C → ℝ) (b : ℕ)
    (hl : lens b ≤ N) (n0 : ℕ) (hn0 : n0 < N - 1) (i0 j0 : Fin C) :
    let g := (LinearChain.core (Autograd.logZ z) N logN lens (leafRow p) b).2 [b, n0, i0, j0]
    let W : ℕ → Fin C → Fin C → ℝ := fun n i j => cw z (lens b - 1) n i j + lw z (p b) (lens b - 1) n i j
    g = chainSum (2 ^ logN) (only W n0 i0 j0 (lw z (p b) (lens b - 1) n0 i0 j0)) / chainSum (2 ^ logN) W ∧ 0 ≤ g ∧ g ≤ 1 := by
  intro g W
  set L := lens b - 1 with hL
  set M := 2 ^ logN with hM
  have hLM : L ≤ M := by omega
  have key := row_eval hC z (N := N) (logN := logN) lens p b hl [b, n0, i0, j0]
  set v := LinearChain.core (Autograd.logZ z) N logN lens (leafRow p) b with hv
  have hD : ∀ n, n ≠ n0 → ∀ i j : Fin C,
      (if [b, n0, (i0 : ℕ), (j0 : ℕ)] = [b, n, (i : ℕ), (j : ℕ)] ∧ n < N - 1 then lw z (p b) L n i j else 0) = 0 := by
    intro n hn i j
    rw [if_neg]
    rintro ⟨h, _⟩
    simp only [List.cons.injEq] at h
    exact hn h.2.1.symm
  have hW : W = fun n i j => cw z L n i j + lw z (p b) L n i j := rfl
  have k1 : Real.exp v.1 = chainSum M W := by
    have := congrArg TrivSqZeroExt.fst key
    rw [fst_chainSum] at this
    simpa [evalDual, SemiringRel.dual] using this
  have k2 : Real.exp v.1 * g = chainSum M (only W n0 i0 j0 (lw z (p b) L n0 i0 j0)) := by
    have := congrArg TrivSqZeroExt.snd key
    rw [snd_chainSum M n0 (by omega) _ _ hD] at this
    have e : (evalDual [b, n0, (i0 : ℕ), (j0 : ℕ)] v).snd = Real.exp v.1 * g := by
      rw [evalDual, SemiringRel.dual, TrivSqZeroExt.snd_add, TrivSqZeroExt.snd_inl, TrivSqZeroExt.snd_inr, zero_add]
      rfl
    rw [e] at this
    rw [this]
    refine chainSum_congr fun n _ i j => ?_
    simp only [only]
    by_cases h : n = n0
    · subst h
      simp only [if_true, hn0, and_true]
      by_cases h2 : i = i0 ∧ j = j0
      · rw [if_pos h2, h2.1, h2.2, if_pos rfl]
      · rw [if_neg h2, if_neg]
        intro hc
        simp only [List.cons.injEq, true_and, and_true] at hc
        exact h2 ⟨(Fin.ext hc.1).symm, (Fin.ext hc.2).symm⟩
    · rw [if_neg h, if_neg h]
  have hZ0 := chainZ_pos hC (p b) L
  have hZ1 := chainZ_le hC z (p b) L M hLM
  have hpos : 0 < chainSum M W := hZ0.trans_le hZ1
  have hg : g = chainSum M (only W n0 i0 j0 (lw z (p b) L n0 i0 j0)) / chainSum M W := by
    rw [← k1, ← k2]; field_simp
  have hlw0 : ∀ n i j, 0 ≤ lw z (p b) L n i j := fun n i j => by unfold lw; split_ifs <;> positivity
  have hcw0 : ∀ n (i j : Fin C), 0 ≤ cw z L n i j := fun n i j => by unfold cw; split_ifs <;> positivity
  have hW0 : ∀ n i j, 0 ≤ W n i j := fun n i j => add_nonneg (hcw0 n i j) (hlw0 n i j)
  have honly0 : ∀ n < M, ∀ i j, 0 ≤ only W n0 i0 j0 (lw z (p b) L n0 i0 j0) n i j := by
    intro n _ i j; unfold only; split_ifs
    exacts [hlw0 _ _ _, le_rfl, hW0 _ _ _]
  have hA0 : 0 ≤ chainSum M (only W n0 i0 j0 (lw z (p b) L n0 i0 j0)) := chainSum_nonneg honly0
  have hA1 : chainSum M (only W n0 i0 j0 (lw z (p b) L n0 i0 j0)) ≤ chainSum M W := by
    refine chainSum_mono honly0 ?_
    intro n _ i j; unfold only; split_ifs with h1 h2
    · rw [h1, h2.1, h2.2, hW]
      simpa using hcw0 _ _ _
    · exact hW0 _ _ _
    · exact le_rfl
  refine ⟨hg, ?_, ?_⟩
  · rw [hg]; exact div_nonneg hA0 hpos.le
  · rw [hg]; exact (div_le_one hpos).2 hA1

/-- Value and gradient of a row. -/
theorem row_grad (hC : 0 < C) (z m : ℝ) {N logN : ℕ} (hN : N - 1 ≤ 2 ^ logN) (lens : ℕ → ℕ) (p : ℕ → ℕ → Fin C → Fin C → ℝ) (b : ℕ)
    (hl : lens b ≤ N) (hm : ∀ n < lens b - 1, ∀ i j, m ≤ p b n i j) (n0 : ℕ) (hn0 : n0 < N - 1) (i0 j0 : Fin C) :
    let g := (LinearChain.core (Autograd.logZ z) N logN lens (leafRow p) b).2 [b, n0, i0, j0]
    0 ≤ g ∧ g ≤ 1 ∧ |g - edgeProb (lens b - 1) (p b) n0 i0 j0| ≤ slack z m (lens b - 1) (2 ^ logN - (lens b - 1)) C := by
  intro g
  obtain ⟨hg, hg0, hg1⟩ := row_share hC z hN lens p b hl n0 hn0 i0 j0
  set L := lens b - 1 with hL
  set M := 2 ^ logN with hM
  have hLM : L ≤ M := by omega
  set W : ℕ → Fin C → Fin C → ℝ := fun n i j => cw z L n i j + lw z (p b) L n i j with hW
  have hZ0 := chainZ_pos hC (p b) L
  have hZ1 := chainZ_le hC z (p b) L M hLM
  have hlw0 : ∀ n i j, 0 ≤ lw z (p b) L n i j := fun n i j => by unfold lw; split_ifs <;> positivity
  have hcw0 : ∀ n (i j : Fin C), 0 ≤ cw z L n i j := fun n i j => by unfold cw; split_ifs <;> positivity
  refine ⟨hg0, hg1, ?_⟩
  refine le_trans ?_ (growth_le hC z m (p b) L M hLM hm)
  rw [show g = _ from hg]
  by_cases hn : n0 < L
  · have hA := chainSum_only hC (p b) L M hLM n0 hn i0 j0
    have hprob : edgeProb L (p b) n0 i0 j0 =
        chainSum M (only (tw (p b) L) n0 i0 j0 (Real.exp (p b n0 i0 j0))) / chainZ L (p b) := by
      rw [hA, sum_div]
      refine sum_congr rfl fun y _ => ?_
      split_ifs
      · rfl
      · simp
    rw [hprob]
    have hlw : lw z (p b) L n0 i0 j0 = Real.exp (p b n0 i0 j0) := by simp [lw, hn]
    have htw : tw (p b) L n0 i0 j0 = Real.exp (p b n0 i0 j0) := by simp [tw, hn]
    have hs := share_sandwich (M := M) (n0 := n0) (by omega) i0 j0 (T := tw (p b) L) (W := W)
      (fun n _ i j => tw_nonneg _ _ _ _ _) (fun n _ i j => tw_le _ _ _ _ _ _) (t := Real.exp (p b n0 i0 j0))
      (b := lw z (p b) L n0 i0 j0) (Real.exp_pos _).le hlw.ge htw.ge (by
        rw [htw, hW]; simp only [sub_self, add_sub_cancel_right]; exact hcw0 _ _ _)
    rw [chainSum_tw hC (p b) L M hLM] at hs
    refine ratio_sandwich hZ0 hZ1 ?_ ?_ hs.1 hs.2
    · rw [hA]; exact sum_nonneg fun y _ => by split_ifs <;> positivity
    · rw [hA, chainZ]; exact sum_le_sum fun y _ => by split_ifs <;> [exact le_rfl; positivity]
  · have hprob : edgeProb L (p b) n0 i0 j0 = 0 := by
      refine sum_eq_zero fun y _ => if_neg ?_
      rintro ⟨h, _⟩; exact hn h
    have hlw : lw z (p b) L n0 i0 j0 = Real.exp z := by simp [lw, hn]
    have hs := share_sandwich (M := M) (n0 := n0) (by omega) i0 j0 (T := tw (p b) L) (W := W)
      (fun n _ i j => tw_nonneg _ _ _ _ _) (fun n _ i j => tw_le _ _ _ _ _ _) (t := 0)
      (b := lw z (p b) L n0 i0 j0) le_rfl (hlw0 _ _ _) (tw_nonneg _ _ _ _ _) (by
        rw [hW]; simp only [sub_zero, add_sub_cancel_right, tw, hn, if_false, cw]
        split_ifs <;> [exact le_rfl; positivity])
    rw [chainSum_tw hC (p b) L M hLM] at hs
    have hz : chainSum M (only (tw (p b) L) n0 i0 j0 0) = 0 := by
      refine sum_eq_zero fun y _ => prod_eq_zero (mem_univ (⟨n0, by omega⟩ : Fin M)) ?_
      simp [only]
    rw [hprob, ← zero_div (chainZ L (p b)), ← hz]
    refine ratio_sandwich hZ0 hZ1 hz.ge (by rw [hz]; exact hZ0.le) hs.1 hs.2

/-- A row's gradient does not involve other rows. -/
theorem row_grad_other (hC : 0 < C) (z : ℝ) {N logN : ℕ} (lens : ℕ → ℕ) (p : ℕ → ℕ → Fin C → Fin C → ℝ) (b b' : ℕ)
    (hl : lens b' ≤ N) (hb : b ≠ b') (n i j : ℕ) :
    (LinearChain.core (Autograd.logZ z) N logN lens (leafRow p) b').2 [b, n, i, j] = 0 := by
  have key := row_eval hC z (N := N) (logN := logN) lens p b' hl [b, n, i, j]
  have e : ∀ n' (i' j' : Fin C), (if [b, n, i, j] = [b', n', (i' : ℕ), (j' : ℕ)] ∧ n' < N - 1 then
      lw z (p b') (lens b' - 1) n' i' j' else 0) = 0 := by
    intro n' i' j'
    rw [if_neg]; rintro ⟨h, _⟩
    simp only [List.cons.injEq] at h
    exact hb h.1
  simp only [e] at key
  have := congrArg TrivSqZeroExt.snd key
  rw [snd_chainSum_zero] at this
  simpa [evalDual, SemiringRel.dual] using this

end LinearChainLog
