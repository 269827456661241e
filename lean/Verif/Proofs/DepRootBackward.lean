import Verif.Model.DepRootBackward
import Verif.Proofs.DepBackwardDual

/-! A closed form of the backward pass of `DependencyCRF.marginals` with a single root. -/

open Finset DepRootBackward
open DepBackward (Adj start)
open DepBackwardProofs (Factors Ioo_step Ioo_last)
open TreeBackwardProofs (fl tmul fl_add fl_mul)

noncomputable section
namespace DepRootBackwardProofs

variable (N L : ℕ) (τ : Factors)

/-- The gradient of the arc from the root to `j`; the factors of the sum over the words below the root are those of spans that begin at node 0. -/
def seed (j : ℕ) : WithTop ℝ := ∑ k ∈ Ico j N, tmul (if k = L then 1 else 0) (τ.r 0 k j)

mutual
/-- The gradient that arrives at the sum over the divisions of the words between `i` and `j`: from the arcs in both directions. -/
def hX (i j : ℕ) : WithTop ℝ :=
  ∑ j' ∈ (Ico j N).attach, tmul (hR i j'.1) (τ.r i j'.1 j) + ∑ i' ∈ (Ico 1 (i + 1)).attach, tmul (hL i'.1 j) (τ.l i'.1 j i)
termination_by 2 * (i + (N - j)) + 1
decreasing_by
  · have := mem_Ico.1 j'.2; omega
  · have := mem_Ico.1 i'.2; omega
/-- The gradient that arrives at the complete span with head `i` and last word `j`. -/
def hR (i j : ℕ) : WithTop ℝ :=
  ∑ j' ∈ (Ioo j N).attach, tmul (hX i j'.1) (τ.x i j'.1 j) + (tmul (if j = L then 1 else 0) (τ.r 0 j i) + ∑ i' ∈ (Ico 1 i).attach, tmul (hR i'.1 j) (τ.r i'.1 j i))
termination_by 2 * (i + (N - j))
decreasing_by
  · have := mem_Ioo.1 j'.2; omega
  · have := mem_Ico.1 i'.2; omega
/-- The gradient that arrives at the complete span with head `j` and first word `i`. -/
def hL (i j : ℕ) : WithTop ℝ :=
  ((if i = 1 then seed N L τ j else 0) + ∑ j' ∈ (Ioo j N).attach, tmul (hL i j'.1) (τ.l i j'.1 j)) + ∑ i' ∈ (Ico 1 i).attach, tmul (hX i'.1 j) (τ.x i'.1 j (i - 1))
termination_by 2 * (i + (N - j))
decreasing_by
  · have := mem_Ioo.1 j'.2; omega
  · have := mem_Ico.1 i'.2; omega
end

/-- The gradient of the arc from `i` to `j`. -/
def hIR (i j : ℕ) : WithTop ℝ := ∑ j' ∈ Ico j N, tmul (hR N L τ i j') (τ.r i j' j)

/-- The gradient of the arc from `j` to `i`. -/
def hIL (i j : ℕ) : WithTop ℝ := ∑ i' ∈ Ico 1 (i + 1), tmul (hL N L τ i' j) (τ.l i' j i)

theorem hX_eq (i j : ℕ) : hX N L τ i j = hIR N L τ i j + hIL N L τ i j := by
  rw [hX, sum_attach (Ico j N) fun j' => tmul (hR N L τ i j') (τ.r i j' j), sum_attach (Ico 1 (i + 1)) fun i' => tmul (hL N L τ i' j) (τ.l i' j i), hIR, hIL]

theorem hR_eq (i j : ℕ) : hR N L τ i j = ∑ j' ∈ Ioo j N, tmul (hX N L τ i j') (τ.x i j' j) +
    (tmul (if j = L then 1 else 0) (τ.r 0 j i) + ∑ i' ∈ Ico 1 i, tmul (hR N L τ i' j) (τ.r i' j i)) := by
  rw [hR, sum_attach (Ioo j N) fun j' => tmul (hX N L τ i j') (τ.x i j' j), sum_attach (Ico 1 i) fun i' => tmul (hR N L τ i' j) (τ.r i' j i)]

theorem hL_eq (i j : ℕ) : hL N L τ i j = ((if i = 1 then seed N L τ j else 0) + ∑ j' ∈ Ioo j N, tmul (hL N L τ i j') (τ.l i j' j)) +
    ∑ i' ∈ Ico 1 i, tmul (hX N L τ i' j) (τ.x i' j (i - 1)) := by
  rw [hL, sum_attach (Ioo j N) fun j' => tmul (hL N L τ i j') (τ.l i j' j), sum_attach (Ico 1 i) fun i' => tmul (hX N L τ i' j) (τ.x i' j (i - 1))]

variable {N L τ} {σ : Slope} {batch b : ℕ} {arc : ℕ → ℕ → ℕ → EReal} {lens : List ℕ}

/-- What has arrived when the iterations after `k` are undone; the numbers differ inside an iteration. -/
structure Stage (N L b : ℕ) (τ : Factors) (kr kl kx ki kj : ℕ) (top : ℕ) (g : Adj) : Prop where
  acr : ∀ i v, 1 ≤ i → v ≤ kr → i + v < N → g.acr b i v = fl (∑ j' ∈ Ioo (i + kx) N, tmul (hX N L τ i j') (τ.x i j' (i + v)))
  bcr : ∀ i v, 1 ≤ i → v ≤ kr → i + v < N → g.bcr b (i + v) (N - 1 - v) =
    fl (tmul (if i + v = L then 1 else 0) (τ.r 0 (i + v) i) + ∑ i' ∈ Ico 1 (i + v - kr), tmul (hR N L τ i' (i + v)) (τ.r i' (i + v) i))
  acl : ∀ i v, 1 ≤ i → v ≤ kl → i + v < N → g.acl b i v =
    fl ((if i = 1 then seed N L τ (i + v) else 0) + ∑ j' ∈ Ioo (i + kl) N, tmul (hL N L τ i j') (τ.l i j' (i + v)))
  bcl : ∀ i v, 1 ≤ i → v ≤ kl → i + v < N → g.bcl b (i + v) (N - 1 - v) = fl (∑ i' ∈ Ico 1 (i + v - kx), tmul (hX N L τ i' (i + v)) (τ.x i' (i + v) (i - 1)))
  air : ∀ i v, 1 ≤ i → 1 ≤ v → v ≤ ki → i + v < N → g.air b i v = fl (∑ j' ∈ Ioo (i + kr) N, tmul (hR N L τ i j') (τ.r i j' (i + v)))
  bil : ∀ i v, 1 ≤ i → 1 ≤ v → v ≤ kj → i + v < N → g.bil b (i + v) (N - 1 - v) = fl (∑ i' ∈ Ico 1 (i + v - kl), tmul (hL N L τ i' (i + v)) (τ.l i' (i + v) i))
  arcR : ∀ i j, 1 ≤ i → i + top < j → j < N → g.arc b i j = fl (hIR N L τ i j)
  arcL : ∀ i j, 1 ≤ i → i + top < j → j < N → g.arc b j i = fl (hIL N L τ i j)
  rest : ∀ i j, 1 ≤ i → 1 ≤ j → (j ≤ i + top ∨ N ≤ j) → (i ≤ j + top ∨ N ≤ i) → g.arc b i j = fl 0
  root : ∀ j, 1 ≤ j → j < N → g.arc b 0 j = fl (seed N L τ j)

/-- The factors of the model are `τ`. -/
structure Agree (σ : Slope) (N b : ℕ) (arc : ℕ → ℕ → ℕ → EReal) (τ : Factors) : Prop where
  x : ∀ i k u, 1 ≤ i → u < k → i + k < N → factorX σ N arc k b i u = fl (τ.x i (i + k) (i + u))
  r : ∀ i k u, 1 ≤ i → u < k → i + k < N → factorR σ N arc k b i u = fl (τ.r i (i + k) (i + u + 1))
  l : ∀ i k u, 1 ≤ i → u < k → i + k < N → factorL σ N arc k b i u = fl (τ.l i (i + k) (i + u))
  root : ∀ k u, u < k → k < N → factorRoot σ N arc k b u = fl (τ.r 0 k (u + 1))

theorem stageR (hτ : Agree σ N b arc τ) {k : ℕ} {g : Adj} (h : Stage N L b τ (k + 1) (k + 1) (k + 1) (k + 1) (k + 1) (k + 1) g) :
    Stage N L b τ k (k + 1) (k + 1) (k + 1) (k + 1) (k + 1) (backR σ N arc g (k + 1)) := by
  have hnew : ∀ i, 1 ≤ i → i + (k + 1) < N → IEEE.add (g.acr b i (k + 1)) (g.bcr b (i + (k + 1)) (N - (k + 1) - 1)) = fl (hR N L τ i (i + (k + 1))) := by
    intro i h1 hi
    have e : N - (k + 1) - 1 = N - 1 - (k + 1) := by omega
    rw [e, h.acr i _ h1 le_rfl hi, h.bcr i _ h1 le_rfl hi, fl_add, Nat.add_sub_cancel, ← hR_eq]
  refine ⟨?_, ?_, h.acl, h.bcl, ?_, h.bil, h.arcR, h.arcL, h.rest, h.root⟩
  · intro i v h1 hv hi
    simp only [backR, clearA]
    rw [if_neg (by omega), h.acr i v h1 (by omega) hi]
  · intro i v hi1 hv hi
    simp only [backR, addB, clearB]
    by_cases h1 : k + 1 + 1 ≤ i + v
    · rw [if_pos ⟨h1, hi, by omega, by omega⟩, if_neg (by omega), h.bcr i v hi1 (by omega) hi]
      have hn := hnew (i + v - (k + 1)) (by omega) (by omega)
      have hr := hτ.r (i + v - (k + 1)) (k + 1) (N - 1 - v - (N - (k + 1))) (by omega) (by omega) (by omega)
      have e1 : i + v - (k + 1) + (k + 1) = i + v := by omega
      have e2 : i + v - (k + 1) + (N - 1 - v - (N - (k + 1))) + 1 = i := by omega
      rw [e1] at hn hr
      rw [e2] at hr
      have e4 : i + v - k = (i + v - (k + 1)) + 1 := by omega
      rw [e1, hn, hr, fl_mul, fl_add, e4, sum_Ico_succ_top (by omega), add_assoc]
    · rw [if_neg (by omega), if_neg (by omega), h.bcr i v hi1 (by omega) hi]
      rw [Ico_eq_empty (by omega), Ico_eq_empty (by omega)]
  · intro i v hi1 hv1 hv hi
    simp only [backR, addA]
    by_cases h1 : i + (k + 1) < N
    · rw [if_pos ⟨hi1, by omega, hv1, by omega⟩, h.air i v hi1 hv1 hv hi, hnew i hi1 h1, hτ.r i (k + 1) (v - 1) hi1 (by omega) h1]
      have e : i + (v - 1) + 1 = i + v := by omega
      have e2 : i + (k + 1) = i + k + 1 := by omega
      rw [e, fl_mul, fl_add, Ioo_step (a := i + k) (by omega), sum_insert (by simp), add_comm, e2]
    · rw [if_neg (by omega), h.air i v hi1 hv1 hv hi, Ioo_last (a := i + k) (by omega), Ioo_last (a := i + (k + 1)) (by omega)]

theorem stageL (hτ : Agree σ N b arc τ) {k : ℕ} {g : Adj} (h : Stage N L b τ k (k + 1) (k + 1) (k + 1) (k + 1) (k + 1) g) :
    Stage N L b τ k k (k + 1) (k + 1) (k + 1) (k + 1) (backL σ N arc g (k + 1)) := by
  have hnew : ∀ i, 1 ≤ i → i + (k + 1) < N → IEEE.add (g.acl b i (k + 1)) (g.bcl b (i + (k + 1)) (N - (k + 1) - 1)) = fl (hL N L τ i (i + (k + 1))) := by
    intro i h1 hi
    have e : N - (k + 1) - 1 = N - 1 - (k + 1) := by omega
    rw [e, h.acl i _ h1 le_rfl hi, h.bcl i _ h1 le_rfl hi, fl_add, Nat.add_sub_cancel, ← hL_eq]
  refine ⟨h.acr, h.bcr, ?_, ?_, h.air, ?_, h.arcR, h.arcL, h.rest, h.root⟩
  · intro i v hi1 hv hi
    simp only [backL, addA, clearA]
    by_cases h1 : i + (k + 1) < N
    · rw [if_pos ⟨hi1, by omega, by omega, by omega⟩, if_neg (by omega), h.acl i v hi1 (by omega) hi, hnew i hi1 h1, Nat.sub_zero, hτ.l i (k + 1) v hi1 (by omega) h1]
      have e2 : i + (k + 1) = i + k + 1 := by omega
      rw [fl_mul, fl_add, Ioo_step (a := i + k) (by omega), sum_insert (by simp), e2, add_assoc]
      congr 2
      rw [add_comm]
    · rw [if_neg (by omega), if_neg (by omega), h.acl i v hi1 (by omega) hi, Ioo_last (a := i + k) (by omega), Ioo_last (a := i + (k + 1)) (by omega)]
  · intro i v hi1 hv hi
    simp only [backL, clearB]
    rw [if_neg (by omega), h.bcl i v hi1 (by omega) hi]
  · intro i v hi1 hv1 hv hi
    simp only [backL, addB]
    by_cases h1 : k + 1 + 1 ≤ i + v
    · rw [if_pos ⟨h1, hi, by omega, by omega⟩, h.bil i v hi1 hv1 hv hi]
      have hn := hnew (i + v - (k + 1)) (by omega) (by omega)
      have hr := hτ.l (i + v - (k + 1)) (k + 1) (N - 1 - v - (N - (k + 1) - 1)) (by omega) (by omega) (by omega)
      have e1 : i + v - (k + 1) + (k + 1) = i + v := by omega
      have e2 : i + v - (k + 1) + (N - 1 - v - (N - (k + 1) - 1)) = i := by omega
      rw [e1] at hn hr
      rw [e2] at hr
      have e4 : i + v - k = (i + v - (k + 1)) + 1 := by omega
      rw [e1, hn, hr, fl_mul, fl_add, e4, sum_Ico_succ_top (by omega)]
    · rw [if_neg (by omega), h.bil i v hi1 hv1 hv hi]
      rw [Ico_eq_empty (by omega), Ico_eq_empty (by omega)]

theorem stageI (hτ : Agree σ N b arc τ) {k : ℕ} {g : Adj} (h : Stage N L b τ k k (k + 1) (k + 1) (k + 1) (k + 1) g) :
    Stage N L b τ k k k k k k (backI σ N arc g (k + 1)) := by
  have hR : ∀ i, 1 ≤ i → i + (k + 1) < N → g.air b i (k + 1) = fl (hIR N L τ i (i + (k + 1))) := by
    intro i h1 hi
    rw [h.air i (k + 1) h1 (by omega) le_rfl hi, hIR]
    have e : Ioo (i + k) N = Ico (i + (k + 1)) N := by ext x; simp only [mem_Ioo, mem_Ico]; omega
    rw [e]
  have hL : ∀ i, 1 ≤ i → i + (k + 1) < N → g.bil b (i + (k + 1)) (N - (k + 1) - 1) = fl (hIL N L τ i (i + (k + 1))) := by
    intro i h1 hi
    have e : N - (k + 1) - 1 = N - 1 - (k + 1) := by omega
    rw [e, h.bil i (k + 1) h1 (by omega) le_rfl hi, hIL]
    have e : i + (k + 1) - k = i + 1 := by omega
    rw [e]
  have hx : ∀ i, 1 ≤ i → i + (k + 1) < N → IEEE.add (g.air b i (k + 1)) (g.bil b (i + (k + 1)) (N - (k + 1) - 1)) = fl (hX N L τ i (i + (k + 1))) := by
    intro i h1 hi
    rw [hR i h1 hi, hL i h1 hi, fl_add, hX_eq]
  refine ⟨?_, h.bcr, h.acl, ?_, ?_, ?_, ?_, ?_, ?_, ?_⟩
  · intro i v hi1 hv hi
    simp only [backI, addA]
    by_cases h1 : i + (k + 1) < N
    · rw [if_pos ⟨hi1, by omega, by omega, by omega⟩, h.acr i v hi1 (by omega) hi, hx i hi1 h1, Nat.sub_zero, hτ.x i (k + 1) v hi1 (by omega) h1]
      have e2 : i + (k + 1) = i + k + 1 := by omega
      rw [fl_mul, fl_add, Ioo_step (a := i + k) (by omega), sum_insert (by simp), e2, add_comm]
    · rw [if_neg (by omega), h.acr i v hi1 (by omega) hi, Ioo_last (a := i + k) (by omega), Ioo_last (a := i + (k + 1)) (by omega)]
  · intro i v hi1 hv hi
    simp only [backI, addB]
    by_cases h1 : k + 1 + 1 ≤ i + v
    · rw [if_pos ⟨h1, hi, by omega, by omega⟩, h.bcl i v hi1 hv hi]
      have hn := hx (i + v - (k + 1)) (by omega) (by omega)
      have hr := hτ.x (i + v - (k + 1)) (k + 1) (N - 1 - v - (N - (k + 1))) (by omega) (by omega) (by omega)
      have e1 : i + v - (k + 1) + (k + 1) = i + v := by omega
      have e2 : i + v - (k + 1) + (N - 1 - v - (N - (k + 1))) = i - 1 := by omega
      rw [e1] at hn hr
      rw [e2] at hr
      have e4 : i + v - k = (i + v - (k + 1)) + 1 := by omega
      rw [e1, hn, hr, fl_mul, fl_add, e4, sum_Ico_succ_top (by omega)]
    · rw [if_neg (by omega), h.bcl i v hi1 hv hi]
      rw [Ico_eq_empty (by omega), Ico_eq_empty (by omega)]
  · intro i v hi1 hv1 hv hi
    simp only [backI, clearA]
    rw [if_neg (by omega), h.air i v hi1 hv1 (by omega) hi]
  · intro i v hi1 hv1 hv hi
    simp only [backI, clearB]
    rw [if_neg (by omega), h.bil i v hi1 hv1 (by omega) hi]
  · intro i j hi1 hij hj
    simp only [backI]
    by_cases h1 : j = i + (k + 1)
    · subst h1
      rw [if_pos ⟨hi1, by omega, rfl⟩, h.rest _ _ hi1 (by omega) (Or.inl le_rfl) (Or.inl (by omega)), hR i hi1 hj, fl_add, zero_add]
    · rw [if_neg (by omega), if_neg (by omega), h.arcR i j hi1 (by omega) hj]
  · intro i j hi1 hij hj
    simp only [backI]
    by_cases h1 : j = i + (k + 1)
    · subst h1
      rw [if_neg (by omega), if_pos ⟨hi1, by omega, rfl⟩, h.rest _ _ (by omega) hi1 (Or.inl (by omega)) (Or.inl le_rfl), hL i hi1 hj, fl_add, zero_add]
    · rw [if_neg (by omega), if_neg (by omega), h.arcL i j hi1 (by omega) hj]
  · intro i j hi1 hj1 h1 h2
    simp only [backI]
    rw [if_neg (by omega), if_neg (by omega), h.rest i j hi1 hj1 (by omega) (by omega)]
  · intro j h1 hj
    simp only [backI]
    rw [if_neg (by omega), if_neg (by omega), h.root j h1 hj]

/-- What has arrived when the iterations after `k` of the loop over the words below the root are undone. -/
structure RootStage (N L b : ℕ) (τ : Factors) (k : ℕ) (g : Adj × (ℕ → ℕ → IEEE)) : Prop where
  acr0 : ∀ w, 1 ≤ w → w ≤ k → g.1.acr b 0 w = fl (if w = L then 1 else 0)
  acr : ∀ i v, 1 ≤ i → g.1.acr b i v = fl 0
  bcr : ∀ i v, 1 ≤ i → i + v < N → g.1.bcr b (i + v) (N - 1 - v) = fl (if k < i + v then tmul (if i + v = L then 1 else 0) (τ.r 0 (i + v) i) else 0)
  zero : (∀ i v, g.1.acl b i v = fl 0) ∧ (∀ i v, g.1.bcl b i v = fl 0) ∧ (∀ i v, g.1.air b i v = fl 0) ∧ (∀ i v, g.1.bil b i v = fl 0) ∧ ∀ i v, g.1.arc b i v = fl 0
  span : ∀ m, m + 1 < N → g.2 b m = fl (∑ w ∈ Ioo (max k m) N, tmul (if w = L then 1 else 0) (τ.r 0 w (m + 1)))

theorem root_start (hb : b < batch) (hL : lens.getD b 0 = L) : RootStage N L b τ (N - 1) (start batch lens, fun _ _ => .ofReal 0) where
  acr0 w h1 h2 := by
    simp only [start, hL]
    by_cases h : w = L
    · rw [if_pos ⟨hb, trivial, h⟩, if_pos h]; rfl
    · rw [if_neg (by omega), if_neg h]; rfl
  acr i v h1 := by simp only [start]; rw [if_neg (by omega)]; rfl
  bcr i v h1 hi := by rw [if_neg (by omega)]; rfl
  zero := ⟨fun _ _ => rfl, fun _ _ => rfl, fun _ _ => rfl, fun _ _ => rfl, fun _ _ => rfl⟩
  span m hm := by
    have : Ioo (max (N - 1) m) N = ∅ := Ioo_last (by omega)
    rw [this]; rfl

theorem root_step (hτ : Agree σ N b arc τ) {k : ℕ} (hk : k + 1 < N) {g : Adj × (ℕ → ℕ → IEEE)} (h : RootStage N L b τ (k + 1) g) :
    RootStage N L b τ k (backRoot σ N arc g (k + 1)) where
  acr0 w h1 h2 := by
    simp only [backRoot]
    rw [if_neg (by omega), h.acr0 w h1 (by omega)]
  acr i v h1 := by
    simp only [backRoot]
    rw [if_neg (by omega), h.acr i v h1]
  bcr i v h1 hi := by
    simp only [backRoot]
    by_cases he : i + v = k + 1
    · rw [if_pos ⟨he, by omega, by omega⟩, h.bcr i v h1 hi, if_neg (by omega), if_pos (by omega), h.acr0 _ (by omega) le_rfl, hτ.root _ _ (by omega) (by omega), fl_mul, fl_add, zero_add]
      have e : N - 1 - v - (N - (k + 1)) + 1 = i := by omega
      rw [e, he]
    · rw [if_neg (by omega), h.bcr i v h1 hi]
      by_cases h2 : k < i + v
      · rw [if_pos h2, if_pos (by omega)]
      · rw [if_neg h2, if_neg (by omega)]
  zero := h.zero
  span m hm := by
    simp only [backRoot]
    by_cases h1 : m < k + 1
    · rw [if_pos h1, h.span m hm, h.acr0 _ (by omega) le_rfl, hτ.root _ _ h1 hk, fl_mul, fl_add]
      have e1 : max (k + 1) m = k + 1 := by omega
      have e2 : max k m = k := by omega
      rw [e1, e2, Ioo_step (a := k) hk, sum_insert (by simp), add_comm]
    · rw [if_neg h1, h.span m hm]
      have e1 : max (k + 1) m = m := by omega
      have e2 : max k m = m := by omega
      rw [e1, e2]

theorem root_stage (hτ : Agree σ N b arc τ) (hb : b < batch) (hL : lens.getD b 0 = L) : RootStage N L b τ 0 (rootLoop σ batch N arc lens) := by
  rw [rootLoop, List.foldl_reverse, List.range_eq_range']
  have key : ∀ m k, k + m = N - 1 → RootStage N L b τ k ((List.range' k m).foldr (fun w g => backRoot σ N arc g (w + 1)) (start batch lens, fun _ _ => .ofReal 0)) := by
    intro m
    induction m with
    | zero => intro k hk; obtain rfl : k = N - 1 := by omega
              exact root_start hb hL
    | succ m ih =>
      intro k hk
      rw [List.range'_succ, List.foldr_cons]
      exact root_step hτ (by omega) (ih (k + 1) (by omega))
  exact key (N - 1) 0 (by omega)

theorem stage_start (hN : 2 ≤ N) {g : Adj × (ℕ → ℕ → IEEE)} (h : RootStage N L b τ 0 g) : Stage N L b τ (N - 2) (N - 2) (N - 2) (N - 2) (N - 2) (N - 2) (backSpan N g) := by
  have hs : ∀ m, m + 1 < N → g.2 b m = fl (seed N L τ (m + 1)) := by
    intro m hm
    rw [h.span m hm, seed]
    have e : Ioo (max 0 m) N = Ico (m + 1) N := by ext x; simp only [mem_Ioo, mem_Ico]; omega
    rw [e]
  obtain ⟨z1, z2, z3, z4, z5⟩ := h.zero
  have e1 : ∀ i, 1 ≤ i → Ioo (i + (N - 2)) N = ∅ := fun i h => Ioo_last (by omega)
  have e2 : ∀ i v, i + v < N → Ico 1 (i + v - (N - 2)) = ∅ := fun i v h => Ico_eq_empty (by omega)
  refine ⟨?_, ?_, ?_, ?_, ?_, ?_, fun i j _ _ _ => by omega, fun i j _ _ _ => by omega, ?_, ?_⟩
  · intro i v h1 _ hi
    simp only [backSpan]
    rw [h.acr i v h1, e1 i h1, sum_empty]
  · intro i v h1 _ hi
    simp only [backSpan]
    rw [h.bcr i v h1 hi, if_pos (by omega), e2 i v hi, sum_empty, add_zero]
  · intro i v h1 hv hi
    simp only [backSpan]
    by_cases he : i = 1
    · subst he
      rw [if_pos ⟨rfl, by omega⟩, z1, hs v (by omega), fl_add, zero_add, if_pos rfl, e1 1 le_rfl, sum_empty, add_zero, add_comm v]
    · rw [if_neg (by omega), z1, if_neg he, e1 i h1, sum_empty, add_zero]
  · intro i v h1 _ hi
    simp only [backSpan]
    rw [z2, e2 i v hi, sum_empty]
  · intro i v h1 _ _ hi
    simp only [backSpan]
    rw [z3, e1 i h1, sum_empty]
  · intro i v h1 _ _ hi
    simp only [backSpan]
    rw [z4, e2 i v hi, sum_empty]
  · intro i j h1 _ _ _
    simp only [backSpan]
    rw [if_neg (by omega), z5]
  · intro j h1 hj
    simp only [backSpan]
    rw [if_pos ⟨trivial, h1, hj⟩, z5, hs (j - 1) (by omega), fl_add, zero_add]
    have e : j - 1 + 1 = j := by omega
    rw [e]

theorem stage_zero (hN : 2 ≤ N) (hτ : Agree σ N b arc τ) (hb : b < batch) (hL : lens.getD b 0 = L) : Stage N L b τ 0 0 0 0 0 0 (backLoop σ batch N arc lens) := by
  rw [backLoop, List.foldl_reverse, List.range_eq_range']
  have key : ∀ m k, k + m = N - 2 → Stage N L b τ k k k k k k ((List.range' k m).foldr (fun w g => backStep σ N arc g (w + 1)) (backSpan N (rootLoop σ batch N arc lens))) := by
    intro m
    induction m with
    | zero => intro k hk; obtain rfl : k = N - 2 := by omega
              exact stage_start hN (root_stage hτ hb hL)
    | succ m ih =>
      intro k hk
      rw [List.range'_succ, List.foldr_cons]
      exact stageI hτ (stageL hτ (stageR hτ (ih (k + 1) (by omega))))
  exact key (N - 2) 0 (by omega)

/-- **The gradient of the arcs.** -/
theorem arc_grad (hτ : Agree σ N b arc τ) (hb : b < batch) (hL : lens.getD b 0 = L) {i j : ℕ} (hi : 1 ≤ i) (hij : i < j) (hj : j < N) :
    (backLoop σ batch N arc lens).arc b i j = fl (hIR N L τ i j) ∧ (backLoop σ batch N arc lens).arc b j i = fl (hIL N L τ i j) :=
  ⟨(stage_zero (by omega) hτ hb hL).arcR i j hi (by omega) hj, (stage_zero (by omega) hτ hb hL).arcL i j hi (by omega) hj⟩

theorem root_grad (hτ : Agree σ N b arc τ) (hb : b < batch) (hL : lens.getD b 0 = L) {j : ℕ} (h1 : 1 ≤ j) (hj : j < N) :
    (backLoop σ batch N arc lens).arc b 0 j = fl (seed N L τ j) := (stage_zero (by omega) hτ hb hL).root j h1 hj

end DepRootBackwardProofs
