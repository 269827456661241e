import Verif.Model.DepBackward
import Verif.Proofs.TreeBackward

/-! A closed form of the backward pass of `DependencyCRF.marginals`. -/

open Finset DepBackward
open TreeBackwardProofs (fl tmul fl_add fl_mul)

noncomputable section
namespace DepBackwardProofs

/-- The factors of the three kinds of sums: span, and where it is divided. -/
structure Factors where
  (x r l : ℕ → ℕ → ℕ → WithTop ℝ)

variable (N L : ℕ) (τ : Factors)

mutual
/-- The gradient that arrives at the sum over the divisions of the words between `i` and `j`: from the arcs in both directions. -/
def gX (i j : ℕ) : WithTop ℝ :=
  ∑ j' ∈ (Ico j N).attach, tmul (gR i j'.1) (τ.r i j'.1 j) + ∑ i' ∈ (range (i + 1)).attach, tmul (gL i'.1 j) (τ.l i'.1 j i)
termination_by 2 * (i + (N - j)) + 1
decreasing_by
  · have := mem_Ico.1 j'.2; omega
  · have := mem_range.1 i'.2; omega
/-- The gradient that arrives at the complete span with head `i` and last word `j`. -/
def gR (i j : ℕ) : WithTop ℝ :=
  (if i = 0 ∧ j = L then 1 else 0) + ∑ j' ∈ (Ioo j N).attach, tmul (gX i j'.1) (τ.x i j'.1 j) + ∑ i' ∈ (range i).attach, tmul (gR i'.1 j) (τ.r i'.1 j i)
termination_by 2 * (i + (N - j))
decreasing_by
  · have := mem_Ioo.1 j'.2; omega
  · have := mem_range.1 i'.2; omega
/-- The gradient that arrives at the complete span with head `j` and first word `i`. -/
def gL (i j : ℕ) : WithTop ℝ :=
  ∑ j' ∈ (Ioo j N).attach, tmul (gL i j'.1) (τ.l i j'.1 j) + ∑ i' ∈ (range i).attach, tmul (gX i'.1 j) (τ.x i'.1 j (i - 1))
termination_by 2 * (i + (N - j))
decreasing_by
  · have := mem_Ioo.1 j'.2; omega
  · have := mem_range.1 i'.2; omega
end

/-- The gradient of the arc from `i` to `j`. -/
def gIR (i j : ℕ) : WithTop ℝ := ∑ j' ∈ Ico j N, tmul (gR N L τ i j') (τ.r i j' j)

/-- The gradient of the arc from `j` to `i`. -/
def gIL (i j : ℕ) : WithTop ℝ := ∑ i' ∈ range (i + 1), tmul (gL N L τ i' j) (τ.l i' j i)

theorem gX_eq (i j : ℕ) : gX N L τ i j = gIR N L τ i j + gIL N L τ i j := by
  rw [gX, sum_attach (Ico j N) fun j' => tmul (gR N L τ i j') (τ.r i j' j), sum_attach (range (i + 1)) fun i' => tmul (gL N L τ i' j) (τ.l i' j i), gIR, gIL]

theorem gR_eq (i j : ℕ) : gR N L τ i j = (if i = 0 ∧ j = L then 1 else 0) + ∑ j' ∈ Ioo j N, tmul (gX N L τ i j') (τ.x i j' j) +
    ∑ i' ∈ range i, tmul (gR N L τ i' j) (τ.r i' j i) := by
  rw [gR, sum_attach (Ioo j N) fun j' => tmul (gX N L τ i j') (τ.x i j' j), sum_attach (range i) fun i' => tmul (gR N L τ i' j) (τ.r i' j i)]

theorem gL_eq (i j : ℕ) : gL N L τ i j = ∑ j' ∈ Ioo j N, tmul (gL N L τ i j') (τ.l i j' j) +
    ∑ i' ∈ range i, tmul (gX N L τ i' j) (τ.x i' j (i - 1)) := by
  rw [gL, sum_attach (Ioo j N) fun j' => tmul (gL N L τ i j') (τ.l i j' j), sum_attach (range i) fun i' => tmul (gX N L τ i' j) (τ.x i' j (i - 1))]

variable {N L τ} {σ : Slope} {batch b : ℕ} {arc : ℕ → ℕ → ℕ → EReal} {lens : List ℕ}

/-- What has arrived when the iterations after `k` are undone; `ki` differs from `k` inside an iteration. -/
structure Stage (N L b : ℕ) (τ : Factors) (kr kl kx ki kj : ℕ) (top : ℕ) (g : Adj) : Prop where
  acr : ∀ i v, v ≤ kr → i + v < N → g.acr b i v = fl ((if i = 0 ∧ i + v = L then 1 else 0) + ∑ j' ∈ Ioo (i + kx) N, tmul (gX N L τ i j') (τ.x i j' (i + v)))
  bcr : ∀ i v, v ≤ kr → i + v < N → g.bcr b (i + v) (N - 1 - v) = fl (∑ i' ∈ range (i + v - kr), tmul (gR N L τ i' (i + v)) (τ.r i' (i + v) i))
  acl : ∀ i v, v ≤ kl → i + v < N → g.acl b i v = fl (∑ j' ∈ Ioo (i + kl) N, tmul (gL N L τ i j') (τ.l i j' (i + v)))
  bcl : ∀ i v, v ≤ kl → i + v < N → g.bcl b (i + v) (N - 1 - v) = fl (∑ i' ∈ range (i + v - kx), tmul (gX N L τ i' (i + v)) (τ.x i' (i + v) (i - 1)))
  air : ∀ i v, 1 ≤ v → v ≤ ki → i + v < N → g.air b i v = fl (∑ j' ∈ Ioo (i + kr) N, tmul (gR N L τ i j') (τ.r i j' (i + v)))
  bil : ∀ i v, 1 ≤ v → v ≤ kj → i + v < N → g.bil b (i + v) (N - 1 - v) = fl (∑ i' ∈ range (i + v - kl), tmul (gL N L τ i' (i + v)) (τ.l i' (i + v) i))
  arcR : ∀ i j, i + top < j → j < N → g.arc b i j = fl (gIR N L τ i j)
  arcL : ∀ i j, i + top < j → j < N → g.arc b j i = fl (gIL N L τ i j)
  rest : ∀ i j, (j ≤ i + top ∨ N ≤ j) → (i ≤ j + top ∨ N ≤ i) → g.arc b i j = fl 0

/-- The factors of the model are `τ`. -/
structure Agree (σ : Slope) (N b : ℕ) (arc : ℕ → ℕ → ℕ → EReal) (τ : Factors) : Prop where
  x : ∀ i k u, u < k → i + k < N → factorX σ N arc k b i u = fl (τ.x i (i + k) (i + u))
  r : ∀ i k u, u < k → i + k < N → factorR σ N arc k b i u = fl (τ.r i (i + k) (i + u + 1))
  l : ∀ i k u, u < k → i + k < N → k ≠ N - 1 → factorL σ N arc k b i u = fl (τ.l i (i + k) (i + u))
  l0 : ∀ m, τ.l 0 (N - 1) m = 0

theorem Ioo_step {a N : ℕ} (h : a + 1 < N) : Ioo a N = insert (a + 1) (Ioo (a + 1) N) := by ext x; simp only [mem_Ioo, mem_insert]; omega

theorem Ioo_last {a N : ℕ} (h : N ≤ a + 1) : Ioo a N = ∅ := by ext x; simp only [mem_Ioo, notMem_empty, iff_false]; omega

theorem stageR (hτ : Agree σ N b arc τ) {k : ℕ} (hk : k + 1 < N) {g : Adj} (h : Stage N L b τ (k + 1) (k + 1) (k + 1) (k + 1) (k + 1) (k + 1) g) :
    Stage N L b τ k (k + 1) (k + 1) (k + 1) (k + 1) (k + 1) (backR σ N arc g (k + 1)) := by
  have hnew : ∀ i, i + (k + 1) < N → IEEE.add (g.acr b i (k + 1)) (g.bcr b (i + (k + 1)) (N - (k + 1) - 1)) = fl (gR N L τ i (i + (k + 1))) := by
    intro i hi
    have e : N - (k + 1) - 1 = N - 1 - (k + 1) := by omega
    rw [e, h.acr i _ le_rfl hi, h.bcr i _ le_rfl hi, fl_add, Nat.add_sub_cancel, ← gR_eq]
  refine ⟨?_, ?_, h.acl, h.bcl, ?_, h.bil, h.arcR, h.arcL, h.rest⟩
  · intro i v hv hi
    simp only [backR, clearA]
    rw [if_neg (by omega), h.acr i v (by omega) hi]
  · intro i v hv hi
    simp only [backR, addB, clearB]
    by_cases h1 : k + 1 ≤ i + v
    · rw [if_pos ⟨h1, hi, by omega, by omega⟩, if_neg (by omega), h.bcr i v (by omega) hi]
      have e0 : N - (k + 1) - 1 = N - (k + 1) - 1 := rfl
      have hn := hnew (i + v - (k + 1)) (by omega)
      have hr := hτ.r (i + v - (k + 1)) (k + 1) (N - 1 - v - (N - (k + 1))) (by omega) (by omega)
      have e1 : i + v - (k + 1) + (k + 1) = i + v := by omega
      have e2 : i + v - (k + 1) + (N - 1 - v - (N - (k + 1))) + 1 = i := by omega
      rw [e1] at hn hr
      rw [e2] at hr
      have e4 : i + v - k = (i + v - (k + 1)) + 1 := by omega
      rw [e1, hn, hr, fl_mul, fl_add, e4, sum_range_succ]
    · rw [if_neg (by omega), if_neg (by omega), h.bcr i v (by omega) hi]
      have e1 : i + v - (k + 1) = 0 := by omega
      have e2 : i + v - k = 0 := by omega
      rw [e1, e2]
  · intro i v hv1 hv hi
    simp only [backR, addA]
    by_cases h1 : i + (k + 1) < N
    · rw [if_pos ⟨by omega, hv1, by omega⟩, h.air i v hv1 hv hi, hnew i h1, hτ.r i (k + 1) (v - 1) (by omega) h1]
      have e : i + (v - 1) + 1 = i + v := by omega
      have e2 : i + (k + 1) = i + k + 1 := by omega
      rw [e, fl_mul, fl_add, Ioo_step (a := i + k) (by omega), sum_insert (by simp), add_comm, e2]
    · rw [if_neg (by omega), h.air i v hv1 hv hi, Ioo_last (a := i + k) (by omega), Ioo_last (a := i + (k + 1)) (by omega)]

theorem stageL (hτ : Agree σ N b arc τ) {k : ℕ} (hk : k + 1 < N) {g : Adj} (h : Stage N L b τ k (k + 1) (k + 1) (k + 1) (k + 1) (k + 1) g) :
    Stage N L b τ k k (k + 1) (k + 1) (k + 1) (k + 1) (backL σ N arc g (k + 1)) := by
  have hnew : ∀ i, i + (k + 1) < N → IEEE.add (g.acl b i (k + 1)) (g.bcl b (i + (k + 1)) (N - (k + 1) - 1)) = fl (gL N L τ i (i + (k + 1))) := by
    intro i hi
    have e : N - (k + 1) - 1 = N - 1 - (k + 1) := by omega
    rw [e, h.acl i _ le_rfl hi, h.bcl i _ le_rfl hi, fl_add, Nat.add_sub_cancel, ← gL_eq]
  have hz : ∀ (x : WithTop ℝ), x ≠ ⊤ → tmul x 0 = 0 := by
    intro x hx
    lift x to ℝ using hx
    change ((x * 0 : ℝ) : WithTop ℝ) = 0
    rw [mul_zero]; rfl
  by_cases hlast : k + 1 = N - 1
  · have hg0 : ∀ x, tmul (gL N L τ 0 (N - 1)) (τ.l 0 (N - 1) x) = 0 := by
      intro x
      rw [hτ.l0, gL_eq, Ioo_last (by omega), sum_empty, zero_add]
      exact hz _ (by simp)
    have e0 : backL σ N arc g (k + 1) = g := by rw [backL]; exact if_pos hlast
    rw [e0]
    refine ⟨h.acr, h.bcr, ?_, fun i v hv hi => h.bcl i v (by omega) hi, h.air, ?_, h.arcR, h.arcL, h.rest⟩
    · intro i v hv hi
      rw [h.acl i v (by omega) hi, Ioo_last (a := i + (k + 1)) (by omega), sum_empty]
      by_cases h0 : i = 0
      · subst h0
        rw [Ioo_step (a := 0 + k) (by omega), Ioo_last (by omega)]
        simp only [insert_empty_eq, sum_singleton]
        have e : 0 + k + 1 = N - 1 := by omega
        rw [e, hg0]
      · rw [Ioo_last (by omega), sum_empty]
    · intro i v hv1 hv hi
      rw [h.bil i v hv1 hv hi]
      have e1 : i + v - (k + 1) = 0 := by omega
      rw [e1, sum_range_zero]
      by_cases h0 : i + v = N - 1
      · have e2 : i + v - k = 1 := by omega
        rw [e2, sum_range_one, h0, hg0]
      · have e2 : i + v - k = 0 := by omega
        rw [e2, sum_range_zero]
  · have e0 : backL σ N arc g (k + 1) = { g with
        acl := addA N (k + 1) 0 (fun b i => IEEE.add (g.acl b i (k + 1)) (g.bcl b (i + (k + 1)) (N - (k + 1) - 1))) (factorL σ N arc (k + 1)) (clearA N (k + 1) g.acl)
        bcl := clearB N (k + 1) g.bcl
        bil := addB N (k + 1) (N - (k + 1) - 1) (fun b i => IEEE.add (g.acl b i (k + 1)) (g.bcl b (i + (k + 1)) (N - (k + 1) - 1))) (factorL σ N arc (k + 1)) g.bil } := by
      rw [backL]; exact if_neg hlast
    rw [e0]
    refine ⟨h.acr, h.bcr, ?_, ?_, h.air, ?_, h.arcR, h.arcL, h.rest⟩
    · intro i v hv hi
      simp only [addA, clearA]
      by_cases h1 : i + (k + 1) < N
      · rw [if_pos ⟨by omega, by omega, by omega⟩, if_neg (by omega), h.acl i v (by omega) hi, hnew i h1, Nat.sub_zero, hτ.l i (k + 1) v (by omega) h1 hlast]
        have e2 : i + (k + 1) = i + k + 1 := by omega
        rw [fl_mul, fl_add, Ioo_step (a := i + k) (by omega), sum_insert (by simp), add_comm, e2]
      · rw [if_neg (by omega), if_neg (by omega), h.acl i v (by omega) hi, Ioo_last (a := i + k) (by omega), Ioo_last (a := i + (k + 1)) (by omega)]
    · intro i v hv hi
      simp only [clearB]
      rw [if_neg (by omega), h.bcl i v (by omega) hi]
    · intro i v hv1 hv hi
      simp only [addB]
      by_cases h1 : k + 1 ≤ i + v
      · rw [if_pos ⟨h1, hi, by omega, by omega⟩, h.bil i v hv1 hv hi]
        have hn := hnew (i + v - (k + 1)) (by omega)
        have hr := hτ.l (i + v - (k + 1)) (k + 1) (N - 1 - v - (N - (k + 1) - 1)) (by omega) (by omega) hlast
        have e1 : i + v - (k + 1) + (k + 1) = i + v := by omega
        have e2 : i + v - (k + 1) + (N - 1 - v - (N - (k + 1) - 1)) = i := by omega
        rw [e1] at hn hr
        rw [e2] at hr
        have e4 : i + v - k = (i + v - (k + 1)) + 1 := by omega
        rw [e1, hn, hr, fl_mul, fl_add, e4, sum_range_succ]
      · rw [if_neg (by omega), h.bil i v hv1 hv hi]
        have e1 : i + v - (k + 1) = 0 := by omega
        have e2 : i + v - k = 0 := by omega
        rw [e1, e2]

theorem stageI (hτ : Agree σ N b arc τ) {k : ℕ} (hk : k + 1 < N) {g : Adj} (h : Stage N L b τ k k (k + 1) (k + 1) (k + 1) (k + 1) g) :
    Stage N L b τ k k k k k k (backI σ N arc g (k + 1)) := by
  have hR : ∀ i, i + (k + 1) < N → g.air b i (k + 1) = fl (gIR N L τ i (i + (k + 1))) := by
    intro i hi
    rw [h.air i (k + 1) (by omega) le_rfl hi, gIR]
    have e : Ioo (i + k) N = Ico (i + (k + 1)) N := by ext x; simp only [mem_Ioo, mem_Ico]; omega
    rw [e]
  have hL : ∀ i, i + (k + 1) < N → g.bil b (i + (k + 1)) (N - (k + 1) - 1) = fl (gIL N L τ i (i + (k + 1))) := by
    intro i hi
    have e : N - (k + 1) - 1 = N - 1 - (k + 1) := by omega
    rw [e, h.bil i (k + 1) (by omega) le_rfl hi, gIL]
    have e : i + (k + 1) - k = i + 1 := by omega
    rw [e]
  have hx : ∀ i, i + (k + 1) < N → IEEE.add (g.air b i (k + 1)) (g.bil b (i + (k + 1)) (N - (k + 1) - 1)) = fl (gX N L τ i (i + (k + 1))) := by
    intro i hi
    rw [hR i hi, hL i hi, fl_add, gX_eq]
  refine ⟨?_, h.bcr, h.acl, ?_, ?_, ?_, ?_, ?_, ?_⟩
  · intro i v hv hi
    simp only [backI, addA]
    by_cases h1 : i + (k + 1) < N
    · rw [if_pos ⟨by omega, by omega, by omega⟩, h.acr i v (by omega) hi, hx i h1, Nat.sub_zero, hτ.x i (k + 1) v (by omega) h1]
      have e2 : i + (k + 1) = i + k + 1 := by omega
      rw [fl_mul, fl_add, Ioo_step (a := i + k) (by omega), sum_insert (by simp), e2, add_assoc]
      congr 2
      rw [add_comm]
    · rw [if_neg (by omega), h.acr i v (by omega) hi, Ioo_last (a := i + k) (by omega), Ioo_last (a := i + (k + 1)) (by omega)]
  · intro i v hv hi
    simp only [backI, addB]
    by_cases h1 : k + 1 ≤ i + v
    · rw [if_pos ⟨h1, hi, by omega, by omega⟩, h.bcl i v hv hi]
      have hn := hx (i + v - (k + 1)) (by omega)
      have hr := hτ.x (i + v - (k + 1)) (k + 1) (N - 1 - v - (N - (k + 1))) (by omega) (by omega)
      have e1 : i + v - (k + 1) + (k + 1) = i + v := by omega
      have e2 : i + v - (k + 1) + (N - 1 - v - (N - (k + 1))) = i - 1 := by omega
      rw [e1] at hn hr
      rw [e2] at hr
      have e4 : i + v - k = (i + v - (k + 1)) + 1 := by omega
      rw [e1, hn, hr, fl_mul, fl_add, e4, sum_range_succ]
    · rw [if_neg (by omega), h.bcl i v hv hi]
      have e1 : i + v - (k + 1) = 0 := by omega
      have e2 : i + v - k = 0 := by omega
      rw [e1, e2]
  · intro i v hv1 hv hi
    simp only [backI, clearA]
    rw [if_neg (by omega), h.air i v hv1 (by omega) hi]
  · intro i v hv1 hv hi
    simp only [backI, clearB]
    rw [if_neg (by omega), h.bil i v hv1 (by omega) hi]
  · intro i j hij hj
    simp only [backI]
    by_cases h1 : j = i + (k + 1)
    · subst h1
      rw [if_pos ⟨by omega, rfl⟩, h.rest _ _ (Or.inl le_rfl) (Or.inl (by omega)), hR i hj, fl_add, zero_add]
    · rw [if_neg (by omega), if_neg (by omega), h.arcR i j (by omega) hj]
  · intro i j hij hj
    simp only [backI]
    by_cases h1 : j = i + (k + 1)
    · subst h1
      rw [if_neg (by omega), if_pos ⟨by omega, rfl⟩, h.rest _ _ (Or.inl (by omega)) (Or.inl le_rfl), hL i hj, fl_add, zero_add]
    · rw [if_neg (by omega), if_neg (by omega), h.arcL i j (by omega) hj]
  · intro i j h1 h2
    simp only [backI]
    rw [if_neg (by omega), if_neg (by omega), h.rest i j (by omega) (by omega)]

theorem stage_start (hb : b < batch) (hL : lens.getD b 0 = L) :
    Stage N L b τ (N - 1) (N - 1) (N - 1) (N - 1) (N - 1) (N - 1) (start batch lens) := by
  have e1 : ∀ i, Ioo (i + (N - 1)) N = ∅ := fun i => Ioo_last (by omega)
  have e2 : ∀ i v, i + v < N → i + v - (N - 1) = 0 := fun i v h => by omega
  refine ⟨?_, fun i v _ hi => ?_, fun i v _ hi => ?_, fun i v _ hi => ?_, fun i v _ _ hi => ?_, fun i v _ _ hi => ?_, fun i j _ _ => by omega,
    fun i j _ _ => by omega, fun i j _ _ => rfl⟩
  · intro i v hv hi
    rw [e1, sum_empty, add_zero]
    simp only [start, hL]
    by_cases h : i = 0 ∧ i + v = L
    · rw [if_pos ⟨hb, h.1, by omega⟩, if_pos h]; rfl
    · rw [if_neg (by omega), if_neg h]; rfl
  all_goals first
    | rw [e1]; rfl
    | rw [e2 _ _ hi]; rfl

theorem stage_zero (hτ : Agree σ N b arc τ) (hb : b < batch) (hL : lens.getD b 0 = L) : Stage N L b τ 0 0 0 0 0 0 (backLoop σ batch N arc lens) := by
  rw [backLoop, List.foldl_reverse, List.range_eq_range']
  have key : ∀ m k, k + m = N - 1 → Stage N L b τ k k k k k k ((List.range' k m).foldr (fun w g => backStep σ N arc g (w + 1)) (start batch lens)) := by
    intro m
    induction m with
    | zero => intro k hk; obtain rfl : k = N - 1 := by omega
              exact stage_start hb hL
    | succ m ih =>
      intro k hk
      rw [List.range'_succ, List.foldr_cons]
      exact stageI hτ (by omega) (stageL hτ (by omega) (stageR hτ (by omega) (ih (k + 1) (by omega))))
  exact key (N - 1) 0 (by omega)

/-- **The gradient of the arcs.** -/
theorem arc_grad (hτ : Agree σ N b arc τ) (hb : b < batch) (hL : lens.getD b 0 = L) {i j : ℕ} (hij : i < j) (hj : j < N) :
    (backLoop σ batch N arc lens).arc b i j = fl (gIR N L τ i j) ∧ (backLoop σ batch N arc lens).arc b j i = fl (gIL N L τ i j) :=
  ⟨(stage_zero hτ hb hL).arcR i j (by omega) hj, (stage_zero hτ hb hL).arcL i j (by omega) hj⟩

end DepBackwardProofs
