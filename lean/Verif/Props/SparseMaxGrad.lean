import Verif.Props.SparseMax
import Mathlib.Analysis.Calculus.FDeriv.Pow
import Mathlib.Analysis.Calculus.Deriv.Pow
import Mathlib.Analysis.Calculus.FDeriv.Pi
import Mathlib.Analysis.SpecialFunctions.Sqrt
import Mathlib.Analysis.Asymptotics.Lemmas
import Mathlib.Algebra.Order.Chebyshev
import Mathlib.Algebra.BigOperators.Field
import Mathlib.Analysis.Calculus.Deriv.Add
import Mathlib.Analysis.Calculus.Deriv.Mul

/-! Property theorems about the value and the gradients of `SparseMaxSemiring.sum`: C57, C58. -/

open Spec Finset

noncomputable section
namespace Props.SparseMaxGrad
open _root_.SparseMax Props.SparseMax

variable {n : ℕ}

/-- `project_simplex` of a vector. -/
def W (v : Fin n → ℝ) (i : Fin n) : ℝ := (projectSimplex (List.ofFn v)).getD i 0

theorem W_ofFn (v : Fin (n + 1) → ℝ) : projectSimplex (List.ofFn v) = List.ofFn (W v) := by
  have hlen := (project_simplex (v := List.ofFn v) (by simp)).length
  refine List.ext_getElem (by simpa using hlen) fun i h1 h2 => ?_
  rw [List.getElem_ofFn, W, List.getD_eq_getElem _ _ h1]

theorem W_threshold (v : Fin (n + 1) → ℝ) : ∃ tau, (∀ i, W v i = max (v i - tau) 0) ∧ ∑ i, max (v i - tau) 0 = 1 := by
  obtain ⟨tau, h1, h2⟩ := project_threshold (v := List.ofFn v) (by simp)
  refine ⟨tau, fun i => ?_, ?_⟩
  · rw [W, h1, List.map_ofFn, List.getD_eq_getElem _ _ (by rw [List.length_ofFn]; exact i.2), List.getElem_ofFn]; rfl
  · rw [List.map_ofFn, List.sum_ofFn] at h2; exact h2

theorem W_nonneg (v : Fin (n + 1) → ℝ) (i) : 0 ≤ W v i := by
  obtain ⟨tau, h, _⟩ := W_threshold v; rw [h]; exact le_max_right _ _

theorem W_sum (v : Fin (n + 1) → ℝ) : ∑ i, W v i = 1 := by
  obtain ⟨tau, h, h2⟩ := W_threshold v; simp only [h]; exact h2

/-- The threshold need not be the one that the code computes. -/
theorem W_unique (v : Fin (n + 1) → ℝ) {t : ℝ} (ht : ∑ i, max (v i - t) 0 = 1) (i) : W v i = max (v i - t) 0 := by
  obtain ⟨tau, h, h2⟩ := W_threshold v
  rw [h]
  rcases le_total t tau with hle | hle
  · have hmono : ∀ j ∈ univ, max (v j - tau) 0 ≤ max (v j - t) 0 := fun j _ => max_le_max_right _ (by linarith)
    exact (Finset.sum_eq_sum_iff_of_le hmono).1 (h2.trans ht.symm) i (mem_univ _)
  · have hmono : ∀ j ∈ univ, max (v j - t) 0 ≤ max (v j - tau) 0 := fun j _ => max_le_max_right _ (by linarith)
    exact ((Finset.sum_eq_sum_iff_of_le hmono).1 (ht.trans h2.symm) i (mem_univ _)).symm

/-- The sparsemax value of the literature: `max_p p·v - ‖p‖²/2`. -/
def conj (v : Fin n → ℝ) : ℝ := ∑ i, (v i * W v i - W v i ^ 2 / 2)

/-- The variational inequality. -/
theorem W_variational (v : Fin (n + 1) → ℝ) {p : Fin (n + 1) → ℝ} (hp : ∀ i, 0 ≤ p i) (hs : ∑ i, p i = 1) : ∑ i, (v i - W v i) * (p i - W v i) ≤ 0 := by
  obtain ⟨tau, h, h2⟩ := W_threshold v
  have h1 : ∀ i, (v i - W v i) * (p i - W v i) ≤ tau * (p i - W v i) := fun i => by
    have := hp i
    rw [h]
    rcases le_total (v i - tau) 0 with h' | h'
    · rw [max_eq_right h']; nlinarith
    · rw [max_eq_left h']; nlinarith
  refine (sum_le_sum fun i _ => h1 i).trans ?_
  rw [← mul_sum, sum_sub_distrib, hs, W_sum, sub_self, mul_zero]

/-- `project_simplex` attains the maximum. -/
theorem conj_max (v : Fin (n + 1) → ℝ) {p : Fin (n + 1) → ℝ} (hp : ∀ i, 0 ≤ p i) (hs : ∑ i, p i = 1) : ∑ i, (v i * p i - p i ^ 2 / 2) ≤ conj v := by
  have h := W_variational v hp hs
  have h1 : ∀ i, v i * p i - p i ^ 2 / 2 ≤ v i * W v i - W v i ^ 2 / 2 + (v i - W v i) * (p i - W v i) := fun i => by
    nlinarith [sq_nonneg (p i - W v i)]
  calc _ ≤ ∑ i, (v i * W v i - W v i ^ 2 / 2 + (v i - W v i) * (p i - W v i)) := sum_le_sum fun i _ => h1 i
    _ = conj v + ∑ i, (v i - W v i) * (p i - W v i) := by rw [sum_add_distrib, conj]
    _ ≤ _ := by linarith

/-- The projection is firmly non-expansive. -/
theorem W_firm (v v' : Fin (n + 1) → ℝ) : ∑ i, (W v' i - W v i) ^ 2 ≤ ∑ i, (v' i - v i) * (W v' i - W v i) := by
  have h1 := W_variational v (W_nonneg v') (W_sum v')
  have h2 := W_variational v' (W_nonneg v) (W_sum v)
  have h3 : ∑ i, ((v i - W v i) * (W v' i - W v i) + (v' i - W v' i) * (W v i - W v' i)) ≤ 0 := by rw [sum_add_distrib]; linarith
  have h4 : ∑ i, ((W v' i - W v i) ^ 2 - (v' i - v i) * (W v' i - W v i)) =
      ∑ i, ((v i - W v i) * (W v' i - W v i) + (v' i - W v' i) * (W v i - W v' i)) := sum_congr rfl fun i _ => by ring
  rw [← h4, sum_sub_distrib] at h3
  linarith

theorem W_cross (v v' : Fin (n + 1) → ℝ) : ∑ i, (v' i - v i) * (W v' i - W v i) ≤ ∑ i, (v' i - v i) ^ 2 := by
  have h1 := W_firm v v'
  have h2 : ∑ i, (v' i - v i) * (W v' i - W v i) ≤ ∑ i, ((v' i - v i) ^ 2 / 2 + (W v' i - W v i) ^ 2 / 2) :=
    sum_le_sum fun i _ => by nlinarith [sq_nonneg ((v' i - v i) - (W v' i - W v i))]
  rw [sum_add_distrib, ← sum_div, ← sum_div] at h2
  linarith

/-- The linear map `h ↦ ∑ c i * h i`. -/
def lin (c : Fin n → ℝ) : (Fin n → ℝ) →L[ℝ] ℝ := ∑ i, c i • ContinuousLinearMap.proj (R := ℝ) (φ := fun _ : Fin n => ℝ) i

theorem lin_apply (c h : Fin n → ℝ) : lin c h = ∑ i, c i * h i := by simp [lin]

/-- **C57** (what is true): the gradient that the backward pass of `SparseMaxSemiring.sum` returns is the gradient of the sparsemax value
`max_p p·v - ‖p‖²/2`, at every point. -/
theorem sum_backward_partial (v : Fin (n + 1) → ℝ) : HasFDerivAt (conj (n := n + 1)) (lin fun i => (sumBackward (List.ofFn v) 1).getD i 0) v ∧
    ∀ p : Fin (n + 1) → ℝ, (∀ i, 0 ≤ p i) → ∑ i, p i = 1 → ∑ i, (v i * p i - p i ^ 2 / 2) ≤ conj v := by
  refine ⟨?_, fun p hp hs => conj_max v hp hs⟩
  have hw : (fun i : Fin (n + 1) => (sumBackward (List.ofFn v) 1).getD i 0) = W v := by
    funext i
    rw [sumBackward, W_ofFn, List.map_ofFn, List.getD_eq_getElem _ _ (by rw [List.length_ofFn]; exact i.2), List.getElem_ofFn]; simp
  rw [hw]
  refine HasFDerivAt.of_isLittleO ?_
  have hbig : (fun v' => conj v' - conj v - lin (W v) (v' - v)) =O[nhds v] fun v' => ‖v' - v‖ ^ 2 := by
    refine Asymptotics.IsBigO.of_bound ((n : ℝ) + 1) (Filter.Eventually.of_forall fun v' => ?_)
    have hlow : 0 ≤ conj v' - conj v - lin (W v) (v' - v) := by
      have h1 := conj_max v' (W_nonneg v) (W_sum v)
      rw [lin_apply]
      have e : ∑ i, (v' i * W v i - W v i ^ 2 / 2) = conj v + ∑ i, W v i * (v' - v) i := by
        rw [conj, ← sum_add_distrib]; exact sum_congr rfl fun i _ => by simp only [Pi.sub_apply]; ring
      rw [e] at h1; linarith
    have hup : conj v' - conj v - lin (W v) (v' - v) ≤ ∑ i, (v' i - v i) ^ 2 := by
      have h1 := conj_max v (W_nonneg v') (W_sum v')
      have e : ∑ i, (v i * W v' i - W v' i ^ 2 / 2) = conj v' - ∑ i, W v' i * (v' i - v i) := by
        rw [conj, ← sum_sub_distrib]; exact sum_congr rfl fun i _ => by ring
      rw [e] at h1
      have h2 := W_cross v v'
      have e2 : ∑ i, (v' i - v i) * (W v' i - W v i) = ∑ i, W v' i * (v' i - v i) - ∑ i, W v i * (v' i - v i) := by
        rw [← sum_sub_distrib]; exact sum_congr rfl fun i _ => by ring
      rw [lin_apply]
      simp only [Pi.sub_apply]
      linarith
    have hnorm : ∑ i, (v' i - v i) ^ 2 ≤ ((n : ℝ) + 1) * ‖v' - v‖ ^ 2 := by
      calc ∑ i, (v' i - v i) ^ 2 ≤ ∑ _i : Fin (n + 1), ‖v' - v‖ ^ 2 := sum_le_sum fun i _ => by
            have := norm_le_pi_norm (v' - v) i
            rw [Real.norm_eq_abs, Pi.sub_apply] at this
            rw [← sq_abs]
            exact pow_le_pow_left₀ (abs_nonneg _) this 2
        _ = _ := by simp
    rw [Real.norm_eq_abs, abs_of_nonneg hlow, Real.norm_eq_abs, abs_of_nonneg (by positivity)]
    exact hup.trans hnorm
  exact hbig.trans_isLittleO (Asymptotics.isLittleO_pow_sub_sub v (by norm_num))

theorem sum_eq (v : Fin (n + 1) → ℝ) : SparseMax.sum (List.ofFn v) = ∑ i, v i * W v i - Real.sqrt (∑ i, W v i ^ 2) := by
  have hz : ∀ {m : ℕ} (a b : Fin m → ℝ), (List.zipWith (· * ·) (List.ofFn a) (List.ofFn b)).sum = ∑ i, a i * b i := by
    intro m a b
    induction m with
    | zero => simp
    | succ m ih => rw [List.ofFn_succ, List.ofFn_succ, List.zipWith_cons_cons, List.sum_cons, ih, Fin.sum_univ_succ]
  rw [SparseMax.sum]
  rw [W_ofFn, hz, List.map_ofFn, List.sum_ofFn]
  rfl

/-- The forward value lies between `max - 1` and `max - 1/√n`. -/
theorem sum_bounds (v : Fin (n + 1) → ℝ) {m : ℝ} (hm : ∀ i, v i ≤ m) {j : Fin (n + 1)} (hj : v j = m) :
    m - 1 ≤ SparseMax.sum (List.ofFn v) ∧ SparseMax.sum (List.ofFn v) ≤ m - 1 / Real.sqrt (n + 1) := by
  rw [sum_eq]
  set q := Real.sqrt (∑ i, W v i ^ 2) with hq
  have hqsq : q ^ 2 = ∑ i, W v i ^ 2 := Real.sq_sqrt (sum_nonneg fun i _ => sq_nonneg _)
  constructor
  · have h := conj_max v (p := fun i => if i = j then 1 else 0) (fun i => by split_ifs <;> norm_num) (by simp)
    have e : ∑ i, (v i * (if i = j then 1 else 0) - (if i = j then (1 : ℝ) else 0) ^ 2 / 2) = m - 1 / 2 := by
      rw [sum_eq_single j]
      · simp [hj]
      · intro i _ hij; simp [hij]
      · intro h; exact absurd (mem_univ _) h
    rw [e, conj, sum_sub_distrib, ← sum_div, ← hqsq] at h
    nlinarith [sq_nonneg (q - 1)]
  · have h1 : ∑ i, v i * W v i ≤ m := by
      calc ∑ i, v i * W v i ≤ ∑ i, m * W v i := sum_le_sum fun i _ => mul_le_mul_of_nonneg_right (hm i) (W_nonneg v i)
        _ = m := by rw [← mul_sum, W_sum, mul_one]
    have h2 : 1 ≤ ((n : ℝ) + 1) * q ^ 2 := by
      have := sq_sum_le_card_mul_sum_sq (s := (univ : Finset (Fin (n + 1)))) (f := W v)
      rw [W_sum, one_pow, card_univ, Fintype.card_fin, ← hqsq] at this
      push_cast at this
      exact this
    have h3 : 1 / Real.sqrt (n + 1) ≤ q := by
      have hpos : 0 < Real.sqrt ((n : ℝ) + 1) := Real.sqrt_pos.2 (by positivity)
      rw [div_le_iff₀ hpos]
      have hq0 : 0 ≤ q := Real.sqrt_nonneg _
      by_contra hcon
      push Not at hcon
      have : (q * Real.sqrt ((n : ℝ) + 1)) ^ 2 < 1 := by
        have h0 : 0 ≤ q * Real.sqrt ((n : ℝ) + 1) := by positivity
        nlinarith
      rw [mul_pow, Real.sq_sqrt (show (0 : ℝ) ≤ (n : ℝ) + 1 by positivity)] at this
      linarith
    linarith

/-- **C57 is false of the code**: the sum of a single element `x` is `x - 1`, not `x`. -/
theorem sum_single (x : ℝ) : SparseMax.sum [x] = x - 1 := by
  have h : SparseMax.sum (List.ofFn (n := 1) fun _ => x) = _ := sum_eq (n := 0) fun _ => x
  have hW := W_sum (n := 0) fun _ => x
  rw [Fin.sum_univ_one] at hW
  rw [Fin.sum_univ_one, Fin.sum_univ_one, hW] at h
  refine (show SparseMax.sum [x] = _ from h).trans ?_
  norm_num

/-- The projection of two numbers that differ by less than 1. -/
theorem project_two {a b : ℝ} (h1 : a - b < 1) (h2 : b - a < 1) : projectSimplex [a, b] = [(1 + a - b) / 2, (1 - a + b) / 2] := by
  have hmax : ∀ i : Fin 2, max (![a, b] i - (a + b - 1) / 2) 0 = ![(1 + a - b) / 2, (1 - a + b) / 2] i := by
    intro i
    fin_cases i
    · simp; rw [max_eq_left (by linarith)]; ring
    · simp; rw [max_eq_left (by linarith)]; ring
  have hW := W_unique (n := 1) ![a, b] (t := (a + b - 1) / 2) (by
    rw [Finset.sum_congr rfl fun i _ => hmax i]; simp [Fin.sum_univ_two]; ring)
  have h : projectSimplex (List.ofFn ![a, b]) = _ := W_ofFn (n := 1) ![a, b]
  rw [show W ![a, b] = ![(1 + a - b) / 2, (1 - a + b) / 2] from funext fun i => (hW i).trans (hmax i)] at h
  simpa using h

/-- **C57 is false of the code**: the gradient that the backward pass returns is not the gradient of the value that the forward pass returns.  At `(1/2, 0)` the first entry
of the returned gradient is 3/4; it is not the derivative. -/
theorem sum_backward_mismatch : (sumBackward [1 / 2, 0] 1).getD 0 0 = 3 / 4 ∧ ¬ HasDerivAt (fun x => SparseMax.sum [x, 0]) (3 / 4) (1 / 2) := by
  constructor
  · rw [sumBackward, project_two (by norm_num) (by norm_num)]; norm_num
  · intro hcon
    have hloc : (fun x => SparseMax.sum [x, 0]) =ᶠ[nhds (1 / 2)] fun x => x * ((1 + x) / 2) - Real.sqrt ((1 + x ^ 2) / 2) := by
      filter_upwards [Ioo_mem_nhds (show (0 : ℝ) < 1 / 2 by norm_num) (show (1 / 2 : ℝ) < 1 by norm_num)] with x hx
      rw [SparseMax.sum]
      rw [project_two (by linarith [hx.2]) (by linarith [hx.1])]
      simp only [List.zipWith_cons_cons, List.zipWith_nil_left, List.sum_cons, List.sum_nil, List.map_cons, List.map_nil]
      rw [show ((1 + x - 0) / 2) ^ 2 + (((1 - x + 0) / 2) ^ 2 + 0) = (1 + x ^ 2) / 2 by ring]
      ring
    have h1 : HasDerivAt (fun x : ℝ => x * ((1 + x) / 2) - Real.sqrt ((1 + x ^ 2) / 2))
        (1 * ((1 + 1 / 2) / 2) + 1 / 2 * (1 / 2) - (2 * (1 / 2) ^ 1 / 2) / (2 * Real.sqrt ((1 + (1 / 2) ^ 2) / 2))) (1 / 2) := by
      refine HasDerivAt.sub ?_ ?_
      · exact (hasDerivAt_id' (1 / 2 : ℝ)).mul (((hasDerivAt_id' (1 / 2 : ℝ)).const_add 1).div_const 2)
      · refine HasDerivAt.sqrt ?_ (by norm_num)
        have := ((hasDerivAt_pow 2 (1 / 2 : ℝ)).const_add 1).div_const 2
        simpa using this
    have h2 := (hcon.congr_of_eventuallyEq hloc.symm).unique h1
    have h3 : Real.sqrt ((1 + (1 / 2 : ℝ) ^ 2) / 2) < 1 := by
      rw [Real.sqrt_lt' (by norm_num)]; norm_num
    have h4 : 0 < Real.sqrt ((1 + (1 / 2 : ℝ) ^ 2) / 2) := Real.sqrt_pos.2 (by norm_num)
    have h5 : (2 * (1 / 2 : ℝ) ^ 1 / 2) / (2 * Real.sqrt ((1 + (1 / 2 : ℝ) ^ 2) / 2)) = 1 / 4 := by linarith
    rw [div_eq_iff (by positivity)] at h5
    linarith

/-! ### The second derivative -/

/-- No entry of `v` sits on the boundary of the support. -/
def Generic (v : Fin n → ℝ) : Prop := ∀ i j, W v i = 0 → 0 < W v j → v i < v j - W v j

/-- **C58.**  `sparsemax_grad(dout, w*)` is the vector-Jacobian product of `project_simplex`: the gradient of `v ↦ dout · project_simplex(v)`, at every point where no entry sits on
the boundary of the support. -/
theorem sparsemaxGrad_spec (dout v : Fin (n + 1) → ℝ) (hg : Generic v) :
    HasFDerivAt (fun v : Fin (n + 1) → ℝ => ∑ i, dout i * W v i) (lin fun i => (sparsemaxGrad (List.ofFn dout) (projectSimplex (List.ofFn v))).getD i 0) v := by
  classical
  set S : Finset (Fin (n + 1)) := univ.filter fun i => 0 < W v i with hS
  have hmem : ∀ i, i ∈ S ↔ 0 < W v i := fun i => by simp [hS]
  have hSne : S.Nonempty := by
    by_contra h
    rw [not_nonempty_iff_eq_empty] at h
    have := W_sum v
    rw [sum_eq_zero fun i _ => le_antisymm (not_lt.1 fun hc => by have := (hmem i).2 hc; rw [h] at this; simp at this) (W_nonneg v i)] at this
    norm_num at this
  have hcard : (0 : ℝ) < S.card := by exact_mod_cast hSne.card_pos
  -- the threshold, as a function of the vector
  let t : (Fin (n + 1) → ℝ) → ℝ := fun u => (∑ i ∈ S, u i - 1) / S.card
  have htau : ∀ i, W v i = max (v i - t v) 0 ∧ (i ∈ S → t v < v i) ∧ (i ∉ S → v i < t v) := by
    obtain ⟨tau, h1, h2⟩ := W_threshold v
    have hin : ∀ i ∈ S, W v i = v i - tau := fun i hi => by
      have := (hmem i).1 hi
      rw [h1] at this ⊢
      rcases le_total (v i - tau) 0 with h | h
      · rw [max_eq_right h] at this; exact absurd this (lt_irrefl _)
      · exact max_eq_left h
    have htt : t v = tau := by
      have hs : ∑ i ∈ S, W v i = 1 := by
        rw [← W_sum v]
        exact sum_subset (subset_univ _) fun i _ hi => le_antisymm (not_lt.1 fun hc => hi ((hmem i).2 hc)) (W_nonneg v i)
      rw [sum_congr rfl hin, sum_sub_distrib, sum_const, nsmul_eq_mul] at hs
      simp only [t]
      rw [div_eq_iff hcard.ne']; linarith
    intro i
    rw [htt]
    refine ⟨h1 i, fun hi => ?_, fun hi => ?_⟩
    · have := (hmem i).1 hi; rw [hin i hi] at this; linarith
    · obtain ⟨j, hj⟩ := hSne
      have h0 : W v i = 0 := le_antisymm (not_lt.1 fun hc => hi ((hmem i).2 hc)) (W_nonneg v i)
      have := hg i j h0 ((hmem j).1 hj)
      rw [hin j hj] at this; linarith
  have htcont : Continuous t := by
    simp only [t]
    exact ((continuous_finset_sum _ fun i _ => continuous_apply i).sub continuous_const).div_const _
  -- near `v` the support stays the same
  have hloc : ∀ᶠ u in nhds v, ∀ i, W u i = if i ∈ S then u i - t u else 0 := by
    have h1 : ∀ᶠ u in nhds v, ∀ i, (i ∈ S → t u < u i) ∧ (i ∉ S → u i < t u) := by
      rw [Filter.eventually_all]
      intro i
      by_cases hi : i ∈ S
      · have : ∀ᶠ u in nhds v, t u < u i := htcont.continuousAt.eventually_lt (continuous_apply i).continuousAt ((htau i).2.1 hi)
        exact this.mono fun u hu => ⟨fun _ => hu, fun hc => absurd hi hc⟩
      · have : ∀ᶠ u in nhds v, u i < t u := (continuous_apply i).continuousAt.eventually_lt htcont.continuousAt ((htau i).2.2 hi)
        exact this.mono fun u hu => ⟨fun hc => absurd hc hi, fun _ => hu⟩
    refine h1.mono fun u hu => ?_
    have hmax : ∀ i, max (u i - t u) 0 = if i ∈ S then u i - t u else 0 := fun i => by
      split_ifs with hi
      · exact max_eq_left (sub_nonneg.2 ((hu i).1 hi).le)
      · exact max_eq_right (sub_nonpos.2 ((hu i).2 hi).le)
    have hsum : ∑ i, max (u i - t u) 0 = 1 := by
      rw [sum_congr rfl fun i _ => hmax i, ← sum_filter]
      have : univ.filter (fun i => i ∈ S) = S := by ext i; simp
      rw [this, sum_sub_distrib, sum_const, nsmul_eq_mul]
      simp only [t]
      rw [mul_div_cancel₀ _ hcard.ne']; ring
    exact fun i => (W_unique u hsum i).trans (hmax i)
  have hlocal : (fun u : Fin (n + 1) → ℝ => ∑ i, dout i * W u i) =ᶠ[nhds v] fun u => ∑ i ∈ S, dout i * (u i - t u) := by
    refine hloc.mono fun u hu => ?_
    simp only [hu, mul_ite, mul_zero]
    rw [← sum_filter]
    congr 1
    ext i; simp
  refine HasFDerivAt.congr_of_eventuallyEq ?_ hlocal
  -- the result of the code
  have hcode : ∀ i : Fin (n + 1), (sparsemaxGrad (List.ofFn dout) (projectSimplex (List.ofFn v))).getD i 0 = if i ∈ S then dout i - (∑ j ∈ S, dout j) / S.card else 0 := by
    intro i
    have hz : ∀ {m : ℕ} (f : ℝ → ℝ → ℝ) (a b : Fin m → ℝ), List.zipWith f (List.ofFn a) (List.ofFn b) = List.ofFn fun i => f (a i) (b i) := by
      intro m f a b
      refine List.ext_getElem (by simp) fun i h1 h2 => by simp
    have hout : ∑ j, (if W v j ≤ 0 then 0 else dout j) = ∑ j ∈ S, dout j := by
      rw [hS, sum_filter]
      refine sum_congr rfl fun j _ => ?_
      by_cases h : 0 < W v j
      · rw [if_neg (not_le.2 h), if_pos h]
      · rw [if_pos (not_lt.1 h), if_neg h]
    have hnnz : (((List.ofFn (W v)).filter fun x => decide (0 < x)).length : ℝ) = S.card := by
      norm_cast
      rw [← List.countP_eq_length_filter, hS]
      have : ∀ {m : ℕ} (a : Fin m → ℝ), (List.ofFn a).countP (fun x => decide (0 < x)) = (univ.filter fun i => 0 < a i).card := by
        intro m a
        induction m with
        | zero => simp
        | succ m ih =>
          rw [List.ofFn_succ, List.countP_cons, ih, Fin.univ_succ, filter_cons, add_comm]
          by_cases h : 0 < a 0
          · simp [h, filter_map, Function.comp_def, add_comm]
          · simp [h, filter_map, Function.comp_def]
      exact this (W v)
    rw [sparsemaxGrad]
    rw [W_ofFn, hz, hz, List.getD_eq_getElem _ _ (by rw [List.length_ofFn]; exact i.2), List.getElem_ofFn, List.sum_ofFn, hnnz, hout]
    simp only [Fin.eta]
    by_cases h : 0 < W v i
    · rw [if_neg (not_le.2 h), if_neg (not_le.2 h), if_pos ((hmem i).2 h)]
    · rw [if_pos (not_lt.1 h), if_neg (mt (hmem i).1 h)]
  have hlin : (lin fun i : Fin (n + 1) => (sparsemaxGrad (List.ofFn dout) (projectSimplex (List.ofFn v))).getD i 0) =
      ∑ i ∈ S, dout i • (ContinuousLinearMap.proj (R := ℝ) (φ := fun _ : Fin (n + 1) => ℝ) i -
        (S.card : ℝ)⁻¹ • ∑ j ∈ S, ContinuousLinearMap.proj (R := ℝ) (φ := fun _ : Fin (n + 1) => ℝ) j) := by
    ext1 h
    rw [lin_apply]
    simp only [hcode, ContinuousLinearMap.sum_apply, ContinuousLinearMap.smul_apply, ContinuousLinearMap.sub_apply, ContinuousLinearMap.proj_apply, smul_eq_mul, ite_mul, zero_mul]
    rw [← sum_filter]
    have : univ.filter (fun i => i ∈ S) = S := by ext i; simp
    rw [this]
    simp only [sub_mul, mul_sub, sum_sub_distrib]
    congr 1
    rw [← mul_sum, ← sum_mul]
    ring
  rw [hlin]
  refine HasFDerivAt.fun_sum fun i _ => HasFDerivAt.const_mul ?_ _
  refine HasFDerivAt.sub (hasFDerivAt_apply i v) ?_
  simp only [t, div_eq_inv_mul]
  refine HasFDerivAt.const_mul ?_ _
  refine HasFDerivAt.sub_const _ ?_
  exact HasFDerivAt.fun_sum fun j _ => hasFDerivAt_apply j v

/-- A vector to which `sparsemaxGrad_spec` applies, with two entries in the support and one outside. -/
example : Generic ![1 / 2, 0, -3] := by
  have hmax : ∀ i : Fin 3, max (![1 / 2, 0, -3] i - (-1 / 4 : ℝ)) 0 = ![3 / 4, 1 / 4, 0] i := by
    intro i
    fin_cases i <;> norm_num
  have hW := W_unique (n := 2) ![1 / 2, 0, -3] (t := -1 / 4) (by
    rw [Finset.sum_congr rfl fun i _ => hmax i]; simp [Fin.sum_univ_three]; norm_num)
  intro i j hi hj
  rw [hW, hmax] at hi hj
  rw [hW j, hmax j]
  fin_cases i <;> fin_cases j <;> simp at hi hj ⊢ <;> norm_num

end Props.SparseMaxGrad
