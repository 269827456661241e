import Mathlib.Algebra.Order.Ring.WithTop
import Mathlib.Data.Option.NAry
import Mathlib.Order.Interval.Finset.Nat
import Verif.Model.TreeBackward
import Verif.Proofs.LogProb
import Verif.Proofs.CKYCRF
import Verif.Proofs.SemiringRel

/-! The backward pass of `TreeCRF.marginals` in closed form: the gradient of a span is the sum over the larger spans it can be a half of. -/

open Finset

noncomputable section
namespace TreeBackwardProofs
open TreeBackward

/-! ### Real numbers and NaN -/

/-- A real number, or NaN. -/
def fl : WithTop ℝ → IEEE
  | ⊤ => none
  | (x : ℝ) => IEEE.ofReal x

/-- Multiplication of real numbers and NaN. -/
def tmul (x y : WithTop ℝ) : WithTop ℝ := Option.map₂ (· * ·) x y

theorem fl_top : fl ⊤ = none := rfl
theorem fl_coe (x : ℝ) : fl x = IEEE.ofReal x := rfl

theorem fl_add (x y : WithTop ℝ) : IEEE.add (fl x) (fl y) = fl (x + y) := by
  cases x with
  | top => rw [fl_top, IEEE.add_none_left, top_add]; rfl
  | coe x =>
    cases y with
    | top => rw [fl_top, IEEE.add_none_right, add_top]; rfl
    | coe y => rw [fl_coe, fl_coe, IEEE.add_real, ← WithTop.coe_add]; rfl

theorem tmul_coe (x y : ℝ) : tmul x y = ((x * y : ℝ) : WithTop ℝ) := rfl
theorem top_tmul (x : WithTop ℝ) : tmul ⊤ x = ⊤ := rfl
theorem tmul_top (x : WithTop ℝ) : tmul x ⊤ = ⊤ := by cases x <;> rfl

theorem fl_mul (x y : WithTop ℝ) : IEEE.mul (fl x) (fl y) = fl (tmul x y) := by
  cases x with
  | top => rfl
  | coe x =>
    cases y with
    | top => rfl
    | coe y => rw [fl_coe, fl_coe, IEEE.mul_real, tmul_coe]; rfl

theorem tmul_eq_top {x y : WithTop ℝ} : tmul x y = ⊤ ↔ x = ⊤ ∨ y = ⊤ := by
  cases x with
  | top => simp [top_tmul]
  | coe x =>
    cases y with
    | top => simp [tmul_top]
    | coe y => rw [tmul_coe]; simp [-WithTop.coe_mul]

theorem fl_inj {x y : WithTop ℝ} (h : fl x = fl y) : x = y := by
  cases x with
  | top => cases y with
    | top => rfl
    | coe y => exact absurd h (by simp [fl, IEEE.ofReal])
  | coe x => cases y with
    | top => exact absurd h (by simp [fl, IEEE.ofReal])
    | coe y => simpa [fl, IEEE.ofReal] using h

/-! ### The closed form -/

/-- The gradient that arrives at the span `i … j`: 1 at the whole sentence, and from every larger span that has it as its first or second half. -/
def gam (N L : ℕ) (τ : ℕ → ℕ → ℕ → WithTop ℝ) (i j : ℕ) : WithTop ℝ :=
  (if i = 0 ∧ j + 1 = L then 1 else 0) + ∑ j' ∈ (Ioo j N).attach, tmul (gam N L τ i j'.1) (τ i j'.1 j) +
    ∑ i' ∈ (range i).attach, tmul (gam N L τ i'.1 j) (τ i'.1 j (i - 1))
termination_by i + (N - j)
decreasing_by
  · have := mem_Ioo.1 j'.2; omega
  · have := mem_range.1 i'.2; omega

theorem gam_eq (N L : ℕ) (τ : ℕ → ℕ → ℕ → WithTop ℝ) (i j : ℕ) : gam N L τ i j =
    (if i = 0 ∧ j + 1 = L then 1 else 0) + ∑ j' ∈ Ioo j N, tmul (gam N L τ i j') (τ i j' j) + ∑ i' ∈ range i, tmul (gam N L τ i' j) (τ i' j (i - 1)) := by
  rw [gam, sum_attach (Ioo j N) fun j' => tmul (gam N L τ i j') (τ i j' j), sum_attach (range i) fun i' => tmul (gam N L τ i' j) (τ i' j (i - 1))]

variable {σ : Slope} {batch N L b : ℕ} {red : ℕ → ℕ → ℕ → EReal} {τ : ℕ → ℕ → ℕ → WithTop ℝ} {lengths : Option (List ℕ)}

/-- What has arrived when the iterations after `k` are undone. -/
structure Stage (N L b : ℕ) (τ : ℕ → ℕ → ℕ → WithTop ℝ) (k : ℕ) (g : Adj) : Prop where
  A : ∀ i v, v ≤ k → i + v < N → g.A b i v = fl ((if i = 0 ∧ i + v + 1 = L then 1 else 0) + ∑ j' ∈ Ioo (i + k) N, tmul (gam N L τ i j') (τ i j' (i + v)))
  B : ∀ i v, v ≤ k → i + v < N → g.B b (i + v) (N - 1 - v) = fl (∑ i' ∈ range (i + v - k), tmul (gam N L τ i' (i + v)) (τ i' (i + v) (i - 1)))
  score : ∀ i j, i + k < j → j < N → g.score b i j = fl (gam N L τ i j)
  rest : ∀ i j, (j ≤ i + k ∨ N ≤ j) → g.score b i j = fl 0

theorem Stage.newGrad {k : ℕ} {g : Adj} (h : Stage N L b τ k g) {i : ℕ} (hi : i + k < N) : newGrad N k g b i = fl (gam N L τ i (i + k)) := by
  have e : N - k - 1 = N - 1 - k := by omega
  rw [TreeBackward.newGrad, e, h.A i k le_rfl hi, h.B i k le_rfl hi, fl_add, gam_eq, Nat.add_sub_cancel]

theorem Stage.step (hτ : ∀ i j m, i ≤ m → m < j → j < N → σ (product N red (j - i) b i (m - i)) (dotAt N red (j - i) b i) = fl (τ i j m))
    {k : ℕ} (hk : k + 1 < N) {g : Adj} (h : Stage N L b τ (k + 1) g) : Stage N L b τ k (backStep σ N red g (k + 1)) := by
  constructor
  · intro i v hv hi
    simp only [backStep]
    by_cases h1 : i + (k + 1) < N
    · rw [if_pos (by omega), if_pos (by omega), h.newGrad h1, h.A i v (by omega) hi]
      have := hτ i (i + (k + 1)) (i + v) (by omega) (by omega) h1
      rw [Nat.add_sub_cancel_left, Nat.add_sub_cancel_left] at this
      rw [this, fl_mul, fl_add, add_assoc]
      congr 2
      have e : Ioo (i + k) N = insert (i + (k + 1)) (Ioo (i + (k + 1)) N) := by ext x; simp only [mem_Ioo, mem_insert]; omega
      rw [e, sum_insert (by simp), add_comm]
    · rw [if_neg (by omega), h.A i v (by omega) hi]
      have e : Ioo (i + k) N = Ioo (i + (k + 1)) N := by ext x; simp only [mem_Ioo]; omega
      rw [e]
  · intro i v hv hi
    simp only [backStep]
    by_cases h1 : k + 1 ≤ i + v
    · rw [if_pos ⟨h1, hi⟩, if_pos (by omega), h.newGrad (by omega), h.B i v (by omega) hi]
      have := hτ (i + v - (k + 1)) (i + v) (i - 1) (by omega) (by omega) hi
      have e1 : i + v - (i + v - (k + 1)) = k + 1 := by omega
      have e2 : i - 1 - (i + v - (k + 1)) = N - 1 - v - (N - (k + 1)) := by omega
      have e3 : i + v - (k + 1) + (k + 1) = i + v := by omega
      have e4 : i + v - k = (i + v - (k + 1)) + 1 := by omega
      rw [e1, e2] at this
      rw [this, e3, fl_mul, fl_add, e4, sum_range_succ]
    · rw [if_neg (by omega), h.B i v (by omega) hi]
      have e1 : i + v - (k + 1) = 0 := by omega
      have e2 : i + v - k = 0 := by omega
      rw [e1, e2]
  · intro i j hij hj
    simp only [backStep]
    by_cases h1 : j = i + (k + 1)
    · subst h1
      rw [if_pos ⟨by omega, rfl⟩, h.newGrad hj, h.rest _ _ (Or.inl le_rfl), fl_add, zero_add]
    · rw [if_neg (by omega), h.score i j (by omega) hj]
  · intro i j hij
    simp only [backStep]
    rw [if_neg (by omega), h.rest i j (by omega)]

theorem stage_start (hb : b < batch) (hL : CKYCRF.lastIndex N ((CKYCRF.lensOr batch N lengths).getD b 0) = L - 1) (hL1 : 1 ≤ L) (hN : 1 ≤ N) :
    Stage N L b τ (N - 1) (start batch N lengths) := by
  constructor
  · intro i v hv hi
    have e : Ioo (i + (N - 1)) N = ∅ := by ext x; simp only [mem_Ioo, notMem_empty, iff_false]; omega
    rw [e, sum_empty, add_zero]
    simp only [start, hL]
    by_cases h : i = 0 ∧ i + v + 1 = L
    · rw [if_pos ⟨hb, h.1, by omega⟩, if_pos h]; rfl
    · rw [if_neg (by omega), if_neg h]; rfl
  · intro i v hv hi
    have e : i + v - (N - 1) = 0 := by omega
    rw [e]; rfl
  · intro i j h1 h2; omega
  · intro i j _; rfl

theorem stage_zero (hτ : ∀ i j m, i ≤ m → m < j → j < N → σ (product N red (j - i) b i (m - i)) (dotAt N red (j - i) b i) = fl (τ i j m))
    (hb : b < batch) (hL : CKYCRF.lastIndex N ((CKYCRF.lensOr batch N lengths).getD b 0) = L - 1) (hL1 : 1 ≤ L) (hN : 1 ≤ N) :
    Stage N L b τ 0 (backLoop σ batch N red lengths) := by
  rw [backLoop, List.foldl_reverse, List.range_eq_range']
  have key : ∀ m k, k + m = N - 1 → Stage N L b τ k ((List.range' k m).foldr (fun w g => backStep σ N red g (w + 1)) (start batch N lengths)) := by
    intro m
    induction m with
    | zero => intro k hk; obtain rfl : k = N - 1 := by omega
              exact stage_start hb hL hL1 hN
    | succ m ih =>
      intro k hk
      rw [List.range'_succ, List.foldr_cons]
      exact (ih (k + 1) (by omega)).step hτ (by omega)
  exact key (N - 1) 0 (by omega)

/-- **The gradient of `reduced_scores`.** -/
theorem scoreGrad_eq (hτ : ∀ i j m, i ≤ m → m < j → j < N → σ (product N red (j - i) b i (m - i)) (dotAt N red (j - i) b i) = fl (τ i j m))
    (hb : b < batch) (hL : CKYCRF.lastIndex N ((CKYCRF.lensOr batch N lengths).getD b 0) = L - 1) (hL1 : 1 ≤ L) (hN : 1 ≤ N) (i j : ℕ) :
    scoreGrad N (backLoop σ batch N red lengths) b i j = fl (if i ≤ j ∧ j < N then gam N L τ i j else 0) := by
  have h := stage_zero hτ hb hL hL1 hN
  rw [scoreGrad]
  by_cases h1 : i = j ∧ i < N
  · obtain ⟨rfl, h2⟩ := h1
    have := h.newGrad (i := i) (by omega)
    rw [TreeBackward.newGrad] at this
    rw [if_pos ⟨rfl, h2⟩, if_pos ⟨le_rfl, h2⟩, h.rest _ _ (Or.inl (by omega))]
    have e : N - 0 - 1 = N - 1 := by omega
    rw [e, Nat.add_zero] at this
    rw [this, fl_add, zero_add]
  · rw [if_neg h1]
    by_cases h2 : i < j ∧ j < N
    · rw [if_pos ⟨by omega, h2.2⟩, h.score _ _ (by omega) h2.2]
    · rw [if_neg (by omega), h.rest _ _ (by omega)]

end TreeBackwardProofs
