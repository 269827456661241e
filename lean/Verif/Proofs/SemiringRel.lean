import Mathlib.Algebra.TrivSqZeroExt.Basic
import Mathlib.Algebra.Algebra.Rat
import Verif.Model.Autograd
import Verif.Proofs.LinearChain

/-! Relations between the concrete semirings and commutative semirings. -/

open Finset

noncomputable section
namespace SemiringRel
open Semirings LinearChainProofs

theorem exp_sum_pos {xs : List ℝ} (h : xs ≠ []) : 0 < (xs.map Real.exp).sum := by
  apply List.sum_pos
  · intro x hx
    obtain ⟨y, _, rfl⟩ := List.mem_map.1 hx
    exact Real.exp_pos y
  · simpa using h

theorem exp_lse {xs : List ℝ} (h : xs ≠ []) : Real.exp (lse xs) = (xs.map Real.exp).sum :=
  Real.exp_log (exp_sum_pos h)

/-- Std: the identity. -/
theorem std_rel {R : Type} [CommSemiring R] : SRRel (std R) (fun a x : R => a = x) :=
  SRRel.std rfl (by funext; rfl)

theorem std_plain {R : Type} [CommSemiring R] : Plain (std R) := ⟨fun _ => rfl, fun _ _ => rfl⟩

/-- Log: `exp`. -/
theorem log_rel (z : ℝ) : SRRel (logZ z) (fun a x : ℝ => Real.exp a = x) :=
  SRRel.of_hom (h := Real.exp) (fun a b => Real.exp_add a b) (fun _ h => exp_lse h)

theorem log_plain (z : ℝ) : Plain (logZ z) := ⟨fun _ => rfl, fun _ _ => rfl⟩

/-- Log on extended reals: `EReal.exp`. -/
theorem logE_rel (z : EReal) : SRRel (logE z) (fun a (x : ENNReal) => EReal.exp a = x) :=
  SRRel.of_hom (h := EReal.exp) (fun a b => EReal.exp_add a b) (fun as _ => by simp [logE])

theorem logE_plain (z : EReal) : Plain (logE z) := ⟨fun _ => rfl, fun _ _ => rfl⟩

/-- The dual number `w + w·g ε`. -/
def dual {M : Type} [AddCommGroup M] [Module ℝ M] (w : ℝ) (g : M) : TrivSqZeroExt ℝ M :=
  TrivSqZeroExt.inl w + TrivSqZeroExt.inr (w • g)

theorem dual_mul {M : Type} [AddCommGroup M] [Module ℝ M] [Module ℝᵐᵒᵖ M] [IsCentralScalar ℝ M]
    (w w' : ℝ) (g g' : M) : dual w g * dual w' g' = dual (w * w') (g + g') := by
  ext
  · simp [dual]
  · simp [dual, smul_smul, mul_comm, add_comm]

theorem dual_one {M : Type} [AddCommGroup M] [Module ℝ M] [Module ℝᵐᵒᵖ M] [IsCentralScalar ℝ M] :
    (dual 1 0 : TrivSqZeroExt ℝ M) = 1 := by ext <;> simp [dual]

/-- How a (log-weight, gradient) pair is read as a dual number. -/
def gradDual {E : Type} (a : Autograd.Grad E) : TrivSqZeroExt ℝ (E → ℝ) := dual (Real.exp a.1) a.2

theorem sum_map_add' {ι M : Type} [AddCommMonoid M] (l : List ι) (f g : ι → M) :
    (l.map fun i => f i + g i).sum = (l.map f).sum + (l.map g).sum := by
  induction l with
  | nil => simp
  | cons a l ih => simp only [List.map_cons, List.sum_cons, ih]; abel

theorem inl_list_sum {M : Type} [AddCommGroup M] (l : List ℝ) :
    (TrivSqZeroExt.inl l.sum : TrivSqZeroExt ℝ M) = (l.map TrivSqZeroExt.inl).sum := by
  induction l with
  | nil => simp
  | cons a l ih => simp [TrivSqZeroExt.inl_add, ih]

theorem inr_list_sum {M : Type} [AddCommGroup M] (l : List M) :
    (TrivSqZeroExt.inr l.sum : TrivSqZeroExt ℝ M) = (l.map TrivSqZeroExt.inr).sum := by
  induction l with
  | nil => simp
  | cons a l ih => simp [TrivSqZeroExt.inr_add, ih]

/-- A list of weighted terms: `Σ dual wᵢ gᵢ`. -/
theorem list_sum_dual {ι M : Type} [AddCommGroup M] [Module ℝ M] (l : List ι) (w : ι → ℝ) (g : ι → M) :
    (l.map fun i => dual (w i) (g i)).sum =
      TrivSqZeroExt.inl (l.map w).sum + TrivSqZeroExt.inr (l.map fun i => w i • g i).sum := by
  rw [inl_list_sum, inr_list_sum, List.map_map, List.map_map, ← sum_map_add']
  rfl

theorem smul_list_sum {ι M : Type} [AddCommGroup M] [Module ℝ M] (c : ℝ) (l : List ι) (g : ι → M) :
    c • (l.map g).sum = (l.map fun i => c • g i).sum := by
  induction l with
  | nil => simp
  | cons a l ih => simp [smul_add, ih]

theorem exp_lse_map {ι : Type} {l : List ι} (h : l ≠ []) (v : ι → ℝ) :
    Real.exp (lse (l.map v)) = (l.map fun i => Real.exp (v i)).sum := by
  rw [exp_lse (by simpa using h), List.map_map]; rfl

/-- Softmax-weighted sums, scaled back. -/
theorem softmax_sum {ι M : Type} [AddCommGroup M] [Module ℝ M] (l : List ι) (v : ι → ℝ) (P : ℝ) (f : ι → M) :
    Real.exp P • (l.map fun i => Real.exp (v i - P) • f i).sum = (l.map fun i => Real.exp (v i) • f i).sum := by
  rw [smul_list_sum]
  congr 1
  apply List.map_congr_left
  intro i _
  rw [smul_smul, ← Real.exp_add]
  congr 2; ring

/-- Log with gradients: dual numbers. -/
theorem gradLog_rel {E : Type} (z : ℝ) : SRRel (Autograd.logZ (E := E) z) (fun a x => gradDual a = x) := by
  apply SRRel.of_hom (h := gradDual)
  · intro a b
    simp only [gradDual, Autograd.logZ, dual_mul, Real.exp_add]
  · intro as h
    have : (as.map gradDual) = as.map fun a => dual (Real.exp a.1) a.2 := rfl
    rw [this, list_sum_dual, ← exp_lse_map h, ← softmax_sum as (fun a => a.1) (lse (as.map Prod.fst))]
    rfl

/-- How an element of the entropy semiring is read: total weight `W` and `Σ w log w = W (log W - H)`. -/
def entDual (a : ℝ × ℝ) : TrivSqZeroExt ℝ ℝ := dual (Real.exp a.1) (a.1 - a.2)

/-- Common algebra of the three expectation semirings. -/
theorem expectation_sum {ι : Type} {l : List ι} (h : l ≠ []) (v t : ι → ℝ) (Q : ℝ) :
    Real.exp (lse (l.map v)) * (Q - (l.map fun i => Real.exp (v i - lse (l.map v)) * (Q - t i)).sum) =
      (l.map fun i => Real.exp (v i) * t i).sum := by
  have := softmax_sum l v (lse (l.map v)) (fun i => Q - t i)
  simp only [smul_eq_mul] at this
  rw [mul_sub, this, exp_lse_map h]
  have e : (l.map fun i => Real.exp (v i) * (Q - t i)) =
      l.map fun i => Real.exp (v i) * Q + (-1 : ℝ) * (Real.exp (v i) * t i) := by
    apply List.map_congr_left; intro i _; ring
  rw [e, sum_map_add', List.sum_map_mul_right, List.sum_map_mul_left]
  ring

theorem entropyZ_rel (z : ℝ) : SRRel (entropyZ z) (fun a x => entDual a = x) := by
  apply SRRel.of_hom (h := entDual)
  · intro a b
    simp only [entDual, entropyZ, dual_mul, Real.exp_add]
    congr 1; ring
  · intro as h
    have : (as.map entDual) = as.map fun a => dual (Real.exp a.1) (a.1 - a.2) := rfl
    rw [this, list_sum_dual, ← exp_lse_map h]
    simp only [smul_eq_mul]
    rw [← expectation_sum h (fun a => a.1) (fun a => a.1 - a.2) (lse (as.map Prod.fst))]
    simp only [entDual, entropyZ, dual, smul_eq_mul]
    congr 5
    apply List.map_congr_left; intro a _
    ring

/-- Cross entropy: total weights `P`, `Q` and `Σ p log q = P (log Q - c)`. -/
def ceDual (a : ℝ × ℝ × ℝ) : TrivSqZeroExt ℝ ℝ × ℝ := (dual (Real.exp a.1) (a.2.1 - a.2.2), Real.exp a.2.1)

/-- KL: total weights `P`, `Q` and `Σ p (log p - log q) = P (kl + log P - log Q)`. -/
def klDual (a : ℝ × ℝ × ℝ) : TrivSqZeroExt ℝ ℝ × ℝ := (dual (Real.exp a.1) (a.2.2 + a.1 - a.2.1), Real.exp a.2.1)

theorem prod_list_sum {A B ι : Type} [AddCommMonoid A] [AddCommMonoid B] (l : List ι) (f : ι → A) (g : ι → B) :
    (l.map fun i => (f i, g i)).sum = ((l.map f).sum, (l.map g).sum) := by
  induction l with
  | nil => rfl
  | cons a l ih => simp [ih]

theorem crossEntropyZ_rel (z : ℝ) : SRRel (crossEntropyZ z) (fun a x => ceDual a = x) := by
  apply SRRel.of_hom (h := ceDual)
  · intro a b
    simp only [ceDual, crossEntropyZ, Prod.mk_mul_mk, dual_mul, Real.exp_add]
    congr 2; ring
  · intro as h
    have : (as.map ceDual) = as.map fun a => (dual (Real.exp a.1) (a.2.1 - a.2.2), Real.exp a.2.1) := rfl
    rw [this, prod_list_sum, list_sum_dual, ← exp_lse_map h, ← exp_lse_map h]
    simp only [smul_eq_mul]
    rw [← expectation_sum h (fun a => a.1) (fun a => a.2.1 - a.2.2) (lse (as.map fun a => a.2.1))]
    simp only [ceDual, crossEntropyZ, dual, smul_eq_mul]
    congr 6
    apply List.map_congr_left; intro a _
    ring

theorem klZ_rel (z : ℝ) : SRRel (klZ z) (fun a x => klDual a = x) := by
  apply SRRel.of_hom (h := klDual)
  · intro a b
    simp only [klDual, klZ, Prod.mk_mul_mk, dual_mul, Real.exp_add]
    congr 2; ring
  · intro as h
    have : (as.map klDual) = as.map fun a => (dual (Real.exp a.1) (a.2.2 + a.1 - a.2.1), Real.exp a.2.1) := rfl
    rw [this, prod_list_sum, list_sum_dual, ← exp_lse_map h, ← exp_lse_map h]
    simp only [smul_eq_mul]
    rw [← expectation_sum h (fun a => a.1) (fun a => a.2.2 + a.1 - a.2.1)
      (lse (as.map fun a => a.1) - lse (as.map fun a => a.2.1))]
    simp only [klDual, klZ, dual, smul_eq_mul]
    congr 4
    have e : (as.map fun x => x.2.2 * Real.exp (x.1 - lse (as.map fun x => x.1)) -
        (x.2.1 - lse (as.map fun x => x.2.1)) * Real.exp (x.1 - lse (as.map fun x => x.1)) +
        (x.1 - lse (as.map fun x => x.1)) * Real.exp (x.1 - lse (as.map fun x => x.1))) =
        as.map fun i => (-1 : ℝ) * (Real.exp (i.1 - lse (as.map fun a => a.1)) *
          (lse (as.map fun a => a.1) - lse (as.map fun a => a.2.1) - (i.2.2 + i.1 - i.2.1))) := by
      apply List.map_congr_left; intro a _; ring
    rw [e, List.sum_map_mul_left]
    ring

end SemiringRel
