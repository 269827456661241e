import Verif.Spec.Dep
import Mathlib.LinearAlgebra.Matrix.ToLinearEquiv
import Mathlib.LinearAlgebra.Matrix.NonsingularInverse
import Mathlib.LinearAlgebra.Matrix.Determinant.Basic
import Mathlib.Data.Real.Basic
import Mathlib.Tactic.Ring

/-! The matrix-tree theorem: determinants of matrices whose row `m` is a weighted sum, over the possible heads of word `m`, of one vector per head. -/

open Spec Finset

namespace MatrixTree
variable {n : ℕ}

/-- Row `m` of the matrix: the weighted sum of the vectors of the heads of word `m`. -/
def mat (vec : Fin n → Fin (n + 1) → Fin n → ℝ) (w : Fin n → Fin (n + 1) → ℝ) : Matrix (Fin n) (Fin n) ℝ :=
  Matrix.of fun m => ∑ c, w m c • vec m c

/-- Multilinear expansion over the head vectors. -/
theorem det_expand (vec : Fin n → Fin (n + 1) → Fin n → ℝ) (w : Fin n → Fin (n + 1) → ℝ) :
    (mat vec w).det = ∑ f : Heads n, (∏ m, w m (f m)) * (Matrix.of fun m => vec m (f m)).det := by
  have h := (Matrix.detRowAlternating (R := ℝ) (n := Fin n)).toMultilinearMap.map_sum (fun m c => w m c • vec m c)
  refine h.trans (Finset.sum_congr rfl fun f _ => ?_)
  exact ((Matrix.detRowAlternating (R := ℝ) (n := Fin n)).toMultilinearMap.map_smul_univ (fun m => w m (f m)) fun m => vec m (f m)).trans (smul_eq_mul _ _)

/-- The unit vector of a word. -/
def unit (m : Fin n) : Fin n → ℝ := fun j => if j = m then 1 else 0

/-- The vectors of the multi-root Laplacian: `e_m` for the root, `e_m - e_k` for head `k`. -/
def vecMulti (m : Fin n) (c : Fin (n + 1)) : Fin n → ℝ := Fin.cases (unit m) (fun k => unit m - unit k) c

theorem headOf_word (f : Heads n) (m : Fin n) : headOf f (m + 1) = f m := by
  have := m.2
  rw [headOf, dif_pos ⟨by omega, by omega⟩]
  congr

theorem headOf_root (f : Heads n) : headOf f 0 = 0 := by rw [headOf, dif_neg (by omega)]

/-- Word `m` leads to the root iff its head does. -/
theorem leads_iff (f : Heads n) (m : Fin n) : Dominates f 0 (m + 1) ↔ Dominates f 0 (f m) := by
  constructor
  · rintro ⟨t, ht⟩
    cases t with
    | zero => simp at ht
    | succ t => exact ⟨t, by rw [← headOf_word f m, ← Function.iterate_succ_apply]; exact ht⟩
  · rintro ⟨t, ht⟩
    exact ⟨t + 1, by rw [Function.iterate_succ_apply, headOf_word]; exact ht⟩

theorem vecMulti_root (m j : Fin n) : vecMulti m 0 j = if j = m then 1 else 0 := rfl

theorem vecMulti_word (m k j : Fin n) : vecMulti m k.succ j = (if j = m then 1 else 0) - if j = k then 1 else 0 := rfl

theorem det_tree (f : Heads n) (hf : IsDepTree f) : (Matrix.of fun m => vecMulti m (f m)).det = 1 := by
  classical
  rw [Matrix.det_apply, Finset.sum_eq_single 1]
  · rw [Equiv.Perm.sign_one, one_smul]
    refine Finset.prod_eq_one fun m _ => ?_
    rw [Equiv.Perm.one_apply, Matrix.of_apply]
    cases hc : f m using Fin.cases with
    | zero => rw [vecMulti_root, if_pos rfl]
    | succ k =>
      rw [vecMulti_word, if_pos rfl, if_neg, sub_zero]
      rintro rfl
      -- a word that is its own head never leads to the root
      obtain ⟨t, ht⟩ := hf m
      have : ∀ t, (headOf f)^[t] (m + 1) = m + 1 := fun t => Function.iterate_fixed (by rw [headOf_word, hc]; rfl) t
      rw [this] at ht
      omega
  · intro σ _ hσ
    by_contra hne
    have hall : ∀ m, vecMulti (σ m) (f (σ m)) m ≠ 0 := fun m hz =>
      hne (by rw [Finset.prod_eq_zero (Finset.mem_univ m) (by rw [Matrix.of_apply]; exact hz), smul_zero])
    obtain ⟨j, hj⟩ : ∃ j, σ j ≠ j := by
      by_contra hcon
      exact hσ (Equiv.ext fun j => not_not.1 fun h => hcon ⟨j, h⟩)
    have hmove : ∀ j, σ j ≠ j → headOf f (σ j + 1) = j + 1 := by
      intro j hj
      have h1 := hall j
      rw [headOf_word]
      cases hc : f (σ j) using Fin.cases with
      | zero => rw [hc, vecMulti_root, if_neg (Ne.symm hj)] at h1; exact absurd rfl h1
      | succ k =>
        rw [hc, vecMulti_word, if_neg (Ne.symm hj)] at h1
        by_cases hk : j = k
        · rw [hk]; rfl
        · rw [if_neg hk, sub_zero] at h1; exact absurd rfl h1
    have hstay : ∀ t, ∀ j, σ j ≠ j → (headOf f)^[t] (j + 1) ≠ 0 := by
      intro t
      induction t with
      | zero => intro j _; simp
      | succ t ih =>
        intro j hj
        have hinv : σ (σ⁻¹ j) = j := σ.apply_symm_apply j
        have hj' : σ (σ⁻¹ j) ≠ σ⁻¹ j := by
          rw [hinv]
          intro hc
          exact hj (by rw [← hc] at hinv; exact hinv)
        have h1 := hmove (σ⁻¹ j) hj'
        rw [hinv] at h1
        rw [Function.iterate_succ_apply, h1]
        exact ih _ hj'
    obtain ⟨t, ht⟩ := hf j
    exact hstay t j hj ht
  · simp

theorem det_cyclic (f : Heads n) (hf : ¬ IsDepTree f) : (Matrix.of fun m => vecMulti m (f m)).det = 0 := by
  classical
  refine Matrix.exists_mulVec_eq_zero_iff.1 ⟨fun j => if Dominates f 0 (j + 1) then 0 else 1, ?_, ?_⟩
  · intro hz
    refine hf fun k => ?_
    have := congrFun hz k
    by_contra hc
    simp only [hc, if_false, Pi.zero_apply] at this
    exact one_ne_zero this
  · funext m
    rw [Matrix.mulVec, dotProduct, Pi.zero_apply]
    simp only [Matrix.of_apply]
    cases hc : f m using Fin.cases with
    | zero =>
      simp only [vecMulti_root, ite_mul, one_mul, zero_mul, Finset.sum_ite_eq', Finset.mem_univ, if_true]
      rw [if_pos]
      rw [leads_iff, hc]
      exact ⟨0, rfl⟩
    | succ k =>
      simp only [vecMulti_word, sub_mul, ite_mul, one_mul, zero_mul, Finset.sum_sub_distrib, Finset.sum_ite_eq', Finset.mem_univ, if_true]
      have : Dominates f 0 (m + 1) ↔ Dominates f 0 (k + 1) := by rw [leads_iff, hc]; rfl
      simp only [this, sub_self]

open Classical in
theorem det_multi (f : Heads n) : (Matrix.of fun m => vecMulti m (f m)).det = if IsDepTree f then 1 else 0 := by
  split_ifs with h
  · exact det_tree f h
  · exact det_cyclic f h

/-- The vectors of the single-root matrix, with the special coordinate `z`: `e_z` for the root, `e_m - e_k` with coordinate `z` cleared for head `k`. -/
def vecSingle (z m : Fin n) (c : Fin (n + 1)) : Fin n → ℝ := Fin.cases (unit z) (fun k j => if j = z then 0 else (unit m - unit k) j) c

theorem vecSingle_root (z m j : Fin n) : vecSingle z m 0 j = if j = z then 1 else 0 := rfl

theorem vecSingle_word (z m k j : Fin n) : vecSingle z m k.succ j = if j = z then 0 else (if j = m then 1 else 0) - if j = k then 1 else 0 := rfl

theorem sum_vecMulti (m : Fin n) (c : Fin (n + 1)) : ∑ j, vecMulti m c j = if c = 0 then 1 else 0 := by
  cases c using Fin.cases with
  | zero => simp [vecMulti_root]
  | succ k => simp [vecMulti_word, Fin.succ_ne_zero]

open Classical in
theorem det_single (z : Fin n) (f : Heads n) :
    (Matrix.of fun m => vecSingle z m (f m)).det = if IsDepTree f ∧ IsSingleRoot f then 1 else 0 := by
  by_cases hs : IsSingleRoot f
  · obtain ⟨r, hr, huniq⟩ := id hs
    simp only at hr huniq
    have h1 := Matrix.det_updateCol_sum (Matrix.of fun m => vecMulti m (f m)) z fun _ => 1
    simp only [one_smul, Matrix.of_apply, sum_vecMulti] at h1
    have h2 : Matrix.updateCol (Matrix.of fun m => vecMulti m (f m)) z (fun k => if f k = 0 then 1 else 0) =
        Matrix.updateRow (Matrix.of fun m => vecSingle z m (f m)) r (unit z + fun j => if j = z then 0 else unit r j) := by
      funext m j
      rw [Matrix.updateCol_apply, Matrix.updateRow_apply, Matrix.of_apply, Matrix.of_apply]
      by_cases hm : m = r
      · subst hm
        rw [if_pos rfl, if_pos hr, hr, vecMulti_root, Pi.add_apply, unit]
        by_cases hj : j = z
        · simp [hj]
        · simp [hj, unit]
      · rw [if_neg hm]
        have : f m ≠ 0 := fun h => hm (huniq m h)
        rw [if_neg this]
        obtain ⟨k, hk⟩ := Fin.exists_succ_eq.2 this
        rw [← hk, vecMulti_word, vecSingle_word]
    rw [h2, Matrix.det_updateRow_add] at h1
    have h3 : Matrix.updateRow (Matrix.of fun m => vecSingle z m (f m)) r (unit z) = Matrix.of fun m => vecSingle z m (f m) := by
      funext m j
      rw [Matrix.updateRow_apply]
      split_ifs with hm
      · rw [hm, Matrix.of_apply, hr]; rfl
      · rfl
    have h4 : (Matrix.updateRow (Matrix.of fun m => vecSingle z m (f m)) r (fun j => if j = z then 0 else unit r j)).det = 0 := by
      refine Matrix.det_eq_zero_of_column_eq_zero z fun m => ?_
      rw [Matrix.updateRow_apply, Matrix.of_apply]
      by_cases hm : m = r
      · rw [if_pos hm, if_pos rfl]
      · rw [if_neg hm]
        have : f m ≠ 0 := fun h => hm (huniq m h)
        obtain ⟨k, hk⟩ := Fin.exists_succ_eq.2 this
        rw [← hk, vecSingle_word, if_pos rfl]
    rw [h3, h4, add_zero] at h1
    rw [h1, det_multi]
    simp only [hs, and_true]
  · rw [if_neg fun h => hs h.2]
    by_cases hz : ∃ r, f r = 0
    · obtain ⟨r, hr⟩ := hz
      obtain ⟨r', hr', hne⟩ : ∃ r', f r' = 0 ∧ r' ≠ r := by
        by_contra hcon
        exact hs ⟨r, hr, fun y hy => not_not.1 fun h => hcon ⟨y, hy, h⟩⟩
      exact Matrix.det_zero_of_row_eq hne (by funext j; rw [Matrix.of_apply, Matrix.of_apply, hr, hr']; rfl)
    · refine Matrix.det_eq_zero_of_column_eq_zero z fun m => ?_
      have : f m ≠ 0 := fun h => hz ⟨m, h⟩
      obtain ⟨k, hk⟩ := Fin.exists_succ_eq.2 this
      rw [Matrix.of_apply, ← hk, vecSingle_word, if_pos rfl]

/-- The vectors of both modes. -/
def vec (multiroot : Bool) (z : Fin n) : Fin n → Fin (n + 1) → Fin n → ℝ := if multiroot then vecMulti else vecSingle z

open Classical in
theorem det_vec (multiroot : Bool) (z : Fin n) (f : Heads n) :
    (Matrix.of fun m => vec multiroot z m (f m)).det = if IsDepTree f ∧ (multiroot = false → IsSingleRoot f) then 1 else 0 := by
  cases multiroot with
  | true => exact (det_multi f).trans (by simp)
  | false => exact (det_single z f).trans (by simp)

/-- **Matrix-tree theorem**, both root modes. -/
theorem matrix_tree (multiroot : Bool) (z : Fin n) (w : Fin n → Fin (n + 1) → ℝ) :
    (mat (vec multiroot z) w).det = ∑ t : SpanTrees multiroot n, ∏ m, w m (t.1 m) := by
  classical
  rw [det_expand]
  simp only [det_vec, mul_ite, mul_one, mul_zero]
  rw [← Finset.sum_filter]
  refine Finset.sum_subtype _ (fun f => ?_) _
  simp

open Classical in
/-- Fixing the head of one word: the determinant with row `m` replaced. -/
theorem arc_sum (multiroot : Bool) (z : Fin n) (w : Fin n → Fin (n + 1) → ℝ) (m : Fin n) (c : Fin (n + 1)) :
    (∑ t : SpanTrees multiroot n, if t.1 m = c then ∏ j, w j (t.1 j) else 0) =
      w m c * ((mat (vec multiroot z) w).updateRow m (vec multiroot z m c)).det := by
  rw [← Matrix.det_updateRow_smul]
  have e : (mat (vec multiroot z) w).updateRow m (w m c • vec multiroot z m c) =
      mat (vec multiroot z) fun j d => if j = m then (if d = c then w m c else 0) else w j d := by
    funext j k
    rw [Matrix.updateRow_apply]
    split_ifs with hj
    · subst hj
      simp only [mat, Matrix.of_apply, if_true, ite_smul, zero_smul, Finset.sum_ite_eq', Finset.mem_univ]
    · simp only [mat, Matrix.of_apply, hj, if_false]
  rw [e, matrix_tree]
  refine Finset.sum_congr rfl fun t _ => ?_
  split_ifs with h
  · refine Finset.prod_congr rfl fun j _ => ?_
    split_ifs with hj hc
    · rw [hj, h]
    · exact absurd (hj ▸ h) (by rw [hj] at hc; exact fun _ => hc h)
    · rfl
  · exact (Finset.prod_eq_zero (Finset.mem_univ m) (by rw [if_pos rfl, if_neg h])).symm

/-- The same by the inverse of the transposed matrix. -/
theorem arc_sum_inv (multiroot : Bool) (z : Fin n) (w : Fin n → Fin (n + 1) → ℝ) (L : Matrix (Fin n) (Fin n) ℝ)
    (hL : L.transpose = mat (vec multiroot z) w) (hdet : L.det ≠ 0) (m : Fin n) (c : Fin (n + 1)) :
    ((mat (vec multiroot z) w).updateRow m (vec multiroot z m c)).det = L.det * ∑ j, L⁻¹ m j * vec multiroot z m c j := by
  rw [← hL, ← Matrix.cramer_transpose_apply, Matrix.transpose_transpose, Matrix.cramer_eq_adjugate_mulVec]
  have : L.adjugate = L.det • L⁻¹ := by
    rw [Matrix.inv_def, smul_smul, Ring.mul_inverse_cancel _ (isUnit_iff_ne_zero.2 hdet), one_smul]
  rw [this, Matrix.mulVec, dotProduct, Finset.mul_sum]
  refine Finset.sum_congr rfl fun j _ => ?_
  rw [Matrix.smul_apply, smul_eq_mul]; ring

end MatrixTree
