import Verif.Props.NonProjLengths

/-! `lengths` in `NonProjectiveDependencyCRF`, both root modes, for the default `eps`: C31.  The words outside the sentence are attached to one additional word,
the star, whose head is fixed: the root with several roots, the first word with a single root.  Then the determinant of the code is the sum over the trees
over `N + 1` words. -/

open Spec MatrixTree

noncomputable section
namespace Props.NonProj
open _root_.NonProj

/-- The head of the star. -/
def starHead (multiroot : Bool) (N : ℕ) : Fin (N + 2) := if multiroot then 0 else 1

/-- The weights of the heads of a word: the root, the words, the star. -/
def starW (multiroot : Bool) (eps : ℝ) (s : ℕ → ℕ → ℝ) (l : ℕ) {N : ℕ} (m : Fin (N + 1)) (c : Fin (N + 2)) : ℝ :=
  if (m : ℕ) < N then
    if (c : ℕ) = 0 then expIn s (some l) m m
    else if (c : ℕ) = N + 1 then offset (some l) m
    else if (c : ℕ) = m + 1 then 0 else expIn s (some l) ((c : ℕ) - 1) m + eps
  else if c = starHead multiroot N then 1 else 0

section weights
variable (mr : Bool) (eps : ℝ) (s : ℕ → ℕ → ℝ) (l : ℕ) {N : ℕ}

theorem starW_root (m : Fin N) : starW mr eps s l m.castSucc 0 = expIn s (some l) m m := by
  rw [starW, if_pos (show (m.castSucc : ℕ) < N from m.2)]; rfl

theorem starW_star (m : Fin N) : starW mr eps s l m.castSucc (Fin.last N).succ = offset (some l) m := by
  rw [starW, if_pos (show (m.castSucc : ℕ) < N from m.2), if_neg (by simp), if_pos (by simp)]; rfl

theorem starW_word (m k : Fin N) : starW mr eps s l m.castSucc k.castSucc.succ = headW eps s (some l) m k.succ := by
  have := k.2
  rw [starW, if_pos (show (m.castSucc : ℕ) < N from m.2), if_neg (by simp), if_neg (by simp; omega), headW_word]
  by_cases h : k = m
  · rw [if_pos h, if_pos (by rw [h]; simp)]
  · rw [if_neg h, if_neg (by simp; exact fun hc => h (Fin.ext hc))]
    simp

theorem starW_last (c : Fin (N + 2)) : starW mr eps s l (Fin.last N) c = if c = starHead mr N then 1 else 0 := by
  rw [starW, if_neg (by simp)]

end weights

/-! ### The determinant -/

theorem det_last {N : ℕ} (A : Matrix (Fin (N + 1)) (Fin (N + 1)) ℝ) (h : ∀ j, A (Fin.last N) j = if j = Fin.last N then 1 else 0) :
    A.det = (A.submatrix Fin.castSucc Fin.castSucc).det := by
  rw [Matrix.det_succ_row A (Fin.last N), Finset.sum_eq_single (Fin.last N)]
  · rw [h, if_pos rfl, mul_one]
    have e : ((-1 : ℝ)) ^ ((Fin.last N : ℕ) + (Fin.last N : ℕ)) = 1 := by rw [← two_mul, pow_mul]; norm_num
    rw [e, one_mul, Fin.succAbove_last]
  · intro j _ hj
    rw [h, if_neg hj]; ring
  · simp

/-- The matrix over the words and the star. -/
def starM (mr : Bool) (eps : ℝ) (s : ℕ → ℕ → ℝ) (l N : ℕ) : Matrix (Fin (N + 1)) (Fin (N + 1)) ℝ := mat (vec mr 0) (starW mr eps s l)

theorem starM_last (mr : Bool) (eps : ℝ) (s : ℕ → ℕ → ℝ) (l : ℕ) {N : ℕ} (hN : 1 ≤ N) (j : Fin (N + 1)) :
    starM mr eps s l N (Fin.last N) j = if j = Fin.last N then 1 else 0 := by
  have hl : Fin.last N ≠ 0 := fun hc => by have := congrArg Fin.val hc; simp at this; omega
  simp only [starM, mat, Matrix.of_apply, Finset.sum_apply, Pi.smul_apply, smul_eq_mul, starW_last, ite_mul, one_mul, zero_mul, Finset.sum_ite_eq',
    Finset.mem_univ, if_true]
  cases mr with
  | true => simp only [starHead, vec, if_true, vecMulti_root]
  | false =>
    have e : (1 : Fin (N + 2)) = (0 : Fin (N + 1)).succ := rfl
    simp only [starHead, vec, Bool.false_eq_true, if_false, e, vecSingle_word]
    by_cases hj : j = 0
    · rw [if_pos hj, if_neg fun hc => hl (hc.symm.trans hj)]
    · rw [if_neg hj, if_neg hj, sub_zero]

theorem starM_words (mr : Bool) (eps : ℝ) (s : ℕ → ℕ → ℝ) {l N : ℕ} (hl : 1 ≤ l) (j m : Fin N) :
    starM mr eps s l N m.castSucc j.castSucc = matrix mr eps s (some l) N j m := by
  have hlast : ∀ j : Fin N, j.castSucc ≠ Fin.last N := fun j => (Fin.castSucc_lt_last j).ne
  have hsum := sum_words eps s (some l) j m
  rw [starM, mat, Matrix.of_apply, Finset.sum_apply, Fin.sum_univ_succ, Fin.sum_univ_castSucc]
  simp only [Pi.smul_apply, smul_eq_mul, starW_root, starW_star, starW_word]
  rw [matrix, Matrix.of_apply, full]
  cases mr with
  | true =>
    simp only [vec, if_true, vecMulti_root, vecMulti_word, Fin.castSucc_inj, hlast, if_false, sub_zero]
    rw [hsum, lap, sum_offDiag]
    by_cases h : j = m
    · subst h; simp only [if_true]; ring
    · have h' : (j : ℕ) ≠ m := fun hc => h (Fin.ext hc)
      simp only [h, h', if_false]; ring
  | false =>
    simp only [vec, Bool.false_eq_true, if_false, vecSingle_root, vecSingle_word, Fin.castSucc_inj, hlast, sub_zero]
    by_cases hj : (j : ℕ) = 0
    · have : j.castSucc = 0 := Fin.ext hj
      simp [this, hj]
    · have : j.castSucc ≠ 0 := fun hc => hj (congrArg Fin.val hc)
      simp only [this, hj, if_false]
      rw [hsum, lap, sum_offDiag]
      by_cases h : j = m
      · subst h; simp
      · have h' : (j : ℕ) ≠ m := fun hc => h (Fin.ext hc)
        simp [h, h']

/-- The determinant of the code is the sum over the trees over the words and the star. -/
theorem det_lengths (mr : Bool) (eps : ℝ) (s : ℕ → ℕ → ℝ) {l N : ℕ} (hl : 1 ≤ l) (hN : 1 ≤ N) :
    (matrix mr eps s (some l) N).det = ∑ t : SpanTrees mr (N + 1), ∏ m, starW mr eps s l m (t.1 m) := by
  rw [← matrix_tree mr 0, ← Matrix.det_transpose, ← starM, det_last _ (starM_last mr eps s l hN)]
  congr 1
  funext m j
  exact (starM_words mr eps s hl j m).symm

open Classical in
/-- The trees in which a word has a given head. -/
theorem arc_lengths (mr : Bool) (eps : ℝ) (s : ℕ → ℕ → ℝ) {l N : ℕ} (hl : 1 ≤ l) (hN : 1 ≤ N) (hdet : (matrix mr eps s (some l) N).det ≠ 0)
    (m : Fin N) (c : Fin (N + 2)) :
    (∑ t : SpanTrees mr (N + 1), if t.1 m.castSucc = c then ∏ j, starW mr eps s l j (t.1 j) else 0) =
      starW mr eps s l m.castSucc c * ((matrix mr eps s (some l) N).det *
        ∑ j : Fin N, (matrix mr eps s (some l) N)⁻¹ m j * vec mr 0 m.castSucc c j.castSucc) := by
  rw [arc_sum mr 0]
  congr 1
  rw [← starM, det_last]
  · have e : ((starM mr eps s l N).updateRow m.castSucc (vec mr 0 m.castSucc c)).submatrix Fin.castSucc Fin.castSucc =
        (matrix mr eps s (some l) N).transpose.updateRow m fun j => vec mr 0 m.castSucc c j.castSucc := by
      funext i j
      rw [Matrix.submatrix_apply, Matrix.updateRow_apply, Matrix.updateRow_apply, Matrix.transpose_apply, starM_words mr eps s hl]
      simp only [Fin.castSucc_inj]
    rw [e, ← Matrix.cramer_transpose_apply, Matrix.transpose_transpose, Matrix.cramer_eq_adjugate_mulVec]
    have : (matrix mr eps s (some l) N).adjugate = (matrix mr eps s (some l) N).det • (matrix mr eps s (some l) N)⁻¹ := by
      rw [Matrix.inv_def, smul_smul, Ring.mul_inverse_cancel _ (isUnit_iff_ne_zero.2 hdet), one_smul]
    rw [this, Matrix.mulVec, dotProduct, Finset.mul_sum]
    refine Finset.sum_congr rfl fun j _ => ?_
    rw [Matrix.smul_apply, smul_eq_mul]; ring
  · intro j
    rw [Matrix.updateRow_ne (Fin.castSucc_lt_last m).ne']
    exact starM_last mr eps s l hN j

theorem expIn_nonneg (s : ℕ → ℕ → ℝ) (len : Option ℕ) (h m : ℕ) : 0 ≤ expIn s len h m := by
  rw [expIn]; split_ifs
  · exact Real.exp_nonneg _
  · exact le_rfl

/-! ### The marginals in terms of the trees -/

open Classical in
/-- The probability that a word has a given head, under the trees over the words and the star. -/
def starProb (mr : Bool) (eps : ℝ) (s : ℕ → ℕ → ℝ) (l : ℕ) {N : ℕ} (m : Fin N) (c : Fin (N + 2)) : ℝ :=
  (∑ t : SpanTrees mr (N + 1), if t.1 m.castSucc = c then ∏ j, starW mr eps s l j (t.1 j) else 0) /
    ∑ t : SpanTrees mr (N + 1), ∏ j, starW mr eps s l j (t.1 j)

theorem marginal_lengths (mr : Bool) {eps : ℝ} (he : 0 ≤ eps) (s : ℕ → ℕ → ℝ) {l N : ℕ} (hl : 1 ≤ l) (hdet : (matrix mr eps s (some l) N).det ≠ 0)
    (h m : Fin N) :
    marginal mr s (some l) (matrix mr eps s (some l) N)⁻¹ h m =
      if (h : ℕ) < l ∧ (m : ℕ) < l then
        if h = m then starProb mr eps s l m 0 else starProb mr eps s l m h.castSucc.succ * (Real.exp (s h m) / (Real.exp (s h m) + eps))
      else 0 := by
  have hn : 0 < N := Nat.lt_of_le_of_lt (Nat.zero_le _) m.2
  by_cases hin : (h : ℕ) < l ∧ (m : ℕ) < l
  swap
  · rw [if_neg hin]
    have e1 : expIn s (some l) h m = 0 := exp_some_out s hin
    have e2 : (if h = m then expIn s (some l) m m else 0) = 0 := by
      split_ifs with hm
      · exact exp_some_out s (by rw [hm] at hin; exact hin)
      · rfl
    rw [marginal]
    split_ifs with h1 h2 h3 h4 h5 h6 <;> simp_all
  rw [if_pos hin]
  have he' : Real.exp (s h m) + eps ≠ 0 := by have := Real.exp_pos (s h m); linarith
  have hexp : expIn s (some l) h m = Real.exp (s h m) := exp_some_in s hin.1 hin.2
  have hexm : expIn s (some l) m m = Real.exp (s m m) := exp_some_in s hin.2 hin.2
  have key : ∀ c, starProb mr eps s l m c = starW mr eps s l m.castSucc c *
      ∑ j : Fin N, (matrix mr eps s (some l) N)⁻¹ m j * vec mr 0 m.castSucc c j.castSucc := by
    intro c
    have h1 := arc_lengths mr eps s hl hn hdet m c
    rw [starProb, ← det_lengths mr eps s hl hn, h1]
    field_simp
  rw [key, key]
  simp only [marginal, hexp, hexm, starW_root, starW_word]
  cases mr with
  | true =>
    by_cases hm : h = m
    · subst hm
      simp [vec, vecMulti_root, Fin.castSucc_inj]
    · rw [if_pos rfl, if_neg hm, if_neg hm, headW_word, if_neg hm, hexp]
      simp only [vec, if_true, vecMulti_word, Fin.castSucc_inj, mul_sub, mul_ite, mul_one, mul_zero, Finset.sum_sub_distrib, Finset.sum_ite_eq', Finset.mem_univ]
      field_simp
      ring
  | false =>
    have hzero : ∀ x : Fin N, x.castSucc = 0 ↔ (x : ℕ) = 0 := fun x => Fin.ext_iff
    by_cases hm : h = m
    · subst hm
      have hz : ∀ x : Fin N, (x : ℕ) = 0 ↔ x = ⟨0, hn⟩ := fun x => (Fin.ext_iff (a := x) (b := ⟨0, hn⟩)).symm
      simp [vec, vecSingle_root, hzero, hz]
    · rw [if_neg (by simp), if_neg hm, if_neg hm, headW_word, if_neg hm, hexp]
      have hsum : (∑ j : Fin N, (matrix false eps s (some l) N)⁻¹ m j * vec false 0 m.castSucc h.castSucc.succ j.castSucc) =
          (if (m : ℕ) = 0 then 0 else (matrix false eps s (some l) N)⁻¹ m m) - if (h : ℕ) = 0 then 0 else (matrix false eps s (some l) N)⁻¹ m h := by
        have : ∀ j : Fin N, (matrix false eps s (some l) N)⁻¹ m j * vec false 0 m.castSucc h.castSucc.succ j.castSucc =
            (if j = m then (if (m : ℕ) = 0 then 0 else (matrix false eps s (some l) N)⁻¹ m m) else 0) -
              if j = h then (if (h : ℕ) = 0 then 0 else (matrix false eps s (some l) N)⁻¹ m h) else 0 := by
          intro j
          simp only [vec, Bool.false_eq_true, if_false, vecSingle_word, hzero, Fin.castSucc_inj]
          by_cases h1 : j = m
          · subst h1
            by_cases h2 : (j : ℕ) = 0
            · simp [h2, Ne.symm hm]
            · simp [h2, Ne.symm hm]
          · by_cases h3 : j = h
            · subst h3
              by_cases h2 : (j : ℕ) = 0
              · simp [h2, h1]
              · simp [h2, h1]
            · simp [h1, h3]
        rw [Finset.sum_congr rfl fun j _ => this j, Finset.sum_sub_distrib]
        simp
      rw [hsum]
      split_ifs <;> field_simp <;> ring

/-! ### The sentence alone: scores that contain `eps` -/

/-- Scores that give the smoothed weights with `eps = 0`. -/
def smooth (eps : ℝ) (s : ℕ → ℕ → ℝ) (h m : ℕ) : ℝ := if h = m then s h m else Real.log (Real.exp (s h m) + eps)

theorem exp_smooth {eps : ℝ} (he : 0 ≤ eps) (s : ℕ → ℕ → ℝ) {h m : ℕ} (hm : h ≠ m) : Real.exp (smooth eps s h m) = Real.exp (s h m) + eps := by
  rw [smooth, if_neg hm, Real.exp_log]
  have := Real.exp_pos (s h m)
  linarith

theorem smooth_root (eps : ℝ) (s : ℕ → ℕ → ℝ) (m : ℕ) : smooth eps s m m = s m m := if_pos rfl

theorem weight_smooth {eps : ℝ} (he : 0 ≤ eps) (s : ℕ → ℕ → ℝ) {n : ℕ} {t : Heads n} (ht : IsDepTree t) : weight 0 (smooth eps s) t = weight eps s t := by
  refine Finset.prod_congr rfl fun m _ => ?_
  split_ifs with h0
  · rw [smooth_root]
  · rw [exp_smooth he, add_zero]
    intro hc
    refine tree_ne ht m (Fin.ext ?_)
    have : (t m : ℕ) ≠ 0 := fun h => h0 (Fin.ext h)
    rw [Fin.val_succ]
    omega

theorem total_smooth (mr : Bool) {eps : ℝ} (he : 0 ≤ eps) (s : ℕ → ℕ → ℝ) (n : ℕ) : total mr 0 (smooth eps s) n = total mr eps s n :=
  Finset.sum_congr rfl fun t _ => weight_smooth he s t.2.1

theorem prob_smooth (mr : Bool) {eps : ℝ} (he : 0 ≤ eps) (s : ℕ → ℕ → ℝ) {n : ℕ} (m : Fin n) (c : Fin (n + 1)) : prob mr 0 (smooth eps s) m c = prob mr eps s m c := by
  rw [prob, prob, total_smooth mr he]
  congr 1
  exact Finset.sum_congr rfl fun t _ => by rw [weight_smooth he s t.2.1]

theorem headTotal_smooth {eps : ℝ} (he : 0 ≤ eps) (s : ℕ → ℕ → ℝ) (l m : ℕ) : headTotal 0 (smooth eps s) l m = headTotal eps s l m := by
  rw [headTotal, headTotal, smooth_root]
  congr 1
  refine Finset.sum_congr rfl fun k hk => ?_
  rw [exp_smooth he _ (Finset.ne_of_mem_erase hk), add_zero]

/-- Without the leaks every weight is at most the weight with them. -/
theorem starW_le (mr : Bool) {eps : ℝ} (he : 0 ≤ eps) (s : ℕ → ℕ → ℝ) (l : ℕ) {N : ℕ} (m : Fin (N + 1)) (c : Fin (N + 2)) :
    0 ≤ starW mr 0 (smooth eps s) l m c ∧ starW mr 0 (smooth eps s) l m c ≤ starW mr eps s l m c := by
  have hoff : 0 ≤ offset (some l) m := by rw [offset]; split_ifs <;> norm_num
  have hroot : expIn (smooth eps s) (some l) m m = expIn s (some l) m m := by rw [expIn, expIn, smooth_root]
  rw [starW, starW]
  by_cases h1 : (m : ℕ) < N
  · rw [if_pos h1, if_pos h1]
    by_cases h2 : (c : ℕ) = 0
    · rw [if_pos h2, if_pos h2, hroot]
      exact ⟨expIn_nonneg _ _ _ _, le_rfl⟩
    · rw [if_neg h2, if_neg h2]
      by_cases h3 : (c : ℕ) = N + 1
      · rw [if_pos h3, if_pos h3]; exact ⟨hoff, le_rfl⟩
      · rw [if_neg h3, if_neg h3]
        by_cases h4 : (c : ℕ) = m + 1
        · rw [if_pos h4, if_pos h4]; exact ⟨le_rfl, le_rfl⟩
        · rw [if_neg h4, if_neg h4, add_zero]
          refine ⟨expIn_nonneg _ _ _ _, ?_⟩
          by_cases h5 : (c : ℕ) - 1 < l ∧ (m : ℕ) < l
          · rw [exp_some_in _ h5.1 h5.2, exp_some_in _ h5.1 h5.2, exp_smooth he _ (by omega)]
          · rw [exp_some_out _ h5, exp_some_out _ h5]; linarith
  · rw [if_neg h1, if_neg h1]
    split_ifs <;> norm_num

/-- The trees without leaks are the trees of the sentence. -/
theorem star_tight (mr : Bool) {eps : ℝ} (he : 0 ≤ eps) (s : ℕ → ℕ → ℝ) {l N : ℕ} (hl : 1 ≤ l) (hlN : l ≤ N) :
    (∑ t : SpanTrees mr (N + 1), ∏ m, starW mr 0 (smooth eps s) l m (t.1 m)) = total mr eps s l := by
  rw [← det_lengths mr 0 _ hl (by omega)]
  obtain ⟨d, rfl⟩ := Nat.exists_eq_add_of_le hlN
  rw [det_block mr _ l d (Or.inr hl), det_matrix mr 0 _ (Or.inr hl), total_smooth mr he]

theorem sum_starW (mr : Bool) (eps : ℝ) (s : ℕ → ℕ → ℝ) (l : ℕ) {N : ℕ} (m : Fin N) :
    ∑ c, starW mr eps s l m.castSucc c = ∑ c, headW eps s (some l) m c := by
  rw [Fin.sum_univ_succ, Fin.sum_univ_castSucc, starW_root, starW_star, Fin.sum_univ_succ, headW_root]
  simp only [starW_word]
  ring

/-- What leaks at most, in both root modes. -/
def leakBound (eps : ℝ) (s : ℕ → ℕ → ℝ) (l N : ℕ) : ℝ :=
  (∏ m ∈ Finset.range l, (headTotal eps s l m + (N - l) * eps)) * (1 + (N - 1) * eps) ^ (N - l) - ∏ m ∈ Finset.range l, headTotal eps s l m

theorem prod_sum_starW (mr : Bool) (eps : ℝ) (s : ℕ → ℕ → ℝ) (l d : ℕ) :
    ∏ m : Fin (l + d + 1), ∑ c, starW mr eps s l m c =
      (∏ m ∈ Finset.range l, (headTotal eps s l m + d * eps)) * (1 + (l + d - 1) * eps) ^ d := by
  rw [Fin.prod_univ_castSucc]
  have h1 : ∑ c, starW mr eps s l (Fin.last (l + d)) c = 1 := by simp [starW_last]
  rw [h1, mul_one]
  simp only [sum_starW]
  rw [Fin.prod_univ_add]
  simp only [(sum_head_in eps s _).1, (sum_head_out eps s _).1, Finset.prod_const, Finset.card_univ, Fintype.card_fin]
  rw [Finset.prod_range]

theorem leak_le (mr : Bool) {eps : ℝ} (he : 0 ≤ eps) (s : ℕ → ℕ → ℝ) {l N : ℕ} (hl : 1 ≤ l) (hlN : l ≤ N) :
    total mr eps s l ≤ (matrix mr eps s (some l) N).det ∧ (matrix mr eps s (some l) N).det ≤ total mr eps s l + leakBound eps s l N := by
  classical
  have hterm : ∀ f : Heads (N + 1), 0 ≤ (∏ m, starW mr eps s l m (f m)) - ∏ m, starW mr 0 (smooth eps s) l m (f m) := fun f =>
    sub_nonneg.2 (Finset.prod_le_prod (fun m _ => (starW_le mr he s l m _).1) fun m _ => (starW_le mr he s l m _).2)
  rw [det_lengths mr eps s hl (by omega), ← star_tight mr he s hl hlN]
  refine ⟨Finset.sum_le_sum fun t _ => sub_nonneg.1 (hterm t.1), ?_⟩
  rw [← sub_le_iff_le_add', ← Finset.sum_sub_distrib]
  have h1 : (∑ t : SpanTrees mr (N + 1), ((∏ m, starW mr eps s l m (t.1 m)) - ∏ m, starW mr 0 (smooth eps s) l m (t.1 m))) ≤
      ∑ f : Heads (N + 1), ((∏ m, starW mr eps s l m (f m)) - ∏ m, starW mr 0 (smooth eps s) l m (f m)) := by
    rw [← Finset.sum_subtype (Finset.univ.filter fun f : Heads (N + 1) => IsDepTree f ∧ (mr = false → IsSingleRoot f)) (fun f => by simp)
      fun f => (∏ m, starW mr eps s l m (f m)) - ∏ m, starW mr 0 (smooth eps s) l m (f m)]
    exact Finset.sum_le_univ_sum_of_nonneg hterm
  refine h1.trans (le_of_eq ?_)
  have h2 : ∀ w : Fin (N + 1) → Fin (N + 2) → ℝ, (∑ f : Heads (N + 1), ∏ m, w m (f m)) = ∏ m, ∑ c, w m c := fun w => by
    rw [Finset.prod_univ_sum]; simp only [Fintype.piFinset_univ]
  rw [Finset.sum_sub_distrib, h2, h2]
  obtain ⟨d, rfl⟩ := Nat.exists_eq_add_of_le hlN
  rw [prod_sum_starW, prod_sum_starW, leakBound]
  simp only [headTotal_smooth he, mul_zero, add_zero, one_pow, mul_one, Nat.add_sub_cancel_left]
  push_cast
  rw [add_sub_cancel_left]

/-! ### The value is always too large -/

/-- The tree that shows the leak: the first word is attached to the root, the others to the first word. -/
def leakTree' (mr : Bool) (N : ℕ) : Heads (N + 1) := fun m => if (m : ℕ) = N then starHead mr N else if (m : ℕ) = 0 then 0 else 1

theorem leakTree'_mem (mr : Bool) {N : ℕ} (hN : 1 ≤ N) : IsDepTree (leakTree' mr N) ∧ (mr = false → IsSingleRoot (leakTree' mr N)) := by
  have h0 : Dominates (leakTree' mr N) 0 ((0 : Fin (N + 1)) + 1 : ℕ) :=
    ⟨1, by rw [Function.iterate_one, headOf_word, leakTree', if_neg (show ((0 : Fin (N + 1)) : ℕ) ≠ N by simp; omega), if_pos (show ((0 : Fin (N + 1)) : ℕ) = 0 from rfl)]; rfl⟩
  have h1 : Dominates (leakTree' mr N) 0 ((1 : Fin (N + 2)) : ℕ) := h0
  have hr : Dominates (leakTree' mr N) 0 ((0 : Fin (N + 2)) : ℕ) := ⟨0, rfl⟩
  refine ⟨fun m => ?_, ?_⟩
  · rw [leads_iff, leakTree', starHead]
    split_ifs <;> assumption
  · rintro rfl
    refine ⟨0, ?_, fun m hm => ?_⟩
    · simp only [leakTree']
      rw [if_neg (show ((0 : Fin (N + 1)) : ℕ) ≠ N by simp; omega), if_pos (show ((0 : Fin (N + 1)) : ℕ) = 0 from rfl)]
    · simp only [leakTree', starHead, Bool.false_eq_true, if_false] at hm
      split_ifs at hm with h2 h3
      · exact absurd hm (by simp)
      · exact Fin.ext h3
      · exact absurd hm (by simp)

theorem leak_lt (mr : Bool) {eps : ℝ} (he : 0 < eps) (s : ℕ → ℕ → ℝ) {l N : ℕ} (hl : 1 ≤ l) (hlN : l < N) :
    total mr eps s l < (matrix mr eps s (some l) N).det := by
  rw [det_lengths mr eps s hl (by omega), ← star_tight mr he.le s hl hlN.le]
  refine Finset.sum_lt_sum (fun t _ => Finset.prod_le_prod (fun m _ => (starW_le mr he.le s l m _).1) fun m _ => (starW_le mr he.le s l m _).2)
    ⟨⟨leakTree' mr N, leakTree'_mem mr (by omega)⟩, Finset.mem_univ _, ?_⟩
  have hz : (∏ m, starW mr 0 (smooth eps s) l m (leakTree' mr N m)) = 0 := by
    refine Finset.prod_eq_zero (Finset.mem_univ (⟨N - 1, by omega⟩ : Fin (N + 1))) ?_
    rw [leakTree', if_neg (by simp only; omega), if_neg (by simp only; omega), starW, if_pos (by simp only; omega), if_neg (by simp), if_neg (by simp; omega),
      if_neg (by simp; omega), exp_some_out _ (by simp; omega), add_zero]
  have hpos : 0 < ∏ m, starW mr eps s l m (leakTree' mr N m) := by
    refine Finset.prod_pos fun m _ => ?_
    have hm := m.2
    rw [starW, leakTree']
    by_cases h1 : (m : ℕ) = N
    · rw [if_neg (by omega), if_pos h1, if_pos rfl]; exact one_pos
    · rw [if_pos (by omega), if_neg h1]
      by_cases h2 : (m : ℕ) = 0
      · rw [if_pos h2, if_pos (show ((0 : Fin (N + 2)) : ℕ) = 0 from rfl), exp_some_in _ (show (m : ℕ) < l by omega) (show (m : ℕ) < l by omega)]
        exact Real.exp_pos _
      · rw [if_neg h2, if_neg (show ((1 : Fin (N + 2)) : ℕ) ≠ 0 by simp), if_neg (show ((1 : Fin (N + 2)) : ℕ) ≠ N + 1 by simp; omega),
          if_neg (show ((1 : Fin (N + 2)) : ℕ) ≠ m + 1 by rw [Fin.val_one]; omega)]
        have := expIn_nonneg s (some l) (((1 : Fin (N + 2)) : ℕ) - 1) m
        linarith
  rw [hz]
  exact hpos

/-! ### The marginals -/

theorem star_prob_tight (mr : Bool) {eps : ℝ} (he : 0 ≤ eps) (s : ℕ → ℕ → ℝ) {l N : ℕ} (hl : 1 ≤ l) (hlN : l ≤ N) (h m : Fin l) :
    (if h = m then starProb mr 0 (smooth eps s) l (Fin.castLE hlN m) 0 else starProb mr 0 (smooth eps s) l (Fin.castLE hlN m) (Fin.castLE hlN h).castSucc.succ) =
      if h = m then prob mr eps s m 0 else prob mr eps s m h.succ := by
  obtain ⟨d, rfl⟩ := Nat.exists_eq_add_of_le hlN
  have hpos := total_pos mr he s (n := l) (Or.inr hl)
  have hdet : (matrix mr 0 (smooth eps s) (some l) (l + d)).det ≠ 0 := by
    rw [det_block mr _ l d (Or.inr hl), det_matrix mr 0 _ (Or.inr hl), total_smooth mr he]; exact hpos.ne'
  have h1 := marginal_lengths mr le_rfl (smooth eps s) hl hdet (Fin.castAdd d h) (Fin.castAdd d m)
  have h2 := marginal_block mr (smooth eps s) l d hl (Fin.castAdd d h) (Fin.castAdd d m)
  have h3 := marginal_eq mr (le_refl (0 : ℝ)) (smooth eps s) h m
  have e : ∀ x : ℝ, Real.exp x / (Real.exp x + 0) = 1 := fun x => by rw [add_zero]; exact div_self (Real.exp_ne_zero _)
  rw [h1] at h2
  simp only [Fin.val_castAdd, h.2, m.2, and_self, if_true, dite_true, e, mul_one, Fin.castAdd_inj] at h2
  rw [e, mul_one, prob_smooth mr he, prob_smooth mr he] at h3
  exact h2.trans h3

theorem ratio_close {A A' T D : ℝ} (hT : 0 < T) (h0 : 0 ≤ A) (h1 : A ≤ A') (h2 : A' - A ≤ D - T) (h3 : A ≤ T) : |A' / D - A / T| ≤ (D - T) / T := by
  have hD : T ≤ D := by linarith
  have hD0 : 0 < D := by linarith
  have h4 : A / D ≤ A / T := div_le_div_of_nonneg_left h0 hT hD
  have h5 : A / D ≤ A' / D := div_le_div_of_nonneg_right h1 hD0.le
  have h6 : (A' - A) / D ≤ (D - T) / T := (div_le_div_of_nonneg_right h2 hD0.le).trans (div_le_div_of_nonneg_left (by linarith) hT hD)
  have h7 : A / T - A / D ≤ (D - T) / T := by
    have e : A / T - A / D = A / D * ((D - T) / T) := by field_simp
    rw [e]
    exact mul_le_of_le_one_left (div_nonneg (by linarith) hT.le) ((div_le_one hD0).2 (h3.trans hD))
  rw [sub_div] at h6
  rw [abs_le]
  constructor <;> linarith

theorem starProb_close (mr : Bool) {eps : ℝ} (he : 0 ≤ eps) (s : ℕ → ℕ → ℝ) {l N : ℕ} (hl : 1 ≤ l) (hlN : l ≤ N) (m : Fin N) (c : Fin (N + 2)) :
    |starProb mr eps s l m c - starProb mr 0 (smooth eps s) l m c| ≤ leakBound eps s l N / total mr eps s l := by
  classical
  obtain ⟨b1, b2⟩ := leak_le mr he s hl hlN
  have hpos := total_pos mr he s (n := l) (Or.inr hl)
  have hle : ∀ t : Heads (N + 1), (∏ j, starW mr 0 (smooth eps s) l j (t j)) ≤ ∏ j, starW mr eps s l j (t j) := fun t =>
    Finset.prod_le_prod (fun m _ => (starW_le mr he s l m _).1) fun m _ => (starW_le mr he s l m _).2
  have hnn : ∀ t : Heads (N + 1), 0 ≤ ∏ j, starW mr 0 (smooth eps s) l j (t j) := fun t => Finset.prod_nonneg fun m _ => (starW_le mr he s l m _).1
  rw [starProb, starProb, star_tight mr he s hl hlN, ← det_lengths mr eps s hl (by omega)]
  refine (ratio_close hpos ?_ ?_ ?_ ?_).trans (div_le_div_of_nonneg_right (by linarith) hpos.le)
  · exact Finset.sum_nonneg fun t _ => by split_ifs; exacts [hnn t.1, le_rfl]
  · exact Finset.sum_le_sum fun t _ => by split_ifs; exacts [hle t.1, le_rfl]
  · rw [det_lengths mr eps s hl (by omega), ← star_tight mr he s hl hlN, ← Finset.sum_sub_distrib, ← Finset.sum_sub_distrib]
    refine Finset.sum_le_sum fun t _ => ?_
    split_ifs
    · exact le_rfl
    · have := hle t.1; linarith
  · rw [← star_tight mr he s hl hlN]
    exact Finset.sum_le_sum fun t _ => by split_ifs; exacts [le_rfl, hnn t.1]

/-- The table of the first `L` words of row `b`. -/
def block (p : Table) (b L : ℕ) : Table := ⟨1, L, fun _ => p.get b⟩

/-- **C31, what holds for the default `eps = 1e-5`**, in both root modes.  A row of length `L` is compared with the table of its first `L` words: its partition is at
least that of the block, strictly more if the row is shorter than the table, and its exponential at most `leakBound` more; its marginals differ from those of
the block by at most `leakBound / Z`; the entries outside the sentence are 0.  Missing: equality, which is false. -/
theorem lengths_partial (mr : Bool) (p : Table) (l : List ℕ) (hl : LengthsIn p.batch p.N (some l)) (hN : 1 ≤ p.N) :
    ∃ vs μs, partition mr p (some l) = .ok vs ∧ distMarginals mr p (some l) = .ok μs ∧ vs.length = p.batch ∧ μs.length = p.batch ∧
      ∀ b (hv : b < vs.length) (hμ : b < μs.length), ∃ v v₀ ν, vs[b] = some v ∧
        partition mr (block p b (l.getD b 0)) none = .ok [some v₀] ∧ distMarginals mr (block p b (l.getD b 0)) none = .ok [ν] ∧
        v₀ ≤ v ∧ (l.getD b 0 < p.N → v₀ < v) ∧ Real.exp v ≤ Real.exp v₀ + leakBound (1 / 100000) (p.get b) (l.getD b 0) p.N ∧
        ∀ h m : Fin p.N, if hh : (h : ℕ) < l.getD b 0 ∧ (m : ℕ) < l.getD b 0 then
          |μs[b] h m - ν ⟨h, hh.1⟩ ⟨m, hh.2⟩| ≤ leakBound (1 / 100000) (p.get b) (l.getD b 0) p.N / Real.exp v₀
          else μs[b] h m = 0 := by
  have he : (0 : ℝ) < eps0 := by norm_num [eps0]
  have hlen : ∀ b < p.batch, 1 ≤ l.getD b 0 ∧ l.getD b 0 ≤ p.N := fun b hb => by
    have hb' : b < l.length := by rw [hl.1]; exact hb
    exact hl.2 (l.getD b 0) (by rw [List.getD_eq_getElem _ _ hb']; exact List.getElem_mem _)
  have hdet : ∀ b < p.batch, 0 < (matrix mr eps0 (p.get b) (some (l.getD b 0)) p.N).det := fun b hb =>
    (total_pos mr he.le _ (Or.inr (hlen b hb).1)).trans_le (leak_le mr he.le (p.get b) (hlen b hb).1 (hlen b hb).2).1
  refine ⟨(List.range p.batch).map fun b => some (Real.log (matrix mr eps0 (p.get b) (some (l.getD b 0)) p.N).det),
    (List.range p.batch).map fun b => marginal mr (p.get b) (some (l.getD b 0)) (matrix mr eps0 (p.get b) (some (l.getD b 0)) p.N)⁻¹, ?_, ?_,
    by simp, by simp, fun b hv hμ => ?_⟩
  · rw [partition, part, if_neg (by omega), rows_some _ _ hl.1]
    change Except.ok (List.map _ (List.map _ _)) = _
    rw [List.map_map]
    congr 1
    refine List.map_congr_left fun b hb => ?_
    exact if_pos (hdet b (List.mem_range.1 hb))
  · rw [distMarginals, marginals, if_neg (by omega), rows_some _ _ hl.1]
    change List.mapM _ (List.map _ _) = _
    rw [List.mapM_map]
    exact mapM_ok _ _ _ fun b hb => if_neg (hdet b (List.mem_range.1 hb)).ne'
  · have hb : b < p.batch := by simpa using hv
    obtain ⟨h1, h2⟩ := hlen b hb
    have hd := hdet b hb
    simp only [List.getElem_map, List.getElem_range]
    generalize l.getD b 0 = L at *
    have hT := total_pos mr he.le (p.get b) (n := L) (Or.inr h1)
    obtain ⟨b1, b2⟩ := leak_le mr he.le (p.get b) h1 h2
    refine ⟨_, Real.log (total mr eps0 (p.get b) L), fun h m => if h = m then prob mr eps0 (p.get b) m 0
      else prob mr eps0 (p.get b) m h.succ * (Real.exp (p.get b h m) / (Real.exp (p.get b h m) + eps0)), rfl,
      part_eq mr he.le (block p b L) (Or.inr h1), marginals_eq mr he.le (block p b L) (Or.inr h1), Real.log_le_log hT b1,
      fun hlt => Real.log_lt_log hT (leak_lt mr he (p.get b) h1 hlt), ?_, fun h m => ?_⟩
    · rw [Real.exp_log hd, Real.exp_log hT]; exact b2
    · rw [marginal_lengths mr he.le (p.get b) h1 hd.ne']
      by_cases hh : (h : ℕ) < L ∧ (m : ℕ) < L
      · rw [dif_pos hh, if_pos hh, Real.exp_log hT]
        have hiff : h = m ↔ (⟨h, hh.1⟩ : Fin L) = ⟨m, hh.2⟩ := by rw [Fin.ext_iff, Fin.ext_iff]
        have ht := star_prob_tight mr he.le (p.get b) h1 h2 ⟨h, hh.1⟩ ⟨m, hh.2⟩
        simp only [← hiff] at ht
        change |_ - (if (⟨(h : ℕ), hh.1⟩ : Fin L) = ⟨m, hh.2⟩ then prob mr eps0 (p.get b) (⟨m, hh.2⟩ : Fin L) 0
          else prob mr eps0 (p.get b) (⟨m, hh.2⟩ : Fin L) (⟨h, hh.1⟩ : Fin L).succ * (Real.exp (p.get b h m) / (Real.exp (p.get b h m) + eps0)))| ≤ _
        simp only [← hiff]
        by_cases hm : h = m
        · rw [if_pos hm, if_pos hm]
          rw [if_pos hm, if_pos hm] at ht
          rw [← ht]
          exact starProb_close mr he.le (p.get b) h1 h2 m 0
        · rw [if_neg hm, if_neg hm]
          rw [if_neg hm, if_neg hm] at ht
          rw [← ht, ← sub_mul, abs_mul]
          have hx := Real.exp_pos (p.get b h m)
          have hr : |Real.exp (p.get b h m) / (Real.exp (p.get b h m) + eps0)| ≤ 1 := by
            rw [abs_of_nonneg (div_nonneg hx.le (by linarith)), div_le_one (by linarith)]; linarith
          exact (mul_le_of_le_one_right (abs_nonneg _) hr).trans (starProb_close mr he.le (p.get b) h1 h2 m _)
      · rw [dif_neg hh, if_neg hh]

/-- The hypotheses can be met: two rows of lengths 3 and 1. -/
example : LengthsIn sample.batch sample.N (some [3, 1]) ∧ 1 ≤ sample.N := ⟨⟨rfl, by decide⟩, by decide⟩

end Props.NonProj
