import Verif.Model.NonProj
import Verif.Proofs.MatrixTree
import Verif.Spec.Lengths
import Mathlib.Analysis.SpecialFunctions.Log.Basic
import Mathlib.Algebra.BigOperators.Fin
import Mathlib.Algebra.BigOperators.Field
import Mathlib.Tactic.FieldSimp
import Mathlib.Tactic.Linarith
import Mathlib.Tactic.Positivity

/-! Property theorems about `NonProjectiveDependencyCRF`: C28 - C31. -/

open Spec MatrixTree

noncomputable section
namespace Props.NonProj
open _root_.NonProj

/-! ### The weights -/

/-- The weight of a spanning tree: `exp(score)` for an arc from the root, `exp(score) + eps` for an arc between words. -/
def weight (eps : ℝ) (s : ℕ → ℕ → ℝ) {n : ℕ} (t : Heads n) : ℝ :=
  ∏ m : Fin n, if t m = 0 then Real.exp (s m m) else Real.exp (s ((t m : ℕ) - 1) m) + eps

/-- With `eps = 0` it is the exponential of the sum of the scores. -/
theorem weight_zero (s : ℕ → ℕ → ℝ) {n : ℕ} (t : Heads n) : weight 0 s t = Real.exp (depScore s t) := by
  rw [weight, depScore, Real.exp_sum]
  refine Finset.prod_congr rfl fun m _ => ?_
  by_cases h : t m = 0
  · rw [if_pos h, arcCell, if_pos (by rw [h]; rfl)]
  · rw [if_neg h, add_zero, arcCell, if_neg fun hc : (t m : ℕ) = 0 => h (Fin.ext hc)]

theorem weight_pos {eps : ℝ} (he : 0 ≤ eps) (s : ℕ → ℕ → ℝ) {n : ℕ} (t : Heads n) : 0 < weight eps s t := by
  refine Finset.prod_pos fun m _ => ?_
  split_ifs
  · exact Real.exp_pos _
  · have := Real.exp_pos (s ((t m : ℕ) - 1) m); linarith

/-- The sum over all trees. -/
def total (multiroot : Bool) (eps : ℝ) (s : ℕ → ℕ → ℝ) (n : ℕ) : ℝ := ∑ t : SpanTrees multiroot n, weight eps s t.1

/-- There is a tree: every word's head is its predecessor, the first word is attached to the root. -/
theorem nonempty_trees (multiroot : Bool) {n : ℕ} (hn : multiroot = true ∨ 1 ≤ n) : Nonempty (SpanTrees multiroot n) := by
  refine ⟨⟨fun m => m.castSucc, fun k => ?_, fun hm => ?_⟩⟩
  · have hstep : ∀ j : ℕ, j ≤ n → (headOf (fun m : Fin n => m.castSucc))^[j] j = 0 := by
      intro j
      induction j with
      | zero => intro _; rfl
      | succ j ih =>
        intro hj
        rw [Function.iterate_succ_apply]
        have : headOf (fun m : Fin n => m.castSucc) (j + 1) = j := headOf_word (fun m : Fin n => m.castSucc) ⟨j, by omega⟩
        rw [this]
        exact ih (by omega)
    exact ⟨k + 1, hstep _ k.2⟩
  · have h1 : 1 ≤ n := by
      rcases hn with h | h
      · rw [h] at hm; simp at hm
      · exact h
    refine ⟨⟨0, h1⟩, rfl, fun k hk => ?_⟩
    have := congrArg Fin.val hk
    exact Fin.ext this

theorem total_pos (multiroot : Bool) {eps : ℝ} (he : 0 ≤ eps) (s : ℕ → ℕ → ℝ) {n : ℕ} (hn : multiroot = true ∨ 1 ≤ n) : 0 < total multiroot eps s n :=
  have := nonempty_trees multiroot hn
  Finset.sum_pos (fun t _ => weight_pos he s t.1) Finset.univ_nonempty

theorem exp_none (s : ℕ → ℕ → ℝ) (h m : ℕ) : expIn s none h m = Real.exp (s h m) := by rw [expIn, if_pos]; trivial

/-- The weights of the heads of a word, as the matrix holds them. -/
def headW (eps : ℝ) (s : ℕ → ℕ → ℝ) (len : Option ℕ) {n : ℕ} (m : Fin n) (c : Fin (n + 1)) : ℝ :=
  Fin.cases (expIn s len m m + offset len m) (fun k => if k = m then 0 else expIn s len k m + eps) c

theorem headW_root (eps : ℝ) (s : ℕ → ℕ → ℝ) (len : Option ℕ) {n : ℕ} (m : Fin n) : headW eps s len m 0 = expIn s len m m + offset len m := rfl

theorem headW_word (eps : ℝ) (s : ℕ → ℕ → ℝ) (len : Option ℕ) {n : ℕ} (m k : Fin n) :
    headW eps s len m k.succ = if k = m then 0 else expIn s len k m + eps := rfl

theorem sum_offDiag (eps : ℝ) (s : ℕ → ℕ → ℝ) (len : Option ℕ) {n : ℕ} (m : Fin n) :
    ((List.range n).map fun k => offDiag eps s len k m).sum = ∑ k : Fin n, headW eps s len m k.succ := by
  have h1 : ((List.range n).map fun k => offDiag eps s len k m).sum = ∑ k ∈ Finset.range n, offDiag eps s len k m := rfl
  rw [h1, Finset.sum_range]
  refine Finset.sum_congr rfl fun k _ => ?_
  rw [headW_word, offDiag]
  by_cases h : k = m
  · rw [if_pos h, if_pos (congrArg Fin.val h)]
  · rw [if_neg h, if_neg fun hc => h (Fin.ext hc)]

theorem sum_words (eps : ℝ) (s : ℕ → ℕ → ℝ) (len : Option ℕ) {n : ℕ} (j m : Fin n) :
    (∑ k : Fin n, headW eps s len m k.succ * ((if j = m then 1 else 0) - if j = k then 1 else 0)) =
      -offDiag eps s len j m + if j = m then ∑ k : Fin n, headW eps s len m k.succ else 0 := by
  simp only [mul_sub, mul_ite, mul_one, mul_zero, Finset.sum_sub_distrib, Finset.sum_ite_eq, Finset.mem_univ, if_true]
  rw [show (if j = m then ∑ k : Fin n, headW eps s len m k.succ else 0) = ∑ k : Fin n, if j = m then headW eps s len m k.succ else 0 by
    split_ifs <;> simp]
  rw [headW_word, offDiag]
  by_cases h : j = m
  · rw [if_pos h, if_pos (congrArg Fin.val h)]; ring
  · rw [if_neg h, if_neg fun hc => h (Fin.ext hc)]; ring

/-- The matrix of the code is the transposed matrix of the matrix-tree theorem: several roots. -/
theorem matrix_multi (eps : ℝ) (s : ℕ → ℕ → ℝ) (len : Option ℕ) {n : ℕ} (z : Fin n) :
    (matrix true eps s len n).transpose = mat (vec true z) (headW eps s len) := by
  funext m j
  rw [Matrix.transpose_apply, matrix, Matrix.of_apply, full, if_pos rfl, lap, mat, Matrix.of_apply, Finset.sum_apply, Fin.sum_univ_succ]
  simp only [Pi.smul_apply, smul_eq_mul, vec, if_true, vecMulti_root, vecMulti_word]
  rw [sum_words, headW_root, sum_offDiag]
  by_cases h : j = m
  · subst h; simp only [if_true]; ring
  · have h' : (j : ℕ) ≠ m := fun hc => h (Fin.ext hc)
    simp only [h, h', if_false]; ring

/-- One root: the words outside the sentence must not have an offset. -/
theorem matrix_single (eps : ℝ) (s : ℕ → ℕ → ℝ) (len : Option ℕ) {n : ℕ} (z : Fin n) (hz : (z : ℕ) = 0) (hoff : ∀ m < n, offset len m = 0) :
    (matrix false eps s len n).transpose = mat (vec false z) (headW eps s len) := by
  funext m j
  rw [Matrix.transpose_apply, matrix, Matrix.of_apply, full, if_neg (by simp), mat, Matrix.of_apply, Finset.sum_apply, Fin.sum_univ_succ]
  simp only [Pi.smul_apply, smul_eq_mul, vec, Bool.false_eq_true, if_false, vecSingle_root, vecSingle_word, headW_root]
  rw [hoff m m.2]
  by_cases hj : j = z
  · simp [hj, hz]
  · have : (j : ℕ) ≠ 0 := fun hc => hj (Fin.ext (by rw [hc, hz]))
    simp only [hj, this, if_false]
    rw [sum_words, lap, sum_offDiag, hoff m m.2]
    by_cases h : j = m
    · subst h; simp
    · have h' : (j : ℕ) ≠ m := fun hc => h (Fin.ext hc)
      simp [h, h']

/-- Both modes, without offsets. -/
theorem matrix_eq (multiroot : Bool) (eps : ℝ) (s : ℕ → ℕ → ℝ) {n : ℕ} (z : Fin n) (hz : (z : ℕ) = 0) :
    (matrix multiroot eps s none n).transpose = mat (vec multiroot z) (headW eps s none) := by
  cases multiroot with
  | true => exact matrix_multi eps s none z
  | false => exact matrix_single eps s none z hz fun _ _ => rfl

/-- A word of a tree is not its own head. -/
theorem tree_ne {n : ℕ} {t : Heads n} (h : IsDepTree t) (m : Fin n) : t m ≠ m.succ := by
  intro hc
  obtain ⟨k, hk⟩ := h m
  have : ∀ k, (headOf t)^[k] (m + 1) = m + 1 := fun k => Function.iterate_fixed (by rw [headOf_word, hc]; rfl) k
  rw [this] at hk
  omega

theorem prod_headW (eps : ℝ) (s : ℕ → ℕ → ℝ) {n : ℕ} {t : Heads n} (h : IsDepTree t) : ∏ m, headW eps s none m (t m) = weight eps s t := by
  refine Finset.prod_congr rfl fun m _ => ?_
  have hne := tree_ne h m
  cases hc : t m using Fin.cases with
  | zero => rw [headW_root, if_pos rfl, exp_none, offset, add_zero]
  | succ k =>
    rw [headW_word, if_neg, if_neg (Fin.succ_ne_zero k), exp_none]
    · simp
    · rintro rfl; exact hne hc

theorem det_matrix (multiroot : Bool) (eps : ℝ) (s : ℕ → ℕ → ℝ) {n : ℕ} (hn : multiroot = true ∨ 1 ≤ n) :
    (matrix multiroot eps s none n).det = total multiroot eps s n := by
  cases n with
  | zero =>
    rcases hn with rfl | h
    · rw [Matrix.det_isEmpty, total]
      have : Subsingleton (SpanTrees true 0) := ⟨fun a b => Subtype.ext (funext fun k => k.elim0)⟩
      obtain ⟨t⟩ := nonempty_trees true (n := 0) (Or.inl rfl)
      rw [Fintype.sum_subsingleton _ t]
      simp [weight]
    · omega
  | succ n =>
    rw [← Matrix.det_transpose, matrix_eq multiroot eps s 0 rfl, matrix_tree]
    exact Finset.sum_congr rfl fun t _ => prod_headW eps s t.2.1

/-! ### C28, C29: the partition -/

theorem part_eq (multiroot : Bool) {eps : ℝ} (he : 0 ≤ eps) (p : Table) (hn : multiroot = true ∨ 1 ≤ p.N) :
    part multiroot eps p none = .ok ((List.range p.batch).map fun b => some (Real.log (total multiroot eps (p.get b) p.N))) := by
  rw [part, if_neg (by rcases hn with h | h <;> simp [h]; omega), rows]
  change Except.ok (List.map _ (List.map _ _)) = _
  rw [List.map_map]
  congr 1
  refine List.map_congr_left fun b _ => ?_
  simp only [Function.comp]
  rw [logdet, det_matrix multiroot eps _ hn, if_pos (total_pos multiroot he _ hn)]

/-- **C28, C29.** `partition` is the logarithm of the sum over all spanning trees, with one or several children of the root, of the product of
`exp(score) + 1e-5` over the arcs between words and of `exp(score)` over the arcs from the root. -/
theorem partition_spec (multiroot : Bool) (p : Table) (hn : multiroot = true ∨ 1 ≤ p.N) :
    partition multiroot p none = .ok ((List.range p.batch).map fun b => some (Real.log (∑ t : SpanTrees multiroot p.N, weight (1 / 100000) (p.get b) t.1))) :=
  part_eq multiroot (by norm_num [eps0]) p hn

/-- Two rows of three words. -/
def sample : Table := ⟨2, 3, fun b h m => (b : ℝ) + h - m⟩

example : (false = true ∨ 1 ≤ sample.N) ∧ (true = true ∨ 1 ≤ sample.N) := ⟨Or.inr (by decide), Or.inl rfl⟩

/-- With `eps = 0` it is the log-sum-exp of the scores of the trees. -/
theorem part_zero (multiroot : Bool) (p : Table) (hn : multiroot = true ∨ 1 ≤ p.N) :
    part multiroot 0 p none =
      .ok ((List.range p.batch).map fun b => some (Real.log (∑ t : SpanTrees multiroot p.N, Real.exp (depScore (p.get b) t.1)))) := by
  rw [part_eq multiroot le_rfl p hn]
  simp only [total, weight_zero]

/-- How much `eps` adds: if no score is below `-B`, the sum over trees with the smoothed weights is at least the exact one and at most
`(1 + eps * exp B) ^ n` times it. -/
theorem total_bounds (multiroot : Bool) {eps : ℝ} (he : 0 ≤ eps) (s : ℕ → ℕ → ℝ) (n : ℕ) {B : ℝ} (hB : ∀ h < n, ∀ m < n, -B ≤ s h m) :
    (∑ t : SpanTrees multiroot n, Real.exp (depScore s t.1)) ≤ total multiroot eps s n ∧
      total multiroot eps s n ≤ (1 + eps * Real.exp B) ^ n * ∑ t : SpanTrees multiroot n, Real.exp (depScore s t.1) := by
  simp only [← weight_zero]
  constructor
  · refine Finset.sum_le_sum fun t _ => Finset.prod_le_prod (fun m _ => ?_) fun m _ => ?_
    · split_ifs <;> simp [Real.exp_nonneg]
    · split_ifs <;> linarith
  · rw [Finset.mul_sum]
    refine Finset.sum_le_sum fun t _ => ?_
    have hB1 : 1 ≤ 1 + eps * Real.exp B := by have := mul_nonneg he (Real.exp_nonneg B); linarith
    have : weight eps s t.1 ≤ ∏ m : Fin n, ((1 + eps * Real.exp B) * if t.1 m = 0 then Real.exp (s m m) else Real.exp (s ((t.1 m : ℕ) - 1) m) + 0) := by
      refine Finset.prod_le_prod (fun m _ => ?_) fun m _ => ?_
      · split_ifs
        · exact Real.exp_nonneg _
        · have := Real.exp_nonneg (s ((t.1 m : ℕ) - 1) m); linarith
      · have hlt := (t.1 m).2
        split_ifs with h
        · exact le_mul_of_one_le_left (Real.exp_nonneg _) hB1
        · have h0 : (t.1 m : ℕ) ≠ 0 := fun hc => h (Fin.ext hc)
          have h1 := hB ((t.1 m : ℕ) - 1) (by omega) m m.2
          have h2 : 1 ≤ Real.exp B * Real.exp (s ((t.1 m : ℕ) - 1) m) := by
            rw [← Real.exp_add]; exact Real.one_le_exp (by linarith)
          have h3 := mul_le_mul_of_nonneg_left h2 he
          rw [add_zero]
          nlinarith
    refine this.trans (le_of_eq ?_)
    rw [Finset.prod_mul_distrib, Finset.prod_const, Finset.card_univ, Fintype.card_fin, weight]

/-- **C28, C29**, the error in the log domain. -/
theorem partition_bounds (multiroot : Bool) (p : Table) (hn : multiroot = true ∨ 1 ≤ p.N) {B : ℝ} (hB : ∀ b < p.batch, ∀ h < p.N, ∀ m < p.N, -B ≤ p.get b h m) :
    ∃ vs, partition multiroot p none = .ok vs ∧ vs.length = p.batch ∧ ∀ b (hb : b < vs.length), ∃ v, vs[b] = some v ∧
      Real.log (∑ t : SpanTrees multiroot p.N, Real.exp (depScore (p.get b) t.1)) ≤ v ∧
      v ≤ Real.log (∑ t : SpanTrees multiroot p.N, Real.exp (depScore (p.get b) t.1)) + p.N * Real.log (1 + 1 / 100000 * Real.exp B) := by
  refine ⟨_, partition_spec multiroot p hn, by simp, fun b hb => ?_⟩
  simp only [List.length_map, List.length_range] at hb
  refine ⟨Real.log (total multiroot (1 / 100000) (p.get b) p.N), by simp [total], ?_⟩
  obtain ⟨h1, h2⟩ := total_bounds multiroot (eps := 1 / 100000) (by norm_num) (p.get b) p.N (B := B) (hB b hb)
  have hpos : 0 < ∑ t : SpanTrees multiroot p.N, Real.exp (depScore (p.get b) t.1) := by
    have := total_pos multiroot (le_refl (0 : ℝ)) (p.get b) hn
    simpa only [total, weight_zero] using this
  refine ⟨Real.log_le_log hpos h1, ?_⟩
  have hB0 : 0 < 1 + 1 / 100000 * Real.exp B := by have := Real.exp_pos B; positivity
  refine (Real.log_le_log (lt_of_lt_of_le hpos h1) h2).trans (le_of_eq ?_)
  rw [Real.log_mul (pow_pos hB0 _).ne' hpos.ne', Real.log_pow, add_comm]

/-! ### C30: marginals -/

/-- The probability, under the weights, that word `m + 1` has head `c` (0 is the root). -/
def prob (multiroot : Bool) (eps : ℝ) (s : ℕ → ℕ → ℝ) {n : ℕ} (m : Fin n) (c : Fin (n + 1)) : ℝ :=
  (∑ t : SpanTrees multiroot n, if t.1 m = c then weight eps s t.1 else 0) / total multiroot eps s n

theorem prob_eq (multiroot : Bool) {eps : ℝ} (he : 0 ≤ eps) (s : ℕ → ℕ → ℝ) {n : ℕ} (z : Fin n) (hz : (z : ℕ) = 0) (m : Fin n) (c : Fin (n + 1)) :
    prob multiroot eps s m c = headW eps s none m c * ∑ j, (matrix multiroot eps s none n)⁻¹ m j * vec multiroot z m c j := by
  classical
  have hn : multiroot = true ∨ 1 ≤ n := Or.inr (by have := z.2; omega)
  have hdet := det_matrix multiroot eps s hn
  have hpos := total_pos multiroot he s hn
  have h1 := arc_sum multiroot z (headW eps s none) m c
  rw [arc_sum_inv multiroot z _ _ (matrix_eq multiroot eps s z hz) (by rw [hdet]; exact hpos.ne') m c, hdet] at h1
  have h2 : (∑ t : SpanTrees multiroot n, if t.1 m = c then weight eps s t.1 else 0) =
      ∑ t : SpanTrees multiroot n, if t.1 m = c then ∏ j, headW eps s none j (t.1 j) else 0 :=
    Finset.sum_congr rfl fun t _ => by rw [prod_headW eps s t.2.1]
  rw [prob, h2, div_eq_iff hpos.ne']
  refine Eq.trans ?_ (h1.trans (by ring))
  exact Finset.sum_congr rfl fun t _ => by split_ifs <;> rfl

theorem marginal_eq (multiroot : Bool) {eps : ℝ} (he : 0 ≤ eps) (s : ℕ → ℕ → ℝ) {n : ℕ} (h m : Fin n) :
    marginal multiroot s none (matrix multiroot eps s none n)⁻¹ h m =
      if h = m then prob multiroot eps s m 0 else prob multiroot eps s m h.succ * (Real.exp (s h m) / (Real.exp (s h m) + eps)) := by
  have hn : 0 < n := Nat.lt_of_le_of_lt (Nat.zero_le _) m.2
  have he' : Real.exp (s h m) + eps ≠ 0 := by have := Real.exp_pos (s h m); linarith
  have hroot : ∀ m : Fin n, headW eps s none m 0 = Real.exp (s m m) := fun m => by
    rw [headW_root, exp_none, offset, add_zero]
  have hexp : ∀ h m : ℕ, expIn s none h m = Real.exp (s h m) := exp_none s
  rw [prob_eq multiroot he s ⟨0, hn⟩ rfl, prob_eq multiroot he s ⟨0, hn⟩ rfl]
  simp only [marginal, hexp, hroot]
  cases multiroot with
  | true =>
    by_cases hm : h = m
    · subst hm
      simp [vec, vecMulti_root]
    · rw [if_pos rfl, if_neg hm, if_neg hm, headW_word, if_neg hm, hexp]
      simp only [vec, if_true, vecMulti_word, mul_sub, mul_ite, mul_one, mul_zero, Finset.sum_sub_distrib, Finset.sum_ite_eq', Finset.mem_univ]
      field_simp
      ring
  | false =>
    have hzero : ∀ x : Fin n, x = ⟨0, hn⟩ ↔ (x : ℕ) = 0 := fun x => Fin.ext_iff
    by_cases hm : h = m
    · subst hm
      simp [vec, vecSingle_root]
    · rw [if_neg (by simp), if_neg hm, if_neg hm, headW_word, if_neg hm, hexp]
      have hsum : (∑ j, (matrix false eps s none n)⁻¹ m j * vec false ⟨0, hn⟩ m h.succ j) =
          (if (m : ℕ) = 0 then 0 else (matrix false eps s none n)⁻¹ m m) - if (h : ℕ) = 0 then 0 else (matrix false eps s none n)⁻¹ m h := by
        have : ∀ j, (matrix false eps s none n)⁻¹ m j * vec false ⟨0, hn⟩ m h.succ j =
            (if j = m then (if (m : ℕ) = 0 then 0 else (matrix false eps s none n)⁻¹ m m) else 0) -
              if j = h then (if (h : ℕ) = 0 then 0 else (matrix false eps s none n)⁻¹ m h) else 0 := by
          intro j
          simp only [vec, Bool.false_eq_true, if_false, vecSingle_word, hzero]
          by_cases h1 : j = m
          · subst h1
            by_cases h2 : (j : ℕ) = 0
            · simp [h2, Ne.symm hm]
            · simp [h2, Ne.symm hm]
          · by_cases h3 : j = h
            · subst h3
              by_cases h2 : (j : ℕ) = 0
              · simp [h2, h1]
              · simp [h2, h1]
            · simp [h1, h3]
        rw [Finset.sum_congr rfl fun j _ => this j, Finset.sum_sub_distrib]
        simp
      rw [hsum]
      split_ifs <;> field_simp <;> ring

theorem mapM_ok {α β : Type} (f : α → Except PyErr β) (g : α → β) : ∀ (xs : List α), (∀ x ∈ xs, f x = .ok (g x)) → xs.mapM f = .ok (xs.map g)
  | [], _ => rfl
  | x :: xs, h => by
    rw [List.mapM_cons, h x List.mem_cons_self, mapM_ok f g xs fun y hy => h y (List.mem_cons_of_mem _ hy)]; rfl

theorem marginals_eq (multiroot : Bool) {eps : ℝ} (he : 0 ≤ eps) (p : Table) (hn : multiroot = true ∨ 1 ≤ p.N) :
    marginals multiroot eps p none = .ok ((List.range p.batch).map fun b h m =>
      if h = m then prob multiroot eps (p.get b) m 0
      else prob multiroot eps (p.get b) m h.succ * (Real.exp (p.get b h m) / (Real.exp (p.get b h m) + eps))) := by
  rw [marginals, if_neg (by rcases hn with h | h <;> simp [h]; omega), rows]
  change List.mapM _ (List.map _ _) = _
  rw [List.mapM_map]
  refine mapM_ok _ _ _ fun b _ => ?_
  change marginalsRow multiroot eps (p.get b) none p.N = _
  rw [marginalsRow, if_neg (by rw [det_matrix multiroot eps _ hn]; exact (total_pos multiroot he _ hn).ne')]
  congr 1
  funext h m
  exact marginal_eq multiroot he (p.get b) h m

/-- **C30.** Entry `(m, m)` of `marginals` is the probability of the arc from the root to word `m`, entry `(h, m)` the probability of the arc from
word `h` to word `m`, times `exp(score) / (exp(score) + 1e-5)`. -/
theorem marginals_spec (multiroot : Bool) (p : Table) (hn : multiroot = true ∨ 1 ≤ p.N) :
    distMarginals multiroot p none = .ok ((List.range p.batch).map fun b h m =>
      if h = m then prob multiroot (1 / 100000) (p.get b) m 0
      else prob multiroot (1 / 100000) (p.get b) m h.succ * (Real.exp (p.get b h m) / (Real.exp (p.get b h m) + 1 / 100000))) :=
  marginals_eq multiroot (by norm_num [eps0]) p hn

/-- The probabilities of the heads of a word add up to 1; so with `eps = 0` do the marginals of a column. -/
theorem prob_sum (multiroot : Bool) {eps : ℝ} (he : 0 ≤ eps) (s : ℕ → ℕ → ℝ) {n : ℕ} (m : Fin n) : ∑ c, prob multiroot eps s m c = 1 := by
  have hn : multiroot = true ∨ 1 ≤ n := Or.inr (by have := m.2; omega)
  simp only [prob]
  rw [← Finset.sum_div, Finset.sum_comm]
  simp only [Finset.sum_ite_eq, Finset.mem_univ, if_true]
  exact div_self (total_pos multiroot he s hn).ne'

theorem prob_nonneg (multiroot : Bool) {eps : ℝ} (he : 0 ≤ eps) (s : ℕ → ℕ → ℝ) {n : ℕ} (m : Fin n) (c : Fin (n + 1)) : 0 ≤ prob multiroot eps s m c := by
  refine div_nonneg (Finset.sum_nonneg fun t _ => ?_) (Finset.sum_nonneg fun t _ => (weight_pos he s t.1).le)
  split_ifs
  · exact (weight_pos he s t.1).le
  · exact le_rfl

/-- The root probabilities add up to 1 when only one root is allowed. -/
theorem root_prob_sum {eps : ℝ} (he : 0 ≤ eps) (s : ℕ → ℕ → ℝ) {n : ℕ} (hn : 1 ≤ n) : ∑ m : Fin n, prob false eps s m 0 = 1 := by
  simp only [prob]
  rw [← Finset.sum_div, Finset.sum_comm]
  have : ∀ t : SpanTrees false n, (∑ m : Fin n, if t.1 m = 0 then weight eps s t.1 else 0) = weight eps s t.1 := by
    intro t
    obtain ⟨r, hr, hu⟩ := t.2.2 rfl
    rw [Finset.sum_eq_single r]
    · exact if_pos hr
    · exact fun m _ hm => if_neg fun hc => hm (hu m hc)
    · simp
  simp only [this]
  exact div_self (total_pos false he s (Or.inr hn)).ne'

end Props.NonProj
