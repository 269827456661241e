import Verif.Props.NonProj
import Mathlib.Algebra.Order.BigOperators.Ring.Finset
import Mathlib.Algebra.BigOperators.Ring.Finset
import Mathlib.LinearAlgebra.Matrix.Determinant.Basic
import Mathlib.Data.Matrix.Block
import Mathlib.LinearAlgebra.Matrix.SchurComplement
import Mathlib.Data.List.GetD

/-! `lengths` in `NonProjectiveDependencyCRF`: C31.  The property is false of the code: `eps` is added after the mask, so that arcs to and from the words
outside the sentence keep the weight `eps`.  Proved here: the mask is exact for `eps = 0`; with several roots the result is always too large, and by how
much at most; and witnesses for the default `eps` in both root modes. -/

open Spec MatrixTree

noncomputable section
namespace Props.NonProj
open _root_.NonProj

theorem exp_some_in (s : ℕ → ℕ → ℝ) {l h m : ℕ} (hh : h < l) (hm : m < l) : expIn s (some l) h m = Real.exp (s h m) := by
  rw [expIn, if_pos]; exact ⟨hh, hm⟩

theorem exp_some_out (s : ℕ → ℕ → ℝ) {l h m : ℕ} (hh : ¬ (h < l ∧ m < l)) : expIn s (some l) h m = 0 := by
  rw [expIn, if_neg]; exact hh

theorem offset_in {l m : ℕ} (hm : m < l) : offset (some l) m = 0 := if_pos hm

theorem offset_out {l m : ℕ} (hm : ¬ m < l) : offset (some l) m = 1 := if_neg hm

theorem offset_none (m : ℕ) : offset none m = 0 := rfl

theorem range_sum (n : ℕ) (f : ℕ → ℝ) : ((List.range n).map f).sum = ∑ k ∈ Finset.range n, f k := rfl

/-! ### `eps = 0` -/

theorem matrix_block (multiroot : Bool) (s : ℕ → ℕ → ℝ) (l d : ℕ) (hl : multiroot = true ∨ 1 ≤ l) :
    (matrix multiroot 0 s (some l) (l + d)).submatrix finSumFinEquiv finSumFinEquiv = Matrix.fromBlocks (matrix multiroot 0 s none l) 0 0 1 := by
  have hout : ∀ h m : ℕ, ¬ (h < l ∧ m < l) → offDiag 0 s (some l) h m = 0 := fun h m hh => by
    rw [offDiag]; split_ifs
    · rfl
    · rw [exp_some_out s hh, add_zero]
  have hin : ∀ h m : ℕ, h < l → m < l → offDiag 0 s (some l) h m = offDiag 0 s none h m := fun h m hh hm => by
    rw [offDiag, offDiag, exp_some_in s hh hm, exp_none]
  have hsum : ∀ m : ℕ, m < l → ((List.range (l + d)).map fun k => offDiag 0 s (some l) k m).sum = ((List.range l).map fun k => offDiag 0 s none k m).sum := by
    intro m hm
    rw [range_sum, range_sum, Finset.sum_range_add, Finset.sum_congr rfl fun k hk => hin k m (Finset.mem_range.1 hk) hm, add_eq_left]
    exact Finset.sum_eq_zero fun k _ => hout _ _ (by omega)
  have hsum0 : ∀ m : ℕ, ¬ m < l → ((List.range (l + d)).map fun k => offDiag 0 s (some l) k m).sum = 0 := by
    intro m hm
    rw [range_sum]
    exact Finset.sum_eq_zero fun k _ => hout _ _ (by omega)
  have hrow : ∀ h : ℕ, l ≤ h → multiroot = false → h ≠ 0 := by
    intro h hh hm
    rcases hl with h1 | h1
    · rw [h1] at hm; simp at hm
    · omega
  ext h m
  rw [Matrix.submatrix_apply, matrix, Matrix.of_apply, full]
  rcases h with h | h <;> rcases m with m | m
  · have hh := h.2
    have hm := m.2
    rw [Matrix.fromBlocks_apply₁₁, matrix, Matrix.of_apply, full, lap, lap, finSumFinEquiv_apply_left, finSumFinEquiv_apply_left, Fin.val_castAdd, Fin.val_castAdd,
      hin _ _ hh hm, hsum _ hm, exp_some_in s hm hm, exp_none, offset_in hm, offset_none]
  · have hh := h.2
    have hne : (h : ℕ) ≠ l + m := by omega
    rw [Matrix.fromBlocks_apply₁₂, lap, finSumFinEquiv_apply_left, finSumFinEquiv_apply_right, Fin.val_castAdd, Fin.val_natAdd, hout _ _ (by omega),
      exp_some_out s (by omega), if_neg hne, if_neg hne, if_neg hne]
    simp
  · have hm := m.2
    have hne : l + (h : ℕ) ≠ m := by omega
    rw [Matrix.fromBlocks_apply₂₁, lap, finSumFinEquiv_apply_left, finSumFinEquiv_apply_right, Fin.val_castAdd, Fin.val_natAdd, hout _ _ (by omega),
      if_neg hne, if_neg hne, if_neg hne]
    cases multiroot with
    | true => simp
    | false => rw [if_neg (by simp), if_neg (hrow _ (by omega) rfl)]; simp
  · rw [Matrix.fromBlocks_apply₂₂, lap, finSumFinEquiv_apply_right, finSumFinEquiv_apply_right, Fin.val_natAdd, Fin.val_natAdd, hout _ _ (by omega),
      hsum0 _ (by omega), exp_some_out s (h := l + m) (by omega), offset_out (by omega), Matrix.one_apply]
    have : l + (h : ℕ) = l + m ↔ h = m := by rw [Fin.ext_iff]; omega
    cases multiroot with
    | true => rw [if_pos rfl]; simp only [this]; simp
    | false => rw [if_neg (by simp), if_neg (hrow _ (by omega) rfl)]; simp only [this]; simp

theorem det_block (multiroot : Bool) (s : ℕ → ℕ → ℝ) (l d : ℕ) (hl : multiroot = true ∨ 1 ≤ l) :
    (matrix multiroot 0 s (some l) (l + d)).det = (matrix multiroot 0 s none l).det := by
  rw [← Matrix.det_submatrix_equiv_self finSumFinEquiv, matrix_block multiroot s l d hl, Matrix.det_fromBlocks_zero₂₁, Matrix.det_one, mul_one]

theorem rows_some (batch : ℕ) (l : List ℕ) (h : l.length = batch) :
    rows batch (some l) = .ok ((List.range batch).map fun b => (b, some (l.getD b 0))) := by rw [rows, if_pos h]

/-- **C31** for `eps = 0`: `partition` of a row is the log-sum-exp of the trees over the first `lengths[b]` words.  Missing: the property for the
default `eps` (false, see `partition_too_large` and `lengths_leak`). -/
theorem truncation_partial (multiroot : Bool) (p : Table) (l : List ℕ) (hl : LengthsIn p.batch p.N (some l)) (hN : 1 ≤ p.N) :
    part multiroot 0 p (some l) = .ok ((List.range p.batch).map fun b =>
      some (Real.log (∑ t : SpanTrees multiroot (l.getD b 0), Real.exp (depScore (p.get b) t.1)))) := by
  rw [part, if_neg (by omega), rows_some _ _ hl.1]
  change Except.ok (List.map _ (List.map _ _)) = _
  rw [List.map_map]
  congr 1
  refine List.map_congr_left fun b hb => ?_
  have hb' : b < l.length := by rw [hl.1]; exact List.mem_range.1 hb
  obtain ⟨h1, h2⟩ := hl.2 (l.getD b 0) (by rw [List.getD_eq_getElem _ _ hb']; exact List.getElem_mem _)
  obtain ⟨d, hd⟩ := Nat.exists_eq_add_of_le h2
  simp only [Function.comp]
  rw [hd, logdet, det_block multiroot _ _ _ (Or.inr h1), det_matrix multiroot 0 _ (Or.inr h1), if_pos (total_pos multiroot le_rfl _ (Or.inr h1)), total]
  simp only [weight_zero]

theorem inv_block (multiroot : Bool) (s : ℕ → ℕ → ℝ) (l d : ℕ) (hl : multiroot = true ∨ 1 ≤ l) (x y : Fin l ⊕ Fin d) :
    (matrix multiroot 0 s (some l) (l + d))⁻¹ (finSumFinEquiv x) (finSumFinEquiv y) = Matrix.fromBlocks (matrix multiroot 0 s none l)⁻¹ 0 0 1 x y := by
  have h1 := Matrix.inv_submatrix_equiv (matrix multiroot 0 s (some l) (l + d)) finSumFinEquiv finSumFinEquiv
  have hdet : IsUnit (matrix multiroot 0 s none l).det := by
    rw [det_matrix multiroot 0 s hl]; exact isUnit_iff_ne_zero.2 (total_pos multiroot le_rfl s hl).ne'
  have h2 : (Matrix.fromBlocks (matrix multiroot 0 s none l) 0 0 (1 : Matrix (Fin d) (Fin d) ℝ))⁻¹ = Matrix.fromBlocks (matrix multiroot 0 s none l)⁻¹ 0 0 1 := by
    refine Matrix.inv_eq_right_inv ?_
    rw [Matrix.fromBlocks_multiply, Matrix.mul_nonsing_inv _ hdet]
    simp [Matrix.fromBlocks_one]
  rw [matrix_block multiroot s l d hl, h2] at h1
  rw [h1, Matrix.submatrix_apply]

theorem marginal_block (multiroot : Bool) (s : ℕ → ℕ → ℝ) (l d : ℕ) (hl : 1 ≤ l) (h m : Fin (l + d)) :
    marginal multiroot s (some l) (matrix multiroot 0 s (some l) (l + d))⁻¹ h m =
      if hh : (h : ℕ) < l ∧ (m : ℕ) < l then marginal multiroot s none (matrix multiroot 0 s none l)⁻¹ ⟨h, hh.1⟩ ⟨m, hh.2⟩ else 0 := by
  split_ifs with hh
  · have e : ∀ x y : Fin l, (matrix multiroot 0 s (some l) (l + d))⁻¹ (Fin.castAdd d x) (Fin.castAdd d y) = (matrix multiroot 0 s none l)⁻¹ x y := fun x y => by
      have := inv_block multiroot s l d (Or.inr hl) (Sum.inl x) (Sum.inl y)
      rwa [finSumFinEquiv_apply_left, finSumFinEquiv_apply_left, Matrix.fromBlocks_apply₁₁] at this
    obtain ⟨h1, h2⟩ := hh
    have eh : h = Fin.castAdd d ⟨h, h1⟩ := rfl
    have em : m = Fin.castAdd d ⟨m, h2⟩ := rfl
    have hmm := e ⟨m, h2⟩ ⟨m, h2⟩
    have hmh := e ⟨m, h2⟩ ⟨h, h1⟩
    have hm0 := e ⟨m, h2⟩ ⟨0, hl⟩
    have hiff : h = m ↔ (⟨h, h1⟩ : Fin l) = ⟨m, h2⟩ := by rw [Fin.ext_iff, Fin.ext_iff]
    simp only [marginal, exp_some_in s h1 h2, exp_some_in s h2 h2, exp_none, ← hiff]
    have hz : (⟨0, Nat.lt_of_le_of_lt (Nat.zero_le _) m.2⟩ : Fin (l + d)) = Fin.castAdd d ⟨0, hl⟩ := rfl
    rw [hz, ← hmm, ← hmh, ← hm0]
    rfl
  · have h1 := exp_some_out s hh
    have h2 : h = m → expIn s (some l) m m = 0 := fun e => by rw [e] at h1; exact h1
    rw [marginal]
    by_cases e : h = m
    · simp [h1, h2 e]
    · simp [h1, e]

/-- **C31** for `eps = 0`: the marginals of the arcs between the first `lengths[b]` words are those of the trees over these words, and the other
entries are 0.  Missing: the property for the default `eps`. -/
theorem truncation_marginals_partial (multiroot : Bool) (p : Table) (l : List ℕ) (hl : LengthsIn p.batch p.N (some l)) (hN : 1 ≤ p.N) :
    ∃ ms, marginals multiroot 0 p (some l) = .ok ms ∧ ms.length = p.batch ∧ ∀ b (hb : b < ms.length) (h m : Fin p.N),
      ms[b] h m = if hh : (h : ℕ) < l.getD b 0 ∧ (m : ℕ) < l.getD b 0 then
        prob multiroot 0 (p.get b) (⟨m, hh.2⟩ : Fin (l.getD b 0)) (if h = m then 0 else ⟨h + 1, Nat.succ_lt_succ hh.1⟩) else 0 := by
  rw [marginals, if_neg (by omega), rows_some _ _ hl.1]
  refine ⟨(List.range p.batch).map fun b => marginal multiroot (p.get b) (some (l.getD b 0)) (matrix multiroot 0 (p.get b) (some (l.getD b 0)) p.N)⁻¹, ?_, ?_, ?_⟩
  · change List.mapM _ (List.map _ _) = _
    rw [List.mapM_map]
    refine mapM_ok _ _ _ fun b hb => ?_
    have hb' : b < l.length := by rw [hl.1]; exact List.mem_range.1 hb
    obtain ⟨h1, h2⟩ := hl.2 (l.getD b 0) (by rw [List.getD_eq_getElem _ _ hb']; exact List.getElem_mem _)
    obtain ⟨d, hd⟩ := Nat.exists_eq_add_of_le h2
    refine if_neg ?_
    rw [hd, det_block multiroot _ _ _ (Or.inr h1), det_matrix multiroot 0 _ (Or.inr h1)]
    exact (total_pos multiroot le_rfl _ (Or.inr h1)).ne'
  · simp
  · intro b hb h m
    have hb' : b < l.length := by rw [hl.1]; simpa using hb
    obtain ⟨h1, h2⟩ := hl.2 (l.getD b 0) (by rw [List.getD_eq_getElem _ _ hb']; exact List.getElem_mem _)
    simp only [List.getElem_map, List.getElem_range]
    generalize l.getD b 0 = L at *
    obtain ⟨d, hd⟩ := Nat.exists_eq_add_of_le h2
    obtain ⟨batch, N, get⟩ := p
    simp only at hd h m ⊢
    subst hd
    rw [marginal_block multiroot (get b) L d h1]
    split_ifs with hh e e
    · rw [marginal_eq multiroot le_rfl, if_pos (show (⟨h, hh.1⟩ : Fin L) = ⟨m, hh.2⟩ from Fin.ext (congrArg (fun x : Fin (L + d) => (x : ℕ)) e))]
    · rw [marginal_eq multiroot le_rfl, if_neg (by rw [Fin.ext_iff]; exact fun hc => e (Fin.ext hc)), add_zero, div_self (Real.exp_pos _).ne', mul_one]
      rfl
    · rfl

/-- The tables of the theorems: two rows of lengths 3 and 1. -/
example : LengthsIn sample.batch sample.N (some [3, 1]) ∧ 1 ≤ sample.N := ⟨⟨rfl, by decide⟩, by decide⟩

/-! ### Several roots, any `eps` -/

/-- The tree over `N` words in which the first `l` words form `t` and the others are attached to the root. -/
def extend {l N : ℕ} (h : l ≤ N) (t : Heads l) : Heads N := fun m => if hm : (m : ℕ) < l then Fin.castLE (by omega) (t ⟨m, hm⟩) else 0

theorem extend_tree {l N : ℕ} (h : l ≤ N) {t : Heads l} (ht : IsDepTree t) : IsDepTree (extend h t) := by
  have hhead : ∀ k ≤ l, headOf (extend h t) k = headOf t k := by
    intro k hk
    rcases Nat.eq_zero_or_pos k with rfl | hpos
    · rw [headOf_root, headOf_root]
    · obtain ⟨j, rfl⟩ : ∃ j, k = j + 1 := ⟨k - 1, by omega⟩
      have h1 := headOf_word (extend h t) ⟨j, by omega⟩
      have h2 := headOf_word t ⟨j, by omega⟩
      rw [h1, h2, extend, dif_pos (show ((⟨j, by omega⟩ : Fin N) : ℕ) < l by simp only; omega)]
      rfl
  have hle : ∀ k ≤ l, headOf t k ≤ l := by
    intro k hk
    rw [headOf]
    split_ifs with hc
    · have := (t ⟨k - 1, by omega⟩).2; omega
    · omega
  have hit : ∀ i k, k ≤ l → (headOf (extend h t))^[i] k = (headOf t)^[i] k := by
    intro i
    induction i with
    | zero => intro k _; rfl
    | succ i ih =>
      intro k hk
      rw [Function.iterate_succ_apply, Function.iterate_succ_apply, hhead k hk]
      exact ih _ (hle k hk)
  intro m
  by_cases hm : (m : ℕ) < l
  · obtain ⟨i, hi⟩ := ht ⟨m, hm⟩
    exact ⟨i, by rw [hit i _ (by omega)]; exact hi⟩
  · exact ⟨1, by rw [Function.iterate_one, headOf_word, extend, dif_neg hm]; rfl⟩

theorem extend_inj {l N : ℕ} (h : l ≤ N) : Function.Injective (extend h : Heads l → Heads N) := by
  intro t t' he
  funext m
  have := congrFun he ⟨m, by omega⟩
  rw [extend, extend, dif_pos m.2, dif_pos m.2] at this
  exact Fin.ext (congrArg (fun x : Fin (N + 1) => (x : ℕ)) this)

/-- The weight of a tree over all words, as the matrix holds it. -/
def leakW (eps : ℝ) (s : ℕ → ℕ → ℝ) (l : ℕ) {N : ℕ} (t : Heads N) : ℝ := ∏ m, headW eps s (some l) m (t m)

theorem headW_nonneg {eps : ℝ} (he : 0 ≤ eps) (s : ℕ → ℕ → ℝ) (l : ℕ) {N : ℕ} (m : Fin N) (c : Fin (N + 1)) : 0 ≤ headW eps s (some l) m c := by
  have h1 : ∀ h m : ℕ, 0 ≤ expIn s (some l) h m := fun h m => by
    rw [expIn]; split_ifs
    · exact Real.exp_nonneg _
    · exact le_rfl
  have h2 : 0 ≤ offset (some l) m := by rw [offset]; split_ifs <;> norm_num
  cases c using Fin.cases with
  | zero => rw [headW_root]; exact add_nonneg (h1 _ _) h2
  | succ k => rw [headW_word]; split_ifs
              · exact le_rfl
              · exact add_nonneg (h1 _ _) he

theorem leakW_extend (eps : ℝ) (s : ℕ → ℕ → ℝ) {l N : ℕ} (h : l ≤ N) {t : Heads l} (ht : IsDepTree t) : leakW eps s l (extend h t) = weight eps s t := by
  obtain ⟨d, rfl⟩ := Nat.exists_eq_add_of_le h
  rw [leakW, Fin.prod_univ_add, weight]
  rw [Finset.prod_eq_one (f := fun i : Fin d => _) fun i _ => ?_, mul_one]
  · refine Finset.prod_congr rfl fun m _ => ?_
    have hm := m.2
    rw [extend, dif_pos (by rw [Fin.val_castAdd]; exact hm)]
    have e : (⟨(Fin.castAdd d m : ℕ), by rw [Fin.val_castAdd]; exact hm⟩ : Fin l) = m := rfl
    rw [e]
    have hne := tree_ne ht m
    cases hc : t m using Fin.cases with
    | zero =>
      rw [if_pos rfl]
      change headW eps s (some l) (Fin.castAdd d m) 0 = _
      rw [headW_root, Fin.val_castAdd, exp_some_in s hm hm, offset_in hm, add_zero]
    | succ k =>
      rw [if_neg (Fin.succ_ne_zero k)]
      have e2 : Fin.castLE (by omega : l + 1 ≤ l + d + 1) k.succ = (Fin.castAdd d k).succ := rfl
      rw [e2, headW_word, if_neg, Fin.val_castAdd, Fin.val_castAdd, exp_some_in s k.2 hm]
      · simp
      · intro hcon
        rw [Fin.castAdd_inj] at hcon
        exact hne (by rw [hc, hcon])
  · rw [extend, dif_neg (by rw [Fin.val_natAdd]; omega), headW_root, Fin.val_natAdd, exp_some_out s (by omega), offset_out (by omega), zero_add]

/-- The exact value with several roots: a sum over the trees over all `N` words, in which arcs that leave the sentence have weight `eps` and arcs from the root to
the words outside have weight 1. -/
theorem det_multi_lengths (eps : ℝ) (s : ℕ → ℕ → ℝ) (l : ℕ) {N : ℕ} (hN : 1 ≤ N) :
    (matrix true eps s (some l) N).det = ∑ t : SpanTrees true N, leakW eps s l t.1 := by
  rw [← Matrix.det_transpose, matrix_multi eps s (some l) ⟨0, hN⟩, matrix_tree]; rfl

open Classical in
theorem sum_split (eps : ℝ) (s : ℕ → ℕ → ℝ) {l N : ℕ} (h : l ≤ N) :
    (∑ t : SpanTrees true N, leakW eps s l t.1) = total true eps s l +
      ∑ t : SpanTrees true N, if ∃ t' : SpanTrees true l, t.1 = extend h t'.1 then 0 else leakW eps s l t.1 := by
  have h1 : total true eps s l = ∑ t : SpanTrees true N, if ∃ t' : SpanTrees true l, t.1 = extend h t'.1 then leakW eps s l t.1 else 0 := by
    rw [← Finset.sum_filter, total]
    refine Finset.sum_bij (fun t _ => ⟨extend h t.1, extend_tree h t.2.1, by simp⟩) (fun t _ => ?_) (fun t _ t' _ he => ?_) (fun t ht => ?_) fun t _ => ?_
    · exact Finset.mem_filter.2 ⟨Finset.mem_univ _, t, rfl⟩
    · exact Subtype.ext (extend_inj h (Subtype.mk.inj he))
    · obtain ⟨t', ht'⟩ := (Finset.mem_filter.1 ht).2
      exact ⟨t', Finset.mem_univ _, Subtype.ext ht'.symm⟩
    · exact (leakW_extend eps s h t.2.1).symm
  rw [h1, ← Finset.sum_add_distrib]
  exact Finset.sum_congr rfl fun t _ => by split_ifs <;> simp

/-- The tree that shows the leak: every word is attached to the root, except the last one, whose head is the first word. -/
def leakTree (N : ℕ) : Heads (N + 1) := fun m => if (m : ℕ) = N then 1 else 0

theorem leakTree_tree {N : ℕ} (hN : 1 ≤ N) : IsDepTree (leakTree N) := by
  have h0 : ∀ m : Fin (N + 1), (m : ℕ) ≠ N → Dominates (leakTree N) 0 (m + 1) := fun m hm =>
    ⟨1, by rw [Function.iterate_one, headOf_word, leakTree, if_neg hm]; rfl⟩
  intro m
  by_cases hm : (m : ℕ) = N
  · rw [leads_iff, leakTree, if_pos hm]
    have := h0 0 (by simp; omega)
    have e : ((1 : Fin (N + 1 + 1)) : ℕ) = ((0 : Fin (N + 1)) : ℕ) + 1 := rfl
    rw [e]
    exact this
  · exact h0 m hm

/-- With several roots and `eps > 0`, a row that is shorter than the table always gets too large a value. -/
theorem leak_pos {eps : ℝ} (he : 0 < eps) (s : ℕ → ℕ → ℝ) {l N : ℕ} (hl : 1 ≤ l) (hlt : l < N) :
    total true eps s l < (matrix true eps s (some l) N).det := by
  classical
  rw [det_multi_lengths eps s l (by omega), sum_split eps s hlt.le, lt_add_iff_pos_right]
  obtain ⟨N, rfl⟩ : ∃ n, N = n + 1 := ⟨N - 1, by omega⟩
  refine Finset.sum_pos' (fun t _ => ?_) ⟨⟨leakTree N, leakTree_tree (by omega), by simp⟩, Finset.mem_univ _, ?_⟩
  · split_ifs
    · exact le_rfl
    · exact Finset.prod_nonneg fun m _ => headW_nonneg he.le s l m _
  · rw [if_neg]
    · refine Finset.prod_pos fun m _ => ?_
      simp only [leakTree]
      have h1 : ∀ h m : ℕ, 0 ≤ expIn s (some l) h m := fun h m => by
        rw [expIn]; split_ifs
        · exact Real.exp_nonneg _
        · exact le_rfl
      split_ifs with hm
      · rw [show (1 : Fin (N + 1 + 1)) = (0 : Fin (N + 1)).succ from rfl, headW_word, if_neg]
        · exact add_pos_of_nonneg_of_pos (h1 _ _) he
        · intro hc
          rw [← hc] at hm
          simp at hm
          omega
      · rw [headW_root]
        by_cases hin : (m : ℕ) < l
        · rw [exp_some_in s hin hin]
          have : 0 ≤ offset (some l) m := by rw [offset]; split_ifs <;> norm_num
          have := Real.exp_pos (s m m)
          linarith
        · rw [offset_out hin]; have := h1 m m; linarith
    · rintro ⟨t', ht'⟩
      have := congrFun ht' ⟨N, by omega⟩
      rw [extend, dif_neg (by simp only; omega)] at this
      simp only [leakTree, if_true] at this
      exact one_ne_zero this

/-- **C31 is false of the code.**  `NonProjectiveDependencyCRF(p, lengths=l, multiroot=True).partition`: every row that is shorter than the table gets
strictly more than the log-sum over the trees of its words (with the smoothed weights). -/
theorem partition_too_large (p : Table) (l : List ℕ) (hl : LengthsIn p.batch p.N (some l)) (hN : 1 ≤ p.N) :
    ∃ vs, partition true p (some l) = .ok vs ∧ vs.length = p.batch ∧ ∀ b (hb : b < vs.length), ∃ v, vs[b] = some v ∧
      (l.getD b 0 < p.N → Real.log (∑ t : SpanTrees true (l.getD b 0), weight (1 / 100000) (p.get b) t.1) < v) ∧
      (l.getD b 0 = p.N → v = Real.log (∑ t : SpanTrees true (l.getD b 0), weight (1 / 100000) (p.get b) t.1)) := by
  rw [partition, part, if_neg (by simp), rows_some _ _ hl.1]
  refine ⟨_, rfl, by simp, fun b hb => ?_⟩
  have hb' : b < l.length := by rw [hl.1]; simpa using hb
  obtain ⟨h1, h2⟩ := hl.2 (l.getD b 0) (by rw [List.getD_eq_getElem _ _ hb']; exact List.getElem_mem _)
  simp only [List.getElem_map, List.getElem_range]
  generalize l.getD b 0 = L at *
  have he : (0 : ℝ) < eps0 := by norm_num [eps0]
  have ht := total_pos true he.le (p.get b) (n := L) (Or.inl rfl)
  have hfull : L = p.N → (matrix true eps0 (p.get b) (some L) p.N).det = total true eps0 (p.get b) L := by
    rintro rfl
    rw [det_multi_lengths eps0 _ _ hN, total]
    refine Finset.sum_congr rfl fun t _ => ?_
    have := leakW_extend eps0 (p.get b) le_rfl t.2.1
    rw [← this]
    congr 1
    funext m
    rw [extend, dif_pos m.2]
    rfl
  have hpos : 0 < (matrix true eps0 (p.get b) (some L) p.N).det := by
    rcases h2.lt_or_eq with hlt | heq
    · exact ht.trans (leak_pos he (p.get b) h1 hlt)
    · rw [hfull heq]; exact ht
  refine ⟨_, if_pos hpos, fun hlt => ?_, fun heq => ?_⟩
  · exact Real.log_lt_log ht (leak_pos he (p.get b) h1 hlt)
  · rw [hfull heq]; rfl

/-! ### How much leaks at most -/

/-- The sum of the weights of the possible heads of word `m` among the first `l` words and the root. -/
def headTotal (eps : ℝ) (s : ℕ → ℕ → ℝ) (l m : ℕ) : ℝ := Real.exp (s m m) + ∑ k ∈ (Finset.range l).erase m, (Real.exp (s k m) + eps)

/-- The head is a word, and it or word `m` is outside the sentence. -/
def Leaks (l : ℕ) {N : ℕ} (m : Fin N) (c : Fin (N + 1)) : Prop := (c : ℕ) ≠ 0 ∧ ¬ ((c : ℕ) - 1 < l ∧ (m : ℕ) < l)

theorem no_leak {l N : ℕ} (h : l ≤ N) (t : SpanTrees true N) (hno : ∀ m, ¬ Leaks l m (t.1 m)) : ∃ t' : SpanTrees true l, t.1 = extend h t'.1 := by
  have hval : ∀ m : Fin N, (t.1 m : ℕ) ≠ 0 → (t.1 m : ℕ) - 1 < l ∧ (m : ℕ) < l := fun m h0 => not_not.1 fun hc => hno m ⟨h0, hc⟩
  have hbound : ∀ m : Fin l, (t.1 ⟨m, by omega⟩ : ℕ) < l + 1 := fun m => by
    by_cases h0 : (t.1 ⟨m, by omega⟩ : ℕ) = 0
    · omega
    · have := (hval _ h0).1; omega
  have hext : t.1 = extend h fun m => ⟨t.1 ⟨m, by omega⟩, hbound m⟩ := by
    funext m
    rw [extend]
    split_ifs with hm
    · exact Fin.ext rfl
    · by_contra hc
      exact hm (hval m fun h0 => hc (Fin.ext h0)).2
  refine ⟨⟨fun m => ⟨t.1 ⟨m, by omega⟩, hbound m⟩, ?_, by simp⟩, hext⟩
  have hle : ∀ k ≤ l, headOf t.1 k = headOf (fun m : Fin l => (⟨t.1 ⟨m, by omega⟩, hbound m⟩ : Fin (l + 1))) k ∧ headOf t.1 k ≤ l := by
    intro k hk
    rcases Nat.eq_zero_or_pos k with rfl | hpos
    · rw [headOf_root, headOf_root]; exact ⟨rfl, by omega⟩
    · obtain ⟨j, rfl⟩ : ∃ j, k = j + 1 := ⟨k - 1, by omega⟩
      have h1 := headOf_word t.1 ⟨j, by omega⟩
      have h2 := headOf_word (fun m : Fin l => (⟨t.1 ⟨m, by omega⟩, hbound m⟩ : Fin (l + 1))) ⟨j, by omega⟩
      have := hbound ⟨j, by omega⟩
      simp only at h1 h2 this
      rw [h1, h2]
      exact ⟨rfl, by omega⟩
  have hit : ∀ i k, k ≤ l → (headOf (fun m : Fin l => (⟨t.1 ⟨m, by omega⟩, hbound m⟩ : Fin (l + 1))))^[i] k = (headOf t.1)^[i] k := by
    intro i
    induction i with
    | zero => intro k _; rfl
    | succ i ih =>
      intro k hk
      rw [Function.iterate_succ_apply, Function.iterate_succ_apply, ← (hle k hk).1]
      exact ih _ (hle k hk).2
  intro m
  obtain ⟨i, hi⟩ := t.2.1 ⟨m, by omega⟩
  exact ⟨i, by rw [hit i _ (by omega)]; exact hi⟩

open Classical in
/-- The weights without the leaks. -/
def tightW (eps : ℝ) (s : ℕ → ℕ → ℝ) (l : ℕ) {N : ℕ} (m : Fin N) (c : Fin (N + 1)) : ℝ := if Leaks l m c then 0 else headW eps s (some l) m c

theorem leak_le_prod {eps : ℝ} (he : 0 ≤ eps) (s : ℕ → ℕ → ℝ) {l N : ℕ} (hl : l ≤ N) (hN : 1 ≤ N) :
    (matrix true eps s (some l) N).det ≤ total true eps s l + (∏ m : Fin N, ∑ c, headW eps s (some l) m c - ∏ m : Fin N, ∑ c, tightW eps s l m c) := by
  classical
  rw [det_multi_lengths eps s l hN, sum_split eps s hl, Finset.prod_univ_sum, Finset.prod_univ_sum, ← Finset.sum_sub_distrib]
  simp only [Fintype.piFinset_univ]
  refine add_le_add le_rfl ?_
  have hterm : ∀ f : Heads N, 0 ≤ (∏ m, headW eps s (some l) m (f m)) - ∏ m, tightW eps s l m (f m) := fun f => by
    refine sub_nonneg.2 (Finset.prod_le_prod (fun m _ => ?_) fun m _ => ?_)
    · rw [tightW]; split_ifs
      · exact le_rfl
      · exact headW_nonneg he s l m _
    · rw [tightW]; split_ifs
      · exact headW_nonneg he s l m _
      · exact le_rfl
  calc (∑ t : SpanTrees true N, if ∃ t' : SpanTrees true l, t.1 = extend hl t'.1 then 0 else leakW eps s l t.1)
      ≤ ∑ t : SpanTrees true N, ((∏ m, headW eps s (some l) m (t.1 m)) - ∏ m, tightW eps s l m (t.1 m)) := by
        refine Finset.sum_le_sum fun t _ => ?_
        split_ifs with h
        · exact hterm t.1
        · obtain ⟨m, hm⟩ : ∃ m, Leaks l m (t.1 m) := by
            by_contra hcon
            exact h (no_leak hl t fun m hm => hcon ⟨m, hm⟩)
          rw [Finset.prod_eq_zero (f := fun m => tightW eps s l m (t.1 m)) (Finset.mem_univ m) (by rw [tightW, if_pos hm]), sub_zero]
          exact le_rfl
    _ ≤ ∑ f : Heads N, ((∏ m, headW eps s (some l) m (f m)) - ∏ m, tightW eps s l m (f m)) := by
        rw [← Finset.sum_subtype (Finset.univ.filter fun f : Heads N => IsDepTree f ∧ (true = false → IsSingleRoot f)) (fun f => by simp)
          fun f => (∏ m, headW eps s (some l) m (f m)) - ∏ m, tightW eps s l m (f m)]
        exact Finset.sum_le_univ_sum_of_nonneg hterm

theorem sum_head_in (eps : ℝ) (s : ℕ → ℕ → ℝ) {l d : ℕ} (m : Fin l) :
    (∑ c, headW eps s (some l) (Fin.castAdd d m) c) = headTotal eps s l m + d * eps ∧ (∑ c, tightW eps s l (Fin.castAdd d m) c) = headTotal eps s l m := by
  have hm := m.2
  have hin : (∑ k : Fin l, if k = m then 0 else Real.exp (s k m) + eps) = ∑ k ∈ (Finset.range l).erase m, (Real.exp (s k m) + eps) := by
    rw [← Finset.filter_ne', Finset.sum_filter, Finset.sum_range]
    refine Finset.sum_congr rfl fun k _ => ?_
    by_cases h : k = m
    · rw [if_pos h, if_neg (by rw [h]; simp)]
    · rw [if_neg h, if_pos fun hc => h (Fin.ext hc)]
  have e0 : headW eps s (some l) (Fin.castAdd d m) 0 = Real.exp (s m m) := by
    rw [headW_root, Fin.val_castAdd, exp_some_in s hm hm, offset_in hm, add_zero]
  have e1 : ∀ k : Fin l, headW eps s (some l) (Fin.castAdd d m) (Fin.castAdd d k).succ = if k = m then 0 else Real.exp (s k m) + eps := fun k => by
    rw [headW_word, Fin.val_castAdd, Fin.val_castAdd, exp_some_in s k.2 hm]
    simp only [Fin.castAdd_inj]
  have e2 : ∀ k : Fin d, headW eps s (some l) (Fin.castAdd d m) (Fin.natAdd l k).succ = eps := fun k => by
    rw [headW_word, if_neg (by rw [Fin.ext_iff, Fin.val_natAdd, Fin.val_castAdd]; omega), Fin.val_natAdd, exp_some_out s (by omega), zero_add]
  have l0 : ¬ Leaks l (Fin.castAdd d m) (0 : Fin (l + d + 1)) := fun h => h.1 rfl
  have l1 : ∀ k : Fin l, ¬ Leaks l (Fin.castAdd d m) (Fin.castAdd d k).succ := fun k h => h.2 ⟨by rw [Fin.val_succ, Fin.val_castAdd]; have := k.2; omega, hm⟩
  have l2 : ∀ k : Fin d, Leaks l (Fin.castAdd d m) (Fin.natAdd l k).succ := fun k =>
    ⟨by rw [Fin.val_succ]; omega, by rw [Fin.val_succ, Fin.val_natAdd]; omega⟩
  constructor
  · rw [Fin.sum_univ_succ, Fin.sum_univ_add, e0]
    simp only [e1, e2]
    rw [hin, headTotal, Finset.sum_const, Finset.card_univ, Fintype.card_fin, nsmul_eq_mul]
    ring
  · rw [Fin.sum_univ_succ, Fin.sum_univ_add]
    simp only [tightW, l0, l1, l2, if_true, if_false, e0, e1]
    rw [hin, headTotal, Finset.sum_const_zero, add_zero]

theorem sum_head_out (eps : ℝ) (s : ℕ → ℕ → ℝ) {l d : ℕ} (m : Fin d) :
    (∑ c, headW eps s (some l) (Fin.natAdd l m) c) = 1 + (l + d - 1) * eps ∧ (∑ c, tightW eps s l (Fin.natAdd l m) c) = 1 := by
  have e0 : headW eps s (some l) (Fin.natAdd l m) 0 = 1 := by
    rw [headW_root, Fin.val_natAdd, exp_some_out s (by omega), offset_out (by omega), zero_add]
  have e1 : ∀ k : Fin (l + d), headW eps s (some l) (Fin.natAdd l m) k.succ = eps - if k = Fin.natAdd l m then eps else 0 := fun k => by
    rw [headW_word, Fin.val_natAdd, exp_some_out s (by omega), zero_add]
    split_ifs <;> ring
  constructor
  · rw [Fin.sum_univ_succ, e0]
    simp only [e1, Finset.sum_sub_distrib, Finset.sum_ite_eq', Finset.mem_univ, if_true, Finset.sum_const, Finset.card_univ, Fintype.card_fin, nsmul_eq_mul]
    push_cast
    ring
  · rw [Fin.sum_univ_succ, tightW, if_neg (fun h => h.1 rfl), e0, Finset.sum_eq_zero fun k _ => ?_, add_zero]
    rw [tightW, if_pos ⟨by rw [Fin.val_succ]; omega, by rw [Fin.val_natAdd]; omega⟩]

/-- The bound in terms of the head weights. -/
theorem leak_bound {eps : ℝ} (he : 0 ≤ eps) (s : ℕ → ℕ → ℝ) (l d : ℕ) (hl : 1 ≤ l) :
    (matrix true eps s (some l) (l + d)).det ≤ total true eps s l +
      ((∏ m ∈ Finset.range l, (headTotal eps s l m + d * eps)) * (1 + (l + d - 1) * eps) ^ d - ∏ m ∈ Finset.range l, headTotal eps s l m) := by
  have h := leak_le_prod he s (Nat.le_add_right l d) (by omega)
  rw [Fin.prod_univ_add, Fin.prod_univ_add] at h
  simp only [(sum_head_in eps s _).1, (sum_head_in eps s _).2, (sum_head_out eps s _).1, (sum_head_out eps s _).2, Finset.prod_const, Finset.card_univ,
    Fintype.card_fin, one_pow, mul_one] at h
  rw [Finset.prod_range, Finset.prod_range]
  exact h

/-- **C31, what holds with several roots.**  A row of length `L` gets at least the sum over the trees of its `L` words, and at most that sum plus
`∏ (A_m + (N - L) eps) (1 + (N - 1) eps)^(N - L) - ∏ A_m`, where `A_m` is the total weight of the heads of word `m` and `eps = 1e-5`.  Missing: equality, which is
false. -/
theorem lengths_multiroot_partial (p : Table) (l : List ℕ) (hl : LengthsIn p.batch p.N (some l)) (hN : 1 ≤ p.N) :
    ∃ vs, partition true p (some l) = .ok vs ∧ vs.length = p.batch ∧ ∀ b (hb : b < vs.length), ∃ v, vs[b] = some v ∧
      (∑ t : SpanTrees true (l.getD b 0), weight (1 / 100000) (p.get b) t.1) ≤ Real.exp v ∧
      Real.exp v ≤ (∑ t : SpanTrees true (l.getD b 0), weight (1 / 100000) (p.get b) t.1) +
        ((∏ m ∈ Finset.range (l.getD b 0), (headTotal (1 / 100000) (p.get b) (l.getD b 0) m + (p.N - l.getD b 0) * (1 / 100000))) *
          (1 + (p.N - 1) * (1 / 100000)) ^ (p.N - l.getD b 0) - ∏ m ∈ Finset.range (l.getD b 0), headTotal (1 / 100000) (p.get b) (l.getD b 0) m) := by
  obtain ⟨vs, h1, h2, h3⟩ := partition_too_large p l hl hN
  refine ⟨vs, h1, h2, fun b hb => ?_⟩
  obtain ⟨v, hv, hlt, heq⟩ := h3 b hb
  have hb' : b < l.length := by rw [hl.1]; omega
  obtain ⟨g1, g2⟩ := hl.2 (l.getD b 0) (by rw [List.getD_eq_getElem _ _ hb']; exact List.getElem_mem _)
  have he : (0 : ℝ) ≤ 1 / 100000 := by norm_num
  have ht := total_pos true he (p.get b) (n := l.getD b 0) (Or.inl rfl)
  refine ⟨v, hv, ?_, ?_⟩
  · refine (Real.log_le_iff_le_exp ht).1 ?_
    rcases g2.lt_or_eq with h | h
    · exact (hlt h).le
    · exact (heq h).ge
  · obtain ⟨d, hd⟩ := Nat.exists_eq_add_of_le g2
    have hdet : vs[b] = logdet (matrix true eps0 (p.get b) (some (l.getD b 0)) p.N) := by
      rw [partition, part, if_neg (by simp), rows_some _ _ hl.1] at h1
      have h1' := (Except.ok.inj h1).symm
      subst h1'
      simp only [List.getElem_map, List.getElem_range]
    rw [hv, logdet] at hdet
    split_ifs at hdet with hpos
    · rw [Option.some.inj hdet, Real.exp_log hpos]
      have hb := leak_bound he (p.get b) (l.getD b 0) d g1
      rw [hd, Nat.add_sub_cancel_left]
      push_cast
      rw [add_sub_cancel_left]
      exact hb

/-! ### Witnesses in both modes -/

/-- Two words with scores 0, of which the first is inside. -/
def leaky : Table := ⟨1, 2, fun _ _ _ => 0⟩

/-- The table of the first word only. -/
def leakyBlock : Table := ⟨1, 1, fun _ _ _ => 0⟩

theorem leaky_det (multiroot : Bool) : (matrix multiroot eps0 (leaky.get 0) (some 1) 2).det = if multiroot then 1 + 2 * eps0 else 1 + eps0 := by
  rw [Matrix.det_fin_two]
  have e : ∀ h m : ℕ, expIn (fun _ _ => (0 : ℝ)) (some 1) h m = if h < 1 ∧ m < 1 then 1 else 0 := fun h m => by
    by_cases hh : h < 1 ∧ m < 1
    · rw [if_pos hh, exp_some_in _ hh.1 hh.2, Real.exp_zero]
    · rw [if_neg hh, exp_some_out _ hh]
  cases multiroot <;> simp [matrix, full, lap, offDiag, offset, e, leaky, List.range_succ] <;> ring

theorem leakyBlock_det (multiroot : Bool) : (matrix multiroot eps0 (leakyBlock.get 0) none 1).det = 1 := by
  rw [Matrix.det_fin_one]
  cases multiroot <;> simp [matrix, full, lap, offDiag, offset, exp_none, leakyBlock]

/-- **C31 is false of the code**, in both root modes: a length-1 row in a table of two words does not get the partition of its one-word block. -/
theorem lengths_leak (multiroot : Bool) : LengthsIn leaky.batch leaky.N (some [1]) ∧
    partition multiroot leaky (some [1]) ≠ partition multiroot leakyBlock none := by
  refine ⟨⟨rfl, by decide⟩, ?_⟩
  have he : (0 : ℝ) < eps0 := by norm_num [eps0]
  have h1 := leaky_det multiroot
  have h2 := leakyBlock_det multiroot
  have hgt : 1 < (matrix multiroot eps0 (leaky.get 0) (some 1) 2).det := by rw [h1]; split_ifs <;> linarith
  have p1 : partition multiroot leaky (some [1]) = .ok [some (Real.log (matrix multiroot eps0 (leaky.get 0) (some 1) 2).det)] := by
    rw [partition, part, if_neg (by simp [leaky]), rows_some leaky.batch [1] rfl]
    change Except.ok [logdet (matrix multiroot eps0 (leaky.get 0) (some 1) 2)] = _
    rw [logdet, if_pos (by linarith)]
  have p2 : partition multiroot leakyBlock none = .ok [some 0] := by
    rw [partition, part, if_neg (by simp [leakyBlock]), rows]
    change Except.ok [logdet (matrix multiroot eps0 (leakyBlock.get 0) none 1)] = _
    rw [logdet, h2, if_pos one_pos, Real.log_one]
  rw [p1, p2]
  intro hc
  have := Real.log_pos hgt
  simp only [Except.ok.injEq, List.cons.injEq, Option.some.injEq, and_true] at hc
  linarith

end Props.NonProj
