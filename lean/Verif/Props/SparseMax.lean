import Verif.Model.SparseMax
import Verif.Spec.Simplex
import Mathlib.Data.List.GetD
import Mathlib.Algebra.Order.BigOperators.Group.List
import Mathlib.Tactic.FieldSimp
import Mathlib.Tactic.Linarith
import Mathlib.Tactic.NormNum

/-! Property theorems about `project_simplex` and `SparseMaxSemiring.sum`: C39, C57. -/

open Spec

noncomputable section
namespace Props.SparseMax
open _root_.SparseMax

theorem sorted_desc (v : List ℝ) : (sortDesc v).Pairwise (· ≥ ·) := List.pairwise_insertionSort (· ≥ ·) v

theorem perm_desc (v : List ℝ) : (sortDesc v).Perm v := List.perm_insertionSort _ v

theorem cssv_getD (xs : List ℝ) {i : ℕ} (hi : i < xs.length) : (cssv xs).getD i 0 = ∑ j ∈ Finset.range (i + 1), xs.getD j 0 - 1 := by
  have h : ∀ n ≤ xs.length, (xs.take n).sum = ∑ j ∈ Finset.range n, xs.getD j 0 := by
    intro n
    induction n with
    | zero => intro _; simp
    | succ n ih =>
      intro hn
      rw [List.sum_take_succ _ _ hn, ih (by omega), Finset.sum_range_succ, List.getD_eq_getElem _ _ hn]
  rw [cssv, List.getD_eq_getElem _ _ (by simpa using hi), List.getElem_map, List.getElem_range, h _ hi]

/-- The condition of the code, without fractions: the entries before position `i` exceed entry `i` by at most 1 in total. -/
theorem cond_iff (xs : List ℝ) {i : ℕ} (hi : i < xs.length) :
    0 ≤ xs.getD i 0 - (cssv xs).getD i 0 / ((i : ℝ) + 1) ↔ ∑ j ∈ Finset.range (i + 1), (xs.getD j 0 - xs.getD i 0) ≤ 1 := by
  have hpos : (0 : ℝ) < (i : ℝ) + 1 := by positivity
  rw [sub_nonneg, div_le_iff₀ hpos, cssv_getD xs hi, Finset.sum_sub_distrib, Finset.sum_const, Finset.card_range, nsmul_eq_mul]
  push_cast
  constructor <;> intro h <;> linarith

theorem getD_mono {xs : List ℝ} (h : xs.Pairwise (· ≥ ·)) {i j : ℕ} (hij : i ≤ j) (hj : j < xs.length) : xs.getD j 0 ≤ xs.getD i 0 := by
  rcases hij.eq_or_lt with rfl | hlt
  · exact le_rfl
  · rw [List.getD_eq_getElem _ _ hj, List.getD_eq_getElem _ _ (by omega)]
    exact List.pairwise_iff_getElem.1 h i j (by omega) hj hlt

/-- The excess of earlier entries grows with the position. -/
theorem excess_mono {xs : List ℝ} (h : xs.Pairwise (· ≥ ·)) {i j : ℕ} (hij : i ≤ j) (hj : j < xs.length) :
    ∑ l ∈ Finset.range (i + 1), (xs.getD l 0 - xs.getD i 0) ≤ ∑ l ∈ Finset.range (j + 1), (xs.getD l 0 - xs.getD j 0) := by
  refine (Finset.sum_le_sum fun l _ => sub_le_sub_left (getD_mono h hij hj) _).trans ?_
  refine Finset.sum_le_sum_of_subset_of_nonneg (Finset.range_subset_range.2 (by omega)) fun l hl _ => ?_
  exact sub_nonneg.2 (getD_mono h (Nat.lt_succ_iff.1 (Finset.mem_range.1 hl)) hj)

/-- The positions that meet the condition are the first `support` ones. -/
theorem support_spec {xs : List ℝ} (h : xs.Pairwise (· ≥ ·)) (hne : xs ≠ []) :
    1 ≤ support (fun i => (i : ℝ) + 1) xs ∧ support (fun i => (i : ℝ) + 1) xs ≤ xs.length ∧ ∀ i < xs.length,
      (∑ j ∈ Finset.range (i + 1), (xs.getD j 0 - xs.getD i 0) ≤ 1 ↔ i < support (fun i => (i : ℝ) + 1) xs) := by
  have hlen : 0 < xs.length := List.length_pos_iff.2 hne
  -- a down-closed set of positions is an initial segment
  have key : ∀ (n : ℕ) (p : ℕ → Bool), (∀ i j, i ≤ j → j < n → p j = true → p i = true) →
      ((List.range n).filter p).length ≤ n ∧ ∀ i < n, (p i = true ↔ i < ((List.range n).filter p).length) := by
    intro n p hp
    induction n with
    | zero => exact ⟨by simp, fun i hi => by omega⟩
    | succ n ih =>
      obtain ⟨h1, h2⟩ := ih fun i j hij hj => hp i j hij (by omega)
      have e : ((List.range (n + 1)).filter p).length = ((List.range n).filter p).length + if p n then 1 else 0 := by
        rw [List.range_succ, List.filter_append, List.length_append]
        congr 1
        by_cases hpn : p n = true
        · simp [hpn]
        · simp [hpn]
      rw [e]
      refine ⟨by split_ifs <;> omega, fun i hi => ?_⟩
      by_cases hpn : p n = true
      · have hall : ((List.range n).filter p).length = n := by
          rcases Nat.eq_zero_or_pos n with rfl | hn
          · simp
          · have := (h2 (n - 1) (by omega)).1 (hp (n - 1) n (by omega) (by omega) hpn)
            omega
        rw [if_pos hpn, hall]
        exact ⟨fun _ => hi, fun _ => hp i n (by omega) (by omega) hpn⟩
      · rw [if_neg hpn, add_zero]
        rcases Nat.lt_succ_iff_lt_or_eq.1 hi with hlt | rfl
        · exact h2 i hlt
        · exact ⟨fun hc => absurd hc hpn, fun hc => by omega⟩
  have hk := key xs.length (fun i => decide (0 ≤ xs.getD i 0 - (cssv xs).getD i 0 / ((i : ℝ) + 1))) fun i j hij hj hc => by
    simp only [decide_eq_true_eq] at hc ⊢
    rw [cond_iff xs hj] at hc
    rw [cond_iff xs (by omega)]
    exact (excess_mono h hij hj).trans hc
  have hiff : ∀ i < xs.length, (∑ j ∈ Finset.range (i + 1), (xs.getD j 0 - xs.getD i 0) ≤ 1 ↔ i < support (fun i => (i : ℝ) + 1) xs) := fun i hi => by
    have := hk.2 i hi
    rw [decide_eq_true_iff, cond_iff xs hi] at this
    exact this
  refine ⟨?_, hk.1, hiff⟩
  exact (hiff 0 hlen).1 (by simp)

/-- `project_simplex` subtracts a number from all entries and cuts off at 0, so that the sum is 1. -/
theorem project_threshold {v : List ℝ} (hne : v ≠ []) : ∃ tau : ℝ, projectSimplex v = v.map (fun x => max (x - tau) 0) ∧ (v.map fun x => max (x - tau) 0).sum = 1 := by
  refine ⟨_, rfl, ?_⟩
  set s := sortDesc v with hs
  have hsne : s ≠ [] := fun h => hne (by have := (perm_desc v).length_eq; rw [← hs, h] at this; exact List.length_eq_zero_iff.1 this.symm)
  have hsort : s.Pairwise (· ≥ ·) := sorted_desc v
  obtain ⟨k1, k2, k3⟩ := support_spec hsort hsne
  set k := support (fun i => (i : ℝ) + 1) s with hk
  rw [← ((perm_desc v).map fun x => max (x - (cssv s).getD (k - 1) 0 / k) 0).sum_eq, ← hs]
  rw [cssv_getD s (by omega), show k - 1 + 1 = k by omega]
  set tau := (∑ j ∈ Finset.range k, s.getD j 0 - 1) / (k : ℝ) with htau
  have hkpos : (0 : ℝ) < k := by exact_mod_cast k1
  have hkt : (k : ℝ) * tau = ∑ j ∈ Finset.range k, s.getD j 0 - 1 := by rw [htau]; field_simp
  have hin : ∀ i < k, tau ≤ s.getD i 0 := fun i hi => by
    have h1 := (k3 (k - 1) (by omega)).2 (by omega)
    rw [show k - 1 + 1 = k by omega, Finset.sum_sub_distrib, Finset.sum_const, Finset.card_range, nsmul_eq_mul] at h1
    have h2 := getD_mono hsort (show i ≤ k - 1 by omega) (by omega)
    refine le_trans ?_ h2
    rw [htau, div_le_iff₀ hkpos]
    linarith
  have hout : ∀ i, k ≤ i → i < s.length → s.getD i 0 ≤ tau := fun i hi hlt => by
    refine (getD_mono hsort hi hlt).trans ?_
    have h1 : ¬ _ := mt (k3 k (by omega)).1 (lt_irrefl _)
    rw [Finset.sum_range_succ, sub_self, add_zero, Finset.sum_sub_distrib, Finset.sum_const, Finset.card_range, nsmul_eq_mul] at h1
    rw [htau, le_div_iff₀ hkpos]
    linarith
  have hsum : (s.map fun x => max (x - tau) 0).sum = ∑ i ∈ Finset.range s.length, max (s.getD i 0 - tau) 0 := by
    rw [← Fin.sum_univ_fun_getElem s fun x => max (x - tau) 0, Finset.sum_range]
    exact Finset.sum_congr rfl fun i _ => by rw [List.getD_eq_getElem _ _ i.2]
  rw [hsum, ← Finset.sum_range_add_sum_Ico _ k2]
  rw [Finset.sum_eq_zero fun i hi => max_eq_right (sub_nonpos.2 (hout i (Finset.mem_Ico.1 hi).1 (Finset.mem_Ico.1 hi).2)), add_zero]
  rw [Finset.sum_congr rfl fun i hi => max_eq_left (sub_nonneg.2 (hin i (Finset.mem_range.1 hi))), Finset.sum_sub_distrib, Finset.sum_const, Finset.card_range,
    nsmul_eq_mul, hkt]
  ring

theorem project_simplex {v : List ℝ} (hne : v ≠ []) : IsSimplex v.length (projectSimplex v) := by
  obtain ⟨tau, h1, h2⟩ := project_threshold hne
  refine ⟨by rw [h1]; simp, fun x hx => ?_, by rw [h1]; exact h2⟩
  rw [h1] at hx
  obtain ⟨y, _, rfl⟩ := List.mem_map.1 hx
  exact le_max_right _ _

/-- The variational inequality: `‖v - w‖² + ‖p - w‖² ≤ ‖v - p‖²` for every `p` in the simplex. -/
theorem project_pythagoras {v : List ℝ} (hne : v ≠ []) {p : List ℝ} (hp : IsSimplex v.length p) :
    sqDist v (projectSimplex v) + sqDist p (projectSimplex v) ≤ sqDist v p := by
  obtain ⟨tau, h1, h2⟩ := project_threshold hne
  have hgen : ∀ (v p : List ℝ), p.length = v.length → (∀ x ∈ p, 0 ≤ x) →
      sqDist v (v.map fun x => max (x - tau) 0) + sqDist p (v.map fun x => max (x - tau) 0) + 2 * tau * ((v.map fun x => max (x - tau) 0).sum - p.sum) ≤ sqDist v p := by
    intro v
    induction v with
    | nil => intro p hp _; simp [sqDist, List.length_eq_zero_iff.1 hp]
    | cons x v ih =>
      intro p hp hnn
      rcases p with _ | ⟨y, p⟩
      · simp at hp
      have := ih p (by simpa using hp) fun z hz => hnn z (List.mem_cons_of_mem _ hz)
      have hy := hnn y List.mem_cons_self
      simp only [sqDist, List.map_cons, List.zipWith_cons_cons, List.sum_cons] at this ⊢
      have hone : (x - max (x - tau) 0) ^ 2 + (y - max (x - tau) 0) ^ 2 + 2 * tau * (max (x - tau) 0 - y) ≤ (x - y) ^ 2 := by
        rcases le_total (x - tau) 0 with h | h
        · rw [max_eq_right h]; nlinarith
        · rw [max_eq_left h]; nlinarith
      linarith
  have := hgen v p hp.length hp.nonneg
  rw [h2, hp.total, sub_self, mul_zero, add_zero] at this
  rw [h1]; exact this

theorem sqDist_nonneg : ∀ p w : List ℝ, 0 ≤ sqDist p w
  | [], _ => by simp [sqDist]
  | _ :: _, [] => by simp [sqDist]
  | x :: p, y :: w => by
    have := sqDist_nonneg p w
    simp only [sqDist, List.zipWith_cons_cons, List.sum_cons] at this ⊢
    positivity

theorem sqDist_pos : ∀ {p w : List ℝ}, p.length = w.length → p ≠ w → 0 < sqDist p w
  | [], [], _, h => absurd rfl h
  | [], _ :: _, hl, _ => by simp at hl
  | _ :: _, [], hl, _ => by simp at hl
  | x :: p, y :: w, hl, h => by
    simp only [sqDist, List.zipWith_cons_cons, List.sum_cons]
    have hnn := sqDist_nonneg p w
    by_cases hxy : x = y
    · have := sqDist_pos (p := p) (w := w) (by simpa using hl) fun hpw => h (by rw [hxy, hpw])
      simp only [sqDist] at this
      positivity
    · have : 0 < (x - y) ^ 2 := by have := sub_ne_zero.2 hxy; positivity
      simp only [sqDist] at hnn
      linarith

/-- **C39.**  `project_simplex(v)` is the point of the probability simplex closest to `v`, and the only one, for every vector with at least one entry. -/
theorem project_spec {v : List ℝ} (hne : v ≠ []) : IsProjection v (projectSimplex v) := by
  refine ⟨project_simplex hne, fun p hp hpw => ?_⟩
  have h1 := project_pythagoras hne hp
  have h2 := sqDist_pos (hp.length.trans (project_simplex hne).length.symm) hpw
  linarith

/-- The hypothesis holds for a vector with ties. -/
example : IsProjection [3, 3, -1] (projectSimplex [3, 3, -1]) := project_spec (by simp)

/-- **C59 is false of the code**: along a dimension other than the last, the weights need not be in the simplex.  For the matrix with the columns `(2, 2)` and `(0, 0)`,
`project_simplex(v, dim=0)` gives the weights `(1, 1)` in the first column. -/
theorem dim0_wrong : (projectSimplexCols [[2, 2], [0, 0]]).getD 0 [] = [1, 1] ∧ ¬ IsSimplex 2 ((projectSimplexCols [[2, 2], [0, 0]]).getD 0 []) := by
  have h : (projectSimplexCols [[2, 2], [0, 0]]).getD 0 [] = [1, 1] := by
    simp [projectSimplexCols, threshold, support, sortDesc, cssv, List.range_succ, List.insertionSort, List.orderedInsert, List.filter]
  refine ⟨h, fun hs => ?_⟩
  have := hs.total
  rw [h] at this
  norm_num at this

end Props.SparseMax
