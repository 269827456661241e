import Verif.Model.BertDep
import Verif.Props.DependencyEvents
import Mathlib.Algebra.BigOperators.Group.Finset.Sigma
import Mathlib.Algebra.BigOperators.Ring.Finset
import Mathlib.Tactic.Linarith
import Mathlib.Tactic.IntervalCases

/-! C96: what the dependency parser example measures.

`validate` adds up half of the entries in which the best tree and the gold tree differ.  For every batch this is the number of words whose head in the best tree is not the
gold head.  The best tree is the best one for the potentials after `final[b, lengths[b]-1:, :] = 0` and `final[b, :, lengths[b]-1:] = 0`, and these lines
also clear all scores of the last word of the sentence: neither the loss nor the evaluation depends on them. -/

open Spec Finset

noncomputable section
open BertDep
namespace Props.BertDep

/-- The heads of one sentence: every head is the root or another word of the sentence. -/
def GoodHeads (l : List ℕ) : Prop := ∀ k (h : k < l.length), l[k] ≤ l.length ∧ l[k] ≠ k + 1

/-- The output of the model has one row per sentence and one entry per pair of words of the longest sentence. -/
structure Fits (final : DepTree.Arcs ℝ) (nums : List (List ℕ)) : Prop where
  rank : final.rank = 3
  square : final.d1 = final.d2
  rows : final.d0 = nums.length
  nonempty : nums ≠ []
  longest : (∃ l ∈ nums, l.length = final.d1) ∧ ∀ l ∈ nums, l.length ≤ final.d1

theorem foldl_max : ∀ (l : List ℕ) (a : ℕ), a ≤ l.foldl max a ∧ (∀ x ∈ l, x ≤ l.foldl max a) ∧ (l.foldl max a = a ∨ l.foldl max a ∈ l)
  | [], a => by simp
  | y :: l, a => by
    have := foldl_max l (max a y)
    rw [List.foldl_cons]
    refine ⟨(le_max_left _ _).trans this.1, fun x hx => ?_, ?_⟩
    · rcases List.mem_cons.1 hx with rfl | hx
      · exact (le_max_right _ _).trans this.1
      · exact this.2.1 x hx
    · rcases this.2.2 with h | h
      · rw [h]
        rcases le_total a y with h' | h'
        · rw [max_eq_right h']; simp
        · rw [max_eq_left h']; simp
      · exact .inr (List.mem_cons_of_mem _ h)

theorem maxOf_eq {l : List ℕ} {n : ℕ} (h1 : n ∈ l) (h2 : ∀ x ∈ l, x ≤ n) : maxOf l = .ok n := by
  cases l with
  | nil => simp at h1
  | cons a l =>
    show Except.ok (l.foldl max a) = _
    congr 1
    have := foldl_max l a
    apply le_antisymm
    · rcases this.2.2 with h | h
      · rw [h]; exact h2 a (by simp)
      · exact h2 _ (List.mem_cons_of_mem _ h)
    · rcases List.mem_cons.1 h1 with rfl | h
      · exact this.1
      · exact this.2.1 n h

variable {final : DepTree.Arcs ℝ} {nums : List (List ℕ)}

/-- The padded heads. -/
def padded (nums : List (List ℕ)) (b i : ℕ) : ℕ := (nums.getD b []).getD i 0

theorem batchNum_eq (h : Fits final nums) : batchNum nums = .ok (padded nums, final.d1, nums.map List.length) := by
  obtain ⟨l, hl, e⟩ := h.longest.1
  unfold batchNum
  rw [maxOf_eq (List.mem_map.2 ⟨l, hl, e⟩) (by intro x hx; obtain ⟨l, hl, rfl⟩ := List.mem_map.1 hx; exact h.longest.2 l hl)]
  rfl

theorem mask_valid (h : Fits final nums) : Dependency.Valid true (mask final (nums.map List.length)) (some (nums.map List.length)) := by
  refine ⟨h.rank, h.square, ?_, by simp, ?_⟩
  · show 1 ≤ final.d0
    rw [h.rows]
    exact List.length_pos_iff.2 h.nonempty
  · rintro l hl
    obtain rfl : nums.map List.length = l := by simpa using hl
    refine ⟨by rw [List.length_map]; exact h.rows.symm, fun x hx => ⟨?_, by simp⟩⟩
    obtain ⟨l, hl, rfl⟩ := List.mem_map.1 hx
    exact h.longest.2 l hl

theorem getD_mem {b : ℕ} (hb : b < nums.length) : nums.getD b [] ∈ nums := by
  rw [List.getD_eq_getElem _ _ hb]; exact List.getElem_mem hb

theorem len_eq (q : DepTree.Arcs ℝ) {b : ℕ} (hb : b < nums.length) : Dependency.len q (some (nums.map List.length)) b = (nums.getD b []).length := by
  show (nums.map List.length).getD b 0 = _
  rw [List.getD_eq_getElem _ _ (by simpa using hb), List.getElem_map, List.getD_eq_getElem _ _ hb]

theorem heads_valid (h : Fits final nums) (hg : ∀ l ∈ nums, GoodHeads l) :
    DependencyEvents.ValidHeads nums.length final.d1 (padded nums) (some (nums.map List.length)) := by
  refine ⟨fun b hb n _ => ?_, fun l hl => ?_⟩
  · unfold padded
    by_cases hn : n < (nums.getD b []).length
    · rw [List.getD_eq_getElem _ _ hn]
      exact ((hg _ (getD_mem hb)) n hn).1.trans (h.longest.2 _ (getD_mem hb))
    · rw [List.getD_eq_default _ _ (by omega)]
      omega
  · obtain rfl : nums.map List.length = l := by simpa using hl
    simp

/-- The entry of column `j` that stands for the head `hd`. -/
def cellOf (hd j : ℕ) : ℕ := if hd = 0 then j else hd - 1

theorem cellOf_inj {a b j : ℕ} (ha : a ≠ j + 1) (hb : b ≠ j + 1) : cellOf a j = cellOf b j ↔ a = b := by
  unfold cellOf
  split_ifs <;> omega

theorem column {N c d : ℕ} (hc : c < N) (hd : d < N) :
    ∑ i ∈ range N, |(if i = c then (1 : ℝ) else 0) - (if i = d then 1 else 0)| = if c = d then 0 else 2 := by
  split_ifs with h
  · subst h; simp
  · have : ∀ i, |(if i = c then (1 : ℝ) else 0) - (if i = d then 1 else 0)| = (if i = c then 1 else 0) + (if i = d then 1 else 0) := by
      intro i
      by_cases h1 : i = c
      · subst h1; simp [h]
      · by_cases h2 : i = d
        · simp [h1, h2]
          rw [if_neg (by omega)]; simp
        · simp [h1, h2]
    simp only [this, sum_add_distrib, sum_ite_eq', mem_range, hc, hd, if_true]
    norm_num

/-- No word of a tree is its own head. -/
theorem no_self {n : ℕ} {mr : Bool} (t : ProjTrees mr n) (k : Fin n) : (t.1 k : ℕ) ≠ k + 1 := by
  intro he
  obtain ⟨m, hm⟩ := t.2.1 k
  have hfix : headOf t.1 (k + 1) = k + 1 := by
    unfold headOf
    rw [dif_pos ⟨by omega, by omega⟩]
    exact he
  have : ∀ m, (headOf t.1)^[m] ((k : ℕ) + 1) = k + 1 := fun m => Function.iterate_fixed hfix m
  rw [this] at hm
  omega

theorem hasArc_iff {n : ℕ} {mr : Bool} (t : ProjTrees mr n) (i : ℕ) (k : Fin n) : HasArc t.1 i k ↔ i = cellOf (t.1 k) k := by
  have hne := no_self t k
  have h0 : (t.1 k = 0) ↔ (t.1 k : ℕ) = 0 := ⟨fun h => by rw [h]; rfl, fun h => Fin.ext h⟩
  unfold cellOf HasArc
  constructor
  · rintro ⟨k', hk, h⟩
    obtain rfl : k' = k := Fin.ext hk
    by_cases hi : i = k'
    · rw [if_pos hi, h0] at h
      rw [if_pos h]; exact hi
    · rw [if_neg hi] at h
      rw [if_neg (by omega)]; omega
  · intro h
    refine ⟨k, rfl, ?_⟩
    by_cases hz : (t.1 k : ℕ) = 0
    · rw [if_pos hz] at h
      rw [if_pos h, h0]; exact hz
    · rw [if_neg hz] at h
      rw [if_neg (by omega)]; omega

theorem gold_iff {l : List ℕ} (hl : GoodHeads l) {i k : ℕ} (hk : k < l.length) :
    ((if i = k then l.getD k 0 = 0 else l.getD k 0 = i + 1) ∧ i < l.length ∧ k < l.length) ↔ i = cellOf (l.getD k 0) k := by
  have h := hl k hk
  rw [List.getD_eq_getElem _ _ hk]
  unfold cellOf
  split_ifs <;> omega

/-- The number of words of a sentence whose head in the tree is not the gold head. -/
def wrongHeads {n : ℕ} (h : Heads n) (gold : ℕ → ℕ) : ℕ := (univ.filter fun k : Fin n => (h k : ℕ) ≠ gold k).card

open Classical in
theorem row_count {mr : Bool} {N : ℕ} {l : List ℕ} (hl : GoodHeads l) (hN : l.length ≤ N) (t : ProjTrees mr l.length) :
    ∑ i ∈ range N, ∑ j ∈ range N, |(if HasArc t.1 i j then (1 : ℝ) else 0) -
      ((if (if i = j then l.getD j 0 = 0 else l.getD j 0 = i + 1) ∧ i < l.length ∧ j < l.length then 1 else 0 : ℕ) : ℝ)| =
      2 * wrongHeads t.1 (fun k => l.getD k 0) := by
  rw [sum_comm]
  have hcol : ∀ j ∈ range N, ∑ i ∈ range N, |(if HasArc t.1 i j then (1 : ℝ) else 0) -
      ((if (if i = j then l.getD j 0 = 0 else l.getD j 0 = i + 1) ∧ i < l.length ∧ j < l.length then 1 else 0 : ℕ) : ℝ)| =
      if h : j < l.length then (if (t.1 ⟨j, h⟩ : ℕ) ≠ l.getD j 0 then 2 else 0) else 0 := by
    intro j _
    split_ifs with h h2
    · have hg := hl j h
      have e : ∀ i ∈ range N, |(if HasArc t.1 i j then (1 : ℝ) else 0) -
          ((if (if i = j then l.getD j 0 = 0 else l.getD j 0 = i + 1) ∧ i < l.length ∧ j < l.length then 1 else 0 : ℕ) : ℝ)| =
          |(if i = cellOf (t.1 ⟨j, h⟩) j then (1 : ℝ) else 0) - (if i = cellOf (l.getD j 0) j then 1 else 0)| := by
        intro i _
        rw [if_congr (hasArc_iff t i ⟨j, h⟩) rfl rfl, if_congr (gold_iff hl h) rfl rfl]
        split_ifs <;> simp
      rw [sum_congr rfl e, column, if_neg]
      · rw [cellOf_inj]
        · exact h2
        · exact no_self t ⟨j, h⟩
        · rw [List.getD_eq_getElem _ _ h]; exact hg.2
      · have := (t.1 ⟨j, h⟩).2
        unfold cellOf; split_ifs <;> omega
      · rw [List.getD_eq_getElem _ _ h]
        unfold cellOf; split_ifs <;> omega
    · have hg := hl j h
      push Not at h2
      apply sum_eq_zero
      intro i _
      rw [if_congr (hasArc_iff t i ⟨j, h⟩) rfl rfl, if_congr (gold_iff hl h) rfl rfl]
      simp only [h2]
      split_ifs <;> simp
    · apply sum_eq_zero
      intro i _
      rw [if_neg, if_neg]
      · simp
      · omega
      · rintro ⟨k, hk, -⟩
        omega
  rw [sum_congr rfl hcol, wrongHeads, card_filter]
  push_cast
  rw [mul_sum, ← sum_subset (range_subset_range.2 hN) (fun j _ hj => dif_neg (by simpa using hj)), ← Fin.sum_univ_eq_sum_range
    (fun j => if h : j < l.length then (if (t.1 ⟨j, h⟩ : ℕ) ≠ l.getD j 0 then (2 : ℝ) else 0) else 0) l.length]
  refine sum_congr rfl fun k _ => ?_
  rw [dif_pos k.2]
  split_ifs <;> simp_all

theorem row_total {N : ℕ} {l : List ℕ} (hl : GoodHeads l) (hN : l.length ≤ N) :
    ∑ i ∈ range N, ∑ j ∈ range N,
      ((if (if i = j then l.getD j 0 = 0 else l.getD j 0 = i + 1) ∧ i < l.length ∧ j < l.length then 1 else 0 : ℕ) : ℝ) = l.length := by
  rw [sum_comm, ← sum_subset (range_subset_range.2 hN)]
  · rw [sum_congr rfl (g := fun _ => (1 : ℝ)), sum_const, card_range]
    · simp
    · intro j hj
      have hj : j < l.length := by simpa using hj
      have hg := hl j hj
      rw [sum_congr rfl (fun i _ => by rw [if_congr (gold_iff hl hj) rfl rfl])]
      push_cast
      rw [sum_ite_eq', if_pos]
      rw [List.getD_eq_getElem _ _ hj, mem_range]
      unfold cellOf; split_ifs <;> omega
  · intro j _ hj
    have hj : ¬ j < l.length := by simpa using hj
    apply sum_eq_zero
    intro i _
    rw [if_neg (by omega)]; simp

/-- **C96.** For every batch, `validate` adds the number of words whose head in a best tree is not the gold head, and the number of words.  The best tree is taken for the
potentials after the two clearing lines; ties may be broken in any way. -/
theorem validate_spec (h : Fits final nums) (hg : ∀ l ∈ nums, GoodHeads l)
    {pick : List (Autograd.Grad (List ℕ)) → Autograd.Grad (List ℕ)} (hp : Autograd.IsArgmax Prod.fst pick) :
    ∃ trees : ∀ b, ProjTrees true (nums.getD b []).length,
      (∀ b < nums.length, ∀ t' : ProjTrees true (nums.getD b []).length,
        depScore (Dependency.row (mask final (nums.map List.length)) b) t'.1 ≤ depScore (Dependency.row (mask final (nums.map List.length)) b) (trees b).1) ∧
      validate pick final nums = .ok (((∑ b ∈ range nums.length, wrongHeads (trees b).1 (fun k => (nums.getD b []).getD k 0) : ℕ) : ℝ),
        ((nums.map List.length).sum : ℕ)) := by
  classical
  obtain ⟨μ, h1, h2⟩ := Dependency.argmax_spec true _ _ (mask_valid h) hp
  obtain ⟨gold, h3, h4⟩ := DependencyEvents.toParts_spec _ _ _ _ (heads_valid h hg)
  have key : ∀ b, ∃ t : ProjTrees true (nums.getD b []).length, b < nums.length →
      (∀ t' : ProjTrees true (nums.getD b []).length, depScore (Dependency.row (mask final (nums.map List.length)) b) t'.1 ≤
        depScore (Dependency.row (mask final (nums.map List.length)) b) t.1) ∧ ∀ i j, μ [b, i, j] = if HasArc t.1 i j then 1 else 0 := by
    intro b
    by_cases hb : b < nums.length
    · have h5 := h2 b (by show b < final.d0; rw [h.rows]; exact hb)
      rw [len_eq _ hb] at h5
      obtain ⟨t, a1, a2⟩ := h5
      exact ⟨t, fun _ => ⟨a1, a2⟩⟩
    · obtain ⟨t⟩ := DepTreeProofs.nonempty_trees true (nums.getD b []).length (by simp)
      exact ⟨t, fun hb' => absurd hb' hb⟩
  choose trees ht using key
  refine ⟨trees, fun b hb => (ht b hb).1, ?_⟩
  unfold validate
  rw [batchNum_eq h]
  simp only [bind, Except.bind, h1, h3]
  rw [if_neg (by rintro (hc | hc); exacts [hc h.rows, hc rfl])]
  have hrow : ∀ b ∈ range nums.length, ∀ i ∈ range final.d1, ∀ j ∈ range final.d1, gold b i j =
      if (if i = j then (nums.getD b []).getD j 0 = 0 else (nums.getD b []).getD j 0 = i + 1) ∧ i < (nums.getD b []).length ∧ j < (nums.getD b []).length then 1 else 0 := by
    intro b hb i hi j hj
    rw [mem_range] at hb hi hj
    rw [h4 b hb i hi j hj]
    have := len_eq final hb
    unfold Dependency.len at this
    rw [this]
    rfl
  congr 2
  · rw [div_eq_iff two_ne_zero, Nat.cast_sum, sum_mul]
    refine sum_congr rfl fun b hb => ?_
    rw [mul_comm, ← row_count (hg _ (getD_mem (mem_range.1 hb))) (h.longest.2 _ (getD_mem (mem_range.1 hb))) (trees b)]
    refine sum_congr rfl fun i hi => sum_congr rfl fun j hj => ?_
    rw [hrow b hb i hi j hj, (ht b (mem_range.1 hb)).2]
  · rw [show (nums.map List.length).sum = ∑ b ∈ range nums.length, (nums.getD b []).length from ?_, Nat.cast_sum]
    · refine sum_congr rfl fun b hb => ?_
      rw [← row_total (hg _ (getD_mem (mem_range.1 hb))) (h.longest.2 _ (getD_mem (mem_range.1 hb)))]
      refine sum_congr rfl fun i hi => sum_congr rfl fun j hj => ?_
      rw [hrow b hb i hi j hj]
    · rw [← Fin.sum_univ_eq_sum_range (fun b => (nums.getD b []).length) nums.length, ← List.sum_ofFn]
      congr 1
      apply List.ext_getElem
      · simp
      · intro k hk hk'
        simp at hk hk'
        simp [List.getD_eq_getElem?_getD, hk]

/-! ### The loss -/

/-- The gold heads of row `b` are the heads of the tree `t`. -/
def IsGold (nums : List (List ℕ)) (b : ℕ) (t : ProjTrees true (nums.getD b []).length) : Prop := ∀ k : Fin (nums.getD b []).length, (nums.getD b []).getD k 0 = t.1 k

theorem gold_good {b : ℕ} {t : ProjTrees true (nums.getD b []).length} (ht : IsGold nums b t) : GoodHeads (nums.getD b []) := by
  intro k hk
  have := ht ⟨k, hk⟩
  rw [List.getD_eq_getElem _ _ hk] at this
  rw [this]
  exact ⟨Nat.lt_succ_iff.1 (t.1 ⟨k, hk⟩).2, no_self t ⟨k, hk⟩⟩

theorem logProb_congr {mr : Bool} (q : DepTree.Arcs ℝ) (lengths : Option (List ℕ)) (b : ℕ) (v : ℕ → ℕ → ℕ → ℝ) {v' : ℕ → ℕ → ℕ → ℝ}
    (h : ∀ i j l, i < q.d1 → j < q.d2 → v i j l = v' i j l) : DepTree.logProb mr q lengths b v = DepTree.logProb mr q lengths b v' := by
  unfold DepTree.logProb
  congr 1
  funext z
  simp only
  congr 3
  apply List.map_congr_left
  rintro ⟨i, j, l⟩ hx
  simp only [List.mem_flatMap, List.mem_map, List.mem_range, Prod.mk.injEq] at hx
  obtain ⟨_, h1, _, h2, _, -, rfl, rfl, rfl⟩ := hx
  exact h _ _ _ h1 h2

/-- **C96.** The training loss is the sum of the log-probabilities of the gold trees, for the potentials after the two clearing lines. -/
theorem loss_spec (h : Fits final nums) (trees : ∀ b, ProjTrees true (nums.getD b []).length) (ht : ∀ b < nums.length, IsGold nums b (trees b)) :
    loss final nums = .ok (∑ b ∈ range nums.length,
      Real.log (Gibbs.prob (fun t : ProjTrees true (nums.getD b []).length => depScore (Dependency.row (mask final (nums.map List.length)) b) t.1) (trees b))) := by
  classical
  have hg : ∀ l ∈ nums, GoodHeads l := by
    intro l hl
    obtain ⟨b, hb, rfl⟩ := List.getElem_of_mem hl
    have := gold_good (ht b hb)
    rwa [List.getD_eq_getElem _ _ hb] at this
  obtain ⟨gold, h3, h4⟩ := DependencyEvents.toParts_spec _ _ _ _ (heads_valid h hg)
  unfold loss
  rw [batchNum_eq h]
  simp only [bind, Except.bind, h3]
  have hrow : ∀ b < nums.length, DepTree.logProb true (mask final (nums.map List.length)) (some (nums.map List.length)) b (fun i j _ => (gold b i j : ℝ)) =
      .ok (Real.log (Gibbs.prob (fun t : ProjTrees true (nums.getD b []).length => depScore (Dependency.row (mask final (nums.map List.length)) b) t.1) (trees b))) := by
    intro b hb
    have h5 := Dependency.logProb_spec true _ _ (mask_valid h) b (by show b < final.d0; rw [h.rows]; exact hb)
    rw [len_eq _ hb] at h5
    rw [← h5 (trees b)]
    have h6 := fun ht' => DependencyEvents.toParts_tree _ _ _ _ (heads_valid h hg) b hb (mr := true) ht'
    have e : lenOf final.d1 (some (nums.map List.length)) b = (nums.getD b []).length := len_eq final hb
    rw [e] at h6
    obtain ⟨gold', h7, h8⟩ := h6 (trees b) (ht b hb)
    rw [h3] at h7
    cases h7
    refine logProb_congr _ _ _ _ fun i j l hi hj => ?_
    rw [h8 i hi j (by rw [h.square]; exact hj)]
    rfl
  have hl : ∀ l : List ℕ, (∀ b ∈ l, b < nums.length) → l.mapM (fun b => DepTree.logProb true (mask final (nums.map List.length)) (some (nums.map List.length)) b (fun i j _ => (gold b i j : ℝ))) =
      .ok (l.map fun b => Real.log (Gibbs.prob (fun t : ProjTrees true (nums.getD b []).length => depScore (Dependency.row (mask final (nums.map List.length)) b) t.1) (trees b))) := by
    intro l
    induction l with
    | nil => intro _; rfl
    | cons b l ih =>
      intro hb
      rw [List.mapM_cons, hrow b (hb b (by simp)), ih (fun b hb' => hb b (by simp [hb']))]
      rfl
  rw [hl _ (fun b hb => List.mem_range.1 hb)]
  simp only
  congr 1

/-! ### The last word -/

/-- The clearing lines keep exactly the scores of arcs between words before the last one. -/
theorem mask_get {b : ℕ} (hb : b < nums.length) (hpos : nums.getD b [] ≠ []) (i j : ℕ) :
    Dependency.row (mask final (nums.map List.length)) b i j =
      if i + 1 < (nums.getD b []).length ∧ j + 1 < (nums.getD b []).length then Dependency.row final b i j else 0 := by
  have e : (nums.map List.length).getD b 0 = (nums.getD b []).length := by
    rw [List.getD_eq_getElem _ _ (by simpa using hb), List.getElem_map, List.getD_eq_getElem _ _ hb]
  have hp := List.length_pos_iff.2 hpos
  unfold Dependency.row mask sliceStart
  simp only [e]
  have e2 : (nums.getD b []).length ≠ 0 := by omega
  rw [if_neg e2, if_neg e2]
  by_cases hc : i + 1 < (nums.getD b []).length ∧ j + 1 < (nums.getD b []).length
  · rw [if_pos hc, if_neg (by omega)]
  · rw [if_neg hc, if_pos (by omega)]

/-- The output of the model with all scores that involve the last word of a sentence (or padding) replaced by `x`. -/
def overwrite (final : DepTree.Arcs ℝ) (nums : List (List ℕ)) (x : ℕ → ℕ → ℕ → ℕ → ℝ) : DepTree.Arcs ℝ :=
  { final with get := fun b i j l => if b < nums.length ∧ ((nums.getD b []).length ≤ i + 1 ∨ (nums.getD b []).length ≤ j + 1) then x b i j l else final.get b i j l }

theorem mask_overwrite (hpos : ∀ l ∈ nums, l ≠ []) (x : ℕ → ℕ → ℕ → ℕ → ℝ) : mask (overwrite final nums x) (nums.map List.length) = mask final (nums.map List.length) := by
  unfold mask overwrite
  simp only [DepTree.Arcs.mk.injEq, true_and]
  funext b i j l
  by_cases hb : b < nums.length
  · have e : (nums.map List.length).getD b 0 = (nums.getD b []).length := by
      rw [List.getD_eq_getElem _ _ (by simpa using hb), List.getElem_map, List.getD_eq_getElem _ _ hb]
    have hp := List.length_pos_iff.2 (hpos _ (getD_mem hb))
    have e2 : (nums.getD b []).length ≠ 0 := by omega
    rw [e]
    unfold sliceStart
    rw [if_neg e2, if_neg e2]
    by_cases hc : (nums.getD b []).length - 1 ≤ i ∨ (nums.getD b []).length - 1 ≤ j
    · rw [if_pos hc, if_pos hc]
    · rw [if_neg hc, if_neg hc, if_neg (by omega)]
  · simp only [hb, false_and, if_false]

/-- **C96 (a defect of the example).** Replacing all scores that involve the last word of a sentence changes neither the loss nor the evaluation: they are never trained or
evaluated. -/
theorem last_word_ignored (hpos : ∀ l ∈ nums, l ≠ []) (x : ℕ → ℕ → ℕ → ℕ → ℝ) (pick : List (Autograd.Grad (List ℕ)) → Autograd.Grad (List ℕ)) :
    validate pick (overwrite final nums x) nums = validate pick final nums ∧ loss (overwrite final nums x) nums = loss final nums := by
  have e : batchNum nums = .error .value ∨ ∃ label n, batchNum nums = .ok (label, n, nums.map List.length) := by
    unfold batchNum
    cases hm : maxOf (nums.map List.length) with
    | error e =>
      left
      cases nums with
      | nil => cases hm; rfl
      | cons a l => exact absurd hm (by simp [maxOf])
    | ok n => exact .inr ⟨_, _, rfl⟩
  unfold validate loss
  rcases e with e | ⟨label, n, e⟩
  · rw [e]; exact ⟨rfl, rfl⟩
  · rw [e]
    simp only [bind, Except.bind, mask_overwrite hpos x]
    refine ⟨?_, ?_⟩ <;> first | rfl | trivial

/-- Two trees that differ only in the head of the last word have the same probability, whatever the model returns: the loss of a batch (`loss_spec`) is the same for both. -/
theorem last_head_free {b : ℕ} (hb : b < nums.length) (hpos : nums.getD b [] ≠ []) (t t' : ProjTrees true (nums.getD b []).length)
    (he : ∀ k : Fin (nums.getD b []).length, (k : ℕ) + 1 < (nums.getD b []).length → t.1 k = t'.1 k) :
    Gibbs.prob (fun t : ProjTrees true (nums.getD b []).length => depScore (Dependency.row (mask final (nums.map List.length)) b) t.1) t =
    Gibbs.prob (fun t : ProjTrees true (nums.getD b []).length => depScore (Dependency.row (mask final (nums.map List.length)) b) t.1) t' := by
  have : depScore (Dependency.row (mask final (nums.map List.length)) b) t.1 = depScore (Dependency.row (mask final (nums.map List.length)) b) t'.1 := by
    unfold depScore
    refine sum_congr rfl fun k _ => ?_
    by_cases hk : (k : ℕ) + 1 < (nums.getD b []).length
    · rw [he k hk]
    · have hs : ∀ hd : ℕ, (arcCell hd k).2 = k := fun hd => by unfold arcCell; split_ifs <;> rfl
      rw [mask_get hb hpos, mask_get hb hpos, hs, hs, if_neg (fun hc => hk hc.2), if_neg (fun hc => hk hc.2)]
  unfold Gibbs.prob
  simp only [this]

/-! ### A case -/

/-- Two sentences, of three and of two words. -/
def golds : List (List ℕ) := [[2, 0, 2], [0, 1]]

/-- The hypotheses of `validate_spec` are met by `golds` and every table of scores of the right size. -/
example (φ : ℕ → ℕ → ℕ → ℕ → ℝ) : Fits ⟨3, 2, 3, 3, 1, φ⟩ golds ∧ (∀ l ∈ golds, GoodHeads l) ∧ ∀ l ∈ golds, l ≠ [] := by
  refine ⟨⟨rfl, rfl, rfl, by simp [golds], by simp [golds]⟩, ?_, by simp [golds]⟩
  intro l hl
  simp only [golds, List.mem_cons, List.not_mem_nil, or_false] at hl
  rcases hl with rfl | rfl
  · intro k hk
    have hk : k < 3 := hk
    interval_cases k <;> simp
  · intro k hk
    have hk : k < 2 := hk
    interval_cases k <;> simp

/-- The tree in which every word is attached to the root. -/
def flat (n : ℕ) : ProjTrees true n := by
  have h1 : ∀ y, headOf (fun _ => 0 : Heads n) y = 0 := by intro y; unfold headOf; split_ifs <;> rfl
  exact ⟨fun _ => 0, fun k => ⟨1, h1 _⟩, fun k y _ => ⟨1, h1 _⟩, by simp⟩

/-- The hypotheses of `loss_spec` are met by a batch of two sentences. -/
example (φ : ℕ → ℕ → ℕ → ℕ → ℝ) : Fits ⟨3, 2, 3, 3, 1, φ⟩ [[0, 0, 0], [0, 0]] ∧
    ∀ b < 2, IsGold [[0, 0, 0], [0, 0]] b (flat _) := by
  refine ⟨⟨rfl, rfl, rfl, by simp, by simp⟩, ?_⟩
  intro b hb (k : Fin _)
  show List.getD _ _ _ = 0
  interval_cases b
  · have hk : (k : ℕ) < 3 := k.2
    obtain ⟨k, hk'⟩ := k
    simp only at hk ⊢
    interval_cases k <;> rfl
  · have hk : (k : ℕ) < 2 := k.2
    obtain ⟨k, hk'⟩ := k
    simp only at hk ⊢
    interval_cases k <;> rfl

end Props.BertDep
