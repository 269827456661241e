import Verif.Model.InfNonProj
import Verif.Props.NonProj
import Verif.Props.NonProjLeak
import Mathlib.Algebra.Order.BigOperators.Ring.Finset
import Mathlib.Tactic.FinCases

/-! Property theorems about `NonProjectiveDependencyCRF` with forbidden arcs written as `-inf`: C123. -/

open Spec MatrixTree

noncomputable section
namespace Props.InfNonProj
open _root_.InfNonProj
open _root_.NonProj (offset logdet rows eps0)

/-! ### The specification -/

/-- The tree uses no arc of score `-inf`. -/
def Allowed (s : ℕ → ℕ → EReal) {n : ℕ} (t : Heads n) : Prop := ∀ m : Fin n, s (arcCell (t m) m).1 (arcCell (t m) m).2 ≠ ⊥

/-- The word can be a child of the root. -/
def RootAllowed (s : ℕ → ℕ → EReal) (n : ℕ) : Prop := ∃ m : Fin n, s m m ≠ ⊥

open Classical in
/-- What a user who forbids arcs wants: the exponential of the score of an allowed tree, 0 for the others. -/
def wanted (s : ℕ → ℕ → EReal) {n : ℕ} (t : Heads n) : ℝ := if Allowed s t then Real.exp (depScore (fun h m => (s h m).toReal) t) else 0

/-- The sum over the allowed trees. -/
def wantedTotal (multiroot : Bool) (s : ℕ → ℕ → EReal) (n : ℕ) : ℝ := ∑ t : SpanTrees multiroot n, wanted s t.1

/-- What the code computes with: an arc from the root has weight `exp(score)`, an arc between words `exp(score) + eps`, where `exp(-inf) = 0`. -/
def weight (eps : ℝ) (w : ℕ → ℕ → ℝ) {n : ℕ} (t : Heads n) : ℝ :=
  ∏ m : Fin n, if t m = 0 then w m m else w ((t m : ℕ) - 1) m + eps

/-- The sum over all trees. -/
def total (multiroot : Bool) (eps : ℝ) (w : ℕ → ℕ → ℝ) (n : ℕ) : ℝ := ∑ t : SpanTrees multiroot n, weight eps w t.1

/-- All scores of arcs into word `m`, exponentiated. -/
def inSum (s : ℕ → ℕ → EReal) (n m : ℕ) : ℝ := ∑ h ∈ Finset.range n, expE (s h m)

/-- How much `eps` can add to the sum over the trees. -/
def gap (eps : ℝ) (s : ℕ → ℕ → EReal) (n : ℕ) : ℝ := (∏ m ∈ Finset.range n, (inSum s n m + ((n : ℝ) - 1) * eps)) - ∏ m ∈ Finset.range n, inSum s n m

/-! ### The matrix -/

theorem expE_nonneg (x : EReal) : 0 ≤ expE x := by
  rw [expE]; split_ifs
  · exact le_rfl
  · exact Real.exp_nonneg _

theorem expE_bot : expE ⊥ = 0 := if_pos rfl

theorem expE_pos {x : EReal} (h : x ≠ ⊥) : 0 < expE x := by rw [expE, if_neg h]; exact Real.exp_pos _

theorem exp_none (s : ℕ → ℕ → EReal) : expIn s none = fun h m => expE (s h m) := by
  funext h m; rw [expIn, if_pos]; trivial

theorem wanted_eq (s : ℕ → ℕ → EReal) {n : ℕ} (t : Heads n) : wanted s t = weight 0 (fun h m => expE (s h m)) t := by
  have hw : weight 0 (fun h m => expE (s h m)) t = ∏ m : Fin n, expE (s (arcCell (t m) m).1 (arcCell (t m) m).2) := by
    refine Finset.prod_congr rfl fun m _ => ?_
    by_cases h : t m = 0
    · rw [if_pos h, arcCell, if_pos (by rw [h]; rfl)]
    · rw [if_neg h, add_zero, arcCell, if_neg fun hc : (t m : ℕ) = 0 => h (Fin.ext hc)]
  rw [hw, wanted]
  split_ifs with h
  · rw [depScore, Real.exp_sum]
    exact Finset.prod_congr rfl fun m _ => by rw [expE, if_neg (h m)]
  · simp only [Allowed, not_forall, not_not] at h
    obtain ⟨m, hm⟩ := h
    exact (Finset.prod_eq_zero (Finset.mem_univ m) (by rw [hm, expE_bot])).symm

/-- The weights of the heads of a word, as the matrix holds them. -/
def headW (eps : ℝ) (w : ℕ → ℕ → ℝ) {n : ℕ} (m : Fin n) (c : Fin (n + 1)) : ℝ :=
  Fin.cases (w m m) (fun k => if k = m then 0 else w k m + eps) c

theorem headW_root (eps : ℝ) (w : ℕ → ℕ → ℝ) {n : ℕ} (m : Fin n) : headW eps w m 0 = w m m := rfl

theorem headW_word (eps : ℝ) (w : ℕ → ℕ → ℝ) {n : ℕ} (m k : Fin n) : headW eps w m k.succ = if k = m then 0 else w k m + eps := rfl

theorem sum_offDiag (eps : ℝ) (w : ℕ → ℕ → ℝ) {n : ℕ} (m : Fin n) :
    ((List.range n).map fun k => offDiag eps w k m).sum = ∑ k : Fin n, headW eps w m k.succ := by
  have h1 : ((List.range n).map fun k => offDiag eps w k m).sum = ∑ k ∈ Finset.range n, offDiag eps w k m := rfl
  rw [h1, Finset.sum_range]
  refine Finset.sum_congr rfl fun k _ => ?_
  rw [headW_word, offDiag]
  by_cases h : k = m
  · rw [if_pos h, if_pos (congrArg Fin.val h)]
  · rw [if_neg h, if_neg fun hc => h (Fin.ext hc)]

theorem sum_words (eps : ℝ) (w : ℕ → ℕ → ℝ) {n : ℕ} (j m : Fin n) :
    (∑ k : Fin n, headW eps w m k.succ * ((if j = m then 1 else 0) - if j = k then 1 else 0)) =
      -offDiag eps w j m + if j = m then ∑ k : Fin n, headW eps w m k.succ else 0 := by
  simp only [mul_sub, mul_ite, mul_one, mul_zero, Finset.sum_sub_distrib, Finset.sum_ite_eq, Finset.mem_univ, if_true]
  rw [show (if j = m then ∑ k : Fin n, headW eps w m k.succ else 0) = ∑ k : Fin n, if j = m then headW eps w m k.succ else 0 by
    split_ifs <;> simp]
  rw [headW_word, offDiag]
  by_cases h : j = m
  · rw [if_pos h, if_pos (congrArg Fin.val h)]; ring
  · rw [if_neg h, if_neg fun hc => h (Fin.ext hc)]; ring

/-- The matrix of the code is the transposed matrix of the matrix-tree theorem. -/
theorem matrix_eq (multiroot : Bool) (eps : ℝ) (w : ℕ → ℕ → ℝ) {n : ℕ} (z : Fin n) (hz : (z : ℕ) = 0) :
    (matrix multiroot eps w none n).transpose = mat (vec multiroot z) (headW eps w) := by
  cases multiroot with
  | true =>
    funext m j
    rw [Matrix.transpose_apply, matrix, Matrix.of_apply, full, if_pos rfl, lap, mat, Matrix.of_apply, Finset.sum_apply, Fin.sum_univ_succ]
    simp only [Pi.smul_apply, smul_eq_mul, vec, if_true, vecMulti_root, vecMulti_word]
    rw [sum_words, headW_root, sum_offDiag, offset]
    by_cases h : j = m
    · subst h; simp only [if_true]; ring
    · have h' : (j : ℕ) ≠ m := fun hc => h (Fin.ext hc)
      simp only [h, h', if_false]; ring
  | false =>
    funext m j
    rw [Matrix.transpose_apply, matrix, Matrix.of_apply, full, if_neg (by simp), mat, Matrix.of_apply, Finset.sum_apply, Fin.sum_univ_succ]
    simp only [Pi.smul_apply, smul_eq_mul, vec, Bool.false_eq_true, if_false, vecSingle_root, vecSingle_word, headW_root]
    by_cases hj : j = z
    · simp [hj, hz]
    · have : (j : ℕ) ≠ 0 := fun hc => hj (Fin.ext (by rw [hc, hz]))
      simp only [hj, this, if_false]
      rw [sum_words, lap, sum_offDiag, offset]
      by_cases h : j = m
      · subst h; simp
      · have h' : (j : ℕ) ≠ m := fun hc => h (Fin.ext hc)
        simp [h, h']

theorem prod_headW (eps : ℝ) (w : ℕ → ℕ → ℝ) {n : ℕ} {t : Heads n} (h : IsDepTree t) : ∏ m, headW eps w m (t m) = weight eps w t := by
  refine Finset.prod_congr rfl fun m _ => ?_
  have hne := NonProj.tree_ne h m
  cases hc : t m using Fin.cases with
  | zero => rw [headW_root, if_pos rfl]
  | succ k =>
    rw [headW_word, if_neg, if_neg (Fin.succ_ne_zero k)]
    · simp
    · rintro rfl; exact hne hc

theorem det_matrix (multiroot : Bool) (eps : ℝ) (w : ℕ → ℕ → ℝ) {n : ℕ} (hn : 1 ≤ n) :
    (matrix multiroot eps w none n).det = total multiroot eps w n := by
  rw [← Matrix.det_transpose, matrix_eq multiroot eps w ⟨0, hn⟩ rfl, matrix_tree]
  exact Finset.sum_congr rfl fun t _ => prod_headW eps w t.2.1

/-! ### When the sum is positive -/

theorem weight_nonneg {eps : ℝ} (he : 0 ≤ eps) {w : ℕ → ℕ → ℝ} (hw : ∀ h m, 0 ≤ w h m) {n : ℕ} (t : Heads n) : 0 ≤ weight eps w t := by
  refine Finset.prod_nonneg fun m _ => ?_
  split_ifs
  · exact hw _ _
  · have := hw ((t m : ℕ) - 1) m; linarith

theorem total_nonneg (mr : Bool) {eps : ℝ} (he : 0 ≤ eps) {w : ℕ → ℕ → ℝ} (hw : ∀ h m, 0 ≤ w h m) (n : ℕ) : 0 ≤ total mr eps w n :=
  Finset.sum_nonneg fun t _ => weight_nonneg he hw t.1

/-- The tree in which word `r` is the child of the root, `m` the child of `h` (if `m` is not `r`), and every other word a child of `r`. -/
def via {n : ℕ} (r h m : Fin n) : Heads n := fun x => if x = r then 0 else if x = m then h.succ else r.succ

theorem via_root {n : ℕ} (r h m : Fin n) (x : Fin n) : via r h m x = 0 ↔ x = r := by
  rw [via]
  split_ifs with h1 h2
  · simp [h1]
  · simp [h1, Fin.succ_ne_zero]
  · simp [h1, Fin.succ_ne_zero]

theorem via_tree {n : ℕ} {r h m : Fin n} (hm : h ≠ m) : IsDepTree (via r h m) ∧ IsSingleRoot (via r h m) := by
  have hr : Dominates (via r h m) 0 (r + 1) := (leads_iff _ r).2 (by rw [(via_root r h m r).2 rfl]; exact ⟨0, rfl⟩)
  have hother : ∀ x : Fin n, x ≠ m → Dominates (via r h m) 0 (x + 1) := by
    intro x hx
    by_cases hxr : x = r
    · rw [hxr]; exact hr
    · rw [leads_iff, via, if_neg hxr, if_neg hx]; exact hr
  refine ⟨fun x => ?_, r, (via_root r h m r).2 rfl, fun y hy => (via_root r h m y).1 hy⟩
  by_cases hx : x = m
  · by_cases hxr : x = r
    · rw [hxr]; exact hr
    · rw [leads_iff, via, if_neg hxr, if_pos hx]; exact hother h hm
  · exact hother x hx

theorem weight_via_pos {eps : ℝ} (he : 0 < eps) (s : ℕ → ℕ → EReal) {n : ℕ} {r : Fin n} (hr : s r r ≠ ⊥) (h m : Fin n) :
    0 < weight eps (fun h m => expE (s h m)) (via r h m) := by
  refine Finset.prod_pos fun x _ => ?_
  by_cases hx : via r h m x = 0
  · rw [if_pos hx, (via_root r h m x).1 hx]; exact expE_pos hr
  · rw [if_neg hx]; have := expE_nonneg (s ((via r h m x : ℕ) - 1) x); linarith

/-- A tree whose root child is `r`, also when there is just one word. -/
theorem exists_via {eps : ℝ} (he : 0 < eps) (s : ℕ → ℕ → EReal) {n : ℕ} {r : Fin n} (hr : s r r ≠ ⊥) (mr : Bool) :
    ∃ t : SpanTrees mr n, 0 < weight eps (fun h m => expE (s h m)) t.1 := by
  by_cases h : ∃ h : Fin n, h ≠ r
  · obtain ⟨h, hh⟩ := h
    exact ⟨⟨via r h r, (via_tree hh).1, fun _ => (via_tree hh).2⟩, weight_via_pos he s hr h r⟩
  · have hall : ∀ x : Fin n, x = r := fun x => not_not.1 fun hc => h ⟨x, hc⟩
    refine ⟨⟨via r r r, fun x => ?_, fun _ => ⟨r, (via_root r r r r).2 rfl, fun y _ => hall y⟩⟩, weight_via_pos he s hr r r⟩
    rw [leads_iff, (via_root r r r x).2 (hall x)]; exact ⟨0, rfl⟩

theorem total_pos_iff (mr : Bool) {eps : ℝ} (he : 0 < eps) (s : ℕ → ℕ → EReal) {n : ℕ} (hn : 1 ≤ n) :
    (0 < total mr eps (fun h m => expE (s h m)) n ↔ RootAllowed s n) ∧ (¬ RootAllowed s n → total mr eps (fun h m => expE (s h m)) n = 0) := by
  have h0 : ¬ RootAllowed s n → total mr eps (fun h m => expE (s h m)) n = 0 := by
    intro hno
    refine Finset.sum_eq_zero fun t _ => ?_
    -- the first word on the way to the root is a child of the root
    have : ∃ m, t.1 m = 0 := by
      by_contra hc
      have hc : ∀ m, t.1 m ≠ 0 := fun m hm => hc ⟨m, hm⟩
      obtain ⟨k, hk⟩ := t.2.1 ⟨0, hn⟩
      have hiter : ∀ k : ℕ, ∀ x, 1 ≤ x → x ≤ n → 1 ≤ (headOf t.1)^[k] x := by
        intro k
        induction k with
        | zero => intro x hx _; exact hx
        | succ k ih =>
          intro x hx hxn
          rw [Function.iterate_succ_apply]
          have e : headOf t.1 x = t.1 ⟨x - 1, by omega⟩ := by rw [headOf, dif_pos ⟨hx, hxn⟩]
          have hne := hc ⟨x - 1, by omega⟩
          have hv : (t.1 ⟨x - 1, by omega⟩ : ℕ) ≠ 0 := fun h => hne (Fin.ext h)
          have hlt := (t.1 ⟨x - 1, by omega⟩).2
          exact ih _ (by rw [e]; omega) (by rw [e]; omega)
      have := hiter k 1 le_rfl hn
      simp only at hk
      rw [show ((⟨0, hn⟩ : Fin n) : ℕ) + 1 = 1 from rfl] at hk
      omega
    obtain ⟨m, hm⟩ := this
    refine Finset.prod_eq_zero (Finset.mem_univ m) ?_
    rw [if_pos hm]
    have : s m m = ⊥ := not_not.1 fun h => hno ⟨m, h⟩
    change expE (s m m) = 0
    rw [this, expE_bot]
  refine ⟨⟨fun hpos => not_not.1 fun hno => by rw [h0 hno] at hpos; exact lt_irrefl _ hpos, ?_⟩, h0⟩
  rintro ⟨r, hr⟩
  obtain ⟨t, ht⟩ := exists_via he s hr mr
  exact Finset.sum_pos' (fun t _ => weight_nonneg he.le (fun _ _ => expE_nonneg _) t.1) ⟨t, Finset.mem_univ _, ht⟩

/-! ### How much `eps` adds -/

theorem headW_mono {eps : ℝ} (he : 0 ≤ eps) {w : ℕ → ℕ → ℝ} (hw : ∀ h m, 0 ≤ w h m) {n : ℕ} (m : Fin n) (c : Fin (n + 1)) :
    0 ≤ headW 0 w m c ∧ headW 0 w m c ≤ headW eps w m c := by
  cases c using Fin.cases with
  | zero => exact ⟨hw _ _, le_rfl⟩
  | succ k =>
    rw [headW_word, headW_word]
    split_ifs
    · exact ⟨le_rfl, le_rfl⟩
    · have := hw k m; constructor <;> linarith

theorem sum_headW (eps : ℝ) (s : ℕ → ℕ → EReal) {n : ℕ} (m : Fin n) :
    ∑ c, headW eps (fun h m => expE (s h m)) m c = inSum s n m + ((n : ℝ) - 1) * eps := by
  rw [Fin.sum_univ_succ, headW_root, inSum, Finset.sum_range]
  simp only [headW_word]
  have e : ∀ k : Fin n, (if k = m then 0 else expE (s k m) + eps) = expE (s k m) + eps - if k = m then expE (s m m) + eps else 0 := by
    intro k; split_ifs with h
    · subst h; ring
    · ring
  simp only [e, Finset.sum_sub_distrib, Finset.sum_add_distrib, Finset.sum_ite_eq', Finset.mem_univ, if_true, Finset.sum_const, Finset.card_univ, Fintype.card_fin,
    nsmul_eq_mul]
  ring

theorem prod_le {eps : ℝ} (he : 0 ≤ eps) {w : ℕ → ℕ → ℝ} (hw : ∀ h m, 0 ≤ w h m) {n : ℕ} (t : Heads n) :
    (∏ m, headW 0 w m (t m)) ≤ ∏ m, headW eps w m (t m) :=
  Finset.prod_le_prod (fun m _ => (headW_mono he hw m _).1) fun m _ => (headW_mono he hw m _).2

theorem weight_le {eps : ℝ} (he : 0 ≤ eps) {w : ℕ → ℕ → ℝ} (hw : ∀ h m, 0 ≤ w h m) {n : ℕ} (t : Heads n) : weight 0 w t ≤ weight eps w t := by
  refine Finset.prod_le_prod (fun m _ => ?_) fun m _ => ?_
  · split_ifs
    · exact hw _ _
    · rw [add_zero]; exact hw _ _
  · split_ifs
    · exact le_rfl
    · linarith

theorem wantedTotal_eq (mr : Bool) (s : ℕ → ℕ → EReal) (n : ℕ) : wantedTotal mr s n = total mr 0 (fun h m => expE (s h m)) n :=
  Finset.sum_congr rfl fun t _ => wanted_eq s t.1

/-- Sums over trees lie between the wanted sum and the wanted sum plus the gap. -/
theorem total_bounds (mr : Bool) {eps : ℝ} (he : 0 ≤ eps) (s : ℕ → ℕ → EReal) (n : ℕ) :
    wantedTotal mr s n ≤ total mr eps (fun h m => expE (s h m)) n ∧ total mr eps (fun h m => expE (s h m)) n ≤ wantedTotal mr s n + gap eps s n := by
  classical
  have hw : ∀ h m, 0 ≤ (fun h m => expE (s h m)) h m := fun _ _ => expE_nonneg _
  rw [wantedTotal_eq]
  refine ⟨Finset.sum_le_sum fun t _ => weight_le he hw t.1, ?_⟩
  have h1 : total mr eps (fun h m => expE (s h m)) n - total mr 0 (fun h m => expE (s h m)) n ≤
      ∑ t : Heads n, ((∏ m, headW eps (fun h m => expE (s h m)) m (t m)) - ∏ m, headW 0 (fun h m => expE (s h m)) m (t m)) := by
    rw [total, total, ← Finset.sum_sub_distrib]
    have e : ∀ t : SpanTrees mr n, weight eps (fun h m => expE (s h m)) t.1 - weight 0 (fun h m => expE (s h m)) t.1 =
        (∏ m, headW eps (fun h m => expE (s h m)) m (t.1 m)) - ∏ m, headW 0 (fun h m => expE (s h m)) m (t.1 m) := fun t => by
      rw [prod_headW _ _ t.2.1, prod_headW _ _ t.2.1]
    rw [Finset.sum_congr rfl fun t _ => e t]
    have hsub : ∀ F : Heads n → ℝ, (∑ t : SpanTrees mr n, F t.1) = ∑ t ∈ Finset.univ.filter fun t : Heads n => IsDepTree t ∧ (mr = false → IsSingleRoot t), F t :=
      fun F => (Finset.sum_subtype _ (fun t => by simp) F).symm
    rw [hsub fun t => (∏ m, headW eps (fun h m => expE (s h m)) m (t m)) - ∏ m, headW 0 (fun h m => expE (s h m)) m (t m)]
    exact Finset.sum_le_univ_sum_of_nonneg fun t => sub_nonneg.2 (prod_le he hw t)
  have h2 : ∀ e : ℝ, (∑ t : Heads n, ∏ m, headW e (fun h m => expE (s h m)) m (t m)) = ∏ m ∈ Finset.range n, (inSum s n m + ((n : ℝ) - 1) * e) := by
    intro e
    rw [Finset.prod_range]
    simp only [← sum_headW]
    rw [Finset.prod_univ_sum, Fintype.piFinset_univ]
  rw [Finset.sum_sub_distrib, h2, h2] at h1
  simp only [mul_zero, add_zero] at h1
  rw [gap]
  linarith

/-! ### C123: the partition -/

theorem eps0_eq : eps0 = 1 / 100000 := rfl

theorem rows_none (batch : ℕ) : rows batch none = .ok ((List.range batch).map fun b => (b, none)) := rfl

/-- **C123, `partition`.**  Scores may be `-inf` anywhere.  A row in which every root arc is forbidden gives `-inf`.  In every other row the result is a
number, even if no tree avoids the forbidden arcs: its exponential is the sum over all trees of `exp(score)` for root arcs and `exp(score) + 1e-5` for arcs
between words, so that forbidden arcs between words count with weight `1e-5`.  It is at least the sum over the allowed trees and
at most `gap` more. -/
theorem partition_spec (mr : Bool) (p : Table) (hn : 1 ≤ p.N) :
    ∃ vs, partition mr p none = .ok vs ∧ vs.length = p.batch ∧ ∀ b (hb : b < vs.length),
      (¬ RootAllowed (p.get b) p.N → vs[b] = none) ∧
      (RootAllowed (p.get b) p.N → ∃ v, vs[b] = some v ∧
        Real.exp v = ∑ t : SpanTrees mr p.N, weight (1 / 100000) (fun h m => expE (p.get b h m)) t.1 ∧
        wantedTotal mr (p.get b) p.N ≤ Real.exp v ∧ Real.exp v ≤ wantedTotal mr (p.get b) p.N + gap (1 / 100000) (p.get b) p.N) := by
  refine ⟨(List.range p.batch).map fun b => logdet (matrix mr eps0 (expIn (p.get b) none) none p.N), ?_, by simp, fun b hb => ?_⟩
  · rw [partition, part, if_neg (by omega), rows_none]
    change Except.ok (List.map _ (List.map _ _)) = _
    rw [List.map_map]; rfl
  · simp only [List.getElem_map, List.getElem_range, logdet]
    rw [exp_none, det_matrix mr _ _ hn, eps0_eq]
    obtain ⟨h1, h2⟩ := total_pos_iff mr (eps := 1 / 100000) (by norm_num) (p.get b) hn
    refine ⟨fun hno => by rw [if_neg]; rw [h2 hno]; exact lt_irrefl 0, fun hr => ?_⟩
    have hpos := h1.2 hr
    refine ⟨_, if_pos hpos, ?_⟩
    rw [Real.exp_log hpos]
    exact ⟨rfl, total_bounds mr (by norm_num) _ _⟩

open Classical in
/-- **C123, forbidden arcs are not forbidden.**  With a forbidden arc between two words and an allowed root arc to a word other than the child, the trees that use
forbidden arcs contribute to `partition`. -/
theorem partition_counts_forbidden (mr : Bool) (p : Table) {b : ℕ} (hb : b < p.batch) {r h m : Fin p.N} (hr : p.get b r r ≠ ⊥) (hrm : r ≠ m) (hhm : h ≠ m)
    (hF : p.get b h m = ⊥) :
    ∃ vs v, partition mr p none = .ok vs ∧ vs[b]? = some (some v) ∧
      (∑ t : SpanTrees mr p.N, if Allowed (p.get b) t.1 then weight (1 / 100000) (fun h m => expE (p.get b h m)) t.1 else 0) < Real.exp v := by
  have hn : 1 ≤ p.N := by have := r.2; omega
  obtain ⟨vs, h1, h2, h3⟩ := partition_spec mr p hn
  obtain ⟨v, hv, he, -⟩ := (h3 b (by omega)).2 ⟨r, hr⟩
  refine ⟨vs, v, h1, by rw [List.getElem?_eq_getElem (by omega), hv], ?_⟩
  rw [he]
  have hnn : ∀ t : SpanTrees mr p.N, 0 ≤ weight (1 / 100000) (fun h m => expE (p.get b h m)) t.1 := fun t =>
    weight_nonneg (by norm_num) (fun _ _ => expE_nonneg _) t.1
  refine Finset.sum_lt_sum (fun t _ => by split_ifs; exacts [le_rfl, hnn t]) ?_
  refine ⟨⟨via r h m, (via_tree hhm).1, fun _ => (via_tree hhm).2⟩, Finset.mem_univ _, ?_⟩
  rw [if_neg]
  · exact weight_via_pos (by norm_num) (p.get b) hr h m
  · intro hA
    have := hA m
    simp only [via, if_neg (Ne.symm hrm), if_true, arcCell] at this
    rw [if_neg (by simp)] at this
    exact this (by simpa using hF)

/-! ### C123: marginals -/

open Classical in
/-- The probability, under the weights of the code, that word `m` has head `c` (0 is the root). -/
def prob (mr : Bool) (eps : ℝ) (w : ℕ → ℕ → ℝ) {n : ℕ} (m : Fin n) (c : Fin (n + 1)) : ℝ :=
  (∑ t : SpanTrees mr n, if t.1 m = c then weight eps w t.1 else 0) / total mr eps w n

open Classical in
/-- The probability of the arc given that no forbidden arc is used. -/
def wantedProb (mr : Bool) (s : ℕ → ℕ → EReal) {n : ℕ} (m : Fin n) (c : Fin (n + 1)) : ℝ :=
  (∑ t : SpanTrees mr n, if t.1 m = c then wanted s t.1 else 0) / wantedTotal mr s n

theorem prob_eq (mr : Bool) {eps : ℝ} (w : ℕ → ℕ → ℝ) {n : ℕ} (hpos : total mr eps w n ≠ 0) (z : Fin n) (hz : (z : ℕ) = 0) (m : Fin n) (c : Fin (n + 1)) :
    prob mr eps w m c = headW eps w m c * ∑ j, (matrix mr eps w none n)⁻¹ m j * vec mr z m c j := by
  classical
  have hn : 1 ≤ n := by have := z.2; omega
  have hdet := det_matrix mr eps w hn
  have h1 := arc_sum mr z (headW eps w) m c
  rw [arc_sum_inv mr z _ _ (matrix_eq mr eps w z hz) (by rw [hdet]; exact hpos) m c, hdet] at h1
  have h2 : (∑ t : SpanTrees mr n, if t.1 m = c then weight eps w t.1 else 0) =
      ∑ t : SpanTrees mr n, if t.1 m = c then ∏ j, headW eps w j (t.1 j) else 0 :=
    Finset.sum_congr rfl fun t _ => by rw [prod_headW eps w t.2.1]
  rw [prob, div_eq_iff hpos]
  refine Eq.trans ?_ (h2.trans (Eq.trans ?_ (h1.trans (by ring))))
  · exact Finset.sum_congr rfl fun t _ => by split_ifs <;> rfl
  · exact Finset.sum_congr rfl fun t _ => by split_ifs <;> rfl

theorem marginal_eq (mr : Bool) {eps : ℝ} (w : ℕ → ℕ → ℝ) {n : ℕ} (hpos : total mr eps w n ≠ 0) (h m : Fin n) (he' : w h m + eps ≠ 0) :
    marginal mr w (matrix mr eps w none n)⁻¹ h m =
      if h = m then prob mr eps w m 0 else prob mr eps w m h.succ * (w h m / (w h m + eps)) := by
  have hn : 0 < n := Nat.lt_of_le_of_lt (Nat.zero_le _) m.2
  rw [prob_eq mr w hpos ⟨0, hn⟩ rfl, prob_eq mr w hpos ⟨0, hn⟩ rfl]
  simp only [marginal, headW_root]
  cases mr with
  | true =>
    by_cases hm : h = m
    · subst hm
      simp [vec, vecMulti_root]
    · rw [if_pos rfl, if_neg hm, if_neg hm, headW_word, if_neg hm]
      simp only [vec, if_true, vecMulti_word, mul_sub, mul_ite, mul_one, mul_zero, Finset.sum_sub_distrib, Finset.sum_ite_eq', Finset.mem_univ]
      field_simp
      ring
  | false =>
    have hzero : ∀ x : Fin n, x = ⟨0, hn⟩ ↔ (x : ℕ) = 0 := fun x => Fin.ext_iff
    by_cases hm : h = m
    · subst hm
      simp [vec, vecSingle_root]
    · rw [if_neg (by simp), if_neg hm, if_neg hm, headW_word, if_neg hm]
      have hsum : (∑ j, (matrix false eps w none n)⁻¹ m j * vec false ⟨0, hn⟩ m h.succ j) =
          (if (m : ℕ) = 0 then 0 else (matrix false eps w none n)⁻¹ m m) - if (h : ℕ) = 0 then 0 else (matrix false eps w none n)⁻¹ m h := by
        have : ∀ j, (matrix false eps w none n)⁻¹ m j * vec false ⟨0, hn⟩ m h.succ j =
            (if j = m then (if (m : ℕ) = 0 then 0 else (matrix false eps w none n)⁻¹ m m) else 0) -
              if j = h then (if (h : ℕ) = 0 then 0 else (matrix false eps w none n)⁻¹ m h) else 0 := by
          intro j
          simp only [vec, Bool.false_eq_true, if_false, vecSingle_word, hzero]
          by_cases h1 : j = m
          · subst h1
            by_cases h2 : (j : ℕ) = 0
            · simp [h2, Ne.symm hm]
            · simp [h2, Ne.symm hm]
          · by_cases h3 : j = h
            · subst h3
              by_cases h2 : (j : ℕ) = 0
              · simp [h2, h1]
              · simp [h2, h1]
            · simp [h1, h3]
        rw [Finset.sum_congr rfl fun j _ => this j, Finset.sum_sub_distrib]
        simp
      rw [hsum]
      split_ifs <;> field_simp <;> ring

/-- One arc of a tree without `eps`, the others with. -/
theorem weight_arc {eps : ℝ} (he : 0 < eps) {w : ℕ → ℕ → ℝ} (hw : ∀ h m, 0 ≤ w h m) {n : ℕ} (t : Heads n) {h m : Fin n} (ht : t m = h.succ) :
    weight 0 w t ≤ weight eps w t * (w h m / (w h m + eps)) ∧ weight eps w t * (w h m / (w h m + eps)) ≤ weight eps w t := by
  classical
  have ha := hw h m
  have hpos : 0 < w h m + eps := by linarith
  have hterm : ∀ e : ℝ, weight e w t = (w h m + e) * ∏ x ∈ Finset.univ.erase m, if t x = 0 then w x x else w ((t x : ℕ) - 1) x + e := by
    intro e
    rw [weight, ← Finset.mul_prod_erase Finset.univ _ (Finset.mem_univ m), ht, if_neg (Fin.succ_ne_zero h)]
    simp
  constructor
  · rw [hterm 0, hterm eps, add_zero]
    have e : (w h m + eps) * (∏ x ∈ Finset.univ.erase m, if t x = 0 then w x x else w ((t x : ℕ) - 1) x + eps) * (w h m / (w h m + eps)) =
        w h m * ∏ x ∈ Finset.univ.erase m, if t x = 0 then w x x else w ((t x : ℕ) - 1) x + eps := by field_simp
    rw [e]
    refine mul_le_mul_of_nonneg_left (Finset.prod_le_prod (fun x _ => ?_) fun x _ => ?_) ha
    · split_ifs
      · exact hw _ _
      · rw [add_zero]; exact hw _ _
    · split_ifs
      · exact le_rfl
      · linarith
  · exact mul_le_of_le_one_right (weight_nonneg he.le hw t) ((div_le_one hpos).2 (by linarith))

/-- The entry of the code is close to the conditional probability. -/
theorem close (mr : Bool) {eps : ℝ} (he : 0 < eps) (s : ℕ → ℕ → EReal) {n : ℕ} (hT : 0 < wantedTotal mr s n) (h m : Fin n) :
    |(if h = m then prob mr eps (fun h m => expE (s h m)) m 0 else prob mr eps (fun h m => expE (s h m)) m h.succ * (expE (s h m) / (expE (s h m) + eps))) -
      wantedProb mr s m (if h = m then 0 else h.succ)| ≤ gap eps s n / wantedTotal mr s n := by
  classical
  have hw : ∀ h m, 0 ≤ (fun h m => expE (s h m)) h m := fun _ _ => expE_nonneg _
  obtain ⟨b1, b2⟩ := total_bounds mr he.le s n
  have hW : ∀ t : Heads n, 0 ≤ wanted s t := fun t => by rw [wanted_eq]; exact weight_nonneg le_rfl hw t
  have key : ∀ (c : Fin (n + 1)) (f : SpanTrees mr n → ℝ), (∀ t : SpanTrees mr n, t.1 m = c → wanted s t.1 ≤ f t ∧ f t ≤ weight eps (fun h m => expE (s h m)) t.1) →
      |(∑ t : SpanTrees mr n, if t.1 m = c then f t else 0) / total mr eps (fun h m => expE (s h m)) n - wantedProb mr s m c| ≤ gap eps s n / wantedTotal mr s n := by
    intro c f hf
    rw [wantedProb]
    refine (NonProj.ratio_close hT ?_ ?_ ?_ ?_).trans (div_le_div_of_nonneg_right (by linarith) hT.le)
    · exact Finset.sum_nonneg fun t _ => by split_ifs; exacts [hW t.1, le_rfl]
    · exact Finset.sum_le_sum fun t _ => by split_ifs with h1; exacts [(hf t h1).1, le_rfl]
    · rw [total, wantedTotal, ← Finset.sum_sub_distrib, ← Finset.sum_sub_distrib]
      refine Finset.sum_le_sum fun t _ => ?_
      split_ifs with h1
      · have := (hf t h1).2; linarith
      · have := weight_le he.le hw t.1; rw [← wanted_eq] at this; linarith
    · exact Finset.sum_le_sum fun t _ => by split_ifs; exacts [le_rfl, hW t.1]
  by_cases hm : h = m
  · rw [if_pos hm, if_pos hm, prob]
    refine le_trans (le_of_eq ?_) (key 0 (fun t => weight eps (fun h m => expE (s h m)) t.1) fun t _ => ⟨by rw [wanted_eq]; exact weight_le he.le hw t.1, le_rfl⟩)
    congr 3
  · rw [if_neg hm, if_neg hm, prob]
    refine le_trans (le_of_eq ?_) (key h.succ (fun t => weight eps (fun h m => expE (s h m)) t.1 * (expE (s h m) / (expE (s h m) + eps))) fun t ht => by
      rw [wanted_eq]; exact weight_arc he hw t.1 ht)
    congr 2
    rw [div_mul_eq_mul_div, Finset.sum_mul]
    congr 1
    exact Finset.sum_congr rfl fun t _ => by split_ifs <;> simp

theorem mapM_error {α β : Type} (f : α → Except PyErr β) (e : PyErr) : ∀ (xs : List α), (∀ x ∈ xs, (∃ y, f x = .ok y) ∨ f x = .error e) → (∃ x ∈ xs, f x = .error e) →
    xs.mapM f = .error e
  | [], _, h => by obtain ⟨x, hx, -⟩ := h; cases hx
  | x :: xs, h, hex => by
    rw [List.mapM_cons]
    rcases h x List.mem_cons_self with ⟨y, hy⟩ | hy
    · rw [hy]
      have : xs.mapM f = .error e := by
        refine mapM_error f e xs (fun z hz => h z (List.mem_cons_of_mem _ hz)) ?_
        obtain ⟨z, hz, hze⟩ := hex
        rcases List.mem_cons.1 hz with rfl | hz
        · rw [hy] at hze; cases hze
        · exact ⟨z, hz, hze⟩
      rw [this]; rfl
    · rw [hy]; rfl

/-- **C123, `marginals`.**  Scores may be `-inf` anywhere.  The query raises iff in some row every root arc is forbidden (the matrix is singular).  Otherwise forbidden arcs
have the entry 0, and every entry differs from the probability of the arc given that no forbidden arc is used by at most `gap` over the sum over the allowed trees, if there is one; exactly, a root
entry is the probability under the weights of the code, another entry that probability times `exp(score) / (exp(score) + 1e-5)`. -/
theorem marginals_spec (mr : Bool) (p : Table) (hn : 1 ≤ p.N) :
    ((∃ b < p.batch, ¬ RootAllowed (p.get b) p.N) → distMarginals mr p none = .error .runtime) ∧
    ((∀ b < p.batch, RootAllowed (p.get b) p.N) → ∃ μs, distMarginals mr p none = .ok μs ∧ μs.length = p.batch ∧ ∀ b (hb : b < μs.length), ∀ h m : Fin p.N,
      (p.get b h m = ⊥ → μs[b] h m = 0) ∧
      (0 < wantedTotal mr (p.get b) p.N →
        |μs[b] h m - wantedProb mr (p.get b) m (if h = m then 0 else h.succ)| ≤ gap (1 / 100000) (p.get b) p.N / wantedTotal mr (p.get b) p.N) ∧
      μs[b] h m = if h = m then prob mr (1 / 100000) (fun h m => expE (p.get b h m)) m 0
        else prob mr (1 / 100000) (fun h m => expE (p.get b h m)) m h.succ * (expE (p.get b h m) / (expE (p.get b h m) + 1 / 100000))) := by
  have hrow : ∀ b, (¬ RootAllowed (p.get b) p.N → marginalsRow mr eps0 (p.get b) none p.N = .error .runtime) ∧
      (RootAllowed (p.get b) p.N → marginalsRow mr eps0 (p.get b) none p.N = .ok fun h m => if h = m then prob mr (1 / 100000) (fun h m => expE (p.get b h m)) m 0
        else prob mr (1 / 100000) (fun h m => expE (p.get b h m)) m h.succ * (expE (p.get b h m) / (expE (p.get b h m) + 1 / 100000))) := by
    intro b
    obtain ⟨h1, h2⟩ := total_pos_iff mr (eps := 1 / 100000) (by norm_num) (p.get b) hn
    rw [marginalsRow, exp_none, det_matrix mr _ _ hn, eps0_eq]
    refine ⟨fun hno => if_pos (h2 hno), fun hr => ?_⟩
    have hne := (h1.2 hr).ne'
    rw [if_neg hne]
    congr 1
    funext h m
    have := expE_nonneg (p.get b h m)
    exact marginal_eq mr _ hne h m (by positivity)
  have hrun : distMarginals mr p none = (List.range p.batch).mapM fun b => marginalsRow mr eps0 (p.get b) none p.N := by
    rw [distMarginals, marginals, if_neg (by omega), rows_none]
    change List.mapM _ (List.map _ _) = _
    rw [List.mapM_map]; rfl
  rw [hrun]
  constructor
  · rintro ⟨b, hb, hno⟩
    refine mapM_error _ _ _ (fun x _ => ?_) ⟨b, List.mem_range.2 hb, (hrow b).1 hno⟩
    by_cases hx : RootAllowed (p.get x) p.N
    · exact Or.inl ⟨_, (hrow x).2 hx⟩
    · exact Or.inr ((hrow x).1 hx)
  · intro hall
    refine ⟨_, NonProj.mapM_ok _ _ _ fun b hb => (hrow b).2 (hall b (List.mem_range.1 hb)), by simp, fun b hb h m => ?_⟩
    simp only [List.getElem_map, List.getElem_range]
    refine ⟨fun hF => ?_, fun hT => close mr (by norm_num) (p.get b) hT h m, trivial⟩
    split_ifs with hm
    · subst hm
      rw [prob, Finset.sum_eq_zero, zero_div]
      intro t _
      split_ifs with ht
      · exact Finset.prod_eq_zero (Finset.mem_univ h) (by rw [if_pos ht]; change expE (p.get b h h) = 0; rw [hF, expE_bot])
      · rfl
    · rw [hF, expE_bot, zero_div, mul_zero]

/-! ### On real scores nothing changes -/

/-- The table without forbidden arcs. -/
def lift (p : _root_.NonProj.Table) : Table := ⟨p.batch, p.N, fun b h m => ((p.get b h m : ℝ) : EReal)⟩

theorem expIn_lift (s : ℕ → ℕ → ℝ) (len : Option ℕ) : expIn (fun h m => ((s h m : ℝ) : EReal)) len = _root_.NonProj.expIn s len := by
  funext h m
  rw [expIn, _root_.NonProj.expIn]
  split_ifs
  · rw [expE, if_neg (EReal.coe_ne_bot _), EReal.toReal_coe]
  · rfl

/-- **C123**: on finite scores, with any lengths, the two queries are those of C28 - C31. -/
theorem agrees (mr : Bool) (p : _root_.NonProj.Table) (lengths : Option (List ℕ)) :
    partition mr (lift p) lengths = _root_.NonProj.partition mr p lengths ∧ distMarginals mr (lift p) lengths = _root_.NonProj.distMarginals mr p lengths := by
  have hm : ∀ (s : ℕ → ℕ → ℝ) (len : Option ℕ), matrix mr eps0 (expIn (fun h m => ((s h m : ℝ) : EReal)) len) len p.N = _root_.NonProj.matrix mr eps0 s len p.N := by
    intro s len; rw [expIn_lift]; rfl
  constructor
  · rw [partition, part, _root_.NonProj.partition, _root_.NonProj.part]
    simp only [lift, hm]
  · rw [distMarginals, marginals, _root_.NonProj.distMarginals, _root_.NonProj.marginals]
    simp only [lift, marginalsRow, _root_.NonProj.marginalsRow, hm, expIn_lift]
    rfl

/-! ### Concrete cases -/

/-- Two rows of two words.  In row 0 the arcs from word 1 to word 2 and from the root to word 2 are forbidden: no tree is left.  In row 1 both root arcs are forbidden. -/
def dead : Table := ⟨2, 2, fun b h m => if b = 0 then (if m = 1 then ⊥ else 0) else if h = m then ⊥ else 0⟩

theorem cell_snd (h k : ℕ) : (arcCell h k).2 = k := by rw [arcCell]; split_ifs <;> rfl

theorem dead_bot (h : ℕ) : dead.get 0 h 1 = ⊥ := by simp [dead]

example : RootAllowed (dead.get 0) dead.N ∧ (∀ t : SpanTrees true dead.N, ¬ Allowed (dead.get 0) t.1) ∧ ¬ RootAllowed (dead.get 1) dead.N := by
  refine ⟨⟨⟨0, by decide⟩, by simp [dead]⟩, fun t ht => ?_, ?_⟩
  · have := ht ⟨1, by decide⟩
    rw [cell_snd] at this
    exact this (dead_bot _)
  · rintro ⟨m, hm⟩
    simp [dead] at hm

/-- **C123**: `partition` of a row without any allowed tree is a number, not `-inf`. -/
theorem dead_finite (mr : Bool) : ∃ vs v, partition mr dead none = .ok vs ∧ vs[0]? = some (some v) ∧ wantedTotal mr (dead.get 0) dead.N = 0 := by
  obtain ⟨vs, h1, h2, h3⟩ := partition_spec mr dead (by decide)
  have h0 : 0 < vs.length := by rw [h2]; decide
  obtain ⟨v, hv, -⟩ := (h3 0 h0).2 ⟨⟨0, by decide⟩, by simp [dead]⟩
  refine ⟨vs, v, h1, by rw [List.getElem?_eq_getElem h0, hv], Finset.sum_eq_zero fun t _ => ?_⟩
  rw [wanted, if_neg]
  intro ht
  have := ht ⟨1, by decide⟩
  rw [cell_snd] at this
  exact this (dead_bot _)

/-- One row of three words, with the arc from word 1 to word 2 forbidden. -/
def three : Table := ⟨1, 3, fun _ h m => if h = 0 ∧ m = 1 then ⊥ else ((h + m : ℕ) : ℝ)⟩

example : three.get 0 (0 : Fin 3) (0 : Fin 3) ≠ ⊥ ∧ (0 : Fin 3) ≠ 1 ∧ three.get 0 (0 : Fin 3) (1 : Fin 3) = ⊥ ∧ (∀ b < three.batch, RootAllowed (three.get b) three.N) := by
  refine ⟨?_, by decide, by simp [three], fun b _ => ⟨⟨0, by decide⟩, ?_⟩⟩
  · simp [three]
  · simp [three]

/-- There is an allowed tree: all words are children of the root. -/
example : 0 < wantedTotal true (three.get 0) three.N := by
  have hdep : IsDepTree (fun _ : Fin three.N => (0 : Fin (three.N + 1))) := fun m => (leads_iff _ m).2 ⟨0, rfl⟩
  refine Finset.sum_pos' (fun t _ => ?_) ⟨⟨fun _ => 0, hdep, fun h => by simp at h⟩, Finset.mem_univ _, ?_⟩
  · rw [wanted_eq]; exact weight_nonneg le_rfl (fun _ _ => expE_nonneg _) t.1
  · rw [wanted, if_pos]
    · exact Real.exp_pos _
    · intro m
      simp only [arcCell, three, Fin.val_zero, if_true]
      rw [if_neg (by omega)]
      exact EReal.coe_ne_bot _

end Props.InfNonProj
