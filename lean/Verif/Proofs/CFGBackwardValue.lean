import Mathlib.Algebra.DualNumber
import Mathlib.Tactic.FieldSimp
import Verif.Proofs.CFGBackwardDual

/-! The factors of the backward pass of `SentCFG.marginals` are shares of inside weights, and its gradients expected counts. -/

open Finset Spec Generic GrammarProofs CKYProofs
open TreeBackwardProofs (LogOf logOf_rel slope_real guarded_real plain_nan bot_of_zero fl)

noncomputable section
namespace CFGBackwardProofs
open CFGBackward

/-! ### Pairs and parts -/

section blocks
variable {R : Type} [CommSemiring R]

/-- The weight of a pair of children. -/
def pairW (NT T : ℕ) (mk : Bool) (b : ℕ) (W : Atom → R) : Bool → Bool → ℕ → ℕ → ℕ → ℕ → R
  | false, false, w, i, y, z => ∑ u ∈ range w, inside NT T mk b W i u y * inside NT T mk b W (i + u + 1) (w - 1 - u) z
  | false, true, w, i, y, z => inside NT T mk b W i (w - 1) y * W (.pot [b, 0, i + w, z])
  | true, false, w, i, y, z => W (.pot [b, 0, i, y]) * inside NT T mk b W (i + 1) (w - 1) z
  | true, true, w, i, y, z => W (.pot [b, 0, i, y]) * W (.pot [b, 0, i + w, z])

/-- The weight of `X1 … X4`. -/
def partW (NT T : ℕ) (mk : Bool) (b : ℕ) (W : Atom → R) (l r : Bool) (w i X : ℕ) : R :=
  ∑ y ∈ range (size NT T l), ∑ z ∈ range (size NT T r), pairW NT T mk b W l r w i y z * W (.pot [b, 1, X, off NT l + y, off NT r + z])

theorem inside_parts {NT T : ℕ} (mk : Bool) (b : ℕ) (W : Atom → R) {w : ℕ} (hw : 1 ≤ w) (i X : ℕ) (hX : X < NT) : inside NT T mk b W i w X =
    (partW NT T mk b W false false w i X + partW NT T mk b W false true w i X + partW NT T mk b W true false w i X +
      (if w = 1 then partW NT T mk b W true true w i X else 0)) * (if mk then W (.pot [b, 3, w - 1, i, X]) else 1) := by
  obtain ⟨v, rfl⟩ : ∃ v, w = v + 1 := ⟨w - 1, by omega⟩
  rw [inside_blocks mk b W i v X hX]
  have e : (v + 1 = 1) ↔ v = 0 := by omega
  simp only [partW, pairW, size, off, Bool.false_eq_true, if_false, if_true, Nat.add_sub_cancel, e]

end blocks

/-! ### Derivatives -/

section dual
open TrivSqZeroExt

/-- The weights with their derivatives: `θ` is the logarithmic derivative. -/
def dW (W θ : Atom → ℝ) (a : Atom) : DualNumber ℝ := inl (W a) + inr (W a * θ a)

theorem dW_fst (W θ : Atom → ℝ) (a : Atom) : (dW W θ a).fst = W a := by simp [dW]
theorem dW_snd (W θ : Atom → ℝ) (a : Atom) : (dW W θ a).snd = W a * θ a := by simp [dW]

theorem prod_dual (W θ : Atom → ℝ) (m : Multiset Atom) : ((m.map (dW W θ)).prod).fst = (m.map W).prod ∧
    ((m.map (dW W θ)).prod).snd = (m.map W).prod * (m.map θ).sum := by
  induction m using Multiset.induction_on with
  | empty => simp
  | cons a m ih =>
    simp only [Multiset.map_cons, Multiset.prod_cons, Multiset.sum_cons, fst_mul, DualNumber.snd_mul, dW_fst, dW_snd, ih.1, ih.2, true_and]
    ring

variable {NT T : ℕ} {b : ℕ} {W θ : Atom → ℝ}

theorem inside_fst (mk : Bool) (i w s : ℕ) : (inside NT T mk b (dW W θ) i w s).fst = inside NT T mk b W i w s := by
  rw [inside, inside, fst_sum]
  refine sum_congr rfl fun t _ => ?_
  split_ifs
  · exact (prod_dual W θ _).1
  · rfl

/-- The derivative of an inside weight. -/
def dInside (NT T : ℕ) (mk : Bool) (b : ℕ) (W θ : Atom → ℝ) (i w s : ℕ) : ℝ :=
  ∑ t : GTrees NT (Fin T ⊕ Fin NT) (w + 1), if sym t.1 = s then wt mk b W i t.1 * ((atoms mk b i t.1).map θ).sum else 0

theorem inside_snd (mk : Bool) (i w s : ℕ) : (inside NT T mk b (dW W θ) i w s).snd = dInside NT T mk b W θ i w s := by
  rw [inside, dInside, snd_sum]
  refine sum_congr rfl fun t _ => ?_
  split_ifs
  · exact (prod_dual W θ _).2
  · rfl

theorem wt_nonneg (hW : ∀ a, 0 ≤ W a) (mk : Bool) (i : ℕ) (t : ETree NT T) : 0 ≤ wt mk b W i t :=
  Multiset.prod_nonneg fun x hx => by
    obtain ⟨a, -, rfl⟩ := Multiset.mem_map.1 hx
    exact hW a

theorem inside_nonneg (hW : ∀ a, 0 ≤ W a) (mk : Bool) (i w s : ℕ) : 0 ≤ inside NT T mk b W i w s :=
  sum_nonneg fun t _ => by
    split_ifs
    · exact wt_nonneg hW mk i t.1
    · exact le_rfl

theorem dInside_zero (hW : ∀ a, 0 ≤ W a) {mk : Bool} {i w s : ℕ} (h : inside NT T mk b W i w s = 0) : dInside NT T mk b W θ i w s = 0 := by
  rw [inside, sum_eq_zero_iff_of_nonneg fun t _ => by
    split_ifs
    · exact wt_nonneg hW mk i t.1
    · exact le_rfl] at h
  refine sum_eq_zero fun t _ => ?_
  have := h t (mem_univ t)
  split_ifs with hs
  · rw [if_pos hs] at this; rw [this, zero_mul]
  · rfl

theorem pairW_nonneg (hW : ∀ a, 0 ≤ W a) (mk l r : Bool) (w i y z : ℕ) : 0 ≤ pairW NT T mk b W l r w i y z := by
  cases l <;> cases r <;> simp only [pairW]
  · exact sum_nonneg fun u _ => mul_nonneg (inside_nonneg hW _ _ _ _) (inside_nonneg hW _ _ _ _)
  · exact mul_nonneg (inside_nonneg hW _ _ _ _) (hW _)
  · exact mul_nonneg (hW _) (inside_nonneg hW _ _ _ _)
  · exact mul_nonneg (hW _) (hW _)

theorem partW_nonneg (hW : ∀ a, 0 ≤ W a) (mk l r : Bool) (w i X : ℕ) : 0 ≤ partW NT T mk b W l r w i X :=
  sum_nonneg fun _ _ => sum_nonneg fun _ _ => mul_nonneg (pairW_nonneg hW _ _ _ _ _ _ _) (hW _)

theorem wt_mark (hm : ∀ w i X, W (.pot [b, 3, w, i, X]) = 1) (mk : Bool) : ∀ (i : ℕ) (t : ETree NT T), wt mk b W i t = wt false b W i t
  | i, .leaf (.inl t) => rfl
  | i, .leaf (.inr t) => rfl
  | i, .node X l r => by
    rw [wt_node, wt_node, wt_mark hm mk i l, wt_mark hm mk _ r, hm]
    simp

theorem inside_mark (hm : ∀ w i X, W (.pot [b, 3, w, i, X]) = 1) (mk : Bool) (i w s : ℕ) : inside NT T mk b W i w s = inside NT T false b W i w s := by
  rw [inside, inside]
  exact sum_congr rfl fun t _ => by rw [wt_mark hm mk]

theorem pairW_mark (hm : ∀ w i X, W (.pot [b, 3, w, i, X]) = 1) (mk l r : Bool) (w i y z : ℕ) :
    pairW NT T mk b W l r w i y z = pairW NT T false b W l r w i y z := by
  cases l <;> cases r <;> simp only [pairW, inside_mark hm mk]

theorem partW_mark (hm : ∀ w i X, W (.pot [b, 3, w, i, X]) = 1) (mk l r : Bool) (w i X : ℕ) :
    partW NT T mk b W l r w i X = partW NT T false b W l r w i X := by
  simp only [partW, pairW_mark hm mk]

/-! ### Shares -/

/-- The sum over all trees of a row. -/
def rowTotal (NT T : ℕ) (b : ℕ) (W : Atom → ℝ) (last : ℕ) : ℝ := ∑ X ∈ range NT, inside NT T false b W 0 last X * W (.pot [b, 2, X])

/-- The factors of the guarded backward pass. -/
def shares (NT T : ℕ) (b : ℕ) (W : Atom → ℝ) (last : ℕ) : Factors ℝ where
  part l r w i X := partW NT T false b W l r w i X / inside NT T false b W i w X
  entry l r w i X y z := pairW NT T false b W l r w i y z * W (.pot [b, 1, X, off NT l + y, off NT r + z]) / partW NT T false b W l r w i X
  split w i u y z := inside NT T false b W i u y * inside NT T false b W (i + u + 1) (w - 1 - u) z / pairW NT T false b W false false w i y z
  top X := inside NT T false b W 0 last X * W (.pot [b, 2, X]) / rowTotal NT T b W last

/-- The logarithmic derivatives of the charts and tables. -/
def tangent (NT T : ℕ) (b : ℕ) (W θ : Atom → ℝ) : Tangent where
  chart i w X := if inside NT T false b W i w X = 0 then θ (.pot [b, 3, w - 1, i, X]) else dInside NT T true b W θ i w X / inside NT T false b W i w X
  term n t := θ (.pot [b, 0, n, t])
  rule X y z := θ (.pot [b, 1, X, y, z])
  root X := θ (.pot [b, 2, X])
  mark w i X := θ (.pot [b, 3, w - 1, i, X])

variable (hW : ∀ a, 0 ≤ W a) (hm : ∀ w i X, W (.pot [b, 3, w, i, X]) = 1)
include hW hm

theorem chart_mul (i w X : ℕ) : inside NT T false b W i w X * (tangent NT T b W θ).chart i w X = dInside NT T true b W θ i w X := by
  simp only [tangent]
  split_ifs with h
  · rw [h, zero_mul, dInside_zero hW (by rw [inside_mark hm]; exact h)]
  · rw [mul_div_cancel₀ _ h]

theorem pair_mul (last : ℕ) (l r : Bool) (w i y z : ℕ) : pairW NT T false b W l r w i y z * (tangent NT T b W θ).pair (shares NT T b W last) l r w i y z =
    (pairW NT T true b (dW W θ) l r w i y z).snd := by
  cases l <;> cases r <;> simp only [pairW, Tangent.pair]
  · rw [mul_sum, snd_sum]
    refine sum_congr rfl fun u hu => ?_
    simp only [shares, pairW]
    rw [← mul_assoc, mul_div_cancel_of_imp', DualNumber.snd_mul, inside_fst, inside_fst, inside_snd, inside_snd, inside_mark hm true,
      ← chart_mul hW hm, ← chart_mul hW hm, inside_mark hm true]
    · ring
    · intro h
      exact (sum_eq_zero_iff_of_nonneg fun u _ => mul_nonneg (inside_nonneg hW _ _ _ _) (inside_nonneg hW _ _ _ _)).1 h u hu
  · rw [DualNumber.snd_mul, inside_fst, inside_snd, dW_fst, dW_snd, inside_mark hm true, ← chart_mul hW hm]
    simp only [tangent]; ring
  · rw [DualNumber.snd_mul, inside_fst, inside_snd, dW_fst, dW_snd, inside_mark hm true, ← chart_mul hW hm]
    simp only [tangent]; ring
  · rw [DualNumber.snd_mul, dW_fst, dW_snd, dW_fst, dW_snd]
    simp only [tangent]; ring

theorem pairW_fst (l r : Bool) (w i y z : ℕ) : (pairW NT T true b (dW W θ) l r w i y z).fst = pairW NT T false b W l r w i y z := by
  cases l <;> cases r <;> simp only [pairW, fst_sum, fst_mul, inside_fst, dW_fst, inside_mark hm true]

theorem part_mul (last : ℕ) (l r : Bool) (w i X : ℕ) : partW NT T false b W l r w i X * (tangent NT T b W θ).part (shares NT T b W last) NT T l r w i X =
    (partW NT T true b (dW W θ) l r w i X).snd := by
  rw [Tangent.part, mul_sum]
  conv_rhs => rw [partW, snd_sum]
  refine sum_congr rfl fun y hy => ?_
  rw [mul_sum, snd_sum]
  refine sum_congr rfl fun z hz => ?_
  rw [DualNumber.snd_mul, dW_fst, dW_snd, ← pair_mul hW hm last, pairW_fst hW hm]
  simp only [shares]
  rw [← mul_assoc, mul_div_cancel_of_imp']
  · simp only [tangent]; ring
  · intro h
    have h1 := (sum_eq_zero_iff_of_nonneg fun y _ => sum_nonneg fun z _ => mul_nonneg (pairW_nonneg hW _ _ _ _ _ _ _) (hW _)).1 h y hy
    exact (sum_eq_zero_iff_of_nonneg fun z _ => mul_nonneg (pairW_nonneg hW _ _ _ _ _ _ _) (hW _)).1 h1 z hz

theorem partW_fst (l r : Bool) (w i X : ℕ) : (partW NT T true b (dW W θ) l r w i X).fst = partW NT T false b W l r w i X := by
  simp only [partW, fst_sum, fst_mul, dW_fst, pairW_fst hW hm]

/-- The sum of the parts. -/
theorem inside_sum {w : ℕ} (hw : 1 ≤ w) (i X : ℕ) (hX : X < NT) : inside NT T false b W i w X =
    partW NT T false b W false false w i X + partW NT T false b W false true w i X + partW NT T false b W true false w i X +
      (if w = 1 then partW NT T false b W true true w i X else 0) := by
  rw [inside_parts false b W hw i X hX]; simp

theorem tangent_ok (last N : ℕ) (h0 : W .zero ≠ 0) (hθ : θ .zero = 0) : (tangent NT T b W θ).Ok (shares NT T b W last) N NT T where
  zero i X hX := by
    simp only [tangent]
    rw [if_neg (by rw [inside_zero_nt _ b W i X hX]; exact h0), ← inside_snd, inside_zero_nt _ b _ i X hX, dW_snd, hθ, mul_zero, zero_div]
  step w i X hw hi hX := by
    have e := inside_sum (T := T) hW hm hw i X hX
    simp only [shares, tangent] at *
    by_cases h : inside NT T false b W i w X = 0
    · simp only [h, if_true, div_zero, zero_mul, zero_add]
      split_ifs <;> simp
    · rw [if_neg h]
      have key : ∀ l r, partW NT T false b W l r w i X / inside NT T false b W i w X * (tangent NT T b W θ).part (shares NT T b W last) NT T l r w i X =
          (partW NT T true b (dW W θ) l r w i X).snd / inside NT T false b W i w X := by
        intro l r
        rw [← part_mul hW hm last, div_mul_eq_mul_div]
      simp only [shares, tangent] at key
      simp only [key]
      rw [div_eq_iff h, ← inside_snd, inside_parts true b _ hw i X hX]
      simp only [if_true, DualNumber.snd_mul, dW_fst, dW_snd, hm, one_mul, mul_one]
      have f1 : (partW NT T true b (dW W θ) false false w i X + partW NT T true b (dW W θ) false true w i X + partW NT T true b (dW W θ) true false w i X +
          (if w = 1 then partW NT T true b (dW W θ) true true w i X else 0)).fst = inside NT T false b W i w X := by
        rw [e]
        by_cases h1 : w = 1 <;> simp [h1, partW_fst hW hm]
      have f2 : (partW NT T true b (dW W θ) false false w i X + partW NT T true b (dW W θ) false true w i X + partW NT T true b (dW W θ) true false w i X +
          (if w = 1 then partW NT T true b (dW W θ) true true w i X else 0)).snd = (partW NT T true b (dW W θ) false false w i X).snd +
          (partW NT T true b (dW W θ) false true w i X).snd + (partW NT T true b (dW W θ) true false w i X).snd +
          (if w = 1 then (partW NT T true b (dW W θ) true true w i X).snd else 0) := by
        by_cases h1 : w = 1 <;> simp [h1]
      rw [f1, f2]
      by_cases h1 : w = 1
      · simp only [h1, if_true] at h ⊢
        field_simp
        ring
      · simp only [h1, if_false] at h ⊢
        field_simp
        ring

/-- The weighted sum of `θ` over all trees of a row. -/
def weighted (NT T : ℕ) (b : ℕ) (W θ : Atom → ℝ) (L : ℕ) : ℝ :=
  ∑ d : Derivs NT T L, ((({.pot [b, 2, d.1.sym]} + atoms false b 0 (embed d.1) : Multiset Atom)).map W).prod *
      (((derivParts true b d).map Atom.pot).map θ).sum +
    ∑ t : Ph NT T L, ((phAtoms false b t).map W).prod * ((phAtoms true b t).map θ).sum

omit hW hm in
theorem root_sum (W : Atom → ℝ) (F : ETree NT T → ℝ) (f : ℕ → ℝ) {L : ℕ} :
    ∑ X ∈ range NT, (∑ t : GTrees NT (Fin T ⊕ Fin NT) L, if sym t.1 = X then F t.1 else 0) * f X =
      ∑ d : Derivs NT T L, F (embed d.1) * f (sym (embed d.1)) + ∑ t : Ph NT T L, F t.1.1 * f (sym t.1.1) := by
  rw [← sum_split fun t => F t * f (sym t)]
  simp only [sum_mul]
  rw [sum_comm]
  refine sum_congr rfl fun t _ => ?_
  have : ∀ X, (if sym t.1 = X then F t.1 else 0) * f X = if sym t.1 = X then F t.1 * f (sym t.1) else 0 := by
    intro X
    split_ifs with h
    · rw [h]
    · rw [zero_mul]
  simp only [this]
  rw [sum_ite_eq]
  simp only [mem_range]

omit hW hm in
/-- The weight of all trees of a row. -/
theorem rowTotal_eq (L : ℕ) (hL : 1 ≤ L) : rowTotal NT T b W (L - 1) =
    ∑ d : Derivs NT T L, ((({.pot [b, 2, d.1.sym]} + atoms false b 0 (embed d.1) : Multiset Atom)).map W).prod +
      ∑ t : Ph NT T L, ((phAtoms false b t).map W).prod := by
  rw [rowTotal]
  simp only [inside_eq _ b W hL]
  rw [root_sum W (fun t => wt false b W 0 t) fun X => W (.pot [b, 2, X])]
  simp only [phAtoms, Multiset.map_add, Multiset.prod_add, Multiset.map_singleton, Multiset.prod_singleton, embed_sym]
  refine congrArg₂ _ (sum_congr rfl fun d _ => mul_comm _ _) (sum_congr rfl fun t _ => mul_comm _ _)

/-- All gradients together. -/
theorem value {N L : ℕ} (hL : 1 ≤ L) (hN : L ≤ N) (h0 : W .zero ≠ 0) (hθ : θ .zero = 0) :
    let g := backLoop real (shares NT T b W (L - 1)) N NT T (L - 1)
    ∑ n ∈ range N, ∑ t ∈ range T, g.term n t * θ (.pot [b, 0, n, t]) +
      ∑ X ∈ range NT, ∑ y ∈ range (NT + T), ∑ z ∈ range (NT + T), g.rule X y z * θ (.pot [b, 1, X, y, z]) +
      ∑ X ∈ range NT, g.root X * θ (.pot [b, 2, X]) +
      ∑ v ∈ Ico 1 N, ∑ i ∈ range (N - v), ∑ X ∈ range NT, g.span v i X * θ (.pot [b, 3, v - 1, i, X]) =
    weighted NT T b W θ L / rowTotal NT T b W (L - 1) := by
  intro g
  have key := adjoint (last := L - 1) (tangent_ok (NT := NT) (T := T) hW hm (L - 1) N h0 hθ) (by omega) (by omega)
  refine Eq.trans key ?_
  have e : ∀ X, (shares NT T b W (L - 1)).top X * ((tangent NT T b W θ).chart 0 (L - 1) X + (tangent NT T b W θ).root X) =
      (dInside NT T true b W θ 0 (L - 1) X * W (.pot [b, 2, X]) + inside NT T true b W 0 (L - 1) X * (W (.pot [b, 2, X]) * θ (.pot [b, 2, X]))) /
        rowTotal NT T b W (L - 1) := by
    intro X
    rw [← chart_mul hW hm, inside_mark hm true]
    simp only [shares, tangent]
    ring
  rw [sum_congr rfl fun X _ => e X, ← sum_div]
  congr 1
  rw [sum_add_distrib]
  have e1 : ∀ X, dInside NT T true b W θ 0 (L - 1) X = ∑ t : GTrees NT (Fin T ⊕ Fin NT) L, if sym t.1 = X then wt true b W 0 t.1 * ((atoms true b 0 t.1).map θ).sum else 0 := by
    intro X
    obtain ⟨L, rfl⟩ : ∃ k, L = k + 1 := ⟨L - 1, by omega⟩
    rfl
  simp only [e1, inside_eq _ b W hL]
  rw [root_sum W (fun t => wt true b W 0 t * ((atoms true b 0 t).map θ).sum) fun X => W (.pot [b, 2, X]),
    root_sum W (fun t => wt true b W 0 t) fun X => W (.pot [b, 2, X]) * θ (.pot [b, 2, X]), weighted]
  simp only [parts_pot, phAtoms, Multiset.map_add, Multiset.prod_add, Multiset.map_singleton, Multiset.prod_singleton, Multiset.sum_add, Multiset.sum_singleton,
    embed_sym, wt_mark hm true]
  rw [add_add_add_comm, ← sum_add_distrib, ← sum_add_distrib]
  refine congrArg₂ _ (sum_congr rfl fun d _ => ?_) (sum_congr rfl fun t _ => ?_)
  · rw [← wt]; ring
  · rw [← wt]; ring

end dual

end CFGBackwardProofs
