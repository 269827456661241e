import Mathlib.Algebra.BigOperators.Intervals
import Verif.Proofs.CFGBackward

/-! The backward pass on real numbers is the adjoint of differentiation: pairing the gradients with the derivatives of the charts gives the same number before and
after every iteration. -/

open Finset

noncomputable section
namespace CFGBackwardProofs
open CFGBackward

variable {N NT T : ℕ} {k : Factors ℝ}

theorem newGrad_real (g : Adj ℝ) (w i X : ℕ) : newGrad real N g w i X = g.A i w X + g.B (i + w) (N - w - 1) X := rfl

theorem useGrad_real (g : Adj ℝ) (l r : Bool) (w i X y z : ℕ) :
    useGrad real k N g l r w i X y z = newGrad real N g w i X * k.part l r w i X * k.entry l r w i X y z := rfl

theorem pairGrad_real (g : Adj ℝ) (l r : Bool) (w i y z : ℕ) :
    pairGrad real k N NT g l r w i y z = ∑ X ∈ range NT, useGrad real k N g l r w i X y z := real_all _ _

theorem ruleGrad_real (g : Adj ℝ) (l r : Bool) (w X y z : ℕ) :
    ruleGrad real k N g l r w X y z = ∑ i ∈ range (N - w), useGrad real k N g l r w i X y z := real_all _ _

/-- The logarithmic derivatives of the charts and tables, in some direction. -/
structure Tangent where
  chart : ℕ → ℕ → ℕ → ℝ
  term : ℕ → ℕ → ℝ
  rule : ℕ → ℕ → ℕ → ℝ
  root : ℕ → ℝ
  mark : ℕ → ℕ → ℕ → ℝ

/-- The derivative of a pair of children. -/
def Tangent.pair (θ : Tangent) (k : Factors ℝ) : Bool → Bool → ℕ → ℕ → ℕ → ℕ → ℝ
  | false, false, w, i, y, z => ∑ u ∈ range w, k.split w i u y z * (θ.chart i u y + θ.chart (i + u + 1) (w - 1 - u) z)
  | false, true, w, i, y, z => θ.chart i (w - 1) y + θ.term (i + w) z
  | true, false, w, i, y, z => θ.term i y + θ.chart (i + 1) (w - 1) z
  | true, true, w, i, y, z => θ.term i y + θ.term (i + w) z

/-- The derivative of `X1 … X4`. -/
def Tangent.part (θ : Tangent) (k : Factors ℝ) (NT T : ℕ) (l r : Bool) (w i X : ℕ) : ℝ :=
  ∑ y ∈ range (size NT T l), ∑ z ∈ range (size NT T r), k.entry l r w i X y z * (θ.pair k l r w i y z + θ.rule X (off NT l + y) (off NT r + z))

/-- The rules of differentiation. -/
structure Tangent.Ok (θ : Tangent) (k : Factors ℝ) (N NT T : ℕ) : Prop where
  zero : ∀ i, ∀ X < NT, θ.chart i 0 X = 0
  step : ∀ w i X, 1 ≤ w → i + w < N → X < NT → θ.chart i w X =
    k.part false false w i X * θ.part k NT T false false w i X + k.part false true w i X * θ.part k NT T false true w i X +
      k.part true false w i X * θ.part k NT T true false w i X + (if w = 1 then k.part true true w i X * θ.part k NT T true true w i X else 0) + θ.mark w i X

/-! ### Sums over ranges -/

theorem sum_lt {m n : ℕ} (h : m ≤ n) (f : ℕ → ℝ) : ∑ i ∈ range n, (if i < m then f i else 0) = ∑ i ∈ range m, f i := by
  rw [← sum_filter]
  refine sum_congr ?_ fun _ _ => rfl
  ext i; simp only [mem_filter, mem_range]; omega

theorem sum_ge {c n : ℕ} (f : ℕ → ℝ) : ∑ i ∈ range n, (if c ≤ i then f i else 0) = ∑ i ∈ range (n - c), f (i + c) := by
  rw [← sum_filter]
  have : (range n).filter (fun i => c ≤ i) = Ico c n := by ext i; simp only [mem_filter, mem_range, mem_Ico]; omega
  rw [this, sum_Ico_eq_sum_range]
  exact sum_congr rfl fun i _ => by rw [Nat.add_comm]

theorem sum_at {c n : ℕ} (h : c < n) (f : ℕ → ℝ) : ∑ i ∈ range n, (if i = c then f i else 0) = f c := by
  rw [sum_ite_eq' (range n) c f, if_pos (mem_range.2 h)]

/-! ### One iteration -/

variable (θ : Tangent) (g : Adj ℝ)

/-- The gradients of the charts up to width `w`, paired with the derivatives. -/
def pairA (θ : Tangent) (g : Adj ℝ) (N NT v : ℕ) : ℝ := ∑ i ∈ range (N - v), ∑ X ∈ range NT, g.A i v X * θ.chart i v X

/-- The same for `beta[B]`. -/
def pairB (θ : Tangent) (g : Adj ℝ) (N NT v : ℕ) : ℝ := ∑ i ∈ range (N - v), ∑ X ∈ range NT, g.B (i + v) (N - 1 - v) X * θ.chart i v X

theorem A_step {w v : ℕ} (hv : v < w) : pairA θ (backStep real k N NT T g w) N NT v = pairA θ g N NT v +
    ∑ i ∈ range (N - w), (∑ y ∈ range NT, ∑ z ∈ range NT, pairGrad real k N NT g false false w i y z * (k.split w i v y z * θ.chart i v y) +
      if v = w - 1 then ∑ y ∈ range NT, ∑ z ∈ range T, pairGrad real k N NT g false true w i y z * θ.chart i v y else 0) := by
  rw [pairA, pairA, ← sum_lt (show N - w ≤ N - v by omega), ← sum_add_distrib]
  refine sum_congr rfl fun i _ => ?_
  by_cases hi : i < N - w
  · rw [if_pos hi]
    have e : ∀ X, (backStep real k N NT T g w).A i v X = g.A i v X + (∑ z ∈ range NT, pairGrad real k N NT g false false w i X z * k.split w i v X z) +
        (if v = w - 1 then ∑ z ∈ range T, pairGrad real k N NT g false true w i X z else 0) := by
      intro X
      simp only [backStep]
      rw [if_pos hi, if_pos hv, real_all, real_all]
      rfl
    simp only [e, add_mul, sum_add_distrib, sum_mul]
    rw [add_assoc]
    congr 2
    · refine sum_congr rfl fun y _ => sum_congr rfl fun z _ => by ring
    · split_ifs with h
      · simp only [sum_mul]
      · simp
  · rw [if_neg hi, add_zero]
    refine sum_congr rfl fun X _ => ?_
    simp only [backStep]
    rw [if_neg hi]

theorem B_step {w v : ℕ} (hv : v < w) (hw : w < N) : pairB θ (backStep real k N NT T g w) N NT v = pairB θ g N NT v +
    ∑ i ∈ range (N - w), (∑ y ∈ range NT, ∑ z ∈ range NT, pairGrad real k N NT g false false w i y z * (k.split w i (w - 1 - v) y z * θ.chart (i + (w - v)) v z) +
      if v = w - 1 then ∑ y ∈ range T, ∑ z ∈ range NT, pairGrad real k N NT g true false w i y z * θ.chart (i + (w - v)) v z else 0) := by
  have e0 : N - w = N - v - (w - v) := by omega
  have key : ∀ i, i < N - v → ∑ X ∈ range NT, (backStep real k N NT T g w).B (i + v) (N - 1 - v) X * θ.chart i v X =
      ∑ X ∈ range NT, g.B (i + v) (N - 1 - v) X * θ.chart i v X + if w - v ≤ i then
        (∑ y ∈ range NT, ∑ z ∈ range NT, pairGrad real k N NT g false false w (i - (w - v)) y z * (k.split w (i - (w - v)) (w - 1 - v) y z * θ.chart i v z) +
          if v = w - 1 then ∑ y ∈ range T, ∑ z ∈ range NT, pairGrad real k N NT g true false w (i - (w - v)) y z * θ.chart i v z else 0) else 0 := by
    intro i hi
    by_cases h : w - v ≤ i
    · rw [if_pos h]
      have e : ∀ X, (backStep real k N NT T g w).B (i + v) (N - 1 - v) X = g.B (i + v) (N - 1 - v) X +
          (∑ y ∈ range NT, pairGrad real k N NT g false false w (i - (w - v)) y X * k.split w (i - (w - v)) (w - 1 - v) y X) +
          (if v = w - 1 then ∑ y ∈ range T, pairGrad real k N NT g true false w (i - (w - v)) y X else 0) := by
        intro X
        simp only [backStep]
        rw [if_pos (by omega), if_pos (by omega), real_all, real_all]
        have e1 : i + v - w = i - (w - v) := by omega
        have e2 : N - 1 - v - (N - w) = w - 1 - v := by omega
        rw [e1, e2]
        by_cases h2 : v = w - 1
        · rw [if_pos h2, if_pos (by omega)]; rfl
        · rw [if_neg h2, if_neg (by omega)]; rfl
      simp only [e, add_mul, sum_add_distrib, sum_mul]
      rw [add_assoc]
      congr 2
      · rw [sum_comm]
        refine sum_congr rfl fun y _ => sum_congr rfl fun z _ => by ring
      · split_ifs with h
        · simp only [sum_mul]; rw [sum_comm]
        · simp
    · rw [if_neg h, add_zero]
      refine sum_congr rfl fun X _ => ?_
      simp only [backStep]
      rw [if_neg (by omega)]
  rw [pairB, pairB, sum_congr rfl fun i hi => key i (mem_range.1 hi), sum_add_distrib, sum_ge, ← e0]
  congr 1
  refine sum_congr rfl fun i _ => ?_
  rw [Nat.add_sub_cancel]

theorem term_step {w : ℕ} (hw : w < N) : ∑ n ∈ range N, ∑ t ∈ range T, (backStep real k N NT T g w).term n t * θ.term n t =
    ∑ n ∈ range N, ∑ t ∈ range T, g.term n t * θ.term n t +
    ∑ i ∈ range (N - w), (∑ y ∈ range NT, ∑ z ∈ range T, pairGrad real k N NT g false true w i y z * θ.term (i + w) z +
      ∑ y ∈ range T, ∑ z ∈ range NT, pairGrad real k N NT g true false w i y z * θ.term i y +
      if w = 1 then ∑ y ∈ range T, ∑ z ∈ range T, pairGrad real k N NT g true true w i y z * (θ.term i y + θ.term (i + w) z) else 0) := by
  have e : ∀ n < N, ∑ t ∈ range T, (backStep real k N NT T g w).term n t * θ.term n t = ∑ t ∈ range T, g.term n t * θ.term n t +
      ((if w ≤ n then ∑ y ∈ range NT, ∑ t ∈ range T, pairGrad real k N NT g false true w (n - w) y t * θ.term n t else 0) +
      (if n < N - w then ∑ t ∈ range T, ∑ z ∈ range NT, pairGrad real k N NT g true false w n t z * θ.term n t else 0) +
      ((if n < N - w then if w = 1 then ∑ t ∈ range T, ∑ z ∈ range T, pairGrad real k N NT g true true w n t z * θ.term n t else 0 else 0) +
      (if w ≤ n then if w = 1 then ∑ y ∈ range T, ∑ t ∈ range T, pairGrad real k N NT g true true w (n - w) y t * θ.term n t else 0 else 0))) := by
    intro n hn
    have e1 : ∀ t, (backStep real k N NT T g w).term n t = g.term n t +
        ((if w ≤ n then ∑ y ∈ range NT, pairGrad real k N NT g false true w (n - w) y t else 0) +
        (if n < N - w then ∑ z ∈ range NT, pairGrad real k N NT g true false w n t z else 0)) +
        (if w = 1 then (if n < N - w then ∑ z ∈ range T, pairGrad real k N NT g true true w n t z else 0) +
          (if w ≤ n then ∑ y ∈ range T, pairGrad real k N NT g true true w (n - w) y t else 0) else 0) := by
      intro t
      simp only [backStep, real_all, hn, and_true]
      rfl
    simp only [e1, add_mul, sum_add_distrib]
    rw [add_assoc, add_assoc]
    congr 1
    rw [← add_assoc]
    congr 1
    · congr 1
      · by_cases h : w ≤ n
        · simp only [if_pos h, sum_mul]; rw [sum_comm]
        · simp [h]
      · by_cases h : n < N - w
        · simp only [if_pos h, sum_mul]
        · simp [h]
    · by_cases h1 : w = 1
      · simp only [if_pos h1, add_mul, sum_add_distrib]
        congr 1
        · by_cases h : n < N - w
          · simp only [if_pos h, sum_mul]
          · simp [h]
        · by_cases h : w ≤ n
          · simp only [if_pos h, sum_mul]; rw [sum_comm]
          · simp [h]
      · simp [h1]
  rw [sum_congr rfl fun n hn => e n (mem_range.1 hn), sum_add_distrib]
  congr 1
  simp only [sum_add_distrib]
  rw [sum_ge, sum_ge, sum_lt (by omega), sum_lt (by omega)]
  simp only [Nat.add_sub_cancel]
  rw [← sum_add_distrib, ← sum_add_distrib, ← sum_add_distrib, ← sum_add_distrib]
  refine sum_congr rfl fun i _ => ?_
  congr 1
  split_ifs
  · rw [← sum_add_distrib]
    refine sum_congr rfl fun y _ => ?_
    rw [← sum_add_distrib]
    refine sum_congr rfl fun z _ => by ring
  · simp

/-- What an iteration adds to the gradients of the rules of one kind, paired with the derivatives. -/
def useRule (θ : Tangent) (k : Factors ℝ) (g : Adj ℝ) (N NT T : ℕ) (l r : Bool) (w i : ℕ) : ℝ :=
  ∑ X ∈ range NT, ∑ y ∈ range (size NT T l), ∑ z ∈ range (size NT T r), useGrad real k N g l r w i X y z * θ.rule X (off NT l + y) (off NT r + z)

theorem sum_off {a c : ℕ} (f : ℕ → ℝ) : ∑ y ∈ range (a + c), f y = ∑ y ∈ range a, f (0 + y) + ∑ y ∈ range c, f (a + y) := by
  rw [sum_range_add]; simp only [Nat.zero_add]

theorem rule_block (l r : Bool) (w X : ℕ) :
    ∑ y ∈ range (size NT T l), ∑ z ∈ range (size NT T r), ruleGrad real k N g l r w X y z * θ.rule X (off NT l + y) (off NT r + z) =
      ∑ i ∈ range (N - w), ∑ y ∈ range (size NT T l), ∑ z ∈ range (size NT T r), useGrad real k N g l r w i X y z * θ.rule X (off NT l + y) (off NT r + z) := by
  simp only [ruleGrad_real, sum_mul]
  rw [sum_comm]
  simp only [sum_comm (s := range (N - w))]
  rw [sum_comm]

theorem rule_step {w : ℕ} : ∑ X ∈ range NT, ∑ y ∈ range (NT + T), ∑ z ∈ range (NT + T), (backStep real k N NT T g w).rule X y z * θ.rule X y z =
    ∑ X ∈ range NT, ∑ y ∈ range (NT + T), ∑ z ∈ range (NT + T), g.rule X y z * θ.rule X y z +
    ∑ i ∈ range (N - w), (useRule θ k g N NT T false false w i + useRule θ k g N NT T false true w i + useRule θ k g N NT T true false w i +
      if w = 1 then useRule θ k g N NT T true true w i else 0) := by
  have e : ∀ X, ∑ y ∈ range (NT + T), ∑ z ∈ range (NT + T), (backStep real k N NT T g w).rule X y z * θ.rule X y z =
      ∑ y ∈ range (NT + T), ∑ z ∈ range (NT + T), g.rule X y z * θ.rule X y z +
      (∑ y ∈ range NT, ∑ z ∈ range NT, ruleGrad real k N g false false w X y z * θ.rule X (0 + y) (0 + z) +
      ∑ y ∈ range NT, ∑ z ∈ range T, ruleGrad real k N g false true w X y z * θ.rule X (0 + y) (NT + z) +
      ∑ y ∈ range T, ∑ z ∈ range NT, ruleGrad real k N g true false w X y z * θ.rule X (NT + y) (0 + z) +
      if w = 1 then ∑ y ∈ range T, ∑ z ∈ range T, ruleGrad real k N g true true w X y z * θ.rule X (NT + y) (NT + z) else 0) := by
    intro X
    have hff : ∀ y < NT, ∀ z < NT, (backStep real k N NT T g w).rule X (0 + y) (0 + z) = g.rule X (0 + y) (0 + z) + ruleGrad real k N g false false w X y z := by
      intro y hy z hz
      simp only [backStep]
      rw [if_neg (by omega), if_neg (by omega), Nat.zero_add, Nat.zero_add]; rfl
    have hft : ∀ y < NT, ∀ z < T, (backStep real k N NT T g w).rule X (0 + y) (NT + z) = g.rule X (0 + y) (NT + z) + ruleGrad real k N g false true w X y z := by
      intro y hy z hz
      simp only [backStep]
      rw [if_neg (by omega), if_pos (by omega), Nat.zero_add, Nat.add_sub_cancel_left]; rfl
    have htf : ∀ y < T, ∀ z < NT, (backStep real k N NT T g w).rule X (NT + y) (0 + z) = g.rule X (NT + y) (0 + z) + ruleGrad real k N g true false w X y z := by
      intro y hy z hz
      simp only [backStep]
      rw [if_pos (by omega), if_neg (by omega), Nat.zero_add, Nat.add_sub_cancel_left]; rfl
    have htt : ∀ y < T, ∀ z < T, (backStep real k N NT T g w).rule X (NT + y) (NT + z) = g.rule X (NT + y) (NT + z) +
        if w = 1 then ruleGrad real k N g true true w X y z else 0 := by
      intro y hy z hz
      simp only [backStep]
      rw [if_pos (by omega), if_pos (by omega), Nat.add_sub_cancel_left, Nat.add_sub_cancel_left]
      split_ifs
      · rfl
      · rw [add_zero]
    simp only [sum_off (a := NT) (c := T), sum_add_distrib]
    rw [sum_congr rfl fun y hy => sum_congr rfl fun z hz => by rw [hff y (mem_range.1 hy) z (mem_range.1 hz)],
      sum_congr (s₁ := range NT) (s₂ := range NT) rfl fun y hy => sum_congr (s₁ := range T) rfl fun z hz => by rw [hft y (mem_range.1 hy) z (mem_range.1 hz)],
      sum_congr (s₁ := range T) (s₂ := range T) rfl fun y hy => sum_congr (s₁ := range NT) rfl fun z hz => by rw [htf y (mem_range.1 hy) z (mem_range.1 hz)],
      sum_congr (s₁ := range T) (s₂ := range T) rfl fun y hy => sum_congr (s₁ := range T) rfl fun z hz => by rw [htt y (mem_range.1 hy) z (mem_range.1 hz)]]
    simp only [add_mul, sum_add_distrib]
    by_cases h1 : w = 1
    · simp only [if_pos h1]; ring
    · simp only [if_neg h1, zero_mul, sum_const_zero]; ring
  rw [sum_congr rfl fun X _ => e X, sum_add_distrib]
  congr 1
  have b := fun l r X => rule_block (k := k) (N := N) (NT := NT) (T := T) θ g l r w X
  have h1 := b false false
  have h2 := b false true
  have h3 := b true false
  have h4 := b true true
  simp only [size, off, if_true, Bool.false_eq_true, if_false] at h1 h2 h3 h4
  simp only [h1, h2, h3, h4, sum_add_distrib]
  simp only [useRule, size, off, if_true, Bool.false_eq_true, if_false]
  congr 1
  · rw [sum_comm]
    congr 1
    · rw [sum_comm (s := range NT)]
    · rw [sum_comm (s := range NT)]
  · by_cases h : w = 1
    · simp only [if_pos h]; rw [sum_comm]
    · simp [h]

/-- All pairings. -/
def total (θ : Tangent) (g : Adj ℝ) (N NT T w : ℕ) : ℝ :=
  ∑ v ∈ range (w + 1), (pairA θ g N NT v + pairB θ g N NT v) + ∑ n ∈ range N, ∑ t ∈ range T, g.term n t * θ.term n t +
    ∑ X ∈ range NT, ∑ y ∈ range (NT + T), ∑ z ∈ range (NT + T), g.rule X y z * θ.rule X y z + ∑ X ∈ range NT, g.root X * θ.root X +
    ∑ v ∈ Ico (w + 1) N, ∑ i ∈ range (N - v), ∑ X ∈ range NT, g.span v i X * θ.mark v i X

variable {θ}

/-- One kind of product. -/
theorem part_pair (l r : Bool) (w i : ℕ) : ∑ X ∈ range NT, newGrad real N g w i X * (k.part l r w i X * θ.part k NT T l r w i X) =
    ∑ y ∈ range (size NT T l), ∑ z ∈ range (size NT T r), pairGrad real k N NT g l r w i y z * θ.pair k l r w i y z + useRule θ k g N NT T l r w i := by
  have e : ∑ y ∈ range (size NT T l), ∑ z ∈ range (size NT T r), pairGrad real k N NT g l r w i y z * θ.pair k l r w i y z =
      ∑ X ∈ range NT, ∑ y ∈ range (size NT T l), ∑ z ∈ range (size NT T r), useGrad real k N g l r w i X y z * θ.pair k l r w i y z := by
    simp only [pairGrad_real, sum_mul]
    rw [sum_comm (s := range NT)]
    refine sum_congr rfl fun y _ => ?_
    rw [sum_comm]
  rw [e, useRule, ← sum_add_distrib]
  refine sum_congr rfl fun X _ => ?_
  rw [Tangent.part, mul_sum, mul_sum, ← sum_add_distrib]
  refine sum_congr rfl fun y _ => ?_
  rw [mul_sum, mul_sum, ← sum_add_distrib]
  refine sum_congr rfl fun z _ => ?_
  rw [useGrad_real]; ring

/-- The gradients of the pairs of nonterminals are handed down to the charts. -/
theorem split_pair (w i : ℕ) : ∑ y ∈ range NT, ∑ z ∈ range NT, pairGrad real k N NT g false false w i y z * θ.pair k false false w i y z =
    ∑ v ∈ range w, ∑ y ∈ range NT, ∑ z ∈ range NT, pairGrad real k N NT g false false w i y z * (k.split w i v y z * θ.chart i v y) +
    ∑ v ∈ range w, ∑ y ∈ range NT, ∑ z ∈ range NT, pairGrad real k N NT g false false w i y z * (k.split w i (w - 1 - v) y z * θ.chart (i + (w - v)) v z) := by
  have hr : ∑ v ∈ range w, ∑ y ∈ range NT, ∑ z ∈ range NT, pairGrad real k N NT g false false w i y z * (k.split w i (w - 1 - v) y z * θ.chart (i + (w - v)) v z) =
      ∑ v ∈ range w, ∑ y ∈ range NT, ∑ z ∈ range NT, pairGrad real k N NT g false false w i y z * (k.split w i v y z * θ.chart (i + v + 1) (w - 1 - v) z) := by
    rw [← sum_range_reflect]
    refine sum_congr rfl fun v hv => ?_
    rw [mem_range] at hv
    have e1 : w - 1 - (w - 1 - v) = v := by omega
    have e2 : i + (w - (w - 1 - v)) = i + v + 1 := by omega
    rw [e1, e2]
  rw [hr, ← sum_add_distrib]
  simp only [Tangent.pair, mul_sum]
  rw [sum_congr rfl fun y _ => sum_comm, sum_comm]
  refine sum_congr rfl fun v _ => ?_
  rw [← sum_add_distrib]
  refine sum_congr rfl fun y _ => ?_
  rw [← sum_add_distrib]
  refine sum_congr rfl fun z _ => by ring

theorem total_step (h : θ.Ok k N NT T) {w : ℕ} (hw : w + 1 < N) : total θ (backStep real k N NT T g (w + 1)) N NT T w = total θ g N NT T (w + 1) := by
  have hA : ∑ v ∈ range (w + 1), pairA θ (backStep real k N NT T g (w + 1)) N NT v = ∑ v ∈ range (w + 1), pairA θ g N NT v +
      ∑ i ∈ range (N - (w + 1)), (∑ v ∈ range (w + 1), ∑ y ∈ range NT, ∑ z ∈ range NT,
        pairGrad real k N NT g false false (w + 1) i y z * (k.split (w + 1) i v y z * θ.chart i v y) +
        ∑ y ∈ range NT, ∑ z ∈ range T, pairGrad real k N NT g false true (w + 1) i y z * θ.chart i w y) := by
    rw [sum_congr rfl fun v hv => A_step θ g (mem_range.1 hv), sum_add_distrib, sum_comm (s := range (w + 1)) (t := range (N - (w + 1)))]
    congr 1
    refine sum_congr rfl fun i _ => ?_
    rw [sum_add_distrib, Nat.add_sub_cancel, sum_at (by omega) fun v => ∑ y ∈ range NT, ∑ z ∈ range T, pairGrad real k N NT g false true (w + 1) i y z * θ.chart i v y]
  have hB : ∑ v ∈ range (w + 1), pairB θ (backStep real k N NT T g (w + 1)) N NT v = ∑ v ∈ range (w + 1), pairB θ g N NT v +
      ∑ i ∈ range (N - (w + 1)), (∑ v ∈ range (w + 1), ∑ y ∈ range NT, ∑ z ∈ range NT,
        pairGrad real k N NT g false false (w + 1) i y z * (k.split (w + 1) i (w + 1 - 1 - v) y z * θ.chart (i + (w + 1 - v)) v z) +
        ∑ y ∈ range T, ∑ z ∈ range NT, pairGrad real k N NT g true false (w + 1) i y z * θ.chart (i + 1) w z) := by
    rw [sum_congr rfl fun v hv => B_step θ g (mem_range.1 hv) hw, sum_add_distrib, sum_comm (s := range (w + 1)) (t := range (N - (w + 1)))]
    congr 1
    refine sum_congr rfl fun i _ => ?_
    rw [sum_add_distrib, Nat.add_sub_cancel,
      sum_at (by omega) fun v => ∑ y ∈ range T, ∑ z ∈ range NT, pairGrad real k N NT g true false (w + 1) i y z * θ.chart (i + (w + 1 - v)) v z]
    rw [show w + 1 - w = 1 by omega]
  have hT := term_step (k := k) (NT := NT) (T := T) θ g hw
  have hR := rule_step (k := k) (N := N) (NT := NT) (T := T) θ g (w := w + 1)
  have hS : ∑ v ∈ Ico (w + 1) N, ∑ i ∈ range (N - v), ∑ X ∈ range NT, (backStep real k N NT T g (w + 1)).span v i X * θ.mark v i X =
      ∑ i ∈ range (N - (w + 1)), ∑ X ∈ range NT, newGrad real N g (w + 1) i X * θ.mark (w + 1) i X +
      ∑ v ∈ Ico (w + 1 + 1) N, ∑ i ∈ range (N - v), ∑ X ∈ range NT, g.span v i X * θ.mark v i X := by
    rw [sum_eq_sum_Ico_succ_bot hw]
    congr 1
    · refine sum_congr rfl fun i hi => sum_congr rfl fun X _ => ?_
      simp only [backStep]
      rw [if_pos ⟨trivial, mem_range.1 hi⟩]
    · refine sum_congr rfl fun v hv => sum_congr rfl fun i _ => sum_congr rfl fun X _ => ?_
      have := (mem_Ico.1 hv).1
      simp only [backStep]
      rw [if_neg (by omega)]
  have hnew : pairA θ g N NT (w + 1) + pairB θ g N NT (w + 1) =
      ∑ i ∈ range (N - (w + 1)), ∑ X ∈ range NT, newGrad real N g (w + 1) i X * θ.chart i (w + 1) X := by
    rw [pairA, pairB, ← sum_add_distrib]
    refine sum_congr rfl fun i _ => ?_
    rw [← sum_add_distrib]
    refine sum_congr rfl fun X _ => ?_
    rw [newGrad_real, show N - (w + 1) - 1 = N - 1 - (w + 1) by omega]; ring
  have hi : ∀ i ∈ range (N - (w + 1)), ∑ X ∈ range NT, newGrad real N g (w + 1) i X * θ.chart i (w + 1) X =
      ∑ X ∈ range NT, newGrad real N g (w + 1) i X * θ.mark (w + 1) i X +
      ((∑ v ∈ range (w + 1), ∑ y ∈ range NT, ∑ z ∈ range NT,
        pairGrad real k N NT g false false (w + 1) i y z * (k.split (w + 1) i v y z * θ.chart i v y) +
        ∑ y ∈ range NT, ∑ z ∈ range T, pairGrad real k N NT g false true (w + 1) i y z * θ.chart i w y) +
      (∑ v ∈ range (w + 1), ∑ y ∈ range NT, ∑ z ∈ range NT,
        pairGrad real k N NT g false false (w + 1) i y z * (k.split (w + 1) i (w + 1 - 1 - v) y z * θ.chart (i + (w + 1 - v)) v z) +
        ∑ y ∈ range T, ∑ z ∈ range NT, pairGrad real k N NT g true false (w + 1) i y z * θ.chart (i + 1) w z) +
      (∑ y ∈ range NT, ∑ z ∈ range T, pairGrad real k N NT g false true (w + 1) i y z * θ.term (i + (w + 1)) z +
      ∑ y ∈ range T, ∑ z ∈ range NT, pairGrad real k N NT g true false (w + 1) i y z * θ.term i y +
      if w + 1 = 1 then ∑ y ∈ range T, ∑ z ∈ range T, pairGrad real k N NT g true true (w + 1) i y z * (θ.term i y + θ.term (i + (w + 1)) z) else 0) +
      (useRule θ k g N NT T false false (w + 1) i + useRule θ k g N NT T false true (w + 1) i + useRule θ k g N NT T true false (w + 1) i +
      if w + 1 = 1 then useRule θ k g N NT T true true (w + 1) i else 0)) := by
    intro i hi
    rw [mem_range] at hi
    have hc : ∀ X ∈ range NT, newGrad real N g (w + 1) i X * θ.chart i (w + 1) X =
        newGrad real N g (w + 1) i X * (k.part false false (w + 1) i X * θ.part k NT T false false (w + 1) i X) +
        newGrad real N g (w + 1) i X * (k.part false true (w + 1) i X * θ.part k NT T false true (w + 1) i X) +
        newGrad real N g (w + 1) i X * (k.part true false (w + 1) i X * θ.part k NT T true false (w + 1) i X) +
        (if w + 1 = 1 then newGrad real N g (w + 1) i X * (k.part true true (w + 1) i X * θ.part k NT T true true (w + 1) i X) else 0) +
        newGrad real N g (w + 1) i X * θ.mark (w + 1) i X := by
      intro X hX
      rw [h.step (w + 1) i X (by omega) (by omega) (mem_range.1 hX)]
      split_ifs <;> ring
    rw [sum_congr rfl hc]
    simp only [sum_add_distrib]
    have p1 := part_pair (k := k) (N := N) (NT := NT) (T := T) (θ := θ) g false false (w + 1) i
    have p2 := part_pair (k := k) (N := N) (NT := NT) (T := T) (θ := θ) g false true (w + 1) i
    have p3 := part_pair (k := k) (N := N) (NT := NT) (T := T) (θ := θ) g true false (w + 1) i
    have p4 := part_pair (k := k) (N := N) (NT := NT) (T := T) (θ := θ) g true true (w + 1) i
    simp only [size, if_true, Bool.false_eq_true, if_false] at p1 p2 p3 p4
    rw [p1, p2, p3, split_pair]
    have hft : ∑ y ∈ range NT, ∑ z ∈ range T, pairGrad real k N NT g false true (w + 1) i y z * θ.pair k false true (w + 1) i y z =
        ∑ y ∈ range NT, ∑ z ∈ range T, pairGrad real k N NT g false true (w + 1) i y z * θ.chart i w y +
        ∑ y ∈ range NT, ∑ z ∈ range T, pairGrad real k N NT g false true (w + 1) i y z * θ.term (i + (w + 1)) z := by
      rw [← sum_add_distrib]
      refine sum_congr rfl fun y _ => ?_
      rw [← sum_add_distrib]
      refine sum_congr rfl fun z _ => ?_
      rw [Tangent.pair, Nat.add_sub_cancel]; ring
    have htf : ∑ y ∈ range T, ∑ z ∈ range NT, pairGrad real k N NT g true false (w + 1) i y z * θ.pair k true false (w + 1) i y z =
        ∑ y ∈ range T, ∑ z ∈ range NT, pairGrad real k N NT g true false (w + 1) i y z * θ.term i y +
        ∑ y ∈ range T, ∑ z ∈ range NT, pairGrad real k N NT g true false (w + 1) i y z * θ.chart (i + 1) w z := by
      rw [← sum_add_distrib]
      refine sum_congr rfl fun y _ => ?_
      rw [← sum_add_distrib]
      refine sum_congr rfl fun z _ => ?_
      rw [Tangent.pair, Nat.add_sub_cancel]; ring
    rw [hft, htf]
    have h4 : ∑ X ∈ range NT, (if w + 1 = 1 then newGrad real N g (w + 1) i X * (k.part true true (w + 1) i X * θ.part k NT T true true (w + 1) i X) else 0) =
        (if w + 1 = 1 then ∑ y ∈ range T, ∑ z ∈ range T, pairGrad real k N NT g true true (w + 1) i y z * (θ.term i y + θ.term (i + (w + 1)) z) else 0) +
        if w + 1 = 1 then useRule θ k g N NT T true true (w + 1) i else 0 := by
      by_cases h1 : w + 1 = 1
      · simp only [if_pos h1]
        rw [p4]
        rfl
      · simp only [if_neg h1, sum_const_zero, add_zero]
    rw [h4]
    ring
  have hroot : (backStep real k N NT T g (w + 1)).root = g.root := rfl
  rw [total, total, sum_add_distrib, hA, hB, hT, hR, hS, hroot, sum_range_succ (fun v => pairA θ g N NT v + pairB θ g N NT v), hnew, sum_congr rfl hi, sum_add_distrib]
  simp only [sum_add_distrib]
  ring

/-- **The backward pass is the adjoint of differentiation.** -/
theorem adjoint (h : θ.Ok k N NT T) (hN : 1 ≤ N) {last : ℕ} (hl : last < N) :
    ∑ n ∈ range N, ∑ t ∈ range T, (backLoop real k N NT T last).term n t * θ.term n t +
      ∑ X ∈ range NT, ∑ y ∈ range (NT + T), ∑ z ∈ range (NT + T), (backLoop real k N NT T last).rule X y z * θ.rule X y z +
      ∑ X ∈ range NT, (backLoop real k N NT T last).root X * θ.root X +
      ∑ v ∈ Ico 1 N, ∑ i ∈ range (N - v), ∑ X ∈ range NT, (backLoop real k N NT T last).span v i X * θ.mark v i X =
    ∑ X ∈ range NT, k.top X * (θ.chart 0 last X + θ.root X) := by
  have key : ∀ (g : Adj ℝ) (m : ℕ), m ≤ N - 1 → total θ ((List.range m).reverse.foldl (fun g w => backStep real k N NT T g (w + 1)) g) N NT T 0 = total θ g N NT T m := by
    intro g m
    induction m generalizing g with
    | zero => intro _; rfl
    | succ m ih =>
      intro hm
      rw [List.range_succ, List.reverse_append, List.reverse_singleton, List.singleton_append, List.foldl_cons, ih _ (by omega), total_step g h (by omega)]
  have h0 : ∀ g, total θ g N NT T 0 = ∑ n ∈ range N, ∑ t ∈ range T, g.term n t * θ.term n t +
      ∑ X ∈ range NT, ∑ y ∈ range (NT + T), ∑ z ∈ range (NT + T), g.rule X y z * θ.rule X y z + ∑ X ∈ range NT, g.root X * θ.root X +
      ∑ v ∈ Ico 1 N, ∑ i ∈ range (N - v), ∑ X ∈ range NT, g.span v i X * θ.mark v i X := by
    intro g
    have z1 : pairA θ g N NT 0 = 0 := sum_eq_zero fun i _ => sum_eq_zero fun X hX => by rw [h.zero i X (mem_range.1 hX), mul_zero]
    have z2 : pairB θ g N NT 0 = 0 := sum_eq_zero fun i _ => sum_eq_zero fun X hX => by rw [h.zero i X (mem_range.1 hX), mul_zero]
    rw [total, Nat.zero_add, sum_range_one, z1, z2]
    ring
  rw [← h0]
  refine (key (start real k last) (N - 1) le_rfl).trans ?_
  have e : ∀ X, (real.mul real.one (k.top X) : ℝ) = k.top X := fun X => one_mul _
  have hB : ∀ v, pairB θ (start real k last) N NT v = 0 := fun v => sum_eq_zero fun i _ => sum_eq_zero fun X _ => zero_mul _
  have hA : ∀ v ∈ range N, pairA θ (start real k last) N NT v = if v = last then ∑ X ∈ range NT, k.top X * θ.chart 0 last X else 0 := by
    intro v hv
    rw [mem_range] at hv
    rw [pairA]
    split_ifs with hvl
    · subst hvl
      rw [sum_eq_single 0]
      · refine sum_congr rfl fun X _ => ?_
        simp only [start]
        rw [if_pos ⟨trivial, trivial⟩, e]
      · intro i _ hi
        refine sum_eq_zero fun X _ => ?_
        simp only [start]
        rw [if_neg (by omega)]
        exact zero_mul _
      · intro h; simp only [mem_range] at h; omega
    · refine sum_eq_zero fun i _ => sum_eq_zero fun X _ => ?_
      simp only [start]
      rw [if_neg (by omega)]
      exact zero_mul _
  rw [total, Nat.sub_add_cancel hN]
  simp only [hB, add_zero]
  rw [sum_congr rfl hA, sum_ite_eq' (range N) last, if_pos (mem_range.2 hl)]
  have z3 : ∑ n ∈ range N, ∑ t ∈ range T, (start real k last).term n t * θ.term n t = 0 := sum_eq_zero fun _ _ => sum_eq_zero fun _ _ => zero_mul _
  have z4 : ∑ X ∈ range NT, ∑ y ∈ range (NT + T), ∑ z ∈ range (NT + T), (start real k last).rule X y z * θ.rule X y z = 0 :=
    sum_eq_zero fun _ _ => sum_eq_zero fun _ _ => sum_eq_zero fun _ _ => zero_mul _
  rw [z3, z4, Ico_self, sum_empty, add_zero, add_zero, add_zero, ← sum_add_distrib]
  refine sum_congr rfl fun X _ => ?_
  simp only [start, e]
  ring

end CFGBackwardProofs
