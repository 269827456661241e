import Verif.Proofs.DepBackwardSum

/-! With the guard, the gradient of an arc is the share of the trees that contain it. -/

open Finset DepBackward Spec Eisner
open TreeBackwardProofs (fl tmul tmul_coe)

noncomputable section
namespace DepBackwardProofs

/-! ### Sums of gradients against shares -/

theorem swap23 (N : ℕ) (f : ℕ → ℕ → ℕ → ℝ) : ∑ i ∈ range N, ∑ j ∈ range N, ∑ k ∈ range N, f i j k = ∑ i ∈ range N, ∑ k ∈ range N, ∑ j ∈ range N, f i j k :=
  sum_congr rfl fun _ _ => sum_comm

theorem swap13 (N : ℕ) (f : ℕ → ℕ → ℕ → ℝ) : ∑ i ∈ range N, ∑ j ∈ range N, ∑ k ∈ range N, f i j k = ∑ k ∈ range N, ∑ j ∈ range N, ∑ i ∈ range N, f i j k := by
  rw [swap23, sum_comm]
  refine sum_congr rfl fun _ _ => sum_comm

theorem adjoint (N : ℕ) {rX rR rL qX qR qL δ s : ℕ → ℕ → ℝ} {tx tr tl ξ : ℕ → ℕ → ℕ → ℝ}
    (h1 : ∀ i < N, ∀ j < N, rR i j * qR i j = (δ i j + ∑ j' ∈ range N, rX i j' * tx i j' j + ∑ i' ∈ range N, rR i' j * tr i' j i) * qR i j)
    (h2 : ∀ i < N, ∀ j < N, rL i j * qL i j = (∑ j' ∈ range N, rL i j' * tl i j' j + ∑ i' ∈ range N, rX i' j * ξ i' j i) * qL i j)
    (h3 : ∀ i < N, ∀ j < N, rX i j * qX i j = (∑ j' ∈ range N, rR i j' * tr i j' j + ∑ i' ∈ range N, rL i' j * tl i' j i) * qX i j)
    (k1 : ∀ i < N, ∀ j < N, rR i j * qR i j = rR i j * ∑ m ∈ range N, tr i j m * (s i m + qX i m + qR m j))
    (k2 : ∀ i < N, ∀ j < N, rL i j * qL i j = rL i j * ∑ m ∈ range N, tl i j m * (s j m + qX m j + qL i m))
    (k3 : ∀ i < N, ∀ j < N, rX i j * qX i j = rX i j * (∑ m ∈ range N, tx i j m * qR i m + ∑ m ∈ range N, ξ i j m * qL m j)) :
    ∑ i ∈ range N, ∑ j ∈ range N, δ i j * qR i j =
      ∑ i ∈ range N, ∑ j ∈ range N, ∑ m ∈ range N, rR i j * tr i j m * s i m + ∑ i ∈ range N, ∑ j ∈ range N, ∑ m ∈ range N, rL i j * tl i j m * s j m := by
  have H1 : ∑ i ∈ range N, ∑ j ∈ range N, rR i j * qR i j = ∑ i ∈ range N, ∑ j ∈ range N, δ i j * qR i j +
      ∑ i ∈ range N, ∑ j ∈ range N, ∑ m ∈ range N, rX i j * tx i j m * qR i m + ∑ i ∈ range N, ∑ j ∈ range N, ∑ m ∈ range N, rR i j * tr i j m * qR m j := by
    rw [swap23 N fun i j m => rX i j * tx i j m * qR i m, swap13 N fun i j m => rR i j * tr i j m * qR m j, ← sum_add_distrib, ← sum_add_distrib]
    refine sum_congr rfl fun i hi => ?_
    rw [← sum_add_distrib, ← sum_add_distrib]
    refine sum_congr rfl fun j hj => ?_
    rw [h1 i (mem_range.1 hi) j (mem_range.1 hj), add_mul, add_mul, sum_mul, sum_mul]
  have H2 : ∑ i ∈ range N, ∑ j ∈ range N, rL i j * qL i j = ∑ i ∈ range N, ∑ j ∈ range N, ∑ m ∈ range N, rL i j * tl i j m * qL i m +
      ∑ i ∈ range N, ∑ j ∈ range N, ∑ m ∈ range N, rX i j * ξ i j m * qL m j := by
    rw [swap23 N fun i j m => rL i j * tl i j m * qL i m, swap13 N fun i j m => rX i j * ξ i j m * qL m j, ← sum_add_distrib]
    refine sum_congr rfl fun i hi => ?_
    rw [← sum_add_distrib]
    refine sum_congr rfl fun j hj => ?_
    rw [h2 i (mem_range.1 hi) j (mem_range.1 hj), add_mul, sum_mul, sum_mul]
  have H3 : ∑ i ∈ range N, ∑ j ∈ range N, rX i j * qX i j = ∑ i ∈ range N, ∑ j ∈ range N, ∑ m ∈ range N, rR i j * tr i j m * qX i m +
      ∑ i ∈ range N, ∑ j ∈ range N, ∑ m ∈ range N, rL i j * tl i j m * qX m j := by
    rw [swap23 N fun i j m => rR i j * tr i j m * qX i m, swap13 N fun i j m => rL i j * tl i j m * qX m j, ← sum_add_distrib]
    refine sum_congr rfl fun i hi => ?_
    rw [← sum_add_distrib]
    refine sum_congr rfl fun j hj => ?_
    rw [h3 i (mem_range.1 hi) j (mem_range.1 hj), add_mul, sum_mul, sum_mul]
  have K1 : ∑ i ∈ range N, ∑ j ∈ range N, rR i j * qR i j = ∑ i ∈ range N, ∑ j ∈ range N, ∑ m ∈ range N, rR i j * tr i j m * s i m +
      ∑ i ∈ range N, ∑ j ∈ range N, ∑ m ∈ range N, rR i j * tr i j m * qX i m + ∑ i ∈ range N, ∑ j ∈ range N, ∑ m ∈ range N, rR i j * tr i j m * qR m j := by
    rw [← sum_add_distrib, ← sum_add_distrib]
    refine sum_congr rfl fun i hi => ?_
    rw [← sum_add_distrib, ← sum_add_distrib]
    refine sum_congr rfl fun j hj => ?_
    rw [← sum_add_distrib, ← sum_add_distrib, k1 i (mem_range.1 hi) j (mem_range.1 hj), mul_sum]
    exact sum_congr rfl fun m _ => by ring
  have K2 : ∑ i ∈ range N, ∑ j ∈ range N, rL i j * qL i j = ∑ i ∈ range N, ∑ j ∈ range N, ∑ m ∈ range N, rL i j * tl i j m * s j m +
      ∑ i ∈ range N, ∑ j ∈ range N, ∑ m ∈ range N, rL i j * tl i j m * qX m j + ∑ i ∈ range N, ∑ j ∈ range N, ∑ m ∈ range N, rL i j * tl i j m * qL i m := by
    rw [← sum_add_distrib, ← sum_add_distrib]
    refine sum_congr rfl fun i hi => ?_
    rw [← sum_add_distrib, ← sum_add_distrib]
    refine sum_congr rfl fun j hj => ?_
    rw [← sum_add_distrib, ← sum_add_distrib, k2 i (mem_range.1 hi) j (mem_range.1 hj), mul_sum]
    exact sum_congr rfl fun m _ => by ring
  have K3 : ∑ i ∈ range N, ∑ j ∈ range N, rX i j * qX i j = ∑ i ∈ range N, ∑ j ∈ range N, ∑ m ∈ range N, rX i j * tx i j m * qR i m +
      ∑ i ∈ range N, ∑ j ∈ range N, ∑ m ∈ range N, rX i j * ξ i j m * qL m j := by
    rw [← sum_add_distrib]
    refine sum_congr rfl fun i hi => ?_
    rw [← sum_add_distrib]
    refine sum_congr rfl fun j hj => ?_
    rw [← sum_add_distrib, k3 i (mem_range.1 hi) j (mem_range.1 hj), ← sum_add_distrib, mul_sum]
    exact sum_congr rfl fun m _ => by ring
  linarith

/-! ### The gradients as real numbers -/

theorem coe_sum {ι : Type} (s : Finset ι) (f : ι → ℝ) : ((∑ x ∈ s, f x : ℝ) : WithTop ℝ) = ∑ x ∈ s, ((f x : ℝ) : WithTop ℝ) := by
  classical
  induction s using Finset.induction_on with
  | empty => simp
  | insert x s hx ih => rw [sum_insert hx, sum_insert hx, WithTop.coe_add, ih]

variable (a : ℕ → ℕ → ℝ) (N L : ℕ)

def rR (i j : ℕ) : ℝ := (gR N L (guardedτ a N) i j).untopD 0
def rL (i j : ℕ) : ℝ := (gL N L (guardedτ a N) i j).untopD 0
def rX (i j : ℕ) : ℝ := (gX N L (guardedτ a N) i j).untopD 0

variable {a N L}

theorem coe_untop {x : WithTop ℝ} (h : x ≠ ⊤) : x = ((x.untopD 0 : ℝ) : WithTop ℝ) := by
  lift x to ℝ using h; rfl

theorem coe_R {i j : ℕ} (hij : i ≤ j) (hj : j < N) : gR N L (guardedτ a N) i j = (rR a N L i j : ℝ) := by
  refine coe_untop fun h => ?_
  rw [(tops bad_guarded _ i j hij hj rfl).1] at h
  obtain ⟨_, _, _, _, _, h | h⟩ := h
  exacts [h.1, h.2.elim id id]

theorem coe_L {i j : ℕ} (hij : i ≤ j) (hj : j < N) : gL N L (guardedτ a N) i j = (rL a N L i j : ℝ) := by
  refine coe_untop fun h => ?_
  rw [(tops bad_guarded _ i j hij hj rfl).2.1] at h
  obtain ⟨_, _, _, _, _, h | h⟩ := h
  exacts [h.1, h.2.elim id id]

theorem coe_X {i j : ℕ} (hij : i < j) (hj : j < N) : gX N L (guardedτ a N) i j = (rX a N L i j : ℝ) := by
  refine coe_untop fun h => ?_
  rw [(tops bad_guarded _ i j hij.le hj rfl).2.2 hij] at h
  obtain ⟨_, _, _, _, _, h | h | h⟩ := h
  exacts [h, h, h.1]

theorem coe_IR {i j : ℕ} (hij : i < j) (hj : j < N) : gIR N L (guardedτ a N) i j = ((∑ j' ∈ range N, rR a N L i j' * tr a i j' j : ℝ) : WithTop ℝ) := by
  have e : ∑ j' ∈ range N, rR a N L i j' * tr a i j' j = ∑ j' ∈ Ico j N, rR a N L i j' * tr a i j' j := by
    symm
    refine sum_subset (fun x hx => mem_range.2 (mem_Ico.1 hx).2) fun x hx hx' => ?_
    rw [mem_range] at hx; rw [mem_Ico] at hx'
    rw [tr, if_neg (by omega), mul_zero]
  rw [e, coe_sum, gIR]
  refine sum_congr rfl fun j' hj' => ?_
  have := mem_Ico.1 hj'
  rw [coe_R (by omega) (by omega)]
  exact tmul_coe _ _

theorem coe_IL {i j : ℕ} (hij : i < j) (hj : j < N) : gIL N L (guardedτ a N) i j = ((∑ i' ∈ range N, rL a N L i' j * tl a N i' j i : ℝ) : WithTop ℝ) := by
  have e : ∑ i' ∈ range N, rL a N L i' j * tl a N i' j i = ∑ i' ∈ range (i + 1), rL a N L i' j * tl a N i' j i := by
    symm
    refine sum_subset (fun x hx => mem_range.2 (by have := mem_range.1 hx; omega)) fun x hx hx' => ?_
    rw [mem_range] at hx hx'
    rw [tl, if_neg (by omega), mul_zero]
  rw [e, coe_sum, gIL]
  refine sum_congr rfl fun i' hi' => ?_
  have := mem_range.1 hi'
  rw [coe_L (by omega) (by omega)]
  exact tmul_coe _ _

/-- The factor of a division, by the first word of its second half. -/
def txi (a : ℕ → ℕ → ℝ) (i j m : ℕ) : ℝ := if i < m then tx a i j (m - 1) else 0

theorem rX_eq {i j : ℕ} (hij : i < j) (hj : j < N) : rX a N L i j = ∑ j' ∈ range N, rR a N L i j' * tr a i j' j + ∑ i' ∈ range N, rL a N L i' j * tl a N i' j i := by
  have h := gX_eq N L (guardedτ a N) i j
  rw [coe_X hij hj, coe_IR hij hj, coe_IL hij hj, ← WithTop.coe_add] at h
  exact WithTop.coe_injective h

theorem rR_eq {i j : ℕ} (hij : i ≤ j) (hj : j < N) : rR a N L i j = (if i = 0 ∧ j = L then 1 else 0) + ∑ j' ∈ range N, rX a N L i j' * tx a i j' j +
    ∑ i' ∈ range N, rR a N L i' j * tr a i' j i := by
  have h := gR_eq N L (guardedτ a N) i j
  have e1 : ∑ j' ∈ Ioo j N, tmul (gX N L (guardedτ a N) i j') ((guardedτ a N).x i j' j) = ((∑ j' ∈ range N, rX a N L i j' * tx a i j' j : ℝ) : WithTop ℝ) := by
    have e : ∑ j' ∈ range N, rX a N L i j' * tx a i j' j = ∑ j' ∈ Ioo j N, rX a N L i j' * tx a i j' j := by
      symm
      refine sum_subset (fun x hx => mem_range.2 (mem_Ioo.1 hx).2) fun x hx hx' => ?_
      rw [mem_range] at hx; rw [mem_Ioo] at hx'
      rw [tx, if_neg (by omega), mul_zero]
    rw [e, coe_sum]
    refine sum_congr rfl fun j' hj' => ?_
    have := mem_Ioo.1 hj'
    rw [coe_X (by omega) (by omega)]
    exact tmul_coe _ _
  have e2 : ∑ i' ∈ range i, tmul (gR N L (guardedτ a N) i' j) ((guardedτ a N).r i' j i) = ((∑ i' ∈ range N, rR a N L i' j * tr a i' j i : ℝ) : WithTop ℝ) := by
    have e : ∑ i' ∈ range N, rR a N L i' j * tr a i' j i = ∑ i' ∈ range i, rR a N L i' j * tr a i' j i := by
      symm
      refine sum_subset (fun x hx => mem_range.2 (by have := mem_range.1 hx; omega)) fun x hx hx' => ?_
      rw [mem_range] at hx hx'
      rw [tr, if_neg (by omega), mul_zero]
    rw [e, coe_sum]
    refine sum_congr rfl fun i' hi' => ?_
    have := mem_range.1 hi'
    rw [coe_R (by omega) (by omega)]
    exact tmul_coe _ _
  have e0 : (if i = 0 ∧ j = L then 1 else 0 : WithTop ℝ) = ((if i = 0 ∧ j = L then 1 else 0 : ℝ) : WithTop ℝ) := by split_ifs <;> rfl
  rw [coe_R hij hj, e1, e2, e0, ← WithTop.coe_add, ← WithTop.coe_add] at h
  exact WithTop.coe_injective h

theorem rL_eq {i j : ℕ} (hij : i ≤ j) (hj : j < N) : rL a N L i j = ∑ j' ∈ range N, rL a N L i j' * tl a N i j' j + ∑ i' ∈ range N, rX a N L i' j * txi a i' j i := by
  have h := gL_eq N L (guardedτ a N) i j
  have e1 : ∑ j' ∈ Ioo j N, tmul (gL N L (guardedτ a N) i j') ((guardedτ a N).l i j' j) = ((∑ j' ∈ range N, rL a N L i j' * tl a N i j' j : ℝ) : WithTop ℝ) := by
    have e : ∑ j' ∈ range N, rL a N L i j' * tl a N i j' j = ∑ j' ∈ Ioo j N, rL a N L i j' * tl a N i j' j := by
      symm
      refine sum_subset (fun x hx => mem_range.2 (mem_Ioo.1 hx).2) fun x hx hx' => ?_
      rw [mem_range] at hx; rw [mem_Ioo] at hx'
      rw [tl, if_neg (by omega), mul_zero]
    rw [e, coe_sum]
    refine sum_congr rfl fun j' hj' => ?_
    have := mem_Ioo.1 hj'
    rw [coe_L (by omega) (by omega)]
    exact tmul_coe _ _
  have e2 : ∑ i' ∈ range i, tmul (gX N L (guardedτ a N) i' j) ((guardedτ a N).x i' j (i - 1)) = ((∑ i' ∈ range N, rX a N L i' j * txi a i' j i : ℝ) : WithTop ℝ) := by
    have e : ∑ i' ∈ range N, rX a N L i' j * txi a i' j i = ∑ i' ∈ range i, rX a N L i' j * txi a i' j i := by
      symm
      refine sum_subset (fun x hx => mem_range.2 (by have := mem_range.1 hx; omega)) fun x hx hx' => ?_
      rw [mem_range] at hx hx'
      rw [txi, if_neg (by omega), mul_zero]
    rw [e, coe_sum]
    refine sum_congr rfl fun i' hi' => ?_
    have := mem_range.1 hi'
    rw [coe_X (by omega) (by omega), txi, if_pos this]
    exact tmul_coe _ _
  rw [coe_L hij hj, e1, e2, ← WithTop.coe_add] at h
  exact WithTop.coe_injective h

/-! ### The shares -/

variable {h₀ m₀ : ℕ}

theorem shR_out {i j : ℕ} (h : j ≤ i) : shR a h₀ m₀ i j = 0 := by
  have e : j - i = 0 := by omega
  rw [shR, wR, wR, e, CR_zero, CR_zero, sh]; simp

theorem shL_out {i j : ℕ} (h : j ≤ i) : shL a h₀ m₀ i j = 0 := by
  have e : j - i = 0 := by omega
  rw [shL, wL, wL, e, CL_zero, CL_zero, sh]; simp

theorem shX_out {i j : ℕ} (h : j ≤ i) : shX a h₀ m₀ i j = 0 := by
  rw [shX, wX, wX, Ico_eq_empty (by omega), sum_empty, sum_empty, sh]; simp

theorem shR_range (ha : ∀ x y, 0 ≤ a x y) (hne : h₀ ≠ m₀) {i j : ℕ} (hj : j < N) : shR a h₀ m₀ i j =
    ∑ m ∈ range N, tr a i j m * (at1 h₀ m₀ i m + shX a h₀ m₀ i m + shR a h₀ m₀ m j) := by
  by_cases hij : i < j
  · rw [shR_eq ha hne hij]
    have e : ∑ m ∈ range N, tr a i j m * (at1 h₀ m₀ i m + shX a h₀ m₀ i m + shR a h₀ m₀ m j) =
        ∑ m ∈ Ioc i j, tr a i j m * (at1 h₀ m₀ i m + shX a h₀ m₀ i m + shR a h₀ m₀ m j) := by
      symm
      refine sum_subset (fun x hx => mem_range.2 (by have := mem_Ioc.1 hx; omega)) fun x hx hx' => ?_
      rw [mem_Ioc] at hx'
      rw [tr, if_neg hx', zero_mul]
    rw [e]
    refine sum_congr rfl fun m hm => ?_
    rw [tr, if_pos (mem_Ioc.1 hm)]
  · rw [shR_out (by omega), sum_eq_zero]
    intro m _
    rw [tr, if_neg (by omega), zero_mul]

theorem shL_range (ha : ∀ x y, 0 ≤ a x y) (hne : h₀ ≠ m₀) {i j : ℕ} (hj : j < N) (h0 : ¬ (i = 0 ∧ j = N - 1)) : shL a h₀ m₀ i j =
    ∑ m ∈ range N, tl a N i j m * (at1 h₀ m₀ j m + shX a h₀ m₀ m j + shL a h₀ m₀ i m) := by
  by_cases hij : i < j
  · rw [shL_eq ha hne hij]
    have e : ∑ m ∈ range N, tl a N i j m * (at1 h₀ m₀ j m + shX a h₀ m₀ m j + shL a h₀ m₀ i m) =
        ∑ m ∈ Ico i j, tl a N i j m * (at1 h₀ m₀ j m + shX a h₀ m₀ m j + shL a h₀ m₀ i m) := by
      symm
      refine sum_subset (fun x hx => mem_range.2 (by have := mem_Ico.1 hx; omega)) fun x hx hx' => ?_
      rw [mem_Ico] at hx'
      rw [tl, if_neg (by omega), zero_mul]
    rw [e]
    refine sum_congr rfl fun m hm => ?_
    have := mem_Ico.1 hm
    rw [tl, if_pos ⟨this.1, this.2, h0⟩]
  · rw [shL_out (by omega), sum_eq_zero]
    intro m _
    rw [tl, if_neg (by omega), zero_mul]

theorem shX_range (ha : ∀ x y, 0 ≤ a x y) (hne : h₀ ≠ m₀) {i j : ℕ} (hj : j < N) : shX a h₀ m₀ i j =
    ∑ m ∈ range N, tx a i j m * shR a h₀ m₀ i m + ∑ m ∈ range N, txi a i j m * shL a h₀ m₀ m j := by
  have e2 : ∑ m ∈ range N, txi a i j m * shL a h₀ m₀ m j = ∑ m ∈ range N, tx a i j m * shL a h₀ m₀ (m + 1) j := by
    have h1 := sum_range_succ (fun m => txi a i j m * shL a h₀ m₀ m j) N
    have h2 := sum_range_succ' (fun m => txi a i j m * shL a h₀ m₀ m j) N
    have z1 : txi a i j N * shL a h₀ m₀ N j = 0 := by rw [shL_out hj.le, mul_zero]
    have z2 : txi a i j 0 * shL a h₀ m₀ 0 j = 0 := by rw [txi, if_neg (by omega), zero_mul]
    rw [z1, add_zero] at h1
    rw [z2, add_zero] at h2
    rw [← h1, h2]
    refine sum_congr rfl fun m _ => ?_
    rw [txi, Nat.add_sub_cancel]
    by_cases h : i < m + 1
    · rw [if_pos h]
    · rw [if_neg h, tx, if_neg (by omega)]
  rw [e2, ← sum_add_distrib]
  by_cases hij : i < j
  · rw [shX_eq ha hne i j]
    have e : ∑ m ∈ range N, (tx a i j m * shR a h₀ m₀ i m + tx a i j m * shL a h₀ m₀ (m + 1) j) =
        ∑ m ∈ Ico i j, (tx a i j m * shR a h₀ m₀ i m + tx a i j m * shL a h₀ m₀ (m + 1) j) := by
      symm
      refine sum_subset (fun x hx => mem_range.2 (by have := mem_Ico.1 hx; omega)) fun x hx hx' => ?_
      rw [mem_Ico] at hx'
      rw [tx, if_neg (by omega), zero_mul, zero_mul, add_zero]
    rw [e]
    refine sum_congr rfl fun m hm => ?_
    rw [tx, if_pos (mem_Ico.1 hm)]; ring
  · rw [shX_out (by omega), sum_eq_zero]
    intro m _
    rw [tx, if_neg (by omega), zero_mul, zero_mul, add_zero]

/-- The gradient of the largest span that no sum reads. -/
theorem rL_last : rL a N L 0 (N - 1) = 0 := by
  rw [rL, gL_eq, Ioo_last (by omega), sum_empty, range_zero, sum_empty, add_zero]; rfl

theorem pick_one (f : ℕ → ℕ → ℝ) (hh : h₀ < N) (hm : m₀ < N) : ∑ i ∈ range N, ∑ m ∈ range N, f i m * at1 h₀ m₀ i m = f h₀ m₀ := by
  rw [sum_eq_single h₀, sum_eq_single m₀]
  · simp [at1]
  · intro m _ hne; simp [at1, hne]
  · intro h; exact absurd (mem_range.2 hm) h
  · intro i _ hne
    refine sum_eq_zero fun m _ => ?_
    simp [at1, hne]
  · intro h; exact absurd (mem_range.2 hh) h

/-- **The gradient of the arc from `h₀` to `m₀` is the share of the trees that contain it.** -/
theorem share_grad (ha : ∀ x y, 0 ≤ a x y) (hne : h₀ ≠ m₀) (hh : h₀ < N) (hm : m₀ < N) (hL : L < N) :
    shR a h₀ m₀ 0 L = ∑ j ∈ range N, rR a N L h₀ j * tr a h₀ j m₀ + ∑ i ∈ range N, rL a N L i h₀ * tl a N i h₀ m₀ := by
  have key := adjoint N (rX := rX a N L) (rR := rR a N L) (rL := rL a N L) (qX := shX a h₀ m₀) (qR := shR a h₀ m₀) (qL := shL a h₀ m₀)
    (δ := fun i j => if i = 0 ∧ j = L then 1 else 0) (s := at1 h₀ m₀) (tx := tx a) (tr := tr a) (tl := tl a N) (ξ := txi a)
    (fun i hi j hj => by
      by_cases hij : i ≤ j
      · rw [rR_eq hij hj]
      · rw [shR_out (by omega), mul_zero, mul_zero])
    (fun i hi j hj => by
      by_cases hij : i ≤ j
      · rw [rL_eq hij hj]
      · rw [shL_out (by omega), mul_zero, mul_zero])
    (fun i hi j hj => by
      by_cases hij : i < j
      · rw [rX_eq hij hj]
      · rw [shX_out (by omega), mul_zero, mul_zero])
    (fun i hi j hj => by rw [shR_range ha hne hj])
    (fun i hi j hj => by
      by_cases h0 : i = 0 ∧ j = N - 1
      · obtain ⟨rfl, rfl⟩ := h0
        rw [rL_last, zero_mul, zero_mul]
      · rw [shL_range ha hne hj h0])
    (fun i hi j hj => by rw [shX_range ha hne hj])
  have e0 : ∑ i ∈ range N, ∑ j ∈ range N, (if i = 0 ∧ j = L then (1 : ℝ) else 0) * shR a h₀ m₀ i j = shR a h₀ m₀ 0 L := by
    rw [sum_eq_single 0, sum_eq_single L]
    · simp
    · intro j _ hj; simp [hj]
    · intro h; exact absurd (mem_range.2 hL) h
    · intro i _ hi; simp [hi]
    · intro h; exact absurd (mem_range.2 (by omega)) h
  rw [e0] at key
  rw [key]
  congr 1
  · rw [swap23]
    have : ∀ i m, ∑ j ∈ range N, rR a N L i j * tr a i j m * at1 h₀ m₀ i m = (∑ j ∈ range N, rR a N L i j * tr a i j m) * at1 h₀ m₀ i m := fun i m => by rw [sum_mul]
    simp only [this]
    exact pick_one _ hh hm
  · rw [sum_comm, swap23]
    have : ∀ j m, ∑ i ∈ range N, rL a N L i j * tl a N i j m * at1 h₀ m₀ j m = (∑ i ∈ range N, rL a N L i j * tl a N i j m) * at1 h₀ m₀ j m := fun i m => by rw [sum_mul]
    simp only [this]
    exact pick_one _ hh hm

theorem right_value (ha : ∀ x y, 0 ≤ a x y) {i j : ℕ} (hij : i < j) (hj : j < N) (hL : L < N) :
    gIR N L (guardedτ a N) i j = ((shR a i j 0 L : ℝ) : WithTop ℝ) := by
  rw [coe_IR hij hj, share_grad ha (by omega) (by omega) hj hL]
  congr 1
  have : ∑ x ∈ range N, rL a N L x i * tl a N x i j = 0 := sum_eq_zero fun x _ => by rw [tl, if_neg (by omega), mul_zero]
  rw [this, add_zero]

theorem left_value (ha : ∀ x y, 0 ≤ a x y) {i j : ℕ} (hij : i < j) (hj : j < N) (hL : L < N) :
    gIL N L (guardedτ a N) i j = ((shR a j i 0 L : ℝ) : WithTop ℝ) := by
  rw [coe_IL hij hj, share_grad ha (by omega) hj (by omega) hL]
  congr 1
  have : ∑ x ∈ range N, rR a N L j x * tr a j x i = 0 := sum_eq_zero fun x _ => by rw [tr, if_neg (by omega), mul_zero]
  rw [this, zero_add]

end DepBackwardProofs
