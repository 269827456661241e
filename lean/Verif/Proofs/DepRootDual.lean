import Verif.Proofs.DepRootSum

/-! With the guard, the gradient of an arc is the share of the trees with a single root that contain it. -/

open Finset Spec Eisner DepBackwardProofs
open TreeBackwardProofs (fl tmul tmul_coe)

noncomputable section
namespace DepRootBackwardProofs

/-! ### The gradients as real numbers -/

variable (a : ℕ → ℕ → ℝ) (N L : ℕ)

def rR (i j : ℕ) : ℝ := (gR N L (guardedρ a N) i j).untopD 0
def rL (i j : ℕ) : ℝ := (gL N L (guardedρ a N) i j).untopD 0
def rX (i j : ℕ) : ℝ := (gX N L (guardedρ a N) i j).untopD 0

variable {a N L}

theorem fx_out {i j m : ℕ} (h : ¬ (i ≤ m ∧ m < j)) : fx a i j m = 0 := by
  rw [fx]; split_ifs with h1 h2
  · omega
  · rfl
  · rw [tx, if_neg h]

theorem fr_out {i j m : ℕ} (h : ¬ (i < m ∧ m ≤ j)) : fr a i j m = 0 := by
  rw [fr]; split_ifs with h1
  · subst h1; rw [tt, if_neg h]
  · rw [tr, if_neg h]

theorem fL_out {i j m : ℕ} (h : ¬ (i ≤ m ∧ m < j)) : fL a N i j m = 0 := by
  rw [fL]; split_ifs with h1
  · rfl
  · rw [tl, if_neg (by omega)]

theorem coe_R {i j : ℕ} (hij : i ≤ j) (hj : j < N) : gR N L (guardedρ a N) i j = (rR a N L i j : ℝ) := by
  refine coe_untop fun h => ?_
  rw [(tops bad_guarded _ i j hij hj rfl).1] at h
  obtain ⟨_, _, _, _, _, h | h⟩ := h
  exacts [h.1, h.2.elim id id]

theorem coe_L {i j : ℕ} (hij : i ≤ j) (hj : j < N) : gL N L (guardedρ a N) i j = (rL a N L i j : ℝ) := by
  refine coe_untop fun h => ?_
  rw [(tops bad_guarded _ i j hij hj rfl).2.1] at h
  obtain ⟨_, _, _, _, _, h | h⟩ := h
  exacts [h.1, h.2.elim id id]

theorem coe_X {i j : ℕ} (hij : i < j) (hj : j < N) : gX N L (guardedρ a N) i j = (rX a N L i j : ℝ) := by
  refine coe_untop fun h => ?_
  rw [(tops bad_guarded _ i j hij.le hj rfl).2.2 hij] at h
  obtain ⟨_, _, _, _, _, h | h | h⟩ := h
  exacts [h, h, h.1]

theorem coe_IR {i j : ℕ} (hij : i < j) (hj : j < N) : gIR N L (guardedρ a N) i j = ((∑ j' ∈ range N, rR a N L i j' * fr a i j' j : ℝ) : WithTop ℝ) := by
  have e : ∑ j' ∈ range N, rR a N L i j' * fr a i j' j = ∑ j' ∈ Ico j N, rR a N L i j' * fr a i j' j := by
    symm
    refine sum_subset (fun x hx => mem_range.2 (mem_Ico.1 hx).2) fun x hx hx' => ?_
    rw [mem_range] at hx; rw [mem_Ico] at hx'
    rw [fr_out (by omega), mul_zero]
  rw [e, coe_sum, gIR]
  refine sum_congr rfl fun j' hj' => ?_
  have := mem_Ico.1 hj'
  rw [coe_R (by omega) (by omega)]
  exact tmul_coe _ _

theorem coe_IL {i j : ℕ} (hij : i < j) (hj : j < N) : gIL N L (guardedρ a N) i j = ((∑ i' ∈ range N, rL a N L i' j * fL a N i' j i : ℝ) : WithTop ℝ) := by
  have e : ∑ i' ∈ range N, rL a N L i' j * fL a N i' j i = ∑ i' ∈ range (i + 1), rL a N L i' j * fL a N i' j i := by
    symm
    refine sum_subset (fun x hx => mem_range.2 (by have := mem_range.1 hx; omega)) fun x hx hx' => ?_
    rw [mem_range] at hx hx'
    rw [fL_out (by omega), mul_zero]
  rw [e, coe_sum, gIL]
  refine sum_congr rfl fun i' hi' => ?_
  have := mem_range.1 hi'
  rw [coe_L (by omega) (by omega)]
  exact tmul_coe _ _

/-- The factor of a division, by the first word of its second half. -/
def fxi (a : ℕ → ℕ → ℝ) (i j m : ℕ) : ℝ := if i < m then fx a i j (m - 1) else 0

theorem rX_eq {i j : ℕ} (hij : i < j) (hj : j < N) : rX a N L i j = ∑ j' ∈ range N, rR a N L i j' * fr a i j' j + ∑ i' ∈ range N, rL a N L i' j * fL a N i' j i := by
  have h := gX_eq N L (guardedρ a N) i j
  rw [coe_X hij hj, coe_IR hij hj, coe_IL hij hj, ← WithTop.coe_add] at h
  exact WithTop.coe_injective h

theorem rR_eq {i j : ℕ} (hij : i ≤ j) (hj : j < N) : rR a N L i j = (if i = 0 ∧ j = L then 1 else 0) + ∑ j' ∈ range N, rX a N L i j' * fx a i j' j +
    ∑ i' ∈ range N, rR a N L i' j * fr a i' j i := by
  have h := gR_eq N L (guardedρ a N) i j
  have e1 : ∑ j' ∈ Ioo j N, tmul (gX N L (guardedρ a N) i j') ((guardedρ a N).x i j' j) = ((∑ j' ∈ range N, rX a N L i j' * fx a i j' j : ℝ) : WithTop ℝ) := by
    have e : ∑ j' ∈ range N, rX a N L i j' * fx a i j' j = ∑ j' ∈ Ioo j N, rX a N L i j' * fx a i j' j := by
      symm
      refine sum_subset (fun x hx => mem_range.2 (mem_Ioo.1 hx).2) fun x hx hx' => ?_
      rw [mem_range] at hx; rw [mem_Ioo] at hx'
      rw [fx_out (by omega), mul_zero]
    rw [e, coe_sum]
    refine sum_congr rfl fun j' hj' => ?_
    have := mem_Ioo.1 hj'
    rw [coe_X (by omega) (by omega)]
    exact tmul_coe _ _
  have e2 : ∑ i' ∈ range i, tmul (gR N L (guardedρ a N) i' j) ((guardedρ a N).r i' j i) = ((∑ i' ∈ range N, rR a N L i' j * fr a i' j i : ℝ) : WithTop ℝ) := by
    have e : ∑ i' ∈ range N, rR a N L i' j * fr a i' j i = ∑ i' ∈ range i, rR a N L i' j * fr a i' j i := by
      symm
      refine sum_subset (fun x hx => mem_range.2 (by have := mem_range.1 hx; omega)) fun x hx hx' => ?_
      rw [mem_range] at hx hx'
      rw [fr_out (by omega), mul_zero]
    rw [e, coe_sum]
    refine sum_congr rfl fun i' hi' => ?_
    have := mem_range.1 hi'
    rw [coe_R (by omega) (by omega)]
    exact tmul_coe _ _
  have e0 : (if i = 0 ∧ j = L then 1 else 0 : WithTop ℝ) = ((if i = 0 ∧ j = L then 1 else 0 : ℝ) : WithTop ℝ) := by split_ifs <;> rfl
  rw [coe_R hij hj, e1, e2, e0, ← WithTop.coe_add, ← WithTop.coe_add] at h
  exact WithTop.coe_injective h

theorem rL_eq {i j : ℕ} (hij : i ≤ j) (hj : j < N) : rL a N L i j = ∑ j' ∈ range N, rL a N L i j' * fL a N i j' j + ∑ i' ∈ range N, rX a N L i' j * fxi a i' j i := by
  have h := gL_eq N L (guardedρ a N) i j
  have e1 : ∑ j' ∈ Ioo j N, tmul (gL N L (guardedρ a N) i j') ((guardedρ a N).l i j' j) = ((∑ j' ∈ range N, rL a N L i j' * fL a N i j' j : ℝ) : WithTop ℝ) := by
    have e : ∑ j' ∈ range N, rL a N L i j' * fL a N i j' j = ∑ j' ∈ Ioo j N, rL a N L i j' * fL a N i j' j := by
      symm
      refine sum_subset (fun x hx => mem_range.2 (mem_Ioo.1 hx).2) fun x hx hx' => ?_
      rw [mem_range] at hx; rw [mem_Ioo] at hx'
      rw [fL_out (by omega), mul_zero]
    rw [e, coe_sum]
    refine sum_congr rfl fun j' hj' => ?_
    have := mem_Ioo.1 hj'
    rw [coe_L (by omega) (by omega)]
    exact tmul_coe _ _
  have e2 : ∑ i' ∈ range i, tmul (gX N L (guardedρ a N) i' j) ((guardedρ a N).x i' j (i - 1)) = ((∑ i' ∈ range N, rX a N L i' j * fxi a i' j i : ℝ) : WithTop ℝ) := by
    have e : ∑ i' ∈ range N, rX a N L i' j * fxi a i' j i = ∑ i' ∈ range i, rX a N L i' j * fxi a i' j i := by
      symm
      refine sum_subset (fun x hx => mem_range.2 (by have := mem_range.1 hx; omega)) fun x hx hx' => ?_
      rw [mem_range] at hx hx'
      rw [fxi, if_neg (by omega), mul_zero]
    rw [e, coe_sum]
    refine sum_congr rfl fun i' hi' => ?_
    have := mem_range.1 hi'
    rw [coe_X (by omega) (by omega), fxi, if_pos this]
    exact tmul_coe _ _
  rw [coe_L hij hj, e1, e2, ← WithTop.coe_add] at h
  exact WithTop.coe_injective h

/-! ### The shares -/

variable {h₀ m₀ : ℕ}

/-- The part of the weight of the trees with a single root over the first `k` words that contain the arc. -/
def shT (a : ℕ → ℕ → ℝ) (h₀ m₀ k : ℕ) : ℝ := sh (wT a k) (wT (cutArc a h₀ m₀) k)

/-- The part of a span; at the root, of what is below it. -/
def sR (a : ℕ → ℕ → ℝ) (h₀ m₀ i j : ℕ) : ℝ := if i = 0 then shT a h₀ m₀ j else shR a h₀ m₀ i j
def sX (a : ℕ → ℕ → ℝ) (h₀ m₀ i j : ℕ) : ℝ := if i = 0 then shL a h₀ m₀ 1 j else shX a h₀ m₀ i j

theorem shT_zero : shT a h₀ m₀ 0 = 0 := by
  rw [shT, wT, wT, Ioc_self, sum_empty, sum_empty, sh]; simp

theorem shT_eq (ha : ∀ x y, 0 ≤ a x y) (hne : h₀ ≠ m₀) (k : ℕ) : shT a h₀ m₀ k =
    ∑ m ∈ Ioc 0 k, wL a 1 m * a 0 m * wR a m k / wT a k * (at1 h₀ m₀ 0 m + shL a h₀ m₀ 1 m + shR a h₀ m₀ m k) := by
  rw [shT, wT, wT]
  refine sum_share _ fun m hm => ?_
  have hm := mem_Ioc.1 hm
  have hL0 := wL_nonneg (cut_nonneg (h₀ := h₀) (m₀ := m₀) ha) 1 m
  have hLm := wL_mono (cut_nonneg (h₀ := h₀) (m₀ := m₀) ha) (cut_le ha) 1 m
  have hs := sh_mul hL0 hLm
  have hu : wL a 1 m * a 0 m - wL (cutArc a h₀ m₀) 1 m * cutArc a h₀ m₀ 0 m = wL a 1 m * a 0 m * (at1 h₀ m₀ 0 m + shL a h₀ m₀ 1 m) := by
    by_cases hc : 0 = h₀ ∧ m = m₀
    · have e : wL (cutArc a h₀ m₀) 1 m = wL a 1 m := cut_L (by omega) (by omega)
      rw [at1, if_pos hc, cutArc, if_pos hc, shL, e, sh, sub_self, zero_div]
      ring
    · rw [at1, if_neg hc, cut_eq hc, zero_add, shL]
      have : wL a 1 m * a 0 m * sh (wL a 1 m) (wL (cutArc a h₀ m₀) 1 m) = wL a 1 m * sh (wL a 1 m) (wL (cutArc a h₀ m₀) 1 m) * a 0 m := by ring
      rw [this, hs]; ring
  refine term_share (mul_nonneg hL0 (cut_nonneg ha 0 m)) (mul_le_mul hLm (cut_le ha 0 m) (cut_nonneg ha 0 m) (wL_nonneg ha 1 m)) (wR_nonneg (cut_nonneg ha) m k)
    (wR_mono (cut_nonneg ha) (cut_le ha) m k) ?_ hu
  by_cases hc : m ≤ h₀ ∧ h₀ ≤ k ∧ m ≤ m₀ ∧ m₀ ≤ k
  · left
    rw [cut_L (by omega) (by omega), cut_eq (by omega)]
  · right
    exact cut_R (by omega) hc

theorem sR_range (ha : ∀ x y, 0 ≤ a x y) (hne : h₀ ≠ m₀) {i j : ℕ} (hj : j < N) : sR a h₀ m₀ i j =
    ∑ m ∈ range N, fr a i j m * (at1 h₀ m₀ i m + sX a h₀ m₀ i m + sR a h₀ m₀ m j) := by
  by_cases hi : i = 0
  · subst hi
    rw [sR, if_pos rfl, shT_eq ha hne]
    have e : ∑ m ∈ range N, fr a 0 j m * (at1 h₀ m₀ 0 m + sX a h₀ m₀ 0 m + sR a h₀ m₀ m j) =
        ∑ m ∈ Ioc 0 j, fr a 0 j m * (at1 h₀ m₀ 0 m + sX a h₀ m₀ 0 m + sR a h₀ m₀ m j) := by
      symm
      refine sum_subset (fun x hx => mem_range.2 (by have := mem_Ioc.1 hx; omega)) fun x hx hx' => ?_
      rw [mem_Ioc] at hx'
      rw [fr_out hx', zero_mul]
    rw [e]
    refine sum_congr rfl fun m hm => ?_
    have hm := mem_Ioc.1 hm
    rw [fr, if_pos rfl, tt, if_pos hm, sX, if_pos rfl, sR, if_neg (by omega)]
  · rw [sR, if_neg hi, shR_range ha hne hj]
    refine sum_congr rfl fun m _ => ?_
    by_cases hm : i < m ∧ m ≤ j
    · rw [fr, if_neg hi, sX, if_neg hi, sR, if_neg (by omega)]
    · rw [fr_out hm, tr, if_neg hm, zero_mul, zero_mul]

theorem shL_range' (ha : ∀ x y, 0 ≤ a x y) (hne : h₀ ≠ m₀) {i j : ℕ} (hi : i ≠ 0) (hj : j < N) : shL a h₀ m₀ i j =
    ∑ m ∈ range N, fL a N i j m * (at1 h₀ m₀ j m + sX a h₀ m₀ m j + shL a h₀ m₀ i m) := by
  rw [shL_range ha hne hj (by omega)]
  refine sum_congr rfl fun m _ => ?_
  by_cases hm : i ≤ m ∧ m < j
  · rw [fL, if_neg hi, sX, if_neg (by omega)]
  · rw [fL_out hm, tl, if_neg (by omega), zero_mul, zero_mul]

theorem sX_range (ha : ∀ x y, 0 ≤ a x y) (hne : h₀ ≠ m₀) {i j : ℕ} (hj : j < N) : sX a h₀ m₀ i j =
    ∑ m ∈ range N, fx a i j m * sR a h₀ m₀ i m + ∑ m ∈ range N, fxi a i j m * shL a h₀ m₀ m j := by
  by_cases hi : i = 0
  · subst hi
    have e1 : ∑ m ∈ range N, fx a 0 j m * sR a h₀ m₀ 0 m = 0 := by
      refine sum_eq_zero fun m _ => ?_
      by_cases hm : m = 0
      · rw [hm, sR, if_pos rfl, shT_zero, mul_zero]
      · rw [fx, if_pos rfl, if_neg (by omega), zero_mul]
    rw [e1, zero_add, sX, if_pos rfl]
    by_cases hj0 : j = 0
    · rw [shL_out (by omega), sum_eq_zero]
      intro m _
      rw [shL_out (by omega), mul_zero]
    · rw [sum_eq_single 1]
      · rw [fxi, if_pos (by omega), fx, if_pos rfl, if_pos (by omega), one_mul]
      · intro m _ hm
        rw [fxi]
        split_ifs with h
        · rw [fx, if_pos rfl, if_neg (by omega), zero_mul]
        · rw [zero_mul]
      · intro h; exact absurd (mem_range.2 (by omega)) h
  · rw [sX, if_neg hi, shX_range ha hne hj]
    congr 1
    · refine sum_congr rfl fun m _ => ?_
      rw [fx, if_neg hi, sR, if_neg hi]
    · refine sum_congr rfl fun m _ => ?_
      rw [fxi, txi, fx, if_neg hi]

theorem rL_root {j : ℕ} : rL a N L 0 j = 0 := by
  rw [rL, gL0 atRoot_guarded _ j rfl]; rfl

/-- **The gradient of the arc from `h₀` to `m₀` is the share of the trees that contain it.** -/
theorem share_grad (ha : ∀ x y, 0 ≤ a x y) (hne : h₀ ≠ m₀) (hh : h₀ < N) (hm : m₀ < N) (hL : L < N) :
    shT a h₀ m₀ L = ∑ j ∈ range N, rR a N L h₀ j * fr a h₀ j m₀ + ∑ i ∈ range N, rL a N L i h₀ * fL a N i h₀ m₀ := by
  have key := adjoint N (rX := rX a N L) (rR := rR a N L) (rL := rL a N L) (qX := sX a h₀ m₀) (qR := sR a h₀ m₀) (qL := shL a h₀ m₀)
    (δ := fun i j => if i = 0 ∧ j = L then 1 else 0) (s := at1 h₀ m₀) (tx := fx a) (tr := fr a) (tl := fL a N) (ξ := fxi a)
    (fun i hi j hj => by
      by_cases hij : i ≤ j
      · rw [rR_eq hij hj]
      · rw [sR, if_neg (by omega), shR_out (by omega), mul_zero, mul_zero])
    (fun i hi j hj => by
      by_cases hij : i ≤ j
      · rw [rL_eq hij hj]
      · rw [shL_out (by omega), mul_zero, mul_zero])
    (fun i hi j hj => by
      by_cases hij : i < j
      · rw [rX_eq hij hj]
      · have : sX a h₀ m₀ i j = 0 := by
          rw [sX]; split_ifs
          · exact shL_out (by omega)
          · exact shX_out (by omega)
        rw [this, mul_zero, mul_zero])
    (fun i hi j hj => by rw [sR_range ha hne hj])
    (fun i hi j hj => by
      by_cases h0 : i = 0
      · subst h0
        rw [rL_root, zero_mul, zero_mul]
      · rw [shL_range' ha hne h0 hj])
    (fun i hi j hj => by rw [sX_range ha hne hj])
  have e0 : ∑ i ∈ range N, ∑ j ∈ range N, (if i = 0 ∧ j = L then (1 : ℝ) else 0) * sR a h₀ m₀ i j = shT a h₀ m₀ L := by
    rw [sum_eq_single 0, sum_eq_single L]
    · simp [sR]
    · intro j _ hj; simp [hj]
    · intro h; exact absurd (mem_range.2 hL) h
    · intro i _ hi; simp [hi]
    · intro h; exact absurd (mem_range.2 (by omega)) h
  rw [e0] at key
  rw [key]
  congr 1
  · rw [swap23]
    have : ∀ i m, ∑ j ∈ range N, rR a N L i j * fr a i j m * at1 h₀ m₀ i m = (∑ j ∈ range N, rR a N L i j * fr a i j m) * at1 h₀ m₀ i m := fun i m => by rw [sum_mul]
    simp only [this]
    exact pick_one _ hh hm
  · rw [sum_comm, swap23]
    have : ∀ j m, ∑ i ∈ range N, rL a N L i j * fL a N i j m * at1 h₀ m₀ j m = (∑ i ∈ range N, rL a N L i j * fL a N i j m) * at1 h₀ m₀ j m := fun i m => by rw [sum_mul]
    simp only [this]
    exact pick_one _ hh hm

theorem right_value (ha : ∀ x y, 0 ≤ a x y) {i j : ℕ} (hij : i < j) (hj : j < N) (hL : L < N) :
    gIR N L (guardedρ a N) i j = ((shT a i j L : ℝ) : WithTop ℝ) := by
  rw [coe_IR hij hj, share_grad ha (by omega) (by omega) hj hL]
  congr 1
  have : ∑ x ∈ range N, rL a N L x i * fL a N x i j = 0 := sum_eq_zero fun x _ => by rw [fL_out (by omega), mul_zero]
  rw [this, add_zero]

theorem left_value (ha : ∀ x y, 0 ≤ a x y) {i j : ℕ} (hij : i < j) (hj : j < N) (hL : L < N) :
    gIL N L (guardedρ a N) i j = ((shT a j i L : ℝ) : WithTop ℝ) := by
  rw [coe_IL hij hj, share_grad ha (by omega) hj (by omega) hL]
  congr 1
  have : ∑ x ∈ range N, rR a N L j x * fr a j x i = 0 := sum_eq_zero fun x _ => by rw [fr_out (by omega), mul_zero]
  rw [this, zero_add]

end DepRootBackwardProofs
