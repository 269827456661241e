import Verif.Proofs.DepBackward
import Verif.Proofs.TreeBackwardValue
import Verif.Proofs.DepTree

/-! The values of the backward pass of `DependencyCRF.marginals`: the shares of the trees with an arc, or NaN. -/

open Finset DepBackward Spec Eisner
open TreeBackwardProofs (fl tmul LogOf)

noncomputable section
namespace DepBackwardProofs

/-! ### The weights of the spans -/

section weights
variable {a c : ℕ → ℕ → ℝ}

/-- The weight of the complete spans with head `i` and last word `j`. -/
def wR (a : ℕ → ℕ → ℝ) (i j : ℕ) : ℝ := CR 1 a i (j - i)

/-- The weight of the complete spans with head `j` and first word `i`. -/
def wL (a : ℕ → ℕ → ℝ) (i j : ℕ) : ℝ := CL 1 a j (j - i)

/-- The weight of the divisions of the words between `i` and `j`. -/
def wX (a : ℕ → ℕ → ℝ) (i j : ℕ) : ℝ := ∑ m ∈ Ico i j, wR a i m * wL a (m + 1) j

theorem wR_self (i : ℕ) : wR a i i = 1 := by rw [wR, Nat.sub_self, CR_zero]

theorem wL_self (i : ℕ) : wL a i i = 1 := by rw [wL, Nat.sub_self, CL_zero]

theorem IR_eq (i k : ℕ) : IR 1 a i k = wX a i (i + k) * a i (i + k) := by
  rw [IR, wX, sum_Ico_eq_sum_range, Nat.add_sub_cancel_left]
  congr 1
  refine sum_congr rfl fun u hu => ?_
  have hu := mem_range.1 hu
  rw [wR, wL, Nat.add_sub_cancel_left]
  congr 2
  omega

theorem IL_eq {j k : ℕ} (h : k ≤ j) : IL 1 a j k = wX a (j - k) j * a j (j - k) := by
  rw [IL, wX, sum_Ico_eq_sum_range]
  congr 1
  have e : j - (j - k) = k := by omega
  rw [e]
  refine sum_congr rfl fun u hu => ?_
  have hu := mem_range.1 hu
  rw [wR, wL, Nat.add_sub_cancel_left]
  congr 2
  omega

theorem wR_step {i j : ℕ} (h : i < j) : wR a i j = ∑ m ∈ Ioc i j, wX a i m * a i m * wR a m j := by
  obtain ⟨n, rfl⟩ : ∃ n, j = i + (n + 1) := ⟨j - i - 1, by omega⟩
  have e : Ioc i (i + (n + 1)) = Ico (i + 1) (i + 1 + (n + 1)) := by ext x; simp only [mem_Ioc, mem_Ico]; omega
  rw [wR, Nat.add_sub_cancel_left, CR_succ, e, sum_Ico_eq_sum_range, Nat.add_sub_cancel_left]
  refine sum_congr rfl fun u hu => ?_
  have hu := mem_range.1 hu
  rw [IR_eq, wR]
  have e1 : i + (1 + u) = i + 1 + u := by omega
  have e2 : i + u + 1 = i + 1 + u := by omega
  have e3 : i + (n + 1) - (i + 1 + u) = n - u := by omega
  rw [e1, e2, e3]

theorem wL_step {i j : ℕ} (h : i < j) : wL a i j = ∑ m ∈ Ico i j, wL a i m * (wX a m j * a j m) := by
  obtain ⟨n, rfl⟩ : ∃ n, j = i + (n + 1) := ⟨j - i - 1, by omega⟩
  rw [wL, Nat.add_sub_cancel_left, CL_succ _ _ _ _ (by omega), sum_Ico_eq_sum_range, Nat.add_sub_cancel_left]
  refine sum_congr rfl fun u hu => ?_
  have hu := mem_range.1 hu
  rw [IL_eq (by omega), wL]
  have e1 : i + (n + 1) - (n + 1) + u = i + u := by omega
  have e2 : i + (n + 1) - (n + 1 - u) = i + u := by omega
  rw [e1, e2, Nat.add_sub_cancel_left]

theorem total_nonneg {W : ℕ → ℕ → ℝ} (h : ∀ x y, 0 ≤ W x y) (n : ℕ) : 0 ≤ total 1 W n :=
  sum_nonneg fun t _ => mul_nonneg (prod_nonneg fun _ _ => h _ _) (by simp)

theorem total_mono {W W' : ℕ → ℕ → ℝ} (h0 : ∀ x y, 0 ≤ W' x y) (h : ∀ x y, W' x y ≤ W x y) (n : ℕ) : total 1 W' n ≤ total 1 W n := by
  refine sum_le_sum fun t _ => ?_
  rw [one_pow, mul_one, mul_one]
  exact prod_le_prod (fun _ _ => h0 _ _) fun _ _ => h _ _

theorem wR_nonneg (h : ∀ x y, 0 ≤ a x y) (i j : ℕ) : 0 ≤ wR a i j := total_nonneg (fun _ _ => h _ _) _

theorem wL_nonneg (h : ∀ x y, 0 ≤ a x y) (i j : ℕ) : 0 ≤ wL a i j := total_nonneg (fun _ _ => h _ _) _

theorem wX_nonneg (h : ∀ x y, 0 ≤ a x y) (i j : ℕ) : 0 ≤ wX a i j := sum_nonneg fun m _ => mul_nonneg (wR_nonneg h i m) (wL_nonneg h (m + 1) j)

theorem wR_mono (h0 : ∀ x y, 0 ≤ c x y) (h : ∀ x y, c x y ≤ a x y) (i j : ℕ) : wR c i j ≤ wR a i j := total_mono (fun _ _ => h0 _ _) (fun _ _ => h _ _) _

theorem wL_mono (h0 : ∀ x y, 0 ≤ c x y) (h : ∀ x y, c x y ≤ a x y) (i j : ℕ) : wL c i j ≤ wL a i j := total_mono (fun _ _ => h0 _ _) (fun _ _ => h _ _) _

theorem wX_mono (h0 : ∀ x y, 0 ≤ c x y) (h : ∀ x y, c x y ≤ a x y) (i j : ℕ) : wX c i j ≤ wX a i j :=
  sum_le_sum fun m _ => mul_le_mul (wR_mono h0 h i m) (wL_mono h0 h (m + 1) j) (wL_nonneg h0 _ _) ((wR_nonneg h0 i m).trans (wR_mono h0 h i m))

theorem wR_congr {i j : ℕ} (hij : i ≤ j) (h : ∀ x y, i ≤ x → x ≤ j → i ≤ y → y ≤ j → c x y = a x y) : wR c i j = wR a i j :=
  total_congr fun x y h1 h2 h3 => h _ _ (by omega) (by omega) (by omega) (by omega)

theorem wL_congr {i j : ℕ} (hij : i ≤ j) (h : ∀ x y, i ≤ x → x ≤ j → i ≤ y → y ≤ j → c x y = a x y) : wL c i j = wL a i j :=
  total_congr fun x y h1 h2 h3 => h _ _ (by omega) (by omega) (by omega) (by omega)

end weights

/-! ### The arc that is left out -/

section cut
variable {a : ℕ → ℕ → ℝ}

/-- The weights without the arc from `h₀` to `m₀`. -/
def cutArc (a : ℕ → ℕ → ℝ) (h₀ m₀ : ℕ) : ℕ → ℕ → ℝ := fun x y => if x = h₀ ∧ y = m₀ then 0 else a x y

variable {h₀ m₀ : ℕ}

theorem cut_nonneg (ha : ∀ x y, 0 ≤ a x y) (x y : ℕ) : 0 ≤ cutArc a h₀ m₀ x y := by
  rw [cutArc]; split_ifs
  exacts [le_rfl, ha x y]

theorem cut_le (ha : ∀ x y, 0 ≤ a x y) (x y : ℕ) : cutArc a h₀ m₀ x y ≤ a x y := by
  rw [cutArc]; split_ifs
  exacts [ha x y, le_rfl]

theorem cut_eq {x y : ℕ} (h : ¬ (x = h₀ ∧ y = m₀)) : cutArc a h₀ m₀ x y = a x y := if_neg h

theorem cut_self : cutArc a h₀ m₀ h₀ m₀ = 0 := if_pos ⟨rfl, rfl⟩

/-- The share of what is lost. -/
def sh (u u' : ℝ) : ℝ := (u - u') / u

theorem sh_mul {u u' : ℝ} (h0 : 0 ≤ u') (h : u' ≤ u) : u * sh u u' = u - u' := by
  rw [sh]
  by_cases hu : u = 0
  · rw [hu] at h ⊢
    rw [le_antisymm h h0]; simp
  · field_simp

theorem prod_share {u u' v v' : ℝ} (hu0 : 0 ≤ u') (hu : u' ≤ u) (hv0 : 0 ≤ v') (hv : v' ≤ v) (h : u' = u ∨ v' = v) :
    u * v - u' * v' = u * v * (sh u u' + sh v v') := by
  have h1 := sh_mul hu0 hu
  have h2 := sh_mul hv0 hv
  have : u * v * (sh u u' + sh v v') = (u * sh u u') * v + u * (v * sh v v') := by ring
  rw [this, h1, h2]
  rcases h with rfl | rfl <;> ring

/-- The part of the weights of the spans with the arc. -/
def shR (a : ℕ → ℕ → ℝ) (h₀ m₀ i j : ℕ) : ℝ := sh (wR a i j) (wR (cutArc a h₀ m₀) i j)
def shL (a : ℕ → ℕ → ℝ) (h₀ m₀ i j : ℕ) : ℝ := sh (wL a i j) (wL (cutArc a h₀ m₀) i j)
def shX (a : ℕ → ℕ → ℝ) (h₀ m₀ i j : ℕ) : ℝ := sh (wX a i j) (wX (cutArc a h₀ m₀) i j)

/-- 1 at the arc. -/
def at1 (h₀ m₀ h m : ℕ) : ℝ := if h = h₀ ∧ m = m₀ then 1 else 0

theorem cut_R {i j : ℕ} (hij : i ≤ j) (h : ¬ (i ≤ h₀ ∧ h₀ ≤ j ∧ i ≤ m₀ ∧ m₀ ≤ j)) : wR (cutArc a h₀ m₀) i j = wR a i j :=
  wR_congr hij fun x y h1 h2 h3 h4 => cut_eq (by omega)

theorem cut_L {i j : ℕ} (hij : i ≤ j) (h : ¬ (i ≤ h₀ ∧ h₀ ≤ j ∧ i ≤ m₀ ∧ m₀ ≤ j)) : wL (cutArc a h₀ m₀) i j = wL a i j :=
  wL_congr hij fun x y h1 h2 h3 h4 => cut_eq (by omega)

theorem cut_X {i j : ℕ} (h : ¬ (i ≤ h₀ ∧ h₀ ≤ j ∧ i ≤ m₀ ∧ m₀ ≤ j) ∨ (h₀ = i ∧ m₀ = j) ∨ (h₀ = j ∧ m₀ = i)) : wX (cutArc a h₀ m₀) i j = wX a i j := by
  refine sum_congr rfl fun m hm => ?_
  have hm := mem_Ico.1 hm
  rw [cut_R (by omega) (by omega), cut_L (by omega) (by omega)]

theorem incomplete_share (ha : ∀ x y, 0 ≤ a x y) {i j h m : ℕ} (he : (h = i ∧ m = j) ∨ (h = j ∧ m = i)) :
    wX a i j * a h m - wX (cutArc a h₀ m₀) i j * cutArc a h₀ m₀ h m = wX a i j * a h m * (at1 h₀ m₀ h m + shX a h₀ m₀ i j) := by
  have h1 := sh_mul (wX_nonneg (cut_nonneg (h₀ := h₀) (m₀ := m₀) ha) i j) (wX_mono (cut_nonneg ha) (cut_le ha) i j)
  by_cases hc : h = h₀ ∧ m = m₀
  · have e : wX (cutArc a h₀ m₀) i j = wX a i j := cut_X (by omega)
    rw [at1, if_pos hc, cutArc, if_pos hc, shX, e, sh, sub_self, zero_div]
    ring
  · rw [at1, if_neg hc, cut_eq hc, zero_add, shX]
    have : wX a i j * a h m * sh (wX a i j) (wX (cutArc a h₀ m₀) i j) = wX a i j * sh (wX a i j) (wX (cutArc a h₀ m₀) i j) * a h m := by ring
    rw [this, h1]; ring

/-- Triple product with at most one changed factor, as shares. -/
theorem term_share {u u' v v' s : ℝ} (hu0 : 0 ≤ u') (hu : u' ≤ u) (hv0 : 0 ≤ v') (hv : v' ≤ v) (h : u' = u ∨ v' = v) (hs : u - u' = u * s) :
    u * v - u' * v' = u * v * (s + sh v v') := by
  have h2 := sh_mul hv0 hv
  have : u * v * (s + sh v v') = (u * s) * v + u * (v * sh v v') := by ring
  rw [this, h2, ← hs]
  rcases h with rfl | rfl <;> ring

theorem sum_share {ι : Type} (s : Finset ι) {f f' t : ι → ℝ} (h : ∀ x ∈ s, f x - f' x = f x * t x) : sh (∑ x ∈ s, f x) (∑ x ∈ s, f' x) = ∑ x ∈ s, f x / (∑ x ∈ s, f x) * t x := by
  rw [sh, ← sum_sub_distrib, sum_div]
  refine sum_congr rfl fun x hx => ?_
  rw [h x hx, mul_div_right_comm]

theorem incomplete_mono (ha : ∀ x y, 0 ≤ a x y) (i j h m : ℕ) : 0 ≤ wX (cutArc a h₀ m₀) i j * cutArc a h₀ m₀ h m ∧
    wX (cutArc a h₀ m₀) i j * cutArc a h₀ m₀ h m ≤ wX a i j * a h m :=
  ⟨mul_nonneg (wX_nonneg (cut_nonneg ha) i j) (cut_nonneg ha h m),
    mul_le_mul (wX_mono (cut_nonneg ha) (cut_le ha) i j) (cut_le ha h m) (cut_nonneg ha h m) (wX_nonneg ha i j)⟩

theorem shR_eq (ha : ∀ x y, 0 ≤ a x y) (hne : h₀ ≠ m₀) {i j : ℕ} (hij : i < j) : shR a h₀ m₀ i j =
    ∑ m ∈ Ioc i j, wX a i m * a i m * wR a m j / wR a i j * (at1 h₀ m₀ i m + shX a h₀ m₀ i m + shR a h₀ m₀ m j) := by
  rw [shR, wR_step hij, wR_step hij]
  refine sum_share _ fun m hm => ?_
  have hm := mem_Ioc.1 hm
  refine term_share (incomplete_mono ha i m i m).1 (incomplete_mono ha i m i m).2 (wR_nonneg (cut_nonneg ha) m j) (wR_mono (cut_nonneg ha) (cut_le ha) m j) ?_
    (incomplete_share ha (Or.inl ⟨rfl, rfl⟩))
  by_cases hc : m ≤ h₀ ∧ h₀ ≤ j ∧ m ≤ m₀ ∧ m₀ ≤ j
  · left
    rw [cut_X (by omega), cut_eq (by omega)]
  · right
    exact cut_R (by omega) hc

theorem shL_eq (ha : ∀ x y, 0 ≤ a x y) (hne : h₀ ≠ m₀) {i j : ℕ} (hij : i < j) : shL a h₀ m₀ i j =
    ∑ m ∈ Ico i j, wL a i m * (wX a m j * a j m) / wL a i j * (at1 h₀ m₀ j m + shX a h₀ m₀ m j + shL a h₀ m₀ i m) := by
  rw [shL, wL_step hij, wL_step hij]
  refine sum_share _ fun m hm => ?_
  have hm := mem_Ico.1 hm
  have := term_share (incomplete_mono (h₀ := h₀) (m₀ := m₀) ha m j j m).1 (incomplete_mono ha m j j m).2 (wL_nonneg (cut_nonneg (h₀ := h₀) (m₀ := m₀) ha) i m)
    (wL_mono (cut_nonneg ha) (cut_le ha) i m) ?_ (incomplete_share ha (Or.inr ⟨rfl, rfl⟩))
  · rw [mul_comm (wL a i m), mul_comm (wL (cutArc a h₀ m₀) i m)]
    exact this
  · by_cases hc : i ≤ h₀ ∧ h₀ ≤ m ∧ i ≤ m₀ ∧ m₀ ≤ m
    · left
      rw [cut_X (by omega), cut_eq (by omega)]
    · right
      exact cut_L (by omega) hc

theorem shX_eq (ha : ∀ x y, 0 ≤ a x y) (hne : h₀ ≠ m₀) (i j : ℕ) : shX a h₀ m₀ i j =
    ∑ m ∈ Ico i j, wR a i m * wL a (m + 1) j / wX a i j * (shR a h₀ m₀ i m + shL a h₀ m₀ (m + 1) j) := by
  refine sum_share _ fun m hm => ?_
  have hm := mem_Ico.1 hm
  refine prod_share (wR_nonneg (cut_nonneg ha) _ _) (wR_mono (cut_nonneg ha) (cut_le ha) _ _) (wL_nonneg (cut_nonneg ha) _ _)
    (wL_mono (cut_nonneg ha) (cut_le ha) _ _) ?_
  by_cases hc : i ≤ h₀ ∧ h₀ ≤ m ∧ i ≤ m₀ ∧ m₀ ≤ m
  · right; exact cut_L (by omega) (by omega)
  · left; exact cut_R (by omega) hc

theorem shR_self (i : ℕ) : shR a h₀ m₀ i i = 0 := by rw [shR, wR_self, wR_self, sh]; simp
theorem shL_self (i : ℕ) : shL a h₀ m₀ i i = 0 := by rw [shL, wL_self, wL_self, sh]; simp

end cut

end DepBackwardProofs
