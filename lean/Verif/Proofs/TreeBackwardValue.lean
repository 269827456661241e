import Verif.Proofs.Outside

/-! The weights of spans behind the backward pass of `TreeCRF.marginals`. -/

open Finset Spec

noncomputable section
namespace TreeBackwardProofs
open CKYCRFProofs TreeBackward

/-! ### Weights -/

section weights
variable {NT : ℕ} (x : ℕ → ℕ → ℕ → ℝ)

/-- The total weight of the trees over the words `i … j`. -/
def wt (NT : ℕ) (x : ℕ → ℕ → ℕ → ℝ) (i j : ℕ) : ℝ := inside NT x i (j - i)

/-- The total weight of the labels of the span `i … j`. -/
def lab (NT : ℕ) (x : ℕ → ℕ → ℕ → ℝ) (i j : ℕ) : ℝ := ∑ a ∈ range NT, x i j a

/-- The total weight of the ways to divide the words `i … j` into two trees. -/
def halves (NT : ℕ) (x : ℕ → ℕ → ℕ → ℝ) (i j : ℕ) : ℝ := ∑ m ∈ Ico i j, wt NT x i m * wt NT x (m + 1) j

theorem wt_self (i : ℕ) : wt NT x i i = lab NT x i i := by rw [wt, Nat.sub_self, inside_zero, lab]

theorem wt_step {i j : ℕ} (h : i < j) : wt NT x i j = halves NT x i j * lab NT x i j := by
  obtain ⟨w, rfl⟩ : ∃ w, j = i + (w + 1) := ⟨j - i - 1, by omega⟩
  rw [wt, Nat.add_sub_cancel_left, inside_succ, lab, halves, sum_Ico_eq_sum_range, Nat.add_sub_cancel_left]
  congr 1
  refine sum_congr rfl fun u hu => ?_
  rw [mem_range] at hu
  have e1 : i + u - i = u := by omega
  have e2 : i + (w + 1) - (i + u + 1) = w - u := by omega
  rw [wt, wt, e1, e2]

variable {x} {y : ℕ → ℕ → ℕ → ℝ}

theorem wt_nonneg (hx : ∀ i j a, 0 ≤ x i j a) (i j : ℕ) : 0 ≤ wt NT x i j :=
  sum_nonneg fun t _ => List.prod_nonneg fun r hr => by
    obtain ⟨s, -, rfl⟩ := List.mem_map.1 hr
    exact hx _ _ _

theorem lab_nonneg (hx : ∀ i j a, 0 ≤ x i j a) (i j : ℕ) : 0 ≤ lab NT x i j := sum_nonneg fun a _ => hx i j a

theorem halves_nonneg (hx : ∀ i j a, 0 ≤ x i j a) (i j : ℕ) : 0 ≤ halves NT x i j :=
  sum_nonneg fun m _ => mul_nonneg (wt_nonneg hx _ _) (wt_nonneg hx _ _)

/-- The weight of a span depends on the spans inside it only. -/
theorem wt_congr {i j : ℕ} (hij : i ≤ j) (h : ∀ k l a, i ≤ k → k ≤ l → l ≤ j → x k l a = y k l a) : wt NT x i j = wt NT y i j := by
  refine sum_congr rfl fun t _ => ?_
  congr 1
  refine List.map_congr_left fun s hs => ?_
  have h1 := spans_mem t.1 i s hs
  have h2 := t.2
  exact h _ _ _ h1.1 h1.2.1 (by omega)

theorem halves_congr {i j : ℕ} (h : ∀ k l a, i ≤ k → k ≤ l → l ≤ j → (k, l) ≠ (i, j) → x k l a = y k l a) : halves NT x i j = halves NT y i j := by
  refine sum_congr rfl fun m hm => ?_
  rw [mem_Ico] at hm
  rw [wt_congr (y := y) hm.1 fun k l a h1 h2 h3 => h k l a h1 h2 (by omega) (by simp only [ne_eq, Prod.mk.injEq]; omega),
    wt_congr (y := y) (by omega) fun k l a h1 h2 h3 => h k l a (by omega) h2 h3 (by simp only [ne_eq, Prod.mk.injEq]; omega)]

theorem wt_ne_zero (hx : ∀ i j a, 0 ≤ x i j a) {i j : ℕ} : wt NT x i j ≠ 0 ↔
    ∃ t : Trees NT (j - i + 1), ∀ k l (a : Fin NT), (k, l, a) ∈ t.1.spans i → x k l a ≠ 0 := by
  have : wt NT x i j = 0 ↔ ∀ t : Trees NT (j - i + 1), ((t.1.spans i).map fun s => x s.1 s.2.1 s.2.2).prod = 0 := by
    rw [wt, inside, sum_eq_zero_iff_of_nonneg]
    · simp
    · intro t _
      refine List.prod_nonneg fun r hr => ?_
      obtain ⟨s, -, rfl⟩ := List.mem_map.1 hr
      exact hx _ _ _
  rw [ne_eq, this]
  simp only [List.prod_eq_zero_iff, List.mem_map, not_forall, Prod.exists, not_exists, not_and]

/-- The words `i … j` can be divided exactly if there is a tree over them with non-zero weights, the whole span aside. -/
theorem halves_ne_zero (hNT : 0 < NT) (hx : ∀ i j a, 0 ≤ x i j a) {i j : ℕ} (hij : i < j) : halves NT x i j ≠ 0 ↔
    ∃ t : Trees NT (j - i + 1), ∀ k l (a : Fin NT), (k, l, a) ∈ t.1.spans i → (k, l) ≠ (i, j) → x k l a ≠ 0 := by
  classical
  let y : ℕ → ℕ → ℕ → ℝ := fun k l a => if (k, l) = (i, j) then 1 else x k l a
  have hy : ∀ i j a, 0 ≤ y i j a := fun k l a => by
    simp only [y]; split_ifs
    · exact zero_le_one
    · exact hx _ _ _
  have e1 : halves NT x i j = halves NT y i j := halves_congr fun k l a _ _ _ h => by simp only [y]; rw [if_neg h]
  have e2 : lab NT y i j = NT := by simp [lab, y]
  have e3 : halves NT x i j ≠ 0 ↔ wt NT y i j ≠ 0 := by
    rw [wt_step y hij, e1, e2]
    simp [hNT.ne']
  rw [e3, wt_ne_zero hy]
  refine exists_congr fun t => forall_congr' fun k => forall_congr' fun l => forall_congr' fun a => forall_congr' fun _ => ?_
  simp only [y]
  by_cases h : (k, l) = (i, j)
  · rw [if_pos h]; simp [h]
  · rw [if_neg h]; simp only [h, ne_eq, not_false_eq_true, forall_true_left]

/-! ### The trees that contain a labelled span -/

open Classical in
/-- The total weight of the trees over the words `i … j` that contain the labelled span. -/
def part (x : ℕ → ℕ → ℕ → ℝ) (i₀ j₀ : ℕ) (a₀ : Fin NT) (i j : ℕ) : ℝ :=
  ∑ t : Trees NT (j - i + 1), if (i₀, j₀, a₀) ∈ t.1.spans i then ((t.1.spans i).map fun s => x s.1 s.2.1 s.2.2).prod else 0

/-- The weights without the labelled span. -/
def cut (x : ℕ → ℕ → ℕ → ℝ) (i₀ j₀ a₀ : ℕ) : ℕ → ℕ → ℕ → ℝ := fun i j a => if i = i₀ ∧ j = j₀ ∧ a = a₀ then 0 else x i j a

variable {i₀ j₀ : ℕ} {a₀ : Fin NT}

theorem wt_part (i j : ℕ) : wt NT x i j = part x i₀ j₀ a₀ i j + wt NT (cut x i₀ j₀ a₀) i j := by
  classical
  rw [wt, inside, part, wt, inside, ← sum_add_distrib]
  refine sum_congr rfl fun t _ => ?_
  split_ifs with h
  · have e : ((t.1.spans i).map fun s => cut x i₀ j₀ a₀ s.1 s.2.1 s.2.2).prod = 0 := List.prod_eq_zero_iff.2 (List.mem_map.2 ⟨_, h, by simp [cut]⟩)
    rw [e, add_zero]
  · rw [zero_add]
    congr 1
    refine List.map_congr_left fun s hs => ?_
    rw [cut, if_neg]
    rintro ⟨rfl, rfl, h3⟩
    exact h (by rw [← Fin.ext h3]; exact hs)

theorem part_nonneg (hx : ∀ i j a, 0 ≤ x i j a) (i j : ℕ) : 0 ≤ part x i₀ j₀ a₀ i j := by
  refine sum_nonneg fun t _ => ?_
  split_ifs
  · refine List.prod_nonneg fun r hr => ?_
    obtain ⟨s, -, rfl⟩ := List.mem_map.1 hr
    exact hx _ _ _
  · exact le_rfl

theorem cut_nonneg (hx : ∀ i j a, 0 ≤ x i j a) (i j a : ℕ) : 0 ≤ cut x i₀ j₀ a₀ i j a := by
  rw [cut]; split_ifs
  · exact le_rfl
  · exact hx _ _ _

theorem part_zero (hx : ∀ i j a, 0 ≤ x i j a) {i j : ℕ} (h : wt NT x i j = 0) : part x i₀ j₀ a₀ i j = 0 := by
  have h1 := wt_part (x := x) (i₀ := i₀) (j₀ := j₀) (a₀ := a₀) i j
  have h2 := part_nonneg (i₀ := i₀) (j₀ := j₀) (a₀ := a₀) hx i j
  have h3 := wt_nonneg (NT := NT) (cut_nonneg (i₀ := i₀) (j₀ := j₀) (a₀ := a₀) hx) i j
  linarith

theorem part_out {i j : ℕ} (hij : i ≤ j) (h : ¬ (i ≤ i₀ ∧ j₀ ≤ j)) : part x i₀ j₀ a₀ i j = 0 := by
  refine sum_eq_zero fun t _ => if_neg fun hm => ?_
  have h1 := spans_mem t.1 i _ hm
  have h2 := t.2
  simp only at h1
  omega

theorem cut_lab {i j : ℕ} (h : (i, j) ≠ (i₀, j₀)) : lab NT (cut x i₀ j₀ a₀) i j = lab NT x i j :=
  sum_congr rfl fun a _ => by rw [cut, if_neg]; rintro ⟨rfl, rfl, -⟩; exact h rfl

/-- A larger span contains the labelled span in one of its halves. -/
theorem part_step {i j : ℕ} (hij : i < j) (h : (i, j) ≠ (i₀, j₀)) : part x i₀ j₀ a₀ i j =
    (∑ m ∈ Ico i j, (part x i₀ j₀ a₀ i m * wt NT x (m + 1) j + wt NT x i m * part x i₀ j₀ a₀ (m + 1) j)) * lab NT x i j := by
  have h1 := wt_part (x := x) (i₀ := i₀) (j₀ := j₀) (a₀ := a₀) i j
  rw [wt_step _ hij, wt_step _ hij, cut_lab h] at h1
  have h2 : part x i₀ j₀ a₀ i j = (halves NT x i j - halves NT (cut x i₀ j₀ a₀) i j) * lab NT x i j := by linarith
  rw [h2, halves, halves, ← sum_sub_distrib]
  congr 1
  refine sum_congr rfl fun m hm => ?_
  rw [mem_Ico] at hm
  have e1 := wt_part (x := x) (i₀ := i₀) (j₀ := j₀) (a₀ := a₀) i m
  have e2 := wt_part (x := x) (i₀ := i₀) (j₀ := j₀) (a₀ := a₀) (m + 1) j
  have e3 : part x i₀ j₀ a₀ i m * part x i₀ j₀ a₀ (m + 1) j = 0 := by
    by_cases hc : i ≤ i₀ ∧ j₀ ≤ m
    · by_cases hc' : m + 1 ≤ i₀ ∧ j₀ ≤ j
      · by_cases hd : i₀ ≤ j₀
        · omega
        · have : part x i₀ j₀ a₀ i m = 0 := sum_eq_zero fun t _ => if_neg fun hm' => by
            have h1 := spans_mem t.1 i _ hm'
            simp only at h1
            omega
          rw [this, zero_mul]
      · rw [part_out (i := m + 1) (by omega) hc', mul_zero]
    · rw [part_out hm.1 hc, zero_mul]
  have e4 : wt NT (cut x i₀ j₀ a₀) i m = wt NT x i m - part x i₀ j₀ a₀ i m := by linarith
  have e5 : wt NT (cut x i₀ j₀ a₀) (m + 1) j = wt NT x (m + 1) j - part x i₀ j₀ a₀ (m + 1) j := by linarith
  rw [e4, e5]
  linear_combination e3 * (-1)

/-- The share of a label in its span. -/
theorem part_self (hx : ∀ i j a, 0 ≤ x i j a) (hij : i₀ ≤ j₀) (h : wt NT x i₀ j₀ ≠ 0) :
    part x i₀ j₀ a₀ i₀ j₀ / wt NT x i₀ j₀ = x i₀ j₀ a₀ / lab NT x i₀ j₀ := by
  have e0 : lab NT x i₀ j₀ = x i₀ j₀ a₀ + lab NT (cut x i₀ j₀ a₀) i₀ j₀ := by
    classical
    rw [lab, lab, ← add_sum_erase _ _ (mem_range.2 a₀.2), ← add_sum_erase (range NT) (fun a => cut x i₀ j₀ a₀ i₀ j₀ a) (mem_range.2 a₀.2)]
    have : cut x i₀ j₀ a₀ i₀ j₀ a₀ = 0 := by simp [cut]
    rw [this, zero_add]
    congr 1
    refine sum_congr rfl fun a ha => ?_
    rw [cut, if_neg]
    rintro ⟨-, -, rfl⟩
    simp at ha
  have h1 := wt_part (x := x) (i₀ := i₀) (j₀ := j₀) (a₀ := a₀) i₀ j₀
  rcases hij.eq_or_lt with rfl | hij
  · rw [wt_self, wt_self] at h1
    rw [wt_self] at h ⊢
    congr 1
    linarith
  · rw [wt_step _ hij, wt_step _ hij] at h1
    rw [wt_step _ hij] at h ⊢
    have e1 : halves NT (cut x i₀ j₀ a₀) i₀ j₀ = halves NT x i₀ j₀ := halves_congr fun k l a _ _ _ hne => by
      rw [cut, if_neg]; rintro ⟨rfl, rfl, -⟩; exact hne rfl
    have h2 : halves NT x i₀ j₀ ≠ 0 := fun h0 => h (by rw [h0, zero_mul])
    have e2 : part x i₀ j₀ a₀ i₀ j₀ = halves NT x i₀ j₀ * x i₀ j₀ a₀ := by
      rw [e1] at h1
      rw [e0] at h1
      linarith
    rw [e2, mul_div_mul_left _ _ h2]

end weights

/-! ### The forward pass -/

/-- The extended real number is the logarithm of the weight. -/
def LogOf (e : EReal) (y : ℝ) : Prop := 0 ≤ y ∧ EReal.exp e = ENNReal.ofReal y

theorem logOf_rel : SRRel sr LogOf where
  mul := by
    rintro a b y z ⟨h1, h2⟩ ⟨h3, h4⟩
    refine ⟨mul_nonneg h1 h3, ?_⟩
    rw [ENNReal.ofReal_mul h1, ← h2, ← h4]
    exact EReal.exp_add a b
  sum := by
    intro as ys hne h
    clear hne
    have key : 0 ≤ ys.sum ∧ (as.map EReal.exp).sum = ENNReal.ofReal ys.sum := by
      induction h with
      | nil => simp
      | cons h _ ih =>
        rw [List.sum_cons, List.map_cons, List.sum_cons, ih.2, h.2, ENNReal.ofReal_add h.1 ih.1]
        exact ⟨add_nonneg h.1 ih.1, rfl⟩
    refine ⟨key.1, ?_⟩
    rw [← key.2]
    simp [sr, Semirings.logE]

theorem before_inv {N NT b : ℕ} {red : ℕ → ℕ → ℕ → EReal} {x : ℕ → ℕ → ℕ → ℝ} (hred : ∀ i j, i ≤ j → j < N → LogOf (red b i j) (∑ a ∈ range NT, x i j a)) :
    ∀ m, m + 1 ≤ N → Inv LogOf N NT N b x (m + 1) (before N red (m + 1)) := by
  intro m
  induction m with
  | zero =>
    intro _ u hu i hi
    obtain rfl : u = 0 := by omega
    simp only [before, Nat.add_sub_cancel, List.range_zero, List.foldl_nil, CKYCRF.init]
    rw [if_pos ⟨by omega, trivial⟩, if_pos ⟨by omega, by omega⟩, inside_zero]
    exact ⟨hred i i le_rfl (by omega), hred i i le_rfl (by omega)⟩
  | succ m ih =>
    intro hm
    have e : before N red (m + 1 + 1) = CKYCRF.step sr N red (before N red (m + 1)) (m + 1) := by
      simp only [before, Nat.add_sub_cancel]
      rw [List.range_succ, List.foldl_append]
      rfl
    rw [e]
    exact step_inv logOf_rel le_rfl red x hred (by omega) (ih (by omega))

theorem product_logOf {N NT b : ℕ} {red : ℕ → ℕ → ℕ → EReal} {x : ℕ → ℕ → ℕ → ℝ} (hred : ∀ i j, i ≤ j → j < N → LogOf (red b i j) (∑ a ∈ range NT, x i j a))
    {i j m : ℕ} (h1 : i ≤ m) (h2 : m < j) (h3 : j < N) :
    LogOf (product N red (j - i) b i (m - i)) (wt NT x i m * wt NT x (m + 1) j) := by
  have h := before_inv hred (j - i - 1) (by omega)
  have e : j - i - 1 + 1 = j - i := by omega
  rw [e] at h
  refine logOf_rel.mul (h (m - i) (by omega) i (by omega)).1 ?_
  have := (h (j - (m + 1)) (by omega) (m + 1) (by omega)).2
  have e1 : m + 1 + (j - (m + 1)) = j - i + i := by omega
  have e2 : N - 1 - (j - (m + 1)) = N - (j - i) + (m - i) := by omega
  rwa [e1, e2] at this

theorem dot_logOf {N NT b : ℕ} {red : ℕ → ℕ → ℕ → EReal} {x : ℕ → ℕ → ℕ → ℝ} (hred : ∀ i j, i ≤ j → j < N → LogOf (red b i j) (∑ a ∈ range NT, x i j a))
    {i j : ℕ} (h2 : i < j) (h3 : j < N) : LogOf (dotAt N red (j - i) b i) (halves NT x i j) := by
  rw [dotAt, SR.dot, zipWith_map, halves, sum_Ico_eq_sum_range]
  refine logOf_rel.sum_range (by omega) fun u hu => ?_
  have := product_logOf hred (i := i) (j := j) (m := i + u) (by omega) (by omega) h3
  rwa [Nat.add_sub_cancel_left] at this

/-! ### Slopes -/

theorem slope_real {t r : EReal} {y z : ℝ} (ht : LogOf t y) (hr : LogOf r z) (hz : z ≠ 0) : Slope.plain t r = IEEE.ofReal (y / z) := by
  obtain ⟨h1, h2⟩ := ht
  obtain ⟨h3, h4⟩ := hr
  have hz' : 0 < z := lt_of_le_of_ne h3 (Ne.symm hz)
  have r1 : r ≠ ⊥ := fun h => by
    rw [h, EReal.exp_bot] at h4
    exact absurd (ENNReal.ofReal_eq_zero.1 h4.symm) (not_le.2 hz')
  have r2 : r ≠ ⊤ := fun h => by rw [h, EReal.exp_top] at h4; exact ENNReal.ofReal_ne_top h4.symm
  have t2 : t ≠ ⊤ := fun h => by rw [h, EReal.exp_top] at h2; exact ENNReal.ofReal_ne_top h2.symm
  have e : IEEE.sub (some t) (some r) = some (t + -r) := by
    rw [IEEE.sub]
    simp only [Option.map_some, IEEE.add]
    rw [if_neg]
    simp [t2, r1]
  rw [Slope.plain, e, IEEE.exp, EReal.exp_add, EReal.exp_neg, h2, h4, ← ENNReal.ofReal_inv_of_pos hz', ← ENNReal.ofReal_mul h1, IEEE.ofReal,
    ← div_eq_mul_inv]
  congr 1
  rw [EReal.coe_ennreal_ofReal, max_eq_left (div_nonneg h1 h3)]

theorem bot_of_zero {r : EReal} (hr : LogOf r 0) : r = ⊥ := by
  have := hr.2
  rwa [ENNReal.ofReal_zero, EReal.exp_eq_zero_iff] at this

theorem plain_nan : Slope.plain ⊥ ⊥ = none := by
  simp [Slope.plain, IEEE.sub, IEEE.add, IEEE.exp]

theorem guarded_real {t r : EReal} {y z : ℝ} (ht : LogOf t y) (hr : LogOf r z) (h : z = 0 → y = 0) : Slope.guarded t r = IEEE.ofReal (y / z) := by
  by_cases hz : z = 0
  · obtain rfl := h hz
    subst hz
    rw [bot_of_zero ht, bot_of_zero hr]
    simp [Slope.guarded, IEEE.sub, IEEE.add, IEEE.exp, IEEE.ofReal]
  · have r1 : r ≠ ⊥ := fun h => by
      have := hr.2
      rw [h, EReal.exp_bot] at this
      exact hz (le_antisymm (ENNReal.ofReal_eq_zero.1 this.symm) hr.1)
    have : Slope.guarded t r = Slope.plain t r := by rw [Slope.guarded, if_neg r1]; rfl
    rw [this, slope_real ht hr hz]

/-! ### The gradients -/

section values
variable {NT N L b : ℕ} {x : ℕ → ℕ → ℕ → ℝ} {red : ℕ → ℕ → ℕ → EReal}

theorem halves_term (hx : ∀ i j a, 0 ≤ x i j a) {i j m : ℕ} (h1 : i ≤ m) (h2 : m < j) (h : halves NT x i j = 0) : wt NT x i m * wt NT x (m + 1) j = 0 :=
  (sum_eq_zero_iff_of_nonneg fun m _ => mul_nonneg (wt_nonneg hx i m) (wt_nonneg hx (m + 1) j)).1 h m (mem_Ico.2 ⟨h1, h2⟩)

open Classical in
/-- The factors with the plain slope: NaN if the larger span cannot be divided. -/
def plainFactor (NT : ℕ) (x : ℕ → ℕ → ℕ → ℝ) (i j m : ℕ) : WithTop ℝ :=
  if halves NT x i j = 0 then ⊤ else (ratio (wt NT x) (halves NT x) i j m : ℝ)

theorem plain_factor (hx : ∀ i j a, 0 ≤ x i j a) (hred : ∀ i j, i ≤ j → j < N → LogOf (red b i j) (∑ a ∈ range NT, x i j a)) (i j m : ℕ) (h1 : i ≤ m) (h2 : m < j)
    (h3 : j < N) : Slope.plain (product N red (j - i) b i (m - i)) (dotAt N red (j - i) b i) = fl (plainFactor NT x i j m) := by
  have k1 := product_logOf hred h1 h2 h3
  have k2 := dot_logOf hred (by omega) h3 (i := i)
  rw [plainFactor]
  split_ifs with h
  · rw [h] at k2
    rw [halves_term hx h1 h2 h] at k1
    rw [bot_of_zero k1, bot_of_zero k2, plain_nan]; rfl
  · rw [slope_real k1 k2 h]; rfl

theorem guarded_factor (hx : ∀ i j a, 0 ≤ x i j a) (hred : ∀ i j, i ≤ j → j < N → LogOf (red b i j) (∑ a ∈ range NT, x i j a)) (i j m : ℕ) (h1 : i ≤ m) (h2 : m < j)
    (h3 : j < N) : Slope.guarded (product N red (j - i) b i (m - i)) (dotAt N red (j - i) b i) = fl (ratio (wt NT x) (halves NT x) i j m : ℝ) := by
  rw [guarded_real (product_logOf hred h1 h2 h3) (dot_logOf hred (by omega) h3 (i := i)) fun h => halves_term hx h1 h2 h]; rfl

/-- The gradient of a span times the softmax of the label is the share of the trees of the sentence with the labelled span. -/
theorem value (hx : ∀ i j a, 0 ≤ x i j a) (hL : L ≤ N) {i j : ℕ} (hij : i ≤ j) (hj : j < N) (a : Fin NT) (hroot : j < L → wt NT x 0 (L - 1) ≠ 0) :
    gamR N L (ratio (wt NT x) (halves NT x)) i j * (x i j a / lab NT x i j) = if j < L then part x i j a 0 (L - 1) / wt NT x 0 (L - 1) else 0 := by
  have k := dual (N := N) (L := L) (i₀ := i) (j₀ := j) (wt NT x) (halves NT x) (lab NT x) (part x i j a) hL hj hij (wt_nonneg hx)
    (fun i' j' h1 h2 _ h3 => wt_step x (by simp only [ne_eq, Prod.mk.injEq] at h3; omega)) (fun i' j' h => part_zero hx h) (fun i' j' h h' => part_out h h')
    (fun i' j' h1 h2 _ h3 => part_step (by simp only [ne_eq, Prod.mk.injEq] at h3; omega) h3) hroot
  rw [← k]
  by_cases hw : wt NT x i j = 0
  · by_cases hr : i = 0 ∧ j + 1 = L
    · refine absurd hw ?_
      have := hroot (by omega)
      rw [hr.1]
      have e : L - 1 = j := by omega
      rwa [e] at this
    · rw [gamR_zero _ _ hw hr, zero_mul, zero_mul]
  · rw [part_self hx hij hw]

end values

end TreeBackwardProofs
