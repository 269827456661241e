import Verif.Proofs.DepBackwardValue

/-! The backward pass of `DependencyCRF.marginals`: its factors, where it is NaN, and its values elsewhere. -/

open Finset DepBackward Spec Eisner
open TreeBackwardProofs (fl tmul LogOf logOf_rel tmul_coe top_tmul tmul_top tmul_eq_top slope_real guarded_real bot_of_zero plain_nan)

noncomputable section
namespace DepBackwardProofs

/-! ### The charts -/

section charts
open DepTree DepTreeProofs CKYCRFProofs
variable {α R : Type} [CommSemiring R] {S : SR α} {ρ : α → R → Prop} {ω : R} {w : ℕ → ℕ → R} {N b : ℕ} {arc : ℕ → ℕ → ℕ → α}

/-- All spans are correct: complete spans up to width `kc`, incomplete spans up to width `ki`. -/
structure Full (ρ : α → R → Prop) (ω : R) (w : ℕ → ℕ → R) (N b kc ki : ℕ) (st : Charts α) : Prop where
  acr : ∀ v ≤ kc, ∀ i, i + v < N → ρ (st.acr b i v) (CR ω w i v)
  acl : ∀ v ≤ kc, ∀ i, i + v < N → ρ (st.acl b i v) (CL ω w (i + v) v)
  bcr : ∀ v ≤ kc, ∀ i, i + v < N → ρ (st.bcr b (i + v) (N - 1 - v)) (CR ω w i v)
  bcl : ∀ v ≤ kc, ∀ i, i + v < N → ρ (st.bcl b (i + v) (N - 1 - v)) (CL ω w (i + v) v)
  air : ∀ v ≤ ki, 1 ≤ v → ∀ i, i + v < N → ρ (st.air b i v) (IR ω w i v)
  bil : ∀ v ≤ ki, 1 ≤ v → ∀ i, i + v < N → ρ (st.bil b (i + v) (N - 1 - v)) (IL ω w (i + v) v)

/-- The terms of `dot(ACR, BCL)`. -/
theorem Full.x {k : ℕ} {st : Charts α} (hst : Full ρ ω w N b k k st) (H : SRRel S ρ) (i u : ℕ) (hi : i + (k + 1) < N) (hu : u < k + 1) :
    ρ (S.mul (st.acr b i u) (st.bcl b (k + 1 + i) (N - (k + 1) + u))) (CR ω w i u * CL ω w (i + (k + 1)) (k + 1 - 1 - u)) := by
  refine H.mul (hst.acr u (by omega) i (by omega)) ?_
  have := hst.bcl (k - u) (by omega) (i + u + 1) (by omega)
  have e1 : i + u + 1 + (k - u) = k + 1 + i := by omega
  have e2 : N - 1 - (k - u) = N - (k + 1) + u := by omega
  have e3 : i + (k + 1) = k + 1 + i := by omega
  rw [e1, e2] at this
  rw [e3]
  exact this

theorem Full.xs {k : ℕ} {st : Charts α} (hst : Full ρ ω w N b k k st) (H : SRRel S ρ) (i : ℕ) (hi : i + (k + 1) < N) :
    ρ (S.dot ((List.range (k + 1)).map fun u => st.acr b i u) ((List.range (k + 1)).map fun u => st.bcl b (k + 1 + i) (N - (k + 1) + u)))
      (∑ u ∈ range (k + 1), CR ω w i u * CL ω w (i + (k + 1)) (k + 1 - 1 - u)) := by
  rw [SR.dot, zipWith_map]
  exact H.sum_range (by omega) fun u hu => hst.x H i u hi (by omega)

theorem Full.r {k : ℕ} {st : Charts α} (hst : Full ρ ω w N b k (k + 1) st) (H : SRRel S ρ) (i u : ℕ) (hi : i + (k + 1) < N) (hu : u < k + 1) :
    ρ (S.mul (st.air b i (1 + u)) (st.bcr b (k + 1 + i) (N - (k + 1) + u))) (IR ω w i (1 + u) * CR ω w (i + u + 1) (k - u)) := by
  refine H.mul (hst.air (1 + u) (by omega) (by omega) i (by omega)) ?_
  have := hst.bcr (k - u) (by omega) (i + u + 1) (by omega)
  have e1 : i + u + 1 + (k - u) = k + 1 + i := by omega
  have e2 : N - 1 - (k - u) = N - (k + 1) + u := by omega
  rwa [e1, e2] at this

theorem Full.rs {k : ℕ} {st : Charts α} (hst : Full ρ ω w N b k (k + 1) st) (H : SRRel S ρ) (i : ℕ) (hi : i + (k + 1) < N) :
    ρ (S.dot ((List.range (k + 1)).map fun u => st.air b i (1 + u)) ((List.range (k + 1)).map fun u => st.bcr b (k + 1 + i) (N - (k + 1) + u)))
      (CR ω w i (k + 1)) := by
  rw [SR.dot, zipWith_map, CR_succ]
  exact H.sum_range (by omega) fun u hu => hst.r H i u hi (by omega)

theorem Full.l {k : ℕ} {st : Charts α} (hst : Full ρ ω w N b k (k + 1) st) (H : SRRel S ρ) (i u : ℕ) (hi : i + (k + 1) < N) (hu : u < k + 1) :
    ρ (S.mul (st.acl b i u) (st.bil b (k + 1 + i) (N - (k + 1) - 1 + u))) (CL ω w (i + u) u * IL ω w (i + (k + 1)) (k + 1 - u)) := by
  refine H.mul (hst.acl u (by omega) i (by omega)) ?_
  have := hst.bil (k + 1 - u) (by omega) (by omega) (i + u) (by omega)
  have e1 : i + u + (k + 1 - u) = k + 1 + i := by omega
  have e2 : N - 1 - (k + 1 - u) = N - (k + 1) - 1 + u := by omega
  have e3 : i + (k + 1) = k + 1 + i := by omega
  rw [e1, e2] at this
  rw [e3]
  exact this

theorem Full.ls {k : ℕ} {st : Charts α} (hst : Full ρ ω w N b k (k + 1) st) (H : SRRel S ρ) (i : ℕ) (hi : i + (k + 1) < N) :
    ρ (S.dot ((List.range (k + 1)).map fun u => st.acl b i u) ((List.range (k + 1)).map fun u => st.bil b (k + 1 + i) (N - (k + 1) - 1 + u)))
      (CL ω w (i + (k + 1)) (k + 1)) := by
  rw [SR.dot, zipWith_map, CL_succ _ _ _ _ (by omega)]
  refine H.sum_range (by omega) fun u hu => ?_
  have e0 : i + (k + 1) - (k + 1) + u = i + u := by omega
  rw [e0]
  exact hst.l H i u hi (by omega)

theorem stepI_full (H : SRRel S ρ) (harc : ∀ h m, h < N → m < N → h ≠ m → ρ (arc b h m) (w h m)) {k : ℕ} (hk : k + 1 < N) {st : Charts α} (hst : Full ρ ω w N b k k st) :
    Full ρ ω w N b k (k + 1) (stepI S 0 N arc st (k + 1)) := by
  refine ⟨hst.acr, hst.acl, hst.bcr, hst.bcl, ?_, ?_⟩
  · intro v hv hv1 i hi
    by_cases he : v = k + 1
    · subst he
      simp only [stepI]
      rw [writeA_new _ _ (by omega) (by omega), IR]
      exact H.mul (hst.xs H i hi) (harc _ _ (by omega) (by omega) (by omega))
    · simp only [stepI]
      rw [writeA_old _ _ he]
      exact hst.air v (by omega) hv1 i hi
  · intro v hv hv1 i hi
    by_cases he : v = k + 1
    · subst he
      simp only [stepI]
      rw [writeB_new _ _ (by omega) (by omega), IL]
      have e : i + (k + 1) - (k + 1) = i := by omega
      rw [e]
      exact H.mul (hst.xs H i hi) (harc _ _ hi (by omega) (by omega))
    · simp only [stepI]
      rw [writeB_old _ _ (by omega)]
      exact hst.bil v (by omega) hv1 i hi

theorem stepC_full (H : SRRel S ρ) {k : ℕ} (hk : k + 1 < N) {st : Charts α} (hst : Full ρ ω w N b k (k + 1) st) : Full ρ ω w N b (k + 1) (k + 1) (stepC S 0 N st (k + 1)) := by
  refine ⟨?_, ?_, ?_, ?_, hst.air, hst.bil⟩
  · intro v hv i hi
    by_cases he : v = k + 1
    · subst he
      simp only [stepC]
      rw [writeA_new _ _ (by omega) (by omega)]
      exact hst.rs H i hi
    · simp only [stepC]
      rw [writeA_old _ _ he]
      exact hst.acr v (by omega) i hi
  · intro v hv i hi
    by_cases he : v = k + 1
    · subst he
      simp only [stepC]
      rw [writeA_new _ _ (by omega) (by omega)]
      exact hst.ls H i hi
    · simp only [stepC]
      rw [writeA_old _ _ he]
      exact hst.acl v (by omega) i hi
  · intro v hv i hi
    by_cases he : v = k + 1
    · subst he
      simp only [stepC]
      rw [writeB_new _ _ (by omega) (by omega)]
      exact hst.rs H i hi
    · simp only [stepC]
      rw [writeB_old _ _ (by omega)]
      exact hst.bcr v (by omega) i hi
  · intro v hv i hi
    by_cases he : v = k + 1
    · subst he
      simp only [stepC]
      rw [writeB_new _ _ (by omega) (by omega)]
      exact hst.ls H i hi
    · simp only [stepC]
      rw [writeB_old _ _ (by omega)]
      exact hst.bcl v (by omega) i hi

theorem charts_full (H : SRRel S ρ) (hω : ρ S.one ω) (harc : ∀ h m, h < N → m < N → h ≠ m → ρ (arc b h m) (w h m)) (m : ℕ) (hm : m ≤ N - 1) :
    Full ρ ω w N b m m ((List.range m).foldl (fun st k => step S 0 N arc st (k + 1)) (init S N)) := by
  induction m with
  | zero =>
    simp only [List.range_zero, List.foldl_nil]
    refine ⟨?_, ?_, ?_, ?_, fun v h1 h2 => by omega, fun v h1 h2 => by omega⟩
    · intro v hv i _
      obtain rfl : v = 0 := by omega
      rw [CR_zero]; exact hω
    · intro v hv i _
      obtain rfl : v = 0 := by omega
      rw [CL_zero]; exact hω
    · intro v hv i _
      obtain rfl : v = 0 := by omega
      rw [CR_zero]
      simp only [init, SR.fill, Nat.sub_zero, beq_self_eq_true, if_true]
      exact hω
    · intro v hv i _
      obtain rfl : v = 0 := by omega
      rw [CL_zero]
      simp only [init, SR.fill, Nat.sub_zero, beq_self_eq_true, if_true]
      exact hω
  | succ m ih =>
    rw [List.range_succ, List.foldl_append]
    simp only [List.foldl_cons, List.foldl_nil]
    exact stepC_full H (by omega) (stepI_full H harc (by omega) (ih (by omega)))

end charts

/-! ### The factors -/

variable {a : ℕ → ℕ → ℝ} {N L b : ℕ} {arc : ℕ → ℕ → ℕ → EReal}

/-- The factors where every sum is positive; elsewhere `0 / 0 = 0`. -/
def tx (a : ℕ → ℕ → ℝ) (i j m : ℕ) : ℝ := if i ≤ m ∧ m < j then wR a i m * wL a (m + 1) j / wX a i j else 0
def tr (a : ℕ → ℕ → ℝ) (i j m : ℕ) : ℝ := if i < m ∧ m ≤ j then wX a i m * a i m * wR a m j / wR a i j else 0
def tl (a : ℕ → ℕ → ℝ) (N i j m : ℕ) : ℝ := if i ≤ m ∧ m < j ∧ ¬ (i = 0 ∧ j = N - 1) then wL a i m * (wX a m j * a j m) / wL a i j else 0

/-- With the guard. -/
def guardedτ (a : ℕ → ℕ → ℝ) (N : ℕ) : Factors where
  x i j m := tx a i j m
  r i j m := tr a i j m
  l i j m := tl a N i j m

/-- Without it. -/
def plainτ (a : ℕ → ℕ → ℝ) (N : ℕ) : Factors where
  x i j m := if i < j ∧ wX a i j = 0 then ⊤ else tx a i j m
  r i j m := if i < j ∧ wR a i j = 0 then ⊤ else tr a i j m
  l i j m := if i < j ∧ wL a i j = 0 ∧ ¬ (i = 0 ∧ j = N - 1) then ⊤ else tl a N i j m

/-- What the factors of the model are, for any slope. -/
theorem factors_logOf (harc : ∀ h m, h < N → m < N → h ≠ m → LogOf (arc b h m) (a h m)) (i k u : ℕ) (hu : u < k) (hi : i + k < N) :
    (LogOf (sr.mul ((before N arc k).acr b i u) ((before N arc k).bcl b (k + i) (N - k + u))) (wR a i (i + u) * wL a (i + u + 1) (i + k)) ∧
      LogOf (sr.dot ((List.range k).map fun u => (before N arc k).acr b i u) ((List.range k).map fun u => (before N arc k).bcl b (k + i) (N - k + u))) (wX a i (i + k))) ∧
    (LogOf (sr.mul ((mid N arc k).air b i (1 + u)) ((mid N arc k).bcr b (k + i) (N - k + u))) (wX a i (i + u + 1) * a i (i + u + 1) * wR a (i + u + 1) (i + k)) ∧
      LogOf (sr.dot ((List.range k).map fun u => (mid N arc k).air b i (1 + u)) ((List.range k).map fun u => (mid N arc k).bcr b (k + i) (N - k + u))) (wR a i (i + k))) ∧
    (LogOf (sr.mul ((mid N arc k).acl b i u) ((mid N arc k).bil b (k + i) (N - k - 1 + u))) (wL a i (i + u) * (wX a (i + u) (i + k) * a (i + k) (i + u))) ∧
      LogOf (sr.dot ((List.range k).map fun u => (mid N arc k).acl b i u) ((List.range k).map fun u => (mid N arc k).bil b (k + i) (N - k - 1 + u))) (wL a i (i + k))) := by
  obtain ⟨k, rfl⟩ : ∃ n, k = n + 1 := ⟨k - 1, by omega⟩
  have hω : LogOf sr.one 1 := ⟨zero_le_one, by
    have : (sr.one : EReal) = 0 := by simp [sr, Semirings.logE]
    rw [this]; simp⟩
  have F : Full LogOf (1 : ℝ) a N b k k (before N arc (k + 1)) := charts_full logOf_rel hω harc k (by omega)
  have G : Full LogOf (1 : ℝ) a N b k (k + 1) (mid N arc (k + 1)) := stepI_full logOf_rel harc (by omega) F
  have e1 : wR a i (i + u) = CR 1 a i u := by rw [wR, Nat.add_sub_cancel_left]
  have e2 : wL a (i + u + 1) (i + (k + 1)) = CL 1 a (i + (k + 1)) (k + 1 - 1 - u) := by rw [wL]; congr 1; omega
  have e3 : wX a i (i + (k + 1)) = ∑ u ∈ range (k + 1), CR 1 a i u * CL 1 a (i + (k + 1)) (k + 1 - 1 - u) := by
    rw [wX, sum_Ico_eq_sum_range, Nat.add_sub_cancel_left]
    refine sum_congr rfl fun v hv => ?_
    have hv := mem_range.1 hv
    rw [wR, wL, Nat.add_sub_cancel_left]
    congr 2; omega
  have e4 : wX a i (i + u + 1) * a i (i + u + 1) = IR 1 a i (1 + u) := by
    rw [IR_eq]; have : i + (1 + u) = i + u + 1 := by omega
    rw [this]
  have e5 : wR a (i + u + 1) (i + (k + 1)) = CR 1 a (i + u + 1) (k - u) := by rw [wR]; congr 1; omega
  have e6 : wR a i (i + (k + 1)) = CR 1 a i (k + 1) := by rw [wR, Nat.add_sub_cancel_left]
  have e7 : wL a i (i + u) = CL 1 a (i + u) u := by rw [wL, Nat.add_sub_cancel_left]
  have e8 : wX a (i + u) (i + (k + 1)) * a (i + (k + 1)) (i + u) = IL 1 a (i + (k + 1)) (k + 1 - u) := by
    rw [IL_eq (by omega)]; have : i + (k + 1) - (k + 1 - u) = i + u := by omega
    rw [this]
  have e9 : wL a i (i + (k + 1)) = CL 1 a (i + (k + 1)) (k + 1) := by rw [wL, Nat.add_sub_cancel_left]
  rw [e1, e2, e3, e4, e5, e6, e7, e8, e9]
  exact ⟨⟨F.x logOf_rel i u hi hu, F.xs logOf_rel i hi⟩, ⟨G.r logOf_rel i u hi hu, G.rs logOf_rel i hi⟩, G.l logOf_rel i u hi hu, G.ls logOf_rel i hi⟩

theorem tx_zero (ha : ∀ x y, 0 ≤ a x y) {i j m : ℕ} (h1 : i ≤ m) (h2 : m < j) (h : wX a i j = 0) : wR a i m * wL a (m + 1) j = 0 :=
  (sum_eq_zero_iff_of_nonneg fun m _ => mul_nonneg (wR_nonneg ha i m) (wL_nonneg ha (m + 1) j)).1 h m (mem_Ico.2 ⟨h1, h2⟩)

theorem tr_zero (ha : ∀ x y, 0 ≤ a x y) {i j m : ℕ} (h1 : i < m) (h2 : m ≤ j) (h : wR a i j = 0) : wX a i m * a i m * wR a m j = 0 := by
  rw [wR_step (by omega)] at h
  exact (sum_eq_zero_iff_of_nonneg fun m _ => mul_nonneg (mul_nonneg (wX_nonneg ha i m) (ha _ _)) (wR_nonneg ha m j)).1 h m (mem_Ioc.2 ⟨h1, h2⟩)

theorem tl_zero (ha : ∀ x y, 0 ≤ a x y) {i j m : ℕ} (h1 : i ≤ m) (h2 : m < j) (h : wL a i j = 0) : wL a i m * (wX a m j * a j m) = 0 := by
  rw [wL_step (by omega)] at h
  exact (sum_eq_zero_iff_of_nonneg fun m _ => mul_nonneg (wL_nonneg ha i m) (mul_nonneg (wX_nonneg ha m j) (ha _ _))).1 h m (mem_Ico.2 ⟨h1, h2⟩)

theorem plain_or {t r : EReal} {y z : ℝ} (ht : LogOf t y) (hr : LogOf r z) (h : z = 0 → y = 0) :
    Slope.plain t r = fl (if z = 0 then ⊤ else ((y / z : ℝ) : WithTop ℝ)) := by
  split_ifs with hz
  · rw [hz] at hr; rw [h hz] at ht
    rw [bot_of_zero ht, bot_of_zero hr, plain_nan]; rfl
  · exact slope_real ht hr hz

theorem agree_guarded (ha : ∀ x y, 0 ≤ a x y) (harc : ∀ h m, h < N → m < N → h ≠ m → LogOf (arc b h m) (a h m)) :
    Agree Slope.guarded N b arc (guardedτ a N) where
  x i k u hu hi := by
    have h := (factors_logOf harc i k u hu hi).1
    change Slope.guarded _ _ = _
    rw [guarded_real h.1 h.2 (tx_zero ha (by omega) (by omega))]
    simp only [guardedτ, tx]
    rw [if_pos (by omega)]; rfl
  r i k u hu hi := by
    have h := (factors_logOf harc i k u hu hi).2.1
    change Slope.guarded _ _ = _
    rw [guarded_real h.1 h.2 (tr_zero ha (by omega) (by omega))]
    simp only [guardedτ, tr]
    rw [if_pos (by omega)]; rfl
  l i k u hu hi hk := by
    have h := (factors_logOf harc i k u hu hi).2.2
    change Slope.guarded _ _ = _
    rw [guarded_real h.1 h.2 (tl_zero ha (by omega) (by omega))]
    simp only [guardedτ, tl]
    rw [if_pos (by omega)]; rfl
  l0 m := by simp [guardedτ, tl]

theorem agree_plain (ha : ∀ x y, 0 ≤ a x y) (harc : ∀ h m, h < N → m < N → h ≠ m → LogOf (arc b h m) (a h m)) :
    Agree Slope.plain N b arc (plainτ a N) where
  x i k u hu hi := by
    have h := (factors_logOf harc i k u hu hi).1
    change Slope.plain _ _ = _
    rw [plain_or h.1 h.2 (tx_zero ha (by omega) (by omega))]
    simp only [plainτ, tx]
    rw [if_pos (show i ≤ i + u ∧ i + u < i + k by omega)]
    simp only [show i < i + k by omega, true_and]
  r i k u hu hi := by
    have h := (factors_logOf harc i k u hu hi).2.1
    change Slope.plain _ _ = _
    rw [plain_or h.1 h.2 (tr_zero ha (by omega) (by omega))]
    simp only [plainτ, tr]
    rw [if_pos (show i < i + u + 1 ∧ i + u + 1 ≤ i + k by omega)]
    simp only [show i < i + k by omega, true_and]
  l i k u hu hi hk := by
    have h := (factors_logOf harc i k u hu hi).2.2
    change Slope.plain _ _ = _
    rw [plain_or h.1 h.2 (tl_zero ha (by omega) (by omega))]
    simp only [plainτ, tl]
    rw [if_pos (show i ≤ i + u ∧ i + u < i + k ∧ ¬ (i = 0 ∧ i + k = N - 1) by omega)]
    simp only [show i < i + k by omega, show ¬ (i = 0 ∧ i + k = N - 1) by omega, true_and, not_false_eq_true, and_true]
  l0 m := by simp [plainτ, tl]

/-! ### Where a gradient is NaN -/

section nan
variable {τ : Factors} {bX bR bL : ℕ → ℕ → Prop}

theorem sum_top {ι : Type} {s : Finset ι} {f g : ι → WithTop ℝ} : ∑ x ∈ s, tmul (f x) (g x) = ⊤ ↔ ∃ x ∈ s, f x = ⊤ ∨ g x = ⊤ := by
  rw [WithTop.sum_eq_top]
  simp only [tmul_eq_top]

/-- Which factors are NaN. -/
structure Bad (N : ℕ) (τ : Factors) (bX bR bL : ℕ → ℕ → Prop) : Prop where
  x : ∀ i j m, i ≤ m → m < j → j < N → (τ.x i j m = ⊤ ↔ bX i j)
  r : ∀ i j m, i < m → m ≤ j → j < N → (τ.r i j m = ⊤ ↔ bR i j)
  l : ∀ i j m, i ≤ m → m < j → j < N → (τ.l i j m = ⊤ ↔ bL i j)

def TopR (N : ℕ) (bX bR bL : ℕ → ℕ → Prop) (i j : ℕ) : Prop :=
  ∃ i' j', i' ≤ i ∧ j ≤ j' ∧ j' < N ∧ ((bR i' j' ∧ (i' < i ∨ j < j')) ∨ (j < j' ∧ (bX i' j' ∨ bL i' j')))
def TopL (N : ℕ) (bX bR bL : ℕ → ℕ → Prop) (i j : ℕ) : Prop :=
  ∃ i' j', i' ≤ i ∧ j ≤ j' ∧ j' < N ∧ ((bL i' j' ∧ (i' < i ∨ j < j')) ∨ (i' < i ∧ (bX i' j' ∨ bR i' j')))
def TopX (N : ℕ) (bX bR bL : ℕ → ℕ → Prop) (i j : ℕ) : Prop :=
  ∃ i' j', i' ≤ i ∧ j ≤ j' ∧ j' < N ∧ (bR i' j' ∨ bL i' j' ∨ (bX i' j' ∧ (i' < i ∨ j < j')))

theorem gR_top (h : Bad N τ bX bR bL) {i j : ℕ} (hij : i ≤ j) (hj : j < N) : gR N L τ i j = ⊤ ↔
    (∃ j', j < j' ∧ j' < N ∧ (gX N L τ i j' = ⊤ ∨ bX i j')) ∨ ∃ i' < i, gR N L τ i' j = ⊤ ∨ bR i' j := by
  have h0 : ((if i = 0 ∧ j = L then 1 else 0 : WithTop ℝ)) ≠ ⊤ := by split_ifs <;> simp
  rw [gR_eq, WithTop.add_eq_top, WithTop.add_eq_top, sum_top, sum_top]
  simp only [h0, false_or, mem_Ioo, mem_range]
  refine or_congr (exists_congr fun j' => ?_) (exists_congr fun i' => ?_)
  · rw [and_assoc]
    refine and_congr_right fun h1 => and_congr_right fun h2 => or_congr_right ?_
    exact h.x i j' j hij h1 h2
  · refine and_congr_right fun h1 => or_congr_right ?_
    exact h.r i' j i h1 hij hj

theorem gL_top (h : Bad N τ bX bR bL) {i j : ℕ} (hij : i ≤ j) (hj : j < N) : gL N L τ i j = ⊤ ↔
    (∃ j', j < j' ∧ j' < N ∧ (gL N L τ i j' = ⊤ ∨ bL i j')) ∨ ∃ i' < i, gX N L τ i' j = ⊤ ∨ bX i' j := by
  rw [gL_eq, WithTop.add_eq_top, sum_top, sum_top]
  simp only [mem_Ioo, mem_range]
  refine or_congr (exists_congr fun j' => ?_) (exists_congr fun i' => ?_)
  · rw [and_assoc]
    refine and_congr_right fun h1 => and_congr_right fun h2 => or_congr_right ?_
    exact h.l i j' j hij h1 h2
  · refine and_congr_right fun h1 => or_congr_right ?_
    exact h.x i' j (i - 1) (by omega) (by omega) hj

theorem gIR_top (h : Bad N τ bX bR bL) {i j : ℕ} (hij : i < j) : gIR N L τ i j = ⊤ ↔ ∃ j', j ≤ j' ∧ j' < N ∧ (gR N L τ i j' = ⊤ ∨ bR i j') := by
  rw [gIR, sum_top]
  simp only [mem_Ico, and_assoc]
  refine exists_congr fun j' => and_congr_right fun h1 => and_congr_right fun h2 => or_congr_right ?_
  exact h.r i j' j hij h1 h2

theorem gIL_top (h : Bad N τ bX bR bL) {i j : ℕ} (hij : i < j) (hj : j < N) : gIL N L τ i j = ⊤ ↔ ∃ i' ≤ i, gL N L τ i' j = ⊤ ∨ bL i' j := by
  rw [gIL, sum_top]
  simp only [mem_range, Nat.lt_succ_iff]
  refine exists_congr fun i' => and_congr_right fun h1 => or_congr_right ?_
  exact h.l i' j i h1 hij hj

theorem gX_top (h : Bad N τ bX bR bL) {i j : ℕ} (hij : i < j) (hj : j < N) : gX N L τ i j = ⊤ ↔
    (∃ j', j ≤ j' ∧ j' < N ∧ (gR N L τ i j' = ⊤ ∨ bR i j')) ∨ ∃ i' ≤ i, gL N L τ i' j = ⊤ ∨ bL i' j := by
  rw [gX_eq, WithTop.add_eq_top, gIR_top h hij, gIL_top h hij hj]

theorem tops (h : Bad N τ bX bR bL) (K : ℕ) : ∀ i j, i ≤ j → j < N → i + (N - j) = K →
    (gR N L τ i j = ⊤ ↔ TopR N bX bR bL i j) ∧ (gL N L τ i j = ⊤ ↔ TopL N bX bR bL i j) ∧ (i < j → (gX N L τ i j = ⊤ ↔ TopX N bX bR bL i j)) := by
  induction K using Nat.strong_induction_on with
  | _ K ih =>
  have hRL : ∀ i j, i ≤ j → j < N → i + (N - j) = K → (gR N L τ i j = ⊤ ↔ TopR N bX bR bL i j) ∧ (gL N L τ i j = ⊤ ↔ TopL N bX bR bL i j) := by
    intro i j hij hj hK
    have iX : ∀ i' j', i' ≤ i → j ≤ j' → j' < N → (i' < i ∨ j < j') → i' < j' → (gX N L τ i' j' = ⊤ ↔ TopX N bX bR bL i' j') :=
      fun i' j' h1 h2 h3 h4 h5 => (ih (i' + (N - j')) (by omega) i' j' (by omega) h3 rfl).2.2 h5
    have iR : ∀ i' j', i' ≤ i → j ≤ j' → j' < N → (i' < i ∨ j < j') → (gR N L τ i' j' = ⊤ ↔ TopR N bX bR bL i' j') :=
      fun i' j' h1 h2 h3 h4 => (ih (i' + (N - j')) (by omega) i' j' (by omega) h3 rfl).1
    have iL : ∀ i' j', i' ≤ i → j ≤ j' → j' < N → (i' < i ∨ j < j') → (gL N L τ i' j' = ⊤ ↔ TopL N bX bR bL i' j') :=
      fun i' j' h1 h2 h3 h4 => (ih (i' + (N - j')) (by omega) i' j' (by omega) h3 rfl).2.1
    constructor
    · rw [gR_top h hij hj]
      constructor
      · rintro (⟨j', h1, h2, h3 | h3⟩ | ⟨i', h1, h3 | h3⟩)
        · rw [iX i j' le_rfl h1.le h2 (Or.inr h1) (by omega)] at h3
          obtain ⟨p, q, hp, hq, hqN, c | c | ⟨c, d⟩⟩ := h3
          · exact ⟨p, q, hp, by omega, hqN, Or.inl ⟨c, by omega⟩⟩
          · exact ⟨p, q, hp, by omega, hqN, Or.inr ⟨by omega, Or.inr c⟩⟩
          · exact ⟨p, q, hp, by omega, hqN, Or.inr ⟨by omega, Or.inl c⟩⟩
        · exact ⟨i, j', le_rfl, h1.le, h2, Or.inr ⟨h1, Or.inl h3⟩⟩
        · rw [iR i' j h1.le le_rfl hj (Or.inl h1)] at h3
          obtain ⟨p, q, hp, hq, hqN, ⟨c, d⟩ | ⟨c, d⟩⟩ := h3
          · exact ⟨p, q, by omega, hq, hqN, Or.inl ⟨c, by omega⟩⟩
          · exact ⟨p, q, by omega, hq, hqN, Or.inr ⟨c, d⟩⟩
        · exact ⟨i', j, h1.le, le_rfl, hj, Or.inl ⟨h3, Or.inl h1⟩⟩
      · rintro ⟨p, q, hp, hq, hqN, ⟨c, d⟩ | ⟨c, d | d⟩⟩
        · by_cases hq' : j < q
          · left
            exact ⟨q, hq', hqN, Or.inl ((iX i q le_rfl hq hqN (Or.inr hq') (by omega)).2 ⟨p, q, hp, le_rfl, hqN, Or.inl c⟩)⟩
          · right
            obtain rfl : q = j := by omega
            exact ⟨p, by omega, Or.inr c⟩
        · by_cases hp' : p < i
          · right
            exact ⟨p, hp', Or.inl ((iR p j hp le_rfl hj (Or.inl hp')).2 ⟨p, q, le_rfl, hq, hqN, Or.inr ⟨c, Or.inl d⟩⟩)⟩
          · left
            obtain rfl : p = i := by omega
            exact ⟨q, c, hqN, Or.inr d⟩
        · left
          exact ⟨q, c, hqN, Or.inl ((iX i q le_rfl hq hqN (Or.inr c) (by omega)).2 ⟨p, q, hp, le_rfl, hqN, Or.inr (Or.inl d)⟩)⟩
    · rw [gL_top h hij hj]
      constructor
      · rintro (⟨j', h1, h2, h3 | h3⟩ | ⟨i', h1, h3 | h3⟩)
        · rw [iL i j' le_rfl h1.le h2 (Or.inr h1)] at h3
          obtain ⟨p, q, hp, hq, hqN, ⟨c, d⟩ | ⟨c, d⟩⟩ := h3
          · exact ⟨p, q, hp, by omega, hqN, Or.inl ⟨c, by omega⟩⟩
          · exact ⟨p, q, hp, by omega, hqN, Or.inr ⟨c, d⟩⟩
        · exact ⟨i, j', le_rfl, h1.le, h2, Or.inl ⟨h3, Or.inr h1⟩⟩
        · rw [iX i' j h1.le le_rfl hj (Or.inl h1) (by omega)] at h3
          obtain ⟨p, q, hp, hq, hqN, c | c | ⟨c, d⟩⟩ := h3
          · exact ⟨p, q, by omega, hq, hqN, Or.inr ⟨by omega, Or.inr c⟩⟩
          · exact ⟨p, q, by omega, hq, hqN, Or.inl ⟨c, by omega⟩⟩
          · exact ⟨p, q, by omega, hq, hqN, Or.inr ⟨by omega, Or.inl c⟩⟩
        · exact ⟨i', j, h1.le, le_rfl, hj, Or.inr ⟨h1, Or.inl h3⟩⟩
      · rintro ⟨p, q, hp, hq, hqN, ⟨c, d⟩ | ⟨c, d | d⟩⟩
        · by_cases hp' : p < i
          · right
            exact ⟨p, hp', Or.inl ((iX p j hp le_rfl hj (Or.inl hp') (by omega)).2 ⟨p, q, le_rfl, hq, hqN, Or.inr (Or.inl c)⟩)⟩
          · left
            obtain rfl : p = i := by omega
            exact ⟨q, by omega, hqN, Or.inr c⟩
        · right
          by_cases hq' : j < q
          · exact ⟨p, c, Or.inl ((iX p j hp le_rfl hj (Or.inl c) (by omega)).2 ⟨p, q, le_rfl, hq, hqN, Or.inr (Or.inr ⟨d, Or.inr hq'⟩)⟩)⟩
          · obtain rfl : q = j := by omega
            exact ⟨p, c, Or.inr d⟩
        · right
          exact ⟨p, c, Or.inl ((iX p j hp le_rfl hj (Or.inl c) (by omega)).2 ⟨p, q, le_rfl, hq, hqN, Or.inl d⟩)⟩
  intro i j hij hj hK
  refine ⟨(hRL i j hij hj hK).1, (hRL i j hij hj hK).2, fun hlt => ?_⟩
  have iR : ∀ i' j', i' ≤ i → j ≤ j' → j' < N → (gR N L τ i' j' = ⊤ ↔ TopR N bX bR bL i' j') := by
    intro i' j' h1 h2 h3
    by_cases he : i' + (N - j') = K
    · exact (hRL i' j' (by omega) h3 he).1
    · exact (ih (i' + (N - j')) (by omega) i' j' (by omega) h3 rfl).1
  have iL : ∀ i' j', i' ≤ i → j ≤ j' → j' < N → (gL N L τ i' j' = ⊤ ↔ TopL N bX bR bL i' j') := by
    intro i' j' h1 h2 h3
    by_cases he : i' + (N - j') = K
    · exact (hRL i' j' (by omega) h3 he).2
    · exact (ih (i' + (N - j')) (by omega) i' j' (by omega) h3 rfl).2.1
  rw [gX_top h hlt hj]
  constructor
  · rintro (⟨j', h1, h2, h3 | h3⟩ | ⟨i', h1, h3 | h3⟩)
    · rw [iR i j' le_rfl h1 h2] at h3
      obtain ⟨p, q, hp, hq, hqN, ⟨c, d⟩ | ⟨c, d | d⟩⟩ := h3
      · exact ⟨p, q, hp, by omega, hqN, Or.inl c⟩
      · exact ⟨p, q, hp, by omega, hqN, Or.inr (Or.inr ⟨d, by omega⟩)⟩
      · exact ⟨p, q, hp, by omega, hqN, Or.inr (Or.inl d)⟩
    · exact ⟨i, j', le_rfl, h1, h2, Or.inl h3⟩
    · rw [iL i' j h1 le_rfl hj] at h3
      obtain ⟨p, q, hp, hq, hqN, ⟨c, d⟩ | ⟨c, d | d⟩⟩ := h3
      · exact ⟨p, q, by omega, hq, hqN, Or.inr (Or.inl c)⟩
      · exact ⟨p, q, by omega, hq, hqN, Or.inr (Or.inr ⟨d, by omega⟩)⟩
      · exact ⟨p, q, by omega, hq, hqN, Or.inl d⟩
    · exact ⟨i', j, h1, le_rfl, hj, Or.inr (Or.inl h3)⟩
  · rintro ⟨p, q, hp, hq, hqN, c | c | ⟨c, d⟩⟩
    · left
      by_cases hp' : p < i
      · exact ⟨j, le_rfl, hj, Or.inl ((iR i j le_rfl le_rfl hj).2 ⟨p, q, hp, hq, hqN, Or.inl ⟨c, Or.inl hp'⟩⟩)⟩
      · obtain rfl : p = i := by omega
        exact ⟨q, hq, hqN, Or.inr c⟩
    · right
      by_cases hq' : j < q
      · exact ⟨i, le_rfl, Or.inl ((iL i j le_rfl le_rfl hj).2 ⟨p, q, hp, hq, hqN, Or.inl ⟨c, Or.inr hq'⟩⟩)⟩
      · obtain rfl : q = j := by omega
        exact ⟨p, hp, Or.inr c⟩
    · by_cases hq' : j < q
      · left
        exact ⟨j, le_rfl, hj, Or.inl ((iR i j le_rfl le_rfl hj).2 ⟨p, q, hp, hq, hqN, Or.inr ⟨hq', Or.inl c⟩⟩)⟩
      · right
        exact ⟨i, le_rfl, Or.inl ((iL i j le_rfl le_rfl hj).2 ⟨p, q, hp, hq, hqN, Or.inr ⟨by omega, Or.inl c⟩⟩)⟩

/-- **Where the gradient of an arc from left to right is NaN.** -/
theorem gIR_nan (h : Bad N τ bX bR bL) {i j : ℕ} (hij : i < j) : gIR N L τ i j = ⊤ ↔
    ∃ p q, p ≤ i ∧ j ≤ q ∧ q < N ∧ (bR p q ∨ (j < q ∧ (bX p q ∨ bL p q))) := by
  rw [gIR_top h hij]
  constructor
  · rintro ⟨j', h1, h2, h3 | h3⟩
    · rw [(tops h _ i j' (by omega) h2 rfl).1] at h3
      obtain ⟨p, q, hp, hq, hqN, ⟨c, d⟩ | ⟨c, d⟩⟩ := h3
      · exact ⟨p, q, hp, by omega, hqN, Or.inl c⟩
      · exact ⟨p, q, hp, by omega, hqN, Or.inr ⟨by omega, d⟩⟩
    · exact ⟨i, j', le_rfl, h1, h2, Or.inl h3⟩
  · rintro ⟨p, q, hp, hq, hqN, c | ⟨c, d⟩⟩
    · by_cases hp' : p < i
      · exact ⟨j, le_rfl, by omega, Or.inl ((tops h _ i j hij.le (by omega) rfl).1.2 ⟨p, q, hp, hq, hqN, Or.inl ⟨c, Or.inl hp'⟩⟩)⟩
      · obtain rfl : p = i := by omega
        exact ⟨q, hq, hqN, Or.inr c⟩
    · exact ⟨j, le_rfl, by omega, Or.inl ((tops h _ i j hij.le (by omega) rfl).1.2 ⟨p, q, hp, hq, hqN, Or.inr ⟨c, d⟩⟩)⟩

/-- **Where the gradient of an arc from right to left is NaN.** -/
theorem gIL_nan (h : Bad N τ bX bR bL) {i j : ℕ} (hij : i < j) (hj : j < N) : gIL N L τ i j = ⊤ ↔
    ∃ p q, p ≤ i ∧ j ≤ q ∧ q < N ∧ (bL p q ∨ (p < i ∧ (bX p q ∨ bR p q))) := by
  rw [gIL_top h hij hj]
  constructor
  · rintro ⟨i', h1, h3 | h3⟩
    · rw [(tops h _ i' j (by omega) hj rfl).2.1] at h3
      obtain ⟨p, q, hp, hq, hqN, ⟨c, d⟩ | ⟨c, d⟩⟩ := h3
      · exact ⟨p, q, by omega, by omega, hqN, Or.inl c⟩
      · exact ⟨p, q, by omega, by omega, hqN, Or.inr ⟨by omega, d⟩⟩
    · exact ⟨i', j, h1, le_rfl, hj, Or.inl h3⟩
  · rintro ⟨p, q, hp, hq, hqN, c | ⟨c, d⟩⟩
    · by_cases hq' : j < q
      · exact ⟨i, le_rfl, Or.inl ((tops h _ i j hij.le hj rfl).2.1.2 ⟨p, q, hp, hq, hqN, Or.inl ⟨c, Or.inr hq'⟩⟩)⟩
      · obtain rfl : q = j := by omega
        exact ⟨p, hp, Or.inr c⟩
    · exact ⟨i, le_rfl, Or.inl ((tops h _ i j hij.le hj rfl).2.1.2 ⟨p, q, hp, hq, hqN, Or.inr ⟨c, d⟩⟩)⟩

end nan

theorem bad_guarded : Bad N (guardedτ a N) (fun _ _ => False) (fun _ _ => False) (fun _ _ => False) where
  x i j m _ _ _ := by simp [guardedτ]
  r i j m _ _ _ := by simp [guardedτ]
  l i j m _ _ _ := by simp [guardedτ]

theorem bad_plain : Bad N (plainτ a N) (fun i j => wX a i j = 0) (fun i j => wR a i j = 0) (fun i j => wL a i j = 0 ∧ ¬ (i = 0 ∧ j = N - 1)) where
  x i j m h1 h2 _ := by
    simp only [plainτ, show i < j by omega, true_and]
    split_ifs with h <;> simp [h]
  r i j m h1 h2 _ := by
    simp only [plainτ, show i < j by omega, true_and]
    split_ifs with h <;> simp [h]
  l i j m h1 h2 _ := by
    simp only [plainτ, show i < j by omega, true_and]
    split_ifs with h
    · simp only [h, true_iff]; exact ⟨trivial, not_false⟩
    · simp only [h, WithTop.coe_ne_top]

/-! ### Where it is not NaN, the guard does not matter -/

theorem same_tmul {x x' y y' : WithTop ℝ} (hx : x ≠ ⊤ → x = x') (hy : y ≠ ⊤ → y = y') (h : tmul x y ≠ ⊤) : tmul x y = tmul x' y' := by
  rw [Ne, tmul_eq_top] at h
  push Not at h
  rw [hx h.1, hy h.2]

theorem same_sum {ι : Type} {s : Finset ι} {f g : ι → WithTop ℝ} (h : ∀ x ∈ s, f x ≠ ⊤ → f x = g x) (hs : ∑ x ∈ s, f x ≠ ⊤) : ∑ x ∈ s, f x = ∑ x ∈ s, g x := by
  refine sum_congr rfl fun x hx => h x hx fun hc => hs ?_
  exact WithTop.sum_eq_top.2 ⟨x, hx, hc⟩

theorem same_add {x x' y y' : WithTop ℝ} (hx : x ≠ ⊤ → x = x') (hy : y ≠ ⊤ → y = y') (h : x + y ≠ ⊤) : x + y = x' + y' := by
  rw [Ne, WithTop.add_eq_top] at h
  push Not at h
  rw [hx h.1, hy h.2]

section same
variable {τ τ' : Factors} (hx : ∀ i j m, τ.x i j m ≠ ⊤ → τ.x i j m = τ'.x i j m) (hr : ∀ i j m, τ.r i j m ≠ ⊤ → τ.r i j m = τ'.r i j m)
  (hl : ∀ i j m, τ.l i j m ≠ ⊤ → τ.l i j m = τ'.l i j m)
include hx hr hl

theorem same (K : ℕ) : ∀ i j, i + (N - j) = K → (gR N L τ i j ≠ ⊤ → gR N L τ i j = gR N L τ' i j) ∧ (gL N L τ i j ≠ ⊤ → gL N L τ i j = gL N L τ' i j) ∧
    (j < N → gX N L τ i j ≠ ⊤ → gX N L τ i j = gX N L τ' i j) := by
  induction K using Nat.strong_induction_on with
  | _ K ih =>
  have hRL : ∀ i j, i + (N - j) = K → (gR N L τ i j ≠ ⊤ → gR N L τ i j = gR N L τ' i j) ∧ (gL N L τ i j ≠ ⊤ → gL N L τ i j = gL N L τ' i j) := by
    intro i j hK
    constructor
    · rw [gR_eq, gR_eq]
      refine same_add (same_add (fun _ => rfl) (same_sum fun j' hj' => same_tmul ?_ (hx _ _ _))) (same_sum fun i' hi' => same_tmul ?_ (hr _ _ _))
      · have := mem_Ioo.1 hj'
        exact (ih (i + (N - j')) (by omega) i j' rfl).2.2 (by omega)
      · have := mem_range.1 hi'
        exact (ih (i' + (N - j)) (by omega) i' j rfl).1
    · rw [gL_eq, gL_eq]
      refine same_add (same_sum fun j' hj' => same_tmul ?_ (hl _ _ _)) (same_sum fun i' hi' => same_tmul ?_ (hx _ _ _))
      · have := mem_Ioo.1 hj'
        exact (ih (i + (N - j')) (by omega) i j' rfl).2.1
      · have hi := mem_range.1 hi'
        by_cases hj : j < N
        · exact (ih (i' + (N - j)) (by omega) i' j rfl).2.2 hj
        · intro _
          rw [gX_eq, gX_eq, gIR, gIR, Ico_eq_empty (by omega), sum_empty, sum_empty]
          have := (ih (i' + (N - j)) (by omega) i' j rfl).2.1
          congr 1
          rename_i hne
          rw [gX_eq, gIR, Ico_eq_empty (by omega), sum_empty, zero_add] at hne
          refine same_sum (fun i'' hi'' => same_tmul ?_ (hl _ _ _)) hne
          have := mem_range.1 hi''
          exact (ih (i'' + (N - j)) (by omega) i'' j rfl).2.1
  intro i j hK
  refine ⟨(hRL i j hK).1, (hRL i j hK).2, fun hj => ?_⟩
  rw [gX_eq, gX_eq]
  refine same_add (same_sum fun j' hj' => same_tmul ?_ (hr _ _ _)) (same_sum fun i' hi' => same_tmul ?_ (hl _ _ _))
  · have := mem_Ico.1 hj'
    by_cases he : i + (N - j') = K
    · exact (hRL i j' he).1
    · exact (ih (i + (N - j')) (by omega) i j' rfl).1
  · have := mem_range.1 hi'
    by_cases he : i' + (N - j) = K
    · exact (hRL i' j he).2
    · exact (ih (i' + (N - j)) (by omega) i' j rfl).2.1

theorem gIR_same {i j : ℕ} : gIR N L τ i j ≠ ⊤ → gIR N L τ i j = gIR N L τ' i j :=
  same_sum fun j' _ => same_tmul (same hx hr hl _ i j' rfl).1 (hr _ _ _)

theorem gIL_same {i j : ℕ} : gIL N L τ i j ≠ ⊤ → gIL N L τ i j = gIL N L τ' i j :=
  same_sum fun i' _ => same_tmul (same hx hr hl _ i' j rfl).2.1 (hl _ _ _)

end same

theorem plain_x (i j m : ℕ) : (plainτ a N).x i j m ≠ ⊤ → (plainτ a N).x i j m = (guardedτ a N).x i j m := by
  simp only [plainτ, guardedτ]; split_ifs <;> simp
theorem plain_r (i j m : ℕ) : (plainτ a N).r i j m ≠ ⊤ → (plainτ a N).r i j m = (guardedτ a N).r i j m := by
  simp only [plainτ, guardedτ]; split_ifs <;> simp
theorem plain_l (i j m : ℕ) : (plainτ a N).l i j m ≠ ⊤ → (plainτ a N).l i j m = (guardedτ a N).l i j m := by
  simp only [plainτ, guardedτ]; split_ifs <;> simp

end DepBackwardProofs
