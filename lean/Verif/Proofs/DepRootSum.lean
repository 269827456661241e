import Verif.Proofs.DepRootBackward

/-! The backward pass of `DependencyCRF.marginals` with a single root: its factors, where it is NaN, and its values elsewhere.

The recursion of Proofs/DepRootBackward.lean is an instance of the one with several roots: the root has no children of its own to the right of its only child, and
the factors of the spans that begin at the root are those of the loop over the words below it. -/

open Finset DepRootBackward Spec Eisner DepBackwardProofs
open DepBackward (sr)
open TreeBackwardProofs (fl tmul LogOf logOf_rel tmul_coe top_tmul tmul_top tmul_eq_top slope_real guarded_real bot_of_zero plain_nan)

noncomputable section
namespace DepRootBackwardProofs

/-! ### The charts -/

section charts
open DepTree DepTreeProofs CKYCRFProofs
variable {α R : Type} [CommSemiring R] {S : SR α} {ρ : α → R → Prop} {ω : R} {w : ℕ → ℕ → R} {N b : ℕ} {arc : ℕ → ℕ → ℕ → α}

/-- The terms of `dot(ACR, BCL)`. -/
theorem inv_x {k : ℕ} {st : Charts α} (hst : Inv ρ ω w 1 N (N - 1) b k k st) (H : SRRel S ρ) (i u : ℕ) (h1 : 1 ≤ i) (hi : i + (k + 1) < N) (hu : u < k + 1) :
    ρ (S.mul (st.acr b i u) (st.bcl b (k + 1 + i) (N - (k + 1) + u))) (CR ω w i u * CL ω w (i + (k + 1)) (k + 1 - 1 - u)) := by
  refine H.mul (hst.acr u (by omega) i h1 (by omega)) ?_
  have := hst.bcl (k - u) (by omega) (i + u + 1) (by omega) (by omega) (by omega)
  have e1 : i + u + 1 + (k - u) = k + 1 + i := by omega
  have e2 : N - 1 - (k - u) = N - (k + 1) + u := by omega
  have e3 : i + (k + 1) = k + 1 + i := by omega
  rw [e1, e2] at this
  rw [e3]
  exact this

theorem inv_xs {k : ℕ} {st : Charts α} (hst : Inv ρ ω w 1 N (N - 1) b k k st) (H : SRRel S ρ) (i : ℕ) (h1 : 1 ≤ i) (hi : i + (k + 1) < N) :
    ρ (S.dot ((List.range (k + 1)).map fun u => st.acr b i u) ((List.range (k + 1)).map fun u => st.bcl b (k + 1 + i) (N - (k + 1) + u)))
      (∑ u ∈ range (k + 1), CR ω w i u * CL ω w (i + (k + 1)) (k + 1 - 1 - u)) := by
  rw [SR.dot, zipWith_map]
  exact H.sum_range (by omega) fun u hu => inv_x hst H i u h1 hi (by omega)

theorem inv_r {k : ℕ} {st : Charts α} (hst : Inv ρ ω w 1 N (N - 1) b k (k + 1) st) (H : SRRel S ρ) (i u : ℕ) (h1 : 1 ≤ i) (hi : i + (k + 1) < N) (hu : u < k + 1) :
    ρ (S.mul (st.air b i (1 + u)) (st.bcr b (k + 1 + i) (N - (k + 1) + u))) (IR ω w i (1 + u) * CR ω w (i + u + 1) (k - u)) := by
  refine H.mul (hst.air (1 + u) (by omega) (by omega) i h1 (by omega)) ?_
  have := hst.bcr (k - u) (by omega) (i + u + 1) (by omega) (by omega)
  have e1 : i + u + 1 + (k - u) = k + 1 + i := by omega
  have e2 : N - 1 - (k - u) = N - (k + 1) + u := by omega
  rwa [e1, e2] at this

theorem inv_rs {k : ℕ} {st : Charts α} (hst : Inv ρ ω w 1 N (N - 1) b k (k + 1) st) (H : SRRel S ρ) (i : ℕ) (h1 : 1 ≤ i) (hi : i + (k + 1) < N) :
    ρ (S.dot ((List.range (k + 1)).map fun u => st.air b i (1 + u)) ((List.range (k + 1)).map fun u => st.bcr b (k + 1 + i) (N - (k + 1) + u)))
      (CR ω w i (k + 1)) := by
  rw [SR.dot, zipWith_map, CR_succ]
  exact H.sum_range (by omega) fun u hu => inv_r hst H i u h1 hi (by omega)

theorem inv_l {k : ℕ} {st : Charts α} (hst : Inv ρ ω w 1 N (N - 1) b k (k + 1) st) (H : SRRel S ρ) (i u : ℕ) (h1 : 1 ≤ i) (hi : i + (k + 1) < N) (hu : u < k + 1) :
    ρ (S.mul (st.acl b i u) (st.bil b (k + 1 + i) (N - (k + 1) - 1 + u))) (CL ω w (i + u) u * IL ω w (i + (k + 1)) (k + 1 - u)) := by
  refine H.mul (hst.acl u (by omega) i h1 h1 (by omega)) ?_
  have := hst.bil (k + 1 - u) (by omega) (by omega) (i + u) (by omega) (by omega) (by omega)
  have e1 : i + u + (k + 1 - u) = k + 1 + i := by omega
  have e2 : N - 1 - (k + 1 - u) = N - (k + 1) - 1 + u := by omega
  have e3 : i + (k + 1) = k + 1 + i := by omega
  rw [e1, e2] at this
  rw [e3]
  exact this

theorem inv_ls {k : ℕ} {st : Charts α} (hst : Inv ρ ω w 1 N (N - 1) b k (k + 1) st) (H : SRRel S ρ) (i : ℕ) (h1 : 1 ≤ i) (hi : i + (k + 1) < N) :
    ρ (S.dot ((List.range (k + 1)).map fun u => st.acl b i u) ((List.range (k + 1)).map fun u => st.bil b (k + 1 + i) (N - (k + 1) - 1 + u)))
      (CL ω w (i + (k + 1)) (k + 1)) := by
  rw [SR.dot, zipWith_map, CL_succ _ _ _ _ (by omega)]
  refine H.sum_range (by omega) fun u hu => ?_
  have e0 : i + (k + 1) - (k + 1) + u = i + u := by omega
  rw [e0]
  exact inv_l hst H i u h1 hi (by omega)

theorem charts_at (H : SRRel S ρ) (hω : ρ S.one ω) (harc : ∀ h m, h < N → m < N → h ≠ m → ρ (arc b h m) (w h m)) (m : ℕ) (hm : m ≤ N - 2) :
    Inv ρ ω w 1 N (N - 1) b m m ((List.range m).foldl (fun st k => step S 1 N arc st (k + 1)) (init S N)) := by
  induction m with
  | zero =>
    simp only [List.range_zero, List.foldl_nil]
    refine ⟨?_, ?_, ?_, ?_, fun v h1 h2 => by omega, fun v h1 h2 => by omega⟩
    · intro v hv i _ _
      obtain rfl : v = 0 := by omega
      rw [CR_zero]; exact hω
    · intro v hv i _ _ _
      obtain rfl : v = 0 := by omega
      rw [CL_zero]; exact hω
    · intro v hv i _ _
      obtain rfl : v = 0 := by omega
      rw [CR_zero]
      simp only [init, SR.fill, Nat.sub_zero, beq_self_eq_true, if_true]
      exact hω
    · intro v hv i _ _ _
      obtain rfl : v = 0 := by omega
      rw [CL_zero]
      simp only [init, SR.fill, Nat.sub_zero, beq_self_eq_true, if_true]
      exact hω
  | succ m ih =>
    rw [List.range_succ, List.foldl_append]
    simp only [List.foldl_cons, List.foldl_nil]
    exact stepC_inv H (by omega) (by omega) (stepI_inv H (by omega) (fun h m h1 h2 h3 h4 => harc h m (by omega) (by omega) h4) (by omega) (ih (by omega)))

end charts

/-! ### The factors -/

variable {a : ℕ → ℕ → ℝ} {N L b : ℕ} {arc : ℕ → ℕ → ℕ → EReal}

/-- The weight of the trees with a single root over the first `k` words. -/
def wT (a : ℕ → ℕ → ℝ) (k : ℕ) : ℝ := ∑ m ∈ Ioc 0 k, wL a 1 m * a 0 m * wR a m k

theorem wT_nonneg (ha : ∀ x y, 0 ≤ a x y) (k : ℕ) : 0 ≤ wT a k := sum_nonneg fun m _ => mul_nonneg (mul_nonneg (wL_nonneg ha 1 m) (ha _ _)) (wR_nonneg ha m k)

theorem wT_trees (n : ℕ) (hn : 1 ≤ n) : wT a n = ∑ t : ProjTrees false n, ∏ k : Fin n, a (t.1 k) (k + 1) := by
  obtain ⟨n, rfl⟩ : ∃ k, n = k + 1 := ⟨n - 1, by omega⟩
  have h := single_eq_trees 1 a n
  simp only [one_pow, mul_one] at h
  rw [← h, wT]
  have e : Ioc 0 (n + 1) = Ico 1 (1 + (n + 1)) := by ext x; simp only [mem_Ioc, mem_Ico]; omega
  rw [e, sum_Ico_eq_sum_range, Nat.add_sub_cancel_left]
  refine sum_congr rfl fun u hu => ?_
  have hu := mem_range.1 hu
  rw [wL, wR]
  have e1 : 1 + u - 1 = u := by omega
  have e2 : n + 1 - (1 + u) = n - u := by omega
  rw [e1, e2, add_comm u 1]

/-- The factors of the loop over the words below the root. -/
def tt (a : ℕ → ℕ → ℝ) (k m : ℕ) : ℝ := if 0 < m ∧ m ≤ k then wL a 1 m * a 0 m * wR a m k / wT a k else 0

/-- The factors where every sum is positive; elsewhere `0 / 0 = 0`.  A span that begins at the root divides only behind the root. -/
def fx (a : ℕ → ℕ → ℝ) (i j m : ℕ) : ℝ := if i = 0 then (if m = 0 ∧ 0 < j then 1 else 0) else tx a i j m
def fr (a : ℕ → ℕ → ℝ) (i j m : ℕ) : ℝ := if i = 0 then tt a j m else tr a i j m
def fL (a : ℕ → ℕ → ℝ) (N i j m : ℕ) : ℝ := if i = 0 then 0 else tl a N i j m

/-- With the guard. -/
def guardedρ (a : ℕ → ℕ → ℝ) (N : ℕ) : Factors where
  x i j m := fx a i j m
  r i j m := fr a i j m
  l i j m := fL a N i j m

/-- Without it. -/
def plainρ (a : ℕ → ℕ → ℝ) (N : ℕ) : Factors where
  x i j m := if i ≠ 0 ∧ i < j ∧ wX a i j = 0 then ⊤ else fx a i j m
  r i j m := if i < j ∧ (if i = 0 then wT a j = 0 else wR a i j = 0) then ⊤ else fr a i j m
  l i j m := if i ≠ 0 ∧ i < j ∧ wL a i j = 0 then ⊤ else fL a N i j m

/-- What the factors of the model are, for any slope. -/
theorem factors_logOf (harc : ∀ h m, h < N → m < N → h ≠ m → LogOf (arc b h m) (a h m)) (i k u : ℕ) (h1 : 1 ≤ i) (hu : u < k) (hi : i + k < N) :
    (LogOf (sr.mul ((before N arc k).acr b i u) ((before N arc k).bcl b (k + i) (N - k + u))) (wR a i (i + u) * wL a (i + u + 1) (i + k)) ∧
      LogOf (sr.dot ((List.range k).map fun u => (before N arc k).acr b i u) ((List.range k).map fun u => (before N arc k).bcl b (k + i) (N - k + u))) (wX a i (i + k))) ∧
    (LogOf (sr.mul ((mid N arc k).air b i (1 + u)) ((mid N arc k).bcr b (k + i) (N - k + u))) (wX a i (i + u + 1) * a i (i + u + 1) * wR a (i + u + 1) (i + k)) ∧
      LogOf (sr.dot ((List.range k).map fun u => (mid N arc k).air b i (1 + u)) ((List.range k).map fun u => (mid N arc k).bcr b (k + i) (N - k + u))) (wR a i (i + k))) ∧
    (LogOf (sr.mul ((mid N arc k).acl b i u) ((mid N arc k).bil b (k + i) (N - k - 1 + u))) (wL a i (i + u) * (wX a (i + u) (i + k) * a (i + k) (i + u))) ∧
      LogOf (sr.dot ((List.range k).map fun u => (mid N arc k).acl b i u) ((List.range k).map fun u => (mid N arc k).bil b (k + i) (N - k - 1 + u))) (wL a i (i + k))) := by
  obtain ⟨k, rfl⟩ : ∃ n, k = n + 1 := ⟨k - 1, by omega⟩
  have hω : LogOf sr.one 1 := ⟨zero_le_one, by
    have : (sr.one : EReal) = 0 := by simp [sr, Semirings.logE]
    rw [this]; simp⟩
  have F : DepTreeProofs.Inv LogOf (1 : ℝ) a 1 N (N - 1) b k k (before N arc (k + 1)) := charts_at logOf_rel hω harc k (by omega)
  have G : DepTreeProofs.Inv LogOf (1 : ℝ) a 1 N (N - 1) b k (k + 1) (mid N arc (k + 1)) :=
    DepTreeProofs.stepI_inv logOf_rel (by omega) (fun h m h1 h2 h3 h4 => harc h m (by omega) (by omega) h4) (by omega) F
  have e1 : wR a i (i + u) = CR 1 a i u := by rw [wR, Nat.add_sub_cancel_left]
  have e2 : wL a (i + u + 1) (i + (k + 1)) = CL 1 a (i + (k + 1)) (k + 1 - 1 - u) := by rw [wL]; congr 1; omega
  have e3 : wX a i (i + (k + 1)) = ∑ u ∈ range (k + 1), CR 1 a i u * CL 1 a (i + (k + 1)) (k + 1 - 1 - u) := by
    rw [wX, sum_Ico_eq_sum_range, Nat.add_sub_cancel_left]
    refine sum_congr rfl fun v hv => ?_
    have hv := mem_range.1 hv
    rw [wR, wL, Nat.add_sub_cancel_left]
    congr 2; omega
  have e4 : wX a i (i + u + 1) * a i (i + u + 1) = IR 1 a i (1 + u) := by
    rw [IR_eq]; have : i + (1 + u) = i + u + 1 := by omega
    rw [this]
  have e5 : wR a (i + u + 1) (i + (k + 1)) = CR 1 a (i + u + 1) (k - u) := by rw [wR]; congr 1; omega
  have e6 : wR a i (i + (k + 1)) = CR 1 a i (k + 1) := by rw [wR, Nat.add_sub_cancel_left]
  have e7 : wL a i (i + u) = CL 1 a (i + u) u := by rw [wL, Nat.add_sub_cancel_left]
  have e8 : wX a (i + u) (i + (k + 1)) * a (i + (k + 1)) (i + u) = IL 1 a (i + (k + 1)) (k + 1 - u) := by
    rw [IL_eq (by omega)]; have : i + (k + 1) - (k + 1 - u) = i + u := by omega
    rw [this]
  have e9 : wL a i (i + (k + 1)) = CL 1 a (i + (k + 1)) (k + 1) := by rw [wL, Nat.add_sub_cancel_left]
  rw [e1, e2, e3, e4, e5, e6, e7, e8, e9]
  exact ⟨⟨inv_x F logOf_rel i u h1 hi hu, inv_xs F logOf_rel i h1 hi⟩, ⟨inv_r G logOf_rel i u h1 hi hu, inv_rs G logOf_rel i h1 hi⟩, inv_l G logOf_rel i u h1 hi hu,
    inv_ls G logOf_rel i h1 hi⟩

theorem root_logOf (harc : ∀ h m, h < N → m < N → h ≠ m → LogOf (arc b h m) (a h m)) (k u : ℕ) (hu : u < k) (hk : k < N) :
    LogOf (sr.mul (span N arc b u) ((DepTree.charts sr 1 N arc).bcr b k (N - k + u))) (wL a 1 (u + 1) * a 0 (u + 1) * wR a (u + 1) k) ∧
      LogOf (sr.dot ((List.range k).map fun u => span N arc b u) ((List.range k).map fun u => (DepTree.charts sr 1 N arc).bcr b k (N - k + u))) (wT a k) := by
  have hω : LogOf sr.one 1 := ⟨zero_le_one, by
    have : (sr.one : EReal) = 0 := by simp [sr, Semirings.logE]
    rw [this]; simp⟩
  have F : DepTreeProofs.Inv LogOf (1 : ℝ) a 1 N (N - 1) b (N - 1 - 1) (N - 1 - 1) (DepTree.charts sr 1 N arc) :=
    DepTreeProofs.charts_inv logOf_rel hω (by omega) fun h m h1 h2 h3 h4 => harc h m (by omega) (by omega) h4
  have key : ∀ u < k, LogOf (sr.mul (span N arc b u) ((DepTree.charts sr 1 N arc).bcr b k (N - k + u))) (wL a 1 (u + 1) * a 0 (u + 1) * wR a (u + 1) k) := by
    intro u hu
    refine logOf_rel.mul ?_ ?_
    · refine logOf_rel.mul ?_ ?_
      · have := F.acl u (by omega) 1 le_rfl le_rfl (by omega)
        have e : wL a 1 (u + 1) = CL 1 a (1 + u) u := by rw [wL, Nat.add_sub_cancel, add_comm u 1]
        rw [e]; exact this
      · have := harc 0 (1 + u) (by omega) (by omega) (by omega)
        rw [add_comm u 1]; exact this
    · have := F.bcr (k - (u + 1)) (by omega) (u + 1) (by omega) (by omega)
      have e1 : u + 1 + (k - (u + 1)) = k := by omega
      have e2 : N - 1 - (k - (u + 1)) = N - k + u := by omega
      rw [e1, e2] at this
      exact this
  refine ⟨key u hu, ?_⟩
  rw [SR.dot, CKYCRFProofs.zipWith_map]
  have e : wT a k = ∑ u ∈ range k, wL a 1 (u + 1) * a 0 (u + 1) * wR a (u + 1) k := by
    have e : Ioc 0 k = Ico 1 (1 + k) := by ext x; simp only [mem_Ioc, mem_Ico]; omega
    rw [wT, e, sum_Ico_eq_sum_range, Nat.add_sub_cancel_left]
    refine sum_congr rfl fun u _ => ?_
    rw [add_comm 1 u]
  rw [e]
  exact logOf_rel.sum_range (by omega) fun u hu => key u (by omega)

theorem tt_zero (ha : ∀ x y, 0 ≤ a x y) {k m : ℕ} (h1 : 0 < m) (h2 : m ≤ k) (h : wT a k = 0) : wL a 1 m * a 0 m * wR a m k = 0 :=
  (sum_eq_zero_iff_of_nonneg fun m _ => mul_nonneg (mul_nonneg (wL_nonneg ha 1 m) (ha _ _)) (wR_nonneg ha m k)).1 h m (mem_Ioc.2 ⟨h1, h2⟩)

theorem agree_guarded (ha : ∀ x y, 0 ≤ a x y) (harc : ∀ h m, h < N → m < N → h ≠ m → LogOf (arc b h m) (a h m)) :
    Agree Slope.guarded N b arc (guardedρ a N) where
  x i k u h1 hu hi := by
    have h := (factors_logOf harc i k u h1 hu hi).1
    change Slope.guarded _ _ = _
    rw [guarded_real h.1 h.2 (tx_zero ha (by omega) (by omega))]
    simp only [guardedρ, fx, tx]
    rw [if_neg (by omega), if_pos (by omega)]; rfl
  r i k u h1 hu hi := by
    have h := (factors_logOf harc i k u h1 hu hi).2.1
    change Slope.guarded _ _ = _
    rw [guarded_real h.1 h.2 (tr_zero ha (by omega) (by omega))]
    simp only [guardedρ, fr, tr]
    rw [if_neg (by omega), if_pos (by omega)]; rfl
  l i k u h1 hu hi := by
    have h := (factors_logOf harc i k u h1 hu hi).2.2
    change Slope.guarded _ _ = _
    rw [guarded_real h.1 h.2 (tl_zero ha (by omega) (by omega))]
    simp only [guardedρ, fL, tl]
    rw [if_neg (by omega), if_pos (by omega)]; rfl
  root k u hu hk := by
    have h := root_logOf harc k u hu hk
    change Slope.guarded _ _ = _
    rw [guarded_real h.1 h.2 (tt_zero ha (by omega) (by omega))]
    simp only [guardedρ, fr, tt, if_true]
    rw [if_pos (by omega)]; rfl

theorem agree_plain (ha : ∀ x y, 0 ≤ a x y) (harc : ∀ h m, h < N → m < N → h ≠ m → LogOf (arc b h m) (a h m)) :
    Agree Slope.plain N b arc (plainρ a N) where
  x i k u h1 hu hi := by
    have h := (factors_logOf harc i k u h1 hu hi).1
    change Slope.plain _ _ = _
    rw [plain_or h.1 h.2 (tx_zero ha (by omega) (by omega))]
    simp only [plainρ, fx, tx]
    rw [if_neg (show ¬ i = 0 by omega), if_pos (show i ≤ i + u ∧ i + u < i + k by omega)]
    simp only [show i ≠ 0 by omega, show i < i + k by omega, true_and, ne_eq, not_false_eq_true]
  r i k u h1 hu hi := by
    have h := (factors_logOf harc i k u h1 hu hi).2.1
    change Slope.plain _ _ = _
    rw [plain_or h.1 h.2 (tr_zero ha (by omega) (by omega))]
    simp only [plainρ, fr, tr]
    rw [if_pos (show i < i + u + 1 ∧ i + u + 1 ≤ i + k by omega)]
    simp only [show i ≠ 0 by omega, show i < i + k by omega, true_and, if_false]
  l i k u h1 hu hi := by
    have h := (factors_logOf harc i k u h1 hu hi).2.2
    change Slope.plain _ _ = _
    rw [plain_or h.1 h.2 (tl_zero ha (by omega) (by omega))]
    simp only [plainρ, fL, tl]
    rw [if_neg (show ¬ i = 0 by omega), if_pos (show i ≤ i + u ∧ i + u < i + k ∧ ¬ (i = 0 ∧ i + k = N - 1) by omega)]
    simp only [show i ≠ 0 by omega, show i < i + k by omega, true_and, ne_eq, not_false_eq_true]
  root k u hu hk := by
    have h := root_logOf harc k u hu hk
    change Slope.plain _ _ = _
    rw [plain_or h.1 h.2 (tt_zero ha (by omega) (by omega))]
    simp only [plainρ, fr, tt, if_true]
    rw [if_pos (show 0 < u + 1 ∧ u + 1 ≤ k by omega)]
    simp only [show 0 < k by omega, true_and]

/-! ### An instance of the recursion with several roots -/

/-- The factors at the root. -/
structure AtRoot (N : ℕ) (τ : Factors) : Prop where
  x0 : ∀ j, 0 < j → τ.x 0 j 0 = 1
  x : ∀ j m, 0 < m → τ.x 0 j m = 0
  l : ∀ j m, τ.l 0 j m = 0
  /-- Whether a factor of the loop over the words below the root is NaN depends on the last word only. -/
  r : ∀ k m m', 1 ≤ m → m ≤ k → 1 ≤ m' → m' ≤ k → k < N → τ.r 0 k m = ⊤ → τ.r 0 k m' = ⊤

theorem atRoot_guarded : AtRoot N (guardedρ a N) where
  x0 j hj := by simp only [guardedρ, fx, if_true, true_and, if_pos hj]; rfl
  x j m hm := by simp only [guardedρ, fx, if_true]; rw [if_neg (by omega)]; rfl
  l j m := by simp only [guardedρ, fL, if_true]; rfl
  r k m m' _ _ _ _ _ h := absurd h (by simp [guardedρ])

theorem atRoot_plain : AtRoot N (plainρ a N) where
  x0 j hj := by simp only [plainρ, fx, ne_eq, not_true_eq_false, false_and, if_false, if_true, true_and, if_pos hj]; rfl
  x j m hm := by simp only [plainρ, fx, ne_eq, not_true_eq_false, false_and, if_false, if_true]; rw [if_neg (by omega)]; rfl
  l j m := by simp only [plainρ, fL, ne_eq, not_true_eq_false, false_and, if_false, if_true]; rfl
  r k m m' _ _ _ _ _ h := by
    by_cases h1 : 0 < k ∧ wT a k = 0
    · simp only [plainρ, if_true, if_pos h1]
    · simp only [plainρ, if_true, if_neg h1] at h
      exact absurd h WithTop.coe_ne_top

section embed
variable {τ : Factors} (hτ : AtRoot N τ)

theorem tmul_zero_zero : tmul (0 : WithTop ℝ) 0 = 0 := by
  have := tmul_coe 0 0
  rw [mul_zero] at this
  exact this

theorem tmul_zero {x : WithTop ℝ} (hx : x ≠ ⊤) : tmul x 0 = 0 := by
  lift x to ℝ using hx
  have := tmul_coe x 0
  rw [mul_zero] at this
  exact this

theorem tmul_one (x : WithTop ℝ) : tmul x 1 = x := by
  induction x using WithTop.recTopCoe with
  | top => exact top_tmul _
  | coe x =>
    have := tmul_coe x 1
    rw [mul_one] at this
    exact this

theorem range_Ico (n : ℕ) (f : ℕ → WithTop ℝ) : ∑ x ∈ range (n + 1), f x = f 0 + ∑ x ∈ Ico 1 (n + 1), f x := by
  rw [range_eq_Ico, sum_eq_sum_Ico_succ_bot (by omega)]

include hτ

theorem gL0 (K : ℕ) : ∀ j, N - j = K → gL N L τ 0 j = 0 := by
  induction K using Nat.strong_induction_on with
  | _ K ih =>
  intro j hj
  rw [gL_eq, range_zero, sum_empty, add_zero]
  refine sum_eq_zero fun j' hj' => ?_
  have := mem_Ioo.1 hj'
  rw [ih (N - j') (by omega) j' rfl, hτ.l, tmul_zero_zero]

theorem gX0_eq (j : ℕ) : gX N L τ 0 j = gIR N L τ 0 j := by
  rw [gX_eq, gIL]
  have e : range (0 + 1) = {0} := rfl
  rw [e, sum_singleton, gL0 hτ _ j rfl, hτ.l, tmul_zero_zero, add_zero]

/-- A sum over the trees with a single root that is empty, and what comes before it. -/
def Hole (N : ℕ) (τ : Factors) (j : ℕ) : Prop := ∃ k, j ≤ k ∧ k < N ∧ τ.r 0 k 1 = ⊤

omit hτ in
theorem Hole.le {j j' : ℕ} (h : Hole N τ j') (hj : j ≤ j') : Hole N τ j := by
  obtain ⟨k, h1, h2, h3⟩ := h
  exact ⟨k, by omega, h2, h3⟩

theorem seed_top {j : ℕ} (hj : 1 ≤ j) : seed N L τ j = ⊤ ↔ Hole N τ j := by
  rw [seed, sum_top]
  simp only [mem_Ico]
  constructor
  · rintro ⟨k, h1, h2 | h2⟩
    · exfalso; revert h2; split_ifs <;> simp
    · exact ⟨k, h1.1, h1.2, hτ.r k j 1 hj h1.1 le_rfl (by omega) h1.2 h2⟩
  · rintro ⟨k, h1, h2, h3⟩
    exact ⟨k, ⟨h1, h2⟩, Or.inr (hτ.r k 1 j le_rfl (by omega) hj h1 h2 h3)⟩

open Classical in
/-- The spans that begin at the root. -/
theorem root_spans (K : ℕ) : ∀ j, 1 ≤ j → N - j = K → (gR N L τ 0 j = if Hole N τ (j + 1) then ⊤ else (if j = L then 1 else 0)) ∧ gX N L τ 0 j = seed N L τ j := by
  induction K using Nat.strong_induction_on with
  | _ K ih =>
  intro j hj hK
  have hR : ∀ j', j ≤ j' → (j' = j ∨ j' < N) → gR N L τ 0 j' = if Hole N τ (j' + 1) then ⊤ else (if j' = L then 1 else 0) := by
    intro j' h1 h2
    by_cases he : N - j' = K
    · rw [gR_eq, range_zero, sum_empty, add_zero]
      by_cases hh : Hole N τ (j' + 1)
      · rw [if_pos hh]
        obtain ⟨k, h3, h4, h5⟩ := hh
        rw [WithTop.add_eq_top]; right
        rw [sum_top]
        refine ⟨j' + 1, mem_Ioo.2 ⟨by omega, by omega⟩, Or.inl ?_⟩
        rw [(ih (N - (j' + 1)) (by omega) (j' + 1) (by omega) rfl).2, seed_top hτ (by omega)]
        exact ⟨k, h3, h4, h5⟩
      · have hz : ∑ j'' ∈ Ioo j' N, tmul (gX N L τ 0 j'') (τ.x 0 j'' j') = 0 := by
          refine sum_eq_zero fun j'' hj'' => ?_
          have := mem_Ioo.1 hj''
          rw [hτ.x _ _ (by omega), (ih (N - j'') (by omega) j'' (by omega) rfl).2]
          refine tmul_zero fun hc => hh ?_
          rw [seed_top hτ (by omega)] at hc
          exact hc.le (by omega)
        rw [hz, add_zero, if_neg hh]
        simp only [true_and]
    · exact (ih (N - j') (by omega) j' (by omega) rfl).1
  refine ⟨hR j le_rfl (Or.inl rfl), ?_⟩
  rw [gX0_eq hτ, gIR]
  by_cases hh : Hole N τ j
  · rw [(seed_top hτ hj).2 hh, sum_top]
    obtain ⟨k, h3, h4, h5⟩ := hh
    exact ⟨k, mem_Ico.2 ⟨h3, h4⟩, Or.inr (hτ.r k 1 j le_rfl (by omega) hj h3 h4 h5)⟩
  · rw [seed]
    refine sum_congr rfl fun k hk => ?_
    have := mem_Ico.1 hk
    rw [hR k this.1 (Or.inr this.2), if_neg fun hc => hh (hc.le (by omega))]

/-- Everything before an empty sum is NaN. -/
theorem hole_L1 {j : ℕ} (hj : 1 ≤ j) (h : Hole N τ j) : hL N L τ 1 j = ⊤ := by
  rw [hL_eq, if_pos rfl, (seed_top hτ hj).2 h]; simp

theorem hole_X {i j : ℕ} (hi : 1 ≤ i) (hij : i < j) (h : Hole N τ j) : hX N L τ i j = ⊤ := by
  rw [hX_eq, WithTop.add_eq_top]; right
  rw [hIL, sum_top]
  exact ⟨1, mem_Ico.2 ⟨le_rfl, by omega⟩, Or.inl (hole_L1 hτ (by omega) h)⟩

theorem hole_R {i j : ℕ} (hi : 1 ≤ i) (hij : i ≤ j) (h : Hole N τ (j + 1)) : hR N L τ i j = ⊤ := by
  obtain ⟨k, h1, h2, h3⟩ := h
  rw [hR_eq, WithTop.add_eq_top]; left
  rw [sum_top]
  exact ⟨j + 1, mem_Ioo.2 ⟨by omega, by omega⟩, Or.inl (hole_X hτ hi (by omega) ⟨k, h1, h2, h3⟩)⟩

theorem hole_L {i j : ℕ} (hi : 2 ≤ i) (hij : i ≤ j) (h : Hole N τ j) : hL N L τ i j = ⊤ := by
  rw [hL_eq, WithTop.add_eq_top]; right
  rw [sum_top]
  exact ⟨1, mem_Ico.2 ⟨le_rfl, by omega⟩, Or.inl (hole_X hτ le_rfl (by omega) h)⟩

/-- **Between words the recursions agree.** -/
theorem embed (K : ℕ) : ∀ i j, 1 ≤ i → i ≤ j → j < N → i + (N - j) = K →
    hR N L τ i j = gR N L τ i j ∧ hL N L τ i j = gL N L τ i j ∧ (i < j → hX N L τ i j = gX N L τ i j) := by
  classical
  induction K using Nat.strong_induction_on with
  | _ K ih =>
  have hRL : ∀ i j, 1 ≤ i → i ≤ j → j < N → i + (N - j) = K → hR N L τ i j = gR N L τ i j ∧ hL N L τ i j = gL N L τ i j := by
    intro i j hi hij hj hK
    have eX : ∑ j' ∈ Ioo j N, tmul (hX N L τ i j') (τ.x i j' j) = ∑ j' ∈ Ioo j N, tmul (gX N L τ i j') (τ.x i j' j) := by
      refine sum_congr rfl fun j' hj' => ?_
      have := mem_Ioo.1 hj'
      rw [(ih (i + (N - j')) (by omega) i j' hi (by omega) (by omega) rfl).2.2 (by omega)]
    have eR : ∑ i' ∈ Ico 1 i, tmul (hR N L τ i' j) (τ.r i' j i) = ∑ i' ∈ Ico 1 i, tmul (gR N L τ i' j) (τ.r i' j i) := by
      refine sum_congr rfl fun i' hi' => ?_
      have := mem_Ico.1 hi'
      rw [(ih (i' + (N - j)) (by omega) i' j this.1 (by omega) hj rfl).1]
    have eL : ∑ j' ∈ Ioo j N, tmul (hL N L τ i j') (τ.l i j' j) = ∑ j' ∈ Ioo j N, tmul (gL N L τ i j') (τ.l i j' j) := by
      refine sum_congr rfl fun j' hj' => ?_
      have := mem_Ioo.1 hj'
      rw [(ih (i + (N - j')) (by omega) i j' hi (by omega) (by omega) rfl).2.1]
    have eX' : ∑ i' ∈ Ico 1 i, tmul (hX N L τ i' j) (τ.x i' j (i - 1)) = ∑ i' ∈ Ico 1 i, tmul (gX N L τ i' j) (τ.x i' j (i - 1)) := by
      refine sum_congr rfl fun i' hi' => ?_
      have := mem_Ico.1 hi'
      rw [(ih (i' + (N - j)) (by omega) i' j this.1 (by omega) hj rfl).2.2 (by omega)]
    have er : ∀ f : ℕ → WithTop ℝ, ∑ i' ∈ range i, f i' = f 0 + ∑ i' ∈ Ico 1 i, f i' := by
      intro f
      rw [range_eq_Ico, sum_eq_sum_Ico_succ_bot (by omega)]
    constructor
    · by_cases hh : Hole N τ (j + 1)
      · rw [hole_R hτ hi hij hh, gR_eq, er, (root_spans hτ _ j (by omega) rfl).1, if_pos hh, top_tmul]
        simp
      · rw [hR_eq, gR_eq, er, (root_spans hτ _ j (by omega) rfl).1, if_neg hh, eX, eR, if_neg (show ¬ (i = 0 ∧ j = L) by omega), zero_add]
    · by_cases h1 : i = 1
      · subst h1
        rw [hL_eq, gL_eq, er, (root_spans hτ _ j (by omega) rfl).2, eL, eX', if_pos rfl, hτ.x0 j (by omega), tmul_one]
        rw [add_comm (seed N L τ j), add_assoc]
      · by_cases hh : Hole N τ j
        · rw [hole_L hτ (by omega) hij hh, gL_eq, er, (root_spans hτ _ j (by omega) rfl).2, (seed_top hτ (by omega)).2 hh, top_tmul]
          simp
        · rw [hL_eq, gL_eq, er, (root_spans hτ _ j (by omega) rfl).2, eL, eX', if_neg h1, hτ.x _ _ (by omega),
            tmul_zero fun hc => hh ((seed_top hτ (by omega)).1 hc), zero_add, zero_add]
  intro i j hi hij hj hK
  refine ⟨(hRL i j hi hij hj hK).1, (hRL i j hi hij hj hK).2, fun hlt => ?_⟩
  rw [hX_eq, gX_eq, hIR, hIL, gIR, gIL]
  congr 1
  · refine sum_congr rfl fun j' hj' => ?_
    have := mem_Ico.1 hj'
    by_cases he : i + (N - j') = K
    · rw [(hRL i j' hi (by omega) (by omega) he).1]
    · rw [(ih (i + (N - j')) (by omega) i j' hi (by omega) (by omega) rfl).1]
  · rw [range_Ico, gL0 hτ _ j rfl, hτ.l, tmul_zero_zero, zero_add]
    refine sum_congr rfl fun i' hi' => ?_
    have := mem_Ico.1 hi'
    by_cases he : i' + (N - j) = K
    · rw [(hRL i' j this.1 (by omega) hj he).2]
    · rw [(ih (i' + (N - j)) (by omega) i' j this.1 (by omega) hj rfl).2.1]

theorem hIR_eq {i j : ℕ} (hi : 1 ≤ i) (hij : i < j) : hIR N L τ i j = gIR N L τ i j := by
  rw [hIR, gIR]
  refine sum_congr rfl fun j' hj' => ?_
  have := mem_Ico.1 hj'
  rw [(embed hτ _ i j' hi (by omega) (by omega) rfl).1]

theorem hIL_eq {i j : ℕ} (hij : i < j) (hj : j < N) : hIL N L τ i j = gIL N L τ i j := by
  rw [hIL, gIL, range_Ico, gL0 hτ _ j rfl, hτ.l, tmul_zero_zero, zero_add]
  refine sum_congr rfl fun i' hi' => ?_
  have := mem_Ico.1 hi'
  rw [(embed hτ _ i' j this.1 (by omega) hj rfl).2.1]

theorem seed_eq {j : ℕ} (hj : 1 ≤ j) : seed N L τ j = gIR N L τ 0 j := by
  rw [← (root_spans hτ _ j hj rfl).2, gX0_eq hτ]

end embed

theorem bad_guarded : Bad N (guardedρ a N) (fun _ _ => False) (fun _ _ => False) (fun _ _ => False) where
  x i j m _ _ _ := by simp [guardedρ]
  r i j m _ _ _ := by simp [guardedρ]
  l i j m _ _ _ := by simp [guardedρ]

theorem bad_plain : Bad N (plainρ a N) (fun i j => i ≠ 0 ∧ wX a i j = 0) (fun i j => if i = 0 then wT a j = 0 else wR a i j = 0) (fun i j => i ≠ 0 ∧ wL a i j = 0) where
  x i j m h1 h2 _ := by
    simp only [plainρ, show i < j by omega, true_and]
    split_ifs with h <;> simp [h]
  r i j m h1 h2 _ := by
    simp only [plainρ, show i < j by omega, true_and]
    by_cases h0 : i = 0
    · simp only [h0, if_true]
      split_ifs with h <;> simp [h]
    · simp only [h0, if_false]
      split_ifs with h <;> simp [h]
  l i j m h1 h2 _ := by
    simp only [plainρ, show i < j by omega, true_and]
    split_ifs with h <;> simp [h]

theorem plain_x (i j m : ℕ) : (plainρ a N).x i j m ≠ ⊤ → (plainρ a N).x i j m = (guardedρ a N).x i j m := by
  simp only [plainρ, guardedρ]; split_ifs <;> simp
theorem plain_r (i j m : ℕ) : (plainρ a N).r i j m ≠ ⊤ → (plainρ a N).r i j m = (guardedρ a N).r i j m := by
  simp only [plainρ, guardedρ]; split_ifs <;> simp
theorem plain_l (i j m : ℕ) : (plainρ a N).l i j m ≠ ⊤ → (plainρ a N).l i j m = (guardedρ a N).l i j m := by
  simp only [plainρ, guardedρ]; split_ifs <;> simp

end DepRootBackwardProofs
