import Mathlib.Algebra.Order.BigOperators.Ring.Finset
import Verif.Proofs.SemiringRel

/-! Derivatives of path sums, and comparison of the path sums with and without the `zero` stand-ins. -/

open Finset Spec ChainProofs

noncomputable section
namespace ChainBounds
variable {C : ℕ}

/-- Dual-number reading of a (log-weight, gradient) pair at one entry `e`. -/
def evalDual {E : Type} (e : E) (a : Autograd.Grad E) : TrivSqZeroExt ℝ ℝ := SemiringRel.dual (Real.exp a.1) (a.2 e)

theorem apply_list_sum {E ι : Type} (e : E) (l : List ι) (f : ι → E → ℝ) :
    (l.map f).sum e = (l.map fun i => f i e).sum := by
  induction l with
  | nil => rfl
  | cons a l ih => simp [ih]

theorem evalDual_rel {E : Type} (z : ℝ) (e : E) :
    SRRel (Autograd.logZ (E := E) z) (fun a x => evalDual e a = x) := by
  apply SRRel.of_hom (h := evalDual e)
  · intro a b
    simp only [evalDual, Autograd.logZ, SemiringRel.dual_mul, Real.exp_add, Pi.add_apply]
  · intro as h
    have : (as.map (evalDual e)) = as.map fun a => SemiringRel.dual (Real.exp a.1) (a.2 e) := rfl
    rw [this, SemiringRel.list_sum_dual, ← SemiringRel.exp_lse_map h,
      ← SemiringRel.softmax_sum as (fun a => a.1) (Semirings.lse (as.map Prod.fst))]
    simp only [evalDual, Autograd.logZ, SemiringRel.dual, apply_list_sum]
    rfl

/-- `inl a + inr d`. -/
def mk (a d : ℝ) : TrivSqZeroExt ℝ ℝ := TrivSqZeroExt.inl a + TrivSqZeroExt.inr d

@[simp] theorem fst_mk (a d : ℝ) : (mk a d).fst = a := by simp [mk]
@[simp] theorem snd_mk (a d : ℝ) : (mk a d).snd = d := by simp [mk]

theorem mk_zero (a : ℝ) : mk a 0 = TrivSqZeroExt.inl a := by simp [mk]

theorem inl_prod {ι : Type} (s : Finset ι) (f : ι → ℝ) :
    ∏ i ∈ s, (TrivSqZeroExt.inl (f i) : TrivSqZeroExt ℝ ℝ) = TrivSqZeroExt.inl (∏ i ∈ s, f i) :=
  (map_prod (TrivSqZeroExt.inlHom ℝ ℝ) f s).symm

theorem fst_sum {ι : Type} (s : Finset ι) (f : ι → TrivSqZeroExt ℝ ℝ) : (∑ i ∈ s, f i).fst = ∑ i ∈ s, (f i).fst :=
  map_sum (TrivSqZeroExt.fstHom ℝ ℝ ℝ) f s

theorem snd_sum {ι : Type} (s : Finset ι) (f : ι → TrivSqZeroExt ℝ ℝ) : (∑ i ∈ s, f i).snd = ∑ i ∈ s, (f i).snd :=
  map_sum (TrivSqZeroExt.sndHom ℝ ℝ) f s

theorem fst_prod {ι : Type} (s : Finset ι) (f : ι → TrivSqZeroExt ℝ ℝ) : (∏ i ∈ s, f i).fst = ∏ i ∈ s, (f i).fst :=
  map_prod (TrivSqZeroExt.fstHom ℝ ℝ ℝ) f s

theorem fst_chainSum (M : ℕ) (w : ℕ → Fin C → Fin C → TrivSqZeroExt ℝ ℝ) :
    (chainSum M w).fst = chainSum M fun n i j => (w n i j).fst := by
  simp only [chainSum, seqProd, fst_sum, fst_prod]

/-- The derivative of a path sum with respect to a quantity that occurs at position `n0` only. -/
theorem snd_chainSum (M n0 : ℕ) (h : n0 < M) (A D : ℕ → Fin C → Fin C → ℝ) (hD : ∀ n, n ≠ n0 → ∀ i j, D n i j = 0) :
    (chainSum M fun n i j => mk (A n i j) (D n i j)).snd =
      chainSum M fun n i j => if n = n0 then D n i j else A n i j := by
  simp only [chainSum, seqProd, snd_sum]
  refine sum_congr rfl fun y _ => ?_
  rw [← mul_prod_erase univ _ (mem_univ (⟨n0, h⟩ : Fin M)), ← mul_prod_erase univ (fun n : Fin M => if (n : ℕ) = n0 then _ else _)
    (mem_univ (⟨n0, h⟩ : Fin M))]
  have e1 : ∏ n ∈ univ.erase (⟨n0, h⟩ : Fin M), mk (A n (y n.succ) (y n.castSucc)) (D n (y n.succ) (y n.castSucc)) =
      TrivSqZeroExt.inl (∏ n ∈ univ.erase (⟨n0, h⟩ : Fin M), A n (y n.succ) (y n.castSucc)) := by
    rw [← inl_prod]
    refine prod_congr rfl fun n hn => ?_
    rw [hD n fun hc => (mem_erase.1 hn).1 (Fin.ext hc), mk_zero]
  have e2 : ∏ n ∈ univ.erase (⟨n0, h⟩ : Fin M),
      (if (n : ℕ) = n0 then D n (y n.succ) (y n.castSucc) else A n (y n.succ) (y n.castSucc)) =
      ∏ n ∈ univ.erase (⟨n0, h⟩ : Fin M), A n (y n.succ) (y n.castSucc) := by
    refine prod_congr rfl fun n hn => ?_
    rw [if_neg fun hc => (mem_erase.1 hn).1 (Fin.ext hc)]
  rw [e1, e2]
  simp [mul_comm]

theorem snd_chainSum_zero (M : ℕ) (A : ℕ → Fin C → Fin C → ℝ) :
    (chainSum M fun n i j => mk (A n i j) 0).snd = 0 := by
  simp only [chainSum, seqProd, snd_sum, mk_zero, inl_prod, TrivSqZeroExt.snd_inl, sum_const_zero]

/-- `only n0 i0 j0 v` is the table that is `v` at one entry of position `n0`, and keeps `A` at the other positions. -/
def only (A : ℕ → Fin C → Fin C → ℝ) (n0 : ℕ) (i0 j0 : Fin C) (v : ℝ) : ℕ → Fin C → Fin C → ℝ :=
  fun n i j => if n = n0 then (if i = i0 ∧ j = j0 then v else 0) else A n i j

theorem chainSum_nonneg {M : ℕ} {W : ℕ → Fin C → Fin C → ℝ} (h : ∀ n < M, ∀ i j, 0 ≤ W n i j) : 0 ≤ chainSum M W :=
  sum_nonneg fun _ _ => prod_nonneg fun n _ => h n n.2 _ _

theorem chainSum_mono {M : ℕ} {T W : ℕ → Fin C → Fin C → ℝ} (h0 : ∀ n < M, ∀ i j, 0 ≤ T n i j)
    (h : ∀ n < M, ∀ i j, T n i j ≤ W n i j) : chainSum M T ≤ chainSum M W :=
  sum_le_sum fun _ _ => prod_le_prod (fun n _ => h0 n n.2 _ _) fun n _ => h n n.2 _ _

/-- Comparing an entry's share of two path sums, `T ≤ W`: the share of the entry grows by at most the growth of the total. -/
theorem share_sandwich {M n0 : ℕ} (hn : n0 < M) (i0 j0 : Fin C) {T W : ℕ → Fin C → Fin C → ℝ}
    (h0 : ∀ n < M, ∀ i j, 0 ≤ T n i j) (h : ∀ n < M, ∀ i j, T n i j ≤ W n i j) {t b : ℝ} (ht : 0 ≤ t) (htb : t ≤ b)
    (htT : t ≤ T n0 i0 j0) (hb : T n0 i0 j0 - t ≤ W n0 i0 j0 - b) :
    chainSum M (only T n0 i0 j0 t) ≤ chainSum M (only W n0 i0 j0 b) ∧
      chainSum M (only W n0 i0 j0 b) - chainSum M (only T n0 i0 j0 t) ≤ chainSum M W - chainSum M T := by
  constructor
  · apply chainSum_mono
    · intro n hn i j
      simp only [only]
      split_ifs
      exacts [ht, le_rfl, h0 n hn i j]
    · intro n hn i j
      simp only [only]
      split_ifs
      exacts [htb, le_rfl, h n hn i j]
  · simp only [chainSum, ← sum_sub_distrib]
    refine sum_le_sum fun y _ => ?_
    simp only [seqProd]
    set m0 : Fin M := ⟨n0, hn⟩ with hm0
    have split : ∀ A : ℕ → Fin C → Fin C → ℝ, ∏ n : Fin M, A n (y n.succ) (y n.castSucc) =
        A n0 (y m0.succ) (y m0.castSucc) * ∏ n ∈ univ.erase m0, A n (y n.succ) (y n.castSucc) := fun A =>
      (mul_prod_erase univ _ (mem_univ m0)).symm
    have rest : ∀ (A : ℕ → Fin C → Fin C → ℝ) (v : ℝ), ∏ n ∈ univ.erase m0, only A n0 i0 j0 v n (y n.succ) (y n.castSucc) =
        ∏ n ∈ univ.erase m0, A n (y n.succ) (y n.castSucc) := by
      intro A v
      refine prod_congr rfl fun n hn => ?_
      simp only [only]
      rw [if_neg fun hc => (mem_erase.1 hn).1 (Fin.ext hc)]
    rw [split T, split W, split (only T n0 i0 j0 t), split (only W n0 i0 j0 b), rest, rest]
    have hT0 : 0 ≤ ∏ n ∈ univ.erase m0, T n (y n.succ) (y n.castSucc) := prod_nonneg fun n _ => h0 n n.2 _ _
    have hTW : ∏ n ∈ univ.erase m0, T n (y n.succ) (y n.castSucc) ≤ ∏ n ∈ univ.erase m0, W n (y n.succ) (y n.castSucc) :=
      prod_le_prod (fun n _ => h0 n n.2 _ _) fun n _ => h n n.2 _ _
    set PT := ∏ n ∈ univ.erase m0, T n (y n.succ) (y n.castSucc)
    set PW := ∏ n ∈ univ.erase m0, W n (y n.succ) (y n.castSucc)
    by_cases hy : y m0.succ = i0 ∧ y m0.castSucc = j0
    · simp only [only, if_true, hy, and_self]
      nlinarith [mul_le_mul hb hTW hT0 (by linarith)]
    · simp only [only, if_true, hy, if_false, zero_mul, sub_zero]
      have h1 := h n0 hn (y m0.succ) (y m0.castSucc)
      have h2 := h0 n0 hn (y m0.succ) (y m0.castSucc)
      nlinarith [mul_le_mul h1 hTW hT0 (by linarith)]

/-- `Near K t a`: `a` is `t` plus a perturbation, both with logarithmic parts bounded by `K` times their weight. -/
structure Near (K : ℝ) (t a : TrivSqZeroExt ℝ ℝ) : Prop where
  nonneg : 0 ≤ t.fst
  le : t.fst ≤ a.fst
  bnd : |t.snd| ≤ K * t.fst
  diff : |a.snd - t.snd| ≤ K * (a.fst - t.fst)

theorem Near.zero (K : ℝ) : Near K 0 0 := ⟨by simp, by simp, by simp, by simp⟩

theorem Near.one : Near 0 1 1 := ⟨by simp, by simp, by simp, by simp⟩

theorem Near.mono {K K' : ℝ} {t a : TrivSqZeroExt ℝ ℝ} (h : Near K t a) (hK : K ≤ K') : Near K' t a where
  nonneg := h.nonneg
  le := h.le
  bnd := h.bnd.trans (mul_le_mul_of_nonneg_right hK h.nonneg)
  diff := h.diff.trans (mul_le_mul_of_nonneg_right hK (sub_nonneg.2 h.le))

theorem Near.add {K : ℝ} {t a t' a' : TrivSqZeroExt ℝ ℝ} (h : Near K t a) (h' : Near K t' a') : Near K (t + t') (a + a') where
  nonneg := by simpa using add_nonneg h.nonneg h'.nonneg
  le := by simpa using add_le_add h.le h'.le
  bnd := by
    have := abs_add_le t.snd t'.snd
    simp only [TrivSqZeroExt.fst_add, TrivSqZeroExt.snd_add]
    nlinarith [h.bnd, h'.bnd]
  diff := by
    have := abs_add_le (a.snd - t.snd) (a'.snd - t'.snd)
    simp only [TrivSqZeroExt.fst_add, TrivSqZeroExt.snd_add]
    rw [show a.snd + a'.snd - (t.snd + t'.snd) = (a.snd - t.snd) + (a'.snd - t'.snd) by ring]
    nlinarith [h.diff, h'.diff]

theorem Near.mul {K K' : ℝ} {t a t' a' : TrivSqZeroExt ℝ ℝ} (h : Near K t a) (h' : Near K' t' a') :
    Near (K + K') (t * t') (a * a') where
  nonneg := by simpa using mul_nonneg h.nonneg h'.nonneg
  le := by simpa using mul_le_mul h.le h'.le h'.nonneg (h.nonneg.trans h.le)
  bnd := by
    simp only [TrivSqZeroExt.fst_mul, TrivSqZeroExt.snd_mul, smul_eq_mul, MulOpposite.smul_eq_mul_unop, MulOpposite.unop_op]
    have e1 : |t.fst * t'.snd| ≤ t.fst * (K' * t'.fst) := by
      rw [abs_mul, abs_of_nonneg h.nonneg]; exact mul_le_mul_of_nonneg_left h'.bnd h.nonneg
    have e2 : |t.snd * t'.fst| ≤ K * t.fst * t'.fst := by
      rw [abs_mul, abs_of_nonneg h'.nonneg]; exact mul_le_mul_of_nonneg_right h.bnd h'.nonneg
    have := abs_add_le (t.fst * t'.snd) (t.snd * t'.fst)
    nlinarith
  diff := by
    simp only [TrivSqZeroExt.fst_mul, TrivSqZeroExt.snd_mul, smul_eq_mul, MulOpposite.smul_eq_mul_unop, MulOpposite.unop_op]
    have ha : 0 ≤ a.fst := h.nonneg.trans h.le
    have ha' : 0 ≤ a'.fst := h'.nonneg.trans h'.le
    have e1 : |a.fst * (a'.snd - t'.snd)| ≤ a.fst * (K' * (a'.fst - t'.fst)) := by
      rw [abs_mul, abs_of_nonneg ha]; exact mul_le_mul_of_nonneg_left h'.diff ha
    have e2 : |(a.fst - t.fst) * t'.snd| ≤ (a.fst - t.fst) * (K' * t'.fst) := by
      rw [abs_mul, abs_of_nonneg (sub_nonneg.2 h.le)]; exact mul_le_mul_of_nonneg_left h'.bnd (sub_nonneg.2 h.le)
    have e3 : |(a.snd - t.snd) * a'.fst| ≤ K * (a.fst - t.fst) * a'.fst := by
      rw [abs_mul, abs_of_nonneg ha']; exact mul_le_mul_of_nonneg_right h.diff ha'
    have e4 : |t.snd * (a'.fst - t'.fst)| ≤ K * t.fst * (a'.fst - t'.fst) := by
      rw [abs_mul, abs_of_nonneg (sub_nonneg.2 h'.le)]; exact mul_le_mul_of_nonneg_right h.bnd (sub_nonneg.2 h'.le)
    rw [show a.fst * a'.snd + a.snd * a'.fst - (t.fst * t'.snd + t.snd * t'.fst) =
      (a.fst * (a'.snd - t'.snd) + (a.fst - t.fst) * t'.snd) + ((a.snd - t.snd) * a'.fst + t.snd * (a'.fst - t'.fst)) by ring]
    have f1 := abs_add_le (a.fst * (a'.snd - t'.snd)) ((a.fst - t.fst) * t'.snd)
    have f2 := abs_add_le ((a.snd - t.snd) * a'.fst) (t.snd * (a'.fst - t'.fst))
    have f3 := abs_add_le (a.fst * (a'.snd - t'.snd) + (a.fst - t.fst) * t'.snd)
      ((a.snd - t.snd) * a'.fst + t.snd * (a'.fst - t'.fst))
    nlinarith

theorem Near.sum {ι : Type} {K : ℝ} (s : Finset ι) {t a : ι → TrivSqZeroExt ℝ ℝ} (h : ∀ i ∈ s, Near K (t i) (a i)) :
    Near K (∑ i ∈ s, t i) (∑ i ∈ s, a i) := by
  classical
  induction s using Finset.induction_on with
  | empty => simpa using Near.zero K
  | insert x s hx ih =>
    rw [sum_insert hx, sum_insert hx]
    exact (h x (mem_insert_self _ _)).add (ih fun i hi => h i (mem_insert_of_mem hi))

theorem Near.prod {ι : Type} (K : ι → ℝ) (s : Finset ι) {t a : ι → TrivSqZeroExt ℝ ℝ} (h : ∀ i ∈ s, Near (K i) (t i) (a i)) :
    Near (∑ i ∈ s, K i) (∏ i ∈ s, t i) (∏ i ∈ s, a i) := by
  classical
  induction s using Finset.induction_on with
  | empty => simpa using Near.one
  | insert x s hx ih =>
    rw [prod_insert hx, prod_insert hx, sum_insert hx]
    exact (h x (mem_insert_self _ _)).mul (ih fun i hi => h i (mem_insert_of_mem hi))

theorem Near.chainSum {M : ℕ} {K : ℝ} {t a : ℕ → Fin C → Fin C → TrivSqZeroExt ℝ ℝ}
    (h : ∀ n < M, ∀ i j, Near K (t n i j) (a n i j)) : Near (M * K) (chainSum M t) (Spec.chainSum M a) := by
  refine Near.sum _ fun y _ => ?_
  have := Near.prod (fun _ : Fin M => K) univ (t := fun n => t n (y n.succ) (y n.castSucc))
    (a := fun n => a n (y n.succ) (y n.castSucc)) fun n _ => h n n.2 _ _
  simpa [seqProd] using this

/-- From `Near` to the quotient of logarithmic part and weight. -/
theorem Near.ratio {K : ℝ} {t a : TrivSqZeroExt ℝ ℝ} (h : Near K t a) (hK : 0 ≤ K) (ht : 0 < t.fst) :
    |a.snd / a.fst - t.snd / t.fst| ≤ 2 * K * ((a.fst - t.fst) / a.fst) := by
  have ha : 0 < a.fst := ht.trans_le h.le
  have e : a.snd / a.fst - t.snd / t.fst = (a.snd - t.snd) / a.fst - t.snd / t.fst * ((a.fst - t.fst) / a.fst) := by
    field_simp; ring
  have e1 : |(a.snd - t.snd) / a.fst| ≤ K * ((a.fst - t.fst) / a.fst) := by
    rw [abs_div, abs_of_pos ha, ← mul_div_assoc]
    exact div_le_div_of_nonneg_right h.diff ha.le
  have hd : 0 ≤ (a.fst - t.fst) / a.fst := div_nonneg (sub_nonneg.2 h.le) ha.le
  have e2 : |t.snd / t.fst * ((a.fst - t.fst) / a.fst)| ≤ K * ((a.fst - t.fst) / a.fst) := by
    rw [abs_mul, abs_of_nonneg hd]
    refine mul_le_mul_of_nonneg_right ?_ hd
    rw [abs_div, abs_of_pos ht, div_le_iff₀ ht]
    exact h.bnd
  rw [e]
  have := abs_sub ((a.snd - t.snd) / a.fst) (t.snd / t.fst * ((a.fst - t.fst) / a.fst))
  linarith

/-- Shares of two totals. -/
theorem ratio_sandwich {Z Z' A A' : ℝ} (hZ : 0 < Z) (hZ' : Z ≤ Z') (hA : 0 ≤ A) (hAZ : A ≤ Z) (h1 : A ≤ A')
    (h2 : A' - A ≤ Z' - Z) : |A' / Z' - A / Z| ≤ (Z' - Z) / Z' := by
  have hp : 0 < Z' := hZ.trans_le hZ'
  rw [abs_le]
  have e : A / Z = A / Z' + A / Z * ((Z' - Z) / Z') := by field_simp; ring
  have hd : 0 ≤ (Z' - Z) / Z' := div_nonneg (sub_nonneg.2 hZ') hp.le
  have hr : A / Z ≤ 1 := (div_le_one hZ).2 hAZ
  have hr0 : 0 ≤ A / Z := div_nonneg hA hZ.le
  have f1 : A / Z' ≤ A' / Z' := div_le_div_of_nonneg_right h1 hp.le
  have f2 : A' / Z' ≤ A / Z' + (Z' - Z) / Z' := by
    rw [← add_div]; exact div_le_div_of_nonneg_right (by linarith) hp.le
  constructor
  · nlinarith
  · nlinarith [mul_nonneg hr0 hd]

end ChainBounds
