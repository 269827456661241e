import Mathlib.Data.Finsupp.Basic
import Verif.Model.Gumbel
import Verif.Proofs.SampleBatch
import Verif.Proofs.SampleExists
import Verif.Proofs.LinearChainSample

/-! Backward passes whose draws are the largest entries after adding noise. -/

open Finset MvPolynomial Semirings Spec

noncomputable section
namespace Sampling
namespace Expr

/-- Bound on the number of `sum`s that one draw visits. -/
def cnt : Expr → ℕ
  | leaf _ _ => 0
  | const _ => 0
  | mul a b => a.cnt + b.cnt
  | sum _ f => (univ.sup fun i => (f i).cnt) + 1
  | setData x _ => x.cnt

/-- No `sum` has more than `W` entries. -/
def Width (W : ℕ) : Expr → Prop
  | leaf _ _ => True
  | const _ => True
  | mul a b => a.Width W ∧ b.Width W
  | sum n f => n ≤ W ∧ ∀ i, (f i).Width W
  | setData x _ => x.Width W

/-- The same expression with other names for the entries of the potentials. -/
def rename (φ : List ℕ → List ℕ) : Expr → Expr
  | leaf v id => leaf v (φ id)
  | const v => const v
  | mul a b => mul (a.rename φ) (b.rename φ)
  | sum n f => sum n fun i => (f i).rename φ
  | setData x v => setData (x.rename φ) v

theorem rename_value (φ : List ℕ → List ℕ) : ∀ e : Expr, (e.rename φ).value = e.value
  | leaf _ _ => rfl
  | const _ => rfl
  | mul a b => by rw [rename, value, value, rename_value φ a, rename_value φ b]
  | sum n f => by
    rw [rename, value, value]; congr 2; funext i; exact rename_value φ (f i)
  | setData _ _ => rfl

theorem rename_level (φ : List ℕ → List ℕ) : ∀ e : Expr, (e.rename φ).level = e.level
  | leaf _ _ => rfl
  | const _ => rfl
  | mul a b => by rw [rename, level, level, rename_level φ a, rename_level φ b]
  | sum n f => by
    rw [rename, level, level]; congr 2; funext i; exact rename_level φ (f i)
  | setData x v => by rw [rename, level, level, rename_level φ x]

end Expr

theorem sr_sum (z : ℝ) {xs : List Expr} {n : ℕ} {g : Fin n → Expr} (h : xs = List.ofFn g) : (sr z).sum xs = .sum n g := by
  have key : ∀ (m : ℕ) (f : Fin m → Expr) (hm : m = n), (∀ i, f i = g (Fin.cast hm i)) → Expr.sum m f = .sum n g := by
    rintro m f rfl hf
    congr 1
    funext i
    exact hf i
  subst h
  refine key _ _ (by simp) fun i => ?_
  simp only [Fin.getElem_fin, List.getElem_ofFn]
  rfl

theorem sr_sum2 (z : ℝ) (a b : Expr) : (sr z).sum [a, b] = .sum 2 ![a, b] := sr_sum z (by simp)

variable {K : Type} {T : Tape K}

/-- The draws lose at most `δ` at each node. -/
def Near (T : Tape K) (draw : K → ℕ) (δ : ℝ) : Prop :=
  ∀ n f k, Repr T (.sum n f) k → 0 < n → ∃ hd : draw k < n, ∀ j : Fin n, (f j).value ≤ (f ⟨draw k, hd⟩).value + δ

theorem near_of_gumbel {pick : List ℝ → ℕ} (hp : Autoregressive.IsArgmaxIdx pick) {noise : ℕ → ℕ → ℝ} {temp : ℝ} (ht : 0 < temp) {draw : K → ℕ}
    (h : GumbelDraws T pick noise temp draw) {δ : ℝ} (hδ : ∀ l i j, |noise l i - noise l j| ≤ δ) : Near T draw δ := by
  intro n f k hr hn
  have h1 := h n f k hr
  set xs := List.ofFn fun i : Fin n => ((f i).value + noise (Expr.level (.sum n f)) i) / temp with hxs
  have hlen : xs.length = n := by simp [hxs]
  obtain ⟨h2, h3⟩ := hp xs (by intro hc; rw [hc] at hlen; simp at hlen; omega)
  rw [← h1, hlen] at h2
  refine ⟨h2, fun j => ?_⟩
  have h4 := h3 (((f j).value + noise (Expr.level (.sum n f)) j) / temp) (by rw [hxs, List.mem_ofFn]; exact ⟨j, rfl⟩)
  rw [← h1, List.getD_eq_getElem _ _ (by omega)] at h4
  simp only [hxs, List.getElem_ofFn] at h4
  rw [div_le_div_iff_of_pos_right ht] at h4
  have h5 := (abs_le.1 (hδ (Expr.level (.sum n f)) (draw k) j)).2
  linarith

theorem coeff_ge {draw : K → ℕ} {δ : ℝ} (hδ : 0 ≤ δ) {W : ℕ} (hW : 0 < W) (h : Near T draw δ) : ∀ (e : Expr) (k : K), Repr T e k → e.NoEmpty → e.Width W →
    Real.exp e.value * (Real.exp (-δ) / W) ^ e.cnt ≤ coeff (grad T draw e k) e.poly
  | .leaf v id, k, hr, he, hw => by
    rw [grad, Expr.poly, Expr.value, Expr.cnt, pow_zero, mul_one, coeff_C_mul, coeff_X, if_pos rfl, mul_one]
  | .const v, k, hr, he, hw => by
    rw [grad, Expr.poly, Expr.value, Expr.cnt, pow_zero, mul_one, coeff_C, if_pos rfl]
  | .mul a b, k, hr, he, hw => by
    obtain ⟨ka, kb, h1, h2, h3, h4⟩ := hr
    have ia := coeff_ge hδ hW h a ka h2 he.1 hw.1
    have ib := coeff_ge hδ hW h b kb h3 he.2 hw.2
    rw [grad_mul draw h1, Expr.poly, Expr.value, Expr.cnt, coeff_mul, pow_add, Real.exp_add]
    calc _ = (Real.exp a.value * (Real.exp (-δ) / W) ^ a.cnt) * (Real.exp b.value * (Real.exp (-δ) / W) ^ b.cnt) := by ring
      _ ≤ coeff (grad T draw a ka) a.poly * coeff (grad T draw b kb) b.poly := mul_le_mul ia ib (by positivity) (Expr.poly_nonneg _ _)
      _ ≤ _ := single_le_sum (f := fun x : Ev × Ev => coeff x.1 a.poly * coeff x.2 b.poly)
        (fun x _ => mul_nonneg (Expr.poly_nonneg _ _) (Expr.poly_nonneg _ _)) (mem_antidiagonal.2 rfl : (grad T draw a ka, grad T draw b kb) ∈ _)
  | .sum n f, k, hr, he, hw => by
    obtain ⟨hd, h5⟩ := h n f k hr he.1
    obtain ⟨c, h1, h2, h3⟩ := hr
    have ih := coeff_ge hδ hW h (f ⟨draw k, hd⟩) (c ⟨draw k, hd⟩) (h2 _) (he.2 _) (hw.2 _)
    have hr1 : Real.exp (-δ) / W ≤ 1 := by
      rw [div_le_one (by positivity)]
      exact (Real.exp_le_one_iff.2 (by linarith)).trans (by exact_mod_cast hW)
    rw [grad_sum draw h1 hd, Expr.poly, Expr.value, Expr.cnt, coeff_sum, Expr.exp_lse_ofFn he.1]
    refine le_trans ?_ (single_le_sum (f := fun i => coeff (grad T draw (f ⟨draw k, hd⟩) (c ⟨draw k, hd⟩)) (f i).poly)
      (fun i _ => Expr.poly_nonneg _ _) (mem_univ ⟨draw k, hd⟩))
    refine le_trans ?_ ih
    have h6 : ∑ i, Real.exp (f i).value ≤ W * (Real.exp δ * Real.exp (f ⟨draw k, hd⟩).value) := by
      calc _ ≤ ∑ i : Fin n, Real.exp δ * Real.exp (f ⟨draw k, hd⟩).value := sum_le_sum fun i _ => by
            rw [← Real.exp_add]; exact Real.exp_le_exp.2 (by linarith [h5 i])
        _ = n * (Real.exp δ * Real.exp (f ⟨draw k, hd⟩).value) := by simp
        _ ≤ _ := mul_le_mul_of_nonneg_right (by exact_mod_cast hw.1) (by positivity)
    have h7 : (∑ i, Real.exp (f i).value) * (Real.exp (-δ) / W) ≤ Real.exp (f ⟨draw k, hd⟩).value := by
      have hW' : (0 : ℝ) < W := by exact_mod_cast hW
      rw [← mul_div_assoc, div_le_iff₀ hW', Real.exp_neg]
      have := mul_le_mul_of_nonneg_right h6 (inv_pos.2 (Real.exp_pos δ)).le
      refine this.trans (le_of_eq ?_)
      field_simp
    rw [pow_succ, ← mul_assoc, mul_right_comm]
    have h8 : (Real.exp (-δ) / W) ^ (univ.sup fun i => (f i).cnt) ≤ (Real.exp (-δ) / W) ^ (f ⟨draw k, hd⟩).cnt :=
      pow_le_pow_of_le_one (by positivity) hr1 (le_sup (f := fun i => (f i).cnt) (mem_univ _))
    exact mul_le_mul h7 h8 (by positivity) (Real.exp_nonneg _)
  | .setData x v, k, hr, he, hw => by
    obtain ⟨kx, h1, h2, h3⟩ := hr
    have ih := coeff_ge hδ hW h x kx h2 he hw
    rw [grad_setData draw h1, Expr.poly, Expr.value, Expr.cnt, coeff_C_mul]
    refine le_trans (le_of_eq ?_) (mul_le_mul_of_nonneg_left ih (Real.exp_nonneg _))
    rw [← mul_assoc, ← Real.exp_add, sub_add_cancel]

/-- An event that is drawn with small loss is the event of one of the structures. -/
theorem event_of_near {e : Expr} {b : ℕ} {ι : Type} [Fintype ι] {ev : ι → Ev} {wt : ι → ℝ} {ε : ℝ} (R : RowLaw e b ev wt ε) {draw : K → ℕ} {δ : ℝ} (hδ : 0 ≤ δ)
    {W n : ℕ} (hW : 0 < W) (hw : e.Width W) (hc : e.cnt ≤ n) (h : Near T draw δ) (hs : 1 - Real.exp (-ε) < (Real.exp (-δ) / W) ^ n) {k : K} (hr : Repr T e k) :
    ∃ y, grad T draw e k = ev y := by
  classical
  by_contra hne
  push Not at hne
  have h1 := coeff_ge hδ hW h e k hr R.noEmpty hw
  have h2 : coeff (grad T draw e k) (∑ y, monomial (ev y) (wt y)) = 0 := by
    rw [coeff_sum]
    exact sum_eq_zero fun y _ => by rw [coeff_monomial, if_neg fun hc => hne y hc.symm]
  have heval : ∀ q : MvPolynomial (List ℕ) ℝ, eval (fun _ => 1) q = ∑ m ∈ q.support, coeff m q := fun q => by
    rw [eval_eq]; simp
  set q := e.poly - ∑ y, monomial (ev y) (wt y) with hq
  have hq0 : ∀ m, 0 ≤ coeff m q := fun m => by rw [hq, coeff_sub]; linarith [(R.cle m).2]
  have h3 : coeff (grad T draw e k) q ≤ eval (fun _ => 1) q := by
    rw [heval]
    by_cases hm : grad T draw e k ∈ q.support
    · exact single_le_sum (f := fun m => coeff m q) (fun m _ => hq0 m) hm
    · rw [notMem_support_iff.1 hm]; exact sum_nonneg fun m _ => hq0 m
  have h4 : eval (fun _ => 1) q = Real.exp e.value - ∑ y, wt y := by
    rw [hq, map_sub, Expr.eval_poly e R.noEmpty, map_sum]
    congr 1
    exact sum_congr rfl fun y _ => by simp [eval_monomial]
  rw [hq, coeff_sub, h2, sub_zero, ← hq, h4] at h3
  have h5 : Real.exp e.value * Real.exp (-ε) ≤ ∑ y, wt y := by
    have := mul_le_mul_of_nonneg_right R.value (Real.exp_nonneg (-ε))
    rwa [mul_assoc (∑ y, wt y), ← Real.exp_add ε, add_neg_cancel, Real.exp_zero, mul_one] at this
  have hr1 : Real.exp (-δ) / W ≤ 1 := by
    rw [div_le_one (by positivity)]
    exact (Real.exp_le_one_iff.2 (by linarith)).trans (by exact_mod_cast hW)
  have h6 : (Real.exp (-δ) / W) ^ n ≤ (Real.exp (-δ) / W) ^ e.cnt := pow_le_pow_of_le_one (by positivity) hr1 hc
  have h7 : Real.exp e.value * (1 - Real.exp (-ε)) < Real.exp e.value * (Real.exp (-δ) / W) ^ e.cnt :=
    mul_lt_mul_of_pos_left (hs.trans_le h6) (Real.exp_pos _)
  linarith

theorem repr_batch (draw : K → ℕ) : ∀ (es : List Expr) (k : K), Repr T (batchSum es) k → ∃ kb : ℕ → K, (∀ b (hb : b < es.length), Repr T es[b] (kb b)) ∧
    grad T draw (batchSum es) k = ∑ b : Fin es.length, grad T draw es[b] (kb b)
  | [], k, h => ⟨fun _ => k, by simp, by simp [batchSum, grad]⟩
  | e :: es, k, h => by
    obtain ⟨ka, kr, h1, h2, h3, h4⟩ := h
    obtain ⟨kb, h5, h6⟩ := repr_batch draw es kr h3
    refine ⟨fun b => if b = 0 then ka else kb (b - 1), fun b hb => ?_, ?_⟩
    · cases b with
      | zero => simpa using h2
      | succ b => simpa using h5 b (by simpa using hb)
    · rw [show batchSum (e :: es) = .mul e (batchSum es) from rfl, grad_mul draw h1, h6]
      exact (Fin.sum_univ_succ (fun b : Fin (e :: es).length => grad T draw (e :: es)[b] (if (b : ℕ) = 0 then ka else kb (b - 1)))).symm

theorem grad_rename {pick : List ℝ → ℕ} {noise : ℕ → ℕ → ℝ} {temp : ℝ} {draw : K → ℕ} (h : GumbelDraws T pick noise temp draw) (φ : List ℕ → List ℕ) :
    ∀ (e : Expr) (k k' : K), Repr T e k → Repr T (e.rename φ) k' → grad T draw (e.rename φ) k' = (grad T draw e k).mapDomain φ
  | .leaf v id, k, k', hr, hr' => by rw [Expr.rename, grad, grad, Finsupp.mapDomain_single]
  | .const v, k, k', hr, hr' => by rw [Expr.rename, grad, grad, Finsupp.mapDomain_zero]
  | .mul a b, k, k', hr, hr' => by
    obtain ⟨ka, kb, h1, h2, h3, h4⟩ := hr
    rw [Expr.rename] at hr' ⊢
    obtain ⟨ka', kb', h1', h2', h3', h4'⟩ := hr'
    rw [grad_mul draw h1, grad_mul draw h1', Finsupp.mapDomain_add, grad_rename h φ a ka ka' h2 h2', grad_rename h φ b kb kb' h3 h3']
  | .sum n f, k, k', hr, hr' => by
    have hd := h n f k hr
    rw [Expr.rename] at hr' ⊢
    have hd' := h n _ k' hr'
    have hl : Expr.level (.sum n fun i => (f i).rename φ) = Expr.level (.sum n f) := Expr.rename_level φ (.sum n f)
    have hdd : draw k' = draw k := by
      rw [hd, hd', hl]
      simp only [Expr.rename_value]
    obtain ⟨c, h1, h2, h3⟩ := hr
    obtain ⟨c', h1', h2', h3'⟩ := hr'
    by_cases hlt : draw k < n
    · rw [grad_sum draw h1 hlt, grad_sum draw h1' (hdd ▸ hlt)]
      simp only [hdd]
      exact grad_rename h φ _ _ _ (h2 _) (h2' _)
    · rw [grad, h1', grad, h1]
      simp [hlt, hdd]
  | .setData x v, k, k', hr, hr' => by
    obtain ⟨kx, h1, h2, h3⟩ := hr
    rw [Expr.rename] at hr' ⊢
    obtain ⟨kx', h1', h2', h3'⟩ := hr'
    rw [grad_setData draw h1, grad_setData draw h1', grad_rename h φ x kx kx' h2 h2']

/-- Entries of other rows get nothing. -/
theorem grad_other {e : Expr} {b : ℕ} {ι : Type} [Fintype ι] {ev : ι → Ev} {wt : ι → ℝ} {ε : ℝ} (R : RowLaw e b ev wt ε) (draw : K → ℕ) {k : K} (hr : Repr T e k)
    [Fintype K] (id : List ℕ) (hid : id.head? ≠ some b) : grad T draw e k id = 0 := by
  classical
  refine grad_leaves draw id e k hr fun hc => ?_
  obtain ⟨m, hm, h1⟩ := Expr.leaf_in_supp e R.noEmpty id hc
  have h2 := R.degree id
  rw [if_neg hid, degreeOf_le_iff] at h2
  have := h2 m (mem_support_iff.2 (Expr.poly_pos e m hm).ne')
  omega

/-- The hypotheses of a Gumbel pass can be met for every noise. -/
theorem gumbel_exists (es : List Expr) (pick : List ℝ → ℕ) (noise : ℕ → ℕ → ℝ) (temp : ℝ) : ∃ r, IsGumbelCRF es pick noise temp r := by
  classical
  obtain ⟨K, fK, T, k, h⟩ := tape_exists (batchSum es)
  let draw : K → ℕ := fun κ => if hκ : ∃ x : Σ n, (Fin n → Expr), Repr T (.sum x.1 x.2) κ then
    pick (List.ofFn fun i : Fin hκ.choose.1 => ((hκ.choose.2 i).value + noise (Expr.level (.sum hκ.choose.1 hκ.choose.2)) i) / temp) else 0
  obtain ⟨G, hG⟩ := backward_exists (T := T) (sendOne_local draw) k
  refine ⟨_, K, fK, inferInstance, T, k, draw, G, h, ?_, hG, rfl⟩
  intro n f κ hr
  have hκ : ∃ x : Σ n, (Fin n → Expr), Repr T (.sum x.1 x.2) κ := ⟨⟨n, f⟩, hr⟩
  simp only [draw, dif_pos hκ]
  have := repr_unique _ _ κ hκ.choose_spec hr
  have key : ∀ (x : Σ n, (Fin n → Expr)), Expr.sum x.1 x.2 = Expr.sum n f →
      (List.ofFn fun i : Fin x.1 => ((x.2 i).value + noise (Expr.level (.sum x.1 x.2)) i) / temp) =
        List.ofFn fun i : Fin n => ((f i).value + noise (Expr.level (.sum n f)) i) / temp := by
    rintro ⟨m, g⟩ he
    cases he
    rfl
  rw [key _ this]

/-! ### The linear chain -/

section chain
variable {C : ℕ}
open LinearChain Struct

theorem scan_all {Q : ℕ → Expr → Prop} (z : ℝ) (hQ : ∀ c (f g : Fin C → Expr), (∀ k, Q c (f k)) → (∀ k, Q c (g k)) → Q (c + 1) (.sum C fun k => .mul (f k) (g k))) (k : ℕ) :
    ∀ (chart : ℕ → Fin C → Fin C → Expr) (c : ℕ), (∀ n i j, Q c (chart n i j)) → ∀ n i j, Q (c + k) (scan (sr z) k chart n i j) := by
  induction k with
  | zero => intro chart c h n i j; exact h n i j
  | succ k ih =>
    intro chart c h n i j
    rw [show c + (k + 1) = c + 1 + k by omega]
    refine ih (scanStep (sr z) chart) (c + 1) (fun n i j => ?_) n i j
    rw [scanStep, SR.matmul, sr_sum z rfl]
    exact hQ c _ _ (fun k => h _ i k) fun k => h _ k j

theorem core_all {Q : ℕ → Expr → Prop} (z : ℝ) (hQ : ∀ c (f g : Fin C → Expr), (∀ k, Q c (f k)) → (∀ k, Q c (g k)) → Q (c + 1) (.sum C fun k => .mul (f k) (g k)))
    (N logN : ℕ) (lens : ℕ → ℕ) (p : ℕ → ℕ → Fin C → Fin C → ℝ) (b : ℕ)
    (h0 : ∀ v w x, (x = .const 0 ∨ ∃ u id, x = .leaf u id) → Q 0 (.sum 2 ![.const v, .setData x w]))
    {Q' : Expr → Prop} (ht : ∀ f : Fin C → Fin C → Expr, (∀ i j, Q logN (f i j)) → Q' (.sum C fun i => .sum C fun j => f i j)) :
    Q' (core (sr z) N logN lens (LinearChainSample.leafRow p) b) := by
  rw [core, total]
  simp only [sr_sum z rfl]
  refine ht _ fun i j => ?_
  have := scan_all (Q := Q) z hQ logN (masked (sr z) N (2 ^ logN) lens (LinearChainSample.leafRow p) b) 0 ?_ 0 i j
  · simpa using this
  · intro n i j
    rw [masked]
    simp only [unflat]
    rw [sr_sum2]
    refine h0 _ _ _ ?_
    simp only [flat, big]
    split_ifs
    · exact .inr ⟨_, _, rfl⟩
    · exact .inl rfl

theorem core_cnt (z : ℝ) (N logN : ℕ) (lens : ℕ → ℕ) (p : ℕ → ℕ → Fin C → Fin C → ℝ) (b : ℕ) :
    (core (sr z) N logN lens (LinearChainSample.leafRow p) b).cnt ≤ 2 ^ (logN + 1) + 1 := by
  refine core_all (Q := fun c e => e.cnt + 1 ≤ 2 ^ (c + 1)) (Q' := fun e => e.cnt ≤ 2 ^ (logN + 1) + 1) z ?_ N logN lens p b ?_ ?_
  · intro c f g hf hg
    rw [Expr.cnt, pow_succ]
    have : (univ.sup fun i => (Expr.mul (f i) (g i)).cnt) ≤ 2 ^ (c + 1) * 2 - 2 := Finset.sup_le fun i _ => by
      rw [Expr.cnt]; have := hf i; have := hg i; omega
    have : 1 ≤ 2 ^ (c + 1) := Nat.one_le_two_pow
    omega
  · intro v w x hx
    have : x.cnt = 0 := by
      rcases hx with rfl | ⟨u, id, rfl⟩ <;> rfl
    rw [Expr.cnt]
    have h2 : (univ.sup fun i : Fin 2 => (![Expr.const v, Expr.setData x w] i).cnt) ≤ 0 := Finset.sup_le fun i _ => by
      fin_cases i
      · simp [Expr.cnt]
      · simp [Expr.cnt, this]
    omega
  · intro f hf
    rw [Expr.cnt]
    have : (univ.sup fun i => (Expr.sum C fun j => f i j).cnt) ≤ 2 ^ (logN + 1) := Finset.sup_le fun i _ => by
      rw [Expr.cnt]
      have : (univ.sup fun j => (f i j).cnt) ≤ 2 ^ (logN + 1) - 1 := Finset.sup_le fun j _ => by have := hf i j; omega
      have : 1 ≤ 2 ^ (logN + 1) := Nat.one_le_two_pow
      omega
    omega

theorem core_width (z : ℝ) (N logN : ℕ) (lens : ℕ → ℕ) (p : ℕ → ℕ → Fin C → Fin C → ℝ) (b : ℕ) :
    (core (sr z) N logN lens (LinearChainSample.leafRow p) b).Width (C + 1) ∨ C = 0 := by
  rcases Nat.eq_zero_or_pos C with h | hC
  · exact .inr h
  left
  refine core_all (Q := fun _ e => e.Width (C + 1)) (Q' := fun e => e.Width (C + 1)) z ?_ N logN lens p b ?_ ?_
  · intro c f g hf hg
    exact ⟨by omega, fun i => ⟨hf i, hg i⟩⟩
  · intro v w x hx
    have hx' : x.Width (C + 1) := by
      rcases hx with rfl | ⟨u, id, rfl⟩ <;> trivial
    refine ⟨by omega, fun i => ?_⟩
    fin_cases i
    · trivial
    · exact hx'
  · intro f hf
    exact ⟨by omega, fun i => ⟨by omega, fun j => hf i j⟩⟩

theorem level_sum {n l : ℕ} (hn : 0 < n) {f : Fin n → Expr} (h : ∀ i, (f i).level = l) : (Expr.sum n f).level = l + 1 := by
  rw [Expr.level]
  congr 1
  refine le_antisymm (Finset.sup_le fun i _ => (h i).le) ?_
  rw [← h ⟨0, hn⟩]
  exact le_sup (f := fun i => (f i).level) (mem_univ _)

/-- The entries of round `k` of the scan have level `k + 1`: one call of `sum` per level. -/
theorem scan_level (hC : 0 < C) (z : ℝ) (N binN : ℕ) (lens : ℕ → ℕ) (p : ℕ → ℕ → Fin C → Fin C → ℝ) (b k n : ℕ) (i j : Fin C) :
    (scan (sr z) k (masked (sr z) N binN lens (LinearChainSample.leafRow p) b) n i j).level = k + 1 := by
  have := scan_all (Q := fun c e => e.level = c + 1) (C := C) z ?_ k (masked (sr z) N binN lens (LinearChainSample.leafRow p) b) 0 ?_ n i j
  · simpa using this
  · intro c f g hf hg
    exact level_sum hC fun i => by rw [Expr.level, hf, hg, max_self]
  · intro n i j
    rw [masked]
    simp only [unflat]
    rw [sr_sum2]
    refine level_sum (by omega) fun i => ?_
    fin_cases i
    · rfl
    · simp only [flat, big]
      split_ifs <;> rfl

theorem scan_rename (z : ℝ) (φ : List ℕ → List ℕ) (k : ℕ) : ∀ (c c' : ℕ → Fin C → Fin C → Expr) (M : ℕ),
    (∀ n < M * 2 ^ k, ∀ i j, c' n i j = (c n i j).rename φ) → ∀ n < M, ∀ i j, scan (sr z) k c' n i j = (scan (sr z) k c n i j).rename φ := by
  induction k with
  | zero => intro c c' M h n hn i j; simpa [scan] using h n (by simpa using hn) i j
  | succ k ih =>
    intro c c' M h n hn i j
    refine ih _ _ M (fun n hn i j => ?_) n hn i j
    have hb : 2 * n + 1 < M * 2 ^ (k + 1) := by rw [pow_succ, ← mul_assoc]; omega
    simp only [scanStep, SR.matmul]
    rw [sr_sum z rfl, sr_sum z rfl, Expr.rename]
    congr 1
    funext k'
    rw [h _ hb, h (2 * n) (by omega)]
    rfl

/-- Rows with the same potentials and length record the same expression. -/
theorem core_rename (z : ℝ) (N logN : ℕ) (lens : ℕ → ℕ) (p : ℕ → ℕ → Fin C → Fin C → ℝ) (b b' : ℕ) (hl : lens b' = lens b)
    (hp : ∀ n < N - 1, ∀ i j, p b' n i j = p b n i j) (φ : List ℕ → List ℕ) (hφ : ∀ t, φ (b :: t) = b' :: t) :
    core (sr z) N logN lens (LinearChainSample.leafRow p) b' = (core (sr z) N logN lens (LinearChainSample.leafRow p) b).rename φ := by
  have key := scan_rename (C := C) z φ logN (masked (sr z) N (2 ^ logN) lens (LinearChainSample.leafRow p) b)
    (masked (sr z) N (2 ^ logN) lens (LinearChainSample.leafRow p) b') 1 (fun n hn i j => by
      have hn' : n < 2 ^ logN := by omega
      rw [LinearChainProofs.masked_apply _ _ _ _ _ _ _ hn', LinearChainProofs.masked_apply _ _ _ _ _ _ _ hn', sr_sum2, sr_sum2, Expr.rename]
      congr 1
      funext s
      fin_cases s
      · simp only [LinearChainProofs.maskedC, hl]
        rfl
      · show LinearChainProofs.maskedL _ _ _ _ _ _ _ = Expr.rename φ (LinearChainProofs.maskedL _ _ _ _ _ _ _)
        simp only [LinearChainProofs.maskedL, hl]
        by_cases hlt : n < N - 1
        · simp only [if_pos hlt, LinearChainSample.leafRow, hp n hlt]
          simp only [sr, Expr.rename, hφ, SR.fill]
          split_ifs <;> rfl
        · simp only [if_neg hlt]
          simp only [sr, Expr.rename, SR.fill]) 0 (by omega)
  rw [core, core, total, total]
  simp only [sr_sum z rfl, key]
  rfl

end chain

end Sampling
