import Verif.Proofs.WithoutReplacement
import Verif.Props.BeamSearch
import Mathlib.Analysis.SpecialFunctions.Log.Basic
import Mathlib.Tactic.IntervalCases
import Mathlib.Tactic.FinCases

/-! Two slots on the uniform distribution over the four sequences of two out of two classes: the two paths begin with the same class too often. -/

open Spec

noncomputable section
namespace WithoutReplacement
open _root_.Autoregressive Semirings _root_.BeamSearch Props.Autoregressive Props.BeamSearch

theorem exp_two (xs : List ℝ) (hx : xs.length = 2) (c : ℕ) (hc : c < 2) :
    Real.exp (arNorm true xs c) = Real.exp (xs.getD c 0) / (Real.exp (xs.getD 0 0) + Real.exp (xs.getD 1 0)) := by
  rw [exp_arNorm hx c hc, Finset.sum_range_succ, Finset.sum_range_one]

/-- The smaller of two probabilities. -/
theorem lower_two {xs : List ℝ} (hx : xs.length = 2) {x : ℝ} (h0 : 0 < x) (h1 : x < 1) (h : |xs.getD 1 0 - xs.getD 0 0| ≤ Real.log ((1 - x) / x)) (c : ℕ) (hc : c < 2) :
    Real.log x ≤ arNorm true xs c := by
  rw [← Real.exp_le_exp, Real.exp_log h0, exp_two xs hx c hc]
  have hp : 0 < (1 - x) / x := div_pos (by linarith) h0
  have key : ∀ a b : ℝ, a - b ≤ Real.log ((1 - x) / x) → x ≤ Real.exp b / (Real.exp a + Real.exp b) := by
    intro a b hab
    have : Real.exp (a - b) ≤ (1 - x) / x := by rw [← Real.exp_log hp]; exact Real.exp_le_exp.2 hab
    rw [Real.exp_sub, div_le_div_iff₀ (Real.exp_pos _) h0] at this
    rw [le_div_iff₀ (by positivity)]
    nlinarith
  obtain ⟨h2, h3⟩ := abs_le.1 h
  interval_cases c
  · rw [add_comm]; exact key _ _ h3
  · exact key _ _ (by linarith)

/-- The larger one. -/
theorem upper_two {xs : List ℝ} (hx : xs.length = 2) {y : ℝ} (h0 : 0 < y) (h : y = 1 ∨ y < 1 ∧ |xs.getD 1 0 - xs.getD 0 0| ≤ Real.log (y / (1 - y))) (c : ℕ) (hc : c < 2) :
    arNorm true xs c ≤ Real.log y := by
  rw [← Real.exp_le_exp, Real.exp_log h0, exp_two xs hx c hc]
  have key : ∀ a b : ℝ, (y = 1 ∨ y < 1 ∧ b - a ≤ Real.log (y / (1 - y))) → Real.exp b / (Real.exp a + Real.exp b) ≤ y := by
    rintro a b (rfl | ⟨h1, hab⟩)
    · rw [div_le_one (by positivity)]; have := Real.exp_pos a; linarith
    · have h2 : 0 < 1 - y := by linarith
      have : Real.exp (b - a) ≤ y / (1 - y) := by rw [← Real.exp_log (div_pos h0 h2)]; exact Real.exp_le_exp.2 hab
      rw [Real.exp_sub, div_le_div_iff₀ (Real.exp_pos _) h2] at this
      rw [div_le_iff₀ (by positivity)]
      nlinarith
  have h' : y = 1 ∨ y < 1 ∧ (xs.getD 1 0 - xs.getD 0 0 ≤ Real.log (y / (1 - y)) ∧ xs.getD 0 0 - xs.getD 1 0 ≤ Real.log (y / (1 - y))) :=
    h.imp_right fun ⟨h1, h2⟩ => ⟨h1, by have := abs_le.1 h2; exact ⟨this.2, by linarith [this.1]⟩⟩
  interval_cases c
  · rw [add_comm]; exact key _ _ (h'.imp_right fun h => ⟨h.1, h.2.2⟩)
  · exact key _ _ (h'.imp_right fun h => ⟨h.1, h.2.1⟩)

/-- The noisy logits of the uniform model are the noise. -/
theorem noisy_flat (z : ℕ → ℕ → ℕ → ℝ) (k b : ℕ) (p : List ℕ) :
    (noisy 2 (some z) k b (arLogits (flatStep 2) () (.hard 0) p)).length = 2 ∧ ∀ c < 2, (noisy 2 (some z) k b (arLogits (flatStep 2) () (.hard 0) p)).getD c 0 = z k b c := by
  refine ⟨by simp [noisy], fun c hc => ?_⟩
  rw [noisy_getD z k b _ hc]
  interval_cases c <;> simp [arLogits, flatStep]

theorem log_half_bound : -100000 < Real.log (1 / 2) + Real.log (1 / 10) := by
  have h : Real.log (1 / 2) = -Real.log 2 := by rw [one_div, Real.log_inv]
  have h' : Real.log (1 / 10) = -Real.log 10 := by rw [one_div, Real.log_inv]
  have h1 := Real.log_le_sub_one_of_pos (show (0 : ℝ) < 2 by norm_num)
  have h2 := Real.log_le_sub_one_of_pos (show (0 : ℝ) < 10 by norm_num)
  rw [h, h']; linarith

/-- If the first round has a clear winner, the winner's continuations are both good, and the loser's are not better than `y`, then both paths continue the winner. -/
theorem same_first {sel : List ℝ → List ℕ} (z : ℕ → ℕ → ℕ → ℕ → ℝ) {s : ℕ → Loop Unit}
    (h0 : s 0 = ⟨fun k _ => (kmaxSR 2 sel).one k, List.replicate (2 * 2) (.hard 0), (uniform 2 2 true).expand 2, []⟩)
    (hs : ∀ t, ∃ r, (s (t + 1)).rounds = (s t).rounds ++ [r] ∧ ∀ b < 2, RoundFacts (uniform 2 2 true) (flatStep 2) (kmaxSR 2 sel) (some (z t)) () (s t) (s (t + 1)) r b)
    {b : ℕ} (hb : b < 2) {x y : ℝ} (hx : 1 / 10 ≤ x) (hx1 : x < 1) (hy : 0 < y) (hR : Real.log (y / x) < |z 0 0 b 1 - z 0 0 b 0|)
    (hx0 : |z 1 0 b 1 - z 1 0 b 0| ≤ Real.log ((1 - x) / x)) (hy0 : y = 1 ∨ y < 1 ∧ |z 1 1 b 1 - z 1 1 b 0| ≤ Real.log (y / (1 - y))) :
    (hist (s 2).rounds 0 b).2.getD 0 0 = (hist (s 2).rounds 1 b).2.getD 0 0 := by
  have hxp : 0 < x := by linarith
  have hy1 : y ≤ 1 := by rcases hy0 with h | h <;> linarith [h]
  obtain ⟨r0, e0, f0⟩ := hs 0
  obtain ⟨r1, e1, f1⟩ := hs 1
  replace f0 := f0 b hb
  replace f1 := f1 b hb
  have hz0 : (kmaxSR 2 sel).size = 2 := rfl
  have k0 : 0 < (kmaxSR 2 sel).size := by rw [hz0]; norm_num
  have k1 : 1 < (kmaxSR 2 sel).size := by rw [hz0]; norm_num
  have hC : (uniform 2 2 true).nClasses = 2 := rfl
  have b00 : (s 0).beam 0 b = 0 := by rw [h0]; simp [kmaxSR]
  have b01 : (s 0).beam 1 b = -100000 := by rw [h0]; simp [kmaxSR, negInf]
  -- the logits of the first round
  set v : List ℝ := noisy 2 (some (z 0)) 0 b (arLogits (flatStep 2) () (.hard 0) (hist (s 0).rounds 0 b).2) with hv
  obtain ⟨v1, v2⟩ := noisy_flat (z 0) 0 b (hist (s 0).rounds 0 b).2
  have hl0 : ∀ c < 2, r0.logits 0 b c = arNorm true v c := fun c hc => f0.logits 0 k0 c hc
  have hl0' : ∀ c < 2, r0.logits 1 b c ≤ 0 := fun c hc => by
    have h := f0.logits 1 k1 c hc
    have h2 := upper_two (noisy_flat (z 0) 1 b (hist (s 0).rounds 1 b).2).1 one_pos (Or.inl rfl) c hc
    rw [Real.log_one] at h2
    rw [h]; exact h2
  have hcand : ∀ c < 2, arNorm true v c ≤ (s 1).beam 0 b := fun c hc => by
    rcases f0.best 0 k0 c hc with ⟨k, hk, hkp, hkt⟩ | hle
    · obtain ⟨_, c', hc', ht, hbm⟩ := f0.pick k hk
      rw [hkt] at ht
      rw [hkp, b00, zero_add, ← Tok.hard.inj ht, hl0 c hc] at hbm
      have h3 : (s 1).beam k b ≤ (s 1).beam 0 b := f0.sorted 0 k (Nat.zero_le _) hk
      linarith
    · have := hle 0 k0
      rw [b00, zero_add, hl0 c hc] at this
      exact this
  have hhalf : Real.log (1 / 2) ≤ (s 1).beam 0 b := by
    rcases le_total (v.getD 0 0) (v.getD 1 0) with h | h
    · refine le_trans ?_ (hcand 1 (by norm_num))
      rw [← Real.exp_le_exp, Real.exp_log (by norm_num), exp_two v v1 1 (by norm_num), div_le_div_iff₀ (by norm_num) (by positivity)]
      have := Real.exp_le_exp.2 h; linarith
    · refine le_trans ?_ (hcand 0 (by norm_num))
      rw [← Real.exp_le_exp, Real.exp_log (by norm_num), exp_two v v1 0 (by norm_num), div_le_div_iff₀ (by norm_num) (by positivity)]
      have := Real.exp_le_exp.2 h; linarith
  have hb2 := log_half_bound
  have hlx : Real.log (1 / 10) ≤ Real.log x := Real.log_le_log (by norm_num) hx
  have hlx0 : Real.log x ≤ 0 := Real.log_nonpos hxp.le hx1.le
  have hlh : Real.log (1 / 10) ≤ 0 := Real.log_nonpos (by norm_num) (by norm_num)
  -- the second slot after the first round
  have hgap : (s 1).beam 1 b ≤ -100000 ∨ (s 1).beam 1 b + |z 0 0 b 1 - z 0 0 b 0| ≤ (s 1).beam 0 b := by
    obtain ⟨p1, c1, hc1, t1, m1⟩ := f0.pick 1 k1
    obtain ⟨p0, c0, hc0, t0, m0⟩ := f0.pick 0 k0
    have hor : ∀ k, r0.pos k b < (kmaxSR 2 sel).size → r0.pos k b = 0 ∨ r0.pos k b = 1 := fun k h => by rw [hz0] at h; omega
    rcases hor 1 p1 with h1 | h1
    · right
      rcases hor 0 p0 with h0' | h0'
      · rw [h1, b00, zero_add, hl0 c1 hc1] at m1
        rw [h0', b00, zero_add, hl0 c0 hc0] at m0
        have hne : c0 ≠ c1 := fun h => by
          have := f0.inj 0 k0 1 k1 (h0'.trans h1.symm) (by rw [t0, t1, h])
          omega
        have hle := f0.sorted 0 1 (by norm_num) k1
        rw [m0, m1] at hle ⊢
        have d : arNorm true v c0 - arNorm true v c1 = z 0 0 b c0 - z 0 0 b c1 := by
          rw [arNorm, arNorm, if_pos rfl, if_pos rfl, v2 c0 hc0, v2 c1 hc1]; ring
        have habs : |z 0 0 b 1 - z 0 0 b 0| = z 0 0 b c0 - z 0 0 b c1 := by
          rw [hC] at hc0 hc1
          interval_cases c0 <;> interval_cases c1 <;> first | exact absurd rfl hne | skip
          · rw [abs_sub_comm, abs_of_nonneg (by linarith)]
          · rw [abs_of_nonneg (by linarith)]
        rw [habs]; linarith
      · exfalso
        rw [h0', b01] at m0
        have := hl0' c0 hc0
        linarith
    · left
      rw [h1, b01] at m1
      have := hl0' c1 hc1
      linarith
  -- nothing of the second slot is selected in the second round
  have hpos : ∀ k < 2, r1.pos k b = 0 := by
    intro k hk
    by_contra hne
    obtain ⟨p, c, hc, t, m⟩ := f1.pick k hk
    have hp1 : r1.pos k b = 1 := by rw [hz0] at p; omega
    have hmiss : ∃ c' < 2, ∀ k < (kmaxSR 2 sel).size, (s 1).beam 0 b + r1.logits 0 b c' ≤ (s 2).beam k b := by
      by_contra hcon
      push Not at hcon
      have hsel : ∀ c' < 2, ∃ k < (kmaxSR 2 sel).size, r1.pos k b = 0 ∧ r1.tok k b = .hard c' := fun c' hc' => by
        rcases f1.best 0 k0 c' hc' with h | h
        · exact h
        · obtain ⟨k', hk', hlt⟩ := hcon c' hc'
          exact absurd (h k' hk') (not_le.2 hlt)
      obtain ⟨ka, ha, pa, ta⟩ := hsel 0 (by norm_num)
      obtain ⟨kb, hb', pb, tb⟩ := hsel 1 (by norm_num)
      have hab : ka ≠ kb := fun h => by rw [h, tb] at ta; exact absurd (Tok.hard.inj ta) (by norm_num)
      have hka : ka ≠ k := fun h => hne (h ▸ pa)
      have hkb : kb ≠ k := fun h => hne (h ▸ pb)
      rw [hz0] at ha hb'
      omega
    obtain ⟨c', hc', hle⟩ := hmiss
    replace hle := hle k hk
    rw [m, hp1, f1.logits 0 k0 c' hc', f1.logits 1 k1 c hc] at hle
    obtain ⟨w1, w2⟩ := noisy_flat (z 1) 0 b (hist (s 1).rounds 0 b).2
    obtain ⟨u1, u2⟩ := noisy_flat (z 1) 1 b (hist (s 1).rounds 1 b).2
    have hlow := lower_two w1 hxp hx1 (by rw [w2 1 (by norm_num), w2 0 (by norm_num)]; exact hx0) c' hc'
    have hup := upper_two u1 hy (by rw [u2 1 (by norm_num), u2 0 (by norm_num)]; exact hy0) c hc
    have hle' : (s 1).beam 0 b + Real.log x ≤ (s 1).beam 1 b + Real.log y := (add_le_add_right hlow _).trans (hle.trans (add_le_add_right hup _))
    have hly : Real.log y ≤ 0 := Real.log_nonpos hy.le hy1
    rcases hgap with h | h
    · linarith
    · rw [Real.log_div hy.ne' hxp.ne'] at hR
      linarith
  rw [e1, hist_snoc, hist_snoc, hpos 0 (by norm_num), hpos 1 (by norm_num)]
  have hlen : 0 < (hist (s 1).rounds 0 b).2.length := by rw [hist_length, e0]; simp
  rw [List.getD_append _ _ _ _ hlen, List.getD_append _ _ _ _ hlen]

/-! ### Probabilities -/

open MeasureTheory ProbabilityTheory Set

variable {Ω : Type} [MeasurableSpace Ω] {μ : Measure Ω} {g : ℕ × ℕ × ℕ × ℕ → Ω → ℝ}

/-- The distance between the noise of the two classes, at step `t`, slot `k`, row `b`. -/
def dist2 (g : ℕ × ℕ × ℕ × ℕ → Ω → ℝ) (b t k : ℕ) (ω : Ω) : ℝ := |g (t, k, b, 1) ω - g (t, k, b, 0) ω|

theorem dist2_measurable (hg : IsGumbel μ g) (b t k : ℕ) : Measurable (dist2 g b t k) := by
  have : Measurable fun ω => g (t, k, b, 1) ω - g (t, k, b, 0) ω := (hg.measurable _).sub (hg.measurable _)
  exact continuous_abs.measurable.comp this

theorem diff_law (hg : IsGumbel μ g) {i j : ℕ × ℕ × ℕ × ℕ} (hij : i ≠ j) (r : ℝ) : μ {ω | r + g i ω < g j ω} = ENNReal.ofReal (1 / (1 + Real.exp r)) := by
  classical
  have h := GumbelNoise.gumbel_max hg {i, j} (fun a => if a = i then r else 0) (c := j) (by simp)
  simp only [Finset.sum_insert (show i ∉ ({j} : Finset (ℕ × ℕ × ℕ × ℕ)) by simpa using hij), Finset.sum_singleton, if_true, if_neg hij.symm, Real.exp_zero] at h
  rw [add_comm 1, ← h]
  congr 1
  ext ω
  simp only [mem_setOf_eq, Finset.mem_insert, Finset.mem_singleton]
  constructor
  · rintro h1 c (rfl | rfl) hne
    · rw [if_pos rfl]; linarith
    · exact absurd rfl hne
  · intro h1
    have := h1 i (Or.inl rfl) hij
    rw [if_pos rfl] at this
    linarith

theorem dist2_tail (hg : IsGumbel μ g) (b t k : ℕ) {r : ℝ} (hr : 0 ≤ r) : μ {ω | r < dist2 g b t k ω} = ENNReal.ofReal (2 / (1 + Real.exp r)) := by
  have hU : {ω | r < dist2 g b t k ω} = {ω | r + g (t, k, b, 0) ω < g (t, k, b, 1) ω} ∪ {ω | r + g (t, k, b, 1) ω < g (t, k, b, 0) ω} := by
    ext ω
    simp only [dist2, mem_setOf_eq, mem_union, lt_abs]
    constructor
    · rintro (h | h)
      · left; linarith
      · right; linarith
    · rintro (h | h)
      · left; linarith
      · right; linarith
  have hm : MeasurableSet {ω | r + g (t, k, b, 1) ω < g (t, k, b, 0) ω} := measurableSet_lt ((hg.measurable _).const_add _) (hg.measurable _)
  rw [hU, measure_union _ hm, diff_law hg (by simp), diff_law hg (by simp), ← ENNReal.ofReal_add (by positivity) (by positivity)]
  · congr 1; ring
  · refine Set.disjoint_left.2 fun ω h1 h2 => ?_
    simp only [mem_setOf_eq] at h1 h2
    linarith

/-- `|log odds|` of the probability `x`. -/
def lo (x : ℝ) : ℝ := Real.log ((1 - x) / x)

theorem lo_nonneg {x : ℝ} (h0 : 0 < x) (h1 : x ≤ 1 / 2) : 0 ≤ lo x := Real.log_nonneg (by rw [le_div_iff₀ h0]; linarith)

theorem lo_tail {x : ℝ} (h0 : 0 < x) (h1 : x ≤ 1 / 2) : 2 / (1 + Real.exp (lo x)) = 2 * x := by
  rw [lo, Real.exp_log (div_pos (by linarith) h0)]
  field_simp
  ring

theorem lo_anti {x x' : ℝ} (h0 : 0 < x) (h1 : x' < 1) (h : x ≤ x') : lo x' ≤ lo x := by
  refine Real.log_le_log (div_pos (by linarith) (by linarith)) ?_
  rw [div_le_div_iff₀ (by linarith) h0]
  nlinarith

theorem dist2_tail_lo (hg : IsGumbel μ g) (b t k : ℕ) {x : ℝ} (h0 : 0 < x) (h1 : x ≤ 1 / 2) : μ {ω | dist2 g b t k ω ∈ Ioi (lo x)} = ENNReal.ofReal (2 * x) := by
  rw [← lo_tail h0 h1]; exact dist2_tail hg b t k (lo_nonneg h0 h1)

theorem dist2_ioc (hg : IsGumbel μ g) (b t k : ℕ) {x x' : ℝ} (h0 : 0 < x) (h : x ≤ x') (h1 : x' ≤ 1 / 2) :
    μ {ω | dist2 g b t k ω ∈ Ioc (lo x') (lo x)} = ENNReal.ofReal (2 * x' - 2 * x) := by
  have : IsProbabilityMeasure μ := hg.indep.isProbabilityMeasure
  have e : {ω | dist2 g b t k ω ∈ Ioc (lo x') (lo x)} = {ω | dist2 g b t k ω ∈ Ioi (lo x')} \ {ω | dist2 g b t k ω ∈ Ioi (lo x)} := by
    ext ω; simp only [mem_setOf_eq, mem_Ioc, mem_diff, mem_Ioi, not_lt]
  rw [e, measure_diff _ (show MeasurableSet {ω | dist2 g b t k ω ∈ Ioi (lo x)} from dist2_measurable hg b t k measurableSet_Ioi).nullMeasurableSet (measure_ne_top _ _),
    dist2_tail_lo hg b t k (by linarith) h1, dist2_tail_lo hg b t k h0 (by linarith), ENNReal.ofReal_sub _ (by linarith)]
  intro ω hω
  exact (lo_anti h0 (by linarith) h).trans_lt hω

/-- The three distances that matter are independent. -/
theorem three_indep (hg : IsGumbel μ g) (b : ℕ) {E0 E1 E2 : Set ℝ} (m0 : MeasurableSet E0) (m1 : MeasurableSet E1) (m2 : MeasurableSet E2) :
    μ {ω | dist2 g b 0 0 ω ∈ E0 ∧ dist2 g b 1 0 ω ∈ E1 ∧ dist2 g b 1 1 ω ∈ E2} =
      μ {ω | dist2 g b 0 0 ω ∈ E0} * (μ {ω | dist2 g b 1 0 ω ∈ E1} * μ {ω | dist2 g b 1 1 ω ∈ E2}) := by
  classical
  let tk : Fin 3 → ℕ × ℕ := ![(0, 0), (1, 0), (1, 1)]
  let E : Fin 3 → Set ℝ := ![E0, E1, E2]
  have hE : ∀ j, MeasurableSet (E j) := fun j => by fin_cases j <;> assumption
  have htk : Function.Injective tk := by decide
  let S : Fin 3 → Finset (ℕ × ℕ × ℕ × ℕ) := fun j => {((tk j).1, (tk j).2, b, 0), ((tk j).1, (tk j).2, b, 1)}
  have h := GumbelNoise.blocks hg S (fun j => {ω | dist2 g b (tk j).1 (tk j).2 ω ∈ E j}) (fun j => by
    have i0 : ((tk j).1, (tk j).2, b, 0) ∈ S j := by simp [S]
    have i1 : ((tk j).1, (tk j).2, b, 1) ∈ S j := by simp [S]
    refine ⟨{v | |v ⟨_, i1⟩ - v ⟨_, i0⟩| ∈ E j}, ?_, rfl⟩
    have : Measurable fun v : S j → ℝ => |v ⟨_, i1⟩ - v ⟨_, i0⟩| := continuous_abs.measurable.comp (by fun_prop)
    exact this (hE j)) Finset.univ (fun j _ j' _ hne => by
      rw [Finset.disjoint_left]
      intro i h1 h2
      refine hne (htk ?_)
      simp only [S, Finset.mem_insert, Finset.mem_singleton] at h1 h2
      rcases h1 with rfl | rfl <;> rcases h2 with h2 | h2 <;> simp only [Prod.mk.injEq] at h2 <;> exact Prod.ext h2.1 h2.2.1)
  rw [Fin.prod_univ_three] at h
  rw [← mul_assoc]
  refine Eq.trans ?_ h
  congr 1
  ext ω
  simp only [mem_setOf_eq, mem_iInter, Finset.mem_univ, forall_true_left, Fin.forall_fin_succ, Fin.forall_fin_zero_pi]
  simp [tk, E]

/-- The lower bound for the probability of the event of `same_first`. -/
theorem cells (hg : IsGumbel μ g) (b : ℕ) {A : Set Ω}
    (hA : ∀ ω x y, 1 / 10 ≤ x → x < 1 → 0 < y → Real.log (y / x) < dist2 g b 0 0 ω → dist2 g b 1 0 ω ≤ lo x →
      (y = 1 ∨ y < 1 ∧ dist2 g b 1 1 ω ≤ Real.log (y / (1 - y))) → ω ∈ A) : ENNReal.ofReal (1 / 3) < μ A := by
  let x : Fin 4 → ℝ := fun i => ((i : ℕ) + 1) / 10
  let x' : Fin 4 → ℝ := fun i => ((i : ℕ) + 2) / 10
  let y : Fin 2 → ℝ := ![3 / 4, 1]
  let Y : Fin 2 → Set ℝ := ![Ioc (lo (1 / 2)) (lo (1 / 4)), Ioi (lo (1 / 4))]
  have hx0 : ∀ i, 1 / 10 ≤ x i := fun i => by fin_cases i <;> norm_num [x]
  have hxx : ∀ i, x i ≤ x' i := fun i => by fin_cases i <;> norm_num [x, x']
  have hx1 : ∀ i, x' i ≤ 1 / 2 := fun i => by fin_cases i <;> norm_num [x']
  have hy0 : ∀ j, 0 < y j := fun j => by fin_cases j <;> norm_num [y]
  have hyx : ∀ i j, x i ≤ y j := fun i j => by
    have h1 := hxx i
    have h2 := hx1 i
    fin_cases j
    · change _ ≤ (3 / 4 : ℝ); linarith
    · change _ ≤ (1 : ℝ); linarith
  have hmY : ∀ j, MeasurableSet (Y j) := fun j => by
    fin_cases j
    · exact measurableSet_Ioc
    · exact measurableSet_Ioi
  let cell : Fin 4 × Fin 2 → Set Ω := fun p =>
    {ω | dist2 g b 0 0 ω ∈ Ioi (Real.log (y p.2 / x p.1)) ∧ dist2 g b 1 0 ω ∈ Ioc (lo (x' p.1)) (lo (x p.1)) ∧ dist2 g b 1 1 ω ∈ Y p.2}
  have hsub : (⋃ p ∈ (Finset.univ : Finset (Fin 4 × Fin 2)), cell p) ⊆ A := by
    intro ω hω
    simp only [mem_iUnion, Finset.mem_univ, exists_true_left] at hω
    obtain ⟨⟨i, j⟩, h1, h2, h3⟩ := hω
    refine hA ω (x i) (y j) (hx0 i) (by have := hxx i; have := hx1 i; linarith) (hy0 j) h1 h2.2 ?_
    fin_cases j
    · right
      refine ⟨by norm_num [y], ?_⟩
      have : dist2 g b 1 1 ω ≤ lo (1 / 4) := h3.2
      refine this.trans (le_of_eq ?_)
      rw [lo]
      norm_num [y]
    · exact Or.inl rfl
  have hmc : ∀ p ∈ (Finset.univ : Finset (Fin 4 × Fin 2)), MeasurableSet (cell p) := fun p _ =>
    (dist2_measurable hg b 0 0 measurableSet_Ioi).inter ((dist2_measurable hg b 1 0 measurableSet_Ioc).inter (dist2_measurable hg b 1 1 (hmY p.2)))
  have hstep : ∀ i i' : Fin 4, i < i' → x' i ≤ x i' := fun i i' h => by
    have h1 : (i : ℕ) + 1 ≤ (i' : ℕ) := h
    have h2 : ((i : ℕ) : ℝ) + 1 ≤ ((i' : ℕ) : ℝ) := by exact_mod_cast h1
    simp only [x, x']
    linarith
  have hdisx : ∀ (i i' : Fin 4), i < i' → ∀ v, v ∈ Ioc (lo (x' i)) (lo (x i)) → v ∈ Ioc (lo (x' i')) (lo (x i')) → False := fun i i' h v h1 h2 => by
    have := lo_anti (x := x' i) (x' := x i') (by have := hx0 i; have := hxx i; linarith) (by have := hxx i'; have := hx1 i'; linarith) (hstep i i' h)
    have h3 := h1.1
    have h4 := h2.2
    linarith
  have hdis : (↑(Finset.univ : Finset (Fin 4 × Fin 2)) : Set (Fin 4 × Fin 2)).PairwiseDisjoint cell := by
    rintro ⟨i, j⟩ _ ⟨i', j'⟩ _ hne
    refine Set.disjoint_left.2 fun ω h1 h2 => ?_
    rcases lt_trichotomy i i' with h | h | h
    · exact hdisx i i' h _ h1.2.1 h2.2.1
    · have hj : j ≠ j' := fun hj => hne (by rw [h, hj])
      have h3 := h1.2.2
      have h4 := h2.2.2
      have key : ∀ v, v ∈ Ioc (lo (1 / 2)) (lo (1 / 4)) → v ∈ Ioi (lo (1 / 4)) → False := fun v a b => not_lt.2 a.2 b
      fin_cases j <;> fin_cases j'
      · exact hj rfl
      · exact key _ h3 h4
      · exact key _ h4 h3
      · exact hj rfl
    · exact hdisx i' i h _ h2.2.1 h1.2.1
  have hcell : ∀ p, μ (cell p) = ENNReal.ofReal (2 * x p.1 / (x p.1 + y p.2) * (1 / 5 * (1 / 2))) := by
    rintro ⟨i, j⟩
    have hxi : 0 < x i := by have := hx0 i; linarith
    have hyj := hy0 j
    rw [ENNReal.ofReal_mul (by positivity), ENNReal.ofReal_mul (by norm_num)]
    refine (three_indep hg b measurableSet_Ioi measurableSet_Ioc (hmY j)).trans ?_
    have e1 : μ {ω | dist2 g b 0 0 ω ∈ Ioi (Real.log (y j / x i))} = ENNReal.ofReal (2 * x i / (x i + y j)) := by
      refine (dist2_tail hg b 0 0 (Real.log_nonneg (by rw [le_div_iff₀ hxi]; linarith [hyx i j]))).trans ?_
      rw [Real.exp_log (div_pos hyj hxi)]
      congr 1
      field_simp
    have e2 : μ {ω | dist2 g b 1 0 ω ∈ Ioc (lo (x' i)) (lo (x i))} = ENNReal.ofReal (1 / 5) := by
      rw [dist2_ioc hg b 1 0 hxi (hxx i) (hx1 i)]
      congr 1
      simp only [x, x']; ring
    have e3 : μ {ω | dist2 g b 1 1 ω ∈ Y j} = ENNReal.ofReal (1 / 2) := by
      fin_cases j
      · refine (dist2_ioc hg b 1 1 (by norm_num) (by norm_num) (by norm_num)).trans ?_
        norm_num
      · refine (dist2_tail_lo hg b 1 1 (by norm_num) (by norm_num)).trans ?_
        norm_num
    rw [e1, e2, e3]
  refine lt_of_lt_of_le ?_ (measure_mono hsub)
  rw [measure_biUnion_finset hdis hmc]
  simp only [hcell]
  rw [← ENNReal.ofReal_sum_of_nonneg fun p _ => by
    have := hx0 p.1
    have := hy0 p.2
    have : 0 < x p.1 := by linarith
    positivity]
  refine (ENNReal.ofReal_lt_ofReal_iff_of_nonneg (by norm_num)).2 ?_
  rw [Fintype.sum_prod_type]
  simp only [Fin.sum_univ_four, Fin.sum_univ_two, x, y]
  norm_num

end WithoutReplacement
