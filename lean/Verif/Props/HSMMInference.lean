import Verif.Props.SemiMarkovEvents

/-! Property theorems about the queries of a `SemiMarkovCRF` over the potentials of `SemiMarkov.hsmm`: C76. A row of length `len` holds
`len - 1` observations. The claims hold for rows with at least one observation; without one, the scores of the auxiliary first class are lost
(`empty_row_false`), hence the suffix of the other theorems. -/

open Finset Spec Generic
open SemiMarkovProofs (sum_segments_self)

noncomputable section
namespace Props.HSMM
open _root_.SemiMarkov Props.SemiMarkov

/-- The probability of the observations of a row: the sum over all segmentations of the exponentiated joint log-probability. -/
def likelihood (K C L : ℕ) (init : ℕ → ℝ) (transition duration : ℕ → ℕ → ℝ) (emission : ℕ → ℕ → ℕ → ℝ) : ℝ :=
  ∑ y : Segmentation K C L, Real.exp (hsmmScore init transition duration emission y)

/-- The posterior probability of a segmentation given the observations. -/
def posterior {K C L : ℕ} (init : ℕ → ℝ) (transition duration : ℕ → ℕ → ℝ) (emission : ℕ → ℕ → ℕ → ℝ) (y : Segmentation K C L) : ℝ :=
  Real.exp (hsmmScore init transition duration emission y) / likelihood K C L init transition duration emission

variable {init : ℕ → ℕ → ℝ} {transition duration : ℕ → ℕ → ℝ} {em : T4 ℝ} {p : T5 ℝ} {lengths : Option (List ℕ)}

/-- The emission scores of row `b`. -/
abbrev emRow (em : T4 ℝ) (b : ℕ) : ℕ → ℕ → ℕ → ℝ := fun n k c => em.get b n k c

theorem dims (hN : 1 ≤ em.d1) (hp : hsmm init transition duration em = .ok p) :
    p.d0 = em.d0 ∧ p.d1 = em.d1 ∧ p.d2 = em.d2 ∧ p.d3 = em.d3 ∧ p.d4 = em.d3 ∧
      ∀ b, ∀ L, 1 ≤ L → ∀ y : Segmentation p.d2 p.d3 L, segScore (row p b) y = hsmmScore (init b) transition duration (emRow em b) y := by
  obtain ⟨e, h1, h2, h3⟩ := hsmm_score init transition duration em hN
  obtain rfl : e = p := by rw [h1] at hp; exact Except.ok.inj hp
  simp only [Prod.mk.injEq] at h2
  obtain ⟨a0, a1, a2, a3, a4⟩ := h2
  refine ⟨a0, a1, a2, a3, a4, ?_⟩
  rw [a2, a3]
  exact h3

theorem valid (hR : 1 ≤ em.d0) (hN : 1 ≤ em.d1) (hK : 2 ≤ em.d2) (hC : 1 ≤ em.d3) (hlen : ValidLengths em.d0 (em.d1 + 1) lengths)
    (hp : hsmm init transition duration em = .ok p) : Valid p lengths := by
  obtain ⟨a0, a1, a2, a3, a4, -⟩ := dims hN hp
  exact ⟨by omega, by omega, by omega, by omega, by omega, by rw [a0, a1]; exact hlen⟩

theorem row_score_partial (hN : 1 ≤ em.d1) (hp : hsmm init transition duration em = .ok p) (b : ℕ) (h2 : 2 ≤ lenOf (em.d1 + 1) lengths b)
    (y : Seg p lengths b) : segScore (row p b) y = hsmmScore (init b) transition duration (emRow em b) y := by
  obtain ⟨-, a1, -, -, -, h⟩ := dims hN hp
  refine h b _ ?_ y
  unfold steps; rw [a1]; omega

/-- **C76.** `partition` is the log-likelihood of the observations of every row with at least one observation, up to the error of the stand-in
for `log 0`. -/
theorem likelihood_partial (hR : 1 ≤ em.d0) (hN : 1 ≤ em.d1) (hK : 2 ≤ em.d2) (hC : 1 ≤ em.d3) (hlen : ValidLengths em.d0 (em.d1 + 1) lengths)
    (hp : hsmm init transition duration em = .ok p) {B : ℝ} (hB : Bounded p lengths B) :
    ∃ vs, Dist.partition algo p lengths = .ok vs ∧ vs.length = em.d0 ∧ ∀ b (hb : b < vs.length), 2 ≤ lenOf (em.d1 + 1) lengths b →
      let ll := Real.log (likelihood p.d2 p.d3 (steps p lengths b) (init b) transition duration (emRow em b))
      ll ≤ vs[b] ∧ vs[b] ≤ ll + err p lengths B b := by
  obtain ⟨vs, h1, h2, h3⟩ := partition_spec p lengths (valid hR hN hK hC hlen hp) hB
  refine ⟨vs, h1, by rw [h2]; exact (dims hN hp).1, fun b hb hl => ?_⟩
  have e : truth p lengths b = Real.log (likelihood p.d2 p.d3 (steps p lengths b) (init b) transition duration (emRow em b)) := by
    unfold truth likelihood
    congr 1
    exact sum_congr rfl fun y _ => by rw [row_score_partial hN hp b hl y]
  simp only [← e]
  exact h3 b hb

theorem prob_eq (hN : 1 ≤ em.d1) (hp : hsmm init transition duration em = .ok p) (b : ℕ) (h2 : 2 ≤ lenOf (em.d1 + 1) lengths b)
    (y : Seg p lengths b) : Gibbs.prob (segScore (row p b)) y = posterior (init b) transition duration (emRow em b) y := by
  have e : (segScore (row p b) : Seg p lengths b → ℝ) = hsmmScore (init b) transition duration (emRow em b) :=
    funext (row_score_partial hN hp b h2)
  rw [e]
  rfl

/-- **C76.** `marginals` holds the posterior probability of every segment: start `n`, duration `k`, class `c`, previous class `c'`. -/
theorem marginals_posterior_partial (hR : 1 ≤ em.d0) (hN : 1 ≤ em.d1) (hK : 2 ≤ em.d2) (hC : 1 ≤ em.d3) (hlen : ValidLengths em.d0 (em.d1 + 1) lengths)
    (hp : hsmm init transition duration em = .ok p) {B : ℝ} (hB : Bounded p lengths B) :
    ∃ μ, Dist.marginals algo p lengths = .ok μ ∧ ∀ b < em.d0, 2 ≤ lenOf (em.d1 + 1) lengths b → ∀ n k (c c' : Fin p.d3),
      |μ [b, n, k, (c : ℕ), (c' : ℕ)] - ∑ y : Seg p lengths b,
        if (n, k, c, c') ∈ segEdges 0 y.1 y.2.1 then posterior (init b) transition duration (emRow em b) y else 0| ≤ err p lengths B b := by
  obtain ⟨μ, h1, h2⟩ := marginals_spec p lengths (valid hR hN hK hC hlen hp) hB
  refine ⟨μ, h1, fun b hb hl n k c c' => ?_⟩
  have k' := h2 b (by rw [(dims hN hp).1]; exact hb) n k c c'
  unfold segProb at k'
  simp only [prob_eq hN hp b hl] at k'
  exact k'

/-- **C76.** `argmax` is a most probable segmentation given the observations, provided the potentials are small against the stand-in for
`log 0`. -/
theorem viterbi_partial (hR : 1 ≤ em.d0) (hN : 1 ≤ em.d1) (hK : 2 ≤ em.d2) (hC : 1 ≤ em.d3) (hlen : ValidLengths em.d0 (em.d1 + 1) lengths)
    (hp : hsmm init transition duration em = .ok p) {B : ℝ} (hB : Bounded p lengths B) (hsmall : 2 * p.d1 * B < 100000)
    {pick : List (Autograd.Grad (List ℕ)) → Autograd.Grad (List ℕ)} (hpick : Autograd.IsArgmax Prod.fst pick) :
    ∃ μ, Dist.argmax algo p lengths pick = .ok μ ∧ ∀ b < em.d0, 2 ≤ lenOf (em.d1 + 1) lengths b → ∃ y : Seg p lengths b,
      (∀ y' : Seg p lengths b, posterior (init b) transition duration (emRow em b) y' ≤ posterior (init b) transition duration (emRow em b) y) ∧
      ∀ n k (c c' : Fin p.d3), μ [b, n, k, (c : ℕ), (c' : ℕ)] = if (n, k, c, c') ∈ segEdges 0 y.1 y.2.1 then 1 else 0 := by
  obtain ⟨μ, h1, h2⟩ := argmax_spec p lengths (valid hR hN hK hC hlen hp) hB hsmall hpick
  refine ⟨μ, h1, fun b hb hl => ?_⟩
  obtain ⟨y, h3, h4⟩ := h2 b (by rw [(dims hN hp).1]; exact hb)
  refine ⟨y, fun y' => ?_, h4⟩
  unfold posterior
  refine div_le_div_of_nonneg_right (Real.exp_le_exp.2 ?_) (sum_nonneg fun _ _ => (Real.exp_pos _).le)
  rw [← row_score_partial hN hp b hl y', ← row_score_partial hN hp b hl y]
  exact h3 y'

/-- **C76.** When every row has at least one observation, `sample` draws the segmentations of the rows independently from their posteriors. -/
theorem sample_posterior_partial (hR : 1 ≤ em.d0) (hN : 1 ≤ em.d1) (hK : 2 ≤ em.d2) (hC : 1 ≤ em.d3) (hlen : ValidLengths em.d0 (em.d1 + 1) lengths)
    (hp : hsmm init transition duration em = .ok p) {B : ℝ} (hB : Bounded p lengths B) (h2 : ∀ b < em.d0, 2 ≤ lenOf (em.d1 + 1) lengths b) :
    ∃ es, Sampling.record algo (-100000) p lengths = .ok es ∧ es.length = em.d0 ∧
      MultiSamplesFrom es (fun Y : ∀ b : Fin p.d0, Seg p lengths b => ∏ b : Fin p.d0, posterior (init b) transition duration (emRow em b) (Y b))
        batchEvent (∑ b : Fin p.d0, err p lengths B b) := by
  obtain ⟨es, h1, h3, -, h4⟩ := sample_law p lengths (valid hR hN hK hC hlen hp) hB
  have d0 := (dims hN hp).1
  refine ⟨es, h1, by omega, ?_⟩
  have e : (fun Y : ∀ b : Fin p.d0, Seg p lengths b => ∏ b : Fin p.d0, Gibbs.prob (segScore (row p b)) (Y b)) =
      fun Y => ∏ b : Fin p.d0, posterior (init b) transition duration (emRow em b) (Y b) := by
    funext Y
    exact prod_congr rfl fun b _ => prob_eq hN hp b (h2 b (by omega)) (Y b)
  rw [← e]
  exact h4

/-- **C76**, the part that fails: a row without observations has one segmentation for each auxiliary class, all with score 0, so its `partition`
is at least `log C`, although the empty sequence of observations has probability 1 under normalised tables. -/
theorem empty_row_false (hR : 1 ≤ em.d0) (hN : 1 ≤ em.d1) (hK : 2 ≤ em.d2) (hC : 2 ≤ em.d3) (hlen : ValidLengths em.d0 (em.d1 + 1) lengths)
    (hp : hsmm init transition duration em = .ok p) {B : ℝ} (hB : Bounded p lengths B) (b : ℕ) (hb : b < em.d0) (h1 : lenOf (em.d1 + 1) lengths b = 1)
    (hinit : ∑ c : Fin em.d3, Real.exp (init b c) = 1) :
    Real.log (likelihood p.d2 p.d3 (steps p lengths b) (init b) transition duration (emRow em b)) = 0 ∧
      ∃ vs, Dist.partition algo p lengths = .ok vs ∧ ∃ hb : b < vs.length, 0 < Real.log em.d3 ∧ Real.log em.d3 ≤ vs[b] := by
  obtain ⟨a0, a1, a2, a3, a4, -⟩ := dims hN hp
  have hs : steps p lengths b = 0 := by unfold steps; rw [a1]; omega
  have key : ∀ (L K C : ℕ) (f : Segmentation K C L → ℝ) (g : Fin C → ℝ), L = 0 → (∀ y, f y = g y.1) → ∑ y : Segmentation K C L, f y = ∑ c, g c := by
    rintro L K C f g rfl hfg
    rw [Fintype.sum_prod_type]
    refine sum_congr rfl fun c _ => ?_
    simp only [hfg]
    exact (sum_segments_self K fun _ => g c)
  have hnil : ∀ (L K C : ℕ) (y : Segmentation K C L), L = 0 → y.2.1 = [] := by
    rintro L K C ⟨c, l, h1, h2⟩ rfl
    cases l with
    | nil => rfl
    | cons s l =>
      have := h1 s List.mem_cons_self
      simp only [List.map_cons, List.sum_cons] at h2
      omega
  constructor
  · unfold likelihood
    rw [key _ _ _ _ (fun c => Real.exp (init b c)) hs fun y => by simp [hsmmScore, hnil _ _ _ y hs, segEdges]]
    rw [a3, hinit, Real.log_one]
  · obtain ⟨vs, h1, h2, h3⟩ := partition_spec p lengths (valid hR hN hK (by omega) hlen hp) hB
    refine ⟨vs, h1, by omega, Real.log_pos (by exact_mod_cast hC), ?_⟩
    refine le_trans (le_of_eq ?_) (h3 b (by omega)).1
    unfold truth
    rw [key _ _ _ _ (fun _ => 1) hs fun y => by simp [segScore, hnil _ _ _ y hs, segEdges]]
    simp [a3]

/-- Non-vacuity: two rows with three observations, the second cut to none; durations 1 and 2, two classes. -/
example : ∃ p, hsmm (fun _ _ => Real.log (1 / 2)) (fun i j => -i - j) (fun c k => c - k) ⟨2, 3, 3, 2, fun b n k c => b + n - k - c⟩ = .ok p ∧
    ValidLengths 2 (3 + 1) (some [4, 1]) ∧ lenOf 4 (some [4, 1]) 0 = 4 ∧ lenOf 4 (some [4, 1]) 1 = 1 ∧
    ∑ c : Fin 2, Real.exp ((fun _ => Real.log (1 / 2) : ℕ → ℝ) c) = 1 ∧ ∃ B, Bounded p (some [4, 1]) B ∧ 2 * p.d1 * B < 100000 := by
  refine ⟨_, by rw [hsmm, if_neg (by norm_num)], ⟨rfl, by simp, by simp⟩, rfl, rfl, ?_, 100, ⟨by norm_num, ?_⟩, by norm_num⟩
  · rw [Fin.sum_univ_two, Real.exp_log (by norm_num)]; norm_num
  · have hh : |Real.log (1 / 2)| ≤ 1 := by
      have h1 := Real.one_sub_inv_le_log_of_pos (x := 1 / 2) (by norm_num)
      have h2 : Real.log (1 / 2) ≤ 0 := Real.log_nonpos (by norm_num) (by norm_num)
      norm_num at h1 h2 ⊢
      rw [abs_le]; constructor <;> linarith
    rw [abs_le] at hh
    intro b hb n k c c' hn hk hk' hc hc'
    have hn' : n < 3 := by
      simp only at hb
      interval_cases b <;> simp [steps, lenOf] at hn <;> omega
    simp only at hb hk' hc hc' ⊢
    have e1 : (b : ℝ) ≤ 2 := by exact_mod_cast hb.le
    have e2 : (n : ℝ) ≤ 3 := by exact_mod_cast hn'.le
    have e3 : (k : ℝ) ≤ 3 := by exact_mod_cast hk'.le
    have e4 : (c : ℝ) ≤ 2 := by exact_mod_cast hc.le
    have e5 : (c' : ℝ) ≤ 2 := by exact_mod_cast hc'.le
    have f1 := Nat.cast_nonneg (α := ℝ) b; have f2 := Nat.cast_nonneg (α := ℝ) n; have f3 := Nat.cast_nonneg (α := ℝ) k
    have f4 := Nat.cast_nonneg (α := ℝ) c; have f5 := Nat.cast_nonneg (α := ℝ) c'
    split_ifs <;> rw [abs_le] <;> constructor <;> linarith [hh.1, hh.2]

end Props.HSMM
