import Verif.Spec.WithoutReplacement
import Verif.Proofs.WithoutReplacementBad

/-! Property theorems about the law of `Autoregressive.sample_without_replacement` (C87). -/

open Spec

noncomputable section
namespace Props.WithoutReplacement
open _root_.Autoregressive Semirings _root_.BeamSearch Props.Autoregressive Props.BeamSearch MeasureTheory ProbabilityTheory Set

variable {St : Type} {Ω : Type} [MeasurableSpace Ω] {μ : Measure Ω} {g : ℕ × ℕ × ℕ × ℕ → Ω → ℝ}

/-- The path of slot `k` and row `b` is the one-hot encoding of the sequence `y`. -/
def IsPath (N C : ℕ) (path : ℕ → ℕ → ℕ → ℕ → ℕ) (k b : ℕ) (y : List ℕ) : Prop := ∀ t < N, ∀ c < C, path k b t c = if y.getD t 0 = c then 1 else 0

theorem isPath_unique {N C : ℕ} {path : ℕ → ℕ → ℕ → ℕ → ℕ} {k b : ℕ} {y y' : List ℕ} (hy : IsSeq C N y) (hy' : IsSeq C N y') (h : IsPath N C path k b y)
    (h' : IsPath N C path k b y') : y = y' := by
  refine List.ext_getElem (hy.1.trans hy'.1.symm) fun t h1 h2 => ?_
  have ht : t < N := by rw [← hy.1]; exact h1
  have e := h t ht _ (hy.2 _ (List.getElem_mem h1))
  rw [h' t ht _ (hy.2 _ (List.getElem_mem h1)), List.getD_eq_getElem _ _ h1, List.getD_eq_getElem _ _ h2, if_pos rfl] at e
  by_contra hne
  rw [if_neg (Ne.symm hne)] at e
  exact absurd e (by norm_num)

/-- **C87, one sample.**  With independent Gumbel noise, `sample_without_replacement((1,))` returns in every batch row a sequence that is distributed by the chain
rule with softmax probabilities (whether or not `normalize` is set), and the rows are independent; for every causal model, size, batch and tie-breaking.
Missing from the full property: more than one sample, for which it is false (`not_without_replacement`). -/
theorem one_sample_partial (D : AR St) {step : ARStep St} (hD : IsCausal D step) (hN : 1 ≤ D.nLength) (hC : 1 ≤ D.nClasses) {sel : List ℝ → List ℕ} (hs : IsTopkIdx 1 sel)
    (d : St) (hg : IsGumbel μ g) :
    ∃ (path : Ω → ℕ → ℕ → ℕ → ℕ → ℕ) (value : Ω → ℕ → ℕ → ℝ), (∀ ω, D.sampleWithoutReplacement 1 sel (fun t k b c => g (t, k, b, c) ω) = .ok (path ω, value ω)) ∧
      ∀ y : ℕ → List ℕ, (∀ b < D.init.length, IsSeq D.nClasses D.nLength (y b)) →
        μ {ω | ∀ b < D.init.length, IsPath D.nLength D.nClasses (path ω) 0 b (y b)} =
          ENNReal.ofReal (∏ b ∈ Finset.range D.init.length, withoutReplacement (arProb step (D.init.getD b d) D.startClass) [] [y b]) := by
  have hS := kmax_sumSpec le_rfl hs hC
  have htr := fun ω => _root_.WithoutReplacement.search_trace hD hS hN d fun t => some fun k b c => g (t, k, b, c) ω
  choose s h0 h1 h2 h3 using htr
  refine ⟨fun ω => paths 1 D.nClasses (s ω D.nLength).rounds, fun ω => (s ω D.nLength).beam, fun ω => by rw [AR.sampleWithoutReplacement, h1]; rfl, fun y hy => ?_⟩
  have hY : ∀ ω, ∀ b < D.init.length, IsSeq D.nClasses D.nLength (hist (s ω D.nLength).rounds 0 b).2 ∧
      _root_.WithoutReplacement.NoisyGreedy D step (D.init.getD b d) (fun t c => g (t, 0, b, c) ω) (hist (s ω D.nLength).rounds 0 b).2 := fun ω b hb =>
    _root_.WithoutReplacement.greedy_trace (z := fun t k b c => g (t, k, b, c) ω) (fun t => (h2 ω t).1) (h3 ω) hb D.nLength
  have hw : ∀ b, withoutReplacement (arProb step (D.init.getD b d) D.startClass) [] [y b] =
      Real.exp (arScore true step (D.init.getD b d) (.hard D.startClass) (y b)) := fun b => by simp [withoutReplacement, arProb]
  simp only [hw]
  rw [← _root_.WithoutReplacement.greedy_law D hD hC hg d hY y hy]
  congr 1
  ext ω
  simp only [mem_setOf_eq]
  refine forall₂_congr fun b hb => ?_
  have hpath : IsPath D.nLength D.nClasses (paths 1 D.nClasses (s ω D.nLength).rounds) 0 b (hist (s ω D.nLength).rounds 0 b).2 := fun t ht c _ =>
    paths_hist _ ((h2 ω D.nLength).2.row b hb).ok Nat.zero_lt_one (by rw [(h2 ω D.nLength).1]; exact ht) c
  exact ⟨fun h => isPath_unique (hY ω b hb).1 (hy b hb) hpath h, fun h => by rw [← h]; exact hpath⟩

/-- The hypotheses of `one_sample_partial` can be met: two rows, three classes, two steps. -/
example : ∃ (Ω : Type) (_ : MeasurableSpace Ω) (μ : Measure Ω) (g : ℕ × ℕ × ℕ × ℕ → Ω → ℝ) (sel : List ℝ → List ℕ), IsGumbel μ g ∧ IsTopkIdx 1 sel ∧
    IsCausal (uniform 3 2 true) (flatStep 3) ∧ 1 ≤ (uniform 3 2 true).nLength ∧ 1 ≤ (uniform 3 2 true).nClasses := by
  obtain ⟨Ω, m, μ, g, h⟩ := GumbelNoise.exists_gumbel (ℕ × ℕ × ℕ × ℕ)
  exact ⟨Ω, m, μ, g, sortSel 1, h, sortSel_topk 1, uniform_causal 3 2 true, by simp [uniform], by simp [uniform]⟩

/-! ### Two samples -/

/-- All sequences of the uniform model with two classes and two steps have probability 1/4. -/
theorem prob_quarter {y : List ℕ} (hy : IsSeq 2 2 y) : arProb (flatStep 2) () 0 y = 1 / 4 := by
  obtain ⟨h1, h2⟩ := hy
  obtain ⟨a, b, rfl⟩ := List.length_eq_two.1 h1
  have ha : a < 2 := h2 a (by simp)
  have hb : b < 2 := h2 b (by simp)
  have key : ∀ c < 2, arNorm true (List.replicate 2 0) c = -Real.log 2 := fun c hc => by
    rw [arNorm, if_pos rfl]
    have : (List.replicate 2 (0 : ℝ)).getD c 0 = 0 := by interval_cases c <;> simp
    rw [this, Finset.sum_congr rfl (g := fun _ => (1 : ℝ)) fun i hi => by
      have : i < 2 := by simpa using hi
      have : (List.replicate 2 (0 : ℝ)).getD i 0 = 0 := by interval_cases i <;> simp
      rw [this, Real.exp_zero]]
    norm_num
  rw [arProb, arScore, arScore, arScore]
  simp only [flatStep, key a ha, key b hb, add_zero]
  rw [Real.exp_add, Real.exp_neg, Real.exp_log (by norm_num)]
  norm_num

/-- So two draws without replacement give any two different sequences with probability 1/12. -/
theorem pair_prob {y y' : List ℕ} (hy : IsSeq 2 2 y) (hy' : IsSeq 2 2 y') : withoutReplacement (arProb (flatStep 2) () 0) [] [y, y'] = if y = y' then 0 else 1 / 12 := by
  rw [withoutReplacement, withoutReplacement, withoutReplacement, if_neg (by simp)]
  by_cases h : y = y'
  · rw [if_pos h, if_pos (by simp [h])]; ring
  · rw [if_neg h, if_neg (by simpa using Ne.symm h)]
    simp only [List.map_nil, List.sum_nil, List.map_cons, List.sum_cons, prob_quarter hy, prob_quarter hy']
    norm_num

/-- What `sample_without_replacement((2,))` does on the uniform model with two classes and two steps: in every row, the two paths begin with the same class with
probability more than 1/3, for all Gumbel noise and tie-breaking. -/
theorem same_first_class {sel : List ℝ → List ℕ} (hs : IsTopkIdx 2 sel) (hg : IsGumbel μ g) :
    ∃ (path : Ω → ℕ → ℕ → ℕ → ℕ → ℕ) (value : Ω → ℕ → ℕ → ℝ), (∀ ω, (uniform 2 2 true).sampleWithoutReplacement 2 sel (fun t k b c => g (t, k, b, c) ω) = .ok (path ω, value ω)) ∧
      ∀ b < 2, (∀ ω, ∀ k < 2, ∃ y, IsSeq 2 2 y ∧ IsPath 2 2 (path ω) k b y) ∧ ENNReal.ofReal (1 / 3) < μ {ω | ∀ c < 2, path ω 0 b 0 c = path ω 1 b 0 c} := by
  have hS := kmax_sumSpec (by norm_num) hs (show 1 ≤ (uniform 2 2 true).nClasses by simp [uniform])
  have htr := fun ω => _root_.WithoutReplacement.search_trace (uniform_causal 2 2 true) hS (show 1 ≤ (uniform 2 2 true).nLength by simp [uniform]) ()
    fun t => some fun k b c => g (t, k, b, c) ω
  choose s h0 h1 h2 h3 using htr
  have hpath : ∀ ω, ∀ b < 2, ∀ k < 2, IsPath 2 2 (paths 2 2 (s ω 2).rounds) k b (hist (s ω 2).rounds k b).2 := fun ω b hb k hk t ht c _ =>
    paths_hist _ ((h2 ω 2).2.row b hb).ok hk (by rw [(h2 ω 2).1]; exact ht) c
  refine ⟨fun ω => paths 2 2 (s ω 2).rounds, fun ω => (s ω 2).beam, fun ω => by rw [AR.sampleWithoutReplacement, h1]; rfl, fun b hb => ⟨fun ω k hk => ?_, ?_⟩⟩
  · refine ⟨_, ?_, hpath ω b hb k hk⟩
    have := isSeq_hist ((h2 ω 2).2.row b hb) (k := k) hk
    rw [(h2 ω 2).1] at this
    exact this
  · refine _root_.WithoutReplacement.cells hg b fun ω x y hx hx1 hy hR hx0 hy0 c hc => ?_
    have hfirst := _root_.WithoutReplacement.same_first (sel := sel) (fun t k b c => g (t, k, b, c) ω) (h0 ω) (fun t => by
      obtain ⟨r, hr, hf⟩ := h3 ω t
      exact ⟨r, hr, fun b hb => hf b hb⟩) hb hx hx1 hy hR hx0 hy0
    change paths 2 2 (s ω 2).rounds 0 b 0 c = paths 2 2 (s ω 2).rounds 1 b 0 c
    rw [hpath ω b hb 0 (by norm_num) 0 (by norm_num) c hc, hpath ω b hb 1 (by norm_num) 0 (by norm_num) c hc, hfirst]

/-- **C87 is false of the code.**  On the uniform model with two classes and two steps, the law of the two paths that `sample_without_replacement((2,))` returns is not
that of two draws without replacement, not even as a set: for some `y, y'` the probability that they are `y` and `y'`, in this order or the other, is wrong. -/
theorem not_without_replacement {sel : List ℝ → List ℕ} (hs : IsTopkIdx 2 sel) (hg : IsGumbel μ g) :
    ∃ (path : Ω → ℕ → ℕ → ℕ → ℕ → ℕ) (value : Ω → ℕ → ℕ → ℝ), (∀ ω, (uniform 2 2 true).sampleWithoutReplacement 2 sel (fun t k b c => g (t, k, b, c) ω) = .ok (path ω, value ω)) ∧
      ∀ b < 2, ¬ ∀ y y', IsSeq 2 2 y → IsSeq 2 2 y' →
        μ {ω | IsPath 2 2 (path ω) 0 b y ∧ IsPath 2 2 (path ω) 1 b y' ∨ IsPath 2 2 (path ω) 0 b y' ∧ IsPath 2 2 (path ω) 1 b y} =
          ENNReal.ofReal (withoutReplacement (arProb (flatStep 2) () 0) [] [y, y'] + withoutReplacement (arProb (flatStep 2) () 0) [] [y', y]) := by
  obtain ⟨path, value, h1, h2⟩ := same_first_class hs hg
  refine ⟨path, value, h1, fun b hb hcon => ?_⟩
  obtain ⟨hseq, hlt⟩ := h2 b hb
  let ev : List ℕ → List ℕ → Set Ω := fun y y' =>
    {ω | IsPath 2 2 (path ω) 0 b y ∧ IsPath 2 2 (path ω) 1 b y' ∨ IsPath 2 2 (path ω) 0 b y' ∧ IsPath 2 2 (path ω) 1 b y}
  have hev : ∀ a a' c c', a < 2 → a' < 2 → c < 2 → c' < 2 → μ (ev [a, c] [a', c']) = if a = a' ∧ c = c' then 0 else ENNReal.ofReal (1 / 6) := by
    intro a a' c c' ha ha' hc hc'
    have i1 : IsSeq 2 2 [a, c] := ⟨rfl, fun x hx => by simp at hx; rcases hx with rfl | rfl <;> assumption⟩
    have i2 : IsSeq 2 2 [a', c'] := ⟨rfl, fun x hx => by simp at hx; rcases hx with rfl | rfl <;> assumption⟩
    rw [show μ (ev [a, c] [a', c']) = _ from hcon [a, c] [a', c'] i1 i2, pair_prob i1 i2, pair_prob i2 i1]
    by_cases h : a = a' ∧ c = c'
    · rw [if_pos h, if_pos (by rw [h.1, h.2]), if_pos (by rw [h.1, h.2])]; simp
    · rw [if_neg h, if_neg (by intro he; simp at he; exact h he), if_neg (by intro he; simp at he; exact h ⟨he.1.symm, he.2.symm⟩)]
      congr 1; norm_num
  have hcover : {ω | ∀ c < 2, path ω 0 b 0 c = path ω 1 b 0 c} ⊆
      (ev [0, 0] [0, 0] ∪ ev [0, 1] [0, 1] ∪ ev [1, 0] [1, 0] ∪ ev [1, 1] [1, 1]) ∪ (ev [0, 0] [0, 1] ∪ ev [1, 0] [1, 1]) := by
    intro ω hω
    obtain ⟨y, hy, p⟩ := hseq ω 0 (by norm_num)
    obtain ⟨y', hy', p'⟩ := hseq ω 1 (by norm_num)
    obtain ⟨a, c, rfl⟩ := List.length_eq_two.1 hy.1
    obtain ⟨a', c', rfl⟩ := List.length_eq_two.1 hy'.1
    have ha : a < 2 := hy.2 a (by simp)
    have hc : c < 2 := hy.2 c (by simp)
    have ha' : a' < 2 := hy'.2 a' (by simp)
    have hc' : c' < 2 := hy'.2 c' (by simp)
    have haa : a = a' := by
      have := hω a ha
      rw [p 0 (by norm_num) a ha, p' 0 (by norm_num) a ha] at this
      by_contra hne
      simp only [List.getD_cons_zero, if_true] at this
      rw [if_neg (Ne.symm hne)] at this
      exact absurd this (by norm_num)
    subst haa
    simp only [mem_union, ev, mem_setOf_eq]
    interval_cases a <;> interval_cases c <;> interval_cases c' <;> simp only [p, p', true_and, and_true, true_or, or_true]
  have hle := (measure_mono (μ := μ) hcover).trans ((measure_union_le _ _).trans (add_le_add ((measure_union_le _ _).trans (add_le_add ((measure_union_le _ _).trans
    (add_le_add (measure_union_le _ _) le_rfl)) le_rfl)) (measure_union_le _ _)))
  rw [hev 0 0 0 0, hev 0 0 1 1, hev 1 1 0 0, hev 1 1 1 1, hev 0 0 0 1, hev 1 1 0 1] at hle <;> try norm_num
  simp only [and_self, if_true, add_zero, zero_ne_one, and_false, if_false, zero_add] at hle
  rw [← ENNReal.ofReal_add (by norm_num) (by norm_num), show (1 / 6 + 1 / 6 : ℝ) = 1 / 3 by norm_num] at hle
  exact absurd hlt (not_lt.2 hle)

/-- The hypotheses of `same_first_class` and `not_without_replacement` can be met. -/
example : ∃ (Ω : Type) (_ : MeasurableSpace Ω) (μ : Measure Ω) (g : ℕ × ℕ × ℕ × ℕ → Ω → ℝ) (sel : List ℝ → List ℕ), IsGumbel μ g ∧ IsTopkIdx 2 sel := by
  obtain ⟨Ω, m, μ, g, h⟩ := GumbelNoise.exists_gumbel (ℕ × ℕ × ℕ × ℕ)
  exact ⟨Ω, m, μ, g, sortSel 2, h, sortSel_topk 2⟩

end Props.WithoutReplacement
