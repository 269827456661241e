import Verif.Proofs.BeamSearch
import Verif.Proofs.GumbelNoise

/-! The law of `sample_without_replacement`. -/

open Spec

noncomputable section
namespace WithoutReplacement
open _root_.Autoregressive Semirings _root_.BeamSearch Props.Autoregressive

variable {St : Type}

/-- All states of the loop, with what happens between them. -/
theorem search_trace {D : AR St} {step : ARStep St} (hD : IsCausal D step) {S : BeamSR} (hS : SumSpec S D.nClasses) (hN : 1 ≤ D.nLength) (d : St)
    (noise : ℕ → Option (ℕ → ℕ → ℕ → ℝ)) :
    ∃ s : ℕ → Loop St, s 0 = ⟨fun k _ => S.one k, List.replicate (S.size * D.init.length) (.hard D.startClass), D.expand S.size, []⟩ ∧
      D.search S noise = .ok (s D.nLength) ∧ (∀ t, (s t).rounds.length = t ∧ Inv D step S False d (s t)) ∧
      ∀ t, ∃ r, (s (t + 1)).rounds = (s t).rounds ++ [r] ∧ ∀ b < D.init.length, RoundFacts D step S (noise t) (D.init.getD b d) (s t) (s (t + 1)) r b := by
  have hstep : ∀ (t : ℕ) (s : Loop St), Inv D step S False d s → ∃ s', D.round S (noise t) s = .ok s' ∧ s'.rounds.length = s.rounds.length + 1 ∧ Inv D step S False d s' ∧
      ∃ r, s'.rounds = s.rounds ++ [r] ∧ ∀ b < D.init.length, RoundFacts D step S (noise t) (D.init.getD b d) s s' r b :=
    fun t s h => inv_round hD hS d (noise t) (fun h => h.elim) h
  choose f h1 h2 h3 h4 using hstep
  let σ : ℕ → {s : Loop St // Inv D step S False d s} := fun n => Nat.rec ⟨_, inv_init D step hS False d⟩ (fun t s => ⟨f t s.1 s.2, h3 t s.1 s.2⟩) n
  have hσ : ∀ t, (σ (t + 1)).1 = f t (σ t).1 (σ t).2 := fun _ => rfl
  refine ⟨fun t => (σ t).1, rfl, ?_, fun t => ⟨?_, (σ t).2⟩, fun t => ?_⟩
  · rw [AR.search, if_neg (by have := hS.size; omega)]
    have : ∀ n, (List.range n).foldlM (fun s t => D.round S (noise t) s)
        (⟨fun k _ => S.one k, List.replicate (S.size * D.init.length) (.hard D.startClass), D.expand S.size, []⟩ : Loop St) = .ok (σ n).1 := by
      intro n
      induction n with
      | zero => rfl
      | succ n ih =>
        rw [List.range_succ, List.foldlM_append, ih]
        simp only [bind, Except.bind, List.foldlM_cons, List.foldlM_nil, h1 n (σ n).1 (σ n).2]
        rfl
    exact this _
  · induction t with
    | zero => rfl
    | succ t ih => exact (h2 t _ _).trans (congrArg (· + 1) ih)
  · exact h4 t _ _

theorem arNorm_lt (nm : Bool) (xs : List ℝ) (a b : ℕ) : arNorm nm xs a < arNorm nm xs b ↔ xs.getD a 0 < xs.getD b 0 := by
  rw [← not_le, ← not_le, arNorm_le]

theorem noisy_getD {C : ℕ} (z : ℕ → ℕ → ℕ → ℝ) (k b : ℕ) (xs : List ℝ) {c : ℕ} (hc : c < C) : (noisy C (some z) k b xs).getD c 0 = xs.getD c 0 + z k b c := by
  rw [noisy, List.getD_eq_getElem _ _ (by simpa using hc), List.getElem_map, List.getElem_range]

/-- With one slot, the class chosen has the largest noisy logit. -/
theorem one_slot {D : AR St} {step : ARStep St} {sel : List ℝ → List ℕ} {z : ℕ → ℕ → ℕ → ℝ} {s0 : St} {s s' : Loop St} {r : Round} {b : ℕ}
    (h : RoundFacts D step (kmaxSR 1 sel) (some z) s0 s s' r b) (hr : s'.rounds = s.rounds ++ [r]) :
    ∃ c < D.nClasses, (hist s'.rounds 0 b).2 = (hist s.rounds 0 b).2 ++ [c] ∧ ∀ c' < D.nClasses,
      (arLogits step s0 (.hard D.startClass) (hist s.rounds 0 b).2).getD c' 0 + z 0 b c' ≤ (arLogits step s0 (.hard D.startClass) (hist s.rounds 0 b).2).getD c 0 + z 0 b c := by
  have h0 : 0 < (kmaxSR 1 sel).size := Nat.zero_lt_one
  obtain ⟨hp, c, hc, ht, hb⟩ := h.pick 0 h0
  have hp0 : r.pos 0 b = 0 := by have : r.pos 0 b < 1 := hp; omega
  refine ⟨c, hc, by rw [hr, hist_snoc, hp0, ht]; rfl, fun c' hc' => ?_⟩
  have hle : r.logits 0 b c' ≤ r.logits 0 b c := by
    rcases h.best 0 h0 c' hc' with ⟨k, hk, _, hkt⟩ | hle
    · have hk0 : k = 0 := by have : k < 1 := hk; omega
      rw [hk0, ht] at hkt
      rw [Tok.hard.inj hkt]
    · have := hle 0 h0
      rw [hb, hp0] at this
      linarith
  rw [h.logits 0 h0 c' hc', h.logits 0 h0 c hc, arNorm_le, noisy_getD z 0 b _ hc', noisy_getD z 0 b _ hc] at hle
  exact hle

/-- The classes that are chosen by noisy greedy search. -/
def NoisyGreedy (D : AR St) (step : ARStep St) (s0 : St) (z : ℕ → ℕ → ℝ) (y : List ℕ) : Prop :=
  ∀ t < y.length, ∀ c' < D.nClasses, (arLogits step s0 (.hard D.startClass) (y.take t)).getD c' 0 + z t c' ≤
    (arLogits step s0 (.hard D.startClass) (y.take t)).getD (y.getD t 0) 0 + z t (y.getD t 0)

/-- With one slot, the search is noisy greedy search. -/
theorem greedy_trace {D : AR St} {step : ARStep St} {sel : List ℝ → List ℕ} {z : ℕ → ℕ → ℕ → ℕ → ℝ} {d : St} {s : ℕ → Loop St} (hlen : ∀ t, (s t).rounds.length = t)
    (hs : ∀ t, ∃ r, (s (t + 1)).rounds = (s t).rounds ++ [r] ∧ ∀ b < D.init.length,
      RoundFacts D step (kmaxSR 1 sel) (some (z t)) (D.init.getD b d) (s t) (s (t + 1)) r b) {b : ℕ} (hb : b < D.init.length) (n : ℕ) :
    IsSeq D.nClasses n (hist (s n).rounds 0 b).2 ∧ NoisyGreedy D step (D.init.getD b d) (fun t c => z t 0 b c) (hist (s n).rounds 0 b).2 := by
  induction n with
  | zero =>
    have : (s 0).rounds = [] := List.length_eq_zero_iff.1 (hlen 0)
    rw [this]
    exact ⟨⟨rfl, fun c hc => by simp [hist_nil] at hc⟩, fun t ht => by simp [hist_nil] at ht⟩
  | succ n ih =>
    obtain ⟨r, hr, hf⟩ := hs n
    obtain ⟨c, hc, he, hbest⟩ := one_slot (hf b hb) hr
    obtain ⟨⟨i1, i2⟩, i3⟩ := ih
    rw [he]
    refine ⟨⟨by simp [i1], fun x hx => ?_⟩, fun t ht c' hc' => ?_⟩
    · rcases List.mem_append.1 hx with hx | hx
      · exact i2 x hx
      · rw [List.mem_singleton] at hx; rw [hx]; exact hc
    · by_cases hlt : t < (hist (s n).rounds 0 b).2.length
      · rw [List.take_append_of_le_length hlt.le, List.getD_append _ _ _ _ hlt]
        exact i3 t hlt c' hc'
      · have : t = (hist (s n).rounds 0 b).2.length := by simp at ht; omega
        subst this
        rw [List.take_left, List.getD_append_right _ _ _ _ le_rfl, Nat.sub_self, i1]
        exact hbest c' hc'

/-! ### The law with one slot -/

open MeasureTheory ProbabilityTheory Set

theorem exp_arNorm {xs : List ℝ} {C : ℕ} (hx : xs.length = C) (c : ℕ) (hc : c < C) :
    Real.exp (arNorm true xs c) = Real.exp (xs.getD c 0) / ∑ i ∈ Finset.range C, Real.exp (xs.getD i 0) := by
  have : 0 < ∑ i ∈ Finset.range C, Real.exp (xs.getD i 0) := Finset.sum_pos (fun _ _ => Real.exp_pos _) ⟨c, Finset.mem_range.2 hc⟩
  rw [arNorm, if_pos rfl, hx, Real.exp_sub, Real.exp_log this]

theorem exp_arScore (step : ARStep St) (s0 : St) (x0 : Tok) (y : List ℕ) :
    Real.exp (arScore true step s0 x0 y) = ∏ t ∈ Finset.range y.length, Real.exp (arNorm true (arLogits step s0 x0 (y.take t)) (y.getD t 0)) := by
  induction y using List.reverseRecOn with
  | nil => simp [arScore]
  | append_singleton ys c ih =>
    rw [arScore_snoc, Real.exp_add, ih, List.length_append, List.length_singleton, Finset.prod_range_succ, List.take_left,
      List.getD_append_right _ _ _ _ le_rfl, Nat.sub_self]
    congr 1
    refine Finset.prod_congr rfl fun t ht => ?_
    have := Finset.mem_range.1 ht
    rw [List.take_append_of_le_length this.le, List.getD_append _ _ _ _ this]

/-- The strict event at step `t` of row `b`. -/
def Wins {Ω : Type} (C : ℕ) (g : ℕ × ℕ × ℕ × ℕ → Ω → ℝ) (t b : ℕ) (xs : List ℝ) (c : ℕ) : Set Ω :=
  {ω | ∀ c' < C, c' ≠ c → xs.getD c' 0 + g (t, 0, b, c') ω < xs.getD c 0 + g (t, 0, b, c) ω}

variable {Ω : Type} [MeasurableSpace Ω] {μ : Measure Ω} {g : ℕ × ℕ × ℕ × ℕ → Ω → ℝ}

/-- The noise variables of step `t` and row `b`. -/
def block (C : ℕ) (j : ℕ × ℕ) : Finset (ℕ × ℕ × ℕ × ℕ) := (Finset.range C).image fun c => (j.1, 0, j.2, c)

theorem mem_block {C : ℕ} {j : ℕ × ℕ} {i : ℕ × ℕ × ℕ × ℕ} : i ∈ block C j ↔ ∃ c < C, i = (j.1, 0, j.2, c) := by
  simp only [block, Finset.mem_image, Finset.mem_range, eq_comm (a := i)]

theorem measure_wins (hg : IsGumbel μ g) {C : ℕ} {xs : List ℝ} (hx : xs.length = C) (t b : ℕ) {c : ℕ} (hc : c < C) :
    μ (Wins C g t b xs c) = ENNReal.ofReal (Real.exp (arNorm true xs c)) := by
  have h := GumbelNoise.gumbel_max hg (block C (t, b)) (fun i => xs.getD i.2.2.2 0) (c := (t, 0, b, c)) (mem_block.2 ⟨c, hc, rfl⟩)
  rw [exp_arNorm hx c hc]
  have hsum : ∑ i ∈ block C (t, b), Real.exp (xs.getD i.2.2.2 0) = ∑ i ∈ Finset.range C, Real.exp (xs.getD i 0) := by
    rw [block, Finset.sum_image (fun a _ a' _ h => by simpa using h)]
  rw [hsum] at h
  rw [← h]
  congr 1
  ext ω
  simp only [Wins, mem_setOf_eq]
  constructor
  · intro h i hi hne
    obtain ⟨c', hc', rfl⟩ := mem_block.1 hi
    exact h c' hc' fun h => hne (by rw [h])
  · intro h c' hc' hne
    exact h (t, 0, b, c') (mem_block.2 ⟨c', hc', rfl⟩) fun h => hne (by simpa using h)

theorem wins_block (C : ℕ) (t b : ℕ) (xs : List ℝ) {c : ℕ} (hc : c < C) :
    ∃ E : Set (block C (t, b) → ℝ), MeasurableSet E ∧ Wins C g t b xs c = {ω | (fun i : block C (t, b) => g i ω) ∈ E} := by
  have hm : ∀ c < C, (t, 0, b, c) ∈ block C (t, b) := fun c hc => mem_block.2 ⟨c, hc, rfl⟩
  refine ⟨⋂ c' : Fin C, {v | c'.1 ≠ c → xs.getD c' 0 + v ⟨_, hm c' c'.2⟩ < xs.getD c 0 + v ⟨_, hm c hc⟩}, MeasurableSet.iInter fun c' => ?_, ?_⟩
  · by_cases h : c'.1 ≠ c
    · have e : {v : block C (t, b) → ℝ | c'.1 ≠ c → xs.getD c' 0 + v ⟨_, hm c' c'.2⟩ < xs.getD c 0 + v ⟨_, hm c hc⟩} =
          {v | xs.getD c' 0 + v ⟨_, hm c' c'.2⟩ < xs.getD c 0 + v ⟨_, hm c hc⟩} := by ext v; simp only [mem_setOf_eq]; exact ⟨fun h' => h' h, fun h' _ => h'⟩
      rw [e]
      exact measurableSet_lt (by fun_prop) (by fun_prop)
    · simp [h]
  · ext ω
    simp only [Wins, mem_setOf_eq, mem_iInter]
    exact ⟨fun h c' => h c' c'.2, fun h c' hc' => h ⟨c', hc'⟩⟩

theorem wins_measurable (hg : IsGumbel μ g) (C t b : ℕ) (xs : List ℝ) {c : ℕ} (hc : c < C) : MeasurableSet (Wins C g t b xs c) := by
  obtain ⟨E, hE, he⟩ := wins_block (g := g) C t b xs hc
  rw [he]
  exact (measurable_pi_lambda (fun ω (i : block C (t, b)) => g i ω) fun i => hg.measurable i) hE

/-- Some class wins, almost surely. -/
theorem ae_wins (hg : IsGumbel μ g) {C : ℕ} (hC : 1 ≤ C) {xs : List ℝ} (hx : xs.length = C) (t b : ℕ) : ∀ᵐ ω ∂μ, ∃ c < C, ω ∈ Wins C g t b xs c := by
  have : IsProbabilityMeasure μ := hg.indep.isProbabilityMeasure
  have hU : {ω | ∃ c < C, ω ∈ Wins C g t b xs c} = ⋃ c ∈ Finset.range C, Wins C g t b xs c := by
    ext ω; simp
  have hm : ∀ c ∈ Finset.range C, MeasurableSet (Wins C g t b xs c) := fun c hc => wins_measurable hg C t b xs (Finset.mem_range.1 hc)
  have h1 : μ {ω | ∃ c < C, ω ∈ Wins C g t b xs c} = 1 := by
    rw [hU, measure_biUnion_finset _ hm]
    · rw [Finset.sum_congr rfl fun c hc => measure_wins hg hx t b (Finset.mem_range.1 hc), ← ENNReal.ofReal_sum_of_nonneg fun _ _ => (Real.exp_pos _).le,
        Finset.sum_congr rfl fun c hc => exp_arNorm hx c (Finset.mem_range.1 hc), ← Finset.sum_div, div_self, ENNReal.ofReal_one]
      exact (Finset.sum_pos (fun _ _ => Real.exp_pos _) ⟨0, Finset.mem_range.2 hC⟩).ne'
    · intro c hc c' hc' hne
      refine Set.disjoint_left.2 fun ω h1 h2 => ?_
      exact lt_asymm (h1 c' (Finset.mem_range.1 hc') hne.symm) (h2 c (Finset.mem_range.1 hc) hne)
  have h2 : MeasurableSet {ω | ∃ c < C, ω ∈ Wins C g t b xs c} := by rw [hU]; exact Finset.measurableSet_biUnion _ hm
  exact (prob_compl_eq_zero_iff h2).2 h1

/-- The law of noisy greedy search: the rows are independent, and each follows the chain rule. -/
theorem greedy_law (D : AR St) {step : ARStep St} (hD : IsCausal D step) (hC : 1 ≤ D.nClasses) (hg : IsGumbel μ g) (d : St) {Y : Ω → ℕ → List ℕ}
    (hY : ∀ ω, ∀ b < D.init.length, IsSeq D.nClasses D.nLength (Y ω b) ∧ NoisyGreedy D step (D.init.getD b d) (fun t c => g (t, 0, b, c) ω) (Y ω b))
    (y : ℕ → List ℕ) (hy : ∀ b < D.init.length, IsSeq D.nClasses D.nLength (y b)) :
    μ {ω | ∀ b < D.init.length, Y ω b = y b} =
      ENNReal.ofReal (∏ b ∈ Finset.range D.init.length, Real.exp (arScore true step (D.init.getD b d) (.hard D.startClass) (y b))) := by
  classical
  have : IsProbabilityMeasure μ := hg.indep.isProbabilityMeasure
  let L : ℕ → List ℕ → List ℝ := fun b p => arLogits step (D.init.getD b d) (.hard D.startClass) p
  have hL : ∀ b p, (L b p).length = D.nClasses := fun b p => hD.classes _ _
  have hyt : ∀ b < D.init.length, ∀ t < D.nLength, (y b).getD t 0 < D.nClasses := fun b hb t ht => by
    rw [List.getD_eq_getElem _ _ (by rw [(hy b hb).1]; exact ht)]
    exact (hy b hb).2 _ (List.getElem_mem _)
  let F : Finset (ℕ × ℕ) := Finset.range D.nLength ×ˢ Finset.range D.init.length
  have hF : ∀ j, j ∈ F ↔ j.1 < D.nLength ∧ j.2 < D.init.length := fun j => by simp [F]
  let A : ℕ × ℕ → Set Ω := fun j => if j ∈ F then Wins D.nClasses g j.1 j.2 (L j.2 ((y j.2).take j.1)) ((y j.2).getD j.1 0) else univ
  have hA : ∀ j, ∃ E : Set (block D.nClasses j → ℝ), MeasurableSet E ∧ A j = {ω | (fun i : block D.nClasses j => g i ω) ∈ E} := by
    intro j
    by_cases hj : j ∈ F
    · simp only [A, if_pos hj]
      exact wins_block D.nClasses j.1 j.2 _ (hyt _ ((hF j).1 hj).2 _ ((hF j).1 hj).1)
    · simp only [A, if_neg hj]
      exact ⟨univ, MeasurableSet.univ, by simp⟩
  have hprob := GumbelNoise.blocks hg (block D.nClasses) A hA F fun j _ j' _ hne => by
    rw [Finset.disjoint_left]
    intro i h1 h2
    obtain ⟨c, _, rfl⟩ := mem_block.1 h1
    obtain ⟨c', _, h⟩ := mem_block.1 h2
    simp only [Prod.mk.injEq, true_and] at h
    exact hne (Prod.ext h.1 h.2.1)
  have hae : {ω | ∀ b < D.init.length, Y ω b = y b} =ᵐ[μ] ⋂ j ∈ F, A j := by
    have hall : ∀ᵐ ω ∂μ, ∀ (t b : ℕ) (p : List ℕ), ∃ c < D.nClasses, ω ∈ Wins D.nClasses g t b (L b p) c := by
      rw [ae_all_iff]; intro t; rw [ae_all_iff]; intro b; rw [ae_all_iff]; intro p
      exact ae_wins hg hC (hL b p) t b
    filter_upwards [hall] with ω hω
    refine propext ?_
    change (∀ b < D.init.length, Y ω b = y b) ↔ ω ∈ ⋂ j ∈ F, A j
    simp only [mem_iInter]
    constructor
    · intro h j hj
      simp only [A, if_pos hj]
      obtain ⟨ht, hb⟩ := (hF j).1 hj
      obtain ⟨c, hc, hw⟩ := hω j.1 j.2 ((y j.2).take j.1)
      have hgr := (hY ω j.2 hb).2
      rw [h j.2 hb] at hgr
      have h2 := hgr j.1 (by rw [(hy _ hb).1]; exact ht) c hc
      by_cases he : (y j.2).getD j.1 0 = c
      · rw [he]; exact hw
      · exact absurd (hw _ (hyt _ hb _ ht) he) (not_lt.2 h2)
    · intro h b hb
      have hlen : (Y ω b).length = D.nLength := (hY ω b hb).1.1
      have hpre : ∀ t ≤ D.nLength, (Y ω b).take t = (y b).take t := by
        intro t
        induction t with
        | zero => intro _; simp
        | succ t ih =>
          intro ht
          have hih := ih (by omega)
          have hj : (t, b) ∈ F := (hF _).2 ⟨by omega, hb⟩
          have hw := h _ hj
          simp only [A, if_pos hj] at hw
          have hYt : (Y ω b).getD t 0 < D.nClasses := by
            rw [List.getD_eq_getElem _ _ (by rw [hlen]; omega)]
            exact (hY ω b hb).1.2 _ (List.getElem_mem _)
          have heq : (Y ω b).getD t 0 = (y b).getD t 0 := by
            by_contra hne
            have h1 := hw _ hYt hne
            have h2 := (hY ω b hb).2 t (by rw [hlen]; omega) _ (hyt b hb t (by omega))
            rw [hih] at h2
            exact absurd h1 (not_lt.2 h2)
          rw [List.take_succ_eq_append_getElem (by rw [hlen]; omega), List.take_succ_eq_append_getElem (by rw [(hy b hb).1]; omega), hih,
            ← List.getD_eq_getElem _ 0, heq, List.getD_eq_getElem]
      have := hpre D.nLength le_rfl
      rwa [List.take_of_length_le hlen.le, List.take_of_length_le (hy b hb).1.le] at this
  rw [measure_congr hae, hprob, Finset.prod_product_right]
  rw [ENNReal.ofReal_prod_of_nonneg fun _ _ => (Real.exp_pos _).le]
  refine Finset.prod_congr rfl fun b hb => ?_
  rw [Finset.mem_range] at hb
  rw [exp_arScore, (hy b hb).1, ENNReal.ofReal_prod_of_nonneg fun _ _ => (Real.exp_pos _).le]
  refine Finset.prod_congr rfl fun t ht => ?_
  rw [Finset.mem_range] at ht
  simp only [A, if_pos ((hF (t, b)).2 ⟨ht, hb⟩)]
  exact measure_wins hg (hL b _) t b (hyt b hb t ht)

end WithoutReplacement
