import Verif.Props.ARSampling

/-! Property theorems about `greedy_tempmax` (C37). -/

open Spec

noncomputable section
namespace Props.TempMax
open _root_.Autoregressive Semirings _root_.BeamSearch Props.Autoregressive Props.ARSampling

variable {St : Type}

/-- The index of a largest entry gives the supremum. -/
theorem pick_iSup {pick : List ℝ → ℕ} (hp : IsArgmaxIdx pick) {C : ℕ} (hC : 1 ≤ C) (f : ℕ → ℝ) :
    f (pick ((List.range C).map f)) = ⨆ c : Fin C, f c := by
  have hne : (List.range C).map f ≠ [] := by intro h; have := congrArg List.length h; simp at this; omega
  obtain ⟨h1, h2⟩ := hp _ hne
  have hlt : pick ((List.range C).map f) < C := by simpa using h1
  rw [getD_range _ _ hlt] at h2
  have : Nonempty (Fin C) := ⟨⟨0, hC⟩⟩
  refine le_antisymm (le_ciSup (f := fun c : Fin C => f c) (Set.finite_range _).bddAbove ⟨_, hlt⟩) (ciSup_le fun c => h2 _ ?_)
  exact List.mem_map.2 ⟨c, List.mem_range.2 c.2, rfl⟩

theorem iSup_add {C : ℕ} (hC : 1 ≤ C) (f : ℕ → ℝ) (a : ℝ) : (⨆ c : Fin C, (a + f c)) = a + ⨆ c : Fin C, f c := by
  have : Nonempty (Fin C) := ⟨⟨0, hC⟩⟩
  have hb : ∀ g : Fin C → ℝ, BddAbove (Set.range g) := fun g => (Set.finite_range _).bddAbove
  refine le_antisymm (ciSup_le fun c => by have := le_ciSup (hb fun c => f c) c; linarith) ?_
  rw [← le_sub_iff_add_le']
  exact ciSup_le fun c => by have := le_ciSup (hb fun c => a + f c) c; linarith

theorem softmax_shift (C : ℕ) (alpha a : ℝ) (f : ℕ → ℝ) :
    softmax ((List.range C).map fun c => alpha * (a + f c)) = (List.range C).map fun c => Real.exp (alpha * f c) / ∑ i ∈ Finset.range C, Real.exp (alpha * f i) := by
  rw [softmax, List.map_map]
  refine List.map_congr_left fun c hc => ?_
  have hpos : 0 < ∑ i ∈ Finset.range C, Real.exp (alpha * (a + f i)) := Finset.sum_pos (fun _ _ => Real.exp_pos _) ⟨c, Finset.mem_range.2 (List.mem_range.1 hc)⟩
  have e : lse ((List.range C).map fun c => alpha * (a + f c)) = Real.log (∑ i ∈ Finset.range C, Real.exp (alpha * (a + f i))) := by
    rw [lse, List.map_map]; rfl
  simp only [Function.comp]
  rw [e, Real.exp_sub, Real.exp_log hpos]
  simp only [mul_add, Real.exp_add, ← Finset.mul_sum]
  rw [mul_div_mul_left _ _ (Real.exp_pos _).ne']

/-- The loop of `greedy_tempmax`, from any step on. -/
theorem loop_spec (D : AR St) {step : ARStep St} (hD : IsCausal D step) (hC : 1 ≤ D.nClasses) {pick : List ℝ → ℕ} (hp : IsArgmaxIdx pick) (alpha : ℝ)
    (noise : ℕ → Option (ℕ → ℕ → ℕ → ℝ)) (z : ℕ → ℕ → ℕ → ℝ) (hz : ∀ t b c, z b t c = (noise t).elim 0 fun g => g 0 b c) : ∀ (n t : ℕ) (s : Loop St) (st : ℕ → St) (tok : ℕ → Tok),
    s.tokens = (List.range D.init.length).map tok → s.state = (List.range D.init.length).map st →
    ∃ s', (List.range' t n).foldlM (fun s t => D.round (tempSR alpha pick) (noise t) s) s = .ok s' ∧
      ∀ b < D.init.length, s'.beam 0 b = s.beam 0 b + softGreedy D.normalize step alpha D.nClasses (z b) n t (st b) (tok b)
  | 0, t, s, st, tok, _, _ => ⟨s, rfl, fun b _ => by simp [softGreedy]⟩
  | n + 1, t, s, st, tok, htok, hst => by
    have hmodel : D.model (s.tokens.map fun x => [x]) s.state =
        ((List.range D.init.length).map fun b => [(step (st b) (tok b)).1], (List.range D.init.length).map fun b => (step (st b) (tok b)).2) := by
      rw [htok, hst, List.map_map, hD.run _ _ (by simp)]
      simp only [List.zipWith_map, List.zipWith_self]
      rfl
    have hlog : ∀ b < D.init.length, ∀ c < D.nClasses, (D.roundLogits (noise t) ((List.range D.init.length).map fun b => [(step (st b) (tok b)).1]) 0 b).getD c 0 =
        arNorm D.normalize ((List.range D.nClasses).map fun c => (step (st b) (tok b)).1.getD c 0 + z b t c) c := by
      intro b hb c hc
      have e : ((((List.range D.init.length).map fun b => [(step (st b) (tok b)).1]).getD (0 * D.init.length + b) []).getD 0 []) = (step (st b) (tok b)).1 := by
        rw [Nat.zero_mul, Nat.zero_add, getD_range _ _ hb]; rfl
      rw [← norm_getD D _ (by simpa using hc)]
      refine congrArg (fun l => (D.norm l).getD c 0) ?_
      rw [e]
      cases hn : noise t with
      | none =>
        have : ∀ c, z b t c = 0 := fun c => by rw [hz, hn]; rfl
        simp only [this, add_zero]
        refine List.ext_getElem (by rw [hD.classes]; simp) fun i h1 h2 => ?_
        rw [List.getElem_map, List.getElem_range, List.getD_eq_getElem _ _ h1]
      | some g =>
        have : ∀ c, z b t c = g 0 b c := fun c => by rw [hz, hn]; rfl
        simp only [this]
    have htake : take 1 D.init.length ((List.range D.init.length).map fun b => (step (st b) (tok b)).2) (fun _ _ => 0) =
        .ok ((List.range D.init.length).map fun b => (step (st b) (tok b)).2) := by
      have := take_flat 1 D.init.length (fun _ b => (step (st b) (tok b)).2) (fun _ _ => 0) fun _ _ _ _ => Nat.zero_lt_one
      simpa using this
    have hround : ∃ s1, D.round (tempSR alpha pick) (noise t) s = .ok s1 ∧
        s1.state = ((List.range D.init.length).map fun b => (step (st b) (tok b)).2) ∧
        (s1.tokens = (List.range D.init.length).map fun b => .soft (softmax ((List.range D.nClasses).map fun c =>
          alpha * (s.beam 0 b + (D.roundLogits (noise t) ((List.range D.init.length).map fun b => [(step (st b) (tok b)).1]) 0 b).getD c 0)))) ∧
        ∀ b, s1.beam 0 b = s.beam 0 b + (D.roundLogits (noise t) ((List.range D.init.length).map fun b => [(step (st b) (tok b)).1]) 0 b).getD
          (pick ((List.range D.nClasses).map fun c => s.beam 0 b + (D.roundLogits (noise t) ((List.range D.init.length).map fun b => [(step (st b) (tok b)).1]) 0 b).getD c 0)) 0 := by
      rw [AR.round]
      simp only [hmodel]
      rw [if_neg, if_neg]
      · simp only [tempSR, if_neg (show ¬ D.nClasses = 0 by omega), bind, Except.bind, htake, pure, Except.pure]
        refine ⟨_, rfl, rfl, ?_, fun b => rfl⟩
        simp [flatTokens]
      · simp [tempSR]
      · rw [not_not]
        refine ⟨by simp [hmodel, tempSR], fun row hr => ?_⟩
        rw [hmodel] at hr
        obtain ⟨b, _, rfl⟩ := List.mem_map.1 hr
        refine ⟨rfl, fun x hx => ?_⟩
        rw [List.mem_singleton] at hx
        rw [hx]; exact hD.classes _ _
    obtain ⟨s1, h1, h2, h3, h4⟩ := hround
    obtain ⟨s2, g1, g2⟩ := loop_spec D hD hC hp alpha noise z hz n (t + 1) s1 _ _ h3 h2
    refine ⟨s2, ?_, fun b hb => ?_⟩
    · rw [List.range'_succ, List.foldlM_cons, h1]; exact g1
    · rw [g2 b hb, softGreedy]
      rw [← add_assoc]
      congr 1
      · rw [h4]
        congr 1
        have h5 := pick_iSup hp hC fun c => s.beam 0 b + (D.roundLogits (noise t) ((List.range D.init.length).map fun b => [(step (st b) (tok b)).1]) 0 b).getD c 0
        rw [iSup_add hC fun c => (D.roundLogits (noise t) ((List.range D.init.length).map fun b => [(step (st b) (tok b)).1]) 0 b).getD c 0] at h5
        rw [add_right_inj] at h5
        rw [h5]
        exact iSup_congr fun c => hlog b hb c c.2
      · congr 2
        rw [softmax_shift D.nClasses alpha (s.beam 0 b) fun c =>
          (D.roundLogits (noise t) ((List.range D.init.length).map fun b => [(step (st b) (tok b)).1]) 0 b).getD c 0]
        have hsum : ∑ i ∈ Finset.range D.nClasses, Real.exp (alpha * (D.roundLogits (noise t) ((List.range D.init.length).map fun b => [(step (st b) (tok b)).1]) 0 b).getD i 0) =
            ∑ i ∈ Finset.range D.nClasses, Real.exp (alpha * arNorm D.normalize ((List.range D.nClasses).map fun c => (step (st b) (tok b)).1.getD c 0 + z b t c) i) :=
          Finset.sum_congr rfl fun i hi => by rw [hlog b hb i (Finset.mem_range.1 hi)]
        rw [hsum]
        refine List.map_congr_left fun c hc => ?_
        rw [hlog b hb c (List.mem_range.1 hc)]

open Classical in
/-- What `greedy_tempmax(alpha)` computes: greedy search with softened inputs, with Gumbel noise on the logits of every step unless `alpha` is 0. -/
theorem tempmax_value (D : AR St) {step : ARStep St} (hD : IsCausal D step) (hN : 1 ≤ D.nLength) (hC : 1 ≤ D.nClasses) {pick : List ℝ → ℕ} (hp : IsArgmaxIdx pick)
    (gumbel : ℕ → ℕ → ℕ → ℕ → ℝ) (alpha : ℝ) (d : St) :
    ∃ value logits, D.greedyTempmax pick gumbel alpha = .ok (value, logits) ∧ ∀ b < D.init.length,
      value b = softGreedy D.normalize step alpha D.nClasses (fun t c => if alpha = 0 then 0 else gumbel t 0 b c) D.nLength 0 (D.init.getD b d) (.hard D.startClass) := by
  obtain ⟨s, h1, h2⟩ := loop_spec D hD hC hp alpha (fun t => if alpha = 0 then none else some (gumbel t)) (fun b t c => if alpha = 0 then 0 else gumbel t 0 b c)
    (fun t b c => by split_ifs <;> rfl) D.nLength 0
    ⟨fun k _ => (tempSR alpha pick).one k, List.replicate ((tempSR alpha pick).size * D.init.length) (.hard D.startClass), D.expand (tempSR alpha pick).size, []⟩
    (fun b => D.init.getD b d) (fun _ => .hard D.startClass) (by simp [tempSR, List.map_const']) (by
      simp only [tempSR]
      rw [AR.expand, replicate_flatten _ d]; simp)
  refine ⟨_, _, by
    rw [AR.greedyTempmax, AR.search, if_neg (by simp only [tempSR]; omega), List.range_eq_range', h1]; rfl, fun b hb => ?_⟩
  rw [h2 b hb]
  simp [tempSR]

/-- **C37** (partial): for `alpha = 0` the result does not depend on the noise, and its value is that of greedy search in which the network is fed the uniform distribution.
Missing: the same for other values of `alpha`, which is false (`tempmax_noisy`). -/
theorem tempmax_deterministic_partial (D : AR St) {step : ARStep St} (hD : IsCausal D step) (hN : 1 ≤ D.nLength) (hC : 1 ≤ D.nClasses) {pick : List ℝ → ℕ}
    (hp : IsArgmaxIdx pick) (d : St) : ∃ value logits, (∀ gumbel, D.greedyTempmax pick gumbel 0 = .ok (value, logits)) ∧ ∀ b < D.init.length,
      value b = softGreedy D.normalize step 0 D.nClasses (fun _ _ => 0) D.nLength 0 (D.init.getD b d) (.hard D.startClass) := by
  obtain ⟨value, logits, h1, h2⟩ := tempmax_value D hD hN hC hp (fun _ _ _ _ => 0) 0 d
  refine ⟨value, logits, fun gumbel => ?_, fun b hb => by rw [h2 b hb]; simp⟩
  rw [← h1, AR.greedyTempmax, AR.greedyTempmax]
  simp only [if_true]

/-- **C37 is false of the code**: for a single class and a single step, `greedy_tempmax(alpha)` with any `alpha ≠ 0` returns the logit (0) plus the Gumbel noise, so
two calls return different values. -/
theorem tempmax_noisy {pick : List ℝ → ℕ} (hp : IsArgmaxIdx pick) {alpha : ℝ} (ha : alpha ≠ 0) (gumbel : ℕ → ℕ → ℕ → ℕ → ℝ) :
    ∃ value logits, (Props.BeamSearch.uniform 1 1 false).greedyTempmax pick gumbel alpha = .ok (value, logits) ∧ value 0 = gumbel 0 0 0 0 := by
  obtain ⟨value, logits, h1, h2⟩ := tempmax_value (Props.BeamSearch.uniform 1 1 false) (Props.BeamSearch.uniform_causal 1 1 false) le_rfl le_rfl hp gumbel alpha ()
  refine ⟨value, logits, h1, ?_⟩
  rw [h2 0 (by simp [Props.BeamSearch.uniform])]
  simp [softGreedy, Props.BeamSearch.uniform, Props.BeamSearch.flatStep, arNorm, ha]

/-- Also for a normalised distribution with two classes of equal probability: if the noise of the first class is larger by `x > 0`, the value exceeds `log (1/2)`. -/
theorem tempmax_noisy_normalised {pick : List ℝ → ℕ} (hp : IsArgmaxIdx pick) {alpha : ℝ} (ha : alpha ≠ 0) {x : ℝ} (hx : 0 < x) :
    ∃ value value' logits logits', (Props.BeamSearch.uniform 2 1 true).greedyTempmax pick (fun _ _ _ _ => 0) alpha = .ok (value, logits) ∧
      (Props.BeamSearch.uniform 2 1 true).greedyTempmax pick (fun _ _ _ c => if c = 0 then x else 0) alpha = .ok (value', logits') ∧ value 0 < value' 0 := by
  obtain ⟨value, logits, h1, h2⟩ := tempmax_value (Props.BeamSearch.uniform 2 1 true) (Props.BeamSearch.uniform_causal 2 1 true) le_rfl (by simp [Props.BeamSearch.uniform]) hp
    (fun _ _ _ _ => 0) alpha ()
  obtain ⟨value', logits', h1', h2'⟩ := tempmax_value (Props.BeamSearch.uniform 2 1 true) (Props.BeamSearch.uniform_causal 2 1 true) le_rfl (by simp [Props.BeamSearch.uniform]) hp
    (fun _ _ _ c => if c = 0 then x else 0) alpha ()
  refine ⟨value, value', logits, logits', h1, h1', ?_⟩
  rw [h2 0 (by simp [Props.BeamSearch.uniform]), h2' 0 (by simp [Props.BeamSearch.uniform])]
  simp only [softGreedy, Props.BeamSearch.uniform, Props.BeamSearch.flatStep, arNorm, ha, if_false, if_true, add_zero]
  have hb : BddAbove (Set.range fun c : Fin 2 => ((List.range 2).map fun c => (List.replicate 2 (0 : ℝ)).getD c 0 + if c = 0 then x else 0).getD (c : ℕ) 0 -
    Real.log (∑ i ∈ Finset.range ((List.range 2).map fun c => (List.replicate 2 (0 : ℝ)).getD c 0 + if c = 0 then x else 0).length,
      Real.exp (((List.range 2).map fun c => (List.replicate 2 (0 : ℝ)).getD c 0 + if c = 0 then x else 0).getD i 0))) := (Set.finite_range _).bddAbove
  refine lt_of_le_of_lt (b := Real.log 2 * (-1)) ?_ (lt_of_lt_of_le ?_ (le_ciSup hb 0))
  · refine ciSup_le fun c => ?_
    fin_cases c <;> simp [List.range_succ, Finset.sum_range_succ] <;> norm_num
  · simp [List.range_succ, Finset.sum_range_succ]
    have : Real.log (Real.exp x + 1) < Real.log (2 * Real.exp x) := by
      refine Real.log_lt_log (by positivity) ?_
      have := Real.one_lt_exp_iff.2 hx
      linarith
    rw [Real.log_mul (by norm_num) (Real.exp_pos x).ne', Real.log_exp] at this
    linarith

/-- The hypotheses hold for a network with state, three classes and two batch rows. -/
example : ∃ pick, IsArgmaxIdx pick ∧ IsCausal exampleAR exampleStep ∧ 1 ≤ exampleAR.nLength ∧ 1 ≤ exampleAR.nClasses := by
  refine ⟨fun xs => (Props.BeamSearch.sortSel 1 xs).getD 0 0, fun xs hne => ?_, example_causal, by simp [exampleAR], by simp [exampleAR]⟩
  have h := Props.BeamSearch.sortSel_topk 1
  have hlen : 1 ≤ xs.length := List.length_pos_iff.2 hne
  have hl := h.length xs hlen
  obtain ⟨i, hi⟩ := List.length_eq_one_iff.1 hl
  simp only [hi, List.getD_cons_zero]
  refine ⟨h.lt xs hlen i (by rw [hi]; simp), fun x hx => ?_⟩
  obtain ⟨j, hj, rfl⟩ := List.getElem_of_mem hx
  by_cases e : j = i
  · subst e; rw [List.getD_eq_getElem _ _ hj]
  · have := h.best xs hlen i (by rw [hi]; simp) j hj (by rw [hi]; simpa using e)
    rwa [List.getD_eq_getElem _ _ hj] at this

end Props.TempMax
