import Verif.Spec.InfARSample
import Verif.Props.ARSampling
import Verif.Props.InfBeam

/-! Property theorems about `Autoregressive.sample` with classes forbidden by logits `-inf`: C132. -/

open Spec MeasureTheory ProbabilityTheory

noncomputable section
namespace Props.InfARSample
open _root_.InfBeam Semirings Props.Autoregressive
open _root_.Autoregressive (Tok)
open _root_.BeamSearch (cls)
open Props.ARSampling (pre pre_succ getD_range prod_rows drawn drawn_succ drawn_zero cut drawn_eq extend)

variable {St : Type}

open Classical in
theorem sum_pos {xs : List EReal} (h : ¬ Stuck xs) : 0 < ∑ i ∈ Finset.range xs.length, if xs.getD i 0 = ⊥ then 0 else Real.exp (xs.getD i 0).toReal := by
  rw [Stuck] at h
  push Not at h
  obtain ⟨e, he, h0⟩ := h
  obtain ⟨i, hi, rfl⟩ := List.getElem_of_mem he
  refine Finset.sum_pos' (fun i _ => by split_ifs; exacts [le_rfl, (Real.exp_pos _).le]) ⟨i, Finset.mem_range.2 hi, ?_⟩
  rw [List.getD_eq_getElem _ _ hi, if_neg h0]
  exact Real.exp_pos _

/-! ### The loop of `sample` -/

/-- The variables of the loop after `T` steps. -/
theorem loop_inv (D : ARE St) {step : ARStepE St} (hD : IsCausalE D step) (n : ℕ) (a : ℕ → ℕ → ℕ) (d : St) (T : ℕ) :
    (List.range T).foldl (fun (s : (List ℕ × List St) × List (List (List EReal)) × List (List ℕ)) t =>
      let out := D.model (s.1.1.map fun x => [.hard x]) s.1.2
      let logits := out.1.map fun row => row.getD 0 []
      let tokens := (List.range (n * D.init.length)).map (a t)
      ((tokens, out.2), s.2.1 ++ [logits], s.2.2 ++ [tokens]))
    ((List.replicate (n * D.init.length) D.startClass, D.expand n), [], []) =
    (((List.range n).flatMap fun k => (List.range D.init.length).map fun b => cls (stateE step (D.init.getD b d) (.hard D.startClass) (pre a (k * D.init.length + b) T)).2,
      (List.range n).flatMap fun k => (List.range D.init.length).map fun b => (stateE step (D.init.getD b d) (.hard D.startClass) (pre a (k * D.init.length + b) T)).1),
     (List.range T).map fun t => (List.range n).flatMap fun k => (List.range D.init.length).map fun b =>
        logitsE step (D.init.getD b d) (.hard D.startClass) (pre a (k * D.init.length + b) t),
     (List.range T).map fun t => (List.range (n * D.init.length)).map (a t)) := by
  have hflat : ∀ f : ℕ → ℕ, (List.range (n * D.init.length)).map f = (List.range n).flatMap fun k => (List.range D.init.length).map fun b => f (k * D.init.length + b) := by
    intro f
    refine List.ext_getElem (by rw [flat_length]; simp) fun i h1 h2 => ?_
    have hi : i < n * D.init.length := by simpa using h1
    have hB : 0 < D.init.length := by by_contra h; have : D.init.length = 0 := by omega
                                      rw [this] at hi; simp at hi
    have e : i / D.init.length * D.init.length + i % D.init.length = i := by rw [mul_comm]; exact Nat.div_add_mod _ _
    rw [List.getElem_map, List.getElem_range, ← List.getD_eq_getElem _ 0 h2]
    conv_rhs => rw [← e]
    rw [flat_index n D.init.length (fun k b => f (k * D.init.length + b)) 0 (Nat.div_lt_of_lt_mul (by rw [mul_comm]; exact hi)) (Nat.mod_lt _ hB), e]
  have hhard : ∀ (r T : ℕ) (s : St), (stateE step s (.hard D.startClass) (pre a r T)).2 = .hard (cls (stateE step s (.hard D.startClass) (pre a r T)).2) := by
    intro r T s
    cases T with
    | zero => rfl
    | succ T => rw [pre_succ, stateE_snoc]; rfl
  induction T with
  | zero =>
    simp only [List.range_zero, List.foldl_nil, List.map_nil]
    refine Prod.ext (Prod.ext ?_ ?_) rfl
    · change List.replicate _ _ = (List.range n).flatMap fun k => (List.range D.init.length).map fun b => D.startClass
      refine List.ext_getElem (by rw [flat_length]; simp) fun i h1 h2 => ?_
      rw [List.getElem_replicate]
      obtain ⟨k, _, b, _, hx⟩ := mem_flat (List.getElem_mem h2)
      exact hx
    · change D.expand n = (List.range n).flatMap fun k => (List.range D.init.length).map fun b => D.init.getD b d
      rw [ARE.expand, replicate_flatten _ d]
  | succ T ih =>
    rw [List.range_succ, List.foldl_append, ih]
    simp only [List.foldl_cons, List.foldl_nil]
    have hmodel := hD.run (((List.range n).flatMap fun k => (List.range D.init.length).map fun b =>
        cls (stateE step (D.init.getD b d) (.hard D.startClass) (pre a (k * D.init.length + b) T)).2).map fun x => [.hard x])
      ((List.range n).flatMap fun k => (List.range D.init.length).map fun b => (stateE step (D.init.getD b d) (.hard D.startClass) (pre a (k * D.init.length + b) T)).1)
      (by rw [List.length_map, flat_length, flat_length])
    rw [map_flat, zipWith_flat, zipWith_flat] at hmodel
    rw [map_flat, hmodel]
    have hrun : ∀ k b, runStepE step (stateE step (D.init.getD b d) (.hard D.startClass) (pre a (k * D.init.length + b) T)).1
        [.hard (cls (stateE step (D.init.getD b d) (.hard D.startClass) (pre a (k * D.init.length + b) T)).2)] =
        ([logitsE step (D.init.getD b d) (.hard D.startClass) (pre a (k * D.init.length + b) T)],
          (stateE step (D.init.getD b d) (.hard D.startClass) (pre a (k * D.init.length + b) (T + 1))).1) := by
      intro k b
      rw [← hhard, pre_succ, stateE_snoc]; rfl
    simp only [hrun]
    refine Prod.ext (Prod.ext ?_ rfl) (Prod.ext ?_ ?_)
    · simp only
      rw [hflat]
      refine List.flatMap_congr fun k _ => List.map_congr_left fun b _ => ?_
      rw [pre_succ, stateE_snoc]; rfl
    · simp only
      rw [map_flat, List.map_append]; rfl
    · simp only
      rw [List.map_append]; rfl

/-- The logits given to `Categorical` at step `t`. -/
def drawLogits (D : ARE St) (n : ℕ) (a : ℕ → ℕ → ℕ) (t : ℕ) : List (List EReal) := (D.sampleLoop n a).1.getD t []

theorem drawLogits_spec (D : ARE St) {step : ARStepE St} (hD : IsCausalE D step) (n : ℕ) (a : ℕ → ℕ → ℕ) (d : St) {t k b : ℕ} (ht : t < D.nLength) (hk : k < n)
    (hb : b < D.init.length) :
    (drawLogits D n a t).getD (k * D.init.length + b) [] = logitsE step (D.init.getD b d) (.hard D.startClass) (pre a (k * D.init.length + b) t) := by
  rw [drawLogits, ARE.sampleLoop]
  simp only
  rw [loop_inv D hD n a d]
  simp only
  rw [getD_range _ _ ht,
    flat_index n D.init.length (fun k b => logitsE step (D.init.getD b d) (.hard D.startClass) (pre a (k * D.init.length + b) t)) [] hk hb]

theorem sample_ok (D : ARE St) {step : ARStepE St} (hD : IsCausalE D step) (hl : NeverStuck step) (hN : 1 ≤ D.nLength) (n : ℕ) (hn : 1 ≤ n) (a : ℕ → ℕ → ℕ) (d : St) :
    ∃ smp, D.sample n a = .ok smp ∧ ∀ s < n, ∀ b < D.init.length, ∀ t < D.nLength, ∀ c, smp s b t c = if a t (s * D.init.length + b) = c then 1 else 0 := by
  have hfree : ¬ ∃ rows ∈ (D.sampleLoop n a).1, ∃ xs ∈ rows, ∀ e ∈ xs, e = ⊥ := by
    rintro ⟨rows, hr, xs, hx, he⟩
    rw [ARE.sampleLoop] at hr
    simp only at hr
    rw [loop_inv D hD n a d] at hr
    obtain ⟨t, _, rfl⟩ := List.mem_map.1 hr
    obtain ⟨k, _, b, _, rfl⟩ := mem_flat hx
    exact hl _ _ he
  refine ⟨_, by rw [ARE.sample, if_neg (by omega), if_neg hfree], fun s hs b hb t ht c => ?_⟩
  have hlt : s * D.init.length + b < n * D.init.length := by
    have := Nat.mul_le_mul_right D.init.length (show s + 1 ≤ n from hs)
    rw [Nat.add_mul, one_mul] at this
    omega
  have : (((D.sampleLoop n a).2.getD t []).getD (s * D.init.length + b) 0) = a t (s * D.init.length + b) := by
    rw [ARE.sampleLoop]
    simp only
    rw [loop_inv D hD n a d]
    simp only
    rw [getD_range _ _ ht, getD_range _ _ hlt]
  rw [this]

/-! ### The law of `sample` -/

theorem softProbE_norm {xs : List EReal} (hs : ¬ Stuck xs) (c : ℕ) (hc : c < xs.length) :
    softProbE xs c = if xs.getD c 0 ≠ ⊥ then Real.exp (allowedNorm true xs c) else 0 := by
  by_cases h : xs.getD c 0 = ⊥
  · rw [softProbE, if_neg fun h' => h'.2 h, if_neg fun h' => h' h]
  · rw [softProbE, if_pos ⟨hc, h⟩, if_pos h, allowedNorm, if_pos rfl, Real.exp_sub, Real.exp_log (sum_pos hs)]

theorem allowedProb_snoc (step : ARStepE St) (ys : List ℕ) (s : St) (x : Tok) (y : ℕ) (hs : ¬ Stuck (logitsE step s x ys)) (hy : y < (logitsE step s x ys).length) :
    allowedProb step s x (ys ++ [y]) = allowedProb step s x ys * softProbE (logitsE step s x ys) y := by
  rw [allowedProb, allowedProb, softProbE_norm hs y hy, allowedScore_snoc, Real.exp_add]
  by_cases h1 : Permitted step s x ys
  · by_cases h2 : (logitsE step s x ys).getD y 0 ≠ ⊥
    · rw [if_pos ((permitted_snoc step ys s x y).2 ⟨h1, h2⟩), if_pos h1, if_pos h2]
    · rw [if_neg fun h => h2 ((permitted_snoc step ys s x y).1 h).2, if_neg h2, mul_zero]
  · rw [if_neg fun h => h1 ((permitted_snoc step ys s x y).1 h).1, if_neg h1, zero_mul]

/-- The probability of one outcome of all draws. -/
theorem draws_prob (D : ARE St) {step : ARStepE St} (hD : IsCausalE D step) (hl : NeverStuck step) (n : ℕ) (d : St) {Ω : Type} [MeasurableSpace Ω] (P : Measure Ω) [IsProbabilityMeasure P]
    (X : ℕ → ℕ → Ω → ℕ) (hX : CategoricalDrawsE P (n * D.init.length) D.nLength (drawLogits D n) X) (a : ℕ → ℕ → ℕ) (ha : ∀ t < D.nLength, ∀ r < n * D.init.length, a t r < D.nClasses) :
    ∀ T ≤ D.nLength, P.real {ω | ∀ t < T, ∀ r < n * D.init.length, X t r ω = a t r} =
      ∏ s ∈ Finset.range n, ∏ b ∈ Finset.range D.init.length, allowedProb step (D.init.getD b d) (.hard D.startClass) (pre a (s * D.init.length + b) T) := by
  intro T
  induction T with
  | zero => intro _; simp [pre, allowedProb, Permitted, allowedScore]
  | succ T ih =>
    intro hT
    have h := hX.law T hT a
    have e : {ω | ∀ t < T + 1, ∀ r < n * D.init.length, X t r ω = a t r} = {ω | ∀ t' ≤ T, ∀ r < n * D.init.length, X t' r ω = a t' r} := by
      ext ω; simp only [Set.mem_ofPred_eq, Nat.lt_succ_iff]
    rw [e, h, ih (by omega), prod_rows, ← Finset.prod_mul_distrib]
    refine Finset.prod_congr rfl fun s hs => ?_
    rw [← Finset.prod_mul_distrib]
    refine Finset.prod_congr rfl fun b hb => ?_
    have hs := Finset.mem_range.1 hs
    have hb := Finset.mem_range.1 hb
    have hlt : s * D.init.length + b < n * D.init.length := by
      have := Nat.mul_le_mul_right D.init.length (show s + 1 ≤ n from hs)
      rw [Nat.add_mul, one_mul] at this
      omega
    rw [drawLogits_spec D hD n a d hT hs hb, pre_succ, allowedProb_snoc _ _ _ _ _ (hl _ _)]
    rw [logitsE, hD.classes]
    exact ha T hT _ hlt

open Classical in
/-- **C132.**  `sample((n,))` returns `n` sequences per batch row, as one-hot encodings.  They are independent of each other, also across the batch, and each has the
chain-rule distribution of its batch row: for all sets `A s b` of sequences, the probability that every sample `s` of every batch row `b` encodes a sequence in `A s b` is
the product of the probabilities of these sets. -/
theorem sample_law (D : ARE St) {step : ARStepE St} (hD : IsCausalE D step) (hl : NeverStuck step) (hN : 1 ≤ D.nLength) (n : ℕ) (hn : 1 ≤ n) (d : St) {Ω : Type} [MeasurableSpace Ω] (P : Measure Ω)
    [IsProbabilityMeasure P] (X : ℕ → ℕ → Ω → ℕ) (hX : CategoricalDrawsE P (n * D.init.length) D.nLength (drawLogits D n) X) :
    ∃ smp : Ω → ℕ → ℕ → ℕ → ℕ → ℕ, (∀ ω, D.sample n (fun t r => X t r ω) = .ok (smp ω)) ∧ ∀ A : ℕ → ℕ → Set (List ℕ),
      P.real {ω | ∀ s < n, ∀ b < D.init.length, ∃ y ∈ A s b, IsSeq D.nClasses D.nLength y ∧
          ∀ t < D.nLength, ∀ c < D.nClasses, smp ω s b t c = if y.getD t 0 = c then 1 else 0} =
        ∏ s ∈ Finset.range n, ∏ b ∈ Finset.range D.init.length, ∑ y : Fin D.nLength → Fin D.nClasses,
          if (List.ofFn fun t => (y t : ℕ)) ∈ A s b then allowedProb step (D.init.getD b d) (.hard D.startClass) (List.ofFn fun t => (y t : ℕ)) else 0 := by
  choose smp hsmp hval using fun ω => sample_ok D hD hl hN n hn (fun t r => X t r ω) d
  refine ⟨smp, hsmp, fun A => ?_⟩
  set B := D.init.length with hB
  have hlt : ∀ s < n, ∀ b < B, s * B + b < n * B := fun s hs b hb => by
    have := Nat.mul_le_mul_right B (show s + 1 ≤ n from hs)
    rw [Nat.add_mul, one_mul] at this
    omega
  -- the outcome of all draws in which row `(s, b)` is `Y (s, b)`
  let out : (Fin n × Fin B → Fin D.nLength → Fin D.nClasses) → ℕ → ℕ → ℕ := fun Y t r =>
    if h : r / B < n ∧ r % B < B ∧ t < D.nLength then Y (⟨r / B, h.1⟩, ⟨r % B, h.2.1⟩) ⟨t, h.2.2⟩ else 0
  have hout : ∀ Y (s : Fin n) (b : Fin B) (t : Fin D.nLength), out Y t (s * B + b) = Y (s, b) t := fun Y s b t => by
    have e1 : (s * B + b : ℕ) / B = s := by
      rw [mul_comm, Nat.mul_add_div (by have := b.2; omega), Nat.div_eq_of_lt b.2, add_zero]
    have e2 : (s * B + b : ℕ) % B = b := by rw [mul_comm, Nat.mul_add_mod, Nat.mod_eq_of_lt b.2]
    have h : ((s * B + b : ℕ) / B < n ∧ (s * B + b : ℕ) % B < B ∧ (t : ℕ) < D.nLength) := ⟨by rw [e1]; exact s.2, by rw [e2]; exact b.2, t.2⟩
    simp only [out]
    rw [dif_pos h]
    simp only [e1, e2]
  have hpre : ∀ Y (s : Fin n) (b : Fin B), pre (out Y) (s * B + b) D.nLength = List.ofFn fun t => (Y (s, b) t : ℕ) := fun Y s b => by
    refine List.ext_getElem (by simp [pre]) fun i h1 h2 => ?_
    have hi : i < D.nLength := by simpa [pre] using h1
    rw [List.getElem_ofFn]
    simp only [pre, List.getElem_map, List.getElem_range]
    exact hout Y s b ⟨i, hi⟩
  let E : (Fin n × Fin B → Fin D.nLength → Fin D.nClasses) → Set Ω := fun Y => {ω | ∀ t < D.nLength, ∀ r < n * B, X t r ω = out Y t r}
  have hE : ∀ Y ω, ω ∈ E Y ↔ ∀ (s : Fin n) (b : Fin B) (t : Fin D.nLength), X t (s * B + b) ω = Y (s, b) t := fun Y ω => by
    refine ⟨fun h s b t => (h t t.2 _ (hlt s s.2 b b.2)).trans (hout Y s b t), fun h t ht r hr => ?_⟩
    have hB0 : 0 < B := by by_contra h0; have : B = 0 := by omega
                           rw [this] at hr; simp at hr
    have hd : r / B < n := Nat.div_lt_of_lt_mul (by rw [mul_comm]; exact hr)
    have hm : r % B < B := Nat.mod_lt _ hB0
    have e : r / B * B + r % B = r := by rw [mul_comm]; exact Nat.div_add_mod _ _
    have := h ⟨r / B, hd⟩ ⟨r % B, hm⟩ ⟨t, ht⟩
    rw [← hout] at this
    simp only [e] at this
    exact this
  have hmeas : ∀ Y, MeasurableSet (E Y) := fun Y => by
    have : E Y = ⋂ t, ⋂ (_ : t < D.nLength), ⋂ r, ⋂ (_ : r < n * B), X t r ⁻¹' {out Y t r} := by ext ω; simp [E]
    rw [this]
    exact MeasurableSet.iInter fun t => MeasurableSet.iInter fun _ => MeasurableSet.iInter fun r => MeasurableSet.iInter fun _ =>
      hX.meas t r (measurableSet_singleton _)
  have hprob : ∀ Y, P.real (E Y) = ∏ p : Fin n × Fin B, allowedProb step (D.init.getD p.2 d) (.hard D.startClass) (List.ofFn fun t => (Y p t : ℕ)) := fun Y => by
    rw [show E Y = {ω | ∀ t < D.nLength, ∀ r < n * D.init.length, X t r ω = out Y t r} from rfl]
    rw [draws_prob D hD hl n d P X hX (out Y) ?_ D.nLength le_rfl, Fintype.prod_prod_type, Finset.prod_range]
    · refine Finset.prod_congr rfl fun s _ => ?_
      rw [Finset.prod_range]
      refine Finset.prod_congr rfl fun b _ => ?_
      rw [← hpre]
    · intro t ht r hr
      simp only [out]
      split_ifs with h
      · exact Fin.isLt _
      · exfalso
        have hB0 : 0 < B := by by_contra h0; have : D.init.length = 0 := by omega
                               rw [this] at hr; simp at hr
        exact h ⟨Nat.div_lt_of_lt_mul (by rw [mul_comm]; exact hr), Nat.mod_lt _ hB0, ht⟩
  have hevent : {ω | ∀ s < n, ∀ b < B, ∃ y ∈ A s b, IsSeq D.nClasses D.nLength y ∧
      ∀ t < D.nLength, ∀ c < D.nClasses, smp ω s b t c = if y.getD t 0 = c then 1 else 0} =
      ⋃ Y ∈ Finset.univ.filter fun Y : Fin n × Fin B → Fin D.nLength → Fin D.nClasses => ∀ p, (List.ofFn fun t => (Y p t : ℕ)) ∈ A p.1 p.2, E Y := by
    ext ω
    simp only [Set.mem_ofPred_eq, Set.mem_iUnion, Finset.mem_filter, Finset.mem_univ, true_and, exists_prop]
    constructor
    · intro h
      have h' : ∀ p : Fin n × Fin B, ∃ y : Fin D.nLength → Fin D.nClasses, (List.ofFn fun t => (y t : ℕ)) ∈ A p.1 p.2 ∧ ∀ t : Fin D.nLength, X t (p.1 * B + p.2) ω = y t := fun p => by
        obtain ⟨y, hy, hs, hv⟩ := h p.1 p.1.2 p.2 p.2.2
        refine ⟨fun t => ⟨y.getD t 0, Props.BeamSearch.seq_lt hs t.2⟩, ?_, fun t => ?_⟩
        · have : (List.ofFn fun t : Fin D.nLength => y.getD t 0) = y := by
            refine List.ext_getElem (by simp [hs.1]) fun i h1 h2 => ?_
            rw [List.getElem_ofFn, List.getD_eq_getElem _ _ h2]
          simp only
          rw [this]; exact hy
        · have := hv t t.2 (y.getD t 0) (Props.BeamSearch.seq_lt hs t.2)
          rw [if_pos rfl, hval ω p.1 p.1.2 p.2 p.2.2 t t.2] at this
          by_contra hne
          rw [if_neg hne] at this
          omega
      choose Y hY1 hY2 using h'
      exact ⟨Y, hY1, (hE Y ω).2 fun s b t => hY2 (s, b) t⟩
    · rintro ⟨Y, hY, hω⟩ s hs b hb
      refine ⟨_, hY (⟨s, hs⟩, ⟨b, hb⟩), ⟨by simp, fun c hc => ?_⟩, fun t ht c hc => ?_⟩
      · obtain ⟨t, rfl⟩ := (List.mem_ofFn' _ _).1 hc; exact Fin.isLt _
      · rw [hval ω s hs b hb t ht, (hE Y ω).1 hω ⟨s, hs⟩ ⟨b, hb⟩ ⟨t, ht⟩, List.getD_eq_getElem _ _ (by simpa using ht), List.getElem_ofFn]
  rw [hevent, measureReal_biUnion_finset]
  · simp only [hprob]
    rw [Finset.sum_filter, Finset.prod_range]
    simp_rw [Finset.prod_range]
    rw [← Fintype.prod_prod_type (f := fun p : Fin n × Fin B => ∑ y : Fin D.nLength → Fin D.nClasses,
      if (List.ofFn fun t => (y t : ℕ)) ∈ A p.1 p.2 then allowedProb step (D.init.getD p.2 d) (.hard D.startClass) (List.ofFn fun t => (y t : ℕ)) else 0)]
    rw [Finset.prod_univ_sum, Fintype.piFinset_univ]
    refine Finset.sum_congr rfl fun Y _ => ?_
    split_ifs with h
    · exact Finset.prod_congr rfl fun p _ => (if_pos (h p)).symm
    · push Not at h
      obtain ⟨p, hp⟩ := h
      exact (Finset.prod_eq_zero (Finset.mem_univ p) (if_neg hp)).symm
  · intro Y _ Y' _ hne
    refine Set.disjoint_left.2 fun ω h1 h2 => hne ?_
    funext p t
    exact Fin.ext (((hE Y ω).1 h1 p.1 p.2 t).symm.trans ((hE Y' ω).1 h2 p.1 p.2 t))
  · exact fun Y _ => hmeas Y

/-! ### Such draws exist -/

theorem softProbE_nonneg (xs : List EReal) (c : ℕ) : 0 ≤ softProbE xs c := by
  classical
  rw [softProbE]
  split_ifs
  · exact div_nonneg (Real.exp_pos _).le (Finset.sum_nonneg fun i _ => by split_ifs; exacts [le_rfl, (Real.exp_pos _).le])
  · exact le_rfl

/-- The probabilities of the classes add up to 1. -/
theorem softProbE_sum {xs : List EReal} (h : ¬ Stuck xs) : ∑ c ∈ Finset.range xs.length, softProbE xs c = 1 := by
  classical
  have e : ∀ c ∈ Finset.range xs.length, softProbE xs c = (if xs.getD c 0 = ⊥ then 0 else Real.exp (xs.getD c 0).toReal) /
      ∑ i ∈ Finset.range xs.length, if xs.getD i 0 = ⊥ then 0 else Real.exp (xs.getD i 0).toReal := fun c hc => by
    rw [softProbE]
    by_cases h0 : xs.getD c 0 = ⊥
    · rw [if_neg fun h' => h'.2 h0, if_pos h0, zero_div]
    · rw [if_pos ⟨Finset.mem_range.1 hc, h0⟩, if_neg h0]
  rw [Finset.sum_congr rfl e, ← Finset.sum_div, div_self]
  have := (sum_pos h).ne'
  convert this

/-- `Categorical(logits=xs)`. -/
def softPMF {C : ℕ} {xs : List EReal} (hlen : xs.length = C + 1) (h : ¬ Stuck xs) : PMF (Fin (C + 1)) :=
  PMF.ofFintype (fun c => ENNReal.ofReal (softProbE xs c)) (by
    rw [← ENNReal.ofReal_sum_of_nonneg fun c _ => softProbE_nonneg _ _, ← Finset.sum_range fun c => softProbE xs c, ← hlen, softProbE_sum h, ENNReal.ofReal_one])

/-- If the logits of a step depend on the classes drawn before only, and there are `C + 1` of them, then draws as in `CategoricalDrawsE` exist. -/
theorem draws_exist (R N C : ℕ) (logits : (ℕ → ℕ → ℕ) → ℕ → List (List EReal)) (hlen : ∀ a, ∀ t < N, ∀ r < R, ((logits a t).getD r []).length = C + 1)
    (hfree : ∀ a, ∀ t < N, ∀ r < R, ¬ Stuck ((logits a t).getD r []))
    (hpast : ∀ a a', ∀ t < N, (∀ t' < t, ∀ r < R, a t' r = a' t' r) → logits a t = logits a' t) :
    ∃ (Ω : Type) (_ : MeasurableSpace Ω) (P : Measure Ω) (_ : IsProbabilityMeasure P) (X : ℕ → ℕ → Ω → ℕ), CategoricalDrawsE P R N logits X := by
  classical
  let I := Fin N × (Fin N → Fin R → Fin (C + 1)) × Fin R
  let μ : I → Measure (Fin (C + 1)) := fun i => (softPMF (hlen (ARSampling.extend i.2.1) i.1 i.1.2 i.2.2 i.2.2.2) (hfree _ _ i.1.2 _ i.2.2.2)).toMeasure
  have hμ : ∀ i, IsProbabilityMeasure (μ i) := fun i => PMF.toMeasure.isProbabilityMeasure _
  have hμc : ∀ i (c : Fin (C + 1)), (μ i).real {c} = softProbE ((logits (ARSampling.extend i.2.1) i.1).getD i.2.2 []) c := fun i c => by
    rw [Measure.real, show μ i = _ from rfl, PMF.toMeasure_apply_singleton _ _ (measurableSet_singleton _), softPMF, PMF.ofFintype_apply,
      ENNReal.toReal_ofReal (softProbE_nonneg _ _)]
  refine ⟨I → Fin (C + 1), inferInstance, Measure.pi μ, inferInstance, fun t r ω => ARSampling.extend (drawn ω (t + 1)) t r, fun t r => measurable_of_countable _, ?_⟩
  have hX : ∀ (ω : I → Fin (C + 1)) (T : ℕ) (t : Fin N) (r : Fin R), (t : ℕ) < T → drawn ω T t r = drawn ω (t + 1) t r := by
    intro ω T t r h
    induction T with
    | zero => omega
    | succ T ih =>
      by_cases e : (t : ℕ) = T
      · rw [e]
      · rw [drawn_succ, if_neg e]; exact ih (by omega)
  have hprob : ∀ (a : Fin N → Fin R → Fin (C + 1)) (T : ℕ), T ≤ N → (Measure.pi μ).real {ω | drawn ω T = cut a T} =
      ∏ t ∈ Finset.range T, ∏ r ∈ Finset.range R, softProbE ((logits (ARSampling.extend a) t).getD r []) (ARSampling.extend a t r) := by
    intro a T hT
    have e : {ω : I → Fin (C + 1) | drawn ω T = cut a T} = Set.pi Set.univ fun i : I => if (i.1 : ℕ) < T ∧ i.2.1 = cut a i.1 then {a i.1 i.2.2} else Set.univ := by
      ext ω
      simp only [Set.mem_ofPred_eq, Set.mem_pi, Set.mem_univ, true_implies]
      rw [drawn_eq]
      constructor
      · rintro h ⟨t, a', r⟩
        simp only
        split_ifs with hc
        · rw [hc.2]; exact h t hc.1 r
        · trivial
      · intro h t ht r
        have := h (t, cut a t, r)
        rw [if_pos ⟨ht, rfl⟩] at this
        exact this
    rw [e, Measure.real, Measure.pi_pi, ENNReal.toReal_prod]
    have h1 : ∀ i : I, (μ i (if (i.1 : ℕ) < T ∧ i.2.1 = cut a i.1 then {a i.1 i.2.2} else Set.univ)).toReal =
        if i.2.1 = cut a i.1 then (if (i.1 : ℕ) < T then softProbE ((logits (ARSampling.extend a) i.1).getD i.2.2 []) (ARSampling.extend a i.1 i.2.2) else 1) else 1 := by
      rintro ⟨t, a', r⟩
      simp only
      by_cases hc : (t : ℕ) < T ∧ a' = cut a t
      · rw [if_pos hc, if_pos hc.2, if_pos hc.1]
        refine (hμc (t, a', r) (a t r)).trans ?_
        simp only
        rw [hc.2, hpast (ARSampling.extend (cut a t)) (ARSampling.extend a) t t.2 fun t' ht' r' hr' => ?_]
        · congr 1; rw [ARSampling.extend, dif_pos ⟨t.2, r.2⟩]
        · rw [ARSampling.extend, ARSampling.extend, dif_pos ⟨by omega, hr'⟩, dif_pos ⟨by omega, hr'⟩, cut, if_pos ht']
      · rw [if_neg hc, measure_univ, ENNReal.toReal_one]
        by_cases h2 : a' = cut a t
        · rw [if_pos h2, if_neg fun h => hc ⟨h, h2⟩]
        · rw [if_neg h2]
    rw [Finset.prod_congr rfl fun i _ => h1 i, Fintype.prod_prod_type]
    have h2 : ∀ t : Fin N, ∏ y : (Fin N → Fin R → Fin (C + 1)) × Fin R,
        (if y.1 = cut a t then (if (t : ℕ) < T then softProbE ((logits (ARSampling.extend a) t).getD y.2 []) (ARSampling.extend a t y.2) else 1) else 1) =
        if (t : ℕ) < T then ∏ r ∈ Finset.range R, softProbE ((logits (ARSampling.extend a) t).getD r []) (ARSampling.extend a t r) else 1 := by
      intro t
      rw [Fintype.prod_prod_type, Finset.prod_eq_single (cut a t)]
      · by_cases h : (t : ℕ) < T
        · simp only [if_pos h, if_true]; rw [Finset.prod_range]
        · simp only [if_neg h, if_true]; exact Finset.prod_const_one
      · intro a' _ hne
        simp only [if_neg hne]; exact Finset.prod_const_one
      · intro h; exact absurd (Finset.mem_univ _) h
    refine (Finset.prod_congr rfl fun t _ => h2 t).trans ?_
    rw [← Finset.prod_range fun t => if t < T then ∏ r ∈ Finset.range R, softProbE ((logits (ARSampling.extend a) t).getD r []) (ARSampling.extend a t r) else 1,
      ← Finset.prod_filter]
    refine Finset.prod_congr ?_ fun _ _ => rfl
    ext t; simp only [Finset.mem_filter, Finset.mem_range]; omega
  -- the event of the first `T` steps
  have hevent : ∀ (a : ℕ → ℕ → ℕ) (T : ℕ), T ≤ N → (∀ t < T, ∀ r < R, a t r < C + 1) → ∀ a' : Fin N → Fin R → Fin (C + 1),
      (∀ t : Fin N, (t : ℕ) < T → ∀ r : Fin R, (a' t r : ℕ) = a t r) →
      {ω : I → Fin (C + 1) | ∀ t < T, ∀ r < R, ARSampling.extend (drawn ω (t + 1)) t r = a t r} = {ω | drawn ω T = cut a' T} := by
    intro a T hT ha a' ha'
    ext ω
    simp only [Set.mem_ofPred_eq]
    constructor
    · intro h
      funext t r
      rw [cut]
      split_ifs with ht
      · rw [hX ω T t r ht]
        have := h t ht r r.2
        rw [ARSampling.extend, dif_pos ⟨t.2, r.2⟩, ← ha' t ht r] at this
        exact Fin.ext this
      · exact drawn_zero ω T t r (by omega)
    · intro h t ht r hr
      have := congrFun (congrFun h ⟨t, by omega⟩) ⟨r, hr⟩
      rw [cut, if_pos ht, hX ω T _ _ ht] at this
      rw [ARSampling.extend, dif_pos ⟨by omega, hr⟩, this, ha' _ ht]
  intro t ht a
  have hle : ∀ S : Set (I → Fin (C + 1)), {ω : I → Fin (C + 1) | ∀ t' ≤ t, ∀ r < R, ARSampling.extend (drawn ω (t' + 1)) t' r = a t' r} = S →
      {ω : I → Fin (C + 1) | ∀ t' < t + 1, ∀ r < R, ARSampling.extend (drawn ω (t' + 1)) t' r = a t' r} = S := by
    intro S h; rw [← h]; ext ω; simp only [Set.mem_ofPred_eq, Nat.lt_succ_iff]
  have hle' : {ω : I → Fin (C + 1) | ∀ t' ≤ t, ∀ r < R, ARSampling.extend (drawn ω (t' + 1)) t' r = a t' r} =
      {ω : I → Fin (C + 1) | ∀ t' < t + 1, ∀ r < R, ARSampling.extend (drawn ω (t' + 1)) t' r = a t' r} := (hle _ rfl).symm
  rw [hle']
  have hrange : ∀ (ω : I → Fin (C + 1)) t r, ARSampling.extend (drawn ω (t + 1)) t r < C + 1 := fun ω t r => by
    rw [ARSampling.extend]; split_ifs
    · exact Fin.isLt _
    · omega
  by_cases ha : ∀ t' < t + 1, ∀ r < R, a t' r < C + 1
  · let a' : Fin N → Fin R → Fin (C + 1) := fun t' r => if h : a t' r < C + 1 then ⟨a t' r, h⟩ else 0
    have ha' : ∀ t' : Fin N, (t' : ℕ) < t + 1 → ∀ r : Fin R, (a' t' r : ℕ) = a t' r := fun t' ht' r => by
      simp only [a']; rw [dif_pos (ha t' ht' r r.2)]
    rw [hevent a (t + 1) ht ha a' ha', hevent a t (by omega) (fun t' h => ha t' (by omega)) a' (fun t' h => ha' t' (by omega)),
      hprob a' (t + 1) ht, hprob a' t (by omega), Finset.prod_range_succ]
    congr 1
    refine Finset.prod_congr rfl fun r hr => ?_
    have hr := Finset.mem_range.1 hr
    have he : ∀ t' < t + 1, ∀ r < R, ARSampling.extend a' t' r = a t' r := fun t' ht' r hr => by
      rw [ARSampling.extend, dif_pos ⟨by omega, hr⟩]; exact ha' ⟨t', by omega⟩ ht' ⟨r, hr⟩
    rw [he t (by omega) r hr, hpast (ARSampling.extend a') a t ht fun t' ht' => he t' (by omega)]
  · -- a class that is out of range is not drawn
    have hempty : {ω : I → Fin (C + 1) | ∀ t' < t + 1, ∀ r < R, ARSampling.extend (drawn ω (t' + 1)) t' r = a t' r} = ∅ := by
      rw [Set.eq_empty_iff_forall_notMem]
      intro ω h
      exact ha fun t' ht' r hr => by rw [← h t' ht' r hr]; exact hrange ω t' r
    rw [hempty, measureReal_empty]
    symm
    push Not at ha
    obtain ⟨t', ht', r, hr, hbig⟩ := ha
    by_cases e : t' = t
    · rw [Finset.prod_eq_zero (Finset.mem_range.2 hr), mul_zero]
      rw [softProbE, if_neg (by rw [hlen a t ht r hr, ← e]; intro h; omega)]
    · have : {ω : I → Fin (C + 1) | ∀ t' < t, ∀ r < R, ARSampling.extend (drawn ω (t' + 1)) t' r = a t' r} = ∅ := by
        rw [Set.eq_empty_iff_forall_notMem]
        intro ω h
        have := h t' (by omega) r hr
        have := hrange ω t' r
        omega
      rw [this, measureReal_empty, zero_mul]

/-- The hypotheses of `sample_law` can be met for every network. -/
theorem sample_draws_exist (D : ARE St) {step : ARStepE St} (hD : IsCausalE D step) (hl : NeverStuck step) (n : ℕ) (d : St) :
    ∃ (Ω : Type) (_ : MeasurableSpace Ω) (P : Measure Ω) (_ : IsProbabilityMeasure P) (X : ℕ → ℕ → Ω → ℕ),
      CategoricalDrawsE P (n * D.init.length) D.nLength (drawLogits D n) X := by
  have hC := classes_pos hD hl d
  refine draws_exist _ _ (D.nClasses - 1) _ (fun a t ht r hr => ?_) (fun a t ht r hr => ?_) fun a a' t ht h => ?_
  · have hB0 : 0 < D.init.length := by by_contra h0; have : D.init.length = 0 := by omega
                                       rw [this] at hr; simp at hr
    have e : r / D.init.length * D.init.length + r % D.init.length = r := by rw [mul_comm]; exact Nat.div_add_mod _ _
    rw [← e, drawLogits_spec D hD n a d ht (Nat.div_lt_of_lt_mul (by rw [mul_comm]; exact hr)) (Nat.mod_lt _ hB0), logitsE, hD.classes]
    omega
  · have hB0 : 0 < D.init.length := by by_contra h0; have : D.init.length = 0 := by omega
                                       rw [this] at hr; simp at hr
    have e : r / D.init.length * D.init.length + r % D.init.length = r := by rw [mul_comm]; exact Nat.div_add_mod _ _
    rw [← e, drawLogits_spec D hD n a d ht (Nat.div_lt_of_lt_mul (by rw [mul_comm]; exact hr)) (Nat.mod_lt _ hB0)]
    exact hl _ _
  · rw [drawLogits, drawLogits, ARE.sampleLoop, ARE.sampleLoop]
    simp only
    rw [loop_inv D hD n a d, loop_inv D hD n a' d]
    simp only
    rw [getD_range _ _ ht, getD_range _ _ ht]
    refine List.flatMap_congr fun k hk => List.map_congr_left fun b hb => ?_
    congr 1
    refine List.map_congr_left fun t' ht' => h t' (List.mem_range.1 ht') _ ?_
    have := Nat.mul_le_mul_right D.init.length (show k + 1 ≤ n from List.mem_range.1 hk)
    rw [Nat.add_mul, one_mul] at this
    have := List.mem_range.1 hb
    omega

/-- **C132, in every run.**  `Categorical` never returns a class of probability 0; then every sample consists of allowed classes. -/
theorem sample_permitted (D : ARE St) {step : ARStepE St} (hD : IsCausalE D step) (hl : NeverStuck step) (hN : 1 ≤ D.nLength) (n : ℕ) (hn : 1 ≤ n) (draw : ℕ → ℕ → ℕ) (d : St)
    (hdraw : ∀ t < D.nLength, ∀ r < n * D.init.length, 0 < softProbE ((drawLogits D n draw t).getD r []) (draw t r)) :
    ∃ smp, D.sample n draw = .ok smp ∧ ∀ s < n, ∀ b < D.init.length, ∃ y, IsSeq D.nClasses D.nLength y ∧ Permitted step (D.init.getD b d) (.hard D.startClass) y ∧
      ∀ t < D.nLength, ∀ c < D.nClasses, smp s b t c = if y.getD t 0 = c then 1 else 0 := by
  obtain ⟨smp, h1, h2⟩ := sample_ok D hD hl hN n hn draw d
  refine ⟨smp, h1, fun s hs b hb => ?_⟩
  have hlt : s * D.init.length + b < n * D.init.length := by
    have := Nat.mul_le_mul_right D.init.length (show s + 1 ≤ n from hs)
    rw [Nat.add_mul, one_mul] at this
    omega
  have hpos : ∀ t < D.nLength, draw t (s * D.init.length + b) < D.nClasses ∧
      (logitsE step (D.init.getD b d) (.hard D.startClass) (pre draw (s * D.init.length + b) t)).getD (draw t (s * D.init.length + b)) 0 ≠ ⊥ := by
    intro t ht
    have := hdraw t ht _ hlt
    rw [drawLogits_spec D hD n draw d ht hs hb, softProbE] at this
    by_contra hcon
    rw [if_neg] at this
    · exact lt_irrefl _ this
    · intro h
      rw [logitsE, hD.classes] at h
      exact hcon h
  have hperm : ∀ T ≤ D.nLength, Permitted step (D.init.getD b d) (.hard D.startClass) (pre draw (s * D.init.length + b) T) := by
    intro T
    induction T with
    | zero => intro _; trivial
    | succ T ih => intro hT; rw [pre_succ, permitted_snoc]; exact ⟨ih (by omega), (hpos T hT).2⟩
  refine ⟨pre draw (s * D.init.length + b) D.nLength, ⟨by simp [pre], fun c hc => ?_⟩, hperm _ le_rfl, fun t ht c _ => ?_⟩
  · obtain ⟨t, ht, rfl⟩ := List.mem_map.1 hc
    exact (hpos t (List.mem_range.1 ht)).1
  · rw [h2 s hs b hb t ht, pre, getD_range _ _ ht]

/-- **C132, no class left.**  If all classes are forbidden at the first step of some batch row, `sample` raises. -/
theorem sample_stuck (D : ARE St) {step : ARStepE St} (hD : IsCausalE D step) (hN : 1 ≤ D.nLength) (n : ℕ) (hn : 1 ≤ n) (draw : ℕ → ℕ → ℕ) (d : St) {b : ℕ}
    (hb : b < D.init.length) (hst : Stuck (step (D.init.getD b d) (.hard D.startClass)).1) : D.sample n draw = .error .value := by
  rw [ARE.sample, if_neg (by omega), if_pos]
  rw [ARE.sampleLoop]
  simp only
  rw [loop_inv D hD n draw d]
  refine ⟨_, List.mem_map.2 ⟨0, List.mem_range.2 hN, rfl⟩, _, List.mem_flatMap.2 ⟨0, List.mem_range.2 hn, List.mem_map.2 ⟨b, List.mem_range.2 hb, rfl⟩⟩, hst⟩

/-- The hypotheses hold for sequences without repetitions: some probability space carries the draws, and the probability of every sequence is as in the chain rule. -/
example : ∃ (Ω : Type) (_ : MeasurableSpace Ω) (P : Measure Ω) (_ : IsProbabilityMeasure P) (X : ℕ → ℕ → Ω → ℕ),
    CategoricalDrawsE P (5 * 2) 4 (drawLogits (Props.InfBeam.noRepeatAR 3 4 true) 5) X :=
  sample_draws_exist (Props.InfBeam.noRepeatAR 3 4 true) (Props.InfBeam.noRepeat_causal 3 4 true) (Props.InfBeam.noRepeat_leaves (by norm_num)) 5 ()

/-- A sequence that repeats a class has probability 0, one that does not has probability `1/2` for every step. -/
example : allowedProb (Props.InfBeam.noRepeat 3) () (.hard 0) [1, 1] = 0 ∧ allowedProb (Props.InfBeam.noRepeat 3) () (.hard 0) [1, 2] = 1 / 4 := by
  have e0 : (Props.InfBeam.noRepeat 3 () (.hard 0)).1 = [⊥, 0, 0] := by simp [Props.InfBeam.noRepeat, List.range_succ]
  have e1 : (Props.InfBeam.noRepeat 3 () (.hard 1)).1 = [0, ⊥, 0] := by simp [Props.InfBeam.noRepeat, List.range_succ]
  constructor
  · rw [allowedProb, if_neg]
    rw [Permitted, Permitted, e0]
    rintro ⟨_, h, _⟩
    have : (Props.InfBeam.noRepeat 3 () (.hard 0)).2 = () := rfl
    rw [this, e1] at h
    simp at h
  · have h2 : (Props.InfBeam.noRepeat 3 () (.hard 0)).2 = () := rfl
    rw [allowedProb, if_pos]
    · rw [allowedScore, allowedScore, allowedScore, h2, e0, e1, allowedNorm, allowedNorm]
      simp only [if_true, List.length_cons, List.length_nil, Finset.sum_range_succ, Finset.sum_range_zero]
      simp only [List.getD_cons_zero, List.getD_cons_succ, EReal.toReal_zero, Real.exp_zero]
      norm_num
      rw [Real.exp_add, Real.exp_neg, Real.exp_log (by norm_num)]
      norm_num
    · rw [Permitted, Permitted, Permitted, h2, e0, e1]
      simp

end Props.InfARSample
