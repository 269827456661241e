import Verif.Spec.InfBeam
import Verif.Proofs.BeamSearch
import Verif.Proofs.InfEntropy

/-! `log_prob` and the beam search of autoregressive.py with forbidden classes. -/

open Spec

noncomputable section
namespace InfBeam
open Semirings Props.Autoregressive
open _root_.Autoregressive (Tok Classes inputRows wrap take flatTokens Round paths quiet)
open _root_.BeamSearch (cls hist hist_nil hist_snoc hist_length Round.Ok paths_hist take_flat)

variable {St : Type}

/-! ### `log_softmax` -/

open Classical in
theorem exp_sum (xs : List EReal) (ht : ∀ e ∈ xs, e ≠ ⊤) :
    (xs.map EReal.exp).sum = ENNReal.ofReal (∑ i ∈ Finset.range xs.length, if xs.getD i 0 = ⊥ then 0 else Real.exp (xs.getD i 0).toReal) := by
  induction xs with
  | nil => simp
  | cons x xs ih =>
    rw [List.map_cons, List.sum_cons, ih fun e he => ht e (List.mem_cons_of_mem _ he), List.length_cons, Finset.sum_range_succ', add_comm]
    simp only [List.getD_cons_succ, List.getD_cons_zero]
    have hx := ht x List.mem_cons_self
    rw [ENNReal.ofReal_add]
    · congr 1
      by_cases h : x = ⊥
      · simp [h]
      · rw [if_neg h]
        lift x to ℝ using ⟨hx, h⟩
        rw [EReal.exp_coe, EReal.toReal_coe]
    · exact Finset.sum_nonneg fun i _ => by split_ifs; exacts [le_rfl, (Real.exp_pos _).le]
    · split_ifs; exacts [le_rfl, (Real.exp_pos _).le]

open Classical in
theorem lse_allowed {xs : List EReal} (ht : ∀ e ∈ xs, e ≠ ⊤) (h : ¬ Stuck xs) :
    lseE xs = (Real.log (∑ i ∈ Finset.range xs.length, if xs.getD i 0 = ⊥ then 0 else Real.exp (xs.getD i 0).toReal) : ℝ) := by
  rw [lseE, exp_sum xs ht, ENNReal.log_ofReal_of_pos]
  rw [Stuck] at h
  push Not at h
  obtain ⟨e, he, h0⟩ := h
  obtain ⟨i, hi, rfl⟩ := List.getElem_of_mem he
  refine Finset.sum_pos' (fun i _ => by split_ifs; exacts [le_rfl, (Real.exp_pos _).le]) ⟨i, Finset.mem_range.2 hi, ?_⟩
  rw [List.getD_eq_getElem _ _ hi, if_neg h0]
  exact Real.exp_pos _

theorem lse_stuck {xs : List EReal} (h : Stuck xs) : lseE xs = ⊥ := by
  rw [lseE, ENNReal.log_eq_bot_iff, List.sum_eq_zero_iff]
  intro a ha
  obtain ⟨e, he, rfl⟩ := List.mem_map.1 ha
  rw [h e he, EReal.exp_bot]

theorem norm_length (D : ARE St) (xs : List EReal) : (D.norm xs).length = xs.length := by
  rw [ARE.norm]; split_ifs <;> simp [logSoftmax]

/-- Everything is forbidden: `log_softmax` gives NaN. -/
theorem norm_stuck (D : ARE St) {xs : List EReal} (hn : D.normalize = true) (h : Stuck xs) (c : ℕ) : (D.norm xs).getD c .nan = .nan := by
  rw [ARE.norm, if_pos hn, logSoftmax, lse_stuck h]
  by_cases hc : c < xs.length
  · rw [List.getD_eq_getElem _ _ (by simpa using hc), List.getElem_map, h _ (List.getElem_mem hc)]
    simp [logSmE, IEEE.sub, IEEE.add, IEEE.nan]
  · rw [List.getD_eq_default _ _ (by simpa using hc)]

open Classical in
theorem norm_free (D : ARE St) {xs : List EReal} (ht : ∀ e ∈ xs, e ≠ ⊤) (h : D.normalize = true → ¬ Stuck xs) {c : ℕ} (hc : c < xs.length) :
    (D.norm xs).getD c .nan = if xs.getD c 0 = ⊥ then some ⊥ else IEEE.ofReal (allowedNorm D.normalize xs c) := by
  rw [ARE.norm]
  by_cases hn : D.normalize = true
  · rw [if_pos hn, logSoftmax, lse_allowed ht (h hn), List.getD_eq_getElem _ _ (by simpa using hc), List.getElem_map, List.getD_eq_getElem xs _ hc, allowedNorm,
      if_pos hn, List.getD_eq_getElem xs _ hc]
    have hx := ht _ (List.getElem_mem hc)
    by_cases h0 : xs[c] = ⊥
    · rw [if_pos h0, h0, logSmE]
      simp [IEEE.sub, IEEE.add]
    · rw [if_neg h0]
      generalize xs[c] = e at hx h0
      lift e to ℝ using ⟨hx, h0⟩
      rw [logSmE, IEEE.sub, EReal.toReal_coe]
      simp only [Option.map_some, IEEE.add, IEEE.ofReal]
      rw [if_neg (by simp), ← EReal.coe_neg, ← EReal.coe_add, sub_eq_add_neg]
  · rw [if_neg hn, List.getD_eq_getElem _ _ (by simpa using hc), List.getElem_map, List.getD_eq_getElem xs _ hc, allowedNorm, if_neg hn, List.getD_eq_getElem xs _ hc]
    have hx := ht _ (List.getElem_mem hc)
    by_cases h0 : xs[c] = ⊥
    · rw [if_pos h0, h0]
    · rw [if_neg h0, IEEE.ofReal, EReal.coe_toReal hx h0]

/-! ### `log_prob` -/

theorem run_length (step : ARStepE St) : ∀ (s : St) (xs : List Tok), (runStepE step s xs).1.length = xs.length
  | _, [] => rfl
  | s, x :: xs => by rw [runStepE, List.length_cons, run_length step _ xs, List.length_cons]

theorem run_classes {C : ℕ} {step : ARStepE St} (h : ∀ s x, (step s x).1.length = C) : ∀ (s : St) (xs : List Tok), ∀ l ∈ (runStepE step s xs).1, l.length = C
  | _, [], l, hl => by simp [runStepE] at hl
  | s, x :: xs, l, hl => by
    rw [runStepE, List.mem_cons] at hl
    rcases hl with rfl | hl
    · exact h s x
    · exact run_classes h _ xs l hl

theorem rowScore_cons (D : ARE St) (step : ARStepE St) (s : St) (x c : ℕ) (y : List ℕ) :
    rowScore ((runStepE step s (((x :: c :: y)).map .hard)).1.map D.norm) (x :: c :: y) =
      IEEE.add ((D.norm (step s (.hard x)).1).getD c .nan) (rowScore ((runStepE step (step s (.hard x)).2 (((c :: y)).map .hard)).1.map D.norm) (c :: y)) := by
  simp only [rowScore, List.map_cons, runStepE, List.tail_cons]
  rw [List.dropLast_cons_of_ne_nil (by simp), List.zipWith_cons_cons]
  rfl

/-- What `log_prob` gives for one row. -/
structure RowSpec (nm : Bool) (step : ARStepE St) (s : St) (x : Tok) (y : List ℕ) (v : IEEE) : Prop where
  nan : nm = true → PassesStuck step s x y → v = .nan
  bot : ¬ (nm = true ∧ PassesStuck step s x y) → ¬ Permitted step s x y → v = some ⊥
  real : Permitted step s x y → v = .ofReal (allowedScore nm step s x y)

theorem getD_bot_of_stuck {xs : List EReal} (h : Stuck xs) {c : ℕ} (hc : c < xs.length) : xs.getD c 0 = ⊥ := by
  rw [List.getD_eq_getElem _ _ hc]; exact h _ (List.getElem_mem _)

theorem not_stuck {xs : List EReal} {c : ℕ} (hc : c < xs.length) (h : xs.getD c 0 ≠ ⊥) : ¬ Stuck xs := fun hs => h (getD_bot_of_stuck hs hc)

theorem row_spec (D : ARE St) {step : ARStepE St} (hD : IsCausalE D step) : ∀ (y : List ℕ) (s : St) (x : ℕ), (∀ c ∈ y, c < D.nClasses) →
    RowSpec D.normalize step s (.hard x) y (rowScore ((runStepE step s (((x :: y)).map .hard)).1.map D.norm) (x :: y))
  | [], s, x, _ => by
    refine ⟨fun _ h => h.elim, fun _ h => (h trivial).elim, fun _ => ?_⟩
    simp [rowScore, runStepE, allowedScore, ChainBackward.addAll]
  | c :: y, s, x, hy => by
    have ih := row_spec D hD y (step s (.hard x)).2 c fun d hd => hy d (List.mem_cons_of_mem _ hd)
    have hc : c < (step s (.hard x)).1.length := by rw [hD.classes]; exact hy c List.mem_cons_self
    have ht := hD.no_top s (.hard x)
    rw [rowScore_cons]
    generalize rowScore ((runStepE step (step s (.hard x)).2 (((c :: y)).map .hard)).1.map D.norm) (c :: y) = v at ih
    refine ⟨fun hn h => ?_, fun hn h => ?_, fun h => ?_⟩
    · rcases h with h | h
      · rw [norm_stuck D hn h]; rfl
      · rw [ih.nan hn h]; cases (D.norm (step s (.hard x)).1).getD c .nan <;> rfl
    · have hfree : D.normalize = true → ¬ Stuck (step s (.hard x)).1 := fun h1 h2 => hn ⟨h1, Or.inl h2⟩
      have hrest : ¬ (D.normalize = true ∧ PassesStuck step (step s (.hard x)).2 (.hard c) y) := fun h1 => hn ⟨h1.1, Or.inr h1.2⟩
      rw [norm_free D ht hfree hc]
      by_cases h0 : (step s (.hard x)).1.getD c 0 = ⊥
      · rw [if_pos h0]
        by_cases hp : Permitted step (step s (.hard x)).2 (.hard c) y
        · rw [ih.real hp]; simp [IEEE.add, IEEE.ofReal]
        · rw [ih.bot hrest hp]; simp [IEEE.add]
      · rw [if_neg h0, ih.bot hrest fun hp => h ⟨h0, hp⟩]
        simp [IEEE.add, IEEE.ofReal]
    · rw [norm_free D ht (fun _ => not_stuck hc h.1) hc, if_neg h.1, ih.real h.2, InfEntropy.ieee_add, allowedScore]

theorem logProb_rows (D : ARE St) {step : ARStepE St} (hD : IsCausalE D step) (v : Classes) (h1 : 1 ≤ v.sample) (hb : v.batch = D.init.length)
    (hv : ∀ s < v.sample, ∀ b < v.batch, ∀ t < v.len, v.get s b t < D.nClasses) (d : St) :
    D.logProbSparse v = .ok ((List.range v.sample).map fun s => (List.range v.batch).map fun b =>
      rowScore ((runStepE step (D.init.getD b d) (((D.startClass :: rowOf v s b)).map .hard)).1.map D.norm) (D.startClass :: rowOf v s b)) := by
  have hrow : ∀ s < v.sample, ∀ b < v.batch, ∀ c ∈ rowOf v s b, c < D.nClasses := by
    intro s hs b hb c hc
    obtain ⟨t, ht, rfl⟩ := List.mem_map.1 hc
    exact hv s hs b hb t (List.mem_range.1 ht)
  have hin : inputRows D.startClass v = (List.range v.sample).flatMap fun s => (List.range v.batch).map fun b => D.startClass :: rowOf v s b := rfl
  have hst : D.expand v.sample = (List.range v.sample).flatMap fun _ => (List.range v.batch).map fun b => D.init.getD b d := by
    rw [ARE.expand, replicate_flatten _ d, hb]
  have hmodel : (D.model ((inputRows D.startClass v).map fun row => row.map .hard) (D.expand v.sample)).1 =
      (List.range v.sample).flatMap fun s => (List.range v.batch).map fun b =>
        (runStepE step (D.init.getD b d) ((D.startClass :: rowOf v s b).map .hard)).1 := by
    rw [hin, hst, map_flat, hD.run _ _ (by rw [flat_length, flat_length])]
    exact zipWith_flat v.sample v.batch _ (fun s b => (D.startClass :: rowOf v s b).map Tok.hard) _
  rw [ARE.logProbSparse]
  simp only [hmodel]
  rw [if_neg, if_neg, if_neg (by omega)]
  · congr 1
    rw [hin, zipWith_flat, wrap_flat]
  · rintro ⟨row, hr, y, hy, hc⟩
    rw [hin] at hr
    obtain ⟨s, hs, b, hb, rfl⟩ := mem_flat hr
    rw [List.tail_cons] at hy
    have := hrow s hs b hb y hy
    omega
  · rw [not_not, hmodel]
    refine ⟨flat_length _ _ _, fun row hr => ?_⟩
    obtain ⟨s, hs, b, hb, rfl⟩ := mem_flat hr
    exact ⟨by rw [run_length]; simp [rowOf], fun l hl => run_classes hD.classes _ _ l hl⟩

/-! ### The chain rule, from the right -/

/-- The state and the next token after the classes `y`. -/
def stateE (step : ARStepE St) : St → Tok → List ℕ → St × Tok
  | s, x, [] => (s, x)
  | s, x, y :: ys => stateE step (step s x).2 (.hard y) ys

/-- The logits after the classes `y`. -/
def logitsE (step : ARStepE St) (s : St) (x : Tok) (y : List ℕ) : List EReal := (step (stateE step s x y).1 (stateE step s x y).2).1

theorem stateE_snoc (step : ARStepE St) : ∀ (ys : List ℕ) (s : St) (x : Tok) (y : ℕ),
    stateE step s x (ys ++ [y]) = ((step (stateE step s x ys).1 (stateE step s x ys).2).2, .hard y)
  | [], _, _, _ => rfl
  | _ :: ys, s, x, y => stateE_snoc step ys _ _ y

theorem allowedScore_snoc (nm : Bool) (step : ARStepE St) : ∀ (ys : List ℕ) (s : St) (x : Tok) (y : ℕ),
    allowedScore nm step s x (ys ++ [y]) = allowedScore nm step s x ys + allowedNorm nm (logitsE step s x ys) y
  | [], s, x, y => by simp [allowedScore, logitsE, stateE]
  | c :: ys, s, x, y => by
    rw [List.cons_append, allowedScore, allowedScore, allowedScore_snoc nm step ys, add_assoc]; rfl

theorem permitted_snoc (step : ARStepE St) : ∀ (ys : List ℕ) (s : St) (x : Tok) (y : ℕ),
    Permitted step s x (ys ++ [y]) ↔ Permitted step s x ys ∧ (logitsE step s x ys).getD y 0 ≠ ⊥
  | [], s, x, y => by simp [Permitted, logitsE, stateE]
  | c :: ys, s, x, y => by
    rw [List.cons_append, Permitted, Permitted, permitted_snoc step ys, and_assoc]; rfl

theorem isGreedyE_snoc (C : ℕ) (step : ARStepE St) : ∀ (ys : List ℕ) (s : St) (x : Tok) (y : ℕ),
    IsGreedyE C step s x (ys ++ [y]) ↔ IsGreedyE C step s x ys ∧ ∀ c < C, (logitsE step s x ys).getD c 0 ≤ (logitsE step s x ys).getD y 0
  | [], s, x, y => by simp [IsGreedyE, logitsE, stateE]
  | c :: ys, s, x, y => by
    rw [List.cons_append, IsGreedyE, IsGreedyE, isGreedyE_snoc C step ys, and_assoc]; rfl

/-! ### The noise -/

/-- The logits of a slot with the noise of the round. -/
def noisyE (C : ℕ) (noise : Option (ℕ → ℕ → ℕ → ℝ)) (k b : ℕ) (xs : List EReal) : List EReal :=
  match noise with
  | none => xs
  | some z => (List.range C).map fun c => xs.getD c 0 + ((z k b c : ℝ) : EReal)

theorem noisy_length {C : ℕ} (noise : Option (ℕ → ℕ → ℕ → ℝ)) (k b : ℕ) {xs : List EReal} (hx : xs.length = C) : (noisyE C noise k b xs).length = C := by
  cases noise
  · exact hx
  · simp [noisyE]

theorem noisy_bot {C : ℕ} (noise : Option (ℕ → ℕ → ℕ → ℝ)) (k b : ℕ) {xs : List EReal} {c : ℕ} (hc : c < C) :
    (noisyE C noise k b xs).getD c 0 = ⊥ ↔ xs.getD c 0 = ⊥ := by
  cases noise
  · exact Iff.rfl
  · rw [noisyE, List.getD_eq_getElem _ _ (by simpa using hc), List.getElem_map, List.getElem_range, EReal.add_eq_bot_iff]
    simp

theorem noisy_top {C : ℕ} (noise : Option (ℕ → ℕ → ℕ → ℝ)) (k b : ℕ) {xs : List EReal} (hx : xs.length = C) (ht : ∀ e ∈ xs, e ≠ ⊤) :
    ∀ e ∈ noisyE C noise k b xs, e ≠ ⊤ := by
  cases noise with
  | none => exact ht
  | some z =>
    intro e he
    obtain ⟨c, hc, rfl⟩ := List.mem_map.1 he
    have hc' : c < xs.length := by rw [hx]; exact List.mem_range.1 hc
    have := ht _ (List.getElem_mem hc')
    rw [List.getD_eq_getElem _ _ hc']
    exact EReal.add_ne_top this (EReal.coe_ne_top _)

theorem noisy_stuck {C : ℕ} (noise : Option (ℕ → ℕ → ℕ → ℝ)) (k b : ℕ) {xs : List EReal} (hx : xs.length = C) (h : ¬ Stuck xs) :
    ¬ Stuck (noisyE C noise k b xs) := by
  intro hs
  refine h fun e he => ?_
  obtain ⟨i, hi, rfl⟩ := List.getElem_of_mem he
  have := (noisy_bot noise k b (by omega)).1 (getD_bot_of_stuck hs (show i < _ by rw [noisy_length noise k b hx]; omega))
  rwa [List.getD_eq_getElem _ _ hi] at this

/-! ### What `sparse_sum` has to do -/

/-- What the two `sparse_sum` methods have in common; `g` holds the scores of a batch row, if there is no NaN among them. -/
structure SumSpecE (S : BeamSRE) (C : ℕ) : Prop where
  size : 1 ≤ S.size
  one_zero : S.one 0 = 0
  one_pos : ∀ k, k ≠ 0 → k < S.size → S.one k = negInf
  sum : ∀ ex : ℕ → ℕ → ℕ → IEEE, ∃ r, S.sparseSum C ex = .ok r ∧ ∀ (b : ℕ) (g : ℕ → ℕ → EReal), (∀ k < S.size, ∀ c < C, ex k b c = some (g k c)) →
    (∀ k < S.size, r.2.1 k b < S.size ∧ cls (r.2.2 k b) < C ∧ r.2.2 k b = .hard (cls (r.2.2 k b)) ∧ r.1 k b = some (g (r.2.1 k b) (cls (r.2.2 k b)))) ∧
    (∀ k < S.size, ∀ k' < S.size, r.2.1 k b = r.2.1 k' b → r.2.2 k b = r.2.2 k' b → k = k') ∧
    (∀ k k', k ≤ k' → k' < S.size → g (r.2.1 k' b) (cls (r.2.2 k' b)) ≤ g (r.2.1 k b) (cls (r.2.2 k b))) ∧
    (∀ j < S.size, ∀ c < C, (∃ k < S.size, r.2.1 k b = j ∧ r.2.2 k b = .hard c) ∨ ∀ k < S.size, g j c ≤ g (r.2.1 k b) (cls (r.2.2 k b)))

theorem max_sumSpecE {pick : List IEEE → ℕ} (hp : IsArgmaxIdxE pick) {C : ℕ} (hC : 1 ≤ C) : SumSpecE (maxSRE pick) C := by
  refine ⟨le_rfl, rfl, fun k h0 h1 => absurd (show k < 1 from h1) (by omega), fun ex => ⟨_, if_neg (by omega), fun b g hg => ?_⟩⟩
  simp only [maxSRE] at hg ⊢
  have e : ((List.range C).map fun c => ex 0 b c) = ((List.range C).map fun c => g 0 c).map some := by
    rw [List.map_map]
    exact List.map_congr_left fun c hc => hg 0 (by omega) c (List.mem_range.1 hc)
  obtain ⟨h1, h2⟩ := hp ((List.range C).map fun c => g 0 c) (by simp; omega)
  rw [← e] at h1 h2
  rw [List.length_map, List.length_range] at h1
  refine ⟨fun k hk => ?_, fun k hk k' hk' _ _ => by omega, fun k k' h3 h4 => ?_, fun j hj c hc => Or.inr fun k hk => ?_⟩
  · obtain rfl : k = 0 := by omega
    exact ⟨by omega, h1, rfl, hg 0 (by omega) _ h1⟩
  · obtain rfl : k = k' := by omega
    exact le_rfl
  · obtain rfl : j = 0 := by omega
    obtain rfl : k = 0 := by omega
    have := h2 (g 0 c) (List.mem_map.2 ⟨c, List.mem_range.2 hc, rfl⟩)
    rw [List.getD_eq_getElem _ _ (by simpa using h1), List.getElem_map, List.getElem_range] at this
    exact this

theorem kmax_sumSpecE {K : ℕ} (hK : 1 ≤ K) {sel : List IEEE → List ℕ} (hs : IsTopkIdxE K sel) {C : ℕ} (hC : 1 ≤ C) : SumSpecE (kmaxSRE K sel) C := by
  have hCK : K ≤ C * K := Nat.le_mul_of_pos_left K hC
  refine ⟨hK, by simp [kmaxSRE], fun k h0 _ => by simp [kmaxSRE, h0], fun ex => ⟨_, if_neg (by omega), fun b g hg => ?_⟩⟩
  simp only [kmaxSRE] at hg ⊢
  set xs : List EReal := (List.range (C * K)).map fun i => g (i % K) (i / K) with hxs
  have e : flatRowE K C ex b = xs.map some := by
    rw [flatRowE, hxs, List.map_map]
    exact List.map_congr_left fun i hi => hg _ (Nat.mod_lt _ hK) _ ((Nat.div_lt_iff_lt_mul hK).2 (List.mem_range.1 hi))
  have hlen : xs.length = C * K := by simp [hxs]
  have hl : K ≤ xs.length := by rw [hlen]; exact hCK
  have hsel := hs.length _ hl
  have hget : ∀ i < C * K, xs.getD i 0 = g (i % K) (i / K) := fun i hi => by
    rw [hxs, List.getD_eq_getElem _ _ (by simpa using hi), List.getElem_map, List.getElem_range]
  have hmem : ∀ k < K, (sel (xs.map some)).getD k 0 ∈ sel (xs.map some) := fun k hk => by
    rw [List.getD_eq_getElem _ _ (by rw [hsel]; exact hk)]; exact List.getElem_mem _
  have hlt : ∀ k < K, (sel (xs.map some)).getD k 0 < C * K := fun k hk => by
    rw [← hlen]; exact hs.lt _ hl _ (hmem k hk)
  rw [e]
  simp only [cls]
  refine ⟨fun k hk => ?_, fun k hk k' hk' h1 h2 => ?_, fun k k' h1 h2 => ?_, fun j hj c hc => ?_⟩
  · have h := hlt k hk
    refine ⟨Nat.mod_lt _ hK, (Nat.div_lt_iff_lt_mul hK).2 h, trivial, ?_⟩
    rw [← hget _ h, List.getD_eq_getElem _ _ (by rw [List.length_map, hlen]; exact h), List.getElem_map, List.getD_eq_getElem xs _ (by rw [hlen]; exact h)]
  · have h3 : (sel (xs.map some)).getD k 0 = (sel (xs.map some)).getD k' 0 := by
      rw [← Nat.div_add_mod ((sel (xs.map some)).getD k 0) K, h1, Tok.hard.inj h2, Nat.div_add_mod]
    rw [List.getD_eq_getElem _ _ (by rw [hsel]; exact hk), List.getD_eq_getElem _ _ (by rw [hsel]; exact hk')] at h3
    exact (List.Nodup.getElem_inj_iff (hs.nodup _ hl)).1 h3
  · rcases h1.lt_or_eq with h | rfl
    · have := List.pairwise_iff_getElem.1 (hs.sorted _ hl) k k' (by rw [hsel]; omega) (by rw [hsel]; exact h2) h
      rw [← hget _ (hlt k (by omega)), ← hget _ (hlt k' h2), List.getD_eq_getElem (sel _) _ (show k < _ by rw [hsel]; omega),
        List.getD_eq_getElem (sel _) _ (show k' < _ by rw [hsel]; exact h2)]
      exact this
    · exact le_rfl
  · have hi : c * K + j < C * K := by
      have := Nat.mul_le_mul_right K (show c + 1 ≤ C from hc)
      rw [Nat.add_mul, one_mul] at this; omega
    have e1 : (c * K + j) % K = j := by rw [mul_comm, Nat.mul_add_mod, Nat.mod_eq_of_lt hj]
    have e2 : (c * K + j) / K = c := by rw [mul_comm, Nat.mul_add_div hK, Nat.div_eq_of_lt hj, add_zero]
    by_cases h : c * K + j ∈ sel (xs.map some)
    · left
      obtain ⟨k, hk, he⟩ := List.getElem_of_mem h
      refine ⟨k, by rw [← hsel]; exact hk, ?_⟩
      rw [List.getD_eq_getElem _ _ hk, he]
      exact ⟨e1, by rw [e2]⟩
    · right
      intro k hk
      have := hs.best _ hl _ (hmem k hk) (c * K + j) (by rw [hlen]; exact hi) h
      rw [hget _ hi, e1, e2, hget _ (hlt k hk)] at this
      exact this

/-- If every slot has a finite candidate, only finite ones are selected. -/
theorem finite_of_best {K C : ℕ} {pos : ℕ → ℕ} {tok : ℕ → Tok} {g : ℕ → ℕ → EReal} (hfin : ∀ j < K, ∃ c < C, g j c ≠ ⊥)
    (hbest : ∀ j < K, ∀ c < C, (∃ k < K, pos k = j ∧ tok k = .hard c) ∨ ∀ k < K, g j c ≤ g (pos k) (cls (tok k))) {k : ℕ} (hk : k < K) :
    g (pos k) (cls (tok k)) ≠ ⊥ := by
  intro h0
  choose f hf1 hf2 using hfin
  have hsel : ∀ j (hj : j < K), ∃ k' < K, pos k' = j ∧ tok k' = .hard (f j hj) := fun j hj => by
    rcases hbest j hj (f j hj) (hf1 j hj) with h | h
    · exact h
    · have := h k hk
      rw [h0, le_bot_iff] at this
      exact absurd this (hf2 j hj)
  choose s hs1 hs2 hs3 using hsel
  have hinj : Function.Injective fun j : Fin K => (⟨s j j.2, hs1 j j.2⟩ : Fin K) := by
    intro i j hij
    have e : s i i.2 = s j j.2 := congrArg Fin.val hij
    refine Fin.ext ?_
    rw [← hs2 i i.2, ← hs2 j j.2, e]
  obtain ⟨j, hj⟩ := (Finite.injective_iff_surjective.1 hinj) ⟨k, hk⟩
  have e : s j j.2 = k := congrArg Fin.val hj
  have e1 := hs2 j j.2
  have e2 := hs3 j j.2
  rw [e] at e1 e2
  rw [e1, e2] at h0
  exact hf2 j j.2 h0

/-! ### The invariant -/

/-- A possible result of `n` rounds. -/
def Cand (C : ℕ) (step : ARStepE St) (s0 : St) (x0 : Tok) (n : ℕ) (y : List ℕ) : Prop := IsSeq C n y ∧ Permitted step s0 x0 y

/-- Phantom slots never win. -/
def GuardE (nm : Bool) (step : ARStepE St) (C : ℕ) (s0 : St) (x0 : Tok) (n : ℕ) : Prop :=
  ∀ t ≤ n, ∀ y y', Cand C step s0 x0 t y → Cand C step s0 x0 t y' → negInf + allowedScore nm step s0 x0 y' < allowedScore nm step s0 x0 y

theorem isSeq_finite (C n : ℕ) : {y : List ℕ | IsSeq C n y}.Finite := by
  refine (Set.finite_range fun f : Fin n → Fin C => List.ofFn fun t => (f t : ℕ)).subset fun y hy => ⟨fun t => ⟨y.get (t.cast hy.1.symm), hy.2 _ (List.get_mem _ _)⟩, ?_⟩
  refine List.ext_get (by simp [hy.1]) fun t h1 h2 => by simp

theorem cand_finite (C : ℕ) (step : ARStepE St) (s0 : St) (x0 : Tok) (n : ℕ) : {y | Cand C step s0 x0 n y}.Finite := (isSeq_finite C n).subset fun _ h => h.1

theorem cand_of_card {C : ℕ} {step : ARStepE St} {s0 : St} {x0 : Tok} {n m : ℕ} (hm : {y | Cand C step s0 x0 n y}.ncard ≤ m) (f : Fin m → List ℕ)
    (hf : Function.Injective f) (hs : ∀ i, Cand C step s0 x0 n (f i)) {y : List ℕ} (hy : Cand C step s0 x0 n y) : ∃ i, f i = y := by
  have h1 : Set.range f ⊆ {y | Cand C step s0 x0 n y} := by rintro _ ⟨i, rfl⟩; exact hs i
  have h2 : (Set.range f).ncard = m := by rw [← Set.image_univ, Set.ncard_image_of_injective _ hf, Set.ncard_univ, Nat.card_eq_fintype_card, Fintype.card_fin]
  have h3 := Set.eq_of_subset_of_ncard_le h1 (by rw [h2]; exact hm) (cand_finite C step s0 x0 n)
  have : y ∈ Set.range f := by rw [h3]; exact hy
  exact this

/-- What holds after some rounds, for batch row `b`. -/
structure RowInvE (D : ARE St) (step : ARStepE St) (S : BeamSRE) (quiet : Prop) (s0 : St) (s : LoopE St) (b : ℕ) : Prop where
  ok : ∀ r ∈ s.rounds, Round.Ok S.size D.nClasses r b
  origin : ∀ k < S.size, (hist s.rounds k b).1 < S.size
  classes : ∀ k < S.size, ∀ c ∈ (hist s.rounds k b).2, c < D.nClasses
  inj : ∀ k < S.size, ∀ k' < S.size, hist s.rounds k b = hist s.rounds k' b → k = k'
  finite : ∀ k < S.size, ∃ r : ℝ, s.beam k b = .ofReal r
  permitted : ∀ k < S.size, Permitted step s0 (.hard D.startClass) (hist s.rounds k b).2
  score : quiet → ∀ k < S.size, s.beam k b = .ofReal (S.one (hist s.rounds k b).1 + allowedScore D.normalize step s0 (.hard D.startClass) (hist s.rounds k b).2)
  sorted : 0 < s.rounds.length → ∀ k k', k ≤ k' → k' < S.size → ∀ r r' : ℝ, s.beam k b = .ofReal r → s.beam k' b = .ofReal r' → r' ≤ r
  greedy : quiet → S.size = 1 → IsGreedyE D.nClasses step s0 (.hard D.startClass) (hist s.rounds 0 b).2
  complete : quiet → GuardE D.normalize step D.nClasses s0 (.hard D.startClass) s.rounds.length → (∀ k < S.size, (hist s.rounds k b).1 = 0) ∨
    ∀ y, Cand D.nClasses step s0 (.hard D.startClass) s.rounds.length y → ∃ k < S.size, hist s.rounds k b = (0, y)
  exact : quiet → GuardE D.normalize step D.nClasses s0 (.hard D.startClass) s.rounds.length → 0 < s.rounds.length →
    {y | Cand D.nClasses step s0 (.hard D.startClass) (s.rounds.length - 1) y}.ncard ≤ S.size → ∀ y, Cand D.nClasses step s0 (.hard D.startClass) s.rounds.length y →
      (∃ k < S.size, hist s.rounds k b = (0, y)) ∨ ∀ k < S.size, ∀ r : ℝ, s.beam k b = .ofReal r → allowedScore D.normalize step s0 (.hard D.startClass) y ≤ r

/-- The whole invariant. -/
structure InvE (D : ARE St) (step : ARStepE St) (S : BeamSRE) (quiet : Prop) (d : St) (s : LoopE St) : Prop where
  tokens : s.tokens = (List.range S.size).flatMap fun k => (List.range D.init.length).map fun b =>
    (stateE step (D.init.getD b d) (.hard D.startClass) (hist s.rounds k b).2).2
  state : s.state = (List.range S.size).flatMap fun k => (List.range D.init.length).map fun b =>
    (stateE step (D.init.getD b d) (.hard D.startClass) (hist s.rounds k b).2).1
  row : ∀ b < D.init.length, RowInvE D step S quiet (D.init.getD b d) s b

theorem ofReal_inj {a b : ℝ} (h : IEEE.ofReal a = .ofReal b) : a = b := by
  simpa [IEEE.ofReal] using h

theorem allowedNorm_le (nm : Bool) {xs : List EReal} {a c : ℕ} (ht : ∀ e ∈ xs, e ≠ ⊤) (hal : a < xs.length) (hcl : c < xs.length) (ha : xs.getD a 0 ≠ ⊥) (hc : xs.getD c 0 ≠ ⊥) (h : allowedNorm nm xs a ≤ allowedNorm nm xs c) :
    xs.getD a 0 ≤ xs.getD c 0 := by
  have h1 : (xs.getD a 0).toReal ≤ (xs.getD c 0).toReal := by
    rw [allowedNorm, allowedNorm] at h
    split_ifs at h
    · exact (sub_le_sub_iff_right _).1 h
    · exact h
  have ht' : ∀ i < xs.length, xs.getD i 0 ≠ ⊤ := fun i hi => by rw [List.getD_eq_getElem _ _ hi]; exact ht _ (List.getElem_mem hi)
  rw [← EReal.coe_toReal (ht' a hal) ha, ← EReal.coe_toReal (ht' c hcl) hc]
  exact EReal.coe_le_coe_iff.2 h1

open Classical in
/-- One round, for one batch row. -/
theorem rowInvE_step {D : ARE St} {step : ARStepE St} (hD : IsCausalE D step) (hl : NeverStuck step) {S : BeamSRE} (hS : SumSpecE S D.nClasses) {quiet : Prop} {s0 : St} {s : LoopE St} {b : ℕ}
    (h : RowInvE D step S quiet s0 s b) (noise : Option (ℕ → ℕ → ℕ → ℝ)) (hq : quiet → noise = none)
    (g : ℕ → ℕ → EReal) (hg : ∀ k < S.size, ∀ c < D.nClasses, ∀ r : ℝ, s.beam k b = .ofReal r →
      g k c = if (noisyE D.nClasses noise k b (logitsE step s0 (.hard D.startClass) (hist s.rounds k b).2)).getD c 0 = ⊥ then ⊥
        else ((r + allowedNorm D.normalize (noisyE D.nClasses noise k b (logitsE step s0 (.hard D.startClass) (hist s.rounds k b).2)) c : ℝ) : EReal))
    (beam : ℕ → ℕ → IEEE) (pos : ℕ → ℕ → ℕ) (tok : ℕ → ℕ → Tok) (tokens : List Tok) (state : List St)
    (h1 : ∀ k < S.size, pos k b < S.size ∧ cls (tok k b) < D.nClasses ∧ tok k b = .hard (cls (tok k b)) ∧ beam k b = some (g (pos k b) (cls (tok k b))))
    (h2 : ∀ k < S.size, ∀ k' < S.size, pos k b = pos k' b → tok k b = tok k' b → k = k')
    (h3 : ∀ k k', k ≤ k' → k' < S.size → g (pos k' b) (cls (tok k' b)) ≤ g (pos k b) (cls (tok k b)))
    (h4 : ∀ j < S.size, ∀ c < D.nClasses, (∃ k < S.size, pos k b = j ∧ tok k b = .hard c) ∨ ∀ k < S.size, g j c ≤ g (pos k b) (cls (tok k b))) :
    RowInvE D step S quiet s0 ⟨beam, tokens, state, s.rounds ++ [⟨fun _ _ _ => 0, pos, tok⟩]⟩ b := by
  have hh : ∀ k, hist (s.rounds ++ [⟨fun _ _ _ => 0, pos, tok⟩]) k b = ((hist s.rounds (pos k b) b).1, (hist s.rounds (pos k b) b).2 ++ [cls (tok k b)]) :=
    fun k => hist_snoc _ _ _ _
  have hlen : ∀ y, (logitsE step s0 (.hard D.startClass) y).length = D.nClasses := fun y => hD.classes _ _
  have htop : ∀ y, ∀ e ∈ logitsE step s0 (.hard D.startClass) y, e ≠ ⊤ := fun y => hD.no_top _ _
  -- every slot has a finite candidate
  have hfin : ∀ j < S.size, ∃ c < D.nClasses, g j c ≠ ⊥ := by
    intro j hj
    obtain ⟨r, hr⟩ := h.finite j hj
    have hns := hl (stateE step s0 (.hard D.startClass) (hist s.rounds j b).2).1 (stateE step s0 (.hard D.startClass) (hist s.rounds j b).2).2
    rw [Stuck] at hns
    push Not at hns
    obtain ⟨e, he, h0⟩ := hns
    obtain ⟨c, hc, rfl⟩ := List.getElem_of_mem he
    rw [hD.classes] at hc
    refine ⟨c, hc, ?_⟩
    rw [hg j hj c hc r hr, if_neg]
    · exact EReal.coe_ne_bot _
    · rw [noisy_bot noise j b hc, List.getD_eq_getElem _ _ (by rw [hlen]; exact hc)]
      exact h0
  have hsel : ∀ k < S.size, g (pos k b) (cls (tok k b)) ≠ ⊥ := fun k hk =>
    finite_of_best (pos := fun k => pos k b) (tok := fun k => tok k b) hfin h4 hk
  -- what is selected is allowed
  have hnew : ∀ k < S.size, (logitsE step s0 (.hard D.startClass) (hist s.rounds (pos k b) b).2).getD (cls (tok k b)) 0 ≠ ⊥ ∧
      ∀ r : ℝ, s.beam (pos k b) b = .ofReal r → beam k b =
        .ofReal (r + allowedNorm D.normalize (noisyE D.nClasses noise (pos k b) b (logitsE step s0 (.hard D.startClass) (hist s.rounds (pos k b) b).2)) (cls (tok k b))) := by
    intro k hk
    obtain ⟨hp, hc, ht, hb⟩ := h1 k hk
    have h0 := hsel k hk
    have hne : (noisyE D.nClasses noise (pos k b) b (logitsE step s0 (.hard D.startClass) (hist s.rounds (pos k b) b).2)).getD (cls (tok k b)) 0 ≠ ⊥ := by
      intro hbot
      obtain ⟨r, hr⟩ := h.finite _ hp
      exact h0 (by rw [hg _ hp _ hc r hr, if_pos hbot])
    refine ⟨fun hbot => hne ((noisy_bot noise _ _ hc).2 hbot), fun r hr => ?_⟩
    rw [hb, hg _ hp _ hc r hr, if_neg hne]; rfl
  have hscore : quiet → ∀ k < S.size, beam k b = .ofReal (S.one (hist (s.rounds ++ [⟨fun _ _ _ => 0, pos, tok⟩]) k b).1 +
      allowedScore D.normalize step s0 (.hard D.startClass) (hist (s.rounds ++ [⟨fun _ _ _ => 0, pos, tok⟩]) k b).2) := by
    intro hqt k hk
    rw [hh k, allowedScore_snoc, (hnew k hk).2 _ (h.score hqt _ (h1 k hk).1), hq hqt, ← add_assoc]
    rfl
  have hcandk : ∀ k < S.size, Cand D.nClasses step s0 (.hard D.startClass) (s.rounds.length + 1) (hist (s.rounds ++ [⟨fun _ _ _ => 0, pos, tok⟩]) k b).2 := by
    intro k hk
    obtain ⟨hp, hc', ht, _⟩ := h1 k hk
    refine ⟨⟨by rw [hist_length]; simp, fun c hc => ?_⟩, by rw [hh k, permitted_snoc]; exact ⟨h.permitted _ hp, (hnew k hk).1⟩⟩
    rw [hh k, List.mem_append, List.mem_singleton] at hc
    rcases hc with hc | rfl
    · exact h.classes _ hp c hc
    · exact hc'
  -- a sequence whose prefix is in the beam is selected or not better than what is selected
  have hcand : quiet → ∀ y, Cand D.nClasses step s0 (.hard D.startClass) (s.rounds.length + 1) y →
      (∀ y', Cand D.nClasses step s0 (.hard D.startClass) s.rounds.length y' → ∃ k < S.size, hist s.rounds k b = (0, y')) →
      (∃ k < S.size, hist (s.rounds ++ [⟨fun _ _ _ => 0, pos, tok⟩]) k b = (0, y)) ∨
        ∀ k < S.size, ∀ r : ℝ, beam k b = .ofReal r → allowedScore D.normalize step s0 (.hard D.startClass) y ≤ r := by
    intro hqt y hy hcomp
    obtain ⟨y', c, rfl⟩ : ∃ y' c, y = y' ++ [c] := by
      have hne : y ≠ [] := by intro h0; have := hy.1.1; rw [h0] at this; simp at this
      exact ⟨_, _, (List.dropLast_append_getLast hne).symm⟩
    have hc : c < D.nClasses := hy.1.2 c (by simp)
    have hperm := (permitted_snoc step y' s0 (.hard D.startClass) c).1 hy.2
    obtain ⟨j, hj, hjh⟩ := hcomp y' ⟨⟨by have := hy.1.1; simp at this; exact this, fun x hx => hy.1.2 x (by simp [hx])⟩, hperm.1⟩
    rcases h4 j hj c hc with ⟨k, hk, hkp, hkt⟩ | hle
    · left
      refine ⟨k, hk, ?_⟩
      rw [hh k, hkp, hjh, hkt, cls]
    · right
      intro k hk r hr
      have hle := hle k hk
      have e1 := (h1 k hk).2.2.2
      rw [hr] at e1
      rw [← Option.some.inj e1] at hle
      have hal : (logitsE step s0 (.hard D.startClass) (hist s.rounds j b).2).getD c 0 ≠ ⊥ := by rw [hjh]; exact hperm.2
      have e2 := (hg j hj c hc _ (h.score hqt j hj)).trans (if_neg fun h => hal ((noisy_bot noise j b hc).1 h))
      rw [e2, hq hqt, hjh, hS.one_zero, zero_add] at hle
      have hle := EReal.coe_le_coe_iff.1 hle
      rw [allowedScore_snoc]
      exact hle
  refine ⟨?_, ?_, ?_, ?_, ?_, ?_, hscore, ?_, ?_, ?_, ?_⟩
  · intro r hr
    rcases List.mem_append.1 hr with hr | hr
    · exact h.ok r hr
    · rw [List.mem_singleton] at hr
      subst hr
      intro k hk
      obtain ⟨hp, hc, ht, _⟩ := h1 k hk
      exact ⟨hp, _, hc, ht⟩
  · intro k hk
    change (hist (s.rounds ++ [_]) k b).1 < _
    rw [hh k]; exact h.origin _ (h1 k hk).1
  · intro k hk c hc
    change c ∈ (hist (s.rounds ++ [_]) k b).2 at hc
    obtain ⟨hp, hc', ht, _⟩ := h1 k hk
    rw [hh k, List.mem_append, List.mem_singleton] at hc
    rcases hc with hc | rfl
    · exact h.classes _ hp c hc
    · exact hc'
  · intro k hk k' hk' he
    change hist (s.rounds ++ [_]) k b = hist (s.rounds ++ [_]) k' b at he
    obtain ⟨hp, _, ht, _⟩ := h1 k hk
    obtain ⟨hp', _, ht', _⟩ := h1 k' hk'
    rw [hh k, hh k', Prod.mk.injEq] at he
    obtain ⟨e1, e2⟩ := he
    have e3 := List.append_inj' e2 rfl
    have hpp : pos k b = pos k' b := h.inj _ hp _ hp' (Prod.ext e1 e3.1)
    refine h2 k hk k' hk' hpp ?_
    rw [ht, ht', (List.cons.inj e3.2).1]
  · intro k hk
    obtain ⟨r, hr⟩ := h.finite _ (h1 k hk).1
    exact ⟨_, (hnew k hk).2 r hr⟩
  · intro k hk
    change Permitted _ _ _ (hist (s.rounds ++ [_]) k b).2
    rw [hh k, permitted_snoc]
    exact ⟨h.permitted _ (h1 k hk).1, (hnew k hk).1⟩
  · intro _ k k' hkk hk' r r' hr hr'
    have hle := h3 k k' hkk hk'
    have e1 := (h1 k (by omega)).2.2.2
    have e2 := (h1 k' hk').2.2.2
    change beam k b = _ at hr
    change beam k' b = _ at hr'
    rw [hr] at e1
    rw [hr'] at e2
    rw [← Option.some.inj e1, ← Option.some.inj e2] at hle
    exact EReal.coe_le_coe_iff.1 hle
  · intro hqt h0
    obtain ⟨hp, hc, ht, hb⟩ := h1 0 (by omega)
    have hp0 : pos 0 b = 0 := by omega
    obtain ⟨r, hr⟩ := h.finite 0 (by omega)
    change IsGreedyE _ _ _ _ (hist (s.rounds ++ [_]) 0 b).2
    rw [hh 0, hp0, isGreedyE_snoc]
    refine ⟨h.greedy hqt h0, fun c' hc' => ?_⟩
    have hle : g 0 c' ≤ g 0 (cls (tok 0 b)) := by
      rcases h4 0 (by omega) c' hc' with ⟨k, hk, hkp, hkt⟩ | hle
      · have hk0 : k = 0 := by omega
        rw [hk0] at hkt
        rw [hkt, cls]
      · have := hle 0 (by omega)
        rwa [hp0] at this
    have hal := (hnew 0 (by omega)).1
    rw [hp0] at hal
    by_cases hbot : (logitsE step s0 (.hard D.startClass) (hist s.rounds 0 b).2).getD c' 0 = ⊥
    · rw [hbot]; exact bot_le
    · have e1 := (hg 0 (by omega) _ hc' r hr).trans (if_neg fun h => hbot ((noisy_bot noise 0 b hc').1 h))
      have e2 := (hg 0 (by omega) _ hc r hr).trans (if_neg fun h => hal ((noisy_bot noise 0 b hc).1 h))
      rw [e1, e2, hq hqt, EReal.coe_le_coe_iff, add_le_add_iff_left] at hle
      exact allowedNorm_le _ (htop _) (by rw [hlen]; exact hc') (by rw [hlen]; exact hc) hbot hal hle
  · intro hqt hgd
    simp only [List.length_append, List.length_singleton] at hgd ⊢
    by_contra hcon
    rw [not_or] at hcon
    obtain ⟨hc1, hc2⟩ := hcon
    push Not at hc1 hc2
    obtain ⟨k, hk, hko⟩ := hc1
    obtain ⟨y, hy, hyn⟩ := hc2
    rcases h.complete hqt fun t ht => hgd t (by omega) with hall | hcomp
    · rw [hh k] at hko
      exact hko (hall _ (h1 k hk).1)
    · rcases hcand hqt y hy hcomp with ⟨k', hk', hkh⟩ | hle
      · exact hyn k' hk' hkh
      · have := hle k hk _ (hscore hqt k hk)
        rw [hS.one_pos _ hko (by rw [hh k]; exact h.origin _ (h1 k hk).1)] at this
        have := hgd _ le_rfl y _ hy (hcandk k hk)
        linarith
  · intro hqt hgd _ hcard y hy
    simp only [List.length_append, List.length_singleton, Nat.add_sub_cancel] at hgd hcard hy
    refine hcand hqt y hy ?_
    rcases h.complete hqt fun t ht => hgd t (by omega) with hall | hcomp
    · intro y' hy'
      obtain ⟨i, hi⟩ := cand_of_card hcard (fun i : Fin S.size => (hist s.rounds i b).2) (fun i j hij => by
        refine Fin.ext (h.inj i i.2 j j.2 (Prod.ext ?_ hij))
        rw [hall i i.2, hall j j.2]) (fun i => ⟨⟨hist_length _ _ _, h.classes i i.2⟩, h.permitted i i.2⟩) hy'
      exact ⟨i, i.2, Prod.ext (hall i i.2) hi⟩
    · exact hcomp

open Classical in
/-- One round keeps the invariant. -/
theorem invE_round {D : ARE St} {step : ARStepE St} (hD : IsCausalE D step) (hl : NeverStuck step) {S : BeamSRE} {quiet : Prop} (hS : SumSpecE S D.nClasses) (d : St)
    (noise : Option (ℕ → ℕ → ℕ → ℝ)) (hq : quiet → noise = none) {s : LoopE St} (h : InvE D step S quiet d s) :
    ∃ s', D.round S noise s = .ok s' ∧ s'.rounds.length = s.rounds.length + 1 ∧ InvE D step S quiet d s' := by
  obtain ⟨htok, hst, hrow⟩ := h
  set st : ℕ → ℕ → St × Tok := fun k b => stateE step (D.init.getD b d) (.hard D.startClass) (hist s.rounds k b).2 with hstdef
  have hmodel : D.model (s.tokens.map fun x => [x]) s.state =
      ((List.range S.size).flatMap fun k => (List.range D.init.length).map fun b => [(step (st k b).1 (st k b).2).1],
       (List.range S.size).flatMap fun k => (List.range D.init.length).map fun b => (step (st k b).1 (st k b).2).2) := by
    rw [htok, hst, map_flat, hD.run _ _ (by rw [flat_length, flat_length]), zipWith_flat, zipWith_flat]
    rfl
  set out := (List.range S.size).flatMap fun k => (List.range D.init.length).map fun b => [(step (st k b).1 (st k b).2).1] with hout
  have hraw : ∀ k < S.size, ∀ b < D.init.length, (out.getD (k * D.init.length + b) []).getD 0 [] = (step (st k b).1 (st k b).2).1 := by
    intro k hk b hb
    rw [hout, flat_index S.size D.init.length (fun k b => [(step (st k b).1 (st k b).2).1]) [] hk hb]; rfl
  have hlog : ∀ k < S.size, ∀ b < D.init.length, D.roundLogits noise out k b =
      D.norm (noisyE D.nClasses noise k b (logitsE step (D.init.getD b d) (.hard D.startClass) (hist s.rounds k b).2)) := by
    intro k hk b hb
    unfold ARE.roundLogits
    simp only [hraw k hk b hb]
    cases noise <;> rfl
  rw [ARE.round]
  simp only [hmodel]
  rw [if_neg, if_neg]
  · obtain ⟨r, hr, hr'⟩ := hS.sum fun k b c => IEEE.add (s.beam k b) ((D.roundLogits noise out k b).getD c .nan)
    rw [hr]
    have hex : ∀ b < D.init.length, ∃ g : ℕ → ℕ → EReal, (∀ k < S.size, ∀ c < D.nClasses,
        IEEE.add (s.beam k b) ((D.roundLogits noise out k b).getD c .nan) = some (g k c)) ∧ ∀ k < S.size, ∀ c < D.nClasses, ∀ r : ℝ, s.beam k b = .ofReal r →
        g k c = if (noisyE D.nClasses noise k b (logitsE step (D.init.getD b d) (.hard D.startClass) (hist s.rounds k b).2)).getD c 0 = ⊥ then ⊥
          else ((r + allowedNorm D.normalize (noisyE D.nClasses noise k b (logitsE step (D.init.getD b d) (.hard D.startClass) (hist s.rounds k b).2)) c : ℝ) : EReal) := by
      intro b hb
      have hval : ∀ k < S.size, ∀ c < D.nClasses, ∀ r : ℝ, s.beam k b = .ofReal r → IEEE.add (s.beam k b) ((D.roundLogits noise out k b).getD c .nan) =
          some (if (noisyE D.nClasses noise k b (logitsE step (D.init.getD b d) (.hard D.startClass) (hist s.rounds k b).2)).getD c 0 = ⊥ then ⊥
          else ((r + allowedNorm D.normalize (noisyE D.nClasses noise k b (logitsE step (D.init.getD b d) (.hard D.startClass) (hist s.rounds k b).2)) c : ℝ) : EReal)) := by
        intro k hk c hc r hr
        have hlen : (logitsE step (D.init.getD b d) (.hard D.startClass) (hist s.rounds k b).2).length = D.nClasses := hD.classes _ _
        have htop : ∀ e ∈ logitsE step (D.init.getD b d) (.hard D.startClass) (hist s.rounds k b).2, e ≠ ⊤ := hD.no_top _ _
        have hfree : ¬ Stuck (logitsE step (D.init.getD b d) (.hard D.startClass) (hist s.rounds k b).2) := hl _ _
        rw [hlog k hk b hb, norm_free D (noisy_top noise k b hlen htop) (fun _ => noisy_stuck noise k b hlen hfree)
          (by rw [noisy_length noise k b hlen]; exact hc), hr]
        split_ifs
        · simp [IEEE.add, IEEE.ofReal]
        · rw [InfEntropy.ieee_add]; rfl
      refine ⟨fun k c => (IEEE.add (s.beam k b) ((D.roundLogits noise out k b).getD c .nan)).getD 0, fun k hk c hc => ?_, fun k hk c hc r hr => ?_⟩
      · obtain ⟨r, hr⟩ := (hrow b hb).finite k hk
        beta_reduce
        rw [hval k hk c hc r hr]; rfl
      · beta_reduce
        rw [hval k hk c hc r hr]; rfl
    choose g hg1 hg2 using hex
    have hpick := fun b hb => (hr' b (g b hb) (hg1 b hb)).1
    have htake := take_flat S.size D.init.length (fun k b => (step (st k b).1 (st k b).2).2) r.2.1 fun k hk b hb => (hpick b hb k hk).1
    refine ⟨_, by simp only [bind, Except.bind]; rw [htake]; rfl, by simp, ⟨?_, ?_, fun b hb => ?_⟩⟩
    · refine List.flatMap_congr fun k hk => List.map_congr_left fun b hb => ?_
      have ht := (hpick b (List.mem_range.1 hb) k (List.mem_range.1 hk)).2.2.1
      rw [hist_snoc, stateE_snoc]
      exact ht
    · refine List.flatMap_congr fun k hk => List.map_congr_left fun b hb => ?_
      rw [hist_snoc, stateE_snoc]
    · obtain ⟨r1, r2, r3, r4⟩ := hr' b (g b hb) (hg1 b hb)
      exact rowInvE_step hD hl hS (hrow b hb) noise hq (g b hb) (hg2 b hb) _ _ _ _ _ r1 r2 r3 r4
  · rw [flat_length]; simp
  · rw [not_not]
    refine ⟨flat_length _ _ _, fun row hr => ?_⟩
    obtain ⟨k, _, b, _, rfl⟩ := mem_flat hr
    refine ⟨rfl, fun x hx => ?_⟩
    rw [List.mem_singleton] at hx
    rw [hx]; exact hD.classes _ _

theorem invE_init (D : ARE St) (step : ARStepE St) {S : BeamSRE} (hS : SumSpecE S D.nClasses) (quiet : Prop) (d : St) :
    InvE D step S quiet d ⟨fun k _ => .ofReal (S.one k), List.replicate (S.size * D.init.length) (.hard D.startClass), D.expand S.size, []⟩ := by
  refine ⟨?_, ?_, fun b _ => ?_⟩
  · simp only [hist_nil, stateE]
    refine List.ext_getElem (by rw [flat_length]; simp) fun i h1 h2 => ?_
    rw [List.getElem_replicate]
    obtain ⟨k, _, b, _, hx⟩ := mem_flat (List.getElem_mem h2)
    exact hx
  · simp only [hist_nil, stateE]
    rw [ARE.expand, replicate_flatten _ d]
  · exact ⟨fun r hr => by simp at hr, fun k hk => hk, fun k _ c hc => by simp [hist_nil] at hc, fun k _ k' _ he => congrArg Prod.fst he, fun k _ => ⟨_, rfl⟩,
      fun k _ => trivial, fun _ k _ => by simp [hist_nil, allowedScore], fun h0 => by simp at h0, fun _ _ => trivial,
      fun _ _ => Or.inr fun y hy => ⟨0, hS.size, by rw [hist_nil, List.length_eq_zero_iff.1 hy.1.1]⟩, fun _ _ h0 => by simp at h0⟩

/-- The whole search. -/
theorem searchE_inv {D : ARE St} {step : ARStepE St} (hD : IsCausalE D step) (hl : NeverStuck step) {S : BeamSRE} {quiet : Prop} (hS : SumSpecE S D.nClasses)
    (hN : 1 ≤ D.nLength) (d : St) (noise : ℕ → Option (ℕ → ℕ → ℕ → ℝ)) (hq : quiet → ∀ t, noise t = none) :
    ∃ s, D.search S noise = .ok s ∧ s.rounds.length = D.nLength ∧ InvE D step S quiet d s := by
  have hloop : ∀ n, ∃ s, (List.range n).foldlM (fun s t => D.round S (noise t) s)
      (⟨fun k _ => .ofReal (S.one k), List.replicate (S.size * D.init.length) (.hard D.startClass), D.expand S.size, []⟩ : LoopE St) = .ok s ∧
      s.rounds.length = n ∧ InvE D step S quiet d s := by
    intro n
    induction n with
    | zero => exact ⟨_, rfl, rfl, invE_init D step hS quiet d⟩
    | succ n ih =>
      obtain ⟨s, h1, h2, h3⟩ := ih
      obtain ⟨s', g1, g2, g3⟩ := invE_round hD hl hS d (noise n) (fun h => hq h n) h3
      refine ⟨s', ?_, by rw [g2, h2], g3⟩
      rw [List.range_succ, List.foldlM_append, h1]
      simp only [bind, Except.bind, List.foldlM_cons, List.foldlM_nil, g1]
      rfl
  rw [ARE.search, if_neg (by have := hS.size; omega)]
  exact hloop D.nLength

theorem classes_pos {D : ARE St} {step : ARStepE St} (hD : IsCausalE D step) (hl : NeverStuck step) (d : St) : 1 ≤ D.nClasses := by
  by_contra h
  refine hl d (.hard 0) fun e he => ?_
  have h0 : (step d (.hard 0)).1 = [] := List.length_eq_zero_iff.1 (by rw [hD.classes]; omega)
  rw [h0] at he
  simp at he

end InfBeam
