import Verif.Proofs.TempPath
import Mathlib.Analysis.Calculus.Deriv.Pi
import Mathlib.Analysis.Calculus.Deriv.Prod
import Mathlib.Analysis.Calculus.Deriv.Mul
import Mathlib.Analysis.Calculus.Deriv.Inv
import Mathlib.Analysis.SpecialFunctions.ExpDeriv

/-! Property theorems about the first result of `greedy_tempmax`: C134. -/

open Spec

noncomputable section
namespace Props.TempPath
open _root_.Autoregressive Semirings _root_.TempPath

variable {St : Type}

theorem round_rounds (D : AR St) {S : BeamSR} {noise : Option (ℕ → ℕ → ℕ → ℝ)} {s s' : Loop St} (h : D.round S noise s = .ok s') :
    ∃ r, s'.rounds = s.rounds ++ [r] ∧ r.logits = fun k b c => (D.roundLogits noise (D.model (s.tokens.map fun x => [x]) s.state).1 k b).getD c 0 := by
  rw [AR.round] at h
  dsimp only at h
  split at h
  · cases h
  split at h
  · cases h
  simp only [bind, Except.bind] at h
  split at h
  · cases h
  split at h
  · cases h
  cases h
  exact ⟨_, rfl, rfl⟩

theorem fold_rounds (D : AR St) (S : ℕ → BeamSR) (noise : ℕ → Option (ℕ → ℕ → ℕ → ℝ)) : ∀ (ts : List ℕ) (s s' : Loop St),
    ts.foldlM (fun s t => D.round (S t) (noise t) s) s = .ok s' → ∃ l, s'.rounds = s.rounds ++ l ∧ l.length = ts.length
  | [], s, s', h => ⟨[], by cases h; simp, rfl⟩
  | t :: ts, s, s', h => by
    rw [List.foldlM_cons] at h
    rcases hr : D.round (S t) (noise t) s with e | s1
    · rw [hr] at h; cases h
    · rw [hr] at h
      obtain ⟨r, h1, _⟩ := round_rounds D hr
      obtain ⟨l, h2, h3⟩ := fold_rounds D S noise ts s1 s' h
      exact ⟨r :: l, by rw [h2, h1]; simp, by simp [h3]⟩

/-- The extended beam of a step is its logits (the third result) plus a number. -/
theorem ex_logits (D : AR St) {pick : List ℝ → ℕ} {gumbel : ℕ → ℕ → ℕ → ℕ → ℝ} {alpha : ℝ} {value : ℕ → ℝ} {logits : ℕ → ℕ → ℕ → ℝ}
    (h : D.greedyTempmax pick gumbel alpha = .ok (value, logits)) {t : ℕ} (ht : t < D.nLength) (b : ℕ) : ∃ x, ∀ c, D.tempEx pick gumbel alpha t 0 b c = x + logits b t c := by
  obtain ⟨s, hs, s', sN, hr, hf, _, hl⟩ := step_of_ok D h ht
  refine ⟨s.beam 0 b, fun c => ?_⟩
  rw [AR.tempEx, hs]
  simp only [AR.exBeam]
  congr 1
  obtain ⟨r, h1, h2⟩ := round_rounds D hr
  obtain ⟨l, h3, _⟩ := fold_rounds D _ _ _ _ _ hf
  obtain ⟨l0, h4, h5⟩ := fold_rounds D (fun _ => tempSR alpha pick) _ _ _ _ hs
  rw [List.length_range] at h5
  simp only [List.nil_append] at h4
  rw [← hl]
  simp only
  rw [h3, h1, h4, List.append_assoc, List.map_append, List.getD_append_right _ _ _ _ (by simp [h5])]
  simp [h5, h2]

/-- The selected class has the largest logit. -/
theorem pick_logits (D : AR St) (hC : 1 ≤ D.nClasses) {pick : List ℝ → ℕ} (hp : IsArgmaxIdx pick) {gumbel : ℕ → ℕ → ℕ → ℕ → ℝ} {alpha : ℝ} {value : ℕ → ℝ}
    {logits : ℕ → ℕ → ℕ → ℝ} (h : D.greedyTempmax pick gumbel alpha = .ok (value, logits)) {t : ℕ} (ht : t < D.nLength) (b : ℕ) :
    D.tempPick pick gumbel alpha t 0 b < D.nClasses ∧ ∀ c < D.nClasses, logits b t c ≤ logits b t (D.tempPick pick gumbel alpha t 0 b) := by
  obtain ⟨h1, h2⟩ := hp ((List.range D.nClasses).map (D.tempEx pick gumbel alpha t 0 b)) (by simp; omega)
  rw [List.length_map, List.length_range] at h1
  refine ⟨h1, fun c hc => ?_⟩
  obtain ⟨x, hx⟩ := ex_logits D h ht b
  have h3 := h2 _ (List.mem_map.2 ⟨c, List.mem_range.2 hc, rfl⟩)
  rw [List.getD_eq_getElem _ _ (by simpa using h1), List.getElem_map, List.getElem_range, hx, hx] at h3
  exact (add_le_add_iff_left x).1 h3

/-- **C134, the objective.**  What is differentiated is the sum of the values over the batch. -/
theorem objective (D : AR St) {pick : List ℝ → ℕ} {gumbel : ℕ → ℕ → ℕ → ℕ → ℝ} {alpha : ℝ} {value : ℕ → ℝ} {logits : ℕ → ℕ → ℕ → ℝ}
    (h : D.greedyTempmax pick gumbel alpha = .ok (value, logits)) {t : ℕ} (ht : t < D.nLength) :
    D.tempObj pick gumbel alpha t (D.tempEx pick gumbel alpha t) = ((List.range D.init.length).map value).sum := by
  obtain ⟨s, h1, h2⟩ := rest_value D h ht
  rw [AR.tempObj, h1]
  simp only [h2]

/-- How the objective changes with the extended beam, if the tokens stay the same or there are no later steps. -/
theorem obj_shift (D : AR St) {pick : List ℝ → ℕ} {gumbel : ℕ → ℕ → ℕ → ℕ → ℝ} {alpha : ℝ} {value : ℕ → ℝ} {logits : ℕ → ℕ → ℕ → ℝ}
    (h : D.greedyTempmax pick gumbel alpha = .ok (value, logits)) {t : ℕ} (ht : t < D.nLength) (ex : ℕ → ℕ → ℕ → ℝ)
    (hex : D.nLength ≤ t + 1 ∨ ∀ k b, softmax ((List.range D.nClasses).map fun c => alpha * ex k b c) =
      softmax ((List.range D.nClasses).map fun c => alpha * D.tempEx pick gumbel alpha t k b c)) :
    D.tempObj pick gumbel alpha t ex = ((List.range D.init.length).map value).sum + ((List.range D.init.length).map fun b =>
      ex 0 b (D.tempPick pick gumbel alpha t 0 b) - D.tempEx pick gumbel alpha t 0 b (D.tempPick pick gumbel alpha t 0 b)).sum := by
  obtain ⟨s, h1, h2⟩ := rest_value D h ht
  rw [AR.tempObj, h1]
  simp only [rest_shift D alpha _ _ t s _ ex hex, h2, Except.map]

theorem sum_single (n b : ℕ) (hb : b < n) (x : ℝ) : ((List.range n).map fun b' => if b' = b then x else 0).sum = x := by
  change ∑ b' ∈ Finset.range n, (if b' = b then x else 0) = x
  rw [Finset.sum_ite_eq' (Finset.range n) b, if_pos (Finset.mem_range.2 hb)]

/-- If the tokens do not depend on the extended beam, or there are no later steps, the row is one-hot. -/
theorem path_onehot (D : AR St) (hC : 1 ≤ D.nClasses) {pick : List ℝ → ℕ} (hp : IsArgmaxIdx pick) {gumbel : ℕ → ℕ → ℕ → ℕ → ℝ} {alpha : ℝ} {value : ℕ → ℝ}
    {logits : ℕ → ℕ → ℕ → ℝ} (h : D.greedyTempmax pick gumbel alpha = .ok (value, logits)) {t : ℕ} (ht : t < D.nLength) (hz : D.nLength ≤ t + 1 ∨ alpha = 0) {b : ℕ}
    (hb : b < D.init.length) : ∃ a < D.nClasses, (∀ c < D.nClasses, logits b t c ≤ logits b t a) ∧
      ∀ c, D.greedyTempmaxPath pick gumbel alpha b t c = if c = a then 1 else 0 := by
  obtain ⟨h1, h2⟩ := pick_logits D hC hp h ht b
  refine ⟨_, h1, h2, fun c => ?_⟩
  rw [AR.greedyTempmaxPath]
  have hobj : ∀ x, (D.tempObj pick gumbel alpha t fun k' b' c' => if k' = 0 ∧ b' = b ∧ c' = c then x else D.tempEx pick gumbel alpha t k' b' c') =
      ((List.range D.init.length).map value).sum + if c = D.tempPick pick gumbel alpha t 0 b then x - D.tempEx pick gumbel alpha t 0 b c else 0 := by
    intro x
    rw [obj_shift D h ht _ (hz.imp id fun h0 => by simp only [h0, zero_mul, implies_true])]
    congr 1
    rw [← sum_single D.init.length b hb (if c = D.tempPick pick gumbel alpha t 0 b then x - D.tempEx pick gumbel alpha t 0 b c else 0)]
    refine congrArg List.sum (List.map_congr_left fun b' _ => ?_)
    by_cases hbb : b' = b
    · subst hbb
      by_cases hc : c = D.tempPick pick gumbel alpha t 0 b'
      · simp [← hc]
      · simp [hc, Ne.symm hc]
    · simp [hbb]
  simp only [hobj]
  split_ifs with hc
  · have : HasDerivAt (fun x => ((List.range D.init.length).map value).sum + (x - D.tempEx pick gumbel alpha t 0 b c)) 1 (D.tempEx pick gumbel alpha t 0 b c) :=
      ((hasDerivAt_id _).sub_const _).const_add _
    exact this.deriv
  · simp

/-- **C134, the last step.**  At the last step the first result of `greedy_tempmax` is the one-hot vector of a class with the largest logit. -/
theorem path_last (D : AR St) (hC : 1 ≤ D.nClasses) {pick : List ℝ → ℕ} (hp : IsArgmaxIdx pick) {gumbel : ℕ → ℕ → ℕ → ℕ → ℝ} {alpha : ℝ} {value : ℕ → ℝ}
    {logits : ℕ → ℕ → ℕ → ℝ} (h : D.greedyTempmax pick gumbel alpha = .ok (value, logits)) {t : ℕ} (ht : t + 1 = D.nLength) {b : ℕ} (hb : b < D.init.length) :
    ∃ a < D.nClasses, (∀ c < D.nClasses, logits b t c ≤ logits b t a) ∧ ∀ c, D.greedyTempmaxPath pick gumbel alpha b t c = if c = a then 1 else 0 :=
  path_onehot D hC hp h (by omega) (Or.inl (by omega)) hb

/-- **C134, `alpha = 0`.**  For `alpha = 0` the first result is a path: at every step the one-hot vector of a class with the largest logit. -/
theorem path_zero (D : AR St) (hC : 1 ≤ D.nClasses) {pick : List ℝ → ℕ} (hp : IsArgmaxIdx pick) {gumbel : ℕ → ℕ → ℕ → ℕ → ℝ} {value : ℕ → ℝ}
    {logits : ℕ → ℕ → ℕ → ℝ} (h : D.greedyTempmax pick gumbel 0 = .ok (value, logits)) {t : ℕ} (ht : t < D.nLength) {b : ℕ} (hb : b < D.init.length) :
    ∃ a < D.nClasses, (∀ c < D.nClasses, logits b t c ≤ logits b t a) ∧ ∀ c, D.greedyTempmaxPath pick gumbel 0 b t c = if c = a then 1 else 0 :=
  path_onehot D hC hp h ht (Or.inr rfl) hb

/-- The extended beam of step `t` with the scores `e` in batch row `b`. -/
def setRow (D : AR St) (ex : ℕ → ℕ → ℕ → ℝ) (b : ℕ) (e : Fin D.nClasses → ℝ) : ℕ → ℕ → ℕ → ℝ :=
  fun k' b' c' => if k' = 0 ∧ b' = b then (if hc : c' < D.nClasses then e ⟨c', hc⟩ else ex k' b' c') else ex k' b' c'

/-- **C134, sums.**  Whatever the network, `alpha` and the noise: if the value is differentiable in the scores of step `t` (with the selected indices held fixed), the first result
sums to 1 over the classes. -/
theorem path_sum (D : AR St) (hC : 1 ≤ D.nClasses) {pick : List ℝ → ℕ} (hp : IsArgmaxIdx pick) {gumbel : ℕ → ℕ → ℕ → ℕ → ℝ} {alpha : ℝ} {value : ℕ → ℝ}
    {logits : ℕ → ℕ → ℕ → ℝ} (h : D.greedyTempmax pick gumbel alpha = .ok (value, logits)) {t : ℕ} (ht : t < D.nLength) {b : ℕ} (hb : b < D.init.length)
    (hd : DifferentiableAt ℝ (fun e : Fin D.nClasses → ℝ => D.tempObj pick gumbel alpha t (setRow D (D.tempEx pick gumbel alpha t) b e))
      fun c => D.tempEx pick gumbel alpha t 0 b c) :
    ∑ c ∈ Finset.range D.nClasses, D.greedyTempmaxPath pick gumbel alpha b t c = 1 := by
  set ex := D.tempEx pick gumbel alpha t with hex
  set F : (Fin D.nClasses → ℝ) → ℝ := fun e => D.tempObj pick gumbel alpha t (setRow D ex b e) with hF
  set e0 : Fin D.nClasses → ℝ := fun c => ex 0 b c with he0
  have hL := hd.hasFDerivAt
  set L := fderiv ℝ F e0
  have hpart : ∀ c : Fin D.nClasses, D.greedyTempmaxPath pick gumbel alpha b t c = L (Pi.single c 1) := by
    intro c
    rw [AR.greedyTempmaxPath]
    have hu : HasDerivAt (fun x => Function.update e0 c x) (Pi.single c (1 : ℝ)) (e0 c) := hasDerivAt_update e0 c _
    have h0 : Function.update e0 c (e0 c) = e0 := Function.update_eq_self c e0
    have hL' : HasFDerivAt F L (Function.update e0 c (e0 c)) := by rw [h0]; exact hL
    have hc := hL'.comp_hasDerivAt (e0 c) hu
    refine Eq.trans ?_ hc.deriv
    refine congrArg (fun f => deriv f (ex 0 b c)) (funext fun x => ?_)
    simp only [Function.comp, hF]
    refine congrArg (D.tempObj pick gumbel alpha t) ?_
    funext k' b' c'
    rw [setRow]
    by_cases hk : k' = 0 ∧ b' = b
    · obtain ⟨rfl, rfl⟩ := hk
      by_cases hcc : c' < D.nClasses
      · by_cases hc2 : c' = c
        · simp [hc2]
        · have : (⟨c', hcc⟩ : Fin D.nClasses) ≠ c := fun e => hc2 (congrArg Fin.val e)
          simp [hc2, hcc, Function.update_of_ne this, he0, hex]
      · have : c' ≠ c := fun e => hcc (by rw [e]; exact c.2)
        simp [this, hcc, hex]
    · rw [if_neg hk, if_neg fun h => hk ⟨h.1, h.2.1⟩]
  have hall : L (fun _ => 1) = 1 := by
    have hu : HasDerivAt (fun x : ℝ => fun c : Fin D.nClasses => e0 c + x) (fun _ => (1 : ℝ)) 0 :=
      hasDerivAt_pi.2 fun c => (hasDerivAt_id (0 : ℝ)).const_add (e0 c)
    have hL' : HasFDerivAt F L (fun c : Fin D.nClasses => e0 c + 0) := by simpa using hL
    have hc := hL'.comp_hasDerivAt (0 : ℝ) hu
    refine hc.deriv.symm.trans ?_
    have hval : ∀ x : ℝ, (F ∘ fun x : ℝ => fun c : Fin D.nClasses => e0 c + x) x = ((List.range D.init.length).map value).sum + x := by
      intro x
      obtain ⟨h1, _⟩ := pick_logits D hC hp h ht b
      simp only [Function.comp, hF]
      rw [obj_shift D h ht _ (Or.inr fun k' b' => ?_)]
      · congr 1
        refine Eq.trans (congrArg List.sum ?_) (sum_single D.init.length b hb x)
        refine (List.map_congr_left fun b' _ => ?_)
        by_cases hbb : b' = b
        · subst hbb
          simp [setRow, h1, he0, hex]
        · simp [setRow, hbb, hex]
      · by_cases hk : k' = 0 ∧ b' = b
        · obtain ⟨rfl, rfl⟩ := hk
          rw [← softmax_invariant D.nClasses alpha x (D.tempEx pick gumbel alpha t 0 b')]
          refine congrArg softmax (List.map_congr_left fun c hc => ?_)
          simp [setRow, List.mem_range.1 hc, he0, hex]
        · simp only [setRow, if_neg hk, hex]
    rw [show (F ∘ fun x : ℝ => fun c : Fin D.nClasses => e0 c + x) = fun x => ((List.range D.init.length).map value).sum + x from funext hval]
    exact ((hasDerivAt_id (0 : ℝ)).const_add _).deriv
  rw [Finset.sum_range, Finset.sum_congr rfl fun c _ => hpart c, ← map_sum, Finset.univ_sum_single (fun _ : Fin D.nClasses => (1 : ℝ))]
  exact hall

/-! ### A network for which it is not a path -/

/-- The first logits are 0 and 1; the second ones grow with the weight of class 0 in the input. -/
def pullStep (κ : ℝ) : ARStep Unit := fun _ x => match x with
  | .hard _ => ([0, 1], ())
  | .soft w => ([κ * w.getD 0 0, κ * w.getD 0 0], ())

/-- Two steps of it. -/
def pull (κ : ℝ) : AR Unit :=
  ⟨fun rows states => (List.zipWith (fun row s => (runStep (pullStep κ) s row).1) rows states, List.zipWith (fun row s => (runStep (pullStep κ) s row).2) rows states),
    [()], 2, 2, false, 0⟩

theorem pull_causal (κ : ℝ) : IsCausal (pull κ) (pullStep κ) := ⟨fun _ _ _ => rfl, fun _ x => by cases x <;> simp [pullStep, pull]⟩

theorem pull_before (κ : ℝ) (pick : List ℝ → ℕ) (gumbel : ℕ → ℕ → ℕ → ℕ → ℝ) (alpha : ℝ) :
    (pull κ).tempBefore pick gumbel alpha 0 = .ok ⟨fun _ _ => 0, [.hard 0], [()], []⟩ := rfl

theorem pull_ex (κ : ℝ) (pick : List ℝ → ℕ) (c : ℕ) (hc : c < 2) : (pull κ).tempEx pick (fun _ _ _ _ => 0) 1 0 0 0 c = c := by
  rw [AR.tempEx, pull_before]
  simp only [AR.exBeam, AR.roundLogits, tempNoise, one_ne_zero, if_false, pull, AR.norm]
  interval_cases c <;> simp [List.range_succ, runStep, pullStep]

theorem pull_pick (κ : ℝ) {pick : List ℝ → ℕ} (hp : IsArgmaxIdx pick) : (pull κ).tempPick pick (fun _ _ _ _ => 0) 1 0 0 0 = 1 := by
  rw [AR.tempPick]
  have e : (List.range (pull κ).nClasses).map ((pull κ).tempEx pick (fun _ _ _ _ => 0) 1 0 0 0) = [0, 1] := by
    change [_, _] = _
    rw [pull_ex κ pick 0 (by norm_num), pull_ex κ pick 1 (by norm_num)]
    norm_num
  rw [e]
  obtain ⟨h1, h2⟩ := hp [0, 1] (by simp)
  have h3 := h2 1 (by simp)
  generalize pick [0, 1] = i at *
  simp only [List.length_cons, List.length_nil] at h1
  interval_cases i
  · norm_num at h3
  · rfl

theorem pull_pick_lt (κ : ℝ) {pick : List ℝ → ℕ} (hp : IsArgmaxIdx pick) : (pull κ).tempPick pick (fun _ _ _ _ => 0) 1 1 0 0 < 2 := by
  have := (hp ((List.range (pull κ).nClasses).map ((pull κ).tempEx pick (fun _ _ _ _ => 0) 1 1 0 0)) (by simp [pull])).1
  simpa [pull, AR.tempPick] using this

theorem pull_round (κ : ℝ) {a : ℕ → ℕ → ℕ} (ha : a 0 0 < 2) (s : Loop Unit) {w : List ℝ} (ht : s.tokens = [.soft w]) (hs : s.state = [()]) :
    ∃ s', (pull κ).round (frozenSR 1 a) (some fun _ _ _ => 0) s = .ok s' ∧ s'.beam 0 0 = s.beam 0 0 + κ * w.getD 0 0 := by
  have hm : (pull κ).model (s.tokens.map fun x => [x]) s.state = ([[[κ * w.getD 0 0, κ * w.getD 0 0]]], [()]) := by rw [ht, hs]; rfl
  rw [AR.round]
  simp only [hm]
  refine ⟨_, (if_neg ?_).trans ((if_neg ?_).trans rfl), ?_⟩
  · rw [not_not, hm]
    exact ⟨rfl, fun row hr => by
      rw [List.mem_singleton] at hr
      subst hr
      exact ⟨rfl, fun x hx => by rw [List.mem_singleton] at hx; subst hx; rfl⟩⟩
  · rw [not_not]; rfl
  · simp only
    congr 1
    have : ∀ i < 2, ((pull κ).roundLogits (some fun _ _ _ => 0) [[[κ * w.getD 0 0, κ * w.getD 0 0]]] 0 0).getD i 0 = κ * w.getD 0 0 := by
      intro i hi
      simp only [AR.roundLogits, pull, AR.norm]
      interval_cases i <;> simp [List.range_succ]
    exact this _ ha

theorem pull_obj (κ : ℝ) {pick : List ℝ → ℕ} (hp : IsArgmaxIdx pick) (ex : ℕ → ℕ → ℕ → ℝ) : (pull κ).tempObj pick (fun _ _ _ _ => 0) 1 0 ex =
    ex 0 0 1 + κ * (Real.exp (ex 0 0 0) / (Real.exp (ex 0 0 0) + Real.exp (ex 0 0 1))) := by
  have hsm : softmax ((List.range 2).map fun c => 1 * ex 0 0 c) = [Real.exp (ex 0 0 0) / (Real.exp (ex 0 0 0) + Real.exp (ex 0 0 1)),
      Real.exp (ex 0 0 1) / (Real.exp (ex 0 0 0) + Real.exp (ex 0 0 1))] := by
    have := Props.TempMax.softmax_shift 2 1 0 (ex 0 0)
    simp only [zero_add, one_mul, Finset.sum_range_succ, Finset.sum_range_zero] at this
    simp only [one_mul, this]
    rfl
  have hlt := pull_pick_lt κ hp
  rw [AR.tempObj, pull_before]
  have hrest : (pull κ).tempRest 1 (tempNoise 1 fun _ _ _ _ => 0) ((pull κ).tempPick pick (fun _ _ _ _ => 0) 1) 0 ⟨fun _ _ => 0, [.hard 0], [()], []⟩ ex =
      .ok (ex 0 0 1 + κ * (Real.exp (ex 0 0 0) / (Real.exp (ex 0 0 0) + Real.exp (ex 0 0 1)))) := by
    obtain ⟨s', h1, h2⟩ := pull_round κ hlt ⟨fun k b => ex k b ((pull κ).tempPick pick (fun _ _ _ _ => 0) 1 0 k b),
      [.soft (softmax ((List.range 2).map fun c => 1 * ex 0 0 c))], [()], [] ++ [⟨fun k b c => ((pull κ).roundLogits (tempNoise 1 (fun _ _ _ _ => 0) 0)
        ((pull κ).model ([Tok.hard 0].map fun x => [x]) [()]).1 k b).getD c 0, fun _ _ => 0, fun k b => .soft (softmax ((List.range 2).map fun c => 1 * ex k b c))⟩]⟩ rfl rfl
    have hn : tempNoise 1 (fun _ _ _ _ => 0) 1 = some fun _ _ _ => 0 := by simp [tempNoise]
    rw [← hn] at h1
    change ((pull κ).round _ _ _ >>= fun s => pure s) >>= (fun s' : Loop Unit => (pure ((List.range 1).map fun b => s'.beam 0 b).sum : Except PyErr ℝ)) = _
    rw [bind_pure]
    refine (congrArg (fun X : Except PyErr (Loop Unit) => X >>= (fun s' : Loop Unit => (pure ((List.range 1).map fun b => s'.beam 0 b).sum : Except PyErr ℝ))) h1).trans ?_
    change Except.ok (s'.beam 0 0 + 0) = _
    rw [h2, hsm]
    dsimp only
    rw [pull_pick κ hp]
    simp
  simp only [hrest]

/-- **C134, it is not a path in general.**  For this network and `alpha = 1` (and noise 0) the first result at the first step is `2` for class 0 and `-1` for class 1. -/
theorem path_not_onehot {pick : List ℝ → ℕ} (hp : IsArgmaxIdx pick) : ∃ D : AR Unit, ∃ step, IsCausal D step ∧ 1 ≤ D.nClasses ∧ 1 ≤ D.nLength ∧ 0 < D.init.length ∧
    D.greedyTempmaxPath pick (fun _ _ _ _ => 0) 1 0 0 0 = 2 ∧ D.greedyTempmaxPath pick (fun _ _ _ _ => 0) 1 0 0 1 = -1 := by
  set κ : ℝ := 2 * (1 + Real.exp 1) ^ 2 / Real.exp 1 with hκ
  have he := Real.exp_pos 1
  refine ⟨pull κ, pullStep κ, pull_causal κ, by simp [pull], by simp [pull], by simp [pull], ?_, ?_⟩
  · rw [AR.greedyTempmaxPath]
    simp only [pull_obj κ hp, pull_ex κ pick 0 (by norm_num)]
    have e : (pull κ).tempEx pick (fun _ _ _ _ => 0) 1 0 0 0 1 = 1 := by rw [pull_ex κ pick 1 (by norm_num)]; simp
    simp only [e, and_self, one_ne_zero, and_false, if_true, if_false]
    have hd : HasDerivAt (fun x : ℝ => 1 + κ * (Real.exp x / (Real.exp x + Real.exp 1)))
        (κ * ((Real.exp 0 * (Real.exp 0 + Real.exp 1) - Real.exp 0 * Real.exp 0) / (Real.exp 0 + Real.exp 1) ^ 2)) 0 :=
      (((Real.hasDerivAt_exp 0).div ((Real.hasDerivAt_exp 0).add_const _) (by positivity)).const_mul κ).const_add 1
    rw [Nat.cast_zero, hd.deriv, hκ, Real.exp_zero]
    field_simp
    ring
  · rw [AR.greedyTempmaxPath]
    simp only [pull_obj κ hp, pull_ex κ pick 1 (by norm_num)]
    have e : (pull κ).tempEx pick (fun _ _ _ _ => 0) 1 0 0 0 0 = 0 := by rw [pull_ex κ pick 0 (by norm_num)]; simp
    simp only [e, and_self, zero_ne_one, and_false, if_true, if_false]
    have hd : HasDerivAt (fun x : ℝ => x + κ * (Real.exp 0 / (Real.exp 0 + Real.exp x)))
        (1 + κ * ((0 * (Real.exp 0 + Real.exp 1) - Real.exp 0 * Real.exp 1) / (Real.exp 0 + Real.exp 1) ^ 2)) 1 :=
      (hasDerivAt_id (1 : ℝ)).add (((hasDerivAt_const (1 : ℝ) (Real.exp 0)).div ((Real.hasDerivAt_exp 1).const_add _) (by positivity)).const_mul κ)
    rw [Nat.cast_one, hd.deriv, hκ, Real.exp_zero]
    field_simp
    ring

/-- The hypotheses of `path_sum` hold for this network. -/
example (κ : ℝ) {pick : List ℝ → ℕ} (hp : IsArgmaxIdx pick) : ∑ c ∈ Finset.range 2, (pull κ).greedyTempmaxPath pick (fun _ _ _ _ => 0) 1 0 0 c = 1 := by
  obtain ⟨value, logits, h, _⟩ := Props.TempMax.tempmax_value (pull κ) (pull_causal κ) (by simp [pull]) (by simp [pull]) hp (fun _ _ _ _ => 0) 1 ()
  refine path_sum (pull κ) (by simp [pull]) hp h (by simp [pull]) (by simp [pull]) ?_
  simp only [pull_obj κ hp]
  have e : ∀ (x : Fin (pull κ).nClasses → ℝ) (c : ℕ) (hc : c < (pull κ).nClasses), setRow (pull κ) ((pull κ).tempEx pick (fun _ _ _ _ => 0) 1 0) 0 x 0 0 c = x ⟨c, hc⟩ := fun x c hc => by
    rw [setRow, if_pos ⟨rfl, rfl⟩, dif_pos hc]
  simp only [e _ 0 (by simp [pull]), e _ 1 (by simp [pull])]
  have hne : ∀ x y : ℝ, Real.exp x + Real.exp y ≠ 0 := fun x y => by positivity
  fun_prop (disch := exact hne _ _)

end Props.TempPath
