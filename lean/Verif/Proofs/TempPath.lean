import Verif.Model.TempPath
import Verif.Props.TempMax

/-! The first result of `greedy_tempmax`. -/

noncomputable section
namespace TempPath
open _root_.Autoregressive Semirings Props.TempMax

variable {St : Type}

/-- The same variables with `δ b` added to the beam of batch row `b`. -/
def shift (δ : ℕ → ℕ → ℝ) (s : Loop St) : Loop St := { s with beam := fun k b => s.beam k b + δ k b }

theorem softmax_invariant (C : ℕ) (alpha x : ℝ) (f : ℕ → ℝ) :
    softmax ((List.range C).map fun c => alpha * (f c + x)) = softmax ((List.range C).map fun c => alpha * f c) := by
  have h1 := softmax_shift C alpha x f
  have h2 := softmax_shift C alpha 0 f
  simp only [zero_add] at h2
  rw [h2, ← h1]
  simp only [add_comm]

/-- A round does not see what is added to the beam. -/
theorem round_shift (D : AR St) (alpha : ℝ) (a : ℕ → ℕ → ℕ) (noise : Option (ℕ → ℕ → ℕ → ℝ)) (δ : ℕ → ℕ → ℝ) (s : Loop St) :
    D.round (frozenSR alpha a) noise (shift δ s) = (D.round (frozenSR alpha a) noise s).map (shift δ) := by
  unfold AR.round
  simp only [shift]
  by_cases h1 : ¬ HasShape (D.model (s.tokens.map fun x => [x]) s.state).1 ((frozenSR alpha a).size * D.init.length) 1 D.nClasses
  · exact (if_pos h1).trans (congrArg (Except.map (shift δ)) (if_pos h1 : _ = Except.error PyErr.assertion)).symm
  refine (if_neg h1).trans (Eq.trans ?_ (congrArg (Except.map (shift δ)) (if_neg h1)).symm)
  by_cases h2 : (D.model (s.tokens.map fun x => [x]) s.state).2.length ≠ (frozenSR alpha a).size * D.init.length
  · exact (if_pos h2).trans (congrArg (Except.map (shift δ)) (if_pos h2 : _ = Except.error PyErr.assertion)).symm
  · refine (if_neg h2).trans (Eq.trans ?_ (congrArg (Except.map (shift δ)) (if_neg h2)).symm)
    simp only [frozenSR]
    split_ifs with h0
    · rfl
    · simp only [bind, Except.bind]
      rcases take 1 D.init.length (D.model (s.tokens.map fun x => [x]) s.state).2 (fun _ _ => 0) with e | st
      · rfl
      · have hs : ∀ k b, softmax ((List.range D.nClasses).map fun c => alpha * (s.beam k b + δ k b + (D.roundLogits noise (D.model (s.tokens.map fun x => [x]) s.state).1 k b).getD c 0)) =
            softmax ((List.range D.nClasses).map fun c => alpha * (s.beam k b + (D.roundLogits noise (D.model (s.tokens.map fun x => [x]) s.state).1 k b).getD c 0)) := by
          intro k b
          rw [← softmax_invariant D.nClasses alpha (δ k b) fun c => s.beam k b + (D.roundLogits noise (D.model (s.tokens.map fun x => [x]) s.state).1 k b).getD c 0]
          refine congrArg softmax (List.map_congr_left fun c _ => ?_)
          ring
        simp only [hs, pure, Except.pure, Except.map, Except.ok.injEq, Loop.mk.injEq, and_true, true_and, shift]
        funext k b
        ring

theorem fold_shift (D : AR St) (alpha : ℝ) (a : ℕ → ℕ → ℕ → ℕ) (noise : ℕ → Option (ℕ → ℕ → ℕ → ℝ)) (δ : ℕ → ℕ → ℝ) : ∀ (ts : List ℕ) (s : Loop St),
    ts.foldlM (fun s t => D.round (frozenSR alpha (a t)) (noise t) s) (shift δ s) = (ts.foldlM (fun s t => D.round (frozenSR alpha (a t)) (noise t) s) s).map (shift δ)
  | [], s => rfl
  | t :: ts, s => by
    rw [List.foldlM_cons, List.foldlM_cons, round_shift]
    rcases D.round (frozenSR alpha (a t)) (noise t) s with e | s'
    · rfl
    · exact fold_shift D alpha a noise δ ts s'

/-- If the tokens stay the same, or there are no later steps, the objective changes as the selected entries do. -/
theorem rest_shift (D : AR St) (alpha : ℝ) (noise : ℕ → Option (ℕ → ℕ → ℕ → ℝ)) (a : ℕ → ℕ → ℕ → ℕ) (t : ℕ) (s : Loop St) (ex ex' : ℕ → ℕ → ℕ → ℝ)
    (h : D.nLength ≤ t + 1 ∨ ∀ k b, softmax ((List.range D.nClasses).map fun c => alpha * ex' k b c) = softmax ((List.range D.nClasses).map fun c => alpha * ex k b c)) :
    D.tempRest alpha noise a t s ex' = (D.tempRest alpha noise a t s ex).map fun v =>
      v + ((List.range D.init.length).map fun b => ex' 0 b (a t 0 b) - ex 0 b (a t 0 b)).sum := by
  have hsum : ∀ f g : ℕ → ℝ, ((List.range D.init.length).map fun b => f b + g b).sum = ((List.range D.init.length).map f).sum + ((List.range D.init.length).map g).sum :=
    fun f g => List.sum_map_add
  unfold AR.tempRest
  simp only [frozenSR]
  split_ifs with h0
  · rfl
  · simp only [bind, Except.bind]
    rcases take 1 D.init.length (D.model (s.tokens.map fun x => [x]) s.state).2 (fun _ _ => 0) with e | st
    · rfl
    · rcases h with h | h
      · have hn : D.nLength - (t + 1) = 0 := by omega
        simp only [hn, List.range'_zero, List.foldlM_nil, pure, Except.pure, Except.map]
        rw [← hsum]
        refine congrArg Except.ok (congrArg List.sum (List.map_congr_left fun b _ => ?_))
        ring
      · simp only [h]
        have := fold_shift D alpha a noise (fun k b => ex' k b (a t k b) - ex k b (a t k b)) (List.range' (t + 1) (D.nLength - (t + 1)))
          ⟨fun k b => ex k b (a t k b), flatTokens 1 D.init.length fun k b => .soft (softmax ((List.range D.nClasses).map fun c => alpha * ex k b c)), st,
            s.rounds ++ [⟨fun k b c => (D.roundLogits (noise t) (D.model (s.tokens.map fun x => [x]) s.state).1 k b).getD c 0, fun _ _ => 0,
              fun k b => .soft (softmax ((List.range D.nClasses).map fun c => alpha * ex k b c))⟩]⟩
        simp only [shift, add_sub_cancel] at this
        simp only [frozenSR] at this
        rw [this]
        generalize List.foldlM (m := Except PyErr) _ _ _ = X
        rcases X with e | s'
        · rfl
        · simp only [Except.map, pure, Except.pure, shift, hsum]

/-! ### The objective -/

/-- Freezing the selected indices changes nothing at the point itself. -/
theorem round_frozen (D : AR St) (alpha : ℝ) (pick : List ℝ → ℕ) (noise : Option (ℕ → ℕ → ℕ → ℝ)) (s : Loop St) :
    D.round (tempSR alpha pick) noise s = D.round (frozenSR alpha fun k b => pick ((List.range D.nClasses).map (D.exBeam noise s k b))) noise s := rfl

theorem before_succ (D : AR St) (pick : List ℝ → ℕ) (gumbel : ℕ → ℕ → ℕ → ℕ → ℝ) (alpha : ℝ) (t : ℕ) : D.tempBefore pick gumbel alpha (t + 1) =
    (D.tempBefore pick gumbel alpha t >>= fun s => D.round (tempSR alpha pick) (tempNoise alpha gumbel t) s) := by
  rw [AR.tempBefore, List.range_succ, List.foldlM_append]
  rcases h : D.tempBefore pick gumbel alpha t with e | s
  · rw [AR.tempBefore] at h; rw [h]; rfl
  · rw [AR.tempBefore] at h; rw [h]; simp [List.foldlM_cons, List.foldlM_nil]

theorem pick_eq (D : AR St) (pick : List ℝ → ℕ) (gumbel : ℕ → ℕ → ℕ → ℕ → ℝ) (alpha : ℝ) {t : ℕ} {s : Loop St} (h : D.tempBefore pick gumbel alpha t = .ok s) :
    D.tempPick pick gumbel alpha t = fun k b => pick ((List.range D.nClasses).map (D.exBeam (tempNoise alpha gumbel t) s k b)) := by
  funext k b
  rw [AR.tempPick, AR.tempEx, h]

theorem fold_frozen (D : AR St) (pick : List ℝ → ℕ) (gumbel : ℕ → ℕ → ℕ → ℕ → ℝ) (alpha : ℝ) : ∀ (n t : ℕ) (s : Loop St), D.tempBefore pick gumbel alpha t = .ok s →
    (List.range' t n).foldlM (fun s t => D.round (tempSR alpha pick) (tempNoise alpha gumbel t) s) s =
      (List.range' t n).foldlM (fun s t => D.round (frozenSR alpha (D.tempPick pick gumbel alpha t)) (tempNoise alpha gumbel t) s) s
  | 0, _, _, _ => rfl
  | n + 1, t, s, h => by
    rw [List.range'_succ, List.foldlM_cons, List.foldlM_cons, round_frozen, ← pick_eq D pick gumbel alpha h]
    rcases hr : D.round (frozenSR alpha (D.tempPick pick gumbel alpha t)) (tempNoise alpha gumbel t) s with e | s'
    · rfl
    · refine fold_frozen D pick gumbel alpha n (t + 1) s' ?_
      rw [before_succ, h]
      change D.round _ _ s = _
      rw [round_frozen, ← pick_eq D pick gumbel alpha h, hr]

theorem split_range {t n : ℕ} (h : t < n) : List.range n = List.range t ++ List.range' t (n - t) := by
  rw [List.range_eq_range', List.range_eq_range', show n = t + (n - t) by omega, ← List.range'_append]
  simp

/-- What a successful call says about step `t`. -/
theorem step_of_ok (D : AR St) {pick : List ℝ → ℕ} {gumbel : ℕ → ℕ → ℕ → ℕ → ℝ} {alpha : ℝ} {value : ℕ → ℝ} {logits : ℕ → ℕ → ℕ → ℝ}
    (h : D.greedyTempmax pick gumbel alpha = .ok (value, logits)) {t : ℕ} (ht : t < D.nLength) :
    ∃ s, D.tempBefore pick gumbel alpha t = .ok s ∧ ∃ s' sN, D.round (frozenSR alpha (D.tempPick pick gumbel alpha t)) (tempNoise alpha gumbel t) s = .ok s' ∧
      (List.range' (t + 1) (D.nLength - (t + 1))).foldlM (fun s t => D.round (frozenSR alpha (D.tempPick pick gumbel alpha t)) (tempNoise alpha gumbel t) s) s' = .ok sN ∧
      sN.beam 0 = value ∧ (fun b t c => (sN.rounds.map fun r => r.logits 0 b c).getD t 0) = logits := by
  rw [AR.greedyTempmax, AR.search] at h
  by_cases h0 : (tempSR alpha pick).size = 0 ∨ D.nLength = 0
  · rw [if_pos h0] at h; cases h
  rw [if_neg h0] at h
  have hall : D.tempBefore pick gumbel alpha D.nLength = (D.tempBefore pick gumbel alpha t >>= fun s =>
      (List.range' t (D.nLength - t)).foldlM (fun s t => D.round (tempSR alpha pick) (tempNoise alpha gumbel t) s) s) := by
    rw [AR.tempBefore, split_range ht, List.foldlM_append]; rfl
  change (D.tempBefore pick gumbel alpha D.nLength).map _ = _ at h
  rw [hall] at h
  rcases hs : D.tempBefore pick gumbel alpha t with e | s
  · rw [hs] at h; cases h
  rw [hs] at h
  simp only [bind, Except.bind] at h
  rw [fold_frozen D pick gumbel alpha _ t s hs, show D.nLength - t = D.nLength - (t + 1) + 1 by omega, List.range'_succ, List.foldlM_cons] at h
  rcases hr : D.round (frozenSR alpha (D.tempPick pick gumbel alpha t)) (tempNoise alpha gumbel t) s with e | s'
  · rw [hr] at h; cases h
  rw [hr] at h
  simp only [bind, Except.bind] at h
  rcases hf : (List.range' (t + 1) (D.nLength - (t + 1))).foldlM (fun s t => D.round (frozenSR alpha (D.tempPick pick gumbel alpha t)) (tempNoise alpha gumbel t) s) s' with e | sN
  · rw [hf] at h; cases h
  rw [hf] at h
  simp only [Except.map, Except.ok.injEq, Prod.mk.injEq] at h
  exact ⟨s, rfl, s', sN, hr, hf, h.1, h.2⟩

/-- `tempRest` at the point itself is the sum of the values. -/
theorem rest_value (D : AR St) {pick : List ℝ → ℕ} {gumbel : ℕ → ℕ → ℕ → ℕ → ℝ} {alpha : ℝ} {value : ℕ → ℝ} {logits : ℕ → ℕ → ℕ → ℝ}
    (h : D.greedyTempmax pick gumbel alpha = .ok (value, logits)) {t : ℕ} (ht : t < D.nLength) :
    ∃ s, D.tempBefore pick gumbel alpha t = .ok s ∧ D.tempRest alpha (tempNoise alpha gumbel) (D.tempPick pick gumbel alpha) t s (D.tempEx pick gumbel alpha t) =
      .ok ((List.range D.init.length).map value).sum := by
  obtain ⟨s, hs, s', sN, hr, hf, hv, _⟩ := step_of_ok D h ht
  refine ⟨s, hs, ?_⟩
  rw [AR.round] at hr
  dsimp only at hr
  split at hr
  · cases hr
  split at hr
  · cases hr
  have hex : D.tempEx pick gumbel alpha t = D.exBeam (tempNoise alpha gumbel t) s := by rw [AR.tempEx, hs]
  unfold AR.tempRest
  simp only [bind, Except.bind] at hr ⊢
  rw [hex]
  rw [← show D.exBeam (tempNoise alpha gumbel t) s = fun k b c => s.beam k b + (D.roundLogits (tempNoise alpha gumbel t) (D.model (s.tokens.map fun x => [x]) s.state).1 k b).getD c 0
    from rfl] at hr
  rcases hsum : (frozenSR alpha (D.tempPick pick gumbel alpha t)).sparseSum D.nClasses (D.exBeam (tempNoise alpha gumbel t) s) with e | r
  · rw [hsum] at hr; cases hr
  rw [hsum] at hr
  dsimp only at hr ⊢
  rcases htake : take 1 D.init.length (D.model (s.tokens.map fun x => [x]) s.state).2 r.2.1 with e | st
  · rw [show (frozenSR alpha (D.tempPick pick gumbel alpha t)).size = 1 from rfl, htake] at hr; cases hr
  rw [show (frozenSR alpha (D.tempPick pick gumbel alpha t)).size = 1 from rfl, htake] at hr
  simp only [pure, Except.pure, Except.ok.injEq] at hr ⊢
  rw [← hr] at hf
  rw [hf, ← hv]

end TempPath
