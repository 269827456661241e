import Verif.Props.MaxTangent
import Verif.Props.RaiseCFG

/-! Property theorems C142 for `SentCFG`: raising one score of the grammar. -/

open Finset Spec Generic

noncomputable section
namespace Props.MaxTangent
open Props.Raise Props.Gradient Props.Covariance

/-- The leaves for the spans do not change `max`. -/
theorem marked_max (p : CKY.Scores ℝ) (lengths : Option (List ℕ)) (h : p.mark = none) :
    Dist.max CKY.algo (CKY.marked p) lengths = Dist.max CKY.algo p lengths := by
  have h0 : CKY.step Semirings.max (CKY.marked p) = CKY.step Semirings.max p := by
    funext st w
    have : ∀ b i X, CKY.touch Semirings.max (CKY.marked p) w b i X (CKY.spanOf Semirings.max (CKY.marked p) st w b i X) =
        CKY.touch Semirings.max p w b i X (CKY.spanOf Semirings.max p st w b i X) := by
      intro b i X
      rw [CKY.touch, CKY.touch, h]
      change _ + (0 : ℝ) = _
      rw [add_zero]
      rfl
    unfold CKY.step
    simp only [this]
    rfl
  have h1 : CKY.charts Semirings.max (CKY.marked p) = CKY.charts Semirings.max p := by
    unfold CKY.charts
    rw [h0]
    rfl
  have h2 : CKY.logZ Semirings.max (CKY.marked p) = CKY.logZ Semirings.max p := by
    funext lens c b
    unfold CKY.logZ CKY.top
    rw [h1]
    rfl
  change CKY.logpartition Semirings.max (CKY.marked p) lengths = CKY.logpartition Semirings.max p lengths
  unfold CKY.logpartition
  rw [h2]
  rfl

/-- **C142, `SentCFG`.** Raise one preterminal, rule or root score (`nudgePart`): the derivation that `argmax` returns does not use it less often than before, and `max`
rises by at least the old and at most the new number of uses times the raise. -/
theorem cfg_max_raise (p : CKY.Scores ℝ) (lengths : Option (List ℕ)) (h : SentCFG.Valid p lengths) (hN : p.N ≠ 1)
    (pick : List (Autograd.Grad (List ℕ)) → Autograd.Grad (List ℕ)) (hp : Autograd.IsArgmax Prod.fst pick) (b : ℕ) (hb : b < p.batch) (s : Part) (δ : ℝ) (hδ : 0 < δ) :
    ∃ M M' z z', CKY.argmax p lengths pick = .ok M ∧ CKY.argmax (nudgePart p b s δ) lengths pick = .ok M' ∧ rowValue (Dist.max CKY.algo p lengths) b = some z ∧
      rowValue (Dist.max CKY.algo (nudgePart p b s δ) lengths) b = some z' ∧ Rises δ z z' (partEntry b M s) (partEntry b M' s) := by
  obtain ⟨μ, ν, z, z', h1, h2, h3, h4, h5, h6⟩ := (cfg_dp h b s 0).max_move (cfg_dp h b s δ) hp b hb (partTag b s) (partTag_head b s) δ
    (fun e he => cfg_line p lengths b s δ b hb e he) (fun y => cfg_unmasked b _ y)
  rw [nudgePart_zero] at h1 h3
  rw [marked_max _ _ h.plain] at h3
  rw [marked_max _ _ (nudge_plain h.plain b s δ)] at h4
  refine ⟨CKY.arrange p.N μ, CKY.arrange p.N ν, z, z', by rw [CKY.argmax, if_neg hN, h1]; rfl, by rw [CKY.argmax, nudgePart_N, if_neg hN, h2]; rfl, h3, h4, ?_⟩
  have e : ∀ f, partEntry b (CKY.arrange p.N f) s = f (partTag b s) := fun f => by cases s <;> rfl
  rw [e, e]
  exact rises hδ h5 h6

example (pick : List (Autograd.Grad (List ℕ)) → Autograd.Grad (List ℕ)) (hp : Autograd.IsArgmax Prod.fst pick) :=
  cfg_max_raise SentCFG.sample (some [3, 2]) SentCFG.sample_valid (by decide) pick hp 1 (by decide) (.rule 0 1 2) 2 two_pos

end Props.MaxTangent
