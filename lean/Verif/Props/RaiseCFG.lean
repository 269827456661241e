import Verif.Proofs.Reweight
import Verif.Props.Covariance
import Verif.Props.Raise

/-! Property theorems C140 for `SentCFG`: raising one score of the grammar. -/

open Finset Spec Generic

noncomputable section
namespace Props.Raise
open Props.Gradient Props.Covariance

theorem nudge_plain {p : CKY.Scores ℝ} (h : p.mark = none) (b : ℕ) (s : Part) (x : ℝ) : (nudgePart p b s x).mark = none := by cases s <;> exact h

theorem cfg_unmasked (b : ℕ) {NT T L : ℕ} (e : List ℕ) (y : CKYProofs.Ph NT T L) : Atom.masked e ∉ CKYProofs.phAtoms true b y := by
  intro hy
  rw [CKYProofs.phAtoms, Multiset.mem_add] at hy
  rcases hy with hy | hy
  · simp at hy
  · exact CKYProofs.atoms_masked _ _ _ _ _ hy

/-- **C140, `SentCFG`.** Raise one preterminal, rule or root score (`nudgePart`); `partEntry` reads its entry in the result of `marginals`, the expected number of uses. -/
theorem cfg_raise (p : CKY.Scores ℝ) (lengths : Option (List ℕ)) (h : SentCFG.Valid p lengths) (hN : p.N ≠ 1) (b : ℕ) (hb : b < p.batch) (s : Part) (δ : ℝ) (hδ : 0 < δ) :
    ∃ M M' z z', CKY.marginals p lengths = .ok M ∧ CKY.marginals (nudgePart p b s δ) lengths = .ok M' ∧ rowValue (Dist.partition CKY.algo p lengths) b = some z ∧
      rowValue (Dist.partition CKY.algo (nudgePart p b s δ) lengths) b = some z' ∧ Rises δ z z' (partEntry b M s) (partEntry b M' s) := by
  obtain ⟨μ, ν, z, z', h1, h2, h3, h4, h5, h6⟩ := (cfg_dp h b s 0).move (cfg_dp h b s δ) b hb (partTag b s) (partTag_head b s) δ
    (fun e he => cfg_line p lengths b s δ b hb e he) (fun y => cfg_unmasked b _ y)
  rw [nudgePart_zero] at h1 h3
  rw [marked_partition _ _ h.plain] at h3
  rw [marked_partition _ _ (nudge_plain h.plain b s δ)] at h4
  refine ⟨CKY.arrange p.N μ, CKY.arrange p.N ν, z, z', by rw [CKY.marginals, if_neg hN, h1]; rfl, by rw [CKY.marginals, nudgePart_N, if_neg hN, h2]; rfl, h3, h4, ?_⟩
  have e : ∀ f, partEntry b (CKY.arrange p.N f) s = f (partTag b s) := fun f => by cases s <;> rfl
  rw [e, e]
  exact rises hδ h5 h6

example := cfg_raise SentCFG.sample (some [3, 2]) SentCFG.sample_valid (by decide) 1 (by decide) (.rule 0 1 2) 2 two_pos

end Props.Raise
