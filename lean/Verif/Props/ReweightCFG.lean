import Verif.Props.RaiseCFG

/-! Property theorems C141 for `SentCFG`: preterminal and root scores, which a derivation uses at most once. -/

open Finset Spec Generic

noncomputable section
namespace Props.Reweight
open Props.Raise Props.Gradient Props.Covariance

/-! ### Scores that a derivation uses at most once -/

open GrammarProofs in
theorem count_root_atoms (mk : Bool) (b X : ℕ) {NT T : ℕ} : ∀ (i : ℕ) (t : ETree NT T), ((atoms mk b i t).filterMap Atom.link).count [b, 2, X] = 0
  | i, .leaf (.inl t) => by simp [atoms, Atom.link]
  | i, .leaf (.inr Y) => by simp [atoms, Atom.link]
  | i, .node Y l r => by
    simp only [atoms, Multiset.filterMap_add, Multiset.count_add, count_root_atoms mk b X i l, count_root_atoms mk b X _ r]
    cases mk <;> simp [Atom.link]

open GrammarProofs in
theorem count_term_atoms (mk : Bool) (b n t : ℕ) {NT T : ℕ} : ∀ (i : ℕ) (d : ETree NT T),
    ((atoms mk b i d).filterMap Atom.link).count [b, 0, n, t] ≤ if i ≤ n ∧ n < i + d.size then 1 else 0
  | i, .leaf (.inl t') => by
    have : ((atoms mk b i (.leaf (.inl t') : ETree NT T)).filterMap Atom.link) = {[b, 0, i, (t' : ℕ)]} := rfl
    rw [this, Multiset.count_singleton]
    split_ifs with h1 h2
    · exact le_rfl
    · simp only [List.cons.injEq, true_and, and_true] at h1
      exact absurd ⟨by omega, by simp only [GTree.size]; omega⟩ h2
    · exact Nat.zero_le _
    · exact le_rfl
  | i, .leaf (.inr Y) => by simp [atoms, Atom.link]
  | i, .node Y l r => by
    have h1 := count_term_atoms mk b n t i l
    have h2 := count_term_atoms mk b n t (i + l.size) r
    have h3 : ((atoms mk b i (.node Y l r)).filterMap Atom.link).count [b, 0, n, t] =
        ((atoms mk b i l).filterMap Atom.link).count [b, 0, n, t] + ((atoms mk b (i + l.size) r).filterMap Atom.link).count [b, 0, n, t] := by
      simp only [atoms, Multiset.filterMap_add, Multiset.count_add]
      cases mk <;> simp [Atom.link]
    rw [h3]
    have hs : (GTree.node Y l r : GTree NT (Fin T ⊕ Fin NT)).size = l.size + r.size := rfl
    by_cases c1 : i ≤ n ∧ n < i + l.size
    · rw [if_pos c1] at h1
      rw [if_neg (by omega)] at h2
      rw [if_pos (by omega)]
      omega
    · rw [if_neg c1] at h1
      by_cases c2 : i + l.size ≤ n ∧ n < i + l.size + r.size
      · rw [if_pos c2] at h2
        rw [if_pos (by omega)]
        omega
      · rw [if_neg c2] at h2
        exact le_trans (by omega) (Nat.zero_le _)

/-- The scores that a derivation uses at most once. -/
def Single : Part → Prop
  | .term _ _ => True
  | .rule _ _ _ => False
  | .root _ => True

open GrammarProofs in
theorem single_le {s : Part} (hs : Single s) (mk : Bool) (b : ℕ) {NT T : ℕ} (X : ℕ) (t : ETree NT T) :
    ((({.pot [b, 2, X]} + atoms mk b 0 t : Multiset Atom)).filterMap Atom.link).count (partTag b s) ≤ 1 := by
  have e : (({.pot [b, 2, X]} + atoms mk b 0 t : Multiset Atom)).filterMap Atom.link = {[b, 2, X]} + (atoms mk b 0 t).filterMap Atom.link := by
    rw [Multiset.filterMap_add]
    rfl
  rw [e, Multiset.count_add]
  cases s with
  | term n u =>
    have h1 := count_term_atoms mk b n u 0 t
    have h2 : ({[b, 2, X]} : Multiset (List ℕ)).count [b, 0, n, u] = 0 := by simp
    rw [partTag, h2, zero_add]
    exact h1.trans (by split_ifs <;> simp)
  | rule X y z => exact hs.elim
  | root Y =>
    rw [partTag, count_root_atoms, add_zero]
    exact Multiset.nodup_iff_count_le_one.1 (Multiset.nodup_singleton _) _

/-- **C141, `SentCFG`**, for the preterminal and root scores. -/
theorem cfg_reweight (p : CKY.Scores ℝ) (lengths : Option (List ℕ)) (h : SentCFG.Valid p lengths) (hN : p.N ≠ 1) (b : ℕ) (hb : b < p.batch) (s : Part) (hs : Single s)
    (δ : ℝ) : ∃ M M' z z', CKY.marginals p lengths = .ok M ∧ CKY.marginals (nudgePart p b s δ) lengths = .ok M' ∧
      rowValue (Dist.partition CKY.algo p lengths) b = some z ∧ rowValue (Dist.partition CKY.algo (nudgePart p b s δ) lengths) b = some z' ∧
      Reweighted δ z z' (partEntry b M s) (partEntry b M' s) := by
  obtain ⟨μ, ν, z, z', h1, h2, h3, h4, h5⟩ := (cfg_dp h b s 0).reweight (cfg_dp h b s δ) b hb (partTag b s) (partTag_head b s) δ
    (fun e he => cfg_line p lengths b s δ b hb e he) (fun y => cfg_unmasked b _ y)
    (fun d => by
      have e : (CKYProofs.derivParts true b d) = ((CKYProofs.derivParts true b d).map Atom.pot).filterMap Atom.link := by
        rw [Multiset.filterMap_map]
        exact (Multiset.filterMap_some _).symm
      rw [e, CKYProofs.parts_pot]
      exact single_le hs true b _ _)
    (fun y => single_le hs true b _ _)
  rw [nudgePart_zero] at h1 h3
  rw [marked_partition _ _ h.plain] at h3
  rw [marked_partition _ _ (nudge_plain h.plain b s δ)] at h4
  refine ⟨CKY.arrange p.N μ, CKY.arrange p.N ν, z, z', by rw [CKY.marginals, if_neg hN, h1]; rfl, by rw [CKY.marginals, nudgePart_N, if_neg hN, h2]; rfl, h3, h4, ?_⟩
  have e : ∀ f, partEntry b (CKY.arrange p.N f) s = f (partTag b s) := fun f => by cases s <;> rfl
  rw [e, e]
  exact h5

example := cfg_reweight SentCFG.sample (some [3, 2]) SentCFG.sample_valid (by decide) 1 (by decide) (.term 1 0) trivial 2

end Props.Reweight
