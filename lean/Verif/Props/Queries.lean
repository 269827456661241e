import Verif.Model.Queries
import Verif.Props.TreeCRF
import Verif.Props.LinearChainEntropy
import Verif.Props.SentCFG
import Verif.Props.SemiMarkov

/-! Property theorems C74: which queries of the base class the distributions answer. -/

open Spec

noncomputable section
namespace Props.Queries

/-- A call returns a value. -/
def Answers {α : Type} (x : Except PyErr α) : Prop := ∃ v, x = .ok v

/-- **C74 (refutation).** `SentCFG.log_prob` raises for every grammar and every value: `AttributeError` when the value is a tuple of parts,
`TypeError` when it is a tensor. -/
theorem sentcfg_logProb_raises (p : CKY.Scores ℝ) (value : PyObj) :
    SentCFG.logProb p value = .error .attribute ∨ SentCFG.logProb p value = .error .type := by
  cases value with
  | tensor s => exact .inr rfl
  | seq l => exact .inl rfl

/-- **C74 (refutation).** `SentCFG.sample` raises for every grammar and every sample shape, also when the marginals of the samples can be computed. -/
theorem sentcfg_sample_raises (pass : Except PyErr Unit) (sampleShape : List ℕ) : ¬ Answers (_root_.SentCFG.sample pass sampleShape) := by
  rintro ⟨v, h⟩
  unfold _root_.SentCFG.sample at h
  split at h
  · split_ifs at h
    cases pass <;> simp [bind, Except.bind, PyObj.method] at h
  · cases h

/-- **C74 (refutation).** `SentCFG.count` raises `TypeError`. -/
theorem sentcfg_count_raises (p : CKY.Scores ℝ) : SentCFG.count p = .error .type := rfl

/-- **C74 (refutation).** `SentCFG.cross_entropy` and `SentCFG.kl` raise `ValueError` for every pair of grammars. -/
theorem sentcfg_compare_raises (p q : CKY.Scores ℝ) : SentCFG.compare p q = .error .value := rfl

/-- **C74 (refutation).** `cross_entropy` and `kl` of `DependencyCRF` and `SemiMarkovCRF` raise `AttributeError` for every pair of tables. -/
theorem compare_raises (p q : DepTree.Arcs ℝ) (p' q' : T5 ℝ) (lengths : Option (List ℕ)) : DepTree.compare p q = .error .attribute ∧
    _root_.SemiMarkov.crossEntropy p' q' lengths = .error .attribute ∧ _root_.SemiMarkov.kl p' q' lengths = .error .attribute := ⟨rfl, rfl, rfl⟩

/-- **C74 (refutation).** Every query that `NonProjectiveDependencyCRF` inherits raises `AttributeError`. -/
theorem nonproj_inherited_raises (q : NonProj.Inherited) : NonProj.inherited q = .error .attribute := by
  cases q with
  | logProb v => cases v <;> rfl
  | _ => rfl

/-- **C74 (refutation).** `argmax` and `entropy` of `NonProjectiveDependencyCRF` raise nothing, but return `None` instead of a result. -/
theorem nonproj_silent : NonProj.silent = .ok none ∧ ¬ ∃ v, NonProj.silent = .ok (some v) := ⟨rfl, by rintro ⟨v, h⟩; cases h⟩

/-- **C74 (refutation).** `sample()` without an argument, whose default is the empty sample shape, raises for every distribution. -/
theorem sample_default_raises (pass : ℕ → List ℕ → ℕ) : _root_.Sampling.sample pass [] = .error .assertion := rfl

/-- **C74 (the part that holds).** `LinearChainCRF` answers `partition`, `max`, `entropy`, `marginals`, `kmax`, `cross_entropy` and `kl` for every valid
table (and every other table of the same shape). -/
theorem chain_answers_partial (p q : T4 ℝ) (lengths : Option (List ℕ)) (h : LinearChain.Valid p lengths) (k : ℕ)
    (hq : p.d0 = q.d0 ∧ p.d1 = q.d1 ∧ p.d2 = q.d2 ∧ p.d3 = q.d3) :
    Answers (Dist.partition _root_.LinearChain.algo p lengths) ∧ Answers (Dist.max _root_.LinearChain.algo p lengths) ∧
    Answers (Dist.entropy _root_.LinearChain.algo p lengths) ∧ Answers (Dist.marginals _root_.LinearChain.algo p lengths) ∧
    Answers (Dist.kmax _root_.LinearChain.algo p lengths k) ∧ Answers (_root_.LinearChain.crossEntropy p q lengths) ∧
    Answers (_root_.LinearChain.kl p q lengths) := by
  have run : ∀ {α : Type} (S : SR α) (x : T4 α), x.d0 = p.d0 → x.d1 = p.d1 → x.d2 = p.d2 → x.d3 = p.d3 →
      ∃ v, _root_.LinearChain.logpartition S x lengths = .ok v := by
    intro α S x h0 h1 h2 h3
    exact ⟨_, LinearChainProofs.logpartition_ok S x lengths (by rw [h2, h3]; exact h.square) (by rw [h1]; exact h.edges) (by rw [h0, h1]; exact h.lens)⟩
  have map : ∀ {α β : Type} {x : Except PyErr α} (f : α → β), (∃ v, x = .ok v) → ∃ v, x.map f = .ok v := by
    rintro α β x f ⟨v, rfl⟩; exact ⟨_, rfl⟩
  refine ⟨run _ _ rfl rfl rfl rfl, run _ _ rfl rfl rfl rfl, map _ (run _ _ rfl rfl rfl rfl), map _ (run _ _ rfl rfl rfl rfl), run _ _ rfl rfl rfl rfl, ?_, ?_⟩
  · rw [_root_.LinearChain.crossEntropy, _root_.LinearChain.pairPotentials, if_pos hq]
    exact map _ (run _ _ rfl rfl rfl rfl)
  · rw [_root_.LinearChain.kl, _root_.LinearChain.pairPotentials, if_pos hq]
    exact map _ (run _ _ rfl rfl rfl rfl)

/-- Non-vacuity: the example of `LinearChainCRF`. -/
example : Answers (_root_.LinearChain.kl LinearChain.sample LinearChain.sample (some [3, 2])) :=
  (chain_answers_partial _ _ _ LinearChain.sample_valid 3 ⟨rfl, rfl, rfl, rfl⟩).2.2.2.2.2.2

end Props.Queries
