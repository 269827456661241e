import Verif.Proofs.Signs
import Verif.Props.Consistency
import Verif.Props.LinearChainEvents
import Verif.Props.Dependency

/-! C84: signs and sizes of the returned numbers.

All statements are about the returned numbers, with no error terms, for all potentials and lengths (also lengths that the code rejects). -/

open Semirings Consistency

noncomputable section
namespace Props.Signs
open Props.Consistency

/-! ### `0 ≤ partition - max ≤ entropy` -/

theorem entropy_of {A : Algo} {good : ∀ {γ : Type}, A.T γ → Prop} (P : Parametric A good) (p : A.T ℝ) (h : good p) (lengths : Option (List ℕ)) :
    RelE (fun d e => 0 ≤ d ∧ d ≤ e) (difference (Dist.partition A p lengths) (Dist.max A p lengths)) (Dist.entropy A p lengths) := by
  have h1 := P.run _root_.Signs.entropy_ge p h entropyConvert (fun x => (x, x)) (fun x => by simp [entropyConvert]) lengths
  have h2 := P.run (prod_fst Semirings.log Semirings.max) p h (fun x => (x, x)) (fun x => x) (fun _ => rfl) lengths
  have h3 := P.run (prod_snd Semirings.log Semirings.max) p h (fun x => (x, x)) (fun x => x) (fun _ => rfl) lengths
  rw [P.map_id] at h2 h3
  unfold Dist.partition Dist.max Dist.entropy
  have h2 := RelE.map_eq h2
  have h3 := RelE.map_eq h3
  rw [← h2, ← h3]
  rw [show Semirings.entropy = entropyZ negInf from rfl]
  revert h1
  generalize A.run (entropyZ negInf) (A.map entropyConvert p) lengths = x
  generalize A.run (prod Semirings.log Semirings.max) (A.map (fun x => (x, x)) p) lengths = y
  intro h1
  rcases x with e | as <;> rcases y with e' | bs
  · have h1 : e = e' := h1
    subst h1; rfl
  · exact h1.elim
  · exact h1.elim
  · have h1 : List.Forall₂ (fun (a : ℝ × ℝ) (x : ℝ × ℝ) => a.1 = x.1 ∧ x.2 ≤ x.1 ∧ x.1 - x.2 ≤ a.2) as bs := h1
    show List.Forall₂ _ (List.zipWith _ (bs.map _) (bs.map _)) (as.map _)
    rw [List.zipWith_map, List.zipWith_self, List.forall₂_map_left_iff, List.forall₂_map_right_iff]
    exact h1.flip.imp fun b a h => ⟨by linarith [h.2.1], h.2.2⟩

/-- **C84, `LinearChainCRF`.** `0 ≤ partition - max ≤ entropy` in every row: the entropy is at least minus the log-probability of the best sequence, and at least 0. -/
theorem chain_entropy (p : T4 ℝ) (lengths : Option (List ℕ)) (h : 0 < p.d2) : RelE (fun d e => 0 ≤ d ∧ d ≤ e)
    (difference (Dist.partition LinearChain.algo p lengths) (Dist.max LinearChain.algo p lengths)) (Dist.entropy LinearChain.algo p lengths) :=
  entropy_of LinearChain.parametric p h lengths

/-- **C84, `TreeCRF`.** -/
theorem tree_entropy (p : T4 ℝ) (lengths : Option (List ℕ)) (h : 0 < p.d3) (hb : 0 < p.d0) : RelE (fun d e => 0 ≤ d ∧ d ≤ e)
    (difference (Dist.partition CKYCRF.algo p lengths) (Dist.max CKYCRF.algo p lengths)) (Dist.entropy CKYCRF.algo p lengths) :=
  entropy_of CKYCRF.parametric p ⟨h, hb⟩ lengths

/-- **C84, `SemiMarkovCRF`.** -/
theorem semimarkov_entropy (p : T5 ℝ) (lengths : Option (List ℕ)) (h : 0 < p.d3) : RelE (fun d e => 0 ≤ d ∧ d ≤ e)
    (difference (Dist.partition SemiMarkov.algo p lengths) (Dist.max SemiMarkov.algo p lengths)) (Dist.entropy SemiMarkov.algo p lengths) :=
  entropy_of SemiMarkov.parametric p h lengths

/-- **C84, `SentCFG`.** -/
theorem cfg_entropy (p : CKY.Scores ℝ) (lengths : Option (List ℕ)) : RelE (fun d e => 0 ≤ d ∧ d ≤ e)
    (difference (Dist.partition CKY.algo p lengths) (Dist.max CKY.algo p lengths)) (Dist.entropy CKY.algo p lengths) :=
  entropy_of CKY.parametric p trivial lengths

theorem convert_labels {q p : DepTree.Arcs ℝ} (h : 0 < q.labels) (hc : DepTree.convert DepTree.negBig q = .ok p) : 0 < p.labels := by
  unfold DepTree.convert at hc
  split_ifs at hc
  cases hc
  exact h

/-- **C84, `DependencyCRF`**, with and without labels, several roots or one. -/
theorem dep_entropy (mr : Bool) (q : DepTree.Arcs ℝ) (lengths : Option (List ℕ)) (h : 0 < q.labels) : RelE (fun d e => 0 ≤ d ∧ d ≤ e)
    (difference (DepTree.partition mr q lengths) (DepTree.max mr q lengths)) (DepTree.entropy mr q lengths) := by
  unfold DepTree.max DepTree.partition DepTree.entropy
  rcases hc : DepTree.convert DepTree.negBig q with e | p
  · exact RelE.error e
  · exact entropy_of (DepTree.parametric mr) p (convert_labels h hc) lengths

/-! ### Divergence and cross entropy -/

/-- All returned numbers are at least 0. -/
def NonNeg (x : Except PyErr (List ℝ)) : Prop := ∀ vs, x = .ok vs → ∀ v ∈ vs, 0 ≤ v

theorem nonneg_of {α β : Type} {x : Except PyErr (List α)} {y : Except PyErr (List β)} {ρ : α → β → Prop} (h : RelE ρ x y) {f : α → ℝ}
    (hf : ∀ a b, ρ a b → 0 ≤ f a) : NonNeg (x.map (List.map f)) := by
  intro vs hv v hm
  rcases x with e | as <;> rcases y with e' | bs
  · cases hv
  · cases hv
  · exact h.elim
  · obtain rfl := Except.ok.inj hv
    obtain ⟨a, ha, rfl⟩ := List.mem_map.1 hm
    obtain ⟨b, -, hr⟩ := exists_rel (show List.Forall₂ ρ as bs from h) ha
    exact hf a b hr

/-- **C84, `LinearChainCRF`.** `kl(p, q) ≥ 0`. -/
theorem chain_kl_nonneg (p q : T4 ℝ) (lengths : Option (List ℕ)) (h : 0 < p.d2) : NonNeg (LinearChain.kl p q lengths) := by
  by_cases hs : p.d0 = q.d0 ∧ p.d1 = q.d1 ∧ p.d2 = q.d2 ∧ p.d3 = q.d3
  · have e : LinearChain.pairPotentials p q = .ok (LinearChain.algo.map pairConvert ⟨p.d0, p.d1, p.d2, p.d3, fun a b c d => (p.get a b c d, q.get a b c d)⟩) := if_pos hs
    unfold LinearChain.kl
    rw [e]
    exact nonneg_of (LinearChain.parametric.run (_root_.Signs.kl_nonneg negInf) (⟨p.d0, p.d1, p.d2, p.d3, fun a b c d => (p.get a b c d, q.get a b c d)⟩ : T4 (ℝ × ℝ)) h pairConvert
      (fun x => x.1) (fun x => by simp [pairConvert]) lengths) fun a b h => h.2
  · have e : LinearChain.pairPotentials p q = .error .runtime := if_neg hs
    unfold LinearChain.kl
    rw [e]
    intro vs hv; cases hv

/-- **C84, `TreeCRF`.** `kl(p, q) ≥ 0`. -/
theorem tree_kl_nonneg (p q : T4 ℝ) (lengths : Option (List ℕ)) (h : 0 < p.d3) (hb : 0 < p.d0) : NonNeg (CKYCRF.kl p q lengths) := by
  by_cases hs : p.d0 = q.d0 ∧ p.d1 = q.d1 ∧ p.d2 = q.d2 ∧ p.d3 = q.d3
  · have e : LinearChain.pairPotentials p q = .ok (CKYCRF.algo.map pairConvert ⟨p.d0, p.d1, p.d2, p.d3, fun a b c d => (p.get a b c d, q.get a b c d)⟩) := if_pos hs
    unfold CKYCRF.kl
    rw [e]
    exact nonneg_of (CKYCRF.parametric.run (_root_.Signs.kl_nonneg negInf) (⟨p.d0, p.d1, p.d2, p.d3, fun a b c d => (p.get a b c d, q.get a b c d)⟩ : T4 (ℝ × ℝ)) ⟨h, hb⟩ pairConvert
      (fun x => x.1) (fun x => by simp [pairConvert]) lengths) fun a b h => h.2
  · have e : LinearChain.pairPotentials p q = .error .runtime := if_neg hs
    unfold CKYCRF.kl
    rw [e]
    intro vs hv; cases hv

theorem map_rel {α β : Type} {x : Except PyErr (List α)} {y : Except PyErr (List β)} {ρ : α → β → Prop} (H : RelE ρ x y) {f : α → ℝ} {g : β → ℝ} {σ : ℝ → ℝ → Prop}
    (hfg : ∀ a b, ρ a b → σ (f a) (g b)) : RelE σ (x.map (List.map f)) (y.map (List.map g)) := by
  rcases x with e | as <;> rcases y with e' | bs
  · exact H
  · exact H.elim
  · exact H.elim
  · show List.Forall₂ σ (as.map f) (bs.map g)
    rw [List.forall₂_map_left_iff, List.forall₂_map_right_iff]
    exact (show List.Forall₂ ρ as bs from H).imp hfg

/-- **C84, `LinearChainCRF`.** `entropy(p) ≤ cross_entropy(p, q)`, for two tables of the same shape. -/
theorem chain_crossEntropy_ge (p q : T4 ℝ) (lengths : Option (List ℕ)) (h : 0 < p.d2) (hs : SameShape4 p q) :
    RelE (· ≤ ·) (Dist.entropy LinearChain.algo p lengths) (LinearChain.crossEntropy p q lengths) := by
  have e : LinearChain.pairPotentials p q = .ok (LinearChain.algo.map pairConvert ⟨p.d0, p.d1, p.d2, p.d3, fun a b c d => (p.get a b c d, q.get a b c d)⟩) :=
    if_pos ⟨hs.1.symm, hs.2.1.symm, hs.2.2.1.symm, hs.2.2.2.symm⟩
  unfold LinearChain.crossEntropy Dist.entropy
  rw [e]
  exact map_rel (LinearChain.parametric.run (_root_.Signs.ce_ge negInf) (⟨p.d0, p.d1, p.d2, p.d3, fun a b c d => (p.get a b c d, q.get a b c d)⟩ : T4 (ℝ × ℝ)) h
    (fun x => entropyConvert x.1) pairConvert (fun x => by simp [pairConvert, entropyConvert]) lengths) fun a b h => h.2

/-- **C84, `TreeCRF`.** `entropy(p) ≤ cross_entropy(p, q)`, for two tables of the same shape. -/
theorem tree_crossEntropy_ge (p q : T4 ℝ) (lengths : Option (List ℕ)) (h : 0 < p.d3) (hb : 0 < p.d0) (hs : SameShape4 p q) :
    RelE (· ≤ ·) (Dist.entropy CKYCRF.algo p lengths) (CKYCRF.crossEntropy p q lengths) := by
  have e : LinearChain.pairPotentials p q = .ok (CKYCRF.algo.map pairConvert ⟨p.d0, p.d1, p.d2, p.d3, fun a b c d => (p.get a b c d, q.get a b c d)⟩) :=
    if_pos ⟨hs.1.symm, hs.2.1.symm, hs.2.2.1.symm, hs.2.2.2.symm⟩
  unfold CKYCRF.crossEntropy Dist.entropy
  rw [e]
  exact map_rel (CKYCRF.parametric.run (_root_.Signs.ce_ge negInf) (⟨p.d0, p.d1, p.d2, p.d3, fun a b c d => (p.get a b c d, q.get a b c d)⟩ : T4 (ℝ × ℝ)) ⟨h, hb⟩
    (fun x => entropyConvert x.1) pairConvert (fun x => by simp [pairConvert, entropyConvert]) lengths) fun a b h => h.2

/-! ### Marginals -/

theorem marginals_of {A : Algo} {good : ∀ {γ : Type}, A.T γ → Prop} (P : Parametric A good) (p : A.T ℝ) (h : good (A.index p)) (lengths : Option (List ℕ)) (μ : List ℕ → ℝ)
    (hμ : Dist.marginals A p lengths = .ok μ) (e : List ℕ) : 0 ≤ μ e := by
  have H := P.run (_root_.Signs.grad_nonneg (E := List ℕ) negInf) (A.index p) h (fun q : ℝ × List ℕ => Autograd.leaf q.1 q.2) (fun q => q.1)
    (fun q => ⟨rfl, fun e => by simp only [Autograd.leaf, Pi.single_apply]; split_ifs <;> norm_num⟩) lengths
  unfold Dist.marginals Dist.leaves at hμ
  rw [show Autograd.log = Autograd.logZ negInf from rfl] at hμ
  revert H hμ
  generalize A.run (Autograd.logZ negInf) (A.map (fun q : ℝ × List ℕ => Autograd.leaf q.1 q.2) (A.index p)) lengths = x
  generalize A.run (logZ negInf) (A.map (fun q : ℝ × List ℕ => q.1) (A.index p)) lengths = y
  intro hμ H
  rcases x with e | as
  · cases hμ
  · rcases y with e' | bs
    · exact H.elim
    · obtain rfl := Except.ok.inj hμ
      have H : List.Forall₂ (fun (g : Autograd.Grad (List ℕ)) (x : ℝ) => g.1 = x ∧ ∀ e, 0 ≤ g.2 e) as bs := H
      unfold Dist.gradOfSum
      clear hμ h
      rename_i H0
      clear H0
      induction H with
      | nil => simp
      | cons h _ ih =>
        rw [List.map_cons, List.sum_cons]
        exact add_nonneg (h.2 e) ih

/-- **C84, `LinearChainCRF`.** No entry of `marginals` is negative. -/
theorem chain_marginals (p : T4 ℝ) (lengths : Option (List ℕ)) (h : 0 < p.d2) (μ : List ℕ → ℝ) (hμ : Dist.marginals LinearChain.algo p lengths = .ok μ) (e : List ℕ) : 0 ≤ μ e :=
  marginals_of LinearChain.parametric p h lengths μ hμ e

/-- **C84, `TreeCRF`.** -/
theorem tree_marginals (p : T4 ℝ) (lengths : Option (List ℕ)) (h : 0 < p.d3) (hb : 0 < p.d0) (μ : List ℕ → ℝ) (hμ : Dist.marginals CKYCRF.algo p lengths = .ok μ) (e : List ℕ) : 0 ≤ μ e :=
  marginals_of CKYCRF.parametric p ⟨h, hb⟩ lengths μ hμ e

/-- **C84, `SemiMarkovCRF`.** -/
theorem semimarkov_marginals (p : T5 ℝ) (lengths : Option (List ℕ)) (h : 0 < p.d3) (μ : List ℕ → ℝ) (hμ : Dist.marginals SemiMarkov.algo p lengths = .ok μ) (e : List ℕ) : 0 ≤ μ e :=
  marginals_of SemiMarkov.parametric p h lengths μ hμ e

/-- **C84, `DependencyCRF`.** -/
theorem dep_marginals (mr : Bool) (q : DepTree.Arcs ℝ) (lengths : Option (List ℕ)) (h : 0 < q.labels) (μ : List ℕ → ℝ) (hμ : DepTree.marginals mr q lengths = .ok μ) (e : List ℕ) : 0 ≤ μ e := by
  unfold DepTree.marginals at hμ
  rcases hc : DepTree.convert DepTree.negBig q with x | p
  · rw [hc] at hμ; cases hμ
  · rw [hc] at hμ
    exact marginals_of (DepTree.parametric mr) p (convert_labels h hc) lengths μ hμ e

/-- **C84, `SentCFG`.** No entry of the four tables of `marginals` is negative. -/
theorem cfg_marginals (p : CKY.Scores ℝ) (lengths : Option (List ℕ)) (m : CKY.Marginals) (hm : CKY.marginals p lengths = .ok m) :
    (∀ b n t, 0 ≤ m.term b n t) ∧ (∀ b x y z, 0 ≤ m.rule b x y z) ∧ (∀ b x, 0 ≤ m.root b x) ∧ ∀ b w i x, 0 ≤ m.spans b w i x := by
  unfold CKY.marginals at hm
  split_ifs at hm
  rcases hr : Dist.marginals CKY.algo (CKY.marked p) lengths with e | μ
  · rw [hr] at hm; cases hm
  · rw [hr] at hm
    obtain rfl := Except.ok.inj hm
    have := marginals_of CKY.parametric (CKY.marked p) trivial lengths μ hr
    refine ⟨fun _ _ _ => this _, fun _ _ _ _ => this _, fun _ _ => this _, fun _ _ _ _ => ?_⟩
    show 0 ≤ CKY.arrangeSpans _ _ _ _ _ _
    unfold CKY.arrangeSpans
    split_ifs
    · exact this _
    · exact le_refl _

/-! ### Probabilities are at most 1 -/

theorem prob_le_one {ι : Type} [Fintype ι] (s : ι → ℝ) (y : ι) : Spec.Gibbs.prob s y ≤ 1 := by
  have h : Real.exp (s y) ≤ Spec.Gibbs.Z s := Finset.single_le_sum (f := fun y => Real.exp (s y)) (fun _ _ => (Real.exp_pos _).le) (Finset.mem_univ y)
  exact div_le_one_of_le₀ h ((Real.exp_pos _).le.trans h)

/-- The call returns a number that is at most 0. -/
def NonPos (x : Except PyErr ℝ) : Prop := ∃ v, x = .ok v ∧ v ≤ 0

open Props.LinearChain in
/-- **C84, `LinearChainCRF`.** `log_prob` of the event of a tag sequence is at most 0. -/
theorem chain_logProb (p : T4 ℝ) (lengths : Option (List ℕ)) (h : Props.LinearChain.Valid p lengths) (hpos : ∀ l, lengths = some l → ∀ x ∈ l, 1 ≤ x) (s : T2 ℕ)
    (hs0 : s.d0 = p.d0) (hs1 : s.d1 = p.d1 + 1) (hC : Classes s p.d2) : ∃ e, _root_.LinearChain.toParts s p.d2 lengths = .ok e ∧
      ∀ b < p.d0, ∀ y : Spec.Tags (numEdges p lengths b) p.d2, IsRow s b y → NonPos (_root_.LinearChain.logProb p lengths b fun n i j => e.get b n i j) := by
  obtain ⟨vs, e, h1, h2, h3, h4⟩ := logProb_event p lengths h hpos s hs0 hs1 hC
  refine ⟨e, h3, fun b hb y hy => ⟨_, h4 b (by omega) y hy, ?_⟩⟩
  obtain ⟨ws, g1, g2, g3⟩ := partition_closed_form p lengths h
  obtain rfl : ws = vs := Except.ok.inj (g1.symm.trans h1)
  rw [g3 b (by omega), sub_nonpos]
  have k1 : 0 ≤ Real.log (1 + (2 * p.d2 - 1 : ℕ) * Real.exp (-100000)) := Real.log_nonneg (by
    have : 0 ≤ ((2 * p.d2 - 1 : ℕ) : ℝ) * Real.exp (-100000) := by positivity
    linarith)
  have k2 : Spec.seqScore (row p b) y ≤ Real.log (Spec.chainSum (numEdges p lengths b) fun n i j => Real.exp (row p b n i j) + Real.exp (-100000)) := by
    have k3 : Real.exp (Spec.seqScore (row p b) y) ≤ Spec.chainSum (numEdges p lengths b) fun n i j => Real.exp (row p b n i j) + Real.exp (-100000) := by
      unfold Spec.chainSum
      refine le_trans ?_ (Finset.single_le_sum (f := fun y => Spec.seqProd (fun n i j => Real.exp (row p b n i j) + Real.exp (-100000)) y)
        (fun z _ => Finset.prod_nonneg fun n _ => by positivity) (Finset.mem_univ y))
      unfold Spec.seqScore Spec.seqProd
      rw [Real.exp_sum]
      refine Finset.prod_le_prod (fun n _ => (Real.exp_pos _).le) fun n _ => ?_
      have := Real.exp_pos (-100000)
      linarith
    rw [← Real.log_exp (Spec.seqScore (row p b) y)]
    exact Real.log_le_log (Real.exp_pos _) k3
  have : 0 ≤ ((2 ^ Nat.clog 2 p.d1 - numEdges p lengths b : ℕ) : ℝ) * Real.log (1 + (2 * p.d2 - 1 : ℕ) * Real.exp (-100000)) := mul_nonneg (Nat.cast_nonneg _) k1
  linarith

/-- **C84, `TreeCRF`.** -/
theorem tree_logProb (p : T4 ℝ) (lengths : Option (List ℕ)) (h : Props.TreeCRF.Valid p lengths) (b : ℕ) (hb : b < p.d0) (t : Spec.Trees p.d3 (Props.TreeCRF.len p lengths b)) :
    NonPos (CKYCRF.logProb p lengths b (Props.TreeCRF.event t)) :=
  ⟨_, Props.TreeCRF.logProb_spec p lengths h b hb t, Real.log_nonpos (Spec.Gibbs.prob_nonneg _ _) (prob_le_one _ _)⟩

/-- **C84, `DependencyCRF` without labels.** -/
theorem dep_logProb (mr : Bool) (q : DepTree.Arcs ℝ) (lengths : Option (List ℕ)) (h : Props.Dependency.Valid mr q lengths) (b : ℕ) (hb : b < q.d0)
    (t : Spec.ProjTrees mr (Props.Dependency.len q lengths b)) : NonPos (DepTree.logProb mr q lengths b (Props.Dependency.event t)) :=
  ⟨_, Props.Dependency.logProb_spec mr q lengths h b hb t, Real.log_nonpos (Spec.Gibbs.prob_nonneg _ _) (prob_le_one _ _)⟩

/-- **C84, `DependencyCRF` with labels.** -/
theorem lab_logProb (mr : Bool) (q : DepTree.Arcs ℝ) (lengths : Option (List ℕ)) (h : Props.LabelledDependency.Valid mr q lengths) (b : ℕ) (hb : b < q.d0)
    (t : Spec.LabelledTrees mr (Props.LabelledDependency.len q lengths b) q.d3) : NonPos (DepTree.logProb mr q lengths b (Props.LabelledDependency.event t)) :=
  ⟨_, Props.LabelledDependency.logProb_spec mr q lengths h b hb t, Real.log_nonpos (Spec.Gibbs.prob_nonneg _ _) (prob_le_one _ _)⟩

open Props.SemiMarkov in
/-- **C84, `SemiMarkovCRF`.** -/
theorem semimarkov_logProb (p : T5 ℝ) (lengths : Option (List ℕ)) (h : Props.SemiMarkov.Valid p lengths) (b : ℕ) (hb : b < p.d0) (y : Seg p lengths b) :
    NonPos (_root_.SemiMarkov.logProb p lengths b (event y)) := by
  obtain ⟨vs, h1, h2, h3⟩ := truth_le p lengths h
  refine ⟨_, logProb_spec p lengths h b y h1, ?_⟩
  rw [List.getD_eq_getElem _ _ (by omega), sub_nonpos]
  refine le_trans ?_ (h3 b (by omega))
  rw [← Real.log_exp (Spec.segScore (row p b) y)]
  exact Real.log_le_log (Real.exp_pos _) (Finset.single_le_sum (f := fun y => Real.exp (Spec.segScore (row p b) y)) (fun _ _ => (Real.exp_pos _).le) (Finset.mem_univ y))

/-! ### Upper bounds by the number of structures

`TreeCRF` and `DependencyCRF` never use the stand-in `-1e5`, so the bounds hold without error terms. -/

theorem entropy_le_card {ι : Type} [Fintype ι] [Nonempty ι] (s : ι → ℝ) : Spec.Gibbs.entropy s ≤ Real.log (Fintype.card ι) := by
  have h := Spec.Gibbs.kl_nonneg s fun _ => 0
  rw [Spec.Gibbs.kl_eq_sub, Spec.Gibbs.crossEntropy_eq] at h
  simp only [Spec.Gibbs.Z, Spec.Gibbs.expect, mul_zero, Finset.sum_const_zero, Real.exp_zero, Finset.sum_const, Finset.card_univ, nsmul_eq_mul, mul_one, sub_zero] at h
  linarith

theorem log_le_card {ι : Type} [Fintype ι] [Nonempty ι] (s : ι → ℝ) {M : ℝ} (hM : ∀ y, s y ≤ M) : Real.log (∑ y, Real.exp (s y)) - M ≤ Real.log (Fintype.card ι) := by
  have h : ∑ y, Real.exp (s y) ≤ Fintype.card ι * Real.exp M := by
    refine (Finset.sum_le_card_nsmul _ _ (Real.exp M) fun y _ => Real.exp_le_exp.2 (hM y)).trans ?_
    rw [Finset.card_univ, nsmul_eq_mul]
  have h0 : 0 < ∑ y, Real.exp (s y) := Finset.sum_pos (fun _ _ => Real.exp_pos _) Finset.univ_nonempty
  have := Real.log_le_log h0 h
  rw [Real.log_mul (by positivity) (Real.exp_pos M).ne', Real.log_exp] at this
  linarith

theorem difference_ok {f : ℕ → ℝ} {B : ℕ} {x y : Except PyErr (List ℝ)} {vs : List ℝ} (hx : x = .ok ((List.range B).map f)) (hy : y = .ok vs) (hv : vs.length = B)
    {z : Except PyErr (List ℝ)} {c : ℕ → ℝ} (hz : z = .ok ((List.range B).map c)) {ρ : ℝ → ℝ → Prop} (h : ∀ b (hb : b < vs.length), ρ (f b - vs[b]) (c b)) :
    RelE ρ (difference x y) z := by
  subst hx hy hz
  show List.Forall₂ ρ (List.zipWith _ _ _) _
  rw [List.forall₂_iff_get]
  subst hv
  refine ⟨by simp, fun i h1 h2 => ?_⟩
  have hi : i < vs.length := by simpa using h2
  simpa using h i hi

/-- The number of labelled binary trees of every row: what `TreeCRF(..).count` returns, as all potentials are finite. -/
theorem tree_count (p : T4 ℝ) (lengths : Option (List ℕ)) (h : Props.TreeCRF.Valid p lengths) :
    Dist.count CKYCRF.algo lengths (CKYCRF.algo.map (fun x : ℝ => (x : EReal)) p) =
      .ok ((List.range p.d0).map fun b => ((Fintype.card (Spec.Trees p.d3 (Props.TreeCRF.len p lengths b)) : ℕ) : ℝ)) := by
  refine (Props.TreeCRF.count_spec _ lengths (show Props.TreeCRF.Valid (CKYCRF.algo.map (fun x : ℝ => (x : EReal)) p) lengths from ⟨h.square, h.words, h.labels, h.lens⟩)).trans ?_
  congr 1
  refine List.map_congr_left fun b _ => ?_
  congr 1
  exact congrArg Finset.card (Finset.filter_true_of_mem fun t _ s _ => EReal.coe_ne_bot _)

/-- **C84, `TreeCRF`.** `partition ≤ max + log count` and `entropy ≤ log count`, for every row. -/
theorem tree_card (p : T4 ℝ) (lengths : Option (List ℕ)) (h : Props.TreeCRF.Valid p lengths) :
    RelE (fun d c => d ≤ Real.log c) (difference (Dist.partition CKYCRF.algo p lengths) (Dist.max CKYCRF.algo p lengths))
      (Dist.count CKYCRF.algo lengths (CKYCRF.algo.map (fun x : ℝ => (x : EReal)) p)) ∧
    RelE (fun e c => e ≤ Real.log c) (Dist.entropy CKYCRF.algo p lengths) (Dist.count CKYCRF.algo lengths (CKYCRF.algo.map (fun x : ℝ => (x : EReal)) p)) := by
  obtain ⟨vs, h1, h2, h3⟩ := Props.TreeCRF.max_spec p lengths h
  constructor
  · refine difference_ok (Props.TreeCRF.partition_spec p lengths h) h1 h2 (tree_count p lengths h) fun b hb => ?_
    have := Props.TreeCRF.trees_nonempty p lengths h b (by omega)
    exact log_le_card _ (h3 b hb).2
  · rw [Props.TreeCRF.entropy_spec p lengths h, tree_count p lengths h]
    refine RelE.ok_range fun b hb => ?_
    have := Props.TreeCRF.trees_nonempty p lengths h b hb
    exact entropy_le_card _

open Classical in
/-- The number of trees of every row: what `DependencyCRF(..).count` returns, as all potentials are finite. -/
theorem dep_count (mr : Bool) (q : DepTree.Arcs ℝ) (lengths : Option (List ℕ)) (h : Props.Dependency.Valid mr q lengths) :
    DepTree.count mr lengths ((DepTree.algo mr).map (fun x : ℝ => (x : EReal)) q) =
      .ok ((List.range q.d0).map fun b => ((Fintype.card (Spec.ProjTrees mr (Props.Dependency.len q lengths b)) : ℕ) : ℝ)) := by
  refine (Props.Dependency.count_spec mr _ lengths (show Props.Dependency.Valid mr ((DepTree.algo mr).map (fun x : ℝ => (x : EReal)) q) lengths from ⟨h.rank, h.square, h.batch, h.words, h.lens⟩)).trans ?_
  congr 1
  refine List.map_congr_left fun b _ => ?_
  congr 1
  exact congrArg Finset.card (Finset.filter_true_of_mem fun t _ i j _ => EReal.coe_ne_bot _)

/-- **C84, `DependencyCRF` without labels.** `partition ≤ max + log count` and `entropy ≤ log count`, for every row. -/
theorem dep_card (mr : Bool) (q : DepTree.Arcs ℝ) (lengths : Option (List ℕ)) (h : Props.Dependency.Valid mr q lengths) :
    RelE (fun d c => d ≤ Real.log c) (difference (DepTree.partition mr q lengths) (DepTree.max mr q lengths))
      (DepTree.count mr lengths ((DepTree.algo mr).map (fun x : ℝ => (x : EReal)) q)) ∧
    RelE (fun e c => e ≤ Real.log c) (DepTree.entropy mr q lengths) (DepTree.count mr lengths ((DepTree.algo mr).map (fun x : ℝ => (x : EReal)) q)) := by
  obtain ⟨vs, h1, h2, h3⟩ := Props.Dependency.max_spec mr q lengths h
  constructor
  · refine difference_ok (Props.Dependency.partition_spec mr q lengths h) h1 h2 (dep_count mr q lengths h) fun b hb => ?_
    have := Props.Dependency.trees_nonempty h b (by omega)
    exact log_le_card _ (h3 b hb).2
  · rw [Props.Dependency.entropy_spec mr q lengths h, dep_count mr q lengths h]
    refine RelE.ok_range fun b hb => ?_
    have := Props.Dependency.trees_nonempty h b hb
    exact entropy_le_card _

open Classical in
/-- The number of labelled trees of every row. -/
theorem lab_count (mr : Bool) (q : DepTree.Arcs ℝ) (lengths : Option (List ℕ)) (h : Props.LabelledDependency.Valid mr q lengths) :
    DepTree.count mr lengths ((DepTree.algo mr).map (fun x : ℝ => (x : EReal)) q) =
      .ok ((List.range q.d0).map fun b => ((Fintype.card (Spec.LabelledTrees mr (Props.LabelledDependency.len q lengths b) q.d3) : ℕ) : ℝ)) := by
  refine (Props.LabelledDependency.count_spec mr _ lengths
    (show Props.LabelledDependency.Valid mr ((DepTree.algo mr).map (fun x : ℝ => (x : EReal)) q) lengths from ⟨h.rank, h.labels, h.square, h.batch, h.words, h.lens⟩)).trans ?_
  congr 1
  refine List.map_congr_left fun b _ => ?_
  congr 1
  exact congrArg Finset.card (Finset.filter_true_of_mem fun t _ i j l _ => EReal.coe_ne_bot _)

/-- **C84, `DependencyCRF` with labels.** `partition ≤ max + log count` and `entropy ≤ log count`, for every row. -/
theorem lab_card (mr : Bool) (q : DepTree.Arcs ℝ) (lengths : Option (List ℕ)) (h : Props.LabelledDependency.Valid mr q lengths) :
    RelE (fun d c => d ≤ Real.log c) (difference (DepTree.partition mr q lengths) (DepTree.max mr q lengths))
      (DepTree.count mr lengths ((DepTree.algo mr).map (fun x : ℝ => (x : EReal)) q)) ∧
    RelE (fun e c => e ≤ Real.log c) (DepTree.entropy mr q lengths) (DepTree.count mr lengths ((DepTree.algo mr).map (fun x : ℝ => (x : EReal)) q)) := by
  obtain ⟨vs, h1, h2, h3⟩ := Props.LabelledDependency.max_spec mr q lengths h
  constructor
  · refine difference_ok (Props.LabelledDependency.partition_spec mr q lengths h) h1 h2 (lab_count mr q lengths h) fun b hb => ?_
    have := Props.LabelledDependency.trees_nonempty h b (by omega)
    exact log_le_card _ (h3 b hb).2
  · rw [Props.LabelledDependency.entropy_spec mr q lengths h, lab_count mr q lengths h]
    refine RelE.ok_range fun b hb => ?_
    have := Props.LabelledDependency.trees_nonempty h b hb
    exact entropy_le_card _

/-! ### The hypotheses are met -/

example : 0 < Props.LinearChain.sample.d2 := by decide
example : SameShape4 Props.LinearChain.sample (LinearChain.algo.map (fun x => x + 1) Props.LinearChain.sample) := ⟨rfl, rfl, rfl, rfl⟩
example : Props.TreeCRF.Valid Props.TreeCRF.sample (some [3, 2]) := Props.TreeCRF.sample_valid
example (mr : Bool) : Props.Dependency.Valid mr Props.Dependency.sample (some [3, 2]) := Props.Dependency.sample_valid mr
example (mr : Bool) : Props.LabelledDependency.Valid mr Props.LabelledDependency.sample (some [3, 2]) := Props.LabelledDependency.sample_valid mr
example : Props.SemiMarkov.Valid Props.SemiMarkov.sample (some [4, 3]) := Props.SemiMarkov.sample_valid

end Props.Signs
