import Mathlib.Algebra.Tropical.BigOperators
import Verif.Proofs.Symmetry
import Verif.Props.LinearChainEntropy
import Verif.Props.LabelledDependency
import Verif.Props.NonProj
import Verif.Props.SemiMarkov
import Verif.Props.SentCFG
import Verif.Props.TreeCRF

/-! Property theorems C83: the names of the tags, classes, labels and symbols do not matter, nor does the direction in which a chain is read, nor the order of
the words of a non-projective tree. -/

open Spec Symmetry

noncomputable section
namespace Props.Symmetry

variable {σ τ : ℕ → ℕ}

/-! ### The scores of events -/

theorem sum_range_rename {n : ℕ} (h : Renames σ n) (f : ℕ → ℝ) : ((List.range n).map fun i => f (σ i)).sum = ((List.range n).map f).sum :=
  (map_range h f).sum_eq

theorem score_eq {ι : Type} (l : List ι) (f g : ι → ℝ) : Struct.score (l.map f) (l.map g) = (l.map fun x => f x * g x).sum := by
  rw [Struct.score, List.zipWith_map, List.zipWith_self]

theorem sum_flatMap {ι κ : Type} (l : List ι) (g : ι → List κ) (f : κ → ℝ) : ((l.flatMap g).map f).sum = (l.map fun i => ((g i).map f).sum).sum := by
  induction l with
  | nil => rfl
  | cons a l ih => rw [List.flatMap_cons, List.map_append, List.sum_append, ih, List.map_cons, List.sum_cons]

/-! ### LinearChainCRF (and HMM) -/

/-- **C83, `LinearChainCRF`.** Renaming the tags changes no answer: `partition`, `max`, `kmax`, `entropy` and `count` are the same, and raise in the same cases. -/
theorem chain_queries (p : T4 ℝ) (lengths : Option (List ℕ)) (h : Renames σ p.d2) :
    Dist.partition LinearChain.algo (renameTags σ p) lengths = Dist.partition LinearChain.algo p lengths ∧
    Dist.max LinearChain.algo (renameTags σ p) lengths = Dist.max LinearChain.algo p lengths ∧
    (∀ k, Dist.kmax LinearChain.algo (renameTags σ p) lengths k = Dist.kmax LinearChain.algo p lengths k) ∧
    Dist.entropy LinearChain.algo (renameTags σ p) lengths = Dist.entropy LinearChain.algo p lengths :=
  ⟨chain _ (orderFree_log _) p lengths h, chain _ orderFree_max p lengths h,
    fun k => chain _ (orderFree_kmax k) (LinearChain.algo.map (Semirings.kmaxConvert k) p) lengths h,
    congrArg (Except.map (List.map Prod.snd)) (chain _ (orderFree_entropy _) (LinearChain.algo.map Semirings.entropyConvert p) lengths h)⟩

theorem chain_count (p : T4 EReal) (lengths : Option (List ℕ)) (h : Renames σ p.d2) :
    Dist.count LinearChain.algo lengths (renameTags σ p) = Dist.count LinearChain.algo lengths p :=
  chain _ (orderFree_std ℝ) (LinearChain.algo.map (fun v : EReal => if v = ⊥ then (0 : ℝ) else 1) p) lengths h

/-- ... `cross_entropy` and `kl` of two distributions whose tags are renamed in the same way ... -/
theorem chain_pair (p q : T4 ℝ) (lengths : Option (List ℕ)) (h : Renames σ p.d2) :
    LinearChain.crossEntropy (renameTags σ p) (renameTags σ q) lengths = LinearChain.crossEntropy p q lengths ∧
    LinearChain.kl (renameTags σ p) (renameTags σ q) lengths = LinearChain.kl p q lengths := by
  have hp : LinearChain.pairPotentials (renameTags σ p) (renameTags σ q) = (LinearChain.pairPotentials p q).map (renameTags σ) := by
    unfold LinearChain.pairPotentials
    show (if p.d0 = q.d0 ∧ p.d1 = q.d1 ∧ p.d2 = q.d2 ∧ p.d3 = q.d3 then _ else _) = _
    split_ifs <;> rfl
  have hd : ∀ x, LinearChain.pairPotentials p q = .ok x → x.d2 = p.d2 := by
    intro x hx
    unfold LinearChain.pairPotentials at hx
    split_ifs at hx
    cases hx
    rfl
  constructor
  · unfold LinearChain.crossEntropy
    rw [hp]
    cases hx : LinearChain.pairPotentials p q with
    | error e => rfl
    | ok x => exact congrArg (Except.map (List.map fun a : ℝ × ℝ × ℝ => a.2.2)) (chain Semirings.crossEntropy (orderFree_crossEntropy _) x lengths (hd x hx ▸ h))
  · unfold LinearChain.kl
    rw [hp]
    cases hx : LinearChain.pairPotentials p q with
    | error e => rfl
    | ok x => exact congrArg (Except.map (List.map fun a : ℝ × ℝ × ℝ => a.2.2)) (chain Semirings.kl (orderFree_kl _) x lengths (hd x hx ▸ h))

/-- ... `log_prob` of an event whose tags are renamed in the same way ... -/
theorem chain_logProb (p : T4 ℝ) (lengths : Option (List ℕ)) (hsq : p.d2 = p.d3) (h : Renames σ p.d2) (b : ℕ) (value : ℕ → ℕ → ℕ → ℝ) :
    LinearChain.logProb (renameTags σ p) lengths b (fun n i j => value n (σ i) (σ j)) = LinearChain.logProb p lengths b value := by
  unfold LinearChain.logProb
  rw [(chain_queries p lengths h).1]
  refine congrArg (fun f => Dist.partition LinearChain.algo p lengths >>= f) (funext fun z => congrArg (fun x => Except.ok (x - z.getD b 0)) ?_)
  simp only [score_eq, sum_flatMap, List.map_map]
  refine congrArg List.sum (List.map_congr_left fun n _ => ?_)
  have hj : Renames σ p.d3 := hsq ▸ h
  refine Eq.trans ?_ (sum_range_rename h _)
  exact congrArg List.sum (List.map_congr_left fun i _ => sum_range_rename hj fun j => p.get b n (σ i) j * value n (σ i) j)

/-- ... and `marginals` are renamed with the tags. -/
theorem chain_marginals (p : T4 ℝ) (lengths : Option (List ℕ)) (hsq : p.d2 = p.d3) (h : Renames σ p.d2) (b n : ℕ) {i j : ℕ} (hi : i < p.d2) (hj : j < p.d2) :
    (Dist.marginals LinearChain.algo (renameTags σ p) lengths).map (fun μ => μ [b, n, i, j]) =
      (Dist.marginals LinearChain.algo p lengths).map fun μ => μ [b, n, σ i, σ j] :=
  _root_.Symmetry.chain_marginals p lengths hsq h b n hi hj

/-! ### SemiMarkovCRF -/

/-- **C83, `SemiMarkovCRF`.** Renaming the classes. -/
theorem semimarkov_queries (p : T5 ℝ) (lengths : Option (List ℕ)) (h : Renames σ p.d3) :
    Dist.partition SemiMarkov.algo (renameClasses σ p) lengths = Dist.partition SemiMarkov.algo p lengths ∧
    Dist.max SemiMarkov.algo (renameClasses σ p) lengths = Dist.max SemiMarkov.algo p lengths ∧
    (∀ k, Dist.kmax SemiMarkov.algo (renameClasses σ p) lengths k = Dist.kmax SemiMarkov.algo p lengths k) ∧
    Dist.entropy SemiMarkov.algo (renameClasses σ p) lengths = Dist.entropy SemiMarkov.algo p lengths :=
  ⟨segmentation _ (orderFree_log _) p lengths h, segmentation _ orderFree_max p lengths h,
    fun k => segmentation _ (orderFree_kmax k) (SemiMarkov.algo.map (Semirings.kmaxConvert k) p) lengths h,
    congrArg (Except.map (List.map Prod.snd)) (segmentation _ (orderFree_entropy _) (SemiMarkov.algo.map Semirings.entropyConvert p) lengths h)⟩

theorem semimarkov_logProb (p : T5 ℝ) (lengths : Option (List ℕ)) (hsq : p.d3 = p.d4) (h : Renames σ p.d3) (b : ℕ) (value : ℕ → ℕ → ℕ → ℕ → ℝ) :
    SemiMarkov.logProb (renameClasses σ p) lengths b (fun n k i j => value n k (σ i) (σ j)) = SemiMarkov.logProb p lengths b value := by
  unfold SemiMarkov.logProb
  rw [(semimarkov_queries p lengths h).1]
  refine congrArg (fun f => Dist.partition SemiMarkov.algo p lengths >>= f) (funext fun z => congrArg (fun x => Except.ok (x - z.getD b 0)) ?_)
  simp only [score_eq, sum_flatMap, List.map_map]
  refine congrArg List.sum (List.map_congr_left fun n _ => congrArg List.sum (List.map_congr_left fun k _ => ?_))
  have hj : Renames σ p.d4 := hsq ▸ h
  refine Eq.trans ?_ (sum_range_rename h _)
  exact congrArg List.sum (List.map_congr_left fun i _ => sum_range_rename hj fun j => p.get b n k (σ i) j * value n k (σ i) j)

theorem semimarkov_marginals (p : T5 ℝ) (lengths : Option (List ℕ)) (hsq : p.d3 = p.d4) (h : Renames σ p.d3) (b n k : ℕ) {i j : ℕ} (hi : i < p.d3) (hj : j < p.d3) :
    (Dist.marginals SemiMarkov.algo (renameClasses σ p) lengths).map (fun μ => μ [b, n, k, i, j]) =
      (Dist.marginals SemiMarkov.algo p lengths).map fun μ => μ [b, n, k, σ i, σ j] :=
  segmentation_marginals p lengths hsq h b n k hi hj

/-! ### TreeCRF -/

/-- **C83, `TreeCRF`.** Renaming the labels of the spans. -/
theorem tree_queries (p : T4 ℝ) (lengths : Option (List ℕ)) (h : Renames σ p.d3) :
    Dist.partition CKYCRF.algo (renameSpans σ p) lengths = Dist.partition CKYCRF.algo p lengths ∧
    Dist.max CKYCRF.algo (renameSpans σ p) lengths = Dist.max CKYCRF.algo p lengths ∧
    (∀ k, Dist.kmax CKYCRF.algo (renameSpans σ p) lengths k = Dist.kmax CKYCRF.algo p lengths k) ∧
    Dist.entropy CKYCRF.algo (renameSpans σ p) lengths = Dist.entropy CKYCRF.algo p lengths :=
  ⟨tree _ (orderFree_log _) p lengths h, tree _ orderFree_max p lengths h,
    fun k => tree _ (orderFree_kmax k) (CKYCRF.algo.map (Semirings.kmaxConvert k) p) lengths h,
    congrArg (Except.map (List.map Prod.snd)) (tree _ (orderFree_entropy _) (CKYCRF.algo.map Semirings.entropyConvert p) lengths h)⟩

theorem tree_logProb (p : T4 ℝ) (lengths : Option (List ℕ)) (h : Renames σ p.d3) (b : ℕ) (value : ℕ → ℕ → ℕ → ℝ) :
    CKYCRF.logProb (renameSpans σ p) lengths b (fun i j a => value i j (σ a)) = CKYCRF.logProb p lengths b value := by
  unfold CKYCRF.logProb
  rw [(tree_queries p lengths h).1]
  refine congrArg (fun f => Dist.partition CKYCRF.algo p lengths >>= f) (funext fun z => congrArg (fun x => Except.ok (x - z.getD b 0)) ?_)
  simp only [score_eq, sum_flatMap, List.map_map]
  exact congrArg List.sum (List.map_congr_left fun i _ => congrArg List.sum (List.map_congr_left fun j _ =>
    sum_range_rename h fun a => p.get b i j a * value i j a))

theorem tree_marginals (p : T4 ℝ) (lengths : Option (List ℕ)) (hB : 0 < p.d0) (h : Renames σ p.d3) (b i j : ℕ) {a : ℕ} (ha : a < p.d3) :
    (Dist.marginals CKYCRF.algo (renameSpans σ p) lengths).map (fun μ => μ [b, i, j, a]) =
      (Dist.marginals CKYCRF.algo p lengths).map fun μ => μ [b, i, j, σ a] :=
  _root_.Symmetry.tree_marginals p lengths hB h b i j ha

/-! ### DependencyCRF with labels -/

/-- **C83, `DependencyCRF`.** Renaming the labels of the arcs. -/
theorem dependency_queries (multiroot : Bool) (q : DepTree.Arcs ℝ) (lengths : Option (List ℕ)) (hl : q.rank = 4) (h : Renames σ q.d3) :
    DepTree.partition multiroot (renameArcs σ q) lengths = DepTree.partition multiroot q lengths ∧
    DepTree.max multiroot (renameArcs σ q) lengths = DepTree.max multiroot q lengths ∧
    (∀ k, DepTree.kmax multiroot (renameArcs σ q) lengths k = DepTree.kmax multiroot q lengths k) ∧
    DepTree.entropy multiroot (renameArcs σ q) lengths = DepTree.entropy multiroot q lengths := by
  refine ⟨?_, ?_, fun k => ?_, ?_⟩
  · exact convert_then _ q _ _ fun p hr _ h3 => arcs_run _ (orderFree_log _) multiroot p lengths (h3 ▸ h) (hr.trans hl)
  · exact convert_then _ q _ _ fun p hr _ h3 => arcs_run _ orderFree_max multiroot p lengths (h3 ▸ h) (hr.trans hl)
  · exact convert_then _ q _ _ fun p hr _ h3 => arcs_run _ (orderFree_kmax k) multiroot ((DepTree.algo multiroot).map (Semirings.kmaxConvert k) p) lengths
      (show Renames σ p.d3 from h3 ▸ h) (hr.trans hl)
  · exact convert_then _ q _ _ fun p hr _ h3 => congrArg (Except.map (List.map Prod.snd)) (arcs_run _ (orderFree_entropy _) multiroot
      ((DepTree.algo multiroot).map Semirings.entropyConvert p) lengths (show Renames σ p.d3 from h3 ▸ h) (hr.trans hl))

theorem dependency_logProb (multiroot : Bool) (q : DepTree.Arcs ℝ) (lengths : Option (List ℕ)) (hl : q.rank = 4) (h : Renames σ q.d3) (b : ℕ)
    (value : ℕ → ℕ → ℕ → ℝ) :
    DepTree.logProb multiroot (renameArcs σ q) lengths b (fun i j l => value i j (σ l)) = DepTree.logProb multiroot q lengths b value := by
  unfold DepTree.logProb
  rw [(dependency_queries multiroot q lengths hl h).1]
  refine congrArg (fun f => DepTree.partition multiroot q lengths >>= f) (funext fun z => congrArg (fun x => Except.ok (x - z.getD b 0)) ?_)
  simp only [score_eq, sum_flatMap, List.map_map]
  have hlb : q.labels = q.d3 := if_pos hl
  have hlb' : (renameArcs σ q).labels = q.d3 := if_pos hl
  rw [hlb, hlb']
  exact congrArg List.sum (List.map_congr_left fun i _ => congrArg List.sum (List.map_congr_left fun j _ =>
    sum_range_rename h fun l => q.get b i j l * value i j l))

theorem dependency_marginals (multiroot : Bool) (q : DepTree.Arcs ℝ) (lengths : Option (List ℕ)) (hl : q.rank = 4) (h : Renames σ q.d3) (b i j : ℕ) {l : ℕ}
    (hl' : l < q.d3) :
    (DepTree.marginals multiroot (renameArcs σ q) lengths).map (fun μ => μ [b, i, j, l]) =
      (DepTree.marginals multiroot q lengths).map fun μ => μ [b, i, j, σ l] :=
  arcs_marginals multiroot q lengths hl h b i j hl'

/-! ### SentCFG -/

/-- **C83, `SentCFG`.** Renaming the nonterminals and the preterminals. -/
theorem cfg_queries (p : CKY.Scores ℝ) (lengths : Option (List ℕ)) (hs : Renames σ p.NT) (ht : Renames τ p.T) :
    Dist.partition CKY.algo (renameGrammar σ τ p) lengths = Dist.partition CKY.algo p lengths ∧
    Dist.max CKY.algo (renameGrammar σ τ p) lengths = Dist.max CKY.algo p lengths ∧
    (∀ k, Dist.kmax CKY.algo (renameGrammar σ τ p) lengths k = Dist.kmax CKY.algo p lengths k) ∧
    Dist.entropy CKY.algo (renameGrammar σ τ p) lengths = Dist.entropy CKY.algo p lengths := by
  have hm : ∀ {γ : Type} (f : ℝ → γ), CKY.algo.map f (renameGrammar σ τ p) = renameGrammar σ τ (CKY.algo.map f p) := by
    intro γ f
    obtain ⟨batch, N, T, NT, Sz, term, rule, root, mark⟩ := p
    cases mark <;> rfl
  refine ⟨grammar _ (orderFree_log _) p lengths hs ht, grammar _ orderFree_max p lengths hs ht, fun k => ?_, ?_⟩
  · exact (congrArg (fun t => CKY.logpartition (Semirings.kmax k) t lengths) (hm (Semirings.kmaxConvert k))).trans
      (grammar _ (orderFree_kmax k) (CKY.algo.map (Semirings.kmaxConvert k) p) lengths hs ht)
  · exact congrArg (Except.map (List.map Prod.snd)) ((congrArg (fun t => CKY.logpartition Semirings.entropy t lengths) (hm Semirings.entropyConvert)).trans
      (grammar _ (orderFree_entropy _) (CKY.algo.map Semirings.entropyConvert p) lengths hs ht))

/-- ... `marginals` of the words, rules, roots and spans are renamed with the symbols. -/
theorem cfg_marginals (p : CKY.Scores ℝ) (lengths : Option (List ℕ)) (hs : Renames σ p.NT) (ht : Renames τ p.T) :
    (∀ b n, ∀ t < p.T, (CKY.marginals (renameGrammar σ τ p) lengths).map (fun m => m.term b n t) = (CKY.marginals p lengths).map fun m => m.term b n (τ t)) ∧
    (∀ b, ∀ x < p.NT, ∀ y < p.NT + p.T, ∀ z < p.NT + p.T, (CKY.marginals (renameGrammar σ τ p) lengths).map (fun m => m.rule b x y z) =
      (CKY.marginals p lengths).map fun m => m.rule b (σ x) (renameSymbol p.NT σ τ y) (renameSymbol p.NT σ τ z)) ∧
    (∀ b, ∀ x < p.NT, (CKY.marginals (renameGrammar σ τ p) lengths).map (fun m => m.root b x) = (CKY.marginals p lengths).map fun m => m.root b (σ x)) ∧
    ∀ b w i, ∀ x < p.NT, (CKY.marginals (renameGrammar σ τ p) lengths).map (fun m => m.spans b w i x) = (CKY.marginals p lengths).map fun m => m.spans b w i (σ x) :=
  grammar_marginals p lengths hs ht

/-! ### Reading a chain from right to left -/

theorem chainSum_reverse {R : Type} [CommSemiring R] {C : ℕ} (L : ℕ) (w : ℕ → Fin C → Fin C → R) :
    chainSum L (fun n i j => w (L - 1 - n) j i) = chainSum L w := by
  unfold chainSum
  refine Fintype.sum_equiv (Equiv.arrowCongr Fin.revPerm (Equiv.refl (Fin C))) _ _ fun y => ?_
  unfold seqProd
  refine Fintype.prod_equiv Fin.revPerm _ _ fun n => ?_
  have h1 : (Fin.rev n : ℕ) = L - 1 - n := by rw [Fin.val_rev]; omega
  simp only [Fin.revPerm_apply, Equiv.arrowCongr_apply, Equiv.coe_refl, Function.comp_apply, id_eq, Fin.revPerm_symm, h1]
  congr 2
  · rw [← Fin.rev_castSucc, Fin.rev_rev]
  · rw [← Fin.rev_succ, Fin.rev_rev]

/-- For every semiring that can be read in a commutative semiring. -/
theorem reverse_run {α R : Type} [CommSemiring R] {S : SR α} {f : α → R} (H : SRRel S fun a x => f a = x) (P : LinearChainProofs.Plain S) (hf : Function.Injective f)
    (h1 : f S.one = 1) (p : T4 α) (lengths : Option (List ℕ)) (h : LinearChain.Valid p lengths) :
    _root_.LinearChain.logpartition S (reverseRows p lengths) lengths = _root_.LinearChain.logpartition S p lengths := by
  obtain ⟨vs, e1, l1, v1⟩ := LinearChainProofs.logpartition_plain H P p lengths h.square h.edges h.classes h.lens (ζ := f S.zero) rfl h1
    (fun b n i j => f (p.get b n i j)) fun _ _ _ _ _ _ => rfl
  obtain ⟨vs', e2, l2, v2⟩ := LinearChainProofs.logpartition_plain H P (reverseRows p lengths) lengths h.square h.edges h.classes h.lens (ζ := f S.zero) rfl h1
    (fun b n i j => f (p.get b (lenOf (p.d1 + 1) lengths b - 1 - 1 - n) j i)) fun _ _ _ _ _ _ => rfl
  rw [e1, e2]
  refine congrArg Except.ok (List.ext_getElem (l2.trans l1.symm) fun b h2 h1' => hf ?_)
  rw [v1 b h1', v2 b h2]
  exact congrArg _ (chainSum_reverse (lenOf (p.d1 + 1) lengths b - 1) fun n (i j : Fin p.d2) => f (p.get b n i j) + f S.zero)

/-- How an element of `MaxSemiring` is read in the max-plus semiring. -/
def maxPlus (a : ℝ) : Tropical (WithTop ℝᵒᵈ) := Tropical.trop ((OrderDual.toDual a : ℝᵒᵈ) : WithTop ℝᵒᵈ)

theorem maxPlus_rel : SRRel Semirings.max fun a x => maxPlus a = x := by
  apply SRRel.of_hom (h := maxPlus)
  · intro a b
    rfl
  · intro as hne
    obtain ⟨x, xs, rfl⟩ := List.exists_cons_of_ne_nil hne
    show maxPlus (xs.foldl Max.max x) = ((x :: xs).map maxPlus).sum
    induction xs generalizing x with
    | nil => simp
    | cons y ys ih =>
      rw [List.foldl_cons, ih (Max.max x y) (by simp)]
      simp only [List.map_cons, List.sum_cons]
      rw [← add_assoc]
      congr 1

theorem maxPlus_injective : Function.Injective maxPlus := fun a b h => OrderDual.toDual.injective (WithTop.coe_injective (Tropical.trop_injective h))

theorem dual_injective {a b c d : ℝ} (h : SemiringRel.dual (Real.exp a) c = SemiringRel.dual (Real.exp b) d) : a = b ∧ c = d := by
  have h1 : Real.exp a = Real.exp b := by simpa using congrArg TrivSqZeroExt.fst h
  have hab := Real.exp_injective h1
  subst hab
  refine ⟨rfl, ?_⟩
  have h2 : Real.exp a * c = Real.exp a * d := by simpa using congrArg TrivSqZeroExt.snd h
  exact mul_left_cancel₀ (Real.exp_ne_zero a) h2

/-- **C83, reversal.** A chain read from right to left has the same `partition`, `max` and `entropy`. -/
theorem reverse_queries (p : T4 ℝ) (lengths : Option (List ℕ)) (h : LinearChain.Valid p lengths) :
    Dist.partition _root_.LinearChain.algo (reverseRows p lengths) lengths = Dist.partition _root_.LinearChain.algo p lengths ∧
    Dist.max _root_.LinearChain.algo (reverseRows p lengths) lengths = Dist.max _root_.LinearChain.algo p lengths ∧
    Dist.entropy _root_.LinearChain.algo (reverseRows p lengths) lengths = Dist.entropy _root_.LinearChain.algo p lengths := by
  refine ⟨?_, ?_, ?_⟩
  · exact reverse_run (SemiringRel.log_rel _) (SemiringRel.log_plain _) Real.exp_injective (by simp [Semirings.logZ]) p lengths h
  · exact reverse_run maxPlus_rel ⟨fun _ => rfl, fun _ _ => rfl⟩ maxPlus_injective rfl p lengths h
  · refine congrArg (Except.map (List.map Prod.snd)) (reverse_run (SemiringRel.entropyZ_rel _) (LinearChain.entropyZ_plain _) ?_
      (by simp [SemiringRel.entDual, Semirings.entropyZ, SemiringRel.dual_one]) (_root_.LinearChain.algo.map Semirings.entropyConvert p) lengths
      ⟨h.square, h.edges, h.classes, h.lens⟩)
    intro a b hab
    obtain ⟨h1, h2⟩ := dual_injective hab
    exact Prod.ext h1 (by linarith)

/-! ### The order of the words of a non-projective tree -/

section words
variable {n : ℕ}

/-- The node of the reordered sentence that is node `c` of the given one. -/
def node (e : Equiv.Perm (Fin n)) (c : Fin (n + 1)) : Fin (n + 1) := Fin.cases 0 (fun k => (e.symm k).succ) c

@[simp] theorem node_zero (e : Equiv.Perm (Fin n)) : node e 0 = 0 := rfl

@[simp] theorem node_succ (e : Equiv.Perm (Fin n)) (k : Fin n) : node e k.succ = (e.symm k).succ := rfl

theorem node_node (e : Equiv.Perm (Fin n)) (c : Fin (n + 1)) : node e.symm (node e c) = c := by
  refine Fin.cases ?_ (fun k => ?_) c
  · rfl
  · simp

theorem node_node' (e : Equiv.Perm (Fin n)) (c : Fin (n + 1)) : node e (node e.symm c) = c := by
  refine Fin.cases ?_ (fun k => ?_) c
  · rfl
  · simp

/-- The same tree over the reordered sentence. -/
def reorder (e : Equiv.Perm (Fin n)) (t : Heads n) : Heads n := fun m => node e (t (e m))

theorem reorder_reorder (e : Equiv.Perm (Fin n)) (t : Heads n) : reorder e.symm (reorder e t) = t := by
  funext m
  simp [reorder, node_node]

theorem reorder_reorder' (e : Equiv.Perm (Fin n)) (t : Heads n) : reorder e (reorder e.symm t) = t := by
  funext m
  simp [reorder, node_node']

theorem headOf_reorder (e : Equiv.Perm (Fin n)) (t : Heads n) (c : Fin (n + 1)) :
    ∃ c' : Fin (n + 1), headOf t c = c' ∧ headOf (reorder e t) (node e c) = node e c' := by
  refine Fin.cases ⟨0, ?_, ?_⟩ (fun k => ⟨t k, ?_, ?_⟩) c
  · exact MatrixTree.headOf_root t
  · exact MatrixTree.headOf_root _
  · exact MatrixTree.headOf_word t k
  · rw [node_succ, Fin.val_succ, MatrixTree.headOf_word]
    simp [reorder]

theorem iterate_reorder (e : Equiv.Perm (Fin n)) (t : Heads n) : ∀ (j : ℕ) (c : Fin (n + 1)),
    ∃ c' : Fin (n + 1), (headOf t)^[j] c = c' ∧ (headOf (reorder e t))^[j] (node e c) = node e c'
  | 0, c => ⟨c, rfl, rfl⟩
  | j + 1, c => by
    obtain ⟨c1, h1, h2⟩ := headOf_reorder e t c
    obtain ⟨c2, h3, h4⟩ := iterate_reorder e t j c1
    exact ⟨c2, by rw [Function.iterate_succ_apply, h1, h3], by rw [Function.iterate_succ_apply, h2, h4]⟩

theorem isDepTree_reorder (e : Equiv.Perm (Fin n)) {t : Heads n} (h : IsDepTree t) : IsDepTree (reorder e t) := by
  intro k
  obtain ⟨j, hj⟩ := h (e k)
  obtain ⟨c, h1, h2⟩ := iterate_reorder e t j (e k).succ
  refine ⟨j, ?_⟩
  have hc : c = 0 := Fin.ext (by rw [← h1, Fin.val_succ]; exact hj)
  rw [hc, node_succ, Equiv.symm_apply_apply, Fin.val_succ] at h2
  exact h2

theorem node_eq_zero (e : Equiv.Perm (Fin n)) {c : Fin (n + 1)} : node e c = 0 ↔ c = 0 := by
  constructor
  · intro h
    rw [← node_node e c, h]; rfl
  · rintro rfl; rfl

theorem isSingleRoot_reorder (e : Equiv.Perm (Fin n)) {t : Heads n} (h : IsSingleRoot t) : IsSingleRoot (reorder e t) := by
  obtain ⟨k, hk, hu⟩ := h
  refine ⟨e.symm k, ?_, fun m hm => ?_⟩
  · simp only [reorder, Equiv.apply_symm_apply]
    rw [hk]; rfl
  · rw [← hu (e m) ((node_eq_zero e).1 hm), Equiv.symm_apply_apply]

/-- Reordering, as a one-to-one correspondence of the spanning trees. -/
def reorderTrees (multiroot : Bool) (e : Equiv.Perm (Fin n)) : SpanTrees multiroot n ≃ SpanTrees multiroot n where
  toFun t := ⟨reorder e t.1, isDepTree_reorder e t.2.1, fun h => isSingleRoot_reorder e (t.2.2 h)⟩
  invFun t := ⟨reorder e.symm t.1, isDepTree_reorder _ t.2.1, fun h => isSingleRoot_reorder _ (t.2.2 h)⟩
  left_inv t := Subtype.ext (reorder_reorder e t.1)
  right_inv t := Subtype.ext (reorder_reorder' e t.1)

theorem weight_reorder (h : Renames σ n) (eps : ℝ) (s : ℕ → ℕ → ℝ) (t : Heads n) :
    NonProj.weight eps (fun i j => s (σ i) (σ j)) (reorder (perm h) t) = NonProj.weight eps s t := by
  unfold NonProj.weight
  refine Fintype.prod_equiv (perm h) _ _ fun m => ?_
  have key : ∀ c : Fin (n + 1), (if node (perm h) c = 0 then Real.exp (s (σ m) (σ m)) else Real.exp (s (σ ((node (perm h) c : ℕ) - 1)) (σ m)) + eps) =
      if c = 0 then Real.exp (s (perm h m) (perm h m)) else Real.exp (s ((c : ℕ) - 1) (perm h m)) + eps := by
    refine Fin.cases ?_ fun k => ?_
    · exact (if_pos (node_zero _)).trans (if_pos rfl).symm
    · rw [if_neg (by rw [node_succ]; exact Fin.succ_ne_zero _), if_neg (Fin.succ_ne_zero _), node_succ, Fin.val_succ, Fin.val_succ, Nat.add_sub_cancel, Nat.add_sub_cancel]
      have : σ ((perm h).symm k) = k := by
        have := congrArg Fin.val ((perm h).apply_symm_apply k)
        rwa [perm_val] at this
      rw [this, perm_val]
  exact key (t (perm h m))

theorem total_reorder (multiroot : Bool) (h : Renames σ n) (eps : ℝ) (s : ℕ → ℕ → ℝ) :
    NonProj.total multiroot eps (fun i j => s (σ i) (σ j)) n = NonProj.total multiroot eps s n := by
  unfold NonProj.total
  exact (Fintype.sum_equiv (reorderTrees multiroot (perm h)) _ _ fun t => (weight_reorder h eps s t.1).symm).symm

theorem prob_reorder (multiroot : Bool) (h : Renames σ n) (eps : ℝ) (s : ℕ → ℕ → ℝ) (m : Fin n) (c : Fin (n + 1)) :
    NonProj.prob multiroot eps (fun i j => s (σ i) (σ j)) m (node (perm h) c) = NonProj.prob multiroot eps s (perm h m) c := by
  unfold NonProj.prob
  rw [total_reorder multiroot h]
  refine congrArg (· / _) (Fintype.sum_equiv (reorderTrees multiroot (perm h)) _ _ fun t => ?_).symm
  show (if t.1 (perm h m) = c then _ else _) = if node (perm h) (t.1 (perm h m)) = node (perm h) c then NonProj.weight _ _ (reorder (perm h) t.1) else 0
  rw [weight_reorder h]
  by_cases ht : t.1 (perm h m) = c
  · rw [if_pos ht, if_pos (by rw [ht])]
  · rw [if_neg ht, if_neg fun hc => ht (by rw [← node_node (perm h) (t.1 (perm h m)), hc, node_node])]

end words

/-- **C83, `NonProjectiveDependencyCRF`.** The order in which the words are written does not matter: `partition` is the same ... -/
theorem words_partition (multiroot : Bool) (p : _root_.NonProj.Table) (h : Renames σ p.N) :
    _root_.NonProj.partition multiroot (reorderWords σ p) none = _root_.NonProj.partition multiroot p none := by
  by_cases hn : multiroot = true ∨ 1 ≤ p.N
  · rw [NonProj.partition_spec multiroot (reorderWords σ p) hn, NonProj.partition_spec multiroot p hn]
    refine congrArg Except.ok (List.map_congr_left fun b _ => congrArg some (congrArg Real.log ?_))
    exact total_reorder multiroot h _ (p.get b)
  · obtain ⟨h1, h2⟩ := not_or.1 hn
    have e : ∀ q : _root_.NonProj.Table, q.N = p.N → q.batch = p.batch → _root_.NonProj.partition multiroot q none = .error .index := by
      intro q hq _
      unfold _root_.NonProj.partition _root_.NonProj.part
      rw [if_pos (by refine ⟨by simpa using h1, by omega⟩)]
    rw [e p rfl rfl, e (reorderWords σ p) rfl rfl]

/-- ... and `marginals` are reordered with the words. -/
theorem words_marginals (multiroot : Bool) (p : _root_.NonProj.Table) (h : Renames σ p.N) :
    _root_.NonProj.distMarginals multiroot (reorderWords σ p) none =
      (_root_.NonProj.distMarginals multiroot p none).map (List.map fun g (i j : Fin p.N) => g ⟨σ i, h.lt i.2⟩ ⟨σ j, h.lt j.2⟩) := by
  by_cases hn : multiroot = true ∨ 1 ≤ p.N
  · rw [NonProj.marginals_spec multiroot (reorderWords σ p) hn, NonProj.marginals_spec multiroot p hn]
    have key : ∀ (b : ℕ) (i j : Fin p.N),
        (if i = j then NonProj.prob multiroot (1 / 100000) (fun x y => p.get b (σ x) (σ y)) j 0
          else NonProj.prob multiroot (1 / 100000) (fun x y => p.get b (σ x) (σ y)) j i.succ *
            (Real.exp (p.get b (σ i) (σ j)) / (Real.exp (p.get b (σ i) (σ j)) + 1 / 100000))) =
        if perm h i = perm h j then NonProj.prob multiroot (1 / 100000) (p.get b) (perm h j) 0
          else NonProj.prob multiroot (1 / 100000) (p.get b) (perm h j) (perm h i).succ *
            (Real.exp (p.get b (perm h i) (perm h j)) / (Real.exp (p.get b (perm h i) (perm h j)) + 1 / 100000)) := by
      intro b i j
      have r := prob_reorder multiroot h (1 / 100000) (p.get b) j 0
      have r' := prob_reorder multiroot h (1 / 100000) (p.get b) j (perm h i).succ
      rw [node_succ, Equiv.symm_apply_apply] at r'
      rw [← r, ← r', perm_val, perm_val, node_zero]
      simp only [EmbeddingLike.apply_eq_iff_eq]
    show Except.ok ((List.range p.batch).map fun b (i j : Fin p.N) => _) = Except.ok (List.map (fun (g : Fin p.N → Fin p.N → ℝ) (i j : Fin p.N) => g (perm h i) (perm h j)) _)
    rw [List.map_map]
    exact congrArg Except.ok (List.map_congr_left fun b _ => funext fun i => funext fun j => key b i j)
  · obtain ⟨h1, h2⟩ := not_or.1 hn
    have e : ∀ q : _root_.NonProj.Table, q.N = p.N → _root_.NonProj.distMarginals multiroot q none = .error .index := by
      intro q hq
      unfold _root_.NonProj.distMarginals _root_.NonProj.marginals
      rw [if_pos (by refine ⟨by simpa using h1, by omega⟩)]
    rw [e p rfl, e (reorderWords σ p) rfl]
    rfl

/-! ### Concrete cases -/

/-- The names 0 and 1 are exchanged. -/
def swap (i : ℕ) : ℕ := if i = 0 then 1 else if i = 1 then 0 else i

theorem swap_renames {n : ℕ} (hn : 2 ≤ n) : Renames swap n := by
  have hb : ∀ i < n, swap i < n := by intro i hi; unfold swap; split_ifs <;> omega
  have hs : ∀ i, swap (swap i) = i := by
    intro i
    unfold swap
    by_cases h0 : i = 0
    · simp [h0]
    · by_cases h1 : i = 1
      · simp [h1]
      · simp [h0, h1]
  exact ⟨fun i hi => hb i hi, fun i _ j _ e => by rw [← hs i, e, hs], fun i hi => ⟨swap i, hb i hi, hs i⟩⟩

/-- The theorems apply to the samples of the other files, and the renaming changes the table. -/
example : Renames swap LinearChain.sample.d2 ∧ (renameTags swap LinearChain.sample).get 0 0 0 0 ≠ LinearChain.sample.get 0 0 0 0 :=
  ⟨swap_renames (by decide), by norm_num [renameTags, LinearChain.sample, swap]⟩

example : LinearChain.Valid LinearChain.sample (some [3, 2]) ∧
    (reverseRows LinearChain.sample (some [3, 2])).get 0 0 0 1 ≠ LinearChain.sample.get 0 0 0 1 :=
  ⟨LinearChain.sample_valid, by norm_num [reverseRows, LinearChain.sample, lenOf]⟩

example : Renames swap NonProj.sample.N ∧ (reorderWords swap NonProj.sample).get 0 0 1 ≠ NonProj.sample.get 0 0 1 :=
  ⟨swap_renames (by decide), by norm_num [reorderWords, NonProj.sample, swap]⟩

/-- A grammar with two nonterminals and three preterminals. -/
def names : CKY.Scores ℝ := ⟨1, 3, 3, 2, 5, fun _ n t => (n : ℝ) * t, fun _ x y z => (x : ℝ) + 2 * y - z, fun _ x => (x : ℝ), none⟩

example : Renames swap names.NT ∧ Renames swap names.T ∧ (renameGrammar swap swap names).rule 0 0 1 2 = names.rule 0 1 0 3 :=
  ⟨swap_renames (by decide), swap_renames (by decide), rfl⟩

end Props.Symmetry
