import Verif.Proofs.StabilityChain
import Verif.Props.RoundedArgmax
import Verif.Props.LinearChainMarginals

/-! Property theorems: marginals are stable.  C93.

If no potential of `q` differs from the one of `p` by more than `δ`, every marginal of `q` is the marginal of `p` up to the factor `exp (2 K δ)`, where `K` bounds the number of potentials that
one structure uses.  No bound on the size of the potentials is needed, and nothing is lost to the stand-in for minus infinity. -/

open Finset Spec Generic
open Rounding hiding fst_rel err_rel mag_rel

noncomputable section
namespace Props.Stability
open Props.Rounding Props.RoundedArgmax

variable {δ : ℝ}

/-- Equal up to the factor `exp K`. -/
def Within (K x y : ℝ) : Prop := y ≤ Real.exp K * x ∧ x ≤ Real.exp K * y

/-- Probabilities equal up to a factor near one are near. -/
theorem Within.abs_le {K x y : ℝ} (h : Within K x y) (hK : 0 ≤ K) (hx : x ≤ 1) (hy : y ≤ 1) : |y - x| ≤ Real.exp K - 1 := by
  obtain ⟨h1, h2⟩ := h
  have := Real.one_le_exp hK
  rw [_root_.abs_le]
  constructor <;> nlinarith

/-- **C93.** `marginals` of `TreeCRF`: a tree has `2 N - 1` spans. -/
theorem tree_marginals_stable {p q : T4 ℝ} {lengths : Option (List ℕ)} (h : TreeCRF.Valid p lengths) (hδ : 0 ≤ δ) (hpq : Near4 δ p q) :
    ∃ μ ν, Dist.marginals CKYCRF.algo p lengths = .ok μ ∧ Dist.marginals CKYCRF.algo q lengths = .ok ν ∧
      ∀ b < p.d0, ∀ i j a, Within (2 * ((2 * p.d1 - 1) * δ)) (μ [b, i, j, a]) (ν [b, i, j, a]) := by
  obtain ⟨p0, p1, p2, p3, pg⟩ := p
  obtain ⟨q0, q1, q2, q3, qg⟩ := q
  obtain ⟨⟨h0, h1, h2, h3⟩, hd⟩ := hpq
  simp only at h0 h1 h2 h3
  subst h0 h1 h2 h3
  have hp : CKYCRFProofs.Valid (⟨q0, q1, q2, q3, pg⟩ : T4 ℝ) lengths := h
  have hq : CKYCRFProofs.Valid (⟨q0, q1, q2, q3, qg⟩ : T4 ℝ) lengths := ⟨h.square, h.words, h.labels, h.lens⟩
  obtain ⟨μ, ν, e1, e2, e3⟩ := (CKYCRFProofs.batchDP (⟨q0, q1, q2, q3, pg⟩ : T4 ℝ) lengths hp).marginals_near (CKYCRFProofs.batchDP (⟨q0, q1, q2, q3, qg⟩ : T4 ℝ) lengths hq)
    (d := fun _ => δ) (fun b hb e he => by
      obtain ⟨i, j, a, rfl, hij, hj, ha⟩ := he
      have hl := (CKYCRFProofs.len_in h.words h.lens b hb).2
      have hsq : q1 = q2 := h.square
      have hj1 : j < q1 := lt_of_lt_of_le hj hl
      exact hd b hb i (by show i < q1; omega) j (by show j < q2; omega) a ha)
    (K := (2 * q1 - 1) * δ)
    (by
      have := cost_tree (z := 0) (ε := 0) (w := fun _ => 0) (W := 0) (D := δ) (Q := q1 + q3)
        (p := CKYCRF.algo.map (fun x : ℝ × List ℕ => δ) (CKYCRF.algo.index (⟨q0, q1, q2, q3, pg⟩ : T4 ℝ))) h.labels le_rfl hδ le_rfl le_rfl (fun _ _ _ _ => le_rfl) (fun _ _ => le_rfl)
        (Nat.le_add_right _ _) (Nat.le_add_left _ _) lengths
      refine AllE.mono (fun x hx => hx.trans (le_of_eq ?_)) this
      show (2 * (q1 : ℝ) - 1) * (δ + 0) + q1 * (2 * 0 + 0) = _
      ring)
  exact ⟨μ, ν, e1, e2, fun b hb i j a => e3 b hb _ rfl⟩

/-- **C93.** `marginals` of `DependencyCRF`: a tree has one arc per word. -/
theorem dependency_marginals_stable (mr : Bool) {p q : DepTree.Arcs ℝ} {lengths : Option (List ℕ)} (h : Dependency.Valid mr p lengths) (hδ : 0 ≤ δ) (hpq : NearArcs δ p q) :
    ∃ μ ν, DepTree.marginals mr p lengths = .ok μ ∧ DepTree.marginals mr q lengths = .ok ν ∧
      ∀ b < p.d0, ∀ i j, Within (2 * (p.d1 * δ)) (μ [b, i, j]) (ν [b, i, j]) := by
  obtain ⟨B, -, hw⟩ := within_arcs p
  have near := fun b hb e he => (arcs_near h.toValid hpq hw (b := b) hb (e := e) he).1
  obtain ⟨pr, p0, p1, p2, p3, pg⟩ := p
  obtain ⟨qr, q0, q1, q2, q3, qg⟩ := q
  obtain ⟨⟨hr, h0, h1, h2, h3⟩, hd⟩ := hpq
  simp only at hr h0 h1 h2 h3
  subst hr h0 h1 h2 h3
  have hq : Dependency.Valid mr (⟨qr, q0, q1, q2, q3, qg⟩ : DepTree.Arcs ℝ) lengths := ⟨h.rank, h.square, h.batch, h.words, h.lens⟩
  have hlab : 0 < (⟨qr, q0, q1, q2, q3, pg⟩ : DepTree.Arcs ℝ).labels := h.toValid.labels
  simp only [DepTree.marginals]
  rw [Dependency.conv_eq DepTree.negBig hq, Dependency.conv_eq DepTree.negBig h]
  obtain ⟨μ, ν, e1, e2, e3⟩ := (DepTreeProofs.batchDP3 mr DepTree.negBig (⟨qr, q0, q1, q2, q3, pg⟩ : DepTree.Arcs ℝ) lengths h.toValid h.rank).marginals_near
    (DepTreeProofs.batchDP3 mr DepTree.negBig (⟨qr, q0, q1, q2, q3, qg⟩ : DepTree.Arcs ℝ) lengths hq.toValid hq.rank) (d := fun _ => δ) near
    (arcs_cost mr hlab le_rfl hδ le_rfl lengths)
  refine ⟨μ, ν, e1, e2, fun b hb i j => ?_⟩
  have := e3 b hb [b, i, j] rfl
  simpa [Within, Factor] using this

/-- **C93.** `marginals` of `DependencyCRF` with labels. -/
theorem labelled_marginals_stable (mr : Bool) {p q : DepTree.Arcs ℝ} {lengths : Option (List ℕ)} (h : LabelledDependency.Valid mr p lengths) (hδ : 0 ≤ δ) (hpq : NearArcs δ p q) :
    ∃ μ ν, DepTree.marginals mr p lengths = .ok μ ∧ DepTree.marginals mr q lengths = .ok ν ∧
      ∀ b < p.d0, ∀ i j l, Within (2 * (p.d1 * δ)) (μ [b, i, j, l]) (ν [b, i, j, l]) := by
  obtain ⟨B, -, hw⟩ := within_arcs p
  have near := fun b hb e he => (arcs_near h.toValid hpq hw (b := b) hb (e := e) he).1
  rw [DepTreeProofs.is_labeled h.rank, DepTreeProofs.labels_four h.rank] at near
  obtain ⟨pr, p0, p1, p2, p3, pg⟩ := p
  obtain ⟨qr, q0, q1, q2, q3, qg⟩ := q
  obtain ⟨⟨hr, h0, h1, h2, h3⟩, hd⟩ := hpq
  simp only at hr h0 h1 h2 h3
  subst hr h0 h1 h2 h3
  have hq : LabelledDependency.Valid mr (⟨qr, q0, q1, q2, q3, qg⟩ : DepTree.Arcs ℝ) lengths := ⟨h.rank, h.labels, h.square, h.batch, h.words, h.lens⟩
  have hlab : 0 < (⟨qr, q0, q1, q2, q3, pg⟩ : DepTree.Arcs ℝ).labels := h.toValid.labels
  simp only [DepTree.marginals]
  rw [LabelledDependency.conv_eq DepTree.negBig hq, LabelledDependency.conv_eq DepTree.negBig h]
  obtain ⟨μ, ν, e1, e2, e3⟩ := (DepTreeProofs.batchDP4 mr DepTree.negBig (⟨qr, q0, q1, q2, q3, pg⟩ : DepTree.Arcs ℝ) lengths h.toValid h.rank).marginals_near
    (DepTreeProofs.batchDP4 mr DepTree.negBig (⟨qr, q0, q1, q2, q3, qg⟩ : DepTree.Arcs ℝ) lengths hq.toValid hq.rank) (d := fun _ => δ) near
    (arcs_cost mr hlab le_rfl hδ le_rfl lengths)
  refine ⟨μ, ν, e1, e2, fun b hb i j l => ?_⟩
  have := e3 b hb [b, i, j, l] rfl
  simpa [Within, Factor] using this

/-- **C93.** `marginals` of `SemiMarkovCRF`: a segmentation has at most `N - 1` segments. -/
theorem semimarkov_marginals_stable {p q : T5 ℝ} {lengths : Option (List ℕ)} (h : SemiMarkovProofs.Valid p lengths) (hδ : 0 ≤ δ) (hpq : Near5 δ p q) :
    ∃ μ ν, Dist.marginals SemiMarkov.algo p lengths = .ok μ ∧ Dist.marginals SemiMarkov.algo q lengths = .ok ν ∧
      ∀ b < p.d0, ∀ n k c c', Within (2 * (p.d1 * δ)) (μ [b, n, k, c, c']) (ν [b, n, k, c, c']) := by
  obtain ⟨p0, p1, p2, p3, p4, pg⟩ := p
  obtain ⟨q0, q1, q2, q3, q4, qg⟩ := q
  obtain ⟨⟨h0, h1, h2, h3, h4⟩, hd⟩ := hpq
  simp only at h0 h1 h2 h3 h4
  subst h0 h1 h2 h3 h4
  have hq : SemiMarkovProofs.Valid (⟨q0, q1, q2, q3, q4, qg⟩ : T5 ℝ) lengths := ⟨h.rows, h.square, h.classes, h.positions, h.segs, h.lens⟩
  obtain ⟨μ, ν, e1, e2, e3⟩ := (SemiMarkovProofs.batchDP (⟨q0, q1, q2, q3, q4, pg⟩ : T5 ℝ) lengths h (SemiMarkov.hK h)).marginals_near
    (SemiMarkovProofs.batchDP (⟨q0, q1, q2, q3, q4, qg⟩ : T5 ℝ) lengths hq (SemiMarkov.hK hq)) (d := fun _ => δ) (fun b hb e he => by
      obtain ⟨n, k, c, c', rfl, hn, hk1, hk⟩ := he
      have hl := (SemiMarkovProofs.steps_le h b).1
      have hc' : (c' : ℕ) < q4 := lt_of_lt_of_eq c'.2 h.square
      exact hd b hb n (lt_of_lt_of_le hn hl) k hk c c.2 c' hc')
    (K := q1 * δ)
    (by
      have := cost_semi (z := 0) (ε := 0) (w := fun _ => 0) (W := 0) (D := δ) (Q := (q2 - 1) * q3 + 2)
        (p := SemiMarkov.algo.map (fun x : ℝ × List ℕ => δ) (SemiMarkov.algo.index (⟨q0, q1, q2, q3, q4, pg⟩ : T5 ℝ))) h.classes le_rfl hδ le_rfl (fun _ _ _ _ _ => le_rfl) (fun _ _ => le_rfl)
        (Nat.le_add_left _ _) (Nat.le_add_right _ _) lengths
      refine AllE.mono (fun x hx => hx.trans (le_of_eq ?_)) this
      show (q1 : ℝ) * δ + (2 ^ Nat.clog 2 q1 - q1) * 0 + 2 ^ Nat.clog 2 q1 * 0 + (2 ^ Nat.clog 2 q1 - 1) * (0 + 0) + 2 * 0 = _
      ring)
  exact ⟨μ, ν, e1, e2, fun b hb n k c c' => e3 b hb _ rfl⟩

open CKYProofs in
/-- **C93.** `marginals` of `SentCFG`: a derivation has `N` terms, `N - 1` rules and one root. -/
theorem grammar_marginals_stable {p q : CKY.Scores ℝ} {lengths : Option (List ℕ)} (h : SentCFG.Valid p lengths) (hl : SentCFG.Long p lengths) (hδ : 0 ≤ δ) (hpq : NearCfg δ p q) :
    ∃ μ ν, CKY.marginals p lengths = .ok μ ∧ CKY.marginals q lengths = .ok ν ∧ ∀ b < p.batch,
      (∀ n t, Within (2 * (2 * p.N * δ)) (μ.term b n t) (ν.term b n t)) ∧ (∀ X y z, Within (2 * (2 * p.N * δ)) (μ.rule b X y z) (ν.rule b X y z)) ∧
      (∀ X, Within (2 * (2 * p.N * δ)) (μ.root b X) (ν.root b X)) ∧ ∀ w i X, Within (2 * (2 * p.N * δ)) (μ.spans b w i X) (ν.spans b w i X) := by
  obtain ⟨p0, pN, pT, pNT, pS, pt, pr, po, pm⟩ := p
  obtain ⟨q0, qN, qT, qNT, qS, qt, qr, qo, qm⟩ := q
  obtain ⟨⟨h0, h1, h2, h3, h4, h5, h6⟩, hdt, hdr, hdo⟩ := hpq
  simp only at h0 h1 h2 h3 h4 h5 h6
  subst h0 h1 h2 h3 h4 h5 h6
  set P : CKY.Scores ℝ := ⟨q0, qN, qT, qNT, qS, pt, pr, po, none⟩ with hP
  set T : CKY.Scores ℝ := ⟨q0, qN, qT, qNT, qS, qt, qr, qo, none⟩ with hT
  have hq : SentCFG.Valid T lengths := ⟨h.symbols, h.nonterminals, h.preterminals, h.rows, h.words, h.lens, rfl⟩
  have hlen : ∀ b < q0, lenOf qN lengths b ≤ qN := fun b hb => SentCFG.len_le h b hb
  obtain ⟨μ, ν, e1, e2, e3⟩ := (batchDP (CKY.marked P) lengths h.marked).marginals_near (batchDP (CKY.marked T) lengths hq.marked)
    (d := fun e => if e.getD 1 0 = 3 then 0 else δ) (fun b hb e he => by
      rcases he with ⟨n, t, rfl, h1, h2⟩ | ⟨X, y, z, rfl, h1, h2, h3⟩ | ⟨X, rfl, h1⟩ | ⟨-, w, i, X, rfl, -⟩
      · exact hdt b hb n (lt_of_lt_of_le h1 (hlen b hb)) t h2
      · exact hdr b hb X h1 y h2 z h3
      · exact hdo b hb X h1
      · exact show |(0 : ℝ) - 0| ≤ 0 by simp)
    (K := 2 * qN * δ)
    (by
      have := cost_cfg_marked (z := 0) (ε := 0) (w := fun _ => 0) (W := 0) (D := δ) (Q := qN + 4 + qS * qS) (m := 0) le_rfl (f := fun _ _ _ _ => 0)
        (p := CKY.algo.map (fun x : ℝ × List ℕ => if x.2.getD 1 0 = 3 then 0 else δ) (CKY.algo.index (CKY.marked P))) rfl (fun _ _ _ _ => le_rfl) le_rfl hδ le_rfl le_rfl
        (fun _ _ _ => le_rfl) (fun _ _ _ _ => le_rfl) (fun _ _ => le_rfl) (fun _ _ => le_rfl)
        (by show qN ≤ _; omega) (by omega) (by show qS * qS ≤ _; omega) lengths
      refine AllE.mono (fun x hx => hx.trans (le_of_eq ?_)) this
      show 2 * (qN : ℝ) * δ + qN * (2 * 0 + 3 * 0 + (0 + 0)) = _
      ring)
  refine ⟨CKY.arrange qN μ, CKY.arrange qN ν, (if_neg (SentCFG.N_ne h hl)).trans (congrArg (Except.map (CKY.arrange qN)) e1 :),
    (if_neg (SentCFG.N_ne h hl)).trans (congrArg (Except.map (CKY.arrange qN)) e2 :), fun b hb => ?_⟩
  refine ⟨fun n t => e3 b hb _ rfl, fun X y z => e3 b hb _ rfl, fun X => e3 b hb _ rfl, fun w i X => ?_⟩
  show Within _ (CKY.arrangeSpans qN μ b w i X) (CKY.arrangeSpans qN ν b w i X)
  unfold CKY.arrangeSpans
  split_ifs
  · exact e3 b hb _ rfl
  · constructor <;> simp

open LinearChainLog LinearChainProofs in
/-- **C93.** `marginals` of `LinearChainCRF`: a sequence has `N - 1` transitions. -/
theorem chain_marginals_stable {p q : T4 ℝ} {lengths : Option (List ℕ)} (h : LinearChain.Valid p lengths) (hδ : 0 ≤ δ) (hpq : Near4 δ p q) :
    ∃ μ ν, Dist.marginals LinearChain.algo p lengths = .ok μ ∧ Dist.marginals LinearChain.algo q lengths = .ok ν ∧
      ∀ b < p.d0, ∀ n < p.d1, ∀ i j : Fin p.d2, Within (2 * (LinearChain.numEdges p lengths b * δ)) (μ [b, n, i, j]) (ν [b, n, i, j]) := by
  obtain ⟨p0, p1, p2, p3, pg⟩ := p
  obtain ⟨q0, q1, q2, q3, qg⟩ := q
  obtain ⟨⟨h0, h1, h2, h3⟩, hd⟩ := hpq
  simp only at h0 h1 h2 h3
  subst h0 h1 h2 h3
  have ok : ∀ g : ℕ → ℕ → ℕ → ℕ → ℝ, ∃ μ, Dist.marginals LinearChain.algo (⟨q0, q1, q2, q3, g⟩ : T4 ℝ) lengths = .ok μ ∧ ∀ b < q0, ∀ n < q1, ∀ i j : Fin q2, μ [b, n, (i : ℕ), (j : ℕ)] =
      (LinearChain.core (Autograd.logZ Semirings.negInf) (C := q2) (q1 + 1) (Nat.clog 2 q1) (lenOf (q1 + 1) lengths)
        (leafRow fun b n i j => g b n i j) b).2 [b, n, (i : ℕ), (j : ℕ)] := by
    intro g
    have hok := logpartition_ok (Autograd.logZ Semirings.negInf) (Dist.leaves LinearChain.algo (⟨q0, q1, q2, q3, g⟩ : T4 ℝ)) lengths h.square h.edges h.lens
    refine ⟨_, congrArg (Except.map Dist.gradOfSum) hok, fun b hb n hn i j => ?_⟩
    refine LinearChain.gradOfSum_row q0 _ b hb n i j ?_
    intro b' _ hne
    exact row_grad_other h.classes Semirings.negInf _ _ b b' (lenOf_le h.lens b') hne n i j
  obtain ⟨μ, e1, e2⟩ := ok pg
  obtain ⟨ν, e3, e4⟩ := ok qg
  refine ⟨μ, ν, e1, e3, fun b hb n hn i j => ?_⟩
  have hle : lenOf (q1 + 1) lengths b ≤ q1 + 1 := lenOf_le h.lens b
  have near : ∀ n < lenOf (q1 + 1) lengths b - 1, ∀ i j : Fin q2, |qg b n i j - pg b n i j| ≤ δ := fun n hn i j =>
    hd b hb n (by show n < q1; omega) i i.2 j (lt_of_lt_of_eq j.2 h.square)
  rw [e2 b hb n hn i j, e4 b hb n hn i j]
  constructor
  · exact row_share_le h.classes _ (N := q1 + 1) (logN := Nat.clog 2 q1) (by simpa using le_two_pow_clog q1) (lenOf (q1 + 1) lengths) (fun b n i j => pg b n i j) (fun b n i j => qg b n i j) b hle
      hδ near n (by simpa using hn) i j
  · exact row_share_le h.classes _ (N := q1 + 1) (logN := Nat.clog 2 q1) (by simpa using le_two_pow_clog q1) (lenOf (q1 + 1) lengths) (fun b n i j => qg b n i j) (fun b n i j => pg b n i j) b hle
      hδ (fun n hn i j => by rw [abs_sub_comm]; exact near n hn i j) n (by simpa using hn) i j

/-! ### The hypotheses are met -/

/-- A table of potentials whose entries are off by 1/1000: the marginals of its rows with three and two words are off by at most a half percent. -/
example : ∃ μ ν, Dist.marginals LinearChain.algo Props.LinearChain.sample (some [3, 2]) = .ok μ ∧ Dist.marginals LinearChain.algo (moved Props.LinearChain.sample) (some [3, 2]) = .ok ν ∧
    ∀ b < 2, ∀ n < 2, ∀ i j : Fin 2, |ν [b, n, i, j] - μ [b, n, i, j]| ≤ 0.005 := by
  have hv : LinearChain.Valid (moved Props.LinearChain.sample) (some [3, 2]) := ⟨LinearChain.sample_valid.square, LinearChain.sample_valid.edges, LinearChain.sample_valid.classes, LinearChain.sample_valid.lens⟩
  obtain ⟨m, hm⟩ := LinearChain.exists_lowerBound Props.LinearChain.sample (some [3, 2])
  obtain ⟨m', hm'⟩ := LinearChain.exists_lowerBound (moved Props.LinearChain.sample) (some [3, 2])
  obtain ⟨μ, ν, h1, h2, h3⟩ := chain_marginals_stable LinearChain.sample_valid (by norm_num) (near_moved Props.LinearChain.sample)
  obtain ⟨μ', h4, h5⟩ := LinearChain.marginals_spec _ _ LinearChain.sample_valid m hm
  obtain ⟨ν', h6, h7⟩ := LinearChain.marginals_spec _ _ hv m' hm'
  obtain rfl : μ = μ' := by rw [h1] at h4; exact Except.ok.inj h4
  obtain rfl : ν = ν' := by rw [h2] at h6; exact Except.ok.inj h6
  refine ⟨μ, ν, h1, h2, fun b hb n hn i j => ?_⟩
  have hw := h3 b hb n hn i j
  have hL : (LinearChain.numEdges Props.LinearChain.sample (some [3, 2]) b : ℝ) ≤ 2 := by
    have : LinearChain.numEdges Props.LinearChain.sample (some [3, 2]) b ≤ 2 := by interval_cases b <;> decide
    exact_mod_cast this
  have hL0 : (0 : ℝ) ≤ LinearChain.numEdges Props.LinearChain.sample (some [3, 2]) b := Nat.cast_nonneg _
  refine (hw.abs_le (by positivity) (h5 b hb n hn i j).2.1 (h7 b hb n hn i j).2.1).trans ?_
  set x : ℝ := 2 * (LinearChain.numEdges Props.LinearChain.sample (some [3, 2]) b * (1 / 1000)) with hx
  have hx1 : x ≤ 0.004 := by rw [hx]; linarith
  have e1 : Real.exp x ≤ Real.exp 0.004 := Real.exp_le_exp.2 hx1
  have e2 := Real.add_one_le_exp (-0.004)
  have e3 : Real.exp 0.004 * Real.exp (-0.004) = 1 := by rw [← Real.exp_add]; norm_num
  have e4 := Real.exp_pos 0.004
  nlinarith

end Props.Stability
