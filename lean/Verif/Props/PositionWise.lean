import Verif.Props.BeamSearch
import Verif.Props.ChainMask
import Verif.Proofs.KBest

/-! Property theorems about autoregressive models whose scores depend on the position only, and the linear chain that stands for them: C103. -/

open Finset Spec Autoregressive BeamSearch

noncomputable section
namespace Props.PositionWise
open _root_.LinearChain Props.LinearChain Props.ChainMask Props.BeamSearch
variable {St : Type}

/-- The sequences of `n` classes. -/
abbrev Seqs (C n : ℕ) := {y : List ℕ // IsSeq C n y}

/-! ### When greedy search and beam search are exact -/

theorem isGreedy_best {nm : Bool} {step : ARStep St} {C : ℕ} {s0 : St} {x0 : Tok} {y : List ℕ} : ∀ {n : ℕ}, PrefixMonotone nm step C s0 x0 n → IsSeq C n y →
    IsGreedy C step s0 x0 y → ∀ y', IsSeq C n y' → arScore nm step s0 x0 y' ≤ arScore nm step s0 x0 y := by
  induction y using List.reverseRecOn with
  | nil =>
    intro n _ hy _ y' hy'
    have : y' = [] := List.length_eq_zero_iff.1 (hy'.1.trans hy.1.symm)
    rw [this]
  | append_singleton y c ih =>
    intro n hmono hy hgr y' hy'
    obtain ⟨n, rfl⟩ : ∃ m, n = m + 1 := ⟨y.length, by rw [← hy.1]; simp⟩
    obtain ⟨z, e, rfl⟩ : ∃ z e, y' = z ++ [e] := by
      have hne : y' ≠ [] := by intro h0; have := hy'.1; rw [h0] at this; simp at this
      exact ⟨_, _, (List.dropLast_append_getLast hne).symm⟩
    have hys : IsSeq C n y := ⟨by have := hy.1; simp at this; exact this, fun x hx => hy.2 x (by simp [hx])⟩
    have hzs : IsSeq C n z := ⟨by have := hy'.1; simp at this; exact this, fun x hx => hy'.2 x (by simp [hx])⟩
    have he : e < C := hy'.2 e (by simp)
    rw [isGreedy_snoc] at hgr
    refine (hmono n (by omega) z y e hzs hys he (ih (fun t ht => hmono t (by omega)) hys hgr.1 z hzs)).trans ?_
    rw [arScore_snoc, arScore_snoc, add_le_add_iff_left, arNorm_le]
    exact hgr.2 e he

/-- **C103.**  If continuing two prefixes by the same class never changes their order, then `greedy_max` returns a sequence with the largest `log_prob` of all sequences. -/
theorem greedy_optimal (D : AR St) {step : ARStep St} (hD : IsCausal D step) (hN : 1 ≤ D.nLength) (hC : 1 ≤ D.nClasses) {pick : List ℝ → ℕ}
    (hp : IsArgmaxIdx pick) (d : St)
    (hmono : ∀ b < D.init.length, PrefixMonotone D.normalize step D.nClasses (D.init.getD b d) (.hard D.startClass) D.nLength) :
    ∃ path value logits, D.greedyMax pick = .ok (path, value, logits) ∧
      D.logProb (asValue D 1 fun _ => path) = .ok [(List.range D.init.length).map value] ∧
      ∀ b < D.init.length, ∃ y : Seqs D.nClasses D.nLength,
        (∀ t < D.nLength, ∀ c < D.nClasses, path b t c = if y.1.getD t 0 = c then 1 else 0) ∧
        value b = arScore D.normalize step (D.init.getD b d) (.hard D.startClass) y.1 ∧
        ∀ y' : Seqs D.nClasses D.nLength, arScore D.normalize step (D.init.getD b d) (.hard D.startClass) y'.1 ≤ value b := by
  obtain ⟨path, value, logits, h1, h2, h3⟩ := greedy_spec D hD hN hC hp d
  refine ⟨path, value, logits, h1, h2, fun b hb => ?_⟩
  obtain ⟨y, g1, g2, g3, g4, _⟩ := h3 b hb
  exact ⟨⟨y, g1⟩, g3, g4, fun y' => by rw [g4]; exact isGreedy_best (hmono b hb) g1 g2 y'.1 y'.2⟩

/-- **C103.**  In the same case `beam_topk(K)` returns the `K` best sequences, for every `K` up to the number of sequences, provided that the scores of equally long
sequences differ by less than `1e5`. -/
theorem beam_optimal (D : AR St) {step : ARStep St} (hD : IsCausal D step) (hN : 1 ≤ D.nLength) (hC : 1 ≤ D.nClasses) {K : ℕ} (hK : 1 ≤ K)
    (hle : K ≤ D.nClasses ^ D.nLength) {sel : List ℝ → List ℕ} (hs : IsTopkIdx K sel) (d : St)
    (hg : ∀ b < D.init.length, Guard D.normalize step D.nClasses (D.init.getD b d) (.hard D.startClass) D.nLength)
    (hmono : ∀ b < D.init.length, PrefixMonotone D.normalize step D.nClasses (D.init.getD b d) (.hard D.startClass) D.nLength) :
    ∃ path value, D.beamTopk K sel = .ok (path, value) ∧
      D.logProb (asValue D K path) = .ok ((List.range K).map fun k => (List.range D.init.length).map fun b => value k b) ∧
      ∀ b < D.init.length, ∃ ys : List (Seqs D.nClasses D.nLength),
        IsKBest (fun y => arScore D.normalize step (D.init.getD b d) (.hard D.startClass) y.1) K ys ∧
        (List.range K).map (fun k => value k b) = ys.map (fun y => arScore D.normalize step (D.init.getD b d) (.hard D.startClass) y.1) ∧
        ∀ k (hk : k < ys.length), ∀ t < D.nLength, ∀ c < D.nClasses, path k b t c = if ys[k].1.getD t 0 = c then 1 else 0 := by
  obtain ⟨path, value, h1, origin, y, h2, h3⟩ := beam_general D hD hN hC hK hs d
  have hval : ∀ k < K, ∀ b < D.init.length, value k b = arScore D.normalize step (D.init.getD b d) (.hard D.startClass) (y k b) := fun k hk b hb => by
    rw [((h3 b hb).1 k hk).2.2.2, if_pos ((h3 b hb).2.2.2.1 (hg b hb) hle k hk), zero_add]
  refine ⟨path, value, h1, ?_, fun b hb => ?_⟩
  · rw [h2]
    refine congrArg Except.ok (List.map_congr_left fun k hk => List.map_congr_left fun b hb => ?_)
    exact (hval k (List.mem_range.1 hk) b (List.mem_range.1 hb)).symm
  · obtain ⟨g1, g2, g3, g4, g5⟩ := h3 b hb
    obtain ⟨_, gex⟩ := g5 (hg b hb) (Or.inr (hmono b hb))
    refine ⟨List.ofFn fun k : Fin K => ⟨y k b, (g1 k k.2).1⟩, ⟨?_, by simp, ?_, ?_⟩, ?_, ?_⟩
    · rw [List.nodup_ofFn]
      intro k k' he
      exact Fin.ext (g3 k k.2 k' k'.2 (congrArg Subtype.val he) ((g4 (hg b hb) hle k k.2).trans (g4 (hg b hb) hle k' k'.2).symm))
    · rw [List.pairwise_ofFn]
      intro k k' hkk
      have := g2 k k' hkk.le k'.2
      rw [hval k k.2 b hb, hval k' k'.2 b hb] at this
      exact this
    · intro y' hy' z hz
      obtain ⟨k, rfl⟩ := (List.mem_ofFn' _ _).1 hz
      rcases gex y'.1 y'.2 with ⟨k', hk', _, he⟩ | hall
      · exact absurd ((List.mem_ofFn' _ _).2 ⟨⟨k', hk'⟩, Subtype.ext he⟩) hy'
      · have := hall k k.2
        rw [hval k k.2 b hb] at this
        exact this
    · refine List.ext_getElem (by simp) fun k hk1 hk2 => ?_
      have hk : k < K := by simpa using hk1
      simp only [List.getElem_map, List.getElem_range, List.getElem_ofFn]
      exact hval k hk b hb
    · intro k hk t ht c hc
      have hk : k < K := by simpa using hk
      rw [List.getElem_ofFn]
      exact (g1 k hk).2.2.1 t ht c hc

/-! ### Networks that look at the position only -/

theorem PositionWise.snoc {nm : Bool} {step : ARStep St} {C : ℕ} {s0 : St} {x0 : Tok} {n : ℕ} {v : ℕ → ℕ → ℝ} (h : PositionWise nm step C s0 x0 n v)
    {t : ℕ} (ht : t < n) {y : List ℕ} {c : ℕ} (hy : IsSeq C t y) (hc : c < C) : arScore nm step s0 x0 (y ++ [c]) = arScore nm step s0 x0 y + v t c := by
  have hyc : IsSeq C (t + 1) (y ++ [c]) := ⟨by simp [hy.1], fun x hx => by
    rcases List.mem_append.1 hx with hx | hx
    · exact hy.2 x hx
    · rw [List.mem_singleton.1 hx]; exact hc⟩
  rw [h (t + 1) ht _ hyc, h t ht.le y hy, sum_range_succ]
  congr 1
  · refine sum_congr rfl fun i hi => ?_
    rw [List.getD_append _ _ _ _ (by rw [hy.1]; exact mem_range.1 hi)]
  · rw [List.getD_append_right _ _ _ _ (by rw [hy.1]), hy.1, Nat.sub_self, List.getD_cons_zero]

/-- Such networks never change the order of prefixes. -/
theorem positionWise_monotone {nm : Bool} {step : ARStep St} {C : ℕ} {s0 : St} {x0 : Tok} {n : ℕ} {v : ℕ → ℕ → ℝ} (h : PositionWise nm step C s0 x0 n v) :
    PrefixMonotone nm step C s0 x0 n := by
  intro t ht y y' c hy hy' hc hle
  rw [PositionWise.snoc h ht hy hc, PositionWise.snoc h ht hy' hc]
  exact add_le_add_left hle _

/-- The scores are bounded if the entries of the table are. -/
theorem positionWise_guard {nm : Bool} {step : ARStep St} {C : ℕ} {s0 : St} {x0 : Tok} {n : ℕ} {v : ℕ → ℕ → ℝ} (h : PositionWise nm step C s0 x0 n v)
    {M : ℝ} (hM0 : 0 ≤ M) (hM : ∀ t < n, ∀ c < C, |v t c| ≤ M) (hn : 2 * n * M < 100000) : Guard nm step C s0 x0 n := by
  have hb : ∀ t ≤ n, ∀ y, IsSeq C t y → |arScore nm step s0 x0 y| ≤ n * M := by
    intro t ht y hy
    rw [h t ht y hy]
    refine (abs_sum_le_sum_abs _ _).trans ((sum_le_card_nsmul _ _ M fun i hi => ?_).trans ?_)
    · have hi := mem_range.1 hi
      refine hM i (by omega) _ (hy.2 _ ?_)
      rw [List.getD_eq_getElem _ _ (by rw [hy.1]; exact hi)]
      exact List.getElem_mem _
    · rw [card_range, nsmul_eq_mul]
      exact mul_le_mul_of_nonneg_right (by exact_mod_cast ht) hM0
  intro t ht y y' hy hy'
  have h1 := abs_le.1 (hb t ht y hy)
  have h2 := abs_le.1 (hb t ht y' hy')
  rw [Semirings.negInf]; linarith

/-! ### The linear chain -/

/-- The potentials of tests/test_distributions.py:90-92 for a table `v` of scores (by batch row, position and class): the first edge carries the scores of position 0
on its diagonal and `-1e9` elsewhere, edge `n` the scores of position `n`, whatever the tag before. -/
abbrev asChain (B N C : ℕ) (v : ℕ → ℕ → ℕ → ℝ) : T4 ℝ :=
  ⟨B, N, C, C, fun b n i j => if n = 0 then if i = j then v b 0 i else -1000000000 else v b n i⟩

/-- The transitions of `asChain` that are not forbidden. -/
def Kept (C : ℕ) : ℕ → Fin C → Fin C → Prop := fun n i j => n = 0 → i = j

variable {B N C : ℕ} {v : ℕ → ℕ → ℕ → ℝ}

theorem asChain_valid (hN : 1 ≤ N) (hC : 1 ≤ C) : Valid (asChain B N C v) none := ⟨rfl, hN, hC, trivial⟩

theorem asChain_masked {M : ℝ} (hM0 : 0 ≤ M) (hM : ∀ b < B, ∀ t < N, ∀ c < C, |v b t c| ≤ M) (hn : 2 * N * M < 100000) :
    Masked (asChain B N C v) none (fun _ => Kept C) M := by
  refine ⟨hM0, fun b hb n hn i j hA => ?_, fun b hb n hn i j hA => ?_, fun b hb => hn⟩
  · have hn : n < N := hn
    change |if n = 0 then if (i : ℕ) = j then v b 0 i else -1000000000 else v b n i| ≤ M
    by_cases h0 : n = 0
    · rw [if_pos h0, if_pos (congrArg Fin.val (hA h0))]
      exact hM b hb 0 (by omega) i i.2
    · rw [if_neg h0]; exact hM b hb n hn i i.2
  · rw [Kept, Classical.not_imp] at hA
    change (if n = 0 then if (i : ℕ) = j then v b 0 i else -1000000000 else v b n i) ≤ _
    rw [if_pos hA.1, if_neg fun h => hA.2 (Fin.ext h)]
    norm_num

/-- The kept tag sequences are the sequences of `N` classes: the first class is written twice. -/
def seqEquiv (hN : 1 ≤ N) : AllowedTags N (Kept C) ≃ Seqs C N where
  toFun y := ⟨List.ofFn fun n : Fin N => (y.1 n.succ : ℕ), by simp, fun c hc => by
    obtain ⟨n, rfl⟩ := (List.mem_ofFn' _ _).1 hc; exact (y.1 n.succ).2⟩
  invFun z := ⟨fun m => ⟨z.1[(m : ℕ) - 1]'(by rw [z.2.1]; omega), z.2.2 _ (List.getElem_mem _)⟩, fun n h0 => by simp [h0]⟩
  left_inv y := by
    refine Subtype.ext (funext fun m => ?_)
    refine Fin.ext ?_
    simp only [List.getElem_ofFn]
    by_cases h0 : (m : ℕ) = 0
    · have e := y.2 ⟨0, hN⟩ rfl
      have e1 : (⟨0, hN⟩ : Fin N).castSucc = m := Fin.ext h0.symm
      rw [e1] at e
      have e2 : (⟨(m : ℕ) - 1, by omega⟩ : Fin N).succ = (⟨0, hN⟩ : Fin N).succ := Fin.ext (by simp [h0])
      rw [e2, e]
    · have e2 : (⟨(m : ℕ) - 1, by omega⟩ : Fin N).succ = m := Fin.ext (by simp; omega)
      rw [e2]
  right_inv z := by
    refine Subtype.ext (List.ext_getElem (by simp [z.2.1]) fun n h1 h2 => ?_)
    simp

theorem seqEquiv_getD (hN : 1 ≤ N) (y : AllowedTags N (Kept C)) (n : Fin N) : (seqEquiv hN y).1.getD n 0 = y.1 n.succ := by
  have : (seqEquiv hN y).1 = List.ofFn fun n : Fin N => (y.1 n.succ : ℕ) := rfl
  rw [this, List.getD_eq_getElem _ _ (by simp), List.getElem_ofFn]

theorem seqEquiv_score (hN : 1 ≤ N) (b : ℕ) (y : AllowedTags N (Kept C)) :
    seqScore (row (asChain B N C v) b) y.1 = ∑ i ∈ range N, v b i ((seqEquiv hN y).1.getD i 0) := by
  rw [seqScore, Finset.sum_range fun i => v b i ((seqEquiv hN y).1.getD i 0)]
  refine sum_congr rfl fun n _ => ?_
  rw [seqEquiv_getD]
  change (if (n : ℕ) = 0 then if ((y.1 n.succ : ℕ)) = y.1 n.castSucc then v b 0 (y.1 n.succ) else -1000000000 else v b n (y.1 n.succ)) = _
  by_cases h0 : (n : ℕ) = 0
  · rw [if_pos h0, if_pos (congrArg Fin.val (y.2 n h0)), h0]
  · rw [if_neg h0]

theorem sum_edges (y : AllowedTags N (Kept C)) (hN : 1 ≤ N) {t : ℕ} (ht : t < N) (c : Fin C) :
    (∑ j : Fin C, if UsesEdge y.1 t c j then (1 : ℝ) else 0) = if (seqEquiv hN y).1.getD t 0 = c then 1 else 0 := by
  have e := seqEquiv_getD hN y ⟨t, ht⟩
  simp only at e
  rw [e]
  have hu : ∀ j : Fin C, UsesEdge y.1 t c j ↔ y.1 (⟨t, ht⟩ : Fin N).succ = c ∧ y.1 (⟨t, ht⟩ : Fin N).castSucc = j := fun j =>
    ⟨fun ⟨_, h1, h2⟩ => ⟨h1, h2⟩, fun ⟨h1, h2⟩ => ⟨ht, h1, h2⟩⟩
  by_cases hc : y.1 (⟨t, ht⟩ : Fin N).succ = c
  · rw [if_pos (congrArg Fin.val hc), Finset.sum_eq_single (y.1 (⟨t, ht⟩ : Fin N).castSucc)]
    · rw [if_pos ((hu _).2 ⟨hc, rfl⟩)]
    · intro j _ hj
      rw [if_neg fun h => hj ((hu j).1 h).2.symm]
    · intro h; exact absurd (mem_univ _) h
  · rw [if_neg fun h => hc (Fin.ext h)]
    exact sum_eq_zero fun j _ => if_neg fun h => hc ((hu j).1 h).1

theorem isKBest_equiv {ι κ : Type} (e : ι ≃ κ) {f : ι → ℝ} {g : κ → ℝ} (h : ∀ y, f y = g (e y)) {k : ℕ} {ys : List ι} (hb : IsKBest f k ys) :
    IsKBest g k (ys.map e) := by
  refine ⟨hb.distinct.map e.injective, by rw [List.length_map, hb.length], ?_, fun y' hy' z hz => ?_⟩
  · rw [List.pairwise_map]
    exact hb.sorted.imp fun {a b} hab => by rw [← h, ← h]; exact hab
  · obtain ⟨y, hy, rfl⟩ := List.mem_map.1 hz
    rw [← e.apply_symm_apply y', ← h, ← h]
    refine hb.best _ (fun hin => hy' ?_) y hy
    rw [← e.apply_symm_apply y']
    exact List.mem_map_of_mem hin

variable (D : AR St) {step : ARStep St} (hD : IsCausal D step) (hN : 1 ≤ D.nLength) (hC : 1 ≤ D.nClasses) (d : St) (v : ℕ → ℕ → ℕ → ℝ)
  (hv : ∀ b < D.init.length, PositionWise D.normalize step D.nClasses (D.init.getD b d) (.hard D.startClass) D.nLength (v b))
  {M : ℝ} (hM0 : 0 ≤ M) (hM : ∀ b < D.init.length, ∀ t < D.nLength, ∀ c < D.nClasses, |v b t c| ≤ M) (hn : 2 * D.nLength * M < 100000)
include hD hN hC hv hM0 hM hn

/-- **C103** (tests/test_distributions.py:117-124, 131-138, for every table of scores).  For a network that looks at the position only, `greedy_max` and
`LinearChainCRF(asChain)` agree: the `log_prob` of the greedy path is `LinearChainCRF.max`, and if the best sequence is unique, the greedy path is
`LinearChainCRF.argmax.sum(-1)`. -/
theorem greedy_agrees {pick : List ℝ → ℕ} (hp : IsArgmaxIdx pick) (pick' : List (Autograd.Grad (List ℕ)) → Autograd.Grad (List ℕ))
    (hpick : Autograd.IsArgmax Prod.fst pick') :
    ∃ path value logits μ, D.greedyMax pick = .ok (path, value, logits) ∧
      D.logProb (asValue D 1 fun _ => path) = .ok [(List.range D.init.length).map value] ∧
      Dist.max algo (asChain D.init.length D.nLength D.nClasses v) none = .ok ((List.range D.init.length).map value) ∧
      Dist.argmax algo (asChain D.init.length D.nLength D.nClasses v) none pick' = .ok μ ∧
      ∀ b < D.init.length, (∀ y y' : Seqs D.nClasses D.nLength, arScore D.normalize step (D.init.getD b d) (.hard D.startClass) y.1 = value b →
          arScore D.normalize step (D.init.getD b d) (.hard D.startClass) y'.1 = value b → y = y') →
        ∀ t < D.nLength, ∀ c : Fin D.nClasses, (path b t c : ℝ) = ∑ j : Fin D.nClasses, μ [b, t, c, j] := by
  obtain ⟨path, value, logits, h1, h2, h3⟩ := greedy_optimal D hD hN hC hp d fun b hb => positionWise_monotone (hv b hb)
  have hne : ∀ b < (asChain D.init.length D.nLength D.nClasses v).d0, Nonempty (AllowedTags (numEdges (asChain D.init.length D.nLength D.nClasses v) none b)
      (Kept D.nClasses)) := fun b hb => by
    obtain ⟨y, _⟩ := h3 b hb
    exact ⟨(seqEquiv hN).symm y⟩
  obtain ⟨μ, vs, g1, g2, g3, g4⟩ := argmax_masked (asChain D.init.length D.nLength D.nClasses v) none (asChain_valid hN hC) (fun _ => Kept D.nClasses) M (asChain_masked hM0 hM hn) hne pick' hpick
  have hg3 : vs.length = D.init.length := g3
  have key : ∀ b (hb : b < D.init.length), ∃ y : AllowedTags D.nLength (Kept D.nClasses),
      vs[b] = value b ∧ arScore D.normalize step (D.init.getD b d) (.hard D.startClass) (seqEquiv hN y).1 = value b ∧
      ∀ n < D.nLength, ∀ i j : Fin D.nClasses, μ [b, n, i, j] = if UsesEdge y.1 n i j then 1 else 0 := by
    intro b hb
    obtain ⟨y, e1, e2, e3⟩ := g4 b (by omega)
    obtain ⟨z, f1, f2, f3⟩ := h3 b hb
    have hs : ∀ y : AllowedTags D.nLength (Kept D.nClasses), seqScore (row (asChain D.init.length D.nLength D.nClasses v) b) y.1 =
        arScore D.normalize step (D.init.getD b d) (.hard D.startClass) (seqEquiv hN y).1 := fun y => by
      rw [seqEquiv_score hN, hv b hb _ le_rfl _ (seqEquiv hN y).2]
    have e : vs[b] = value b := by
      refine le_antisymm ?_ ?_
      · rw [e1]; exact (hs y).trans_le (f3 _)
      · have := e2 ((seqEquiv hN).symm z)
        have h5 := hs ((seqEquiv hN).symm z)
        rw [Equiv.apply_symm_apply, ← f2] at h5
        rw [← h5]; exact this
    exact ⟨y, e, (hs y).symm.trans (e1.symm.trans e), e3⟩
  refine ⟨path, value, logits, μ, h1, h2, ?_, g1, fun b hb hu t ht c => ?_⟩
  · rw [g2]
    refine congrArg Except.ok (List.ext_getElem (by simp [hg3]) fun b hb1 hb2 => ?_)
    obtain ⟨_, e, _⟩ := key b (by omega)
    rw [List.getElem_map, List.getElem_range]; exact e
  · obtain ⟨y, _, e2, e3⟩ := key b hb
    obtain ⟨z, f1, f2, _⟩ := h3 b hb
    have e : seqEquiv hN y = z := hu _ _ e2 f2.symm
    rw [f1 t ht c c.2, ← e]
    push_cast
    rw [← sum_edges y hN ht c]
    exact sum_congr rfl fun j _ => (e3 t ht c j).symm

/-- **C103** (tests/test_distributions.py:126-129, for every table of scores and every `K` up to the number of sequences).  The values of the beams are `LinearChainCRF.kmax(K)`, and if
no two sequences have the same score, the beams are `LinearChainCRF.topk(K).sum(-1)`. -/
theorem beam_agrees {K : ℕ} (hK : 1 ≤ K) (hle : K ≤ D.nClasses ^ D.nLength) {sel : List ℝ → List ℕ} (hs : IsTopkIdx K sel)
    (sel' : List (Autograd.Grad (List ℕ)) → List (Autograd.Grad (List ℕ))) (hsel : Autograd.IsTopk Prod.fst K sel') :
    ∃ path value, ∃ μ : ℕ → List ℕ → ℝ, D.beamTopk K sel = .ok (path, value) ∧
      D.logProb (asValue D K path) = .ok ((List.range K).map fun k => (List.range D.init.length).map fun b => value k b) ∧
      Dist.kmax algo (asChain D.init.length D.nLength D.nClasses v) none K =
        .ok ((List.range D.init.length).map fun b => (List.range K).map fun k => value k b) ∧
      (∀ k < K, Dist.topk algo (asChain D.init.length D.nLength D.nClasses v) none K sel' k = .ok (μ k)) ∧
      ∀ b < D.init.length, (∀ y y' : Seqs D.nClasses D.nLength, arScore D.normalize step (D.init.getD b d) (.hard D.startClass) y.1 =
          arScore D.normalize step (D.init.getD b d) (.hard D.startClass) y'.1 → y = y') →
        ∀ k < K, ∀ t < D.nLength, ∀ c : Fin D.nClasses, (path k b t c : ℝ) = ∑ j : Fin D.nClasses, μ k [b, t, c, j] := by
  classical
  obtain ⟨path, value, h1, h2, h3⟩ := beam_optimal D hD hN hC hK hle hs d (fun b hb => positionWise_guard (hv b hb) hM0 (hM b hb) hn)
    fun b hb => positionWise_monotone (hv b hb)
  have hcard : Fintype.card (AllowedTags D.nLength (Kept D.nClasses)) = D.nClasses ^ D.nLength := by
    have e : AllowedTags D.nLength (Kept D.nClasses) ≃ (Fin D.nLength → Fin D.nClasses) :=
      (seqEquiv hN).trans
        { toFun := fun z t => ⟨z.1[(t : ℕ)]'(by rw [z.2.1]; exact t.2), z.2.2 _ (List.getElem_mem _)⟩
          invFun := fun f => ⟨List.ofFn fun t => (f t : ℕ), by simp, fun c hc => by obtain ⟨n, rfl⟩ := (List.mem_ofFn' _ _).1 hc; exact (f n).2⟩
          left_inv := fun z => Subtype.ext (List.ext_getElem (by simp [z.2.1]) fun n _ _ => by simp)
          right_inv := fun f => funext fun t => Fin.ext (by simp) }
    rw [Fintype.card_congr e]; simp
  obtain ⟨vs, μ, g1, g2, g3, g4⟩ := topk_masked (asChain D.init.length D.nLength D.nClasses v) none (asChain_valid hN hC) (fun _ => Kept D.nClasses) M (asChain_masked hM0 hM hn) K hK
    (fun b hb => hle.trans_eq hcard.symm) sel' hsel
  have hg2 : vs.length = D.init.length := g2
  have hsc : ∀ b < D.init.length, ∀ y : AllowedTags D.nLength (Kept D.nClasses),
      seqScore (row (asChain D.init.length D.nLength D.nClasses v) b) y.1 =
        arScore D.normalize step (D.init.getD b d) (.hard D.startClass) (seqEquiv hN y).1 := fun b hb y => by
    rw [seqEquiv_score hN, hv b hb _ le_rfl _ (seqEquiv hN y).2]
  have hval : ∀ b (hb : b < D.init.length), ∃ (zs : List (AllowedTags D.nLength (Kept D.nClasses))) (ys : List (Seqs D.nClasses D.nLength)),
      zs.length = K ∧ ys.length = K ∧ vs[b] = (List.range K).map (fun k => value k b) ∧
      (zs.map fun z => arScore D.normalize step (D.init.getD b d) (.hard D.startClass) (seqEquiv hN z).1) =
        ys.map (fun y => arScore D.normalize step (D.init.getD b d) (.hard D.startClass) y.1) ∧
      (∀ k (hk : k < ys.length), ∀ t < D.nLength, ∀ c < D.nClasses, path k b t c = if ys[k].1.getD t 0 = c then 1 else 0) ∧
      ∀ s (hs : s < zs.length), ∀ n < D.nLength, ∀ i j : Fin D.nClasses, μ s [b, n, i, j] = if UsesEdge zs[s].1 n i j then 1 else 0 := by
    intro b hb
    obtain ⟨zs, e1, e2, e3⟩ := g4 b (by omega)
    obtain ⟨ys, f1, f2, f3⟩ := h3 b hb
    change List (AllowedTags D.nLength (Kept D.nClasses)) at zs
    have hu := IsKBest.unique e1 (isKBest_equiv (seqEquiv hN).symm (g := fun y => seqScore (row (asChain D.init.length D.nLength D.nClasses v) b) y.1)
      (fun y => ((hsc b hb _).trans (by rw [Equiv.apply_symm_apply])).symm) f1)
    have hu2 : zs.map (fun y => seqScore (row (asChain D.init.length D.nLength D.nClasses v) b) y.1) =
        ys.map (fun y => arScore D.normalize step (D.init.getD b d) (.hard D.startClass) y.1) := by
      refine hu.trans ((List.map_map (l := ys)).trans (List.map_congr_left fun y _ => ?_))
      exact (hsc b hb _).trans (by rw [Equiv.apply_symm_apply])
    refine ⟨zs, ys, e1.length, f1.length, e2.trans (hu2.trans f2.symm), ?_, f3, e3⟩
    rw [← hu2]
    exact List.map_congr_left fun y _ => (hsc b hb y).symm
  refine ⟨path, value, μ, h1, h2, ?_, g3, fun b hb hu k hk t ht c => ?_⟩
  · rw [g1]
    refine congrArg Except.ok (List.ext_getElem (by simp [hg2]) fun b hb1 hb2 => ?_)
    obtain ⟨_, _, _, _, e, _⟩ := hval b (by omega)
    rw [List.getElem_map, List.getElem_range]; exact e
  · obtain ⟨zs, ys, l1, l2, _, e, f1, f2⟩ := hval b hb
    have hkz : k < zs.length := by omega
    have hky : k < ys.length := by omega
    have ek := List.getElem_of_eq e (i := k) (by simpa using hkz)
    simp only [List.getElem_map] at ek
    have ez : seqEquiv hN zs[k] = ys[k] := hu _ _ ek
    rw [f1 k hky t ht c c.2, ← ez]
    push_cast
    rw [← sum_edges zs[k] hN ht c]
    exact sum_congr rfl fun j _ => (f2 k hkz t ht c j).symm

/-! ### An instance -/

/-- The network of tests/test_distributions.py:96-115, one row: the state is the batch row and the position, and the logits are the entries of the table at that position;
behind the table they are 0.  (In the test the row is the place in the batch, and the state is the position.) -/
def tableStep (N C : ℕ) (v : ℕ → ℕ → ℕ → ℝ) : ARStep (ℕ × ℕ) := fun s _ => ((List.range C).map fun c => if s.2 < N then v s.1 s.2 c else 0, (s.1, s.2 + 1))

/-- The distribution of the test, with `normalize=False`. -/
def tableAR (B N C : ℕ) (v : ℕ → ℕ → ℕ → ℝ) : AR (ℕ × ℕ) :=
  ⟨fun rows states => (List.zipWith (fun row s => (runStep (tableStep N C v) s row).1) rows states,
    List.zipWith (fun row s => (runStep (tableStep N C v) s row).2) rows states), (List.range B).map fun b => (b, 0), C, N, false, 0⟩

omit hD hN hC hv hM0 hM hn
omit D step d v M

theorem tableAR_causal (B N C : ℕ) (v : ℕ → ℕ → ℕ → ℝ) : IsCausal (tableAR B N C v) (tableStep N C v) :=
  ⟨fun _ _ _ => rfl, fun _ _ => by simp [tableStep, tableAR]⟩

theorem table_score (N C : ℕ) (v : ℕ → ℕ → ℕ → ℝ) (b : ℕ) : ∀ (y : List ℕ) (t : ℕ) (x : Tok), t + y.length ≤ N → (∀ c ∈ y, c < C) →
    arScore false (tableStep N C v) (b, t) x y = ∑ i ∈ range y.length, v b (t + i) (y.getD i 0)
  | [], t, x, _, _ => by simp [arScore]
  | c :: y, t, x, h, hc => by
    have hlen : t + (y.length + 1) ≤ N := by simpa using h
    have ih := table_score N C v b y (t + 1) (.hard c) (by omega) fun e he => hc e (List.mem_cons_of_mem _ he)
    have hcc := hc c List.mem_cons_self
    rw [arScore, List.length_cons, sum_range_succ', add_comm]
    have e1 : arNorm false (tableStep N C v (b, t) x).1 c = v b t c := by
      change ((List.range C).map fun c => if t < N then v b t c else 0).getD c 0 = _
      rw [List.getD_eq_getElem _ _ (by simpa using hcc), List.getElem_map, List.getElem_range, if_pos (by omega)]
    rw [e1]
    congr 1
    refine ih.trans (sum_congr rfl fun i _ => ?_)
    rw [List.getD_cons_succ]
    congr 1
    omega

/-- The network of the test looks at the position only. -/
theorem table_positionWise (B N C : ℕ) (v : ℕ → ℕ → ℕ → ℝ) : ∀ b < (tableAR B N C v).init.length,
    PositionWise (tableAR B N C v).normalize (tableStep N C v) (tableAR B N C v).nClasses ((tableAR B N C v).init.getD b (0, 0)) (.hard (tableAR B N C v).startClass)
      (tableAR B N C v).nLength (v b) := by
  intro b hb t ht y hy
  have hb : b < B := by simpa [tableAR] using hb
  have e : (tableAR B N C v).init.getD b (0, 0) = (b, 0) := by
    change ((List.range B).map fun b => (b, 0)).getD b (0, 0) = _
    rw [List.getD_eq_getElem _ _ (by simpa using hb), List.getElem_map, List.getElem_range]
  rw [e]
  refine (table_score N C v b y 0 _ (by have : t ≤ N := ht; rw [hy.1]; omega) hy.2).trans ?_
  rw [hy.1]
  exact sum_congr rfl fun i _ => by rw [Nat.zero_add]

/-- **C103.**  The test itself, for every batch size, length and number of classes, every table of scores below `1e5 / (2 N)` in absolute value, every `K` and every
tie-breaking rule of `torch.max` and `torch.topk`. -/
theorem test_autoregressive (B N C : ℕ) (hN : 1 ≤ N) (hC : 1 ≤ C) (v : ℕ → ℕ → ℕ → ℝ) {M : ℝ} (hM0 : 0 ≤ M)
    (hM : ∀ b < B, ∀ t < N, ∀ c < C, |v b t c| ≤ M) (hn : 2 * N * M < 100000) {K : ℕ} (hK : 1 ≤ K) (hle : K ≤ C ^ N)
    {pick : List ℝ → ℕ} (hp : IsArgmaxIdx pick) {sel : List ℝ → List ℕ} (hs : IsTopkIdx K sel)
    (pick' : List (Autograd.Grad (List ℕ)) → Autograd.Grad (List ℕ)) (hpick : Autograd.IsArgmax Prod.fst pick')
    (sel' : List (Autograd.Grad (List ℕ)) → List (Autograd.Grad (List ℕ))) (hsel : Autograd.IsTopk Prod.fst K sel') :
    ∃ path value logits paths values μ, ∃ ν : ℕ → List ℕ → ℝ, (tableAR B N C v).greedyMax pick = .ok (path, value, logits) ∧
      (tableAR B N C v).beamTopk K sel = .ok (paths, values) ∧
      (tableAR B N C v).logProb (asValue (tableAR B N C v) 1 fun _ => path) = .ok [(List.range B).map value] ∧
      (tableAR B N C v).logProb (asValue (tableAR B N C v) K paths) = .ok ((List.range K).map fun k => (List.range B).map fun b => values k b) ∧
      Dist.max algo (asChain B N C v) none = .ok ((List.range B).map value) ∧
      Dist.kmax algo (asChain B N C v) none K = .ok ((List.range B).map fun b => (List.range K).map fun k => values k b) ∧
      Dist.argmax algo (asChain B N C v) none pick' = .ok μ ∧ (∀ k < K, Dist.topk algo (asChain B N C v) none K sel' k = .ok (ν k)) ∧
      ∀ b < B, (∀ y y' : Fin N → Fin C, ∑ t : Fin N, v b t (y t) = ∑ t : Fin N, v b t (y' t) → y = y') → ∀ t < N, ∀ c : Fin C,
        (path b t c : ℝ) = ∑ j : Fin C, μ [b, t, c, j] ∧ ∀ k < K, (paths k b t c : ℝ) = ∑ j : Fin C, ν k [b, t, c, j] := by
  have hB : (tableAR B N C v).init.length = B := by simp [tableAR]
  obtain ⟨path, value, logits, μ, h1, h2, h3, h4, h5⟩ := greedy_agrees (tableAR B N C v) (tableAR_causal B N C v) hN hC (0, 0) v (table_positionWise B N C v)
    hM0 (by rw [hB]; exact hM) hn hp pick' hpick
  obtain ⟨paths, values, ν, g1, g2, g3, g4, g5⟩ := beam_agrees (tableAR B N C v) (tableAR_causal B N C v) hN hC (0, 0) v (table_positionWise B N C v)
    hM0 (by rw [hB]; exact hM) hn hK hle hs sel' hsel
  rw [hB] at h2 h3 h4 g2 g3
  refine ⟨path, value, logits, paths, values, μ, ν, h1, g1, h2, g2, h3, g3, h4, fun k hk => ?_, fun b hb hu t ht c => ?_⟩
  · have := g4 k hk
    rw [hB] at this
    exact this
  have hdist : ∀ y y' : Seqs C N, arScore false (tableStep N C v) ((tableAR B N C v).init.getD b (0, 0)) (.hard 0) y.1 =
      arScore false (tableStep N C v) ((tableAR B N C v).init.getD b (0, 0)) (.hard 0) y'.1 → y = y' := by
    intro y y' he
    have hsum : ∀ y : Seqs C N, arScore false (tableStep N C v) ((tableAR B N C v).init.getD b (0, 0)) (.hard 0) y.1 =
        ∑ t : Fin N, v b t (⟨y.1[(t : ℕ)]'(by rw [y.2.1]; exact t.2), y.2.2 _ (List.getElem_mem _)⟩ : Fin C) := fun y => by
      refine (table_positionWise B N C v b (by rw [hB]; exact hb) N le_rfl y.1 y.2).trans ?_
      rw [Finset.sum_range fun i => v b i (y.1.getD i 0)]
      exact sum_congr rfl fun t _ => by rw [List.getD_eq_getElem _ _ (by rw [y.2.1]; exact t.2)]
    rw [hsum, hsum] at he
    have := hu _ _ he
    refine Subtype.ext (List.ext_getElem (y.2.1.trans y'.2.1.symm) fun t h1 h2 => ?_)
    exact congrArg Fin.val (congrFun this ⟨t, by rw [← y.2.1]; exact h1⟩)
  exact ⟨h5 b (by rw [hB]; exact hb) (fun y y' e1 e2 => hdist y y' (e1.trans e2.symm)) t ht c,
    fun k hk => g5 b (by rw [hB]; exact hb) hdist k hk t ht c⟩

/-- The hypotheses of `test_autoregressive` are met by the table of 3 rows, 5 positions and 2 classes with entries `b + 2^t c`, whose 32 sequences have different scores in
every row; so are those of `greedy_optimal` and `beam_optimal`. -/
example : (∀ b < 3, ∀ t < 5, ∀ c < 2, |((b : ℕ) + 2 ^ (t : ℕ) * (c : ℕ) : ℝ)| ≤ 18) ∧ (2 * (5 : ℕ) * 18 : ℝ) < 100000 ∧ 5 ≤ 2 ^ 5 ∧
    ∀ b : ℕ, ∀ y y' : Fin 5 → Fin 2, ∑ t : Fin 5, ((b : ℝ) + 2 ^ (t : ℕ) * ((y t : ℕ) : ℝ)) = ∑ t : Fin 5, ((b : ℝ) + 2 ^ (t : ℕ) * ((y' t : ℕ) : ℝ)) → y = y' := by
  refine ⟨?_, by norm_num, by norm_num, ?_⟩
  · intro b hb t ht c hc
    interval_cases b <;> interval_cases t <;> interval_cases c <;> norm_num
  · intro b y y' he
    simp only [sum_add_distrib, add_right_inj] at he
    have he' : ∑ t : Fin 5, 2 ^ (t : ℕ) * (y t : ℕ) = ∑ t : Fin 5, 2 ^ (t : ℕ) * (y' t : ℕ) := by exact_mod_cast he
    simp only [Fin.sum_univ_five, Fin.val_zero, Fin.val_one, Fin.val_two, show ((3 : Fin 5) : ℕ) = 3 from rfl, show ((4 : Fin 5) : ℕ) = 4 from rfl] at he'
    have h0 := (y 0).2; have h1 := (y 1).2; have h2 := (y 2).2; have h3 := (y 3).2; have h4 := (y 4).2
    have g0 := (y' 0).2; have g1 := (y' 1).2; have g2 := (y' 2).2; have g3 := (y' 3).2; have g4 := (y' 4).2
    funext t
    refine Fin.ext ?_
    fin_cases t <;> simp only [Fin.zero_eta, Fin.mk_one, Fin.reduceFinMk] <;> omega

/-- A network that remembers: the logits are 1, 0 at first, then 0, 0 after class 0 and 5, 0 after class 1. -/
def memStep : ARStep Bool := fun s x => match s, x with
  | false, _ => ([1, 0], true)
  | true, .hard 1 => ([5, 0], true)
  | true, _ => ([0, 0], true)

/-- Two steps of it. -/
def memAR : AR Bool :=
  ⟨fun rows states => (List.zipWith (fun row s => (runStep memStep s row).1) rows states, List.zipWith (fun row s => (runStep memStep s row).2) rows states),
    [false], 2, 2, false, 0⟩

/-- The hypothesis of `greedy_optimal` is needed: here the order of prefixes does change, and the value of `greedy_max` is 1 although a sequence has score 5. -/
theorem greedy_not_optimal {pick : List ℝ → ℕ} (hp : IsArgmaxIdx pick) : ∃ path value logits, memAR.greedyMax pick = .ok (path, value, logits) ∧ value 0 = 1 ∧
    ∃ y : Seqs 2 2, arScore false memStep false (.hard 0) y.1 = 5 := by
  have hc : IsCausal memAR memStep := ⟨fun _ _ _ => rfl, fun s x => by
    unfold memStep; split <;> rfl⟩
  obtain ⟨path, value, logits, h1, _, h3⟩ := greedy_spec memAR hc (by simp [memAR]) (by simp [memAR]) hp false
  obtain ⟨y, g1, g2, _, g4, _⟩ := h3 0 (by simp [memAR])
  refine ⟨path, value, logits, h1, ?_, ⟨[1, 0], rfl, by simp⟩, by simp [arScore, arNorm, memStep]⟩
  obtain ⟨a, b, rfl⟩ := List.length_eq_two.1 (show y.length = 2 from g1.1)
  have ha : a < 2 := g1.2 a (by simp)
  have hb : b < 2 := g1.2 b (by simp)
  rw [g4]
  have hgr : IsGreedy 2 memStep false (.hard 0) [a, b] := g2
  change arScore false memStep false (.hard 0) [a, b] = 1
  have h0 := hgr.1 0 (by norm_num)
  interval_cases a
  · interval_cases b <;> simp [arScore, arNorm, memStep]
  · simp [memStep] at h0
    linarith

end Props.PositionWise
