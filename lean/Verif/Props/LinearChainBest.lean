import Mathlib.Data.List.GetD
import Mathlib.Tactic.IntervalCases
import Verif.Proofs.ChainKBest
import Verif.Proofs.KBest
import Verif.Props.LinearChainMarginals

/-! Property theorems about `LinearChainCRF.argmax`, `kmax` and `topk`: C04, C05, C06. -/

open Finset Spec LinearChainProofs ChainProofs LinearChainLog ChainBounds ChainTop

noncomputable section
namespace Props.LinearChain
open _root_.LinearChain

/-- The sum of the unit gradients of the edges of a sequence. -/
def ind {L C : ℕ} (b : ℕ) (y : Tags L C) : List ℕ → ℝ :=
  ∑ n : Fin L, Pi.single [b, (n : ℕ), (y n.succ : ℕ), (y n.castSucc : ℕ)] 1

theorem ind_apply {L C : ℕ} (b : ℕ) (y : Tags L C) (n : ℕ) (i j : Fin C) :
    ind b y [b, n, (i : ℕ), (j : ℕ)] = if UsesEdge y n i j then 1 else 0 := by
  simp only [ind, Finset.sum_apply, Pi.single_apply]
  by_cases h : UsesEdge y n i j
  · obtain ⟨hn, h1, h2⟩ := h
    rw [if_pos ⟨hn, h1, h2⟩, sum_eq_single (⟨n, hn⟩ : Fin L)]
    · rw [if_pos]
      simp only [List.cons.injEq, true_and, and_true]
      exact ⟨congrArg Fin.val h1.symm, congrArg Fin.val h2.symm⟩
    · intro m _ hm
      rw [if_neg]
      intro hc
      simp only [List.cons.injEq] at hc
      exact hm (Fin.ext hc.2.1.symm)
    · simp
  · rw [if_neg h]
    refine sum_eq_zero fun m _ => ?_
    rw [if_neg]
    intro hc
    simp only [List.cons.injEq, true_and, and_true] at hc
    obtain ⟨h1, h2, h3⟩ := hc
    subst h1
    exact h ⟨m.2, (Fin.ext h2).symm, (Fin.ext h3).symm⟩

theorem ind_other {L C : ℕ} (b b' : ℕ) (y : Tags L C) (hb : b ≠ b') (n i j : ℕ) : ind b' y [b, n, i, j] = 0 := by
  simp only [ind, Finset.sum_apply, Pi.single_apply]
  refine sum_eq_zero fun m _ => ?_
  rw [if_neg]
  intro hc
  simp only [List.cons.injEq] at hc
  exact hb hc.1

/-- Gradient of a batch: only row `b` contributes to the entries of row `b`. -/
theorem gradOfSum_row (d0 : ℕ) (g : ℕ → Autograd.Grad (List ℕ)) (b : ℕ) (hb : b < d0) (n i j : ℕ)
    (hother : ∀ b' < d0, b ≠ b' → (g b').2 [b, n, i, j] = 0) :
    Dist.gradOfSum ((List.range d0).map g) [b, n, i, j] = (g b).2 [b, n, i, j] := by
  rw [Dist.gradOfSum, List.map_map, apply_list_sum]
  have : ∀ f : ℕ → ℝ, ((List.range d0).map f).sum = ∑ b ∈ range d0, f b := by
    intro f; rw [← List.sum_toFinset _ List.nodup_range, List.toFinset_range]
  rw [this, sum_eq_single b]
  · rfl
  · intro b' hb' hne; exact hother b' (mem_range.1 hb') hne.symm
  · intro hc; exact absurd (mem_range.2 hb) hc

theorem sum_pair {L : ℕ} {E : Type} (f : Fin L → ℝ) (g : Fin L → E → ℝ) :
    ∑ n, ((f n, g n) : ℝ × (E → ℝ)) = (∑ n, f n, ∑ n, g n) := by
  ext
  · simp [Prod.fst_sum]
  · simp [Prod.snd_sum]

/-- Best sequence of one row, for every tie-breaking rule. -/
theorem argmax_row {C N logN : ℕ} {pick : List (Autograd.Grad (List ℕ)) → Autograd.Grad (List ℕ)}
    (hpick : Autograd.IsArgmax Prod.fst pick) (hC : 0 < C) (hN : N - 1 ≤ 2 ^ logN) (lens : ℕ → ℕ) (p : ℕ → ℕ → Fin C → Fin C → ℝ)
    (b : ℕ) (hl : lens b ≤ N) (hp : ∀ n < lens b - 1, ∀ i j, -100000 < p b n i j) :
    ∃ y : Tags (lens b - 1) C, core (Autograd.max pick) N logN lens (leafRow p) b = (seqScore (p b) y, ind b y) ∧
      ∀ y' : Tags (lens b - 1) C, seqScore (p b) y' ≤ seqScore (p b) y := by
  set S := Autograd.max pick
  have hrel := core_rel (Bag.gradMax_isMaxSR hpick).rel hC N logN lens (leafRow p) b
    (fun n i j => Bag.single (maskedC S (lens b) n i j) + Bag.single (maskedL S N (lens b) (leafRow p b) n i j))
    (fun n hn i j => (Bag.gradMax_isMaxSR hpick).rel.sum2 (by simp [Bag.IsMax, S]) (by simp [Bag.IsMax, S]))
  have hz : Semirings.negInf = -100000 := rfl
  have hl1 : ∀ n < lens b - 1, ∀ i j, maskedL S N (lens b) (leafRow p b) n i j = leafRow p b n i j := by
    intro n hn i j
    have h2 : ¬ n ≥ lens b - 1 := by omega
    have h3 : n < N - 1 := by omega
    simp only [maskedL, SR.fill, S, Autograd.max, Autograd.detach, Autograd.setData, h2, h3, decide_false, if_true]
    simp
  have hc1 : ∀ n < lens b - 1, ∀ i j : Fin C, (maskedC S (lens b) n i j).1 < (leafRow p b n i j).1 := by
    intro n hn i j
    have h2 : ¬ n ≥ lens b - 1 := by omega
    simp only [maskedC, SR.fill, S, Autograd.max, Autograd.detach, Autograd.setData, h2, decide_false, Bool.not_false, if_true]
    exact hp n hn i j
  have hpad : ∀ n, lens b - 1 ≤ n → n < 2 ^ logN → ∀ i j : Fin C,
      (maskedC S (lens b) n i j = 0 ∨ (maskedC S (lens b) n i j).1 < 0) ∧
      (maskedL S N (lens b) (leafRow p b) n i j = 0 ∨ (maskedL S N (lens b) (leafRow p b) n i j).1 < 0) := by
    intro n hn hM i j
    have h2 : n ≥ lens b - 1 := by omega
    constructor
    · simp only [maskedC, SR.fill, S, Autograd.max, Autograd.detach, Autograd.setData, h2, decide_true, Bool.not_true]
      by_cases h : i = j
      · left; simp [h]
      · right; simp [h, hz]
    · right
      simp only [maskedL, SR.fill, S, Autograd.max, Autograd.detach, Autograd.setData, h2, decide_true, if_true, hz]
      norm_num
  have hid : ∀ n, lens b - 1 ≤ n → n < 2 ^ logN → ∀ i : Fin C, maskedC S (lens b) n i i = 0 := by
    intro n hn hM i
    have h2 : n ≥ lens b - 1 := by omega
    simp [maskedC, SR.fill, S, Autograd.max, Autograd.detach, Autograd.setData, h2]
  obtain ⟨⟨y, hy⟩, hbest⟩ := best_chain (score := Prod.fst) (fun _ _ => rfl) rfl (L := lens b - 1) (M := 2 ^ logN) (by omega)
    (fun n i j => maskedC S (lens b) n i j) (fun n i j => maskedL S N (lens b) (leafRow p b) n i j)
    (fun n i j => leafRow p b n i j) hl1 hc1 hpad hid hrel
  have hs : ∀ y : Tags (lens b - 1) C, ∑ n : Fin (lens b - 1), leafRow p b n (y n.succ) (y n.castSucc) = (seqScore (p b) y, ind b y) := by
    intro y; exact sum_pair _ _
  refine ⟨y, hy.trans (hs y), fun y' => ?_⟩
  have := hbest y'
  rw [hs, hy, hs] at this
  exact this

/-- **C04.** For every tie-breaking rule of `torch.max`, `LinearChainCRF.argmax` is the 0/1 edge indicator of one tag sequence of the row's
length (zero after it), and that sequence's score is `LinearChainCRF.max`.  Potentials must exceed the stand-in `-1e5`. -/
theorem argmax_spec (p : T4 ℝ) (lengths : Option (List ℕ)) (h : Valid p lengths)
    (hp : ∀ b < p.d0, ∀ n < numEdges p lengths b, ∀ i j : Fin p.d2, -100000 < row p b n i j)
    (pick : List (Autograd.Grad (List ℕ)) → Autograd.Grad (List ℕ)) (hpick : Autograd.IsArgmax Prod.fst pick) :
    ∃ μ vs, Dist.argmax algo p lengths pick = .ok μ ∧ Dist.max algo p lengths = .ok vs ∧ vs.length = p.d0 ∧
      ∀ b (hb : b < vs.length), ∃ y : Tags (numEdges p lengths b) p.d2,
        seqScore (row p b) y = vs[b] ∧
        ∀ n < p.d1, ∀ i j : Fin p.d2, μ [b, n, i, j] = if UsesEdge y n i j then 1 else 0 := by
  obtain ⟨vs, hm1, hm2, hm3⟩ := max_spec p lengths h fun b hb n hn i j => (hp b hb n hn i j).le
  have hok := logpartition_ok (Autograd.max pick) (Dist.leaves algo p) lengths h.square h.edges h.lens
  refine ⟨_, vs, (congrArg (Except.map Dist.gradOfSum) hok :), hm1, hm2, ?_⟩
  have hrow := fun b (hb : b < p.d0) => argmax_row hpick h.classes (N := p.d1 + 1) (logN := Nat.clog 2 p.d1)
    (by simpa using le_two_pow_clog p.d1) (lenOf (p.d1 + 1) lengths) (fun b n i j => p.get b n i j) b (lenOf_le h.lens b) (hp b hb)
  intro b hb
  obtain ⟨y, hy, hbest⟩ := hrow b (by omega)
  refine ⟨y, ?_, ?_⟩
  · obtain ⟨⟨y', e⟩, hup⟩ := hm3 b hb
    refine le_antisymm (hup y) ?_
    rw [e]; exact hbest y'
  · intro n hn i j
    refine (gradOfSum_row p.d0 _ b (by omega) n i j ?_).trans ?_
    · intro b' hb' hne
      obtain ⟨y', hy', _⟩ := hrow b' hb'
      exact (congrFun (congrArg Prod.snd hy') _).trans (ind_other b b' y' hne n i j)
    · exact (congrFun (congrArg Prod.snd hy) _).trans (ind_apply b y n i j)

/-- `B` bounds the absolute values of the potentials of the rows, and scores stay far from the stand-in `-1e5`. -/
structure SmallPotentials (p : T4 ℝ) (lengths : Option (List ℕ)) (B : ℝ) : Prop where
  nonneg : 0 ≤ B
  bound : ∀ b < p.d0, ∀ n < numEdges p lengths b, ∀ i j : Fin p.d2, |row p b n i j| ≤ B
  small : ∀ b < p.d0, 2 * numEdges p lengths b * B < 100000

/-- **C05.** `LinearChainCRF.kmax(k)` returns, for every row, the scores of `k` different tag sequences, best first, such that no other
sequence is better.  There must be `k` sequences, and scores must stay far from the stand-in `-1e5`. -/
theorem kmax_spec (p : T4 ℝ) (lengths : Option (List ℕ)) (h : Valid p lengths) (B : ℝ) (hB : SmallPotentials p lengths B) (k : ℕ)
    (hk : 0 < k) (hcount : ∀ b < p.d0, k ≤ p.d2 ^ (numEdges p lengths b + 1)) :
    ∃ vs, Dist.kmax algo p lengths k = .ok vs ∧ vs.length = p.d0 ∧
      ∀ b (hb : b < vs.length), ∃ ys : List (Tags (numEdges p lengths b) p.d2),
        IsKBest (seqScore (row p b)) k ys ∧ vs[b] = ys.map (seqScore (row p b)) := by
  have hok := logpartition_ok (Semirings.kmax k) (algo.map (Semirings.kmaxConvert k) p) lengths h.square h.edges h.lens
  refine ⟨_, hok, by simp; rfl, ?_⟩
  intro b hb
  have hb' : b < p.d0 := by rw [List.length_map, List.length_range] at hb; exact hb
  have := (ksr_kmax hk).chain h.classes (N := p.d1 + 1) (logN := Nat.clog 2 p.d1) (by simpa using le_two_pow_clog p.d1)
    (lenOf (p.d1 + 1) lengths) (fun b n i j => Semirings.kmaxConvert k (p.get b n i j)) b (lenOf_le h.lens b)
    (fun n i j => p.get b n i j) (by intros; simp [Semirings.kmaxConvert]) (fun _ _ _ _ => rfl) B hB.nonneg (hB.bound b hb')
    (by have := hB.small b hb'; simp only [neg_neg]; exact this) (hcount b hb')
  obtain ⟨ys, h1, h2, h3, h4, h5⟩ := top_family this
  refine ⟨ys, ⟨h1, h2, h4, h5⟩, ?_⟩
  simp only [List.getElem_map, List.getElem_range]
  exact h3

/-- **C06.** For every tie-breaking rule of `torch.topk`, the `k` slices of `LinearChainCRF.topk(k)` are the 0/1 edge indicators of `k`
different tag sequences, the best ones, in decreasing order of score, and these scores are the values of `kmax(k)`. -/
theorem topk_spec (p : T4 ℝ) (lengths : Option (List ℕ)) (h : Valid p lengths) (B : ℝ) (hB : SmallPotentials p lengths B) (k : ℕ)
    (hk : 0 < k) (hcount : ∀ b < p.d0, k ≤ p.d2 ^ (numEdges p lengths b + 1))
    (sel : List (Autograd.Grad (List ℕ)) → List (Autograd.Grad (List ℕ))) (hsel : Autograd.IsTopk Prod.fst k sel) :
    ∃ (vs : List (List ℝ)) (μ : ℕ → List ℕ → ℝ), Dist.kmax algo p lengths k = .ok vs ∧ vs.length = p.d0 ∧
      (∀ s < k, Dist.topk algo p lengths k sel s = .ok (μ s)) ∧
      ∀ b (hb : b < vs.length), ∃ ys : List (Tags (numEdges p lengths b) p.d2),
        IsKBest (seqScore (row p b)) k ys ∧ vs[b] = ys.map (seqScore (row p b)) ∧
        ∀ s (hs : s < ys.length), ∀ n < p.d1, ∀ i j : Fin p.d2, μ s [b, n, i, j] = if UsesEdge ys[s] n i j then 1 else 0 := by
  obtain ⟨vs, hv1, hv2, hv3⟩ := kmax_spec p lengths h B hB k hk hcount
  let q : T4 (List (Autograd.Grad (List ℕ))) :=
    algo.map (fun q : ℝ × List ℕ => Autograd.kmaxConvert k q.1 q.2) (algo.index p)
  have hok := logpartition_ok (Autograd.kmax k sel) q lengths h.square h.edges h.lens
  refine ⟨vs, _, hv1, hv2, fun s _ => (congrArg (Except.map fun vs => Dist.gradOfSum (vs.map fun row => row.getD s (0, 0))) hok :), ?_⟩
  have hrow : ∀ b < p.d0, ∃ ys : List (Tags (numEdges p lengths b) p.d2), IsKBest (seqScore (row p b)) k ys ∧
      core (Autograd.kmax k sel) (p.d1 + 1) (Nat.clog 2 p.d1) (lenOf (p.d1 + 1) lengths)
        (fun b n (i j : Fin p.d2) => Autograd.kmaxConvert k (p.get b n i j) [b, n, (i : ℕ), (j : ℕ)]) b =
      ys.map fun y => (seqScore (row p b) y, ind b y) := by
    intro b hb'
    have := (ksr_grad hk hsel).chain h.classes (N := p.d1 + 1) (logN := Nat.clog 2 p.d1) (by simpa using le_two_pow_clog p.d1)
      (lenOf (p.d1 + 1) lengths) (fun b n i j => Autograd.kmaxConvert k (p.get b n i j) [b, n, (i : ℕ), (j : ℕ)]) b (lenOf_le h.lens b)
      (fun n i j => leafRow (fun b n i j => p.get b n i j) b n i j) (by intros; simp [Autograd.kmaxConvert]) (fun _ _ _ _ => rfl)
      B hB.nonneg (hB.bound b hb') (by have := hB.small b hb'; simp only [neg_neg]; exact this) (hcount b hb')
    obtain ⟨ys, h1, h2, h3, h4, h5⟩ := top_family this
    have hs : ∀ y : Tags (numEdges p lengths b) p.d2, ∑ n : Fin (numEdges p lengths b),
        leafRow (fun b n (i j : Fin p.d2) => p.get b n i j) b n (y n.succ) (y n.castSucc) = (seqScore (row p b) y, ind b y) := by
      intro y; exact sum_pair _ _
    refine ⟨ys, ⟨h1, h2, ?_, ?_⟩, ?_⟩
    · refine h4.imp fun {a c} hac => ?_
      have := hac
      erw [hs, hs] at this
      exact this
    · intro y' hy' y hy
      have := h5 y' hy' y hy
      erw [hs, hs] at this
      exact this
    · rw [h3]
      exact List.map_congr_left fun y _ => hs y
  intro b hb
  have hb' : b < p.d0 := by omega
  obtain ⟨ys, hys, hcore⟩ := hrow b hb'
  refine ⟨ys, hys, ?_, ?_⟩
  · obtain ⟨ys', hys', e⟩ := hv3 b hb
    rw [e, hys.unique hys']
  · intro s hs n hn i j
    beta_reduce
    rw [List.map_map]
    refine (gradOfSum_row p.d0 _ b hb' n i j ?_).trans ?_
    · intro b' hb'' hne
      obtain ⟨ys', hys', hcore'⟩ := hrow b' hb''
      have e : ∀ l : List (Autograd.Grad (List ℕ)), l = ys'.map (fun y => (seqScore (row p b') y, ind b' y)) →
          (l.getD s (0, 0)).2 [b, n, (i : ℕ), (j : ℕ)] = 0 := by
        rintro l rfl
        by_cases hs' : s < ys'.length
        · rw [List.getD_eq_getElem _ _ (by simpa using hs'), List.getElem_map]
          exact ind_other b b' _ hne n i j
        · rw [List.getD_eq_default _ _ (by simpa using hs')]; rfl
      exact e _ hcore'
    · have e : ∀ l : List (Autograd.Grad (List ℕ)), l = ys.map (fun y => (seqScore (row p b) y, ind b y)) →
          (l.getD s (0, 0)).2 [b, n, (i : ℕ), (j : ℕ)] = if UsesEdge ys[s] n i j then 1 else 0 := by
        rintro l rfl
        rw [List.getD_eq_getElem _ _ (by simpa using hs), List.getElem_map]
        exact ind_apply b _ n i j
      exact e _ hcore

/-- The hypotheses of `argmax_spec`, `kmax_spec` and `topk_spec` are met by the sample batch (two rows, lengths 3 and 2). -/
example : Valid sample (some [3, 2]) ∧ SmallPotentials sample (some [3, 2]) 10 ∧
    (∀ b < sample.d0, 4 ≤ sample.d2 ^ (numEdges sample (some [3, 2]) b + 1)) ∧
    ∀ b < sample.d0, ∀ n < numEdges sample (some [3, 2]) b, ∀ i j : Fin sample.d2, -100000 < row sample b n i j := by
  have hn : ∀ b < sample.d0, ∀ n < numEdges sample (some [3, 2]) b, n < 2 := by
    intro b hb n hn
    have hb : b < 2 := hb
    interval_cases b <;> simp [numEdges, lenOf] at hn <;> omega
  have key : ∀ b < sample.d0, ∀ n < numEdges sample (some [3, 2]) b, ∀ i j : Fin sample.d2, |row sample b n i j| ≤ 10 := by
    intro b hb n hn' i j
    have h1 := hn b hb n hn'
    have hb : b < 2 := hb
    have hi : (i : ℕ) < 2 := i.2
    have hj : (j : ℕ) < 2 := j.2
    have e : row sample b n i j = (b : ℝ) + n + 2 * (i : ℕ) - (j : ℕ) := rfl
    rw [e]
    generalize (i : ℕ) = i at *
    generalize (j : ℕ) = j at *
    have c1 : (b : ℝ) ≤ 1 := by exact_mod_cast Nat.lt_succ_iff.1 hb
    have c2 : (n : ℝ) ≤ 1 := by exact_mod_cast Nat.lt_succ_iff.1 h1
    have c3 : (i : ℝ) ≤ 1 := by exact_mod_cast Nat.lt_succ_iff.1 hi
    have c4 : (j : ℝ) ≤ 1 := by exact_mod_cast Nat.lt_succ_iff.1 hj
    have d1 := Nat.cast_nonneg (α := ℝ) b
    have d2 := Nat.cast_nonneg (α := ℝ) n
    have d3 := Nat.cast_nonneg (α := ℝ) i
    have d4 := Nat.cast_nonneg (α := ℝ) j
    rw [abs_le]; constructor <;> linarith
  refine ⟨sample_valid, ⟨by norm_num, key, ?_⟩, ?_, ?_⟩
  · intro b hb
    have hb : b < 2 := hb
    interval_cases b <;> norm_num [numEdges, lenOf]
  · intro b hb
    have hb : b < 2 := hb
    interval_cases b <;> norm_num [numEdges, lenOf, sample]
  · intro b hb n hn i j
    have := (abs_le.1 (key b hb n hn i j)).1
    linarith

end Props.LinearChain
