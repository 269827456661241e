import Verif.Proofs.ChainMask
import Verif.Props.LinearChainBest

/-! Property theorems about `LinearChainCRF` with forbidden transitions: C102. -/

open Finset Spec LinearChainProofs ChainProofs LinearChainLog ChainBounds ChainTop ChainMask

noncomputable section
namespace Props.ChainMask
open _root_.LinearChain Props.LinearChain

/-- Some transitions are forbidden by potentials at or below the stand-in `-1e5` (for instance `-1e9`).  `A b n i j`: in row `b`, tag `i` may
follow tag `j` at position `n`.  `B` bounds the potentials of the allowed transitions. -/
structure Masked (p : T4 ℝ) (lengths : Option (List ℕ)) (A : ℕ → ℕ → Fin p.d2 → Fin p.d2 → Prop) (B : ℝ) : Prop where
  nonneg : 0 ≤ B
  allowed : ∀ b < p.d0, ∀ n < numEdges p lengths b, ∀ i j, A b n i j → |row p b n i j| ≤ B
  forbidden : ∀ b < p.d0, ∀ n < numEdges p lengths b, ∀ i j, ¬ A b n i j → row p b n i j ≤ -100000
  small : ∀ b < p.d0, 2 * numEdges p lengths b * B < 100000

theorem Masked.rowMask {p : T4 ℝ} {lengths : Option (List ℕ)} {A : ℕ → ℕ → Fin p.d2 → Fin p.d2 → Prop} {B : ℝ} (h : Masked p lengths A B)
    {b : ℕ} (hb : b < p.d0) : RowMask (-100000) (numEdges p lengths b) (A b) (row p b) B :=
  ⟨h.nonneg, h.allowed b hb, h.forbidden b hb, by rw [neg_neg]; exact h.small b hb⟩

variable (p : T4 ℝ) (lengths : Option (List ℕ)) (h : Valid p lengths) (A : ℕ → ℕ → Fin p.d2 → Fin p.d2 → Prop) (B : ℝ) (hm : Masked p lengths A B)
include h hm

/-- **C102.** With forbidden transitions, `LinearChainCRF.max` is the score of the best sequence of allowed transitions, and
`LinearChainCRF.argmax` is the 0/1 edge indicator of such a sequence, for every tie-breaking rule of `torch.max`. -/
theorem argmax_masked (hne : ∀ b < p.d0, Nonempty (AllowedTags (numEdges p lengths b) (A b)))
    (pick : List (Autograd.Grad (List ℕ)) → Autograd.Grad (List ℕ)) (hpick : Autograd.IsArgmax Prod.fst pick) :
    ∃ μ vs, Dist.argmax algo p lengths pick = .ok μ ∧ Dist.max algo p lengths = .ok vs ∧ vs.length = p.d0 ∧
      ∀ b (hb : b < vs.length), ∃ y : AllowedTags (numEdges p lengths b) (A b),
        vs[b] = seqScore (row p b) y.1 ∧ (∀ y' : AllowedTags (numEdges p lengths b) (A b), seqScore (row p b) y'.1 ≤ vs[b]) ∧
        ∀ n < p.d1, ∀ i j : Fin p.d2, μ [b, n, i, j] = if UsesEdge y.1 n i j then 1 else 0 := by
  have hokm := logpartition_ok Semirings.max p lengths h.square h.edges h.lens
  have hok := logpartition_ok (Autograd.max pick) (Dist.leaves algo p) lengths h.square h.edges h.lens
  refine ⟨_, _, (congrArg (Except.map Dist.gradOfSum) hok :), hokm, by simp, ?_⟩
  have hrow : ∀ b < p.d0, ∃ y : AllowedTags (numEdges p lengths b) (A b), core (Autograd.max pick) (p.d1 + 1) (Nat.clog 2 p.d1)
      (lenOf (p.d1 + 1) lengths) (leafRow (fun b n (i j : Fin p.d2) => p.get b n i j)) b = (seqScore (row p b) y.1, ind b y.1) ∧
      ∀ y' : AllowedTags (numEdges p lengths b) (A b), seqScore (row p b) y'.1 ≤ seqScore (row p b) y.1 := by
    intro b hb
    obtain ⟨y, h1, h2⟩ := max_row (Bag.gradMax_isMaxSR hpick) rfl (fun _ _ => rfl) (z := -100000) (by norm_num) rfl (fun _ _ => rfl)
      (fun _ => rfl) (fun a => by simp [Autograd.max, Autograd.setData, Autograd.detach]) rfl h.classes (N := p.d1 + 1) (logN := Nat.clog 2 p.d1)
      (by simpa using le_two_pow_clog p.d1) (lenOf (p.d1 + 1) lengths) (leafRow fun b n i j => p.get b n i j) b (lenOf_le h.lens b)
      (A := A b) (B := B) (hm.rowMask hb) (hne b hb)
    have hs : ∀ y : Tags (numEdges p lengths b) p.d2, ∑ n : Fin (numEdges p lengths b),
        leafRow (fun b n (i j : Fin p.d2) => p.get b n i j) b n (y n.succ) (y n.castSucc) = (seqScore (row p b) y, ind b y) := by
      intro y; exact sum_pair _ _
    refine ⟨y, h1.trans (hs y.1), fun y' => ?_⟩
    have := h2 y'
    erw [hs, hs] at this
    exact this
  have hrowm : ∀ b < p.d0, ∃ y : AllowedTags (numEdges p lengths b) (A b), core Semirings.max (p.d1 + 1) (Nat.clog 2 p.d1)
      (lenOf (p.d1 + 1) lengths) (fun b n (i j : Fin p.d2) => p.get b n i j) b = seqScore (row p b) y.1 ∧
      ∀ y' : AllowedTags (numEdges p lengths b) (A b), seqScore (row p b) y'.1 ≤ seqScore (row p b) y.1 := fun b hb =>
    max_row Bag.max_isMaxSR rfl (fun _ _ => rfl) (z := -100000) (by norm_num) rfl (fun _ _ => rfl)
      (fun _ => rfl) (fun a => rfl) rfl h.classes (N := p.d1 + 1) (logN := Nat.clog 2 p.d1)
      (by simpa using le_two_pow_clog p.d1) (lenOf (p.d1 + 1) lengths) (fun b n i j => p.get b n i j) b (lenOf_le h.lens b)
      (A := A b) (B := B) (hm.rowMask hb) (hne b hb)
  intro b hb
  have hb' : b < p.d0 := by simpa using hb
  obtain ⟨y, hy, hbest⟩ := hrow b hb'
  obtain ⟨ym, hym, hbestm⟩ := hrowm b hb'
  have hv : core Semirings.max (p.d1 + 1) (Nat.clog 2 p.d1) (lenOf (p.d1 + 1) lengths) (fun b n (i j : Fin p.d2) => p.get b n i j) b =
      seqScore (row p b) y.1 := by rw [hym]; exact le_antisymm (hbest ym) (hbestm y)
  simp only [List.getElem_map, List.getElem_range]
  refine ⟨y, hv, fun y' => (hbest y').trans hv.ge, ?_⟩
  intro n hn i j
  refine (gradOfSum_row p.d0 _ b hb' n i j ?_).trans ?_
  · intro b' hb' hne
    obtain ⟨y', hy', _⟩ := hrow b' hb'
    exact (congrFun (congrArg Prod.snd hy') _).trans (ind_other b b' y'.1 hne n i j)
  · exact (congrFun (congrArg Prod.snd hy) _).trans (ind_apply b y.1 n i j)

/-- **C102.** With forbidden transitions, `kmax(k)` and `topk(k)` return the `k` best sequences of allowed transitions, if there are `k` of
them. -/
theorem topk_masked (k : ℕ) (hk : 0 < k) (hcount : ∀ b < p.d0, k ≤ Fintype.card (AllowedTags (numEdges p lengths b) (A b)))
    (sel : List (Autograd.Grad (List ℕ)) → List (Autograd.Grad (List ℕ))) (hsel : Autograd.IsTopk Prod.fst k sel) :
    ∃ (vs : List (List ℝ)) (μ : ℕ → List ℕ → ℝ), Dist.kmax algo p lengths k = .ok vs ∧ vs.length = p.d0 ∧
      (∀ s < k, Dist.topk algo p lengths k sel s = .ok (μ s)) ∧
      ∀ b (hb : b < vs.length), ∃ ys : List (AllowedTags (numEdges p lengths b) (A b)),
        IsKBest (fun y => seqScore (row p b) y.1) k ys ∧ vs[b] = ys.map (fun y => seqScore (row p b) y.1) ∧
        ∀ s (hs : s < ys.length), ∀ n < p.d1, ∀ i j : Fin p.d2, μ s [b, n, i, j] = if UsesEdge ys[s].1 n i j then 1 else 0 := by
  classical
  have hokm := logpartition_ok (Semirings.kmax k) (algo.map (Semirings.kmaxConvert k) p) lengths h.square h.edges h.lens
  have hrowm : ∀ b < p.d0, ∃ ys : List (AllowedTags (numEdges p lengths b) (A b)), IsKBest (fun y => seqScore (row p b) y.1) k ys ∧
      core (Semirings.kmax k) (p.d1 + 1) (Nat.clog 2 p.d1) (lenOf (p.d1 + 1) lengths)
        (fun b n (i j : Fin p.d2) => Semirings.kmaxConvert k (p.get b n i j)) b = ys.map fun y => seqScore (row p b) y.1 := by
    intro b hb'
    have := top_row (ksr_kmax hk) h.classes (N := p.d1 + 1) (logN := Nat.clog 2 p.d1) (by simpa using le_two_pow_clog p.d1)
      (lenOf (p.d1 + 1) lengths) (fun b n i j => Semirings.kmaxConvert k (p.get b n i j)) b (lenOf_le h.lens b)
      (fun n i j => p.get b n i j) (by intros; simp [Semirings.kmaxConvert]) (fun _ _ _ _ => rfl) (hm.rowMask hb') (hcount b hb')
    obtain ⟨ys, h1, h2, h3, h4, h5⟩ := top_family this
    exact ⟨ys, ⟨h1, h2, h4, h5⟩, h3⟩
  let q : T4 (List (Autograd.Grad (List ℕ))) :=
    algo.map (fun q : ℝ × List ℕ => Autograd.kmaxConvert k q.1 q.2) (algo.index p)
  have hok := logpartition_ok (Autograd.kmax k sel) q lengths h.square h.edges h.lens
  refine ⟨_, _, hokm, by simp; rfl, fun s _ => (congrArg (Except.map fun vs => Dist.gradOfSum (vs.map fun row => row.getD s (0, 0))) hok :), ?_⟩
  have hrow : ∀ b < p.d0, ∃ ys : List (AllowedTags (numEdges p lengths b) (A b)), IsKBest (fun y => seqScore (row p b) y.1) k ys ∧
      core (Autograd.kmax k sel) (p.d1 + 1) (Nat.clog 2 p.d1) (lenOf (p.d1 + 1) lengths)
        (fun b n (i j : Fin p.d2) => Autograd.kmaxConvert k (p.get b n i j) [b, n, (i : ℕ), (j : ℕ)]) b =
      ys.map fun y => (seqScore (row p b) y.1, ind b y.1) := by
    intro b hb'
    have := top_row (ksr_grad hk hsel) h.classes (N := p.d1 + 1) (logN := Nat.clog 2 p.d1) (by simpa using le_two_pow_clog p.d1)
      (lenOf (p.d1 + 1) lengths) (fun b n i j => Autograd.kmaxConvert k (p.get b n i j) [b, n, (i : ℕ), (j : ℕ)]) b (lenOf_le h.lens b)
      (fun n i j => leafRow (fun b n i j => p.get b n i j) b n i j) (by intros; simp [Autograd.kmaxConvert]) (fun _ _ _ _ => rfl)
      (A := A b) (B := B) (hm.rowMask hb') (hcount b hb')
    obtain ⟨ys, h1, h2, h3, h4, h5⟩ := top_family this
    have hs : ∀ y : Tags (numEdges p lengths b) p.d2, ∑ n : Fin (numEdges p lengths b),
        leafRow (fun b n (i j : Fin p.d2) => p.get b n i j) b n (y n.succ) (y n.castSucc) = (seqScore (row p b) y, ind b y) := by
      intro y; exact sum_pair _ _
    refine ⟨ys, ⟨h1, h2, ?_, ?_⟩, ?_⟩
    · refine h4.imp fun {a c} hac => ?_
      have := hac
      erw [hs, hs] at this
      exact this
    · intro y' hy' y hy
      have := h5 y' hy' y hy
      erw [hs, hs] at this
      exact this
    · rw [h3]
      exact List.map_congr_left fun y _ => hs y.1
  intro b hb
  have hb' : b < p.d0 := by rw [List.length_map, List.length_range] at hb; exact hb
  obtain ⟨ys, hys, hcore⟩ := hrow b hb'
  refine ⟨ys, hys, ?_, ?_⟩
  · obtain ⟨ys', hys', e⟩ := hrowm b hb'
    simp only [List.getElem_map, List.getElem_range]
    rw [← hys'.unique hys]
    exact e
  · intro s hs n hn i j
    beta_reduce
    rw [List.map_map]
    refine (gradOfSum_row p.d0 _ b hb' n i j ?_).trans ?_
    · intro b' hb'' hne
      obtain ⟨ys', hys', hcore'⟩ := hrow b' hb''
      have e : ∀ l : List (Autograd.Grad (List ℕ)), l = ys'.map (fun y => (seqScore (row p b') y.1, ind b' y.1)) →
          (l.getD s (0, 0)).2 [b, n, (i : ℕ), (j : ℕ)] = 0 := by
        rintro l rfl
        by_cases hs' : s < ys'.length
        · rw [List.getD_eq_getElem _ _ (by simpa using hs'), List.getElem_map]
          exact ind_other b b' _ hne n i j
        · rw [List.getD_eq_default _ _ (by simpa using hs')]; rfl
      exact e _ hcore'
    · have e : ∀ l : List (Autograd.Grad (List ℕ)), l = ys.map (fun y => (seqScore (row p b) y.1, ind b y.1)) →
          (l.getD s (0, 0)).2 [b, n, (i : ℕ), (j : ℕ)] = if UsesEdge ys[s].1 n i j then 1 else 0 := by
        rintro l rfl
        rw [List.getD_eq_getElem _ _ (by simpa using hs), List.getElem_map]
        exact ind_apply b _ n i j
      exact e _ hcore

/-- How far forbidden transitions and the stand-in can move the results of row `b`. -/
def errM (b : ℕ) : ℝ :=
  let L := numEdges p lengths b
  L * Real.exp (-100000 + B) + (p.d2 : ℝ) ^ (L + 1) * 2 ^ L * Real.exp (-100000 + 2 * L * B) +
    ((2 ^ Nat.clog 2 p.d1 - L : ℕ) : ℝ) * ((2 * p.d2 - 1 : ℕ) * Real.exp (-100000))

/-- **C102.** With forbidden transitions, `LinearChainCRF.partition` is the log of the total weight of the sequences of allowed transitions,
up to an explicit error. -/
theorem partition_masked (hne : ∀ b < p.d0, Nonempty (AllowedTags (numEdges p lengths b) (A b))) :
    ∃ vs, Dist.partition algo p lengths = .ok vs ∧ vs.length = p.d0 ∧ ∀ b (hb : b < vs.length),
      let truth := Real.log (∑ y : AllowedTags (numEdges p lengths b) (A b), Real.exp (seqScore (row p b) y.1))
      truth ≤ vs[b] ∧ vs[b] ≤ truth + errM p lengths B b := by
  obtain ⟨vs, h1, h2, h3⟩ := partition_closed_form p lengths h
  refine ⟨vs, h1, h2, fun b hb => ?_⟩
  have hb' : b < p.d0 := by omega
  have hL : numEdges p lengths b ≤ 2 ^ Nat.clog 2 p.d1 := by
    have := lenOf_le h.lens b
    have := le_two_pow_clog p.d1
    simp only [numEdges]; omega
  have hz : (-100000 : ℝ) ≤ 0 := by norm_num
  have e : Real.exp vs[b] = chainSum (2 ^ Nat.clog 2 p.d1)
      (fun n i j => cw (-100000) (numEdges p lengths b) n i j + lw (-100000) (row p b) (numEdges p lengths b) n i j) := by
    have hp : 0 < chainSum (numEdges p lengths b) (fun n i j => Real.exp (row p b n i j) + Real.exp (-100000)) := by
      have := chainZ_pos h.classes (row p b) (numEdges p lengths b)
      rw [chainZ_eq] at this
      exact this.trans_le (chainSum_mono (fun _ _ _ _ => (Real.exp_pos _).le) fun _ _ _ _ => by linarith [Real.exp_pos (-100000)])
    rw [chainSum_w h.classes _ _ _ _ hL, h3 b hb, Real.exp_add, Real.exp_log hp, Real.exp_nat_mul, Real.exp_log (by positivity)]
  intro truth
  have hZ := maskZ_pos (hne b hb') (row p b)
  have ht : truth = Real.log (maskZ (numEdges p lengths b) (A b) (row p b)) := rfl
  constructor
  · rw [ht, Real.log_le_iff_le_exp hZ, e]
    exact maskZ_le h.classes _ _ _ _ _ hL
  · have := total_le h.classes hz hL (hm.rowMask hb') (hne b hb')
    rw [← e] at this
    rw [← Real.exp_le_exp, Real.exp_add, ht, Real.exp_log hZ]
    exact this

/-- **C102.** With forbidden transitions, `LinearChainCRF.marginals` are the probabilities of the edges given that all transitions are
allowed, up to the same error. -/
theorem marginals_masked (hne : ∀ b < p.d0, Nonempty (AllowedTags (numEdges p lengths b) (A b))) :
    ∃ μ, Dist.marginals algo p lengths = .ok μ ∧ ∀ b < p.d0, ∀ n < p.d1, ∀ i j : Fin p.d2,
      0 ≤ μ [b, n, i, j] ∧ μ [b, n, i, j] ≤ 1 ∧
      |μ [b, n, i, j] - maskEdgeProb (numEdges p lengths b) (A b) (row p b) n i j| ≤ errM p lengths B b := by
  have hok := logpartition_ok (Autograd.logZ Semirings.negInf) (Dist.leaves algo p) lengths h.square h.edges h.lens
  refine ⟨_, (congrArg (Except.map Dist.gradOfSum) hok :), ?_⟩
  intro b hb n hn i j
  have hrow := fun b (hb : b < p.d0) => grad_row h.classes (z := Semirings.negInf) (by norm_num [Semirings.negInf]) (N := p.d1 + 1)
    (logN := Nat.clog 2 p.d1) (by simpa using le_two_pow_clog p.d1) (lenOf (p.d1 + 1) lengths) (fun b n i j => p.get b n i j) b
    (lenOf_le h.lens b) (A := A b) (B := B) (hm.rowMask hb) (hne b hb) n (by simpa using hn) i j
  have e := gradOfSum_row p.d0 (fun b => core (Autograd.logZ Semirings.negInf) (p.d1 + 1) (Nat.clog 2 p.d1) (lenOf (p.d1 + 1) lengths)
    (leafRow fun b n (i j : Fin p.d2) => p.get b n i j) b) b hb n i j
    (fun b' hb' hne => row_grad_other h.classes Semirings.negInf (lenOf (p.d1 + 1) lengths) _ b b' (lenOf_le h.lens b') hne n i j)
  have := hrow b hb
  simp only [← e] at this
  exact this

omit h hm in
/-- A forbidden transition has conditional probability 0. -/
theorem maskEdgeProb_forbidden {m C : ℕ} (A : ℕ → Fin C → Fin C → Prop) (φ : ℕ → Fin C → Fin C → ℝ) (n : ℕ) (i j : Fin C) (hA : ¬ A n i j) :
    maskEdgeProb m A φ n i j = 0 := by
  rw [maskEdgeProb, sum_eq_zero, zero_div]
  rintro ⟨y, hy⟩ _
  refine if_neg ?_
  rintro ⟨hn, rfl, rfl⟩
  exact hA (hy ⟨n, hn⟩)

omit h hm in
theorem card_allowed {m C : ℕ} (A : ℕ → Fin C → Fin C → Prop) (s : Finset (Tags m C)) (hs : ∀ y, y ∈ s ↔ Allowed A y) :
    s.card = Fintype.card (AllowedTags m A) := (Fintype.card_of_subtype s hs).symm

/-- Two rows of lengths 3 and 2 over 2 tags: tag 0 may not follow itself. -/
def noRepeat : T4 ℝ := ⟨2, 2, 2, 2, fun b n i j => if i = 0 ∧ j = 0 then -1000000000 else (b : ℝ) + n + i - j⟩

/-- The hypotheses are met by `noRepeat`, whose rows have at least 3 allowed sequences, and which has no potentials above `-1e5` everywhere. -/
example : Valid noRepeat (some [3, 2]) ∧ Masked noRepeat (some [3, 2]) (fun _ _ i j => ¬((i : ℕ) = 0 ∧ (j : ℕ) = 0)) 4 ∧
    (∀ b < noRepeat.d0, 3 ≤ Fintype.card (AllowedTags (numEdges noRepeat (some [3, 2]) b)
      fun _ (i j : Fin noRepeat.d2) => ¬((i : ℕ) = 0 ∧ (j : ℕ) = 0))) ∧ ¬ LowerBound noRepeat (some [3, 2]) (-100000) := by
  refine ⟨by constructor <;> simp [noRepeat, ValidLengths], ⟨by norm_num, ?_, ?_, ?_⟩, ?_, ?_⟩
  · intro b hb n hn i j hA
    have hb : b < 2 := hb
    have hn : n < 2 := by
      interval_cases b <;> simp [numEdges, lenOf] at hn <;> omega
    have hi : (i : ℕ) < 2 := i.2
    have hj : (j : ℕ) < 2 := j.2
    have e : row noRepeat b n i j = (b : ℝ) + n + (i : ℕ) - (j : ℕ) := if_neg hA
    rw [e]
    generalize (i : ℕ) = i at *
    generalize (j : ℕ) = j at *
    interval_cases b <;> interval_cases n <;> interval_cases i <;> interval_cases j <;> norm_num [abs_le]
  · intro b hb n hn i j hA
    have e : row noRepeat b n i j = -1000000000 := if_pos (not_not.1 hA)
    rw [e]; norm_num
  · intro b hb
    have hb : b < 2 := hb
    interval_cases b <;> norm_num [numEdges, lenOf]
  · intro b hb
    have hb : b < 2 := hb
    interval_cases b
    · refine le_of_le_of_eq (show 3 ≤ ((univ : Finset (Tags 2 2)).filter fun y => ∀ n : Fin 2, ¬((y n.succ : ℕ) = 0 ∧ (y n.castSucc : ℕ) = 0)).card by
        decide) (card_allowed (C := 2) _ _ fun y => ?_)
      rw [mem_filter]; exact ⟨fun h => h.2, fun h => ⟨mem_univ _, h⟩⟩
    · refine le_of_le_of_eq (show 3 ≤ ((univ : Finset (Tags 1 2)).filter fun y => ∀ n : Fin 1, ¬((y n.succ : ℕ) = 0 ∧ (y n.castSucc : ℕ) = 0)).card by
        decide) (card_allowed (C := 2) _ _ fun y => ?_)
      rw [mem_filter]; exact ⟨fun h => h.2, fun h => ⟨mem_univ _, h⟩⟩
  · intro hc
    have := hc 0 (by simp [noRepeat]) 0 (by simp [numEdges, lenOf]) ⟨0, by simp [noRepeat]⟩ ⟨0, by simp [noRepeat]⟩
    norm_num [row, noRepeat] at this

/-- One row of two transitions over two tags: only the sequence 0, 0, 0 is allowed, and its potentials are `-6e4` each. -/
def deep : T4 ℝ := ⟨1, 2, 2, 2, fun _ n i j =>
  if j = 0 ∧ i = 0 then -60000 else if n = 0 ∧ j = 0 then 0 else -1000000000⟩

omit h hm in
/-- The room required between scores and the stand-in is needed: the only allowed sequence of `deep` has score `-120000`, and `max` is
`-100000`. -/
theorem room_needed : Dist.max algo deep none = .ok [-100000] ∧
    ∀ y : Tags 2 2, Allowed (fun n i j => (j = 0 ∧ i = 0) ∨ (n = 0 ∧ j = 0)) y → seqScore (row deep 0) y = -120000 := by
  constructor
  · have hok := logpartition_ok Semirings.max deep none rfl (by simp [deep]) trivial
    refine hok.trans ?_
    have e : Nat.clog 2 deep.d1 = 1 := by simp [deep]; decide
    rw [e]
    simp [deep, core, total, scan, scanStep, SR.matmul, Struct.unflat, masked, lenOf, List.range_succ, List.finRange_succ,
      Semirings.max, Struct.flat, Struct.unflat, chartInit, big, lengthMask, SR.fill, Semirings.negInf, Semirings.listMax]
    norm_num
  · intro y hy
    have h2 := hy 1
    simp only [Fin.val_one, one_ne_zero, false_and, or_false] at h2
    have h1 := hy 0
    have e1 : (Fin.castSucc (1 : Fin 2)) = Fin.succ 0 := rfl
    rw [e1] at h2
    have h0 : y (Fin.castSucc 0) = 0 := h1.elim And.left And.right
    refine (Fin.sum_univ_two (f := fun n : Fin 2 => row deep 0 n (y n.succ) (y n.castSucc))).trans ?_
    rw [e1, h2.1, h2.2, h0]
    norm_num [row, deep]

end Props.ChainMask
