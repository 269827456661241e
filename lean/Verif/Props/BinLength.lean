import Mathlib.Analysis.SpecialFunctions.Log.Base
import Mathlib.Analysis.Convex.SpecificFunctions.Basic
import Verif.Model.BinLength
import Verif.Props.LinearChainBest
import Verif.Props.LinearChainMarginals
import Verif.Props.SemiMarkov

/-! Property theorems about the rounding of `math.log` in the number of padded positions: C79. -/

open Finset Spec LinearChainProofs ChainProofs SemiringRel

noncomputable section
namespace Props.BinLength

/-- The computed logarithm of `n`, rounded up, gives at least `n` positions. -/
def Covers (lg : ℕ → ℝ) (n : ℕ) : Prop := (n : ℝ) ≤ (2 : ℝ) ^ ⌈lg n⌉

/-- Number of positions of the scan. -/
def positions (lg : ℕ → ℝ) (n : ℕ) : ℕ := 2 ^ ⌈lg n⌉.toNat

theorem Covers.nonneg {lg : ℕ → ℝ} {n : ℕ} (h : Covers lg n) (hn : 1 ≤ n) : 0 ≤ ⌈lg n⌉ := by
  by_contra hc
  have h1 : (2 : ℝ) ^ ⌈lg n⌉ < 1 := zpow_lt_one_of_neg₀ (by norm_num) (by omega)
  have h2 : (1 : ℝ) ≤ n := by exact_mod_cast hn
  have := h.trans_lt h1
  linarith

theorem Covers.le {lg : ℕ → ℝ} {n : ℕ} (h : Covers lg n) (hn : 1 ≤ n) : n ≤ positions lg n := by
  have h0 := h.nonneg hn
  unfold Covers at h
  rw [← Int.toNat_of_nonneg h0, zpow_natCast] at h
  exact_mod_cast h

/-- **C79**, which logarithms give enough positions, and never more than four times as many: those with an error below `1 / n`.  (The logarithm of CPython has
an error of a few units in the last place, about `1e-14`.) -/
theorem accurate_covers (lg : ℕ → ℝ) (n : ℕ) (hn : 1 ≤ n) (δ : ℝ) (h : |lg n - Real.logb 2 n| ≤ δ) (hδ : δ * n < 1) :
    Covers lg n ∧ (2 : ℝ) ^ ⌈lg n⌉ < 4 * n := by
  have hn' : (1 : ℝ) ≤ n := by exact_mod_cast hn
  have hn0 : (0 : ℝ) < n := by linarith
  have hδ0 : 0 ≤ δ := (abs_nonneg _).trans h
  have hδ1 : δ < 1 := by nlinarith
  obtain ⟨h1, h2⟩ := abs_le.1 h
  have hceil := Int.le_ceil (lg n)
  have hceil' := Int.ceil_lt_add_one (lg n)
  set j := ⌈lg n⌉ with hj
  have h2j : (0 : ℝ) < (2 : ℝ) ^ j := by positivity
  constructor
  · unfold Covers
    rw [← hj]
    by_contra hc
    rw [not_le] at hc
    have hlog : Real.logb 2 n - j = Real.logb 2 (n / 2 ^ j) := by
      rw [Real.logb_div hn0.ne' h2j.ne', ← Real.rpow_intCast, Real.logb_rpow (by norm_num) (by norm_num)]
    have hle : Real.logb 2 (n / 2 ^ j) ≤ δ := by rw [← hlog]; linarith
    set x : ℝ := n / 2 ^ j - 1 with hx
    have hx' : (n : ℝ) / 2 ^ j = 1 + x := by rw [hx]; ring
    have hx0 : 0 < x := by
      rw [hx, sub_pos, lt_div_iff₀ h2j]
      linarith
    rw [hx'] at hle
    by_cases hx1 : 1 ≤ x
    · have : (1 : ℝ) ≤ Real.logb 2 (1 + x) := by
        rw [Real.le_logb_iff_rpow_le (by norm_num) (by linarith)]
        simp only [Real.rpow_one]
        linarith
      linarith
    · rw [not_le] at hx1
      have hb : (1 + 1 : ℝ) ^ x ≤ 1 + x * 1 := rpow_one_add_le_one_add_mul_self (by norm_num) hx0.le hx1.le
      have hlb : x ≤ Real.logb 2 (1 + x) := by
        rw [Real.le_logb_iff_rpow_le (by norm_num) (by linarith)]
        have : (1 + 1 : ℝ) = 2 := by norm_num
        rw [this] at hb
        linarith
      have hj0 : 0 ≤ j := by
        by_contra hc'
        have : (2 : ℝ) ^ j ≤ 2 ^ (-1 : ℤ) := zpow_le_zpow_right₀ (by norm_num) (by omega)
        have h3 : (2 : ℝ) ^ j ≤ 1 / 2 := by simpa using this
        have : 2 ≤ (n : ℝ) / 2 ^ j := by
          rw [le_div_iff₀ h2j]
          linarith
        linarith
      obtain ⟨k, hk⟩ := Int.eq_ofNat_of_zero_le hj0
      have hk' : (2 : ℝ) ^ j = ((2 ^ k : ℕ) : ℝ) := by rw [hk]; push_cast; simp
      have hlt : 2 ^ k + 1 ≤ n := by
        have : ((2 ^ k : ℕ) : ℝ) < n := by rw [← hk']; exact hc
        have : 2 ^ k < n := by exact_mod_cast this
        omega
      have hlt' : (2 : ℝ) ^ j + 1 ≤ n := by rw [hk']; exact_mod_cast hlt
      have : 1 / (n : ℝ) < x := by
        rw [hx, div_lt_iff₀ hn0]
        have e : ((n : ℝ) / 2 ^ j - 1) * n = (n - 2 ^ j) * (n / 2 ^ j) := by field_simp
        rw [e]
        have h5 : 1 < (n : ℝ) / 2 ^ j := by rw [lt_div_iff₀ h2j]; linarith
        nlinarith
      have h6 : 1 / (n : ℝ) < δ := by linarith
      rw [div_lt_iff₀ hn0] at h6
      linarith
  · have : (j : ℝ) < Real.logb 2 n + 2 := by linarith
    have h3 : (2 : ℝ) ^ (j : ℝ) < 2 ^ (Real.logb 2 n + 2) := Real.rpow_lt_rpow_of_exponent_lt (by norm_num) this
    rw [Real.rpow_intCast, Real.rpow_add (by norm_num), Real.rpow_logb (by norm_num) (by norm_num) hn0] at h3
    norm_num at h3
    linarith

/-- The exact logarithm is covered, and gives the number of positions of `Struct.binLength`. -/
theorem exact_covers (n : ℕ) (hn : 1 ≤ n) : Covers (Real.logb 2 ·) n := by
  refine (accurate_covers _ n hn 0 ?_ ?_).1 <;> simp

/-- **C79**, a logarithm that is rounded the wrong way, as that of CPython for `2 ** 29`: `ceil` gives 30, twice as many positions as needed. -/
theorem cpython_case (lg : ℕ → ℝ) (h : lg (2 ^ 29) = 29 + 1 / 2 ^ 48) :
    Covers lg (2 ^ 29) ∧ positions lg (2 ^ 29) = 2 * 2 ^ 29 := by
  have e : ⌈lg (2 ^ 29)⌉ = 30 := by
    rw [h, Int.ceil_eq_iff]
    norm_num
  constructor
  · unfold Covers
    rw [e]
    norm_num
  · unfold positions
    rw [e]
    rfl

theorem fits_ok {e : PyErr} {lg : ℕ → ℝ} {n : ℕ} (h : Covers lg n) (hn : 1 ≤ n) :
    Struct.binLengthF lg n = .ok (⌈lg n⌉, positions lg n) ∧ Struct.fits e (positions lg n) n = .ok () := by
  constructor
  · rw [Struct.binLengthF, if_neg (by omega)]
    simp only
    rw [if_pos (h.nonneg hn)]
    rfl
  · rw [Struct.fits, if_pos (h.le hn)]

theorem fits_error {e : PyErr} {lg : ℕ → ℝ} {n : ℕ} (h : ¬ Covers lg n) (hn : 1 ≤ n) :
    ∃ k er, Struct.binLengthF lg n = .ok k ∧ Struct.fits e k.2 n = .error er := by
  have hlt : (if 0 ≤ ⌈lg n⌉ then 2 ^ ⌈lg n⌉.toNat else 0) < n := by
    split_ifs with h0
    · unfold Covers at h
      rw [← Int.toNat_of_nonneg h0, zpow_natCast, not_le] at h
      exact_mod_cast h
    · omega
  refine ⟨(⌈lg n⌉, if 0 ≤ ⌈lg n⌉ then 2 ^ ⌈lg n⌉.toNat else 0), if n = 1 then e else .runtime, ?_, ?_⟩
  · rw [Struct.binLengthF, if_neg (by omega)]
  · simp only [Struct.fits]
    rw [if_neg (by omega)]
    split_ifs <;> rfl

/-! ### `LinearChainCRF` -/

section Chain
open _root_.LinearChain Props.LinearChain

theorem checkPotentials_ok {α : Type} (p : T4 α) (lengths : Option (List ℕ)) (h : Valid p lengths) :
    checkPotentials p lengths = .ok (lensOr p.d0 (p.d1 + 1) lengths) := by
  have hl := h.lens
  have hs := h.square
  cases lengths with
  | none => simp [checkPotentials, hs, bind, Except.bind, lensOr]
  | some l =>
    have hm := SemiMarkovProofs.max?_eq hl.2.1 hl.2.2
    simp [checkPotentials, hs, hm, bind, Except.bind, lensOr]

/-- With enough positions, `logpartition` returns one value per row. -/
theorem chain_ok {α : Type} (lg : ℕ → ℝ) (S : SR α) (p : T4 α) (lengths : Option (List ℕ)) (h : Valid p lengths) (hc : Covers lg p.d1) :
    logpartitionF lg S p lengths = .ok ((List.range p.d0).map fun b =>
      core S (C := p.d2) (p.d1 + 1) ⌈lg p.d1⌉.toNat (lenOf (p.d1 + 1) lengths) (fun b n i j => p.get b n i j) b) := by
  obtain ⟨e1, e2⟩ := fits_ok (e := .index) hc h.edges
  rw [logpartitionF, checkPotentials_ok p lengths h]
  simp only [bind, Except.bind, e1, e2]
  rw [if_pos (SemiMarkovProofs.lensOr_length h.lens)]
  congr 1
  apply List.map_congr_left
  intro b hb
  apply core_congr
  · exact SemiMarkovProofs.lensOr_getD lengths b (List.mem_range.1 hb)
  · intros; rfl

/-- **C79**, too few positions are never used silently: the call raises, in every semiring. -/
theorem chain_short {α : Type} (lg : ℕ → ℝ) (S : SR α) (p : T4 α) (lengths : Option (List ℕ)) (h : Valid p lengths) (hc : ¬ Covers lg p.d1) :
    ∃ e, logpartitionF lg S p lengths = .error e := by
  obtain ⟨k, er, e1, e2⟩ := fits_error (e := .index) hc h.edges
  refine ⟨er, ?_⟩
  rw [logpartitionF, checkPotentials_ok p lengths h]
  simp only [bind, Except.bind, e1, e2]

theorem chain_plain {α R : Type} [CommSemiring R] (lg : ℕ → ℝ) {S : SR α} {ρ : α → R → Prop} (H : SRRel S ρ) (P : Plain S) (p : T4 α)
    (lengths : Option (List ℕ)) (h : Valid p lengths) (hc : Covers lg p.d1) {ζ : R} (hz : ρ S.zero ζ) (h1 : ρ S.one 1)
    (φ : ℕ → ℕ → Fin p.d2 → Fin p.d2 → R)
    (hφ : ∀ b < p.d0, ∀ n < numEdges p lengths b, ∀ i j : Fin p.d2, ρ (p.get b n i j) (φ b n i j)) :
    ∃ vs, logpartitionF lg S p lengths = .ok vs ∧ vs.length = p.d0 ∧ ∀ b (hb : b < vs.length),
      ρ vs[b] ((1 + (2 * p.d2 - 1 : ℕ) * ζ) ^ (positions lg p.d1 - numEdges p lengths b) *
        chainSum (numEdges p lengths b) (fun n i j => φ b n i j + ζ)) := by
  refine ⟨_, chain_ok lg S p lengths h hc, by simp, ?_⟩
  intro b hb
  have hb' : b < p.d0 := by simpa using hb
  simp only [List.getElem_map, List.getElem_range]
  exact core_plain H P h.classes (by have := hc.le h.edges; unfold positions at this; omega) (lenOf_le h.lens b) hz h1 _ (hφ b hb')

/-- **C79** in any commutative semiring: for every computed logarithm, the call raises or returns the sum over all tag sequences, the same value as with the exact
logarithm. -/
theorem chain_any_semiring {R : Type} [CommSemiring R] (lg : ℕ → ℝ) (p : T4 R) (lengths : Option (List ℕ)) (h : Valid p lengths) :
    (∃ e, logpartitionF lg (Semirings.std R) p lengths = .error e) ∨
    logpartitionF lg (Semirings.std R) p lengths = logpartition (Semirings.std R) p lengths ∧
      ∃ vs, logpartitionF lg (Semirings.std R) p lengths = .ok vs ∧ vs.length = p.d0 ∧ ∀ b (hb : b < vs.length),
        vs[b] = ∑ y : Tags (numEdges p lengths b) p.d2, seqProd (row p b) y := by
  by_cases hc : Covers lg p.d1
  · right
    obtain ⟨vs, h1, h2, h3⟩ := chain_plain lg (std_rel (R := R)) std_plain p lengths h hc (ζ := 0) rfl rfl (fun b n i j => p.get b n i j)
      (fun _ _ _ _ _ _ => rfl)
    have h3' : ∀ b (hb : b < vs.length), vs[b] = ∑ y : Tags (numEdges p lengths b) p.d2, seqProd (row p b) y := by
      intro b hb
      have := h3 b hb
      simp only [mul_zero, add_zero, one_pow, one_mul] at this
      exact this
    refine ⟨?_, vs, h1, h2, h3'⟩
    obtain ⟨ws, g1, g2, g3⟩ := sum_any_semiring p lengths h
    rw [h1, g1]
    congr 1
    refine List.ext_getElem (h2.trans g2.symm) fun b hb hb' => ?_
    rw [h3' b hb, g3 b hb']
  · exact Or.inl (chain_short lg _ p lengths h hc)

/-- **C79** for `partition`: within the error of the stand-in `-1e5`, where each padded position adds at most `(2C-1)·e^-1e5`, the result does not depend on the
computed logarithm. -/
theorem chain_partition (lg : ℕ → ℝ) (p : T4 ℝ) (lengths : Option (List ℕ)) (h : Valid p lengths) (hc : Covers lg p.d1) :
    ∃ vs ws, Dist.partition (algoF lg) p lengths = .ok vs ∧ Dist.partition algo p lengths = .ok ws ∧ vs.length = p.d0 ∧ ws.length = p.d0 ∧
      ∀ b (hb : b < vs.length) (hb' : b < ws.length),
        vs[b] = ws[b] + ((positions lg p.d1 : ℝ) - 2 ^ Nat.clog 2 p.d1) * Real.log (1 + (2 * p.d2 - 1 : ℕ) * Real.exp (-100000)) := by
  obtain ⟨vs, h1, h2, h3⟩ := chain_plain lg (log_rel Semirings.negInf) (log_plain _) p lengths h hc (ζ := Real.exp (-100000)) rfl
    (by simp [Semirings.logZ]) (fun b n i j => Real.exp (p.get b n i j)) (fun _ _ _ _ _ _ => rfl)
  obtain ⟨ws, g1, g2, g3⟩ := partition_closed_form p lengths h
  refine ⟨vs, ws, h1, g1, h2, g2, fun b hb hb' => ?_⟩
  have := h3 b hb
  have hz : 0 < chainSum (numEdges p lengths b)
      (fun n (i j : Fin p.d2) => Real.exp (p.get b n i j) + Real.exp (-100000)) := by
    have : Nonempty (Fin p.d2) := ⟨⟨0, h.classes⟩⟩
    exact sum_pos (fun y _ => prod_pos fun n _ => by positivity) univ_nonempty
  have e : vs[b] = ((positions lg p.d1 - numEdges p lengths b : ℕ) : ℝ) * Real.log (1 + (2 * p.d2 - 1 : ℕ) * Real.exp (-100000)) +
      Real.log (chainSum (numEdges p lengths b) fun n (i j : Fin p.d2) => Real.exp (p.get b n i j) + Real.exp (-100000)) := by
    rw [← Real.log_exp vs[b], this, Real.log_mul (by positivity) hz.ne', Real.log_pow]
  have hL : numEdges p lengths b ≤ p.d1 := by
    have := lenOf_le h.lens b
    unfold numEdges
    omega
  rw [e, g3 b hb', Nat.cast_sub (hL.trans (hc.le h.edges)), Nat.cast_sub (hL.trans (le_two_pow_clog p.d1))]
  simp only [row]
  push_cast
  ring

/-- **C79** for `max`: the result is the score of the best tag sequence, whatever the logarithm is. -/
theorem chain_max (lg : ℕ → ℝ) (p : T4 ℝ) (lengths : Option (List ℕ)) (h : Valid p lengths) (hc : Covers lg p.d1)
    (hp : LowerBound p lengths (-100000)) : Dist.max (algoF lg) p lengths = Dist.max algo p lengths := by
  obtain ⟨vs, h1, h2, h3⟩ := chain_plain lg Bag.max_isMaxSR.rel ⟨fun _ => rfl, fun _ _ => rfl⟩ p lengths h hc
    (ζ := Bag.single (-100000)) (by simp [Bag.IsMax, Semirings.max, Semirings.negInf])
    (by simp [Bag.IsMax, Semirings.max]) (fun b n i j => Bag.single (p.get b n i j)) (fun _ _ _ _ _ _ => by simp [Bag.IsMax])
  obtain ⟨ws, g1, g2, g3⟩ := max_spec p lengths h hp
  rw [g1]
  refine h1.trans (congrArg _ (List.ext_getElem (h2.trans g2.symm) fun b hb hb' => ?_))
  obtain ⟨⟨y0, hy0⟩, hbest⟩ := g3 b hb'
  obtain ⟨hmem, hmax⟩ := h3 b hb
  obtain ⟨hp1, hp2⟩ := pad_bag (2 * p.d2 - 1) (positions lg p.d1 - numEdges p lengths b)
  refine le_antisymm ?_ ?_
  · obtain ⟨a, ha, u, hu, hv⟩ := Bag.mem_mul.1 hmem
    obtain ⟨y, _, hy⟩ := Bag.mem_sum.1 hu
    obtain ⟨c, hc, rfl⟩ := Bag.mem_prod.1 hy
    have h5 : ∑ n : Fin (numEdges p lengths b), c n ≤ seqScore (row p b) y := by
      apply sum_le_sum
      intro n hn
      have := hc n hn
      simp only [Bag.ms_add, Bag.ms_single, Multiset.mem_add, Multiset.mem_singleton] at this
      rcases this with e | e
      · rw [e]; exact le_rfl
      · rw [e]; exact hp b (by omega) n n.2 _ _
    have h6 := hp1 a ha
    have h7 := hbest y
    have h8 : a + ∑ n : Fin (numEdges p lengths b), c n ≤ 0 + ws[b] := add_le_add h6 (h5.trans h7)
    rw [zero_add] at h8
    exact hv ▸ h8
  · rw [hy0]
    apply hmax
    refine Bag.mem_mul.2 ⟨0, hp2, seqScore (row p b) y0, ?_, by simp⟩
    refine Bag.mem_sum.2 ⟨y0, mem_univ _, Bag.mem_prod.2 ⟨fun n => row p b n (y0 n.succ) (y0 n.castSucc), ?_, rfl⟩⟩
    intro n _
    simp [row]

/-- **C79** for `argmax`: one tag sequence that attains `max`, whatever the logarithm is. -/
theorem chain_argmax (lg : ℕ → ℝ) (p : T4 ℝ) (lengths : Option (List ℕ)) (h : Valid p lengths) (hc : Covers lg p.d1)
    (hp : ∀ b < p.d0, ∀ n < numEdges p lengths b, ∀ i j : Fin p.d2, -100000 < row p b n i j)
    (pick : List (Autograd.Grad (List ℕ)) → Autograd.Grad (List ℕ)) (hpick : Autograd.IsArgmax Prod.fst pick) :
    ∃ μ vs, Dist.argmax (algoF lg) p lengths pick = .ok μ ∧ Dist.max (algoF lg) p lengths = .ok vs ∧ vs.length = p.d0 ∧
      ∀ b (hb : b < vs.length), ∃ y : Tags (numEdges p lengths b) p.d2,
        seqScore (row p b) y = vs[b] ∧
        ∀ n < p.d1, ∀ i j : Fin p.d2, μ [b, n, i, j] = if UsesEdge y n i j then 1 else 0 := by
  obtain ⟨vs, hm1, hm2, hm3⟩ := max_spec p lengths h fun b hb n hn i j => (hp b hb n hn i j).le
  have hok := chain_ok lg (Autograd.max pick) (Dist.leaves (algoF lg) p) lengths ⟨h.square, h.edges, h.classes, h.lens⟩ hc
  refine ⟨_, vs, (congrArg (Except.map Dist.gradOfSum) hok :),
    (chain_max lg p lengths h hc fun b hb n hn i j => (hp b hb n hn i j).le).trans hm1, hm2, ?_⟩
  have hrow := fun b (hb : b < p.d0) => argmax_row hpick h.classes (N := p.d1 + 1) (logN := ⌈lg p.d1⌉.toNat)
    (by have := hc.le h.edges; unfold positions at this; omega) (lenOf (p.d1 + 1) lengths) (fun b n i j => p.get b n i j) b (lenOf_le h.lens b) (hp b hb)
  intro b hb
  obtain ⟨y, hy, hbest⟩ := hrow b (by omega)
  refine ⟨y, ?_, ?_⟩
  · obtain ⟨⟨y', e⟩, hup⟩ := hm3 b hb
    refine le_antisymm (hup y) ?_
    rw [e]; exact hbest y'
  · intro n hn i j
    refine (gradOfSum_row p.d0 _ b (by omega) n i j ?_).trans ?_
    · intro b' hb' hne
      obtain ⟨y', hy', _⟩ := hrow b' hb'
      exact (congrFun (congrArg Prod.snd hy') _).trans (ind_other b b' y' hne n i j)
    · exact (congrFun (congrArg Prod.snd hy) _).trans (ind_apply b y n i j)

/-- **C79** for `marginals`: the posterior probabilities, up to the error of the stand-in `-1e5`, whatever the logarithm is. -/
theorem chain_marginals (lg : ℕ → ℝ) (p : T4 ℝ) (lengths : Option (List ℕ)) (h : Valid p lengths) (hc : Covers lg p.d1) (m : ℝ)
    (hm : LowerBound p lengths m) :
    ∃ μ, Dist.marginals (algoF lg) p lengths = .ok μ ∧
      ∀ b < p.d0, ∀ n < p.d1, ∀ i j : Fin p.d2,
        0 ≤ μ [b, n, i, j] ∧ μ [b, n, i, j] ≤ 1 ∧
        |μ [b, n, i, j] - edgeProb (numEdges p lengths b) (row p b) n i j| ≤
          numEdges p lengths b * Real.exp (-100000 - m) +
            ((positions lg p.d1 - numEdges p lengths b : ℕ) : ℝ) * ((2 * p.d2 - 1 : ℕ) * Real.exp (-100000)) := by
  have hok := chain_ok lg Autograd.log (Dist.leaves (algoF lg) p) lengths ⟨h.square, h.edges, h.classes, h.lens⟩ hc
  refine ⟨_, (congrArg (Except.map Dist.gradOfSum) hok :), ?_⟩
  intro b hb n hn i j
  have hlen : ∀ b, lenOf (p.d1 + 1) lengths b ≤ p.d1 + 1 := lenOf_le h.lens
  have hsum := Generic.gradOfSum_head p.d0 (fun b => core Autograd.log (C := p.d2) (p.d1 + 1) ⌈lg p.d1⌉.toNat (lenOf (p.d1 + 1) lengths)
    (LinearChainLog.leafRow fun b n i j => p.get b n i j) b) b hb [b, n, (i : ℕ), (j : ℕ)]
    (fun b' _ hne => LinearChainLog.row_grad_other h.classes Semirings.negInf _ _ b b' (hlen b') hne.symm n i j)
  have := LinearChainLog.row_grad h.classes Semirings.negInf m (N := p.d1 + 1) (logN := ⌈lg p.d1⌉.toNat) (by have := hc.le h.edges; unfold positions at this; omega)
    (lenOf (p.d1 + 1) lengths) (fun b n i j => p.get b n i j) b (hlen b) (fun n hn i j => hm b hb n hn i j) n (by omega) i j
  simp only at this
  rw [show Autograd.logZ Semirings.negInf = (Autograd.log : SR (Autograd.Grad (List ℕ))) from rfl, ← hsum] at this
  exact this

/-- The hypotheses are met by the sample batch with the logarithm of CPython on small numbers. -/
example : Valid sample (some [3, 2]) ∧ Covers (Real.logb 2 ·) sample.d1 ∧ LowerBound sample (some [3, 2]) (-1) := by
  refine ⟨sample_valid, exact_covers _ (by decide), ?_⟩
  intro b _ n _ i j
  have : (j : ℝ) ≤ 1 := by
    have := j.2
    have h2 : (j : ℕ) ≤ 1 := by change (j : ℕ) < 2 at this; omega
    exact_mod_cast h2
  change (-1 : ℝ) ≤ (b : ℝ) + n + 2 * (i : ℕ) - (j : ℕ)
  have h1 : (0 : ℝ) ≤ b := Nat.cast_nonneg _
  have h2 : (0 : ℝ) ≤ n := Nat.cast_nonneg _
  have h3 : (0 : ℝ) ≤ (i : ℕ) := Nat.cast_nonneg _
  linarith

end Chain

/-! ### `SemiMarkovCRF` -/

section Semi
open _root_.SemiMarkov SemiMarkovProofs Generic

/-- With enough positions, `logpartition` returns one value per row. -/
theorem semi_ok {α : Type} (lg : ℕ → ℝ) (S : SR α) (p : T5 α) (lengths : Option (List ℕ)) (h : SemiMarkovProofs.Valid p lengths) (hK : 0 < p.d2 - 1)
    (hc : Covers lg p.d1) :
    SemiMarkov.logpartitionF lg S p lengths =
      .ok ((List.range p.d0).map fun b => SemiMarkov.core S p.d3 hK (p.d1 + 1) ⌈lg p.d1⌉.toNat
        (fun b => (LinearChain.lensOr p.d0 (p.d1 + 1) lengths).getD b 0) p.get b) := by
  have hs := h.segs
  obtain ⟨e1, e2⟩ := fits_ok (e := .runtime) hc h.positions
  rw [SemiMarkov.logpartitionF, SemiMarkovProofs.checkPotentials_ok p lengths h]
  simp only [bind, Except.bind, e1, e2]
  rw [if_neg (by omega), dif_pos hK, if_pos (lensOr_length h.lens)]

/-- **C79**, too few positions are never used silently. -/
theorem semi_short {α : Type} (lg : ℕ → ℝ) (S : SR α) (p : T5 α) (lengths : Option (List ℕ)) (h : SemiMarkovProofs.Valid p lengths)
    (hc : ¬ Covers lg p.d1) : ∃ e, SemiMarkov.logpartitionF lg S p lengths = .error e := by
  have hs := h.segs
  obtain ⟨k, er, e1, e2⟩ := fits_error (e := .runtime) hc h.positions
  refine ⟨er, ?_⟩
  rw [SemiMarkov.logpartitionF, SemiMarkovProofs.checkPotentials_ok p lengths h]
  simp only [bind, Except.bind, e1, e2]
  rw [if_neg (by omega), dif_pos (by omega)]

/-- The paths of row `b` that use the stand-in, for `M` positions. -/
abbrev PhF {γ : Type} (M : ℕ) (p : T5 γ) (lengths : Option (List ℕ)) (hK : 0 < p.d2 - 1) (b : ℕ) : Type :=
  AtomChain.Phantom (finals p hK) (cells p lengths b) M

theorem semi_batchDP {γ : Type} (lg : ℕ → ℝ) (p : T5 γ) (lengths : Option (List ℕ)) (h : SemiMarkovProofs.Valid p lengths) (hK : 0 < p.d2 - 1)
    (hc : Covers lg p.d1) :
    Generic.BatchDP (SemiMarkov.algoF lg) p lengths p.d0 (at5 p) (Entry p lengths)
      (ι := fun b => Segmentation p.d2 p.d3 (SemiMarkovProofs.steps p lengths b))
      (π := PhF (positions lg p.d1) p lengths hK) (fun b => segParts b) (fun _ y => positions lg p.d1 - y.2.1.length) (fun _ => AtomChain.Phantom.atoms) where
  rows := by
    refine ⟨fun b α S x => SemiMarkov.core S p.d3 hK (p.d1 + 1) ⌈lg p.d1⌉.toNat
        (fun b => (LinearChain.lensOr p.d0 (p.d1 + 1) lengths).getD b 0) (fun b n k c c' => x [b, n, k, c, c']) b, ?_, ?_⟩
    · intro α S f
      exact semi_ok lg S (⟨p.d0, p.d1, p.d2, p.d3, p.d4, fun b n k c c' => f (p.get b n k c c') [b, n, k, c, c']⟩ : T5 α) lengths
        ⟨h.rows, h.square, h.classes, h.positions, h.segs, h.lens⟩ hK hc
    · intro b hb
      have hlen : (LinearChain.lensOr p.d0 (p.d1 + 1) lengths).getD b 0 - 1 = SemiMarkovProofs.steps p lengths b := by
        rw [lensOr_getD lengths b hb]; rfl
      have hst := (steps_le h b).1
      have hM := hc.le h.positions
      have hd : p.d2 - 1 + 1 = p.d2 := by omega
      refine AtomChain.rowDP ?_ ?_ ?_ ?_ ?_ ?_
      · intro α R _ S ρ ζ ω H T x wp wm hp hm
        refine AtomChain.scan_total_rel (st := finals p hK) H h.classes (Nat.mul_pos hK h.classes) _ _ _ ?_
        intro n hn i j
        have := chart_rel (b := b) (N := p.d1 + 1) H T (fun b => (LinearChain.lensOr p.d0 (p.d1 + 1) lengths).getD b 0) (by rw [hlen]; omega) x
          (wp := wp) (wm := wm) (C := p.d3) (K1 := p.d2 - 1)
          (fun n k c c' hn hk => hp _ ⟨n, k + 1, c, c', rfl, by rw [← hlen]; exact hn, by omega, by omega⟩) hm hn i j
        rw [hlen] at this
        exact this
      · intro R _ wp ω
        have := real_eq wp ω (b := b) (C := p.d3) hK (N := p.d1 + 1) (L := SemiMarkovProofs.steps p lengths b) (by omega) (hst.trans hM)
        rw [hd] at this
        exact this
      · intro y e he
        rw [segParts, Multiset.mem_coe, List.mem_map] at he
        obtain ⟨s, hs, rfl⟩ := he
        have h1 := segEdges_mem y.2.1 0 y.1 y.2.2.1 s hs
        have h2 := y.2.2.2
        exact ⟨s.1, s.2.1, s.2.2.1, s.2.2.2, rfl, by omega, h1.2.1, h1.2.2.1⟩
      · intro n i j e _ he
        exact (potE b n i j e he).2
      · rintro e ⟨n, k, c, c', rfl, -⟩; rfl
      · intro n i j e _ he
        rw [cell_link he (e := e) rfl]; rfl
  map_fst _ := rfl
  map_id := rfl

/-- **C79** in any commutative semiring: for every computed logarithm, the call raises or returns the sum over all segmentations, the same value as with the
exact logarithm. -/
theorem semi_any_semiring {R : Type} [CommSemiring R] (lg : ℕ → ℝ) (p : T5 R) (lengths : Option (List ℕ)) (h : SemiMarkovProofs.Valid p lengths) :
    (∃ e, SemiMarkov.logpartitionF lg (Semirings.std R) p lengths = .error e) ∨
    SemiMarkov.logpartitionF lg (Semirings.std R) p lengths = SemiMarkov.logpartition (Semirings.std R) p lengths := by
  by_cases hc : Covers lg p.d1
  · right
    have hK : 0 < p.d2 - 1 := Props.SemiMarkov.hK h
    exact ((semi_batchDP lg p lengths h hK hc).any_semiring).trans ((batchDP p lengths h hK).any_semiring).symm
  · exact Or.inl (semi_short lg _ p lengths h hc)

open Props.SemiMarkov in
/-- The score of a path that uses the stand-in. -/
theorem semi_ph_le (lg : ℕ → ℝ) {p : T5 ℝ} {lengths : Option (List ℕ)} (h : SemiMarkovProofs.Valid p lengths) {B : ℝ} (hB : Bounded p lengths B) (b : ℕ) (hb : b < p.d0)
    (x : PhF (positions lg p.d1) p lengths (Props.SemiMarkov.hK h) b) :
    phScore AtomChain.Phantom.atoms Semirings.negInf (at5 p) x ≤ -100000 + SemiMarkovProofs.steps p lengths b * B :=
  (AtomChain.phScore_le (st := finals p (Props.SemiMarkov.hK h)) (cell := cells p lengths b) (M := positions lg p.d1) (L := SemiMarkovProofs.steps p lengths b)
    (E := Entry p lengths b) (v := at5 p) (B := B) (z := Semirings.negInf)
    (fun n i j e hn hc => by have := (potE b n i j e hc).1; omega)
    (fun n i j e _ hc => (potE b n i j e hc).2) hB.nonneg (by norm_num [Semirings.negInf])
    (by rintro e ⟨n, k, c, c', rfl, h1, h2, h3⟩; exact hB.bound b hb n k c c' h1 h2 h3 c.2 c'.2) x).1

open Props.SemiMarkov in
/-- **C79** for `max`: the score of the best segmentation, whatever the logarithm is. -/
theorem semi_max (lg : ℕ → ℝ) (p : T5 ℝ) (lengths : Option (List ℕ)) (h : SemiMarkovProofs.Valid p lengths) (hc : Covers lg p.d1) {B : ℝ} (hB : Bounded p lengths B)
    (hsmall : 2 * p.d1 * B < 100000) : Dist.max (SemiMarkov.algoF lg) p lengths = Dist.max SemiMarkov.algo p lengths := by
  obtain ⟨vs, h1, h2, h3⟩ := (semi_batchDP lg p lengths h (Props.SemiMarkov.hK h) hc).max_leaky fun b hb x => by
    obtain ⟨y⟩ := seg_nonempty h b
    refine ⟨y, ?_⟩
    rw [realScore_eq]
    refine (semi_ph_le lg h hB b hb x).trans ?_
    refine le_trans ?_ (abs_le.1 (real_le hB b hb y)).1
    have h3 : (SemiMarkovProofs.steps p lengths b : ℝ) * B ≤ p.d1 * B :=
      mul_le_mul_of_nonneg_right (by exact_mod_cast (steps_le h b).1) hB.nonneg
    change _ ≤ -((SemiMarkovProofs.steps p lengths b : ℝ) * B)
    linarith
  simp only [realScore_eq] at h3
  obtain ⟨ws, g1, g2, g3⟩ := Props.SemiMarkov.max_spec p lengths h hB hsmall
  rw [h1, g1]
  refine congrArg _ (List.ext_getElem (h2.trans g2.symm) fun b hb hb' => ?_)
  obtain ⟨⟨y, hy⟩, hu⟩ := h3 b hb
  obtain ⟨⟨y', hy'⟩, hu'⟩ := g3 b hb'
  exact le_antisymm (hy ▸ hu' y) (hy' ▸ hu y')

open Props.SemiMarkov in
/-- **C79** for `partition`: the log of the sum over the segmentations, up to the error of the stand-in `-1e5`, whatever the logarithm is. -/
theorem semi_partition (lg : ℕ → ℝ) (p : T5 ℝ) (lengths : Option (List ℕ)) (h : SemiMarkovProofs.Valid p lengths) (hc : Covers lg p.d1) {B : ℝ}
    (hB : Bounded p lengths B) :
    ∃ vs, Dist.partition (SemiMarkov.algoF lg) p lengths = .ok vs ∧ vs.length = p.d0 ∧ ∀ b (hb : b < vs.length),
      truth p lengths b ≤ vs[b] ∧ vs[b] ≤ truth p lengths b +
        (p.d3 ^ 2 * (((p.d2 - 1) * p.d3) ^ (positions lg p.d1 + 1) * 2 ^ positions lg p.d1) : ℕ) *
          Real.exp (2 * SemiMarkovProofs.steps p lengths b * B - 100000) := by
  refine ⟨_, (semi_batchDP lg p lengths h (Props.SemiMarkov.hK h) hc).partition_leaky fun b _ => seg_nonempty h b, by simp, fun b hb => ?_⟩
  have hb' : b < p.d0 := by simpa using hb
  rw [getElem_map_range]
  have e : Real.log (Gibbs.Z (realScore (segParts b : Seg p lengths b → _) (at5 p))) = truth p lengths b := by rw [realScore_eq]; rfl
  have h1 := Gibbs.log_one_add_excess (realScore (segParts b : Seg p lengths b → _) (at5 p))
    (phScore (AtomChain.Phantom.atoms : PhF (positions lg p.d1) p lengths (Props.SemiMarkov.hK h) b → _) Semirings.negInf (at5 p))
  have h2 : BatchDP.ex (fun b => (segParts b : Seg p lengths b → _))
      (fun b => (AtomChain.Phantom.atoms : PhF (positions lg p.d1) p lengths (Props.SemiMarkov.hK h) b → _)) (at5 p) b ≤
      (p.d3 ^ 2 * (((p.d2 - 1) * p.d3) ^ (positions lg p.d1 + 1) * 2 ^ positions lg p.d1) : ℕ) *
        Real.exp (2 * SemiMarkovProofs.steps p lengths b * B - 100000) := by
    have hne := seg_nonempty h b
    refine (Gibbs.excess_le (ι := Seg p lengths b) _ _ (L := -(SemiMarkovProofs.steps p lengths b * B))
      (U := -100000 + SemiMarkovProofs.steps p lengths b * B) ?_ ?_).trans ?_
    · intro y
      rw [realScore_eq]
      exact (abs_le.1 (real_le hB b hb' y)).1
    · intro x
      exact semi_ph_le lg h hB b hb' x
    · have e : -100000 + SemiMarkovProofs.steps p lengths b * B - -(SemiMarkovProofs.steps p lengths b * B) =
        2 * SemiMarkovProofs.steps p lengths b * B - 100000 := by ring
      rw [e]
      refine mul_le_mul_of_nonneg_right ?_ (Real.exp_nonneg _)
      exact_mod_cast AtomChain.card_phantom_le (st := finals p (Props.SemiMarkov.hK h)) (cell := cells p lengths b) (M := positions lg p.d1)
        (fun n i j => cell_length _ _ _ _ _ _ i j)
  unfold BatchDP.ex at h2 ⊢
  rw [← e]
  constructor
  · exact le_add_of_nonneg_right h1.1
  · refine add_le_add_right (h1.2.trans h2) _

/-- The hypotheses are met by the sample batch. -/
example : SemiMarkovProofs.Valid Props.SemiMarkov.sample (some [4, 3]) ∧ Covers (Real.logb 2 ·) Props.SemiMarkov.sample.d1 ∧
    Props.SemiMarkov.Bounded Props.SemiMarkov.sample (some [4, 3]) 10 ∧ 2 * (Props.SemiMarkov.sample.d1 : ℝ) * 10 < 100000 :=
  ⟨Props.SemiMarkov.sample_valid, exact_covers _ (by decide), Props.SemiMarkov.sample_bounded.1, by norm_num [Props.SemiMarkov.sample]⟩

end Semi

end Props.BinLength
