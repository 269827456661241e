import Verif.Proofs.InfCross
import Verif.Props.InfEntropy

/-! C130: `LinearChainCRF.cross_entropy` and `kl` when the two models forbid different transitions (potential `-inf`).

C120 says what a transition forbidden in both models does.  Here is the rest: for each row the result is NaN, `+inf` or a number, and these cases are told apart by which model
forbids a transition of the row; the number is the cross entropy of the distribution over the sequences that the first model allows. -/

open Finset Spec InfEntropy InfCross
open Props.Conditional (forbid4)
open Props.InfEntropy (SomeBanned chain_lens chain_kl chain_cross_entropy)
open Props.LinearChain (Valid numEdges row rowAs)

noncomputable section
namespace Props.InfCross

variable {p q : T4 ℝ} {lengths : Option (List ℕ)}

/-- How far the stand-in `-1e5` for `log 0` can move the result of row `b`, when the potentials that are not `-inf` are between `-B` and `B`. -/
def err (p : T4 ℝ) (lengths : Option (List ℕ)) (B : ℝ) (b : ℕ) : ℝ :=
  let L := numEdges p lengths b
  let M := 2 ^ Nat.clog 2 p.d1
  let pad : ℝ := ((M - L : ℕ) : ℝ) * ((2 * p.d2 - 1 : ℕ) * Real.exp (-100000))
  (L * Real.exp (-100000 + B) + pad) +
    2 * (M * (100000 + B)) * (L * Real.exp (-100000 + B) + (p.d2 : ℝ) ^ (L + 1) * 2 ^ L * Real.exp (-100000 + 2 * L * B) + pad)

/-- The potentials of row `b` that are not `-inf` are between `-B` and `B`, which is small against `1e5`. -/
structure Within (p q : T4 ℝ) (lengths : Option (List ℕ)) (F : ℕ → ℕ → ℕ → ℕ → Prop) (B : ℝ) (b : ℕ) : Prop where
  nonneg : 0 ≤ B
  small : 2 * (numEdges p lengths b) * B < 100000
  left : ∀ n < numEdges p lengths b, ∀ i j : Fin p.d2, ¬ F b n i j → |row p b n i j| ≤ B
  right : ∀ n < numEdges p lengths b, ∀ i j : Fin p.d2, |rowAs p q b n i j| ≤ B

theorem err_eq (B : ℝ) (b : ℕ) : LinearChainLog.slack Semirings.negInf (-B) (lenOf (p.d1 + 1) lengths b - 1) (2 ^ Nat.clog 2 p.d1 - (lenOf (p.d1 + 1) lengths b - 1)) p.d2 +
    2 * ((2 ^ Nat.clog 2 p.d1 : ℕ) * (|Semirings.negInf| + B)) *
      ChainMask.slackM Semirings.negInf B (lenOf (p.d1 + 1) lengths b - 1) (2 ^ Nat.clog 2 p.d1 - (lenOf (p.d1 + 1) lengths b - 1)) p.d2 = err p lengths B b := by
  have e : |Semirings.negInf| = 100000 := by norm_num [Semirings.negInf]
  rw [e]
  simp only [LinearChainLog.slack, ChainMask.slackM, err, numEdges, Semirings.negInf, sub_neg_eq_add]

/-- The entry of the chart at an unconstrained transition. -/
theorem plain_cell {S : SR (ℝ × ℝ × ℝ)} {T : SR Triple} (H : Hom S T embPair) (x y : ℝ) :
    Marks (T.sum [T.zero, ((x : EReal), (y : EReal), .ofReal 0)]) (Bag.single 0) := by
  have : T.sum [T.zero, ((x : EReal), (y : EReal), .ofReal 0)] = embPair (S.sum [S.zero, (x, y, 0)]) := by
    rw [H.zero]
    exact H.sum [S.zero, (x, y, 0)] (by simp)
  exact marks_real _ _ _ this

/-- **C130, `cross_entropy`.**  NaN if some transition of the row is forbidden in both models.  If not, `+inf` if some transition is forbidden in the second model; this is so even if
no sequence that the first model allows uses it.  If the second model forbids none, the result is the cross entropy of the distribution over the sequences that the first model
allows, up to the error of the stand-in. -/
theorem cross_entropy (p q : T4 ℝ) (lengths : Option (List ℕ)) (h : Valid p lengths) (hs : TreeCRF.SameShape p q) (F G : ℕ → ℕ → ℕ → ℕ → Prop) :
    ∃ vs, Dist.crossEntropyE LinearChain.logpartition (forbid4 p F) (forbid4 q G) lengths = .ok vs ∧ vs.length = p.d0 ∧ ∀ b < p.d0,
      (SomeBanned p lengths (fun b n i j => F b n i j ∧ G b n i j) b → vs[b]? = some IEEE.nan) ∧
      (¬ SomeBanned p lengths (fun b n i j => F b n i j ∧ G b n i j) b → SomeBanned p lengths G b → vs[b]? = some (some ⊤)) ∧
      (¬ SomeBanned p lengths G b → ∃ v : ℝ, vs[b]? = some (IEEE.ofReal v) ∧ ∀ B, Within p q lengths F B b →
        (∃ y : Tags (numEdges p lengths b) p.d2, Allowed (fun n i j => ¬ F b n i j) y) →
        |v - maskCE (numEdges p lengths b) (fun n i j => ¬ F b n i j) (row p b) (rowAs p q b)| ≤ err p lengths B b) := by
  classical
  obtain ⟨vs, us, h1, -, h2, -, h3⟩ := chain_cross_entropy p q lengths h hs F G
  have e1 := LinearChainProofs.logpartition_ok Semirings.crossEntropyE (pairE (forbid4 p F) (forbid4 q G)) lengths h.square h.edges h.lens
  have e2 := congrArg (Except.map (List.map fun a : EReal × EReal × IEEE => a.2.2)) e1
  have e3 := Except.ok.inj (h1.symm.trans e2)
  refine ⟨vs, h1, h2, fun b hb => ⟨(h3 b hb).1, fun hn hG => ?_, fun hG => ?_⟩⟩
  all_goals
    obtain ⟨l1, l2⟩ := chain_lens h b
    have hget : vs[b]? = some ((LinearChain.core Semirings.crossEntropyE (p.d1 + 1) (Nat.clog 2 p.d1) (lenOf (p.d1 + 1) lengths)
        (fun b n (i j : Fin p.d2) => (pairE (forbid4 p F) (forbid4 q G)).get b n i j) b).2.2) := by
      rw [e3, List.getElem?_map, List.getElem?_map, List.getElem?_range (show b < (pairE (forbid4 p F) (forbid4 q G)).d0 from hb)]
      rfl
    rw [hget]
  · refine congrArg some (ce_cross.core_top h.classes _ _ b l1 l2 (fun n i j => G b n i j) (fun n hn' i j => ?_) ?_)
    · change Marks (Semirings.crossEntropyE.sum [_, ((forbid4 p F).get b n i j, (forbid4 q G).get b n i j, IEEE.ofReal 0)]) _
      simp only [forbid4]
      by_cases hF : F b n i j <;> by_cases hG' : G b n i j
      · exact absurd ⟨n, hn', i, i.2, j, j.2, hF, hG'⟩ hn
      · simp only [hF, hG', if_true, if_false]
        exact marks_real _ _ _ (ce_cell _)
      · simp only [hF, hG', if_true, if_false]
        exact ce_cross.cell _
      · simp only [hF, hG', if_false]
        exact plain_cell ce_hom _ _
    · obtain ⟨n, hn', i, hi, j, hj, hG'⟩ := hG
      exact ⟨n, hn', ⟨i, hi⟩, ⟨j, hj⟩, hG'⟩
  · obtain ⟨v, k1, k2⟩ := ce_row h.classes (logN := Nat.clog 2 p.d1) (lenOf (p.d1 + 1) lengths) (fun n i j => ¬ F b n i j) (row p b) (rowAs p q b)
      (fun b n (i j : Fin p.d2) => (pairE (forbid4 p F) (forbid4 q G)).get b n i j) b l1 l2 (fun n hn' i j => by
        refine Prod.ext ?_ (Prod.ext ?_ rfl)
        · simp only [pairE, forbid4, row]
          by_cases hF : F b n i j <;> simp [hF]
        · exact if_neg fun hc => hG ⟨n, hn', i, i.2, j, j.2, hc⟩)
    refine ⟨v, congrArg some k1, fun B hB hne => ?_⟩
    rw [← err_eq]
    obtain ⟨y, hy⟩ := hne
    exact k2 B hB.nonneg (by have := hB.small; simp only [numEdges] at this; norm_num [Semirings.negInf]; exact this) hB.left hB.right ⟨⟨y, hy⟩⟩

/-- **C130, `kl`.**  NaN if some transition of the row is forbidden in the first model.  If not, `+inf` if some transition is forbidden in the second; this is then also the true
divergence.  If neither model forbids any, the result is what it is without `-inf` (C10). -/
theorem kl (p q : T4 ℝ) (lengths : Option (List ℕ)) (h : Valid p lengths) (hs : TreeCRF.SameShape p q) (F G : ℕ → ℕ → ℕ → ℕ → Prop) :
    ∃ vs us, Dist.klE LinearChain.logpartition (forbid4 p F) (forbid4 q G) lengths = .ok vs ∧ LinearChain.kl p q lengths = .ok us ∧ vs.length = p.d0 ∧ us.length = p.d0 ∧
      ∀ b < p.d0, (SomeBanned p lengths F b → vs[b]? = some IEEE.nan) ∧
      (¬ SomeBanned p lengths F b → SomeBanned p lengths G b → vs[b]? = some (some ⊤)) ∧
      (¬ SomeBanned p lengths F b → ¬ SomeBanned p lengths G b → vs[b]? = us[b]?.map IEEE.ofReal) := by
  classical
  obtain ⟨vs, us, h1, h1', h2, h2', h3⟩ := chain_kl p q lengths h hs F G
  have e1 := LinearChainProofs.logpartition_ok Semirings.klE (pairE (forbid4 p F) (forbid4 q G)) lengths h.square h.edges h.lens
  have e2 := congrArg (Except.map (List.map fun a : EReal × EReal × IEEE => a.2.2)) e1
  have e3 := Except.ok.inj (h1.symm.trans e2)
  refine ⟨vs, us, h1, h1', h2, h2', fun b hb => ⟨(h3 b hb).1, fun hF hG => ?_, fun hF hG => (h3 b hb).2 ?_⟩⟩
  · obtain ⟨l1, l2⟩ := chain_lens h b
    have hget : vs[b]? = some ((LinearChain.core Semirings.klE (p.d1 + 1) (Nat.clog 2 p.d1) (lenOf (p.d1 + 1) lengths)
        (fun b n (i j : Fin p.d2) => (pairE (forbid4 p F) (forbid4 q G)).get b n i j) b).2.2) := by
      rw [e3, List.getElem?_map, List.getElem?_map, List.getElem?_range (show b < (pairE (forbid4 p F) (forbid4 q G)).d0 from hb)]
      rfl
    rw [hget]
    refine congrArg some (kl_cross.core_top h.classes _ _ b l1 l2 (fun n i j => G b n i j) (fun n hn' i j => ?_) ?_)
    · change Marks (Semirings.klE.sum [_, ((forbid4 p F).get b n i j, (forbid4 q G).get b n i j, IEEE.ofReal 0)]) _
      have hF' : ¬ F b n i j := fun hc => hF ⟨n, hn', i, i.2, j, j.2, hc⟩
      simp only [forbid4]
      by_cases hG' : G b n i j
      · simp only [hF', hG', if_true, if_false]
        exact kl_cross.cell _
      · simp only [hF', hG', if_false]
        exact plain_cell kl_hom _ _
    · obtain ⟨n, hn', i, hi, j, hj, hG'⟩ := hG
      exact ⟨n, hn', ⟨i, hi⟩, ⟨j, hj⟩, hG'⟩
  · rintro ⟨n, hn, i, hi, j, hj, hc | hc⟩
    exacts [hF ⟨n, hn, i, hi, j, hj, hc⟩, hG ⟨n, hn, i, hi, j, hj, hc⟩]

/-! ### The hypotheses are met -/

open Props.ChainInfinity (banned)

theorem sample_within : Within LinearChain.sample LinearChain.sample (some [3, 2]) banned 4 1 := by
  have key : ∀ n < 1, ∀ i j : Fin 2, |row LinearChain.sample 1 n i j| ≤ 4 := by
    intro n hn i j
    obtain rfl : n = 0 := by omega
    have hi' : ((i : ℕ) : ℝ) ≤ 1 := by exact_mod_cast Nat.le_of_lt_succ i.2
    have hj' : ((j : ℕ) : ℝ) ≤ 1 := by exact_mod_cast Nat.le_of_lt_succ j.2
    have := (Nat.cast_nonneg (i : ℕ) : (0 : ℝ) ≤ (i : ℕ))
    have := (Nat.cast_nonneg (j : ℕ) : (0 : ℝ) ≤ (j : ℕ))
    simp only [row, LinearChain.sample, Nat.cast_one, Nat.cast_zero]
    rw [abs_le]
    constructor <;> linarith
  refine ⟨by norm_num, ?_, fun n hn i j _ => key n hn i j, fun n hn i j => key n hn i j⟩
  simp [numEdges, lenOf]
  norm_num

/-- Two rows of lengths 3 and 2 over 2 tags.  The second model forbids the step from tag 0 to tag 1: both results are `+inf`. -/
example : ∃ vs ws us, Dist.crossEntropyE LinearChain.logpartition (forbid4 LinearChain.sample fun _ _ _ _ => False) (forbid4 LinearChain.sample banned) (some [3, 2]) = .ok vs ∧
    Dist.klE LinearChain.logpartition (forbid4 LinearChain.sample fun _ _ _ _ => False) (forbid4 LinearChain.sample banned) (some [3, 2]) = .ok ws ∧
    LinearChain.kl LinearChain.sample LinearChain.sample (some [3, 2]) = .ok us ∧ vs[1]? = some (some ⊤) ∧ ws[1]? = some (some ⊤) := by
  obtain ⟨vs, h1, -, h3⟩ := cross_entropy LinearChain.sample LinearChain.sample _ LinearChain.sample_valid ⟨rfl, rfl, rfl, rfl⟩ (fun _ _ _ _ => False) banned
  obtain ⟨ws, us, k1, k2, -, -, k3⟩ := kl LinearChain.sample LinearChain.sample _ LinearChain.sample_valid ⟨rfl, rfl, rfl, rfl⟩ (fun _ _ _ _ => False) banned
  have hG : SomeBanned LinearChain.sample (some [3, 2]) banned 1 := ⟨0, by decide, 1, by decide, 0, by decide, rfl, rfl⟩
  refine ⟨vs, ws, us, h1, k1, k2, (h3 1 (by decide)).2.1 ?_ hG, (k3 1 (by decide)).2.1 ?_ hG⟩
  · rintro ⟨n, -, i, -, j, -, hc, -⟩
    exact hc
  · rintro ⟨n, -, i, -, j, -, hc⟩
    exact hc

/-- The first model forbids that step: `cross_entropy` is right and `kl` is NaN. -/
example : ∃ vs ws, Dist.crossEntropyE LinearChain.logpartition (forbid4 LinearChain.sample banned) (forbid4 LinearChain.sample fun _ _ _ _ => False) (some [3, 2]) = .ok vs ∧
    Dist.klE LinearChain.logpartition (forbid4 LinearChain.sample banned) (forbid4 LinearChain.sample fun _ _ _ _ => False) (some [3, 2]) = .ok ws ∧ ws[1]? = some IEEE.nan ∧
    ∃ v : ℝ, vs[1]? = some (IEEE.ofReal v) ∧ |v - maskCE 1 (fun n (i j : Fin 2) => ¬ banned 1 n i j) (row LinearChain.sample 1) (row LinearChain.sample 1)| ≤
      err LinearChain.sample (some [3, 2]) 4 1 := by
  obtain ⟨vs, h1, -, h3⟩ := cross_entropy LinearChain.sample LinearChain.sample _ LinearChain.sample_valid ⟨rfl, rfl, rfl, rfl⟩ banned fun _ _ _ _ => False
  obtain ⟨ws, us, k1, k2, -, -, k3⟩ := kl LinearChain.sample LinearChain.sample _ LinearChain.sample_valid ⟨rfl, rfl, rfl, rfl⟩ banned fun _ _ _ _ => False
  obtain ⟨v, hv, hb⟩ := (h3 1 (by decide)).2.2 (by rintro ⟨n, -, i, -, j, -, hc⟩; exact hc)
  exact ⟨vs, ws, h1, k1, (k3 1 (by decide)).1 ⟨0, by decide, 1, by decide, 0, by decide, rfl, rfl⟩, v, hv, hb 4 sample_within ⟨fun _ => ⟨0, by decide⟩, fun n => by simp [banned]⟩⟩

end Props.InfCross
