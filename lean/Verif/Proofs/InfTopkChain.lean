import Verif.Proofs.InfTopkDP
import Verif.Proofs.ChainKBest
import Verif.Proofs.ChainMask

/-! The k best tag sequences of a chain some of whose potentials are `-inf`. -/

open Finset Spec LinearChainProofs ChainProofs

noncomputable section
namespace InfTopk
variable {G : Type} [AddCommMonoid G] {score : G → EReal} {k C : ℕ} {z : ℝ}

theorem SplitE.prod (hadd : ∀ a b, score (a + b) = score a + score b) (h0 : score 0 = 0) (hz : z ≤ 0) {A : Type} (s : Finset A)
    {U : A → ℝ} {r x : A → Bag G} (h : ∀ i ∈ s, SplitE score z (U i) (r i) (x i)) : SplitE score z (∑ i ∈ s, U i) (∏ i ∈ s, r i) (∏ i ∈ s, x i) :=
  SplitE.mprod hadd h0 hz s.val h

theorem SplitE.chainSum (hadd : ∀ a b, score (a + b) = score a + score b) (h0 : score 0 = 0) (hz : z ≤ 0) {M : ℕ} {U : ℕ → ℝ}
    {r x : ℕ → Fin C → Fin C → Bag G} (h : ∀ n < M, ∀ i j, SplitE score z (U n) (r n i j) (x n i j)) :
    SplitE score z (∑ n ∈ range M, U n) (Spec.chainSum M r) (Spec.chainSum M x) := by
  refine SplitE.sum _ fun y _ => ?_
  rw [← Fin.sum_univ_eq_sum_range]
  exact SplitE.prod hadd h0 hz univ fun n _ => h n n.2 _ _

namespace KSRE
variable {S : SR (List G)} {zz : G} (H : KSRE S score k zz z)
include H

theorem mem_detach {xs : List G} (h : ∀ a ∈ xs, score a = (z : ℝ)) : ∀ a ∈ S.detach xs, score a = (z : ℝ) := by
  intro a ha
  have h1 : score a ∈ (S.detach xs).map score := List.mem_map_of_mem ha
  rw [H.detach_score] at h1
  obtain ⟨a', ha', e⟩ := List.mem_map.1 h1
  rw [← e]; exact h a' ha'

open Classical in
/-- What an entry of the chart inside the row contributes; `D` tells whether it is allowed. -/
theorem inside {N L n : ℕ} (lp : ℕ → Fin C → Fin C → List G) (i j : Fin C) (x : G) (hlp : lp n i j = ChainTop.headList k x zz) (h1 : n < L - 1)
    (hN : L ≤ N) (B : ℝ) (D : Prop) (hx : D → score x ≤ (B : ℝ)) (hx' : ¬ D → score x = ⊥) (hB : 0 ≤ B) :
    ∃ w : Bag G, Mostly score (z : ℝ) k (S.sum [maskedC S L n i j, maskedL S N L lp n i j]) w ∧ SplitE score z B (if D then Bag.single x else 0) w := by
  have h2 : ¬ n ≥ L - 1 := by omega
  have h3 : n < N - 1 := by omega
  have hCeq : (maskedC S L n i j).length = k ∧ ∀ a ∈ maskedC S L n i j, score a = (z : ℝ) := by
    simp only [maskedC, SR.fill, h2, decide_false, Bool.not_false, if_true]
    have hl : (if decide (i = j) = true then S.one else S.zero).length = k := by
      split_ifs
      exacts [H.one_len, H.zero_len]
    exact ⟨by rw [H.detach_len, H.set_len _ _ hl H.zero_len], H.mem_detach (H.mem_set hl)⟩
  have hLeq : maskedL S N L lp n i j = ChainTop.headList k x zz := by
    simp only [maskedL, SR.fill, h2, h3, decide_false, if_true]
    rw [if_neg (by simp), H.set_self, hlp]
  have hzB : ((z : ℝ) : EReal) ≤ ((z + B : ℝ) : EReal) := EReal.coe_le_coe_iff.2 (by linarith)
  rw [hLeq]
  refine ⟨_, (H.top.rel (z : ℝ)).sum2 (mostly_const _ _ hCeq.1 fun a ha => (hCeq.2 a ha).le) (headList_mostly H.top.pos x zz H.scorez), ?_⟩
  have hjunk : ∀ a ∈ (Bag.ofList (maskedC S L n i j) + Bag.ofList (List.replicate (k - 1) zz)).ms, score a ≤ ((z + B : ℝ) : EReal) := by
    intro a ha
    rw [Bag.ms_add, Multiset.mem_add] at ha
    rcases ha with ha | ha
    · rw [hCeq.2 a (by simpa using ha)]; exact hzB
    · rw [H.mem_rep _ a ha]; exact hzB
  by_cases hD : D
  · rw [if_pos hD]
    refine ⟨Bag.ofList (maskedC S L n i j) + Bag.ofList (List.replicate (k - 1) zz), by abel, ?_, hjunk⟩
    intro a ha
    rw [Bag.ms_single, Multiset.mem_singleton] at ha
    subst ha; exact hx hD
  · rw [if_neg hD]
    refine ⟨_, (zero_add _).symm, by simp, ?_⟩
    intro a ha
    rw [show Bag.ofList (maskedC S L n i j) + (Bag.single x + Bag.ofList (List.replicate (k - 1) zz)) =
      Bag.single x + (Bag.ofList (maskedC S L n i j) + Bag.ofList (List.replicate (k - 1) zz)) by abel, Bag.ms_add, Multiset.mem_add] at ha
    rcases ha with ha | ha
    · rw [Bag.ms_single, Multiset.mem_singleton] at ha
      subst ha; rw [hx' hD]; exact bot_le
    · exact hjunk a ha

/-- What an entry of the chart past the row's length contributes. -/
theorem outside {N L n : ℕ} (lp : ℕ → Fin C → Fin C → List G) (i j : Fin C) (hlp : (lp n i j).length = k) (h1 : ¬ n < L - 1) :
    ∃ w : Bag G, Mostly score (z : ℝ) k (S.sum [maskedC S L n i j, maskedL S N L lp n i j]) w ∧ SplitE score z 0 (if i = j then 1 else 0) w := by
  have h2 : n ≥ L - 1 := by omega
  have hLeq : (maskedL S N L lp n i j).length = k ∧ ∀ a ∈ maskedL S N L lp n i j, score a = (z : ℝ) := by
    simp only [maskedL, SR.fill, h2, decide_true, if_true]
    have hl : (if n < N - 1 then lp n i j else S.raw0).length = k := by
      split_ifs
      exacts [hlp, by simp [H.raw0]]
    exact ⟨H.set_len _ _ hl H.zero_len, H.mem_set hl⟩
  have hz0 : ((z : ℝ) : EReal) ≤ ((z + 0 : ℝ) : EReal) := by rw [add_zero]
  have t2 : Mostly score (z : ℝ) k (maskedL S N L lp n i j) _ := mostly_const _ _ hLeq.1 fun a ha => (hLeq.2 a ha).le
  have t1 : ∃ w, Mostly score (z : ℝ) k (maskedC S L n i j) w ∧ SplitE score z 0 (if i = j then 1 else 0) w := by
    simp only [maskedC, SR.fill, h2, decide_true, Bool.not_true, Bool.false_eq_true, if_false]
    rw [H.set_self]
    by_cases hij : i = j
    · simp only [hij, decide_true, if_true]
      rw [H.detach_one, H.one]
      refine ⟨_, headList_mostly H.top.pos 0 zz H.scorez, Bag.ofList (List.replicate (k - 1) zz), rfl, ?_, ?_⟩
      · intro a ha
        rw [Bag.ms_one, Multiset.mem_singleton] at ha
        subst ha; exact H.score0.le
      · intro a ha
        rw [H.mem_rep _ a ha]; exact hz0
    · simp only [hij, decide_false, if_false, Bool.false_eq_true]
      rw [H.detach_zero]
      have hzr : ∀ a ∈ S.zero, score a = (z : ℝ) := by
        intro a ha; rw [H.zero] at ha; rw [List.eq_of_mem_replicate ha, H.scorez]
      refine ⟨Bag.ofList S.zero, mostly_const _ _ H.zero_len fun a ha => (hzr a ha).le, Bag.ofList S.zero, by rw [zero_add], by simp, ?_⟩
      intro a ha
      rw [hzr a (by simpa using ha)]; exact hz0
  obtain ⟨w, hw, q, rfl, hq1, hq2⟩ := t1
  refine ⟨_, (H.top.rel (z : ℝ)).sum2 hw t2, q + _, by rw [add_assoc], hq1, ?_⟩
  intro a ha
  rw [Bag.ms_add, Multiset.mem_add] at ha
  rcases ha with ha | ha
  · exact hq2 a ha
  · rw [hLeq.2 a (by simpa using ha)]; exact hz0

theorem score_sum {ι : Type} (s : Finset ι) (g : ι → G) (r : ι → ℝ) (h : ∀ i ∈ s, score (g i) = r i) : score (∑ i ∈ s, g i) = (∑ i ∈ s, r i : ℝ) := by
  classical
  induction s using Finset.induction_on with
  | empty => simpa using H.score0
  | insert a s ha ih =>
    rw [sum_insert ha, sum_insert ha, H.top.score_add, h a (mem_insert_self _ _), ih fun i hi => h i (mem_insert_of_mem hi), EReal.coe_add]

/-- The k best allowed sequences of one row. -/
theorem chain {N logN : ℕ} (hC : 0 < C) (hN : N - 1 ≤ 2 ^ logN) (lens : ℕ → ℕ) (lp : ℕ → ℕ → Fin C → Fin C → List G) (b : ℕ)
    (hl : lens b ≤ N) (f : ℕ → Fin C → Fin C → G) (hlen : ∀ n i j, (lp b n i j).length = k)
    (hlp : ∀ n < lens b - 1, ∀ i j, lp b n i j = ChainTop.headList k (f n i j) zz) {D : ℕ → Fin C → Fin C → Prop} {r : ℕ → Fin C → Fin C → ℝ}
    (hr : ∀ n < lens b - 1, ∀ i j, D n i j → score (f n i j) = r n i j) (hF : ∀ n < lens b - 1, ∀ i j, ¬ D n i j → score (f n i j) = ⊥) {B : ℝ} (hB : 0 ≤ B)
    (hb : ∀ n < lens b - 1, ∀ i j, D n i j → |r n i j| ≤ B) (hbig : 2 * ((lens b - 1 : ℕ) : ℝ) * B < -z) :
    ∃ ys : List (AllowedTags (lens b - 1) D), ∃ l : List G,
      LinearChain.core S N logN lens lp b = (ys.map fun y => ∑ n : Fin (lens b - 1), f n (y.1 n.succ) (y.1 n.castSucc)) ++ l ∧
      IsKBest (fun y : AllowedTags (lens b - 1) D => seqScore r y.1) (min k (Fintype.card (AllowedTags (lens b - 1) D))) ys ∧
      (∀ a ∈ l, score a ≤ ((z + (lens b - 1 : ℕ) * B : ℝ) : EReal)) ∧ (LinearChain.core S N logN lens lp b).length = k := by
  classical
  have hpow : lens b - 1 ≤ 2 ^ logN := by omega
  have key : ∀ n < 2 ^ logN, ∀ i j : Fin C, ∃ w : Bag G,
      Mostly score (z : ℝ) k (S.sum [maskedC S (lens b) n i j, maskedL S N (lens b) (lp b) n i j]) w ∧
      SplitE score z (if n < lens b - 1 then B else 0)
        (if n < lens b - 1 then (if D n i j then Bag.single (f n i j) else 0) else if i = j then 1 else 0) w := by
    intro n hn i j
    by_cases h1 : n < lens b - 1
    · simp only [h1, if_true]
      exact H.inside (lp b) i j (f n i j) (hlp n h1 i j) h1 hl B (D n i j) (fun hD => by rw [hr n h1 i j hD]; exact EReal.coe_le_coe_iff.2 (abs_le.1 (hb n h1 i j hD)).2)
        (hF n h1 i j) hB
    · simp only [h1, if_false]
      exact H.outside (lp b) i j (hlen n i j) h1
  choose! w hw1 hw2 using key
  have ht := core_rel (H.top.rel (z : ℝ)) hC N logN lens lp b w hw1
  have hsp := SplitE.chainSum H.top.score_add H.score0 H.zneg (M := 2 ^ logN) (U := fun n => if n < lens b - 1 then B else 0) hw2
  have e1 : ∀ y : AllowedTags (lens b - 1) D, seqProd (fun n i j => Bag.single (f n i j)) y.1 = Bag.single (∑ n : Fin (lens b - 1), f n (y.1 n.succ) (y.1 n.castSucc)) :=
    fun y => Bag.prod_single _ _
  rw [LinearChainLog.chainSum_idpad hC _ (lens b - 1) _ hpow, ChainMask.chainSum_mask] at hsp
  simp only [e1] at hsp
  change SplitE score z _ (∑ y : AllowedTags (lens b - 1) D, Bag.single (∑ n : Fin (lens b - 1), f n (y.1 n.succ) (y.1 n.castSucc))) _ at hsp
  have hU : ∑ n ∈ range (2 ^ logN), (if n < lens b - 1 then B else 0) = (lens b - 1 : ℕ) * B := by
    rw [← sum_filter, sum_const]
    have : (range (2 ^ logN)).filter (fun n => n < lens b - 1) = range (lens b - 1) := by ext n; simp; omega
    rw [this]; simp
  rw [hU] at hsp
  have hsc : ∀ y : AllowedTags (lens b - 1) D, score (∑ n : Fin (lens b - 1), f n (y.1 n.succ) (y.1 n.castSucc)) = (seqScore r y.1 : ℝ) :=
    fun y => H.score_sum univ _ (fun n : Fin (lens b - 1) => r n (y.1 n.succ) (y.1 n.castSucc)) fun n _ => hr n n.2 _ _ (y.2 n)
  obtain ⟨l1, l2, h1, h2, h3⟩ := mostly_split H.top.pos ht hsp (by have := mul_nonneg (Nat.cast_nonneg (α := ℝ) (lens b - 1)) hB; linarith) (by
    intro a ha
    obtain ⟨y, -, hy⟩ := Bag.mem_sum.1 ha
    rw [Bag.ms_single, Multiset.mem_singleton] at hy
    subst hy
    rw [hsc]
    have h2 : ∑ _n : Fin (lens b - 1), -B ≤ seqScore r y.1 := sum_le_sum fun n _ => (abs_le.1 (hb n n.2 _ _ (y.2 n))).1
    simp only [sum_const, card_univ, Fintype.card_fin, nsmul_eq_mul] at h2
    exact EReal.coe_lt_coe_iff.2 (by linarith))
  erw [ChainTop.card_family] at h2
  obtain ⟨ys, h4, h5⟩ := top_familyE hsc h2
  exact ⟨ys, l2, by rw [h1, h5], h4, h3, ht.1.choose_spec.2.1⟩

end KSRE
end InfTopk
