import Mathlib.Algebra.BigOperators.Fin
import Mathlib.Algebra.Order.BigOperators.Ring.Finset
import Mathlib.Order.ConditionallyCompleteLattice.Basic
import Mathlib.Data.Real.Archimedean
import Verif.Spec.PCFG
import Verif.Proofs.Grammar

/-! The sentences of a probabilistic grammar and the derivations. -/

open Finset Spec

noncomputable section
namespace PCFGProofs
variable {NT T V : ℕ} (G : PCFG NT T V)

/-- The symbol at the root of a derivation. -/
def top : Deriv NT T → Fin NT ⊕ Fin T
  | .leaf t => .inr t
  | .node X _ _ => .inl X

/-- The probability of a derivation together with its words. -/
def weight : Deriv NT T → List (Fin V) → ℝ
  | .leaf t, w => match w with
    | [v] => G.emit t v
    | _ => 0
  | .node X l r, w => G.rule X (top l) (top r) * (weight l (w.take l.size) * weight r (w.drop l.size))

theorem yields_nonneg : ∀ (k : ℕ) (s : Fin NT ⊕ Fin T) (w : List (Fin V)), 0 ≤ G.yields k s w
  | k, .inr t, w => by
    unfold PCFG.yields
    split
    · exact G.emit_nonneg _ _
    · exact le_rfl
  | 0, .inl X, w => by unfold PCFG.yields; exact le_rfl
  | k + 1, .inl X, w => by
    unfold PCFG.yields
    exact sum_nonneg fun y _ => sum_nonneg fun z _ => mul_nonneg (G.rule_nonneg _ _ _) (sum_nonneg fun i _ =>
      mul_nonneg (yields_nonneg k y _) (yields_nonneg k z _))

/-- A symbol becomes at most one thing: the probabilities of different outcomes add up to at most one. -/
theorem yields_mass : ∀ (k : ℕ) (s : Fin NT ⊕ Fin T) (A : Finset (List (Fin V))), ∑ w ∈ A, G.yields k s w ≤ 1
  | k, .inr t, A => by
    have h : ∀ w : List (Fin V), G.yields k (.inr t) w = ∑ v, if w = [v] then G.emit t v else 0 := by
      intro w
      unfold PCFG.yields
      split
      · rename_i v
        simp
      · rename_i h
        rw [sum_eq_zero]
        intro v _
        rw [if_neg (h v)]
    simp only [h]
    rw [sum_comm, ← G.emit_sum t]
    refine sum_le_sum fun v _ => ?_
    rw [sum_ite_eq']
    split
    · exact le_rfl
    · exact G.emit_nonneg _ _
  | 0, .inl X, A => by
    have h : ∀ w : List (Fin V), G.yields 0 (.inl X) w = 0 := fun w => by unfold PCFG.yields; rfl
    simp [h]
  | k + 1, .inl X, A => by
    classical
    have h : ∀ w : List (Fin V), G.yields (k + 1) (.inl X) w =
        ∑ y, ∑ z, G.rule X y z * ∑ i ∈ range (w.length + 1), G.yields k y (w.take i) * G.yields k z (w.drop i) := fun w => by
      conv_lhs => unfold PCFG.yields
    simp only [h]
    rw [sum_comm, ← G.rule_sum X]
    refine sum_le_sum fun y _ => ?_
    rw [sum_comm]
    refine sum_le_sum fun z _ => ?_
    rw [← mul_sum]
    refine mul_le_of_le_one_right (G.rule_nonneg _ _ _) ?_
    let P : Finset (List (Fin V) × List (Fin V)) := A.biUnion fun w => (range (w.length + 1)).image fun i => (w.take i, w.drop i)
    have e1 : ∑ w ∈ A, ∑ i ∈ range (w.length + 1), G.yields k y (w.take i) * G.yields k z (w.drop i) =
        ∑ x ∈ P, G.yields k y x.1 * G.yields k z x.2 := by
      rw [sum_biUnion]
      · refine sum_congr rfl fun w _ => ?_
        rw [sum_image]
        intro i hi j hj hij
        have hi := mem_range.1 (mem_coe.1 hi)
        have hj := mem_range.1 (mem_coe.1 hj)
        have := congrArg List.length (Prod.mk.inj hij).1
        rw [List.length_take, List.length_take] at this
        omega
      · intro w _ w' _ hw
        rw [Function.onFun, disjoint_left]
        intro x hx hx'
        obtain ⟨i, _, rfl⟩ := mem_image.1 hx
        obtain ⟨j, _, hj⟩ := mem_image.1 hx'
        apply hw
        rw [← List.take_append_drop i w, ← List.take_append_drop j w', (Prod.mk.inj hj).1, (Prod.mk.inj hj).2]
    rw [e1]
    calc ∑ x ∈ P, G.yields k y x.1 * G.yields k z x.2 ≤ ∑ x ∈ P.image Prod.fst ×ˢ P.image Prod.snd, G.yields k y x.1 * G.yields k z x.2 := by
          refine sum_le_sum_of_subset_of_nonneg ?_ fun x _ _ => mul_nonneg (yields_nonneg G _ _ _) (yields_nonneg G _ _ _)
          intro x hx
          exact mem_product.2 ⟨mem_image_of_mem _ hx, mem_image_of_mem _ hx⟩
      _ = (∑ u ∈ P.image Prod.fst, G.yields k y u) * ∑ v ∈ P.image Prod.snd, G.yields k z v := by rw [sum_product, sum_mul_sum]
      _ ≤ 1 * 1 := mul_le_mul (yields_mass k y _) (yields_mass k z _) (sum_nonneg fun v _ => yields_nonneg G _ _ _) zero_le_one
      _ = 1 := one_mul 1

theorem yields_mono : ∀ (k : ℕ) (s : Fin NT ⊕ Fin T) (w : List (Fin V)), G.yields k s w ≤ G.yields (k + 1) s w
  | k, .inr t, w => by unfold PCFG.yields; exact le_rfl
  | 0, .inl X, w => by
    have h : G.yields 0 (.inl X) w = 0 := by unfold PCFG.yields; rfl
    rw [h]; exact yields_nonneg G _ _ _
  | k + 1, .inl X, w => by
    unfold PCFG.yields
    refine sum_le_sum fun y _ => sum_le_sum fun z _ => mul_le_mul_of_nonneg_left (sum_le_sum fun i _ => ?_) (G.rule_nonneg _ _ _)
    exact mul_le_mul (yields_mono k y _) (yields_mono k z _) (yields_nonneg G _ _ _) (yields_nonneg G _ _ _)

theorem weight_nonneg : ∀ (d : Deriv NT T) (w : List (Fin V)), 0 ≤ weight G d w
  | .leaf t, w => by
    unfold weight
    split
    · exact G.emit_nonneg _ _
    · exact le_rfl
  | .node X l r, w => mul_nonneg (G.rule_nonneg _ _ _) (mul_nonneg (weight_nonneg l _) (weight_nonneg r _))

/-- The weight of the derivations of `w` from the symbol `s`. -/
def total (s : Fin NT ⊕ Fin T) (w : List (Fin V)) : ℝ := ∑ d : GTrees NT (Fin T) w.length, if top d.1 = s then weight G d.1 w else 0

theorem sum_by_top {n : ℕ} (f : Fin NT ⊕ Fin T → ℝ) (g : GTrees NT (Fin T) n → ℝ) :
    ∑ t, f (top t.1) * g t = ∑ s, f s * ∑ t, if top t.1 = s then g t else 0 := by
  simp only [mul_sum]
  rw [sum_comm]
  refine sum_congr rfl fun t _ => ?_
  rw [sum_eq_single (top t.1)]
  · rw [if_pos rfl]
  · intro s _ hs
    rw [if_neg (Ne.symm hs), mul_zero]
  · intro h
    exact absurd (mem_univ _) h

/-- The sum over the trees of one size, with the size written in another way. -/
theorem cast_sum {n m : ℕ} (h : n = m) (f : Deriv NT T → ℝ) : ∑ d : GTrees NT (Fin T) n, f d.1 = ∑ d : GTrees NT (Fin T) m, f d.1 := by
  subst h; rfl

theorem total_nil (s : Fin NT ⊕ Fin T) : total G s [] = 0 := by
  rw [total, sum_eq_zero]
  rintro ⟨d, hd⟩ _
  exact absurd hd (by have := d.size_pos; simp; omega)

theorem total_leaf (s : Fin NT ⊕ Fin T) (v : Fin V) : total G s [v] = match s with
    | .inl _ => 0
    | .inr t => G.emit t v := by
  rw [total, show ([v] : List (Fin V)).length = 1 from rfl, GrammarProofs.sum_one fun d => if top d = s then weight G d [v] else 0]
  cases s with
  | inl X => exact sum_eq_zero fun t _ => if_neg (by simp [top])
  | inr t =>
    rw [sum_eq_single t]
    · exact if_pos rfl
    · intro u _ hu
      rw [if_neg]
      simp only [top, Sum.inr.injEq]; exact hu
    · intro h; exact absurd (mem_univ _) h

theorem total_long (s : Fin NT ⊕ Fin T) (w : List (Fin V)) {n : ℕ} (hn : w.length = n + 2) : total G s w = match s with
    | .inl X => ∑ y, ∑ z, G.rule X y z * ∑ i ∈ range (w.length + 1), total G y (w.take i) * total G z (w.drop i)
    | .inr _ => 0 := by
  rw [total, cast_sum hn fun d => if top d = s then weight G d w else 0, GrammarProofs.sum_node n fun d => if top d = s then weight G d w else 0]
  cases s with
  | inr t => exact sum_eq_zero fun X _ => sum_eq_zero fun k _ => sum_eq_zero fun l _ => sum_eq_zero fun r _ => if_neg (by simp [top])
  | inl X =>
    rw [sum_eq_single X]
    · have e : ∀ (k : Fin (n + 1)), ∑ l : GTrees NT (Fin T) (k + 1), ∑ r : GTrees NT (Fin T) (n - k + 1),
          (if top (.node X l.1 r.1 : Deriv NT T) = .inl X then weight G (.node X l.1 r.1) w else 0) =
          ∑ y, ∑ z, G.rule X y z * (total G y (w.take (k + 1)) * total G z (w.drop (k + 1))) := by
        intro k
        have hk := k.2
        have h1 : (w.take (k + 1)).length = k + 1 := by rw [List.length_take]; omega
        have h2 : (w.drop (k + 1)).length = n - k + 1 := by rw [List.length_drop]; omega
        have e1 : ∀ (l : GTrees NT (Fin T) (k + 1)) (r : GTrees NT (Fin T) (n - k + 1)),
            (if top (.node X l.1 r.1 : Deriv NT T) = .inl X then weight G (.node X l.1 r.1) w else 0) =
            (G.rule X (top l.1) (top r.1) * weight G r.1 (w.drop (k + 1))) * weight G l.1 (w.take (k + 1)) := by
          intro l r
          rw [if_pos (show top (.node X l.1 r.1 : Deriv NT T) = .inl X from rfl), weight, l.2]
          ring
        simp only [e1, ← sum_mul]
        rw [sum_by_top (fun y => ∑ r : GTrees NT (Fin T) (n - k + 1), G.rule X y (top r.1) * weight G r.1 (w.drop (k + 1)))
          fun l => weight G l.1 (w.take (k + 1))]
        refine sum_congr rfl fun y _ => ?_
        rw [sum_by_top (fun z => G.rule X y z) fun r : GTrees NT (Fin T) (n - k + 1) => weight G r.1 (w.drop (k + 1)), sum_mul]
        refine sum_congr rfl fun z _ => ?_
        rw [total, total, cast_sum h1 fun d => if top d = y then weight G d (w.take (k + 1)) else 0,
          cast_sum h2 fun d => if top d = z then weight G d (w.drop (k + 1)) else 0]
        ring
      simp only [e]
      rw [sum_comm]
      refine sum_congr rfl fun y _ => ?_
      rw [sum_comm]
      refine sum_congr rfl fun z _ => ?_
      rw [← mul_sum, hn, sum_range_succ, sum_range_succ', List.take_zero, total_nil, zero_mul, add_zero,
        show w.drop (n + 2) = [] from List.drop_eq_nil_of_le (by omega), total_nil, mul_zero, add_zero, sum_range]
    · intro Y _ hY
      refine sum_eq_zero fun k _ => sum_eq_zero fun l _ => sum_eq_zero fun r _ => if_neg fun h => hY ?_
      exact Sum.inl.inj h
    · intro h; exact absurd (mem_univ _) h

/-- After as many rounds as there are words everything that the symbol can become has been counted. -/
theorem yields_total : ∀ (n : ℕ) (k : ℕ) (s : Fin NT ⊕ Fin T) (w : List (Fin V)), w.length = n → n ≤ k → G.yields k s w = total G s w := by
  intro n
  induction n using Nat.strong_induction_on with
  | _ n ih =>
    intro k s w hw hk
    match n, hw with
    | 0, hw =>
      obtain rfl := List.length_eq_zero_iff.1 hw
      rw [total_nil]
      clear ih hk hw
      induction k generalizing s with
      | zero => cases s <;> rfl
      | succ k ihk =>
        cases s with
        | inr t => rfl
        | inl X =>
          unfold PCFG.yields
          simp only [List.length_nil, zero_add, range_one, sum_singleton, List.take_nil, List.drop_nil, ihk]
          simp
    | 1, hw =>
      obtain ⟨v, rfl⟩ := List.length_eq_one_iff.1 hw
      rw [total_leaf]
      cases s with
      | inr t => unfold PCFG.yields; rfl
      | inl X =>
        obtain ⟨k, rfl⟩ : ∃ j, k = j + 1 := ⟨k - 1, by omega⟩
        have h0 : ∀ s, G.yields k s ([] : List (Fin V)) = 0 := fun s => by rw [ih 0 (by omega) k s [] rfl (by omega), total_nil]
        unfold PCFG.yields
        simp only [List.length_singleton]
        refine sum_eq_zero fun y _ => sum_eq_zero fun z _ => ?_
        rw [sum_range_succ, sum_range_one, List.take_zero, h0, show List.drop 1 [v] = [] from rfl, h0]
        simp
    | n + 2, hw =>
      rw [total_long G s w hw]
      cases s with
      | inr t =>
        unfold PCFG.yields
        match w, hw with
        | a :: b :: u, _ => rfl
      | inl X =>
        obtain ⟨k, rfl⟩ : ∃ j, k = j + 1 := ⟨k - 1, by omega⟩
        have h0 : ∀ s, G.yields k s ([] : List (Fin V)) = 0 := fun s => by rw [ih 0 (by omega) k s [] rfl (by omega), total_nil]
        conv_lhs => unfold PCFG.yields
        refine sum_congr rfl fun y _ => sum_congr rfl fun z _ => congrArg _ (sum_congr rfl fun i hi => ?_)
        have hi := mem_range.1 hi
        by_cases hz : i = 0
        · subst hz
          rw [List.take_zero, h0, total_nil, zero_mul, zero_mul]
        by_cases he : i = n + 2
        · subst he
          rw [List.drop_eq_nil_of_le (by omega), h0, total_nil, mul_zero, mul_zero]
        · rw [ih i (by omega) k y (w.take i) (by rw [List.length_take]; omega) (by omega),
            ih (n + 2 - i) (by omega) k z (w.drop i) (by rw [List.length_drop]; omega) (by omega)]

theorem sentenceWithin_le (k : ℕ) (w : List (Fin V)) : G.sentenceWithin k w ≤ G.sentenceWithin (max k w.length) w := by
  refine sum_le_sum fun X _ => mul_le_mul_of_nonneg_left ?_ (G.root_nonneg X)
  obtain ⟨j, hj⟩ : ∃ j, max k w.length = k + j := ⟨max k w.length - k, by omega⟩
  rw [hj]
  clear hj
  induction j with
  | zero => exact le_rfl
  | succ j ih => exact ih.trans (yields_mono G _ _ _)

/-- The probability of a sentence is the weight of its derivations. -/
theorem sentence_eq (w : List (Fin V)) : G.sentence w = ∑ X, G.root X * total G (.inl X) w := by
  have h : ∀ k, w.length ≤ k → G.sentenceWithin k w = ∑ X, G.root X * total G (.inl X) w := fun k hk =>
    sum_congr rfl fun X _ => by rw [yields_total G w.length k _ w rfl hk]
  refine le_antisymm (ciSup_le fun k => ?_) ?_
  · exact (sentenceWithin_le G k w).trans (h _ (le_max_right _ _)).le
  · rw [← h w.length le_rfl]
    refine le_ciSup (f := fun k => G.sentenceWithin k w) ⟨∑ X, G.root X * total G (.inl X) w, ?_⟩ w.length
    rintro _ ⟨k, rfl⟩
    exact (sentenceWithin_le G k w).trans (h _ (le_max_right _ _)).le

theorem sentence_nonneg (w : List (Fin V)) : 0 ≤ G.sentence w := by
  rw [sentence_eq]
  exact sum_nonneg fun X _ => mul_nonneg (G.root_nonneg X) (sum_nonneg fun d _ => by split; exacts [weight_nonneg G _ _, le_rfl])

/-- The probabilities of different sentences add up to at most one. -/
theorem sentence_mass (A : Finset (List (Fin V))) : ∑ w ∈ A, G.sentence w ≤ 1 := by
  let K := A.sup List.length
  have e : ∀ w ∈ A, G.sentence w = ∑ X, G.root X * G.yields K (.inl X) w := by
    intro w hw
    rw [sentence_eq]
    exact sum_congr rfl fun X _ => by rw [yields_total G w.length K _ w rfl (le_sup (f := List.length) hw)]
  rw [sum_congr rfl e, sum_comm, ← G.root_sum]
  refine sum_le_sum fun X _ => ?_
  rw [← mul_sum]
  exact mul_le_of_le_one_right (G.root_nonneg X) (yields_mass G _ _ _)

end PCFGProofs
