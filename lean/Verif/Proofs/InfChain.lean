import Verif.Proofs.ChainMask
import Verif.Proofs.InfArgmax

/-! `max` and `argmax` of linear chains whose potentials may be `-inf`. -/

open Finset Spec ChainProofs LinearChainProofs ChainTop ChainMask

noncomputable section
namespace InfChain
variable {A G : Type} [AddCommMonoid G]

/-- `S` is a semiring of maxima whose numbers may be `-inf`; `G` holds its finite elements. -/
structure Emb (S : SR A) (val : A → EReal) (emb : G → A) (score : G → ℝ) : Prop where
  val_emb : ∀ g, val (emb g) = score g
  mul_emb : ∀ a b, S.mul (emb a) (emb b) = emb (a + b)
  mul_val : ∀ a b, val (S.mul a b) = val a + val b
  score_add : ∀ a b, score (a + b) = score a + score b
  sum : ∀ xs, xs ≠ [] → S.sum xs ∈ xs ∧ ∀ x ∈ xs, val x ≤ val (S.sum xs)

/-- `a` is an element of largest score of the bag, or the bag is empty and `a` is `-inf`. -/
def Best (val : A → EReal) (emb : G → A) (score : G → ℝ) (a : A) (x : Bag G) : Prop :=
  (val a = ⊥ ∧ x.ms = 0) ∨ ∃ g ∈ x.ms, a = emb g ∧ ∀ u ∈ x.ms, score u ≤ score g

variable {S : SR A} {val : A → EReal} {emb : G → A} {score : G → ℝ}

theorem Emb.rel (H : Emb S val emb score) : SRRel S (Best val emb score) where
  mul := by
    rintro a b x y (⟨ha, hx⟩ | ⟨g, hg, rfl, hg'⟩) hb
    · refine Or.inl ⟨by rw [H.mul_val, ha, EReal.bot_add], ?_⟩
      refine Multiset.eq_zero_of_forall_notMem fun u hu => ?_
      obtain ⟨a', h1, -⟩ := Bag.mem_mul.1 hu
      rw [hx] at h1
      exact absurd h1 (Multiset.notMem_zero _)
    · rcases hb with ⟨hb, hy⟩ | ⟨g2, hg2, rfl, hg2'⟩
      · refine Or.inl ⟨by rw [H.mul_val, hb, EReal.add_bot], ?_⟩
        refine Multiset.eq_zero_of_forall_notMem fun u hu => ?_
        obtain ⟨a', -, b', h1, -⟩ := Bag.mem_mul.1 hu
        rw [hy] at h1
        exact absurd h1 (Multiset.notMem_zero _)
      · refine Or.inr ⟨g + g2, Bag.mem_mul.2 ⟨g, hg, g2, hg2, rfl⟩, H.mul_emb _ _, ?_⟩
        intro u hu
        obtain ⟨a', h1, b', h2, rfl⟩ := Bag.mem_mul.1 hu
        rw [H.score_add, H.score_add]
        exact add_le_add (hg' _ h1) (hg2' _ h2)
  sum := by
    intro as xs hne hf
    obtain ⟨h1, h2⟩ := H.sum as hne
    obtain ⟨x, hx, hm⟩ := InfArgmax.forall₂_left hf _ h1
    rcases hm with ⟨hb, hx0⟩ | ⟨g, hg, he, hg'⟩
    · refine Or.inl ⟨hb, Multiset.eq_zero_of_forall_notMem fun u hu => ?_⟩
      obtain ⟨y, hy, huy⟩ := Bag.mem_list_sum.1 hu
      obtain ⟨a, ha, hay⟩ := InfArgmax.forall₂_left hf.flip y hy
      rcases hay with ⟨-, h0⟩ | ⟨g, -, rfl, -⟩
      · rw [h0] at huy
        exact absurd huy (Multiset.notMem_zero _)
      · have := h2 _ ha
        rw [hb, H.val_emb, le_bot_iff] at this
        exact absurd this (EReal.coe_ne_bot _)
    · refine Or.inr ⟨g, Bag.mem_list_sum.2 ⟨x, hx, hg⟩, he, fun u hu => ?_⟩
      obtain ⟨y, hy, huy⟩ := Bag.mem_list_sum.1 hu
      obtain ⟨a, ha, hay⟩ := InfArgmax.forall₂_left hf.flip y hy
      rcases hay with ⟨-, h0⟩ | ⟨g2, h3, rfl, h4⟩
      · rw [h0] at huy
        exact absurd huy (Multiset.notMem_zero _)
      · have := h2 _ ha
        rw [he, H.val_emb, H.val_emb] at this
        exact (h4 u huy).trans (by exact_mod_cast this)

theorem best_single (g : G) : Best val emb score (emb g) (Bag.single g) := Or.inr ⟨g, by simp, rfl, by simp⟩

theorem best_empty {a : A} (h : val a = ⊥) : Best val emb score a 0 := Or.inl ⟨h, by simp⟩

open Classical in
/-- Best allowed sequence of one row. -/
theorem best_row (H : Emb S val emb score) (h0 : score 0 = 0) {z : ℝ} (hz : z ≤ 0) {C N logN : ℕ} (hC : 0 < C) (hN : N - 1 ≤ 2 ^ logN) (lens : ℕ → ℕ)
    (lp : ℕ → ℕ → Fin C → Fin C → A) (b : ℕ) (hl : lens b ≤ N) {D : ℕ → Fin C → Fin C → Prop} {B : ℝ} (hB : 0 ≤ B) (f : ℕ → Fin C → Fin C → G)
    (hc : ∀ n (i j : Fin C), ∃ g, maskedC S (lens b) n i j = emb g ∧ (n < lens b - 1 ∨ i ≠ j → score g = z) ∧ (lens b - 1 ≤ n → i = j → g = 0))
    (hpad : ∀ n, lens b - 1 ≤ n → ∀ i j, ∃ g, maskedL S N (lens b) (lp b) n i j = emb g ∧ score g = z)
    (hin : ∀ n < lens b - 1, ∀ i j, maskedL S N (lens b) (lp b) n i j = lp b n i j)
    (hA : ∀ n < lens b - 1, ∀ i j, D n i j → lp b n i j = emb (f n i j) ∧ |score (f n i j)| ≤ B)
    (hF : ∀ n < lens b - 1, ∀ i j, ¬ D n i j → val (lp b n i j) = ⊥) (hsmall : 2 * (lens b - 1 : ℕ) * B < -z)
    (hne : Nonempty (AllowedTags (lens b - 1) D)) :
    ∃ y : AllowedTags (lens b - 1) D, LinearChain.core S N logN lens lp b = emb (∑ n : Fin (lens b - 1), f n (y.1 n.succ) (y.1 n.castSucc)) ∧
      ∀ y' : AllowedTags (lens b - 1) D, score (∑ n : Fin (lens b - 1), f n (y'.1 n.succ) (y'.1 n.castSucc)) ≤
        score (∑ n : Fin (lens b - 1), f n (y.1 n.succ) (y.1 n.castSucc)) := by
  have key : ∀ n (i j : Fin C), ∃ w : Bag G, (n < 2 ^ logN → Best val emb score (S.sum [maskedC S (lens b) n i j, maskedL S N (lens b) (lp b) n i j]) w) ∧
      Split score z (if n < lens b - 1 then B else 0)
        (if n < lens b - 1 then (if D n i j then Bag.single (f n i j) else 0) else if i = j then 1 else 0) w := by
    intro n i j
    obtain ⟨g, hg, hg1, hg2⟩ := hc n i j
    rw [hg]
    by_cases h1 : n < lens b - 1
    · rw [hin n h1]
      simp only [h1, if_true]
      have hgz := hg1 (Or.inl h1)
      by_cases hD : D n i j
      · obtain ⟨e1, e2⟩ := hA n h1 i j hD
        rw [e1, if_pos hD]
        refine ⟨Bag.single g + Bag.single (f n i j), fun _ => H.rel.sum2 (best_single g) (best_single _), Bag.single g, add_comm _ _, ?_, ?_⟩
        · intro a ha
          rw [Bag.ms_single, Multiset.mem_singleton] at ha
          rw [ha]; exact (abs_le.1 e2).2
        · intro a ha
          rw [Bag.ms_single, Multiset.mem_singleton] at ha
          rw [ha, hgz]; linarith
      · rw [if_neg hD]
        refine ⟨Bag.single g + 0, fun _ => H.rel.sum2 (best_single g) (best_empty (hF n h1 i j hD)), Bag.single g, by rw [add_zero, zero_add], by simp, ?_⟩
        intro a ha
        rw [Bag.ms_single, Multiset.mem_singleton] at ha
        rw [ha, hgz]; linarith
    · obtain ⟨l, hl1, hl2⟩ := hpad n (by omega) i j
      rw [hl1]
      simp only [h1, if_false]
      refine ⟨Bag.single g + Bag.single l, fun _ => H.rel.sum2 (best_single g) (best_single l), ?_⟩
      by_cases hij : i = j
      · rw [if_pos hij, hg2 (by omega) hij]
        refine ⟨Bag.single l, by rw [Bag.single_zero], ?_, ?_⟩
        · intro a ha
          rw [Bag.ms_one, Multiset.mem_singleton] at ha
          rw [ha, h0]
        · intro a ha
          rw [Bag.ms_single, Multiset.mem_singleton] at ha
          rw [ha, hl2]; linarith
      · rw [if_neg hij]
        refine ⟨_, (zero_add _).symm, by simp, ?_⟩
        intro a ha
        rw [Bag.ms_add, Multiset.mem_add, Bag.ms_single, Bag.ms_single, Multiset.mem_singleton, Multiset.mem_singleton] at ha
        rcases ha with ha | ha
        · rw [ha, hg1 (Or.inr hij)]; linarith
        · rw [ha, hl2]; linarith
  choose w hw hs using key
  have hrel := core_rel H.rel hC N logN lens lp b w fun n hn i j => hw n i j hn
  have hsp := split_chain H.score_add h0 hz hC (L := lens b - 1) (M := 2 ^ logN) (by omega) D f B w fun n _ i j => hs n i j
  have hlow := family_low H.score_add h0 D f (fun n hn i j hD => (abs_le.1 (hA n hn i j hD).2).1) hsmall
  have hex : ∃ a, a ∈ (∑ y : AllowedTags (lens b - 1) D, Bag.single (∑ n : Fin (lens b - 1), f n (y.1 n.succ) (y.1 n.castSucc))).ms := by
    obtain ⟨y⟩ := hne
    exact ⟨_, Bag.mem_sum.2 ⟨y, mem_univ _, by rw [Bag.ms_single]; exact Multiset.mem_singleton_self _⟩⟩
  rcases hrel with ⟨-, hzero⟩ | ⟨g, hg, he, hbest⟩
  · obtain ⟨q, hq, -⟩ := hsp
    obtain ⟨a, ha⟩ := hex
    rw [hq, Bag.ms_add] at hzero
    have : a ∈ (0 : Multiset G) := hzero ▸ Multiset.mem_add.2 (Or.inl ha)
    exact absurd this (Multiset.notMem_zero _)
  · obtain ⟨h1, h2⟩ := max_of_split ⟨hg, hbest⟩ hsp hlow hex
    obtain ⟨y, _, hy⟩ := Bag.mem_sum.1 h1
    rw [Bag.ms_single, Multiset.mem_singleton] at hy
    refine ⟨y, by rw [he, hy], fun y' => ?_⟩
    rw [← hy]
    exact h2 _ (Bag.mem_sum.2 ⟨y', mem_univ _, by rw [Bag.ms_single]; exact Multiset.mem_singleton_self _⟩)

end InfChain
