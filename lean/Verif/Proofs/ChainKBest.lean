import Verif.Proofs.ChainTop

/-! k-best semirings, with or without gradients: what their masked entries contribute to the k best. -/

open Finset Spec LinearChainProofs ChainProofs ChainTop

noncomputable section
namespace ChainTop
variable {G : Type} [AddCommMonoid G] {score : G → ℝ}

theorem pairwise_const (score : G → ℝ) (l : List G) (z : ℝ) (h : ∀ a ∈ l, score a = z) :
    l.Pairwise fun a b => score b ≤ score a := by
  refine List.pairwise_iff_forall_sublist.2 fun {a b} hab => ?_
  have ha := h a (hab.subset (by simp))
  have hb := h b (hab.subset (by simp))
  rw [ha, hb]

theorem isTop_ofList (score : G → ℝ) (l : List G) (h : l.Pairwise fun a b => score b ≤ score a) :
    Bag.IsTop score l.length l (Bag.ofList l) := ⟨0, by simp, rfl, h, by simp⟩

theorem isTop_const (score : G → ℝ) (l : List G) (z : ℝ) (k : ℕ) (hk : l.length = k) (h : ∀ a ∈ l, score a = z) :
    Bag.IsTop score k l (Bag.ofList l) := by
  subst hk; exact isTop_ofList score l (pairwise_const score l z h)

/-- A list whose first slot is `x` and whose other slots are `r`. -/
def headList (k : ℕ) (x r : G) : List G := (List.range k).map fun i => if i = 0 then x else r

theorem headList_succ (m : ℕ) (x r : G) : headList (m + 1) x r = x :: List.replicate m r := by
  rw [headList, List.range_succ_eq_map]
  simp [Function.comp_def, List.map_const']

theorem headList_top (score : G → ℝ) (k : ℕ) (hk : 0 < k) (x r : G) (hx : score r ≤ score x) :
    Bag.IsTop score k (headList k x r) (Bag.single x + Bag.ofList (List.replicate (k - 1) r)) := by
  obtain ⟨m, rfl⟩ : ∃ m, k = m + 1 := ⟨k - 1, by omega⟩
  rw [headList_succ]
  refine ⟨0, ?_, by simp, ?_, by simp⟩
  · simp only [Bag.ms_add, Bag.ms_single, Bag.ms_ofList, add_zero, Nat.add_sub_cancel]
    rfl
  · rw [List.pairwise_cons]
    exact ⟨fun a ha => by rw [List.eq_of_mem_replicate ha]; exact hx,
      pairwise_const _ _ (score r) fun a ha => by rw [List.eq_of_mem_replicate ha]⟩

/-- The k-best semirings of the model: slots are `G`s, `zz` is the slot of `zero`. -/
structure KSR (S : SR (List G)) (score : G → ℝ) (k : ℕ) (zz : G) (z : ℝ) : Prop where
  top : Bag.IsTopSR S score k
  score0 : score 0 = 0
  scorez : score zz = z
  zneg : z ≤ 0
  zero : S.zero = List.replicate k zz
  one : S.one = headList k 0 zz
  raw0 : S.raw0 = List.replicate k 0
  detach_len : ∀ xs, (S.detach xs).length = xs.length
  detach_score : ∀ xs, (S.detach xs).map score = xs.map score
  detach_zero : S.detach S.zero = S.zero
  detach_one : S.detach S.one = S.one
  set_len : ∀ xs vs, xs.length = k → vs.length = k → (S.setData xs vs).length = k
  set_score : ∀ xs vs, xs.length = k → vs.length = k → (S.setData xs vs).map score = vs.map score
  set_self : ∀ xs, S.setData xs (S.detach xs) = xs

namespace KSR
variable {S : SR (List G)} {k : ℕ} {zz : G} {z : ℝ} (H : KSR S score k zz z)
include H

theorem zero_len : S.zero.length = k := by simp [H.zero]
theorem one_len : S.one.length = k := by simp [H.one, headList]

theorem mem_set {xs : List G} (hx : xs.length = k) : ∀ a ∈ S.setData xs S.zero, score a = z := by
  intro a ha
  have h1 : score a ∈ (S.setData xs S.zero).map score := List.mem_map_of_mem ha
  rw [H.set_score xs _ hx H.zero_len, H.zero, List.map_replicate] at h1
  rw [List.eq_of_mem_replicate h1, H.scorez]

theorem mem_detach {xs : List G} (h : ∀ a ∈ xs, score a = z) : ∀ a ∈ S.detach xs, score a = z := by
  intro a ha
  have h1 : score a ∈ (S.detach xs).map score := List.mem_map_of_mem ha
  rw [H.detach_score] at h1
  obtain ⟨a', ha', e⟩ := List.mem_map.1 h1
  rw [← e]; exact h a' ha'

/-- What an entry of the chart inside the row contributes. -/
theorem inside {C N L n : ℕ} (lp : ℕ → Fin C → Fin C → List G) (i j : Fin C) (x : G) (hlp : lp n i j = headList k x zz) (h1 : n < L - 1)
    (hN : L ≤ N) (B : ℝ) (hzx : z ≤ score x) (hxB : score x ≤ B) (hB : 0 ≤ B) :
    ∃ w : Bag G, Bag.IsTop score k (S.sum [maskedC S L n i j, maskedL S N L lp n i j]) w ∧ Split score z B (Bag.single x) w := by
  have h2 : ¬ n ≥ L - 1 := by omega
  have h3 : n < N - 1 := by omega
  have hCeq : (maskedC S L n i j).length = k ∧ ∀ a ∈ maskedC S L n i j, score a = z := by
    simp only [maskedC, SR.fill, h2, decide_false, Bool.not_false, if_true]
    have hl : (if decide (i = j) = true then S.one else S.zero).length = k := by
      split_ifs
      exacts [H.one_len, H.zero_len]
    exact ⟨by rw [H.detach_len, H.set_len _ _ hl H.zero_len], H.mem_detach (H.mem_set hl)⟩
  have hLeq : maskedL S N L lp n i j = headList k x zz := by
    simp only [maskedL, SR.fill, h2, h3, decide_false, if_true]
    rw [if_neg (by simp), H.set_self, hlp]
  rw [hLeq]
  refine ⟨_, H.top.rel.sum2 (isTop_const score _ z k hCeq.1 hCeq.2)
    (headList_top score k H.top.pos x zz (by rw [H.scorez]; exact hzx)), ?_⟩
  refine ⟨Bag.ofList (maskedC S L n i j) + Bag.ofList (List.replicate (k - 1) zz), by abel, ?_, ?_⟩
  · intro a ha
    rw [Bag.ms_single, Multiset.mem_singleton] at ha
    subst ha; exact hxB
  · intro a ha
    rw [Bag.ms_add, Multiset.mem_add] at ha
    rcases ha with ha | ha
    · rw [hCeq.2 a (by simpa using ha)]; linarith
    · rw [Bag.ms_ofList, Multiset.mem_coe] at ha
      rw [List.eq_of_mem_replicate ha, H.scorez]; linarith

/-- What an entry of the chart past the row's length contributes. -/
theorem outside {C N L n : ℕ} (lp : ℕ → Fin C → Fin C → List G) (i j : Fin C) (hlp : (lp n i j).length = k) (h1 : ¬ n < L - 1) :
    ∃ w : Bag G, Bag.IsTop score k (S.sum [maskedC S L n i j, maskedL S N L lp n i j]) w ∧
      Split score z 0 (if i = j then 1 else 0) w := by
  have h2 : n ≥ L - 1 := by omega
  have hLeq : (maskedL S N L lp n i j).length = k ∧ ∀ a ∈ maskedL S N L lp n i j, score a = z := by
    simp only [maskedL, SR.fill, h2, decide_true, if_true]
    have hl : (if n < N - 1 then lp n i j else S.raw0).length = k := by
      split_ifs
      exacts [hlp, by simp [H.raw0]]
    exact ⟨H.set_len _ _ hl H.zero_len, H.mem_set hl⟩
  have t2 := isTop_const score _ z k hLeq.1 hLeq.2
  have t1 : ∃ w, Bag.IsTop score k (maskedC S L n i j) w ∧ Split score z 0 (if i = j then 1 else 0) w := by
    simp only [maskedC, SR.fill, h2, decide_true, Bool.not_true, Bool.false_eq_true, if_false]
    rw [H.set_self]
    by_cases hij : i = j
    · simp only [hij, decide_true, if_true]
      rw [H.detach_one, H.one]
      refine ⟨_, headList_top score k H.top.pos 0 zz (by rw [H.scorez, H.score0]; exact H.zneg),
        Bag.ofList (List.replicate (k - 1) zz), rfl, ?_, ?_⟩
      · intro a ha
        rw [Bag.ms_one, Multiset.mem_singleton] at ha
        subst ha; exact H.score0.le
      · intro a ha
        rw [Bag.ms_ofList, Multiset.mem_coe] at ha
        rw [List.eq_of_mem_replicate ha, H.scorez]; linarith
    · simp only [hij, decide_false, if_false, Bool.false_eq_true]
      rw [H.detach_zero]
      have hzr : ∀ a ∈ S.zero, score a = z := by
        intro a ha; rw [H.zero] at ha; rw [List.eq_of_mem_replicate ha, H.scorez]
      refine ⟨Bag.ofList S.zero, isTop_const score _ z k H.zero_len hzr, Bag.ofList S.zero, by rw [zero_add], by simp, ?_⟩
      intro a ha
      rw [hzr a (by simpa using ha)]; linarith
  obtain ⟨w, hw, q, rfl, hq1, hq2⟩ := t1
  refine ⟨_, H.top.rel.sum2 hw t2, q + _, by rw [add_assoc], hq1, ?_⟩
  intro a ha
  rw [Bag.ms_add, Multiset.mem_add] at ha
  rcases ha with ha | ha
  · exact hq2 a ha
  · rw [hLeq.2 a (by simpa using ha)]; linarith

/-- The k best sequences of one row. -/
theorem chain {C N logN : ℕ} (hC : 0 < C) (hN : N - 1 ≤ 2 ^ logN) (lens : ℕ → ℕ) (lp : ℕ → ℕ → Fin C → Fin C → List G) (b : ℕ)
    (hl : lens b ≤ N) (f : ℕ → Fin C → Fin C → G) (hlen : ∀ n i j, (lp b n i j).length = k)
    (hlp : ∀ n < lens b - 1, ∀ i j, lp b n i j = headList k (f n i j) zz) (B : ℝ) (hB : 0 ≤ B)
    (hf : ∀ n < lens b - 1, ∀ i j, |score (f n i j)| ≤ B) (hbig : 2 * ((lens b - 1 : ℕ) : ℝ) * B < -z)
    (hk : k ≤ C ^ (lens b - 1 + 1)) :
    Bag.IsTop score k (LinearChain.core S N logN lens lp b)
      (∑ y : Tags (lens b - 1) C, Bag.single (∑ n : Fin (lens b - 1), f n (y n.succ) (y n.castSucc))) := by
  have key : ∀ n < 2 ^ logN, ∀ i j : Fin C, ∃ w : Bag G,
      Bag.IsTop score k (S.sum [maskedC S (lens b) n i j, maskedL S N (lens b) (lp b) n i j]) w ∧
      Split score z (if n < lens b - 1 then B else 0)
        (if n < lens b - 1 then Bag.single (f n i j) else if i = j then 1 else 0) w := by
    intro n hn i j
    by_cases h1 : n < lens b - 1
    · simp only [h1, if_true]
      have h := abs_le.1 (hf n h1 i j)
      have hLle : (1 : ℝ) ≤ ((lens b - 1 : ℕ) : ℝ) := by
        have : 1 ≤ lens b - 1 := by omega
        exact_mod_cast this
      exact H.inside (lp b) i j (f n i j) (hlp n h1 i j) h1 hl B (by nlinarith) h.2 hB
    · simp only [h1, if_false]
      exact H.outside (lp b) i j (hlen n i j) h1
  choose! w hw1 hw2 using key
  exact core_top H.top H.score0 H.zneg hC lens lp b (lens b - 1) (by omega) f B w hw1 hw2
    (fun n hn i j => (abs_le.1 (hf n hn i j)).1) hbig hk

end KSR

theorem ksr_kmax {k : ℕ} (hk : 0 < k) : KSR (Semirings.kmax k) id k Semirings.negInf (-100000) where
  top := Bag.kmax_isTopSR hk
  score0 := rfl
  scorez := rfl
  zneg := by norm_num
  zero := rfl
  one := rfl
  raw0 := rfl
  detach_len _ := rfl
  detach_score _ := rfl
  detach_zero := rfl
  detach_one := rfl
  set_len _ _ _ h := h
  set_score _ _ _ _ := rfl
  set_self _ := rfl

theorem ksr_grad {E : Type} {k : ℕ} (hk : 0 < k) {sel : List (Autograd.Grad E) → List (Autograd.Grad E)}
    (hsel : Autograd.IsTopk Prod.fst k sel) :
    KSR (Autograd.kmax k sel) Prod.fst k ((Semirings.negInf, 0) : Autograd.Grad E) (-100000) where
  top := Bag.gradKmax_isTopSR hk hsel
  score0 := rfl
  scorez := rfl
  zneg := by norm_num
  zero := rfl
  one := rfl
  raw0 := rfl
  detach_len xs := List.length_map ..
  detach_score xs := by
    change (xs.map Autograd.detach).map Prod.fst = _
    rw [List.map_map]; rfl
  detach_zero := by
    change (List.replicate k _).map Autograd.detach = List.replicate k _
    rw [List.map_replicate]; rfl
  detach_one := by
    change ((List.range k).map _).map Autograd.detach = (List.range k).map _
    rw [List.map_map]
    refine List.map_congr_left fun i _ => ?_
    by_cases h : i = 0 <;> simp [h, Autograd.detach]
  set_len xs vs h1 h2 := by
    change (List.zipWith Autograd.setData xs vs).length = k
    simp [h1, h2]
  set_score xs vs h1 h2 := by
    change (List.zipWith Autograd.setData xs vs).map Prod.fst = _
    rw [List.map_zipWith]
    have h3 : xs.length = vs.length := h1.trans h2.symm
    clear h1 h2
    induction xs generalizing vs with
    | nil =>
      cases vs with
      | nil => rfl
      | cons v vs => simp at h3
    | cons a l ih =>
      cases vs with
      | nil => simp at h3
      | cons v vs => simp only [List.zipWith_cons_cons, List.map_cons, ih vs (by simpa using h3)]; rfl
  set_self xs := by
    change List.zipWith Autograd.setData xs (xs.map Autograd.detach) = xs
    rw [List.zipWith_map_right]
    induction xs with
    | nil => rfl
    | cons a l ih =>
      rw [List.zipWith_cons_cons, ih]; rfl

end ChainTop
