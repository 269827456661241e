import Verif.Proofs.ChainKBest
import Verif.Spec.ChainMask

/-! Linear chains some of whose transitions are forbidden by potentials at or below the stand-in `zero`. -/

open Finset Spec ChainProofs LinearChainProofs ChainTop LinearChainLog ChainBounds

noncomputable section
namespace ChainMask
variable {C : ℕ}

open Classical in
/-- A path sum without the forbidden transitions is a sum over the allowed sequences. -/
theorem chainSum_mask {R : Type} [CommSemiring R] (L : ℕ) (A : ℕ → Fin C → Fin C → Prop) (w : ℕ → Fin C → Fin C → R) :
    chainSum L (fun n i j => if A n i j then w n i j else 0) = ∑ y : AllowedTags L A, seqProd w y.1 := by
  have h : ∀ y : Tags L C, seqProd (fun n i j => if A n i j then w n i j else 0) y = if Allowed A y then seqProd w y else 0 := by
    intro y
    rw [seqProd, prod_ite_zero]
    simp only [mem_univ, forall_const, Allowed, seqProd]
    congr
  simp only [chainSum, h]
  rw [← sum_filter]
  exact sum_subtype _ (fun y => by simp) _

section split
variable {G : Type} [AddCommMonoid G] {score : G → ℝ} {z : ℝ}

/-- If some element of `r` beats all the others, the best of the whole is the best of `r`. -/
theorem max_of_split {U : ℝ} {v : G} {r x : Bag G} (hv : Bag.IsMax score v x) (hs : Split score z U r x)
    (hlow : ∀ a ∈ r.ms, z + U < score a) (hne : ∃ a, a ∈ r.ms) : Bag.IsMax score v r := by
  obtain ⟨p, rfl, _, hp⟩ := hs
  obtain ⟨a, ha⟩ := hne
  obtain ⟨h1, h2⟩ := hv
  rw [Bag.ms_add] at h1 h2
  refine ⟨?_, fun u hu => h2 u (Multiset.mem_add.2 (Or.inl hu))⟩
  refine (Multiset.mem_add.1 h1).resolve_right fun hc => ?_
  have := h2 a (Multiset.mem_add.2 (Or.inl ha))
  linarith [hlow a ha, hp v hc]

open Classical in
/-- The masked chart of one row, as allowed sequences and others of much smaller score. -/
theorem split_chain (hadd : ∀ a b, score (a + b) = score a + score b) (h0 : score 0 = 0) (hz : z ≤ 0) (hC : 0 < C) {L M : ℕ} (hL : L ≤ M)
    (A : ℕ → Fin C → Fin C → Prop) (f : ℕ → Fin C → Fin C → G) (B : ℝ) (w : ℕ → Fin C → Fin C → Bag G)
    (hs : ∀ n < M, ∀ i j, Split score z (if n < L then B else 0)
      (if n < L then (if A n i j then Bag.single (f n i j) else 0) else if i = j then 1 else 0) (w n i j)) :
    Split score z (L * B) (∑ y : AllowedTags L A, Bag.single (∑ n : Fin L, f n (y.1 n.succ) (y.1 n.castSucc))) (chainSum M w) := by
  have hsp := Split.chainSum hadd h0 hz (M := M) (U := fun n => if n < L then B else 0) hs
  have hU : ∑ n ∈ range M, (if n < L then B else 0) = L * B := by
    rw [← sum_filter, sum_const]
    have : (range M).filter (fun n => n < L) = range L := by ext n; simp; omega
    rw [this]; simp
  rw [chainSum_idpad hC _ L _ hL, chainSum_mask, hU] at hsp
  have e : ∀ y : AllowedTags L A, seqProd (fun n i j => Bag.single (f n i j)) y.1 = Bag.single (∑ n : Fin L, f n (y.1 n.succ) (y.1 n.castSucc)) :=
    fun y => Bag.prod_single _ _
  simp only [e] at hsp
  exact hsp

theorem family_low (hadd : ∀ a b, score (a + b) = score a + score b) (h0 : score 0 = 0) {L : ℕ} (A : ℕ → Fin C → Fin C → Prop)
    (f : ℕ → Fin C → Fin C → G) {B : ℝ} (hf : ∀ n < L, ∀ i j, A n i j → -B ≤ score (f n i j)) (hbig : 2 * L * B < -z) :
    ∀ a ∈ (∑ y : AllowedTags L A, Bag.single (∑ n : Fin L, f n (y.1 n.succ) (y.1 n.castSucc))).ms, z + L * B < score a := by
  intro a ha
  obtain ⟨y, _, hy⟩ := Bag.mem_sum.1 ha
  rw [Bag.ms_single, Multiset.mem_singleton] at hy
  subst hy
  have : score (∑ n : Fin L, f n (y.1 n.succ) (y.1 n.castSucc)) = ∑ n : Fin L, score (f n (y.1 n.succ) (y.1 n.castSucc)) :=
    map_sum (⟨⟨score, h0⟩, hadd⟩ : G →+ ℝ) _ _
  rw [this]
  have h2 : ∑ _n : Fin L, -B ≤ ∑ n : Fin L, score (f n (y.1 n.succ) (y.1 n.castSucc)) :=
    sum_le_sum fun n _ => hf n n.2 _ _ (y.2 n)
  simp only [sum_const, card_univ, Fintype.card_fin, nsmul_eq_mul] at h2
  linarith

end split

/-- What the masks of one row satisfy: `B` bounds the allowed potentials, forbidden ones are at or below the stand-in. -/
structure RowMask (z : ℝ) (L : ℕ) (A : ℕ → Fin C → Fin C → Prop) (φ : ℕ → Fin C → Fin C → ℝ) (B : ℝ) : Prop where
  nonneg : 0 ≤ B
  allowed : ∀ n < L, ∀ i j, A n i j → |φ n i j| ≤ B
  forbidden : ∀ n < L, ∀ i j, ¬ A n i j → φ n i j ≤ z
  small : 2 * L * B < -z

open Classical in
/-- Best allowed sequence of one row, in any semiring that picks maxima. -/
theorem max_row {G : Type} [AddCommMonoid G] {score : G → ℝ} {S : SR G} (H : Bag.IsMaxSR S score) (h0 : score 0 = 0)
    (hadd : ∀ a b, score (a + b) = score a + score b) {z : ℝ} (hz : z ≤ 0) (hone : S.detach S.one = 0)
    (hset : ∀ a b, score (S.setData a b) = score b) (hdet : ∀ a, score (S.detach a) = score a) (hself : ∀ a, S.setData a (S.detach a) = a)
    (hzero : score S.zero = z) {N logN : ℕ} (hC : 0 < C) (hN : N - 1 ≤ 2 ^ logN) (lens : ℕ → ℕ) (lp : ℕ → ℕ → Fin C → Fin C → G) (b : ℕ)
    (hl : lens b ≤ N) {A : ℕ → Fin C → Fin C → Prop} {B : ℝ} (hm : RowMask z (lens b - 1) A (fun n i j => score (lp b n i j)) B)
    (hne : Nonempty (AllowedTags (lens b - 1) A)) :
    ∃ y : AllowedTags (lens b - 1) A, LinearChain.core S N logN lens lp b = ∑ n : Fin (lens b - 1), lp b n (y.1 n.succ) (y.1 n.castSucc) ∧
      ∀ y' : AllowedTags (lens b - 1) A, score (∑ n : Fin (lens b - 1), lp b n (y'.1 n.succ) (y'.1 n.castSucc)) ≤
        score (∑ n : Fin (lens b - 1), lp b n (y.1 n.succ) (y.1 n.castSucc)) := by
  have hrel := core_rel H.rel hC N logN lens lp b
    (fun n i j => Bag.single (maskedC S (lens b) n i j) + Bag.single (maskedL S N (lens b) (lp b) n i j))
    (fun n hn i j => H.rel.sum2 (by simp [Bag.IsMax]) (by simp [Bag.IsMax]))
  have hs : ∀ n < 2 ^ logN, ∀ i j : Fin C, Split score z (if n < lens b - 1 then B else 0)
      (if n < lens b - 1 then (if A n i j then Bag.single (lp b n i j) else 0) else if i = j then 1 else 0)
      (Bag.single (maskedC S (lens b) n i j) + Bag.single (maskedL S N (lens b) (lp b) n i j)) := by
    intro n hn i j
    by_cases h1 : n < lens b - 1
    · have h2 : ¬ n ≥ lens b - 1 := by omega
      have h3 : n < N - 1 := by omega
      have hc : score (maskedC S (lens b) n i j) = z := by
        simp only [maskedC, SR.fill, h2, decide_false, Bool.not_false, if_true, hdet, hset, hzero]
      have hL : maskedL S N (lens b) (lp b) n i j = lp b n i j := by
        simp only [maskedL, SR.fill, h2, h3, decide_false, if_true]
        rw [if_neg (by simp), hself]
      rw [hL]
      simp only [h1, if_true]
      by_cases hA : A n i j
      · rw [if_pos hA]
        refine ⟨Bag.single (maskedC S (lens b) n i j), add_comm _ _, ?_, ?_⟩
        · intro a ha
          rw [Bag.ms_single, Multiset.mem_singleton] at ha
          rw [ha]; exact (abs_le.1 (hm.allowed n h1 i j hA)).2
        · intro a ha
          rw [Bag.ms_single, Multiset.mem_singleton] at ha
          rw [ha, hc]; linarith [hm.nonneg]
      · rw [if_neg hA]
        refine ⟨_, (zero_add _).symm, by simp, ?_⟩
        intro a ha
        rw [Bag.ms_add, Multiset.mem_add, Bag.ms_single, Bag.ms_single, Multiset.mem_singleton, Multiset.mem_singleton] at ha
        rcases ha with ha | ha
        · rw [ha, hc]; linarith [hm.nonneg]
        · rw [ha]; linarith [hm.nonneg, hm.forbidden n h1 i j hA]
    · have h2 : n ≥ lens b - 1 := by omega
      have hL : score (maskedL S N (lens b) (lp b) n i j) = z := by
        simp only [maskedL, SR.fill, h2, decide_true, if_true, hset, hzero]
      simp only [h1, if_false]
      by_cases hij : i = j
      · have hc : maskedC S (lens b) n i j = 0 := by
          simp only [maskedC, SR.fill, h2, decide_true, Bool.not_true, Bool.false_eq_true, if_false, hij, if_true]
          rw [hself, hone]
        rw [if_pos hij, hc]
        refine ⟨Bag.single (maskedL S N (lens b) (lp b) n i j), by rw [Bag.single_zero], ?_, ?_⟩
        · intro a ha
          rw [Bag.ms_one, Multiset.mem_singleton] at ha
          rw [ha, h0]
        · intro a ha
          rw [Bag.ms_single, Multiset.mem_singleton] at ha
          rw [ha, hL]; linarith
      · have hc : score (maskedC S (lens b) n i j) = z := by
          simp only [maskedC, SR.fill, h2, decide_true, Bool.not_true, Bool.false_eq_true, if_false, hij, decide_false]
          rw [hself, hdet, hzero]
        rw [if_neg hij]
        refine ⟨_, (zero_add _).symm, by simp, ?_⟩
        intro a ha
        rw [Bag.ms_add, Multiset.mem_add, Bag.ms_single, Bag.ms_single, Multiset.mem_singleton, Multiset.mem_singleton] at ha
        rcases ha with ha | ha
        · rw [ha, hc]; linarith
        · rw [ha, hL]; linarith
  have hsp := split_chain hadd h0 hz hC (L := lens b - 1) (M := 2 ^ logN) (by omega) A (fun n i j => lp b n i j) B _ hs
  have hmax := max_of_split hrel hsp (family_low hadd h0 A _ (fun n hn i j hA => (abs_le.1 (hm.allowed n hn i j hA)).1) hm.small) (by
    obtain ⟨y⟩ := hne
    exact ⟨_, Bag.mem_sum.2 ⟨y, mem_univ _, by rw [Bag.ms_single]; exact Multiset.mem_singleton_self _⟩⟩)
  obtain ⟨h1, h2⟩ := hmax
  obtain ⟨y, _, hy⟩ := Bag.mem_sum.1 h1
  rw [Bag.ms_single, Multiset.mem_singleton] at hy
  refine ⟨y, hy, fun y' => ?_⟩
  rw [← hy]
  exact h2 _ (Bag.mem_sum.2 ⟨y', mem_univ _, by rw [Bag.ms_single]; exact Multiset.mem_singleton_self _⟩)

open Classical in
/-- The k best allowed sequences of one row. -/
theorem top_row {G : Type} [AddCommMonoid G] {score : G → ℝ} {S : SR (List G)} {k : ℕ} {zz : G} {z : ℝ} (H : KSR S score k zz z)
    {N logN : ℕ} (hC : 0 < C) (hN : N - 1 ≤ 2 ^ logN) (lens : ℕ → ℕ) (lp : ℕ → ℕ → Fin C → Fin C → List G) (b : ℕ)
    (hl : lens b ≤ N) (f : ℕ → Fin C → Fin C → G) (hlen : ∀ n i j, (lp b n i j).length = k)
    (hlp : ∀ n < lens b - 1, ∀ i j, lp b n i j = headList k (f n i j) zz) {A : ℕ → Fin C → Fin C → Prop} {B : ℝ}
    (hm : RowMask z (lens b - 1) A (fun n i j => score (f n i j)) B) (hk : k ≤ Fintype.card (AllowedTags (lens b - 1) A)) :
    Bag.IsTop score k (LinearChain.core S N logN lens lp b)
      (∑ y : AllowedTags (lens b - 1) A, Bag.single (∑ n : Fin (lens b - 1), f n (y.1 n.succ) (y.1 n.castSucc))) := by
  have key : ∀ n < 2 ^ logN, ∀ i j : Fin C, ∃ w : Bag G,
      Bag.IsTop score k (S.sum [maskedC S (lens b) n i j, maskedL S N (lens b) (lp b) n i j]) w ∧
      Split score z (if n < lens b - 1 then B else 0)
        (if n < lens b - 1 then (if A n i j then Bag.single (f n i j) else 0) else if i = j then 1 else 0) w := by
    intro n hn i j
    by_cases h1 : n < lens b - 1
    · simp only [h1, if_true]
      have hLle : (1 : ℝ) ≤ ((lens b - 1 : ℕ) : ℝ) := by
        have : 1 ≤ lens b - 1 := by omega
        exact_mod_cast this
      by_cases hA : A n i j
      · rw [if_pos hA]
        have h := abs_le.1 (hm.allowed n h1 i j hA)
        exact H.inside (lp b) i j (f n i j) (hlp n h1 i j) h1 hl B (by nlinarith [hm.small, hm.nonneg]) h.2 hm.nonneg
      · rw [if_neg hA]
        have h2 : ¬ n ≥ lens b - 1 := by omega
        have h3 : n < N - 1 := by omega
        have hCeq : (maskedC S (lens b) n i j).length = k ∧ ∀ a ∈ maskedC S (lens b) n i j, score a = z := by
          simp only [maskedC, SR.fill, h2, decide_false, Bool.not_false, if_true]
          have hl : (if decide (i = j) = true then S.one else S.zero).length = k := by
            split_ifs
            exacts [H.one_len, H.zero_len]
          exact ⟨by rw [H.detach_len, H.set_len _ _ hl H.zero_len], H.mem_detach (H.mem_set hl)⟩
        have hLeq : maskedL S N (lens b) (lp b) n i j = headList k (f n i j) zz := by
          simp only [maskedL, SR.fill, h2, h3, decide_false, if_true]
          rw [if_neg (by simp), H.set_self, hlp n h1]
        have hlen' : (headList k (f n i j) zz).length = k := by simp [headList]
        rw [hLeq]
        refine ⟨_, H.top.sum [maskedC S (lens b) n i j, headList k (f n i j) zz] (by simp) (by
          intro x hx
          simp only [List.mem_cons, List.not_mem_nil, or_false] at hx
          rcases hx with rfl | rfl
          exacts [hCeq.1, hlen']), _, (zero_add _).symm, by simp, ?_⟩
        intro a ha
        simp only [Bag.ms_ofList, List.flatten_cons, List.flatten_nil, List.append_nil, Multiset.mem_coe, List.mem_append] at ha
        rcases ha with ha | ha
        · rw [hCeq.2 a ha]; linarith [hm.nonneg]
        · simp only [headList, List.mem_map, List.mem_range] at ha
          obtain ⟨s, -, rfl⟩ := ha
          split_ifs
          · linarith [hm.nonneg, hm.forbidden n h1 i j hA]
          · rw [H.scorez]; linarith [hm.nonneg]
    · simp only [h1, if_false]
      exact H.outside (lp b) i j (hlen n i j) h1
  choose! w hw1 hw2 using key
  have ht := core_rel H.top.rel hC N logN lens lp b w hw1
  have hsp := split_chain H.top.score_add H.score0 H.zneg hC (L := lens b - 1) (M := 2 ^ logN) (by omega) A f B w hw2
  refine top_of_split ht hsp (family_low H.top.score_add H.score0 A f (fun n hn i j hA => (abs_le.1 (hm.allowed n hn i j hA)).1) hm.small) ?_
  rw [card_family]; exact hk

/-! ### Partition and marginals. -/

/-- The bound on the error caused by the stand-in `z` and the forbidden potentials. -/
def slackM (z B : ℝ) (L pad C : ℕ) : ℝ :=
  L * Real.exp (z + B) + (C : ℝ) ^ (L + 1) * 2 ^ L * Real.exp (z + 2 * L * B) + pad * ((2 * C - 1 : ℕ) * Real.exp z)

theorem slackM_nonneg (z B : ℝ) (L pad C : ℕ) : 0 ≤ slackM z B L pad C := by unfold slackM; positivity

open Classical in
/-- Weights without stand-ins and without forbidden transitions. -/
def twA (A : ℕ → Fin C → Fin C → Prop) (φ : ℕ → Fin C → Fin C → ℝ) (L n : ℕ) (i j : Fin C) : ℝ :=
  if n < L then (if A n i j then Real.exp (φ n i j) else 0) else if i = j then 1 else 0

theorem twA_nonneg (A : ℕ → Fin C → Fin C → Prop) (φ : ℕ → Fin C → Fin C → ℝ) (L n : ℕ) (i j : Fin C) : 0 ≤ twA A φ L n i j := by
  unfold twA; split_ifs <;> positivity

theorem twA_le (z : ℝ) (A : ℕ → Fin C → Fin C → Prop) (φ : ℕ → Fin C → Fin C → ℝ) (L n : ℕ) (i j : Fin C) :
    twA A φ L n i j ≤ cw z L n i j + lw z φ L n i j := by
  unfold twA cw lw
  have h1 := Real.exp_pos (φ n i j)
  have h2 := Real.exp_pos z
  split_ifs <;> linarith

theorem chainSum_twA (hC : 0 < C) (A : ℕ → Fin C → Fin C → Prop) (φ : ℕ → Fin C → Fin C → ℝ) (L M : ℕ) (h : L ≤ M) :
    chainSum M (twA A φ L) = maskZ L A φ := by
  classical
  refine (chainSum_idpad hC (fun n i j => if A n i j then Real.exp (φ n i j) else 0) L M h).trans ?_
  rw [chainSum_mask, maskZ]
  refine sum_congr rfl fun y _ => ?_
  rw [seqScore, Real.exp_sum]
  rfl

theorem maskZ_le (hC : 0 < C) (z : ℝ) (A : ℕ → Fin C → Fin C → Prop) (φ : ℕ → Fin C → Fin C → ℝ) (L M : ℕ) (h : L ≤ M) :
    maskZ L A φ ≤ chainSum M (fun n i j => cw z L n i j + lw z φ L n i j) := by
  rw [← chainSum_twA hC A φ L M h]
  exact chainSum_mono (fun _ _ _ _ => twA_nonneg _ _ _ _ _ _) fun _ _ _ _ => twA_le _ _ _ _ _ _ _

theorem maskZ_pos {L : ℕ} {A : ℕ → Fin C → Fin C → Prop} (hne : Nonempty (AllowedTags L A)) (φ : ℕ → Fin C → Fin C → ℝ) : 0 < maskZ L A φ :=
  sum_pos (fun _ _ => Real.exp_pos _) univ_nonempty

theorem maskZ_low {z : ℝ} {L : ℕ} {A : ℕ → Fin C → Fin C → Prop} {φ : ℕ → Fin C → Fin C → ℝ} {B : ℝ} (hm : RowMask z L A φ B)
    (hne : Nonempty (AllowedTags L A)) : Real.exp (-(L * B)) ≤ maskZ L A φ := by
  obtain ⟨y⟩ := hne
  refine le_trans ?_ (single_le_sum (f := fun y : AllowedTags L A => Real.exp (seqScore φ y.1)) (fun _ _ => (Real.exp_pos _).le) (mem_univ y))
  refine Real.exp_le_exp.2 ?_
  have h2 : ∑ _n : Fin L, -B ≤ ∑ n : Fin L, φ n (y.1 n.succ) (y.1 n.castSucc) :=
    sum_le_sum fun n _ => (abs_le.1 (hm.allowed n n.2 _ _ (y.2 n))).1
  simp only [sum_const, card_univ, Fintype.card_fin, nsmul_eq_mul] at h2
  rw [seqScore]; linarith

theorem smooth_le {z : ℝ} (hz : z ≤ 0) {L : ℕ} {A : ℕ → Fin C → Fin C → Prop} {φ : ℕ → Fin C → Fin C → ℝ} {B : ℝ} (hm : RowMask z L A φ B)
    (hne : Nonempty (AllowedTags L A)) : chainSum L (fun n i j => Real.exp (φ n i j) + Real.exp z) ≤
      maskZ L A φ * Real.exp (L * Real.exp (z + B) + (C : ℝ) ^ (L + 1) * 2 ^ L * Real.exp (z + 2 * L * B)) := by
  classical
  have hB1 : 1 ≤ Real.exp B := Real.one_le_exp hm.nonneg
  have hz1 : Real.exp z ≤ 1 := Real.exp_le_one_iff.2 hz
  have hgood : ∀ y : Tags L C, Allowed A y → seqProd (fun n i j => Real.exp (φ n i j) + Real.exp z) y ≤
      Real.exp (seqScore φ y) * Real.exp (L * Real.exp (z + B)) := by
    intro y hy
    have h1 : seqProd (fun n i j => Real.exp (φ n i j) + Real.exp z) y ≤
        ∏ n : Fin L, Real.exp (φ n (y n.succ) (y n.castSucc)) * Real.exp (Real.exp (z + B)) := by
      refine prod_le_prod (fun n _ => by positivity) fun n _ => ?_
      have h2 := (abs_le.1 (hm.allowed n n.2 _ _ (hy n))).1
      have h3 : Real.exp z ≤ Real.exp (φ n (y n.succ) (y n.castSucc)) * Real.exp (z + B) := by
        rw [← Real.exp_add]; exact Real.exp_le_exp.2 (by linarith)
      have h4 := Real.add_one_le_exp (Real.exp (z + B))
      have h5 := Real.exp_pos (φ n (y n.succ) (y n.castSucc))
      nlinarith
    refine h1.trans_eq ?_
    rw [prod_mul_distrib, seqScore, Real.exp_sum, prod_const, card_univ, Fintype.card_fin, ← Real.exp_nat_mul]
  have hbad : ∀ y : Tags L C, ¬ Allowed A y → seqProd (fun n i j => Real.exp (φ n i j) + Real.exp z) y ≤ 2 ^ L * Real.exp (z + L * B) := by
    intro y hy
    simp only [Allowed, not_forall] at hy
    obtain ⟨n0, hn0⟩ := hy
    have h1 : seqProd (fun n i j => Real.exp (φ n i j) + Real.exp z) y ≤
        ∏ n : Fin L, 2 * Real.exp B * (if n = n0 then Real.exp z else 1) := by
      refine prod_le_prod (fun n _ => by positivity) fun n _ => ?_
      by_cases hn : n = n0
      · subst hn
        rw [if_pos rfl]
        have h2 : Real.exp (φ n (y n.succ) (y n.castSucc)) ≤ Real.exp z := Real.exp_le_exp.2 (hm.forbidden n n.2 _ _ hn0)
        have h3 := Real.exp_pos z
        nlinarith
      · rw [if_neg hn, mul_one]
        have h2 : φ n (y n.succ) (y n.castSucc) ≤ B := by
          by_cases hA : A n (y n.succ) (y n.castSucc)
          · exact (abs_le.1 (hm.allowed n n.2 _ _ hA)).2
          · exact (hm.forbidden n n.2 _ _ hA).trans (hz.trans hm.nonneg)
        have := Real.exp_le_exp.2 h2
        linarith
    refine h1.trans_eq ?_
    rw [prod_mul_distrib, prod_ite_eq' univ n0 (fun _ => Real.exp z), if_pos (mem_univ _), prod_const, card_univ, Fintype.card_fin, mul_pow,
      ← Real.exp_nat_mul, Real.exp_add]
    ring
  have hall : ∀ y : Tags L C, seqProd (fun n i j => Real.exp (φ n i j) + Real.exp z) y ≤
      (if Allowed A y then Real.exp (seqScore φ y) * Real.exp (L * Real.exp (z + B)) else 0) + 2 ^ L * Real.exp (z + L * B) := by
    intro y
    split_ifs with h
    · have := hgood y h; have : (0 : ℝ) ≤ 2 ^ L * Real.exp (z + L * B) := by positivity
      linarith
    · rw [zero_add]; exact hbad y h
  have hsum : chainSum L (fun n i j => Real.exp (φ n i j) + Real.exp z) ≤
      maskZ L A φ * Real.exp (L * Real.exp (z + B)) + (C : ℝ) ^ (L + 1) * (2 ^ L * Real.exp (z + L * B)) := by
    refine (sum_le_sum fun y _ => hall y).trans_eq ?_
    rw [sum_add_distrib, sum_const, ← sum_filter, maskZ, sum_mul]
    congr 1
    · exact sum_subtype _ (fun y => by simp) _
    · simp [Tags, nsmul_eq_mul]
  have hlow := maskZ_low hm hne
  have hc : (C : ℝ) ^ (L + 1) * (2 ^ L * Real.exp (z + L * B)) ≤ maskZ L A φ * ((C : ℝ) ^ (L + 1) * 2 ^ L * Real.exp (z + 2 * L * B)) := by
    have e : Real.exp (z + L * B) = Real.exp (-(L * B)) * Real.exp (z + 2 * L * B) := by rw [← Real.exp_add]; congr 1; ring
    rw [e]
    have hp : 0 ≤ (C : ℝ) ^ (L + 1) * 2 ^ L * Real.exp (z + 2 * L * B) := by positivity
    nlinarith
  have hZ := maskZ_pos hne φ
  set a := L * Real.exp (z + B)
  set c := (C : ℝ) ^ (L + 1) * 2 ^ L * Real.exp (z + 2 * L * B)
  have ha : 0 ≤ a := by positivity
  have hc0 : 0 ≤ c := by positivity
  have h1 : Real.exp a + c ≤ Real.exp (a + c) := by
    rw [Real.exp_add]
    have := Real.add_one_le_exp c
    have := Real.one_le_exp ha
    nlinarith
  nlinarith

theorem total_le (hC : 0 < C) {z : ℝ} (hz : z ≤ 0) {L M : ℕ} (h : L ≤ M) {A : ℕ → Fin C → Fin C → Prop} {φ : ℕ → Fin C → Fin C → ℝ} {B : ℝ}
    (hm : RowMask z L A φ B) (hne : Nonempty (AllowedTags L A)) :
    chainSum M (fun n i j => cw z L n i j + lw z φ L n i j) ≤ maskZ L A φ * Real.exp (slackM z B L (M - L) C) := by
  rw [chainSum_w hC z φ L M h, slackM, Real.exp_add]
  have h1 : (1 + (2 * C - 1 : ℕ) * Real.exp z) ^ (M - L) ≤
      Real.exp (((M - L : ℕ) : ℝ) * ((2 * C - 1 : ℕ) * Real.exp z)) := by
    rw [Real.exp_nat_mul]
    refine pow_le_pow_left₀ (by positivity) ?_ _
    have := Real.add_one_le_exp ((2 * C - 1 : ℕ) * Real.exp z)
    linarith
  have h2 := smooth_le hz hm hne
  have h3 : 0 ≤ chainSum L (fun n i j => Real.exp (φ n i j) + Real.exp z) := chainSum_nonneg fun _ _ _ _ => by positivity
  calc _ ≤ Real.exp (((M - L : ℕ) : ℝ) * ((2 * C - 1 : ℕ) * Real.exp z)) * _ := mul_le_mul h1 h2 h3 (Real.exp_pos _).le
    _ = _ := by ring

theorem growthM_le (hC : 0 < C) {z : ℝ} (hz : z ≤ 0) {L M : ℕ} (h : L ≤ M) {A : ℕ → Fin C → Fin C → Prop} {φ : ℕ → Fin C → Fin C → ℝ} {B : ℝ}
    (hm : RowMask z L A φ B) (hne : Nonempty (AllowedTags L A)) :
    (chainSum M (fun n i j => cw z L n i j + lw z φ L n i j) - maskZ L A φ) /
      chainSum M (fun n i j => cw z L n i j + lw z φ L n i j) ≤ slackM z B L (M - L) C := by
  have h1 := total_le hC hz h hm hne
  have h2 := maskZ_le hC z A φ L M h
  have h3 := maskZ_pos hne φ
  set Z' := chainSum M (fun n i j => cw z L n i j + lw z φ L n i j)
  set s := slackM z B L (M - L) C
  have hp : 0 < Z' := h3.trans_le h2
  rw [div_le_iff₀ hp]
  have h4 : Z' * Real.exp (-s) ≤ maskZ L A φ := by
    have := mul_le_mul_of_nonneg_right h1 (Real.exp_pos (-s)).le
    rwa [mul_assoc, ← Real.exp_add, add_neg_cancel, Real.exp_zero, mul_one] at this
  have h5 := Real.add_one_le_exp (-s)
  nlinarith

/-- The gradient of a row is the probability of the edge given that all transitions are allowed. -/
theorem grad_row (hC : 0 < C) {z : ℝ} (hz : z ≤ 0) {N logN : ℕ} (hN : N - 1 ≤ 2 ^ logN) (lens : ℕ → ℕ) (p : ℕ → ℕ → Fin C → Fin C → ℝ) (b : ℕ)
    (hl : lens b ≤ N) {A : ℕ → Fin C → Fin C → Prop} {B : ℝ} (hm : RowMask z (lens b - 1) A (p b) B)
    (hne : Nonempty (AllowedTags (lens b - 1) A)) (n0 : ℕ) (hn0 : n0 < N - 1) (i0 j0 : Fin C) :
    let g := (LinearChain.core (Autograd.logZ z) N logN lens (leafRow p) b).2 [b, n0, i0, j0]
    0 ≤ g ∧ g ≤ 1 ∧ |g - maskEdgeProb (lens b - 1) A (p b) n0 i0 j0| ≤ slackM z B (lens b - 1) (2 ^ logN - (lens b - 1)) C := by
  classical
  intro g
  obtain ⟨hg, hg0, hg1⟩ := row_share hC z hN lens p b hl n0 hn0 i0 j0
  set L := lens b - 1 with hL
  set M := 2 ^ logN with hM
  have hLM : L ≤ M := by omega
  set W : ℕ → Fin C → Fin C → ℝ := fun n i j => cw z L n i j + lw z (p b) L n i j with hW
  have hZ0 := maskZ_pos hne (p b)
  have hZ1 := maskZ_le hC z A (p b) L M hLM
  have hlw0 : ∀ n i j, 0 ≤ lw z (p b) L n i j := fun n i j => by unfold lw; split_ifs <;> positivity
  have hcw0 : ∀ n (i j : Fin C), 0 ≤ cw z L n i j := fun n i j => by unfold cw; split_ifs <;> positivity
  refine ⟨hg0, hg1, ?_⟩
  refine le_trans ?_ (growthM_le hC hz hLM hm hne)
  rw [show g = _ from hg, maskEdgeProb]
  -- the part of the allowed paths that goes through the edge
  set t : ℝ := if n0 < L then twA A (p b) L n0 i0 j0 else 0 with ht
  have hA : (∑ y : AllowedTags L A, if UsesEdge y.1 n0 i0 j0 then Real.exp (seqScore (p b) y.1) else 0) =
      chainSum M (only (twA A (p b) L) n0 i0 j0 t) := by
    by_cases hn : n0 < L
    · have e : chainSum M (only (twA A (p b) L) n0 i0 j0 t) = chainSum M (fun n i j => if n < L then
          (if A n i j ∧ (n = n0 → i = i0 ∧ j = j0) then Real.exp (p b n i j) else 0) else if i = j then 1 else 0) := by
        refine chainSum_congr fun n _ i j => ?_
        simp only [only, ht, hn, if_true]
        by_cases h1 : n = n0
        · subst h1
          simp only [hn, if_true, true_implies]
          by_cases h2 : i = i0 ∧ j = j0
          · obtain ⟨rfl, rfl⟩ := h2
            simp [twA, hn]
          · rw [if_neg h2, if_neg (fun hc => h2 hc.2)]
        · simp only [h1, if_false, false_implies, and_true, twA]
      rw [e]
      refine Eq.symm ((chainSum_idpad hC (fun n i j => if A n i j ∧ (n = n0 → i = i0 ∧ j = j0) then Real.exp (p b n i j) else 0) L M hLM).trans ?_)
      have e2 : ∀ y : Tags L C, seqProd (fun n i j => if A n i j ∧ (n = n0 → i = i0 ∧ j = j0) then Real.exp (p b n i j) else 0) y =
          if Allowed A y then (if UsesEdge y n0 i0 j0 then Real.exp (seqScore (p b) y) else 0) else 0 := by
        intro y
        rw [seqProd, prod_ite_zero, seqScore, Real.exp_sum]
        have e3 : (∀ n ∈ (univ : Finset (Fin L)), A n (y n.succ) (y n.castSucc) ∧ ((n : ℕ) = n0 → y n.succ = i0 ∧ y n.castSucc = j0)) ↔
            Allowed A y ∧ UsesEdge y n0 i0 j0 := by
          constructor
          · intro h
            refine ⟨fun n => (h n (mem_univ _)).1, hn, ?_⟩
            exact (h ⟨n0, hn⟩ (mem_univ _)).2 rfl
          · rintro ⟨h1, h2, h3⟩ n _
            refine ⟨h1 n, fun h4 => ?_⟩
            subst h4; exact h3
        simp only [e3]
        by_cases h1 : Allowed A y <;> by_cases h2 : UsesEdge y n0 i0 j0 <;> simp [h1, h2]
      simp only [chainSum, e2]
      rw [← sum_filter]
      exact sum_subtype _ (fun y => by simp) _
    · have hz : chainSum M (only (twA A (p b) L) n0 i0 j0 t) = 0 := by
        refine sum_eq_zero fun y _ => prod_eq_zero (mem_univ (⟨n0, by omega⟩ : Fin M)) ?_
        simp [only, ht, hn]
      rw [hz]
      refine sum_eq_zero fun y _ => if_neg ?_
      rintro ⟨h, _⟩; exact hn h
  have ht0 : 0 ≤ t := by rw [ht]; split_ifs <;> [exact twA_nonneg _ _ _ _ _ _; exact le_rfl]
  have htT : t ≤ twA A (p b) L n0 i0 j0 := by rw [ht]; split_ifs <;> [exact le_rfl; exact twA_nonneg _ _ _ _ _ _]
  have htb : t ≤ lw z (p b) L n0 i0 j0 := by
    rw [ht, twA, lw]
    have := Real.exp_pos (p b n0 i0 j0)
    have := Real.exp_pos z
    split_ifs <;> linarith
  have hb : twA A (p b) L n0 i0 j0 - t ≤ W n0 i0 j0 - lw z (p b) L n0 i0 j0 := by
    rw [hW]
    simp only [add_sub_cancel_right]
    by_cases hn : n0 < L
    · rw [ht, if_pos hn, sub_self]; exact hcw0 _ _ _
    · rw [ht, if_neg hn, sub_zero, twA, cw, if_neg hn, if_neg hn]
      split_ifs <;> [exact le_rfl; positivity]
  have hs := share_sandwich (M := M) (n0 := n0) (by omega) i0 j0 (T := twA A (p b) L) (W := W)
    (fun n _ i j => twA_nonneg _ _ _ _ _ _) (fun n _ i j => twA_le _ _ _ _ _ _ _) ht0 htb htT hb
  rw [chainSum_twA hC A (p b) L M hLM] at hs
  rw [hA]
  refine ratio_sandwich hZ0 hZ1 ?_ ?_ hs.1 hs.2
  · rw [← hA]; exact sum_nonneg fun y _ => by split_ifs <;> positivity
  · rw [← hA, maskZ]; exact sum_le_sum fun y _ => by split_ifs <;> [exact le_rfl; positivity]

end ChainMask
