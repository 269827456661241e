import Verif.Proofs.Bag
import Verif.Proofs.LinearChainLog

/-! Best and k-best elements of bags of paths, in the presence of the `zero` stand-ins. -/

open Finset Spec ChainProofs LinearChainProofs

namespace ChainTop
variable {G : Type} [AddCommMonoid G] {C : ℕ}

/-- `x` consists of the elements of `r`, all of score at most `U`, and of further elements of score at most `z + U`. -/
def Split (score : G → ℝ) (z U : ℝ) (r x : Bag G) : Prop :=
  ∃ p : Bag G, x = r + p ∧ (∀ a ∈ r.ms, score a ≤ U) ∧ ∀ a ∈ p.ms, score a ≤ z + U

variable {score : G → ℝ} {z : ℝ}

theorem Split.one (h0 : score 0 = 0) : Split score z 0 (1 : Bag G) 1 := ⟨0, by simp, by simp [h0], by simp⟩

theorem Split.mul (hadd : ∀ a b, score (a + b) = score a + score b) (hz : z ≤ 0) {U U' : ℝ} {r x r' x' : Bag G}
    (h : Split score z U r x) (h' : Split score z U' r' x') : Split score z (U + U') (r * r') (x * x') := by
  obtain ⟨p, rfl, h1, h2⟩ := h
  obtain ⟨p', rfl, h1', h2'⟩ := h'
  refine ⟨r * p' + p * r' + p * p', by ring, ?_, ?_⟩
  · intro a ha
    obtain ⟨u, hu, v, hv, rfl⟩ := Bag.mem_mul.1 ha
    rw [hadd]; linarith [h1 u hu, h1' v hv]
  · intro a ha
    rw [Bag.ms_add, Bag.ms_add, Multiset.mem_add, Multiset.mem_add] at ha
    rcases ha with (ha | ha) | ha <;> obtain ⟨u, hu, v, hv, rfl⟩ := Bag.mem_mul.1 ha <;> rw [hadd]
    · linarith [h1 u hu, h2' v hv]
    · linarith [h2 u hu, h1' v hv]
    · linarith [h2 u hu, h2' v hv]

theorem Split.sum {ι : Type} (s : Finset ι) {U : ℝ} {r x : ι → Bag G} (h : ∀ i ∈ s, Split score z U (r i) (x i)) :
    Split score z U (∑ i ∈ s, r i) (∑ i ∈ s, x i) := by
  classical
  induction s using Finset.induction_on with
  | empty => exact ⟨0, by simp, by simp, by simp⟩
  | insert a s ha ih =>
    obtain ⟨p, h1, h2, h3⟩ := ih fun i hi => h i (mem_insert_of_mem hi)
    obtain ⟨p', h1', h2', h3'⟩ := h a (mem_insert_self _ _)
    refine ⟨p' + p, by rw [sum_insert ha, sum_insert ha, h1, h1']; abel, ?_, ?_⟩
    · intro u hu
      rw [sum_insert ha, Bag.ms_add, Multiset.mem_add] at hu
      exact hu.elim (h2' u) (h2 u)
    · intro u hu
      rw [Bag.ms_add, Multiset.mem_add] at hu
      exact hu.elim (h3' u) (h3 u)

theorem Split.prod (hadd : ∀ a b, score (a + b) = score a + score b) (h0 : score 0 = 0) (hz : z ≤ 0) {ι : Type} (s : Finset ι)
    {U : ι → ℝ} {r x : ι → Bag G} (h : ∀ i ∈ s, Split score z (U i) (r i) (x i)) :
    Split score z (∑ i ∈ s, U i) (∏ i ∈ s, r i) (∏ i ∈ s, x i) := by
  classical
  induction s using Finset.induction_on with
  | empty => simpa using Split.one h0
  | insert a s ha ih =>
    rw [sum_insert ha, prod_insert ha, prod_insert ha]
    exact (h a (mem_insert_self _ _)).mul hadd hz (ih fun i hi => h i (mem_insert_of_mem hi))

theorem Split.chainSum (hadd : ∀ a b, score (a + b) = score a + score b) (h0 : score 0 = 0) (hz : z ≤ 0) {M : ℕ} {U : ℕ → ℝ}
    {r x : ℕ → Fin C → Fin C → Bag G} (h : ∀ n < M, ∀ i j, Split score z (U n) (r n i j) (x n i j)) :
    Split score z (∑ n ∈ range M, U n) (chainSum M r) (Spec.chainSum M x) := by
  refine Split.sum _ fun y _ => ?_
  rw [← Fin.sum_univ_eq_sum_range]
  exact Split.prod hadd h0 hz univ fun n _ => h n n.2 _ _

/-- If the elements of `r` beat all the others and there are enough of them, the top `k` of the whole is a top `k` of `r`. -/
theorem topU_of_split {U : ℝ} {k : ℕ} {l : List G} {r x : Bag G} (ht : Bag.IsTopU score k l x) (hs : Split score z U r x)
    (hlow : ∀ a ∈ r.ms, z + U < score a) (hk : k ≤ Multiset.card r.ms) : Bag.IsTopU score k l r ∧ ∀ a ∈ l, z + U < score a := by
  classical
  obtain ⟨p, rfl, _, hp⟩ := hs
  have hl : ∀ a ∈ l, z + U < score a := by
    by_cases hk0 : k = 0
    · obtain ⟨_, _, hlen, _⟩ := ht
      subst hk0
      rw [List.length_eq_zero_iff] at hlen
      simp [hlen]
    · obtain ⟨s, hsT, hmin⟩ : ∃ s ∈ r.ms, ∀ t ∈ r.ms, score s ≤ score t := by
        have hne : r.ms.toFinset.Nonempty := by
          rw [Multiset.toFinset_nonempty]; intro hc; rw [hc] at hk; simp at hk; omega
        obtain ⟨s, hs, hmin⟩ := r.ms.toFinset.exists_min_image score hne
        exact ⟨s, Multiset.mem_toFinset.1 hs, fun t ht => hmin t (Multiset.mem_toFinset.2 ht)⟩
      intro a ha
      have hge := ht.ge_of_card (s := score s) (T := r.ms) (by rw [Bag.ms_add]; exact Multiset.le_add_right _ _)
        hk hmin a ha
      exact (hlow s hsT).trans_le hge
  obtain ⟨rest, hx, hlen, hrest⟩ := ht
  have hle : (l : Multiset G) ≤ r.ms := by
    have : (l : Multiset G) ≤ r.ms + p.ms := by rw [← Bag.ms_add, hx]; exact Multiset.le_add_right _ _
    rw [Multiset.le_iff_count] at this ⊢
    intro a
    have h1 := this a
    rw [Multiset.count_add] at h1
    by_cases ha : a ∈ l
    · have : a ∉ p.ms := fun hc => absurd (hp a hc) (not_le.2 (hl a ha))
      rw [Multiset.count_eq_zero_of_notMem this] at h1
      simpa using h1
    · rw [Multiset.count_eq_zero_of_notMem (by simpa using ha)]; exact Nat.zero_le _
  obtain ⟨rest', hr⟩ := Multiset.le_iff_exists_add.1 hle
  refine ⟨⟨rest', hr, hlen, ?_⟩, hl⟩
  intro a ha b hb
  apply hrest a ha
  have : (l : Multiset G) + rest = (l : Multiset G) + (rest' + p.ms) := by
    rw [← hx, Bag.ms_add, hr, add_assoc]
  rw [add_right_inj] at this
  rw [this]; exact Multiset.mem_add.2 (Or.inl hb)

theorem top_of_split {U : ℝ} {k : ℕ} {l : List G} {r x : Bag G} (ht : Bag.IsTop score k l x) (hs : Split score z U r x)
    (hlow : ∀ a ∈ r.ms, z + U < score a) (hk : k ≤ Multiset.card r.ms) : Bag.IsTop score k l r := by
  obtain ⟨⟨rest, h1, h2, h3⟩, -⟩ := topU_of_split ht.unsorted hs hlow hk
  obtain ⟨_, _, _, hpw, _⟩ := ht
  exact ⟨rest, h1, h2, hpw, h3⟩

omit [AddCommMonoid G] in
theorem lift_list {ι : Type} [DecidableEq ι] (f : ι → G) (l : List G) : ∀ (s : Multiset ι) (rest : Multiset G), s.map f = (l : Multiset G) + rest →
    ∃ (ys : List ι) (us : Multiset ι), s = (ys : Multiset ι) + us ∧ ys.map f = l ∧ us.map f = rest := by
  induction l with
  | nil => intro s rest h; exact ⟨[], s, by simp, rfl, by simpa using h⟩
  | cons a l ih =>
    intro s rest h
    rw [← Multiset.cons_coe, Multiset.cons_add, ← Multiset.map_eq_cons] at h
    obtain ⟨y, hy, rfl, h2⟩ := h
    obtain ⟨ys, us, h3, h4, h5⟩ := ih _ _ h2
    refine ⟨y :: ys, us, ?_, by simp [h4], h5⟩
    rw [← Multiset.cons_coe, Multiset.cons_add, ← h3, Multiset.cons_erase hy]

/-- A top `k` of a family: `k` different members, in non-increasing order of score, beating all other members. -/
theorem top_family {ι : Type} [Fintype ι] [DecidableEq ι] {f : ι → G} {k : ℕ} {l : List G}
    (h : Bag.IsTop score k l (∑ y, Bag.single (f y))) :
    ∃ ys : List ι, ys.Nodup ∧ ys.length = k ∧ l = ys.map f ∧ (ys.Pairwise fun y y' => score (f y') ≤ score (f y)) ∧
      ∀ y' ∉ ys, ∀ y ∈ ys, score (f y') ≤ score (f y) := by
  obtain ⟨rest, hx, hlen, hpw, hrest⟩ := h
  have e : (∑ y, Bag.single (f y)).ms = (univ : Finset ι).val.map f := by
    rw [Bag.ms_sum, ← Multiset.sum_map_singleton ((univ : Finset ι).val.map f), Multiset.map_map]
    rfl
  rw [e] at hx
  obtain ⟨ys, us, h1, h2, h3⟩ := lift_list f l _ _ hx
  have hnd : (univ : Finset ι).val.Nodup := univ.nodup
  refine ⟨ys, ?_, ?_, h2.symm, ?_, ?_⟩
  · rw [h1, Multiset.nodup_add] at hnd
    exact hnd.1
  · rw [← hlen, ← h2, List.length_map]
  · rw [← h2, List.pairwise_map] at hpw; exact hpw
  · intro y' hy' y hy
    have : y' ∈ us := by
      have : y' ∈ (univ : Finset ι).val := mem_univ y'
      rw [h1, Multiset.mem_add] at this
      exact this.resolve_left hy'
    refine hrest _ ?_ _ ?_
    · rw [← h2]; exact List.mem_map_of_mem hy
    · rw [← h3]; exact Multiset.mem_map_of_mem f this

theorem card_family {ι : Type} [Fintype ι] (f : ι → G) :
    Multiset.card (∑ y, Bag.single (f y) : Bag G).ms = Fintype.card ι := by
  rw [Bag.ms_sum, Multiset.card_sum]
  simp

/-- Real paths, as a family of singletons. -/
theorem chainSum_single (L : ℕ) (f : ℕ → Fin C → Fin C → G) :
    chainSum L (fun n i j => Bag.single (f n i j)) = ∑ y : Tags L C, Bag.single (∑ n : Fin L, f n (y n.succ) (y n.castSucc)) := by
  refine sum_congr rfl fun y _ => ?_
  exact Bag.prod_single _ _

/-- k-best linear chain, for any top-`k` semiring. -/
theorem core_top {S : SR (List G)} {k : ℕ} (HS : Bag.IsTopSR S score k) (h0 : score 0 = 0) (hz : z ≤ 0) (hC : 0 < C) {N logN : ℕ}
    (lens : ℕ → ℕ) (lp : ℕ → ℕ → Fin C → Fin C → List G) (b L : ℕ) (hL : L ≤ 2 ^ logN) (f : ℕ → Fin C → Fin C → G) (B : ℝ)
    (w : ℕ → Fin C → Fin C → Bag G)
    (hw : ∀ n < 2 ^ logN, ∀ i j, Bag.IsTop score k
      (S.sum [maskedC S (lens b) n i j, maskedL S N (lens b) (lp b) n i j]) (w n i j))
    (hs : ∀ n < 2 ^ logN, ∀ i j, Split score z (if n < L then B else 0)
      (if n < L then Bag.single (f n i j) else if i = j then 1 else 0) (w n i j))
    (hf : ∀ n < L, ∀ i j, -B ≤ score (f n i j)) (hbig : 2 * L * B < -z) (hk : k ≤ C ^ (L + 1)) :
    Bag.IsTop score k (LinearChain.core S N logN lens lp b)
      (∑ y : Tags L C, Bag.single (∑ n : Fin L, f n (y n.succ) (y n.castSucc))) := by
  have ht := core_rel HS.rel hC N logN lens lp b w hw
  have hsp := Split.chainSum HS.score_add h0 hz (M := 2 ^ logN) (U := fun n => if n < L then B else 0) hs
  rw [LinearChainLog.chainSum_idpad hC _ L _ hL, chainSum_single] at hsp
  have hU : ∑ n ∈ range (2 ^ logN), (if n < L then B else 0) = L * B := by
    rw [← sum_filter, sum_const]
    have : (range (2 ^ logN)).filter (fun n => n < L) = range L := by ext n; simp; omega
    rw [this]; simp
  rw [hU] at hsp
  refine top_of_split ht hsp ?_ ?_
  · intro a ha
    obtain ⟨y, _, hy⟩ := Bag.mem_sum.1 ha
    rw [Bag.ms_single, Multiset.mem_singleton] at hy
    subst hy
    have : score (∑ n : Fin L, f n (y n.succ) (y n.castSucc)) = ∑ n : Fin L, score (f n (y n.succ) (y n.castSucc)) :=
      map_sum (⟨⟨score, h0⟩, HS.score_add⟩ : G →+ ℝ) _ _
    rw [this]
    have h2 : ∑ _n : Fin L, -B ≤ ∑ n : Fin L, score (f n (y n.succ) (y n.castSucc)) :=
      sum_le_sum fun n _ => hf n n.2 _ _
    simp only [sum_const, card_univ, Fintype.card_fin, nsmul_eq_mul] at h2
    linarith
  · rw [card_family]; simpa [Tags] using hk

/-- A path within `m` of the best uses no stand-in: real edges beat them by more than `m` at positions `< L`, identities beat them by more than `m` at the padded positions. -/
theorem near_chain {m : ℝ} (hm : 0 ≤ m) (hadd : ∀ a b, score (a + b) = score a + score b) (h0 : score 0 = 0) {L M : ℕ} (hLM : L ≤ M)
    (c l f : ℕ → Fin C → Fin C → G)
    (hl : ∀ n < L, ∀ i j, l n i j = f n i j) (hc : ∀ n < L, ∀ i j, score (c n i j) + m < score (f n i j))
    (hpad : ∀ n, L ≤ n → n < M → ∀ i j, (c n i j = 0 ∨ score (c n i j) + m < 0) ∧ (l n i j = 0 ∨ score (l n i j) + m < 0))
    (hid : ∀ n, L ≤ n → n < M → ∀ i, c n i i = 0) {v : G}
    (hmem : v ∈ (chainSum M fun n i j => Bag.single (c n i j) + Bag.single (l n i j)).ms)
    (hmax : ∀ u ∈ (chainSum M fun n i j => Bag.single (c n i j) + Bag.single (l n i j)).ms, score u ≤ score v + m) :
    (∃ y : Tags L C, v = ∑ n : Fin L, f n (y n.succ) (y n.castSucc)) ∧
      ∀ y : Tags L C, score (∑ n : Fin L, f n (y n.succ) (y n.castSucc)) ≤ score v + m := by
  obtain ⟨P, rfl⟩ := Nat.exists_eq_add_of_le hLM
  have hsum : ∀ {ι : Type} (s : Finset ι) (g : ι → G), score (∑ i ∈ s, g i) = ∑ i ∈ s, score (g i) := fun s g =>
    map_sum (⟨⟨score, h0⟩, hadd⟩ : G →+ ℝ) g s
  have hup : ∀ y : Tags L C, score (∑ n : Fin L, f n (y n.succ) (y n.castSucc)) ≤ score v + m := by
    intro y
    apply hmax
    let y' : Tags (L + P) C := fun n => if h : (n : ℕ) < L + 1 then y ⟨n, h⟩ else y (Fin.last L)
    refine Bag.mem_sum.2 ⟨y', mem_univ _, Bag.mem_prod.2
      ⟨fun n => if (n : ℕ) < L then l n (y' n.succ) (y' n.castSucc) else c n (y' n.succ) (y' n.castSucc), ?_, ?_⟩⟩
    · intro n _
      simp only [Bag.ms_add, Bag.ms_single, Multiset.mem_add, Multiset.mem_singleton]
      by_cases h : (n : ℕ) < L
      · right; rw [if_pos h]
      · left; rw [if_neg h]
    · rw [Fin.sum_univ_add]
      have e2 : ∑ i : Fin P, (if ((Fin.natAdd L i : Fin (L + P)) : ℕ) < L then
          l (Fin.natAdd L i : Fin (L + P)) (y' (Fin.natAdd L i).succ) (y' (Fin.natAdd L i).castSucc) else
          c (Fin.natAdd L i : Fin (L + P)) (y' (Fin.natAdd L i).succ) (y' (Fin.natAdd L i).castSucc)) = 0 := by
        refine sum_eq_zero fun i _ => ?_
        have hi := i.2
        rw [if_neg (by simp)]
        have : y' (Fin.natAdd L i).succ = y' (Fin.natAdd L i).castSucc := by
          simp only [y', Fin.val_succ, Fin.val_castSucc, Fin.val_natAdd]
          rw [dif_neg (by omega)]
          split_ifs with h
          · congr 1; ext; simp; omega
          · rfl
        rw [this]
        exact hid _ (by simp) (by simp only [Fin.val_natAdd]; omega) _
      rw [e2, add_zero]
      refine sum_congr rfl fun n _ => ?_
      have hn := n.2
      rw [if_pos (by simp), hl _ (by simp)]
      have a1 : y' (Fin.castAdd P n).succ = y n.succ := by
        simp only [y', Fin.val_succ, Fin.val_castAdd]
        rw [dif_pos (by omega)]; rfl
      have a2 : y' (Fin.castAdd P n).castSucc = y n.castSucc := by
        simp only [y', Fin.val_castSucc, Fin.val_castAdd]
        rw [dif_pos (by omega)]; rfl
      rw [a1, a2]; rfl
  refine ⟨?_, hup⟩
  obtain ⟨y, _, hy⟩ := Bag.mem_sum.1 hmem
  obtain ⟨ch, hch, rfl⟩ := Bag.mem_prod.1 hy
  simp only [Bag.ms_add, Bag.ms_single, Multiset.mem_add, Multiset.mem_singleton] at hch
  let y0 : Tags L C := fun n => y ⟨n, by omega⟩
  refine ⟨y0, ?_⟩
  have hge := hup y0
  rw [Fin.sum_univ_add, hadd, hsum, hsum, hsum] at hge
  -- bounds of the two parts
  have b1 : ∀ n : Fin L, score (ch (Fin.castAdd P n)) ≤ score (f n (y0 n.succ) (y0 n.castSucc)) := by
    intro n
    have a := hch (Fin.castAdd P n) (mem_univ _)
    have hf : f n (y0 n.succ) (y0 n.castSucc) =
        f (Fin.castAdd P n : Fin (L + P)) (y (Fin.castAdd P n).succ) (y (Fin.castAdd P n).castSucc) := rfl
    rcases a with a | a
    · rw [a, hf]; have := hc (Fin.castAdd P n : Fin (L + P)) n.2 (y (Fin.castAdd P n).succ) (y (Fin.castAdd P n).castSucc); linarith
    · rw [a, hf, hl _ (by simp)]
  have b2 : ∀ n : Fin P, score (ch (Fin.natAdd L n)) ≤ 0 := by
    intro n
    have a := hch (Fin.natAdd L n) (mem_univ _)
    have hp := hpad (Fin.natAdd L n : Fin (L + P)) (by simp) (by simp only [Fin.val_natAdd]; omega)
      (y (Fin.natAdd L n).succ) (y (Fin.natAdd L n).castSucc)
    rcases a with a | a <;> rw [a]
    · rcases hp.1 with h | h
      · rw [h, h0]
      · linarith
    · rcases hp.2 with h | h
      · rw [h, h0]
      · linarith
  have s1 : ∑ n : Fin L, score (ch (Fin.castAdd P n)) ≤ ∑ n : Fin L, score (f n (y0 n.succ) (y0 n.castSucc)) :=
    sum_le_sum fun n _ => b1 n
  have s2 : ∑ n : Fin P, score (ch (Fin.natAdd L n)) ≤ 0 := sum_nonpos fun n _ => b2 n
  have t1 : ∀ n : Fin L, score (f n (y0 n.succ) (y0 n.castSucc)) ≤ score (ch (Fin.castAdd P n)) + m := by
    intro n
    have h := single_le_sum (f := fun n : Fin L => score (f n (y0 n.succ) (y0 n.castSucc)) - score (ch (Fin.castAdd P n)))
      (fun n _ => sub_nonneg.2 (b1 n)) (mem_univ n)
    rw [sum_sub_distrib] at h
    linarith
  have t2 : ∀ n : Fin P, -m ≤ score (ch (Fin.natAdd L n)) := by
    intro n
    have h := single_le_sum (f := fun n : Fin P => -score (ch (Fin.natAdd L n))) (fun n _ => neg_nonneg.2 (b2 n)) (mem_univ n)
    rw [sum_neg_distrib] at h
    linarith
  rw [Fin.sum_univ_add]
  have e2 : ∑ n : Fin P, ch (Fin.natAdd L n) = 0 := by
    refine sum_eq_zero fun n _ => ?_
    have hz := t2 n
    have a := hch (Fin.natAdd L n) (mem_univ _)
    have hp := hpad (Fin.natAdd L n : Fin (L + P)) (by simp) (by simp only [Fin.val_natAdd]; omega)
      (y (Fin.natAdd L n).succ) (y (Fin.natAdd L n).castSucc)
    rcases a with a | a
    · rw [a] at hz ⊢
      exact hp.1.resolve_right (by linarith)
    · rw [a] at hz ⊢
      exact hp.2.resolve_right (by linarith)
  rw [e2, add_zero]
  refine sum_congr rfl fun n _ => ?_
  have hz := t1 n
  have a := hch (Fin.castAdd P n) (mem_univ _)
  have hf : f n (y0 n.succ) (y0 n.castSucc) =
      f (Fin.castAdd P n : Fin (L + P)) (y (Fin.castAdd P n).succ) (y (Fin.castAdd P n).castSucc) := rfl
  rcases a with a | a
  · rw [a, hf] at hz
    exact absurd hz (not_le.2 (hc _ (by simp) _ _))
  · rw [a, hf, hl _ (by simp)]

/-- The best path uses no stand-in: real edges beat them at positions `< L`, identities beat them at the padded positions. -/
theorem best_chain (hadd : ∀ a b, score (a + b) = score a + score b) (h0 : score 0 = 0) {L M : ℕ} (hLM : L ≤ M)
    (c l f : ℕ → Fin C → Fin C → G)
    (hl : ∀ n < L, ∀ i j, l n i j = f n i j) (hc : ∀ n < L, ∀ i j, score (c n i j) < score (f n i j))
    (hpad : ∀ n, L ≤ n → n < M → ∀ i j, (c n i j = 0 ∨ score (c n i j) < 0) ∧ (l n i j = 0 ∨ score (l n i j) < 0))
    (hid : ∀ n, L ≤ n → n < M → ∀ i, c n i i = 0) {v : G}
    (hv : Bag.IsMax score v (chainSum M fun n i j => Bag.single (c n i j) + Bag.single (l n i j))) :
    (∃ y : Tags L C, v = ∑ n : Fin L, f n (y n.succ) (y n.castSucc)) ∧
      ∀ y : Tags L C, score (∑ n : Fin L, f n (y n.succ) (y n.castSucc)) ≤ score v := by
  have := near_chain (m := 0) le_rfl hadd h0 hLM c l f hl (by simpa only [add_zero] using hc) (by simpa only [add_zero] using hpad) hid hv.1
    (by simpa only [add_zero] using hv.2)
  simpa only [add_zero] using this

end ChainTop
