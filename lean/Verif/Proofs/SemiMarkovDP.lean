import Verif.Proofs.SemiMarkov

/-! `SemiMarkov._dp_standard` sums over the segmentations. -/

open Finset Spec ChainProofs Generic

noncomputable section
namespace SemiMarkovProofs

section sums
variable {K1 C n L : ℕ} {R : Type} [AddCommMonoid R]

theorem sum_segments_shift (k : ℕ) (hk : k ≤ L) (g : List (ℕ × Fin C) → R) :
    ∑ l : Segments K1 C k L, g l.1.reverse = ∑ l : Segments K1 C 0 (L - k), g l.1 := by
  have key : ∀ l : List (ℕ × Fin C), (l.reverse.map Prod.fst).sum = (l.map Prod.fst).sum := fun l => by
    rw [List.map_reverse, List.sum_reverse]
  refine Fintype.sum_bijective (fun l : Segments K1 C k L => (⟨l.1.reverse, ?_, ?_⟩ : Segments K1 C 0 (L - k))) ⟨?_, ?_⟩ _ _ fun _ => rfl
  · intro s hs; exact l.2.1 s (List.mem_reverse.1 hs)
  · rw [key]; have := l.2.2; omega
  · intro l l' h
    exact Subtype.ext (List.reverse_injective (congrArg Subtype.val h))
  · intro l
    refine ⟨⟨l.1.reverse, fun s hs => l.2.1 s (List.mem_reverse.1 hs), ?_⟩, Subtype.ext (List.reverse_reverse _)⟩
    rw [key]; have := l.2.2; omega

/-- The sum over lists of segments, by the last segment. -/
theorem sum_segments_snoc (f : List (ℕ × Fin C) → R) : ∑ l : Segments (K1 + 1) C 0 (n + 1), f l.1 =
    ∑ i ∈ range (min (n + 1) K1), ∑ c : Fin C, ∑ l : Segments (K1 + 1) C 0 (n - i), f (l.1 ++ [(i + 1, c)]) := by
  have h1 := sum_segments_shift (K1 := K1 + 1) (L := n + 1) 0 (Nat.zero_le _) f
  rw [Nat.sub_zero] at h1
  rw [← h1, sum_segments_cons (Nat.succ_pos n) fun l => f l.reverse]
  have h2 : ∀ k : Fin K1, ∑ c : Fin C, ∑ l : Segments (K1 + 1) C (0 + (k + 1)) (n + 1), f (((k : ℕ) + 1, c) :: l.1).reverse =
      if (k : ℕ) < n + 1 then ∑ c : Fin C, ∑ l : Segments (K1 + 1) C 0 (n - k), f (l.1 ++ [((k : ℕ) + 1, c)]) else 0 := by
    intro k
    split_ifs with hk
    · refine sum_congr rfl fun c _ => ?_
      have := sum_segments_shift (K1 := K1 + 1) (L := n + 1) (0 + ((k : ℕ) + 1)) (by omega) fun l => f (l ++ [((k : ℕ) + 1, c)])
      simp only [List.reverse_cons]
      rw [this]
      have e : n + 1 - (0 + ((k : ℕ) + 1)) = n - k := by omega
      rw [e]
    · refine sum_eq_zero fun c _ => ?_
      have := segments_empty (C := C) (K1 + 1) (show n + 1 < 0 + ((k : ℕ) + 1) by omega)
      exact sum_of_isEmpty _
  simp only [h2]
  rw [Fin.sum_univ_eq_sum_range (fun k => if k < n + 1 then ∑ c : Fin C, ∑ l : Segments (K1 + 1) C 0 (n - k), f (l.1 ++ [(k + 1, c)]) else 0) K1,
    ← sum_filter]
  refine sum_congr ?_ fun _ _ => rfl
  ext i; simp; omega

end sums

/-- The class of the last segment. -/
def lastClass {C : ℕ} : Fin C → List (ℕ × Fin C) → Fin C
  | c, [] => c
  | _, (_, c') :: l => lastClass c' l

theorem lastClass_append {C : ℕ} (c : Fin C) (l : List (ℕ × Fin C)) (k : ℕ) (c' : Fin C) : lastClass c (l ++ [(k, c')]) = c' := by
  induction l generalizing c with
  | nil => rfl
  | cons s l ih => exact ih s.2

theorem segEdges_append {C : ℕ} (n : ℕ) (c : Fin C) (l : List (ℕ × Fin C)) (k : ℕ) (c' : Fin C) :
    segEdges n c (l ++ [(k, c')]) = segEdges n c l ++ [(n + (l.map Prod.fst).sum, k, c', lastClass c l)] := by
  induction l generalizing n c with
  | nil => simp [segEdges, lastClass]
  | cons s l ih =>
    simp only [List.cons_append, segEdges, ih, lastClass, List.map_cons, List.sum_cons, Nat.add_assoc]

section forward
variable {R : Type} [CommSemiring R]

/-- The sum over the segmentations of `n` steps that end in class `c`. -/
def fw (K1 C b : ℕ) (wp : List ℕ → R) (n : ℕ) (c : Fin C) : R :=
  ∑ y : Segmentation (K1 + 1) C n, if lastClass y.1 y.2.1 = c then ((segEdges 0 y.1 y.2.1).map fun s => wp (entry b s)).prod else 0

variable {K1 C b : ℕ} (wp : List ℕ → R)

theorem fw_zero (c : Fin C) : fw K1 C b wp 0 c = 1 := by
  rw [fw, Fintype.sum_prod_type]
  have : ∀ x : Fin C, ∑ l : Segments (K1 + 1) C 0 0, (if lastClass x l.1 = c then ((segEdges 0 x l.1).map fun s => wp (entry b s)).prod else 0) =
      if x = c then 1 else 0 := fun x => by
    rw [sum_segments_self (K1 + 1) fun l => if lastClass x l = c then ((segEdges 0 x l).map fun s => wp (entry b s)).prod else 0]
    simp [lastClass, segEdges]
  simp only [this]
  simp

theorem fw_succ (n : ℕ) (c : Fin C) : fw K1 C b wp (n + 1) c =
    ∑ i ∈ range (min (n + 1) K1), ∑ c' : Fin C, fw K1 C b wp (n - i) c' * wp (entry b (n - i, i + 1, c, c')) := by
  rw [fw, Fintype.sum_prod_type]
  have h1 : ∀ x : Fin C, ∑ l : Segments (K1 + 1) C 0 (n + 1), (if lastClass x l.1 = c then ((segEdges 0 x l.1).map fun s => wp (entry b s)).prod else 0) =
      ∑ i ∈ range (min (n + 1) K1), ∑ l : Segments (K1 + 1) C 0 (n - i), ∑ c' : Fin C,
        (if lastClass x l.1 = c' then ((segEdges 0 x l.1).map fun s => wp (entry b s)).prod else 0) * wp (entry b (n - i, i + 1, c, c')) := by
    intro x
    rw [sum_segments_snoc fun l => if lastClass x l = c then ((segEdges 0 x l).map fun s => wp (entry b s)).prod else 0]
    refine sum_congr rfl fun i _ => ?_
    rw [sum_eq_single c]
    · refine sum_congr rfl fun l _ => ?_
      rw [lastClass_append, if_pos rfl, segEdges_append, l.2.2, List.map_append, List.prod_append]
      rw [sum_eq_single (lastClass x l.1)]
      · simp
      · intro c' _ hc'; rw [if_neg (Ne.symm hc'), zero_mul]
      · simp
    · intro c' _ hc'
      refine sum_eq_zero fun l _ => ?_
      rw [lastClass_append, if_neg hc']
    · simp
  simp only [h1]
  rw [sum_comm]
  refine sum_congr rfl fun i _ => ?_
  simp only [fw, sum_mul, Fintype.sum_prod_type]
  conv_rhs => rw [sum_comm]
  refine sum_congr rfl fun x _ => ?_
  rw [sum_comm]

theorem sum_fw (n : ℕ) : ∑ c : Fin C, fw K1 C b wp n c = ∑ y : Segmentation (K1 + 1) C n, ((segParts b y).map wp).prod := by
  simp only [fw]
  rw [sum_comm]
  refine sum_congr rfl fun y _ => ?_
  rw [sum_ite_eq, if_pos (mem_univ _), segParts, Multiset.map_coe, Multiset.prod_coe, List.map_map]; rfl

end forward

/-! ### The charts -/

theorem dpPairs_eq (n K : ℕ) (hn : 1 ≤ n) (hK : 1 ≤ K) :
    SemiMarkov.dpPairs n K = (List.range (min n (K - 1))).map fun i => (n - 1 - i, i + 1) := by
  unfold SemiMarkov.dpPairs
  have : ((n : ℤ) - 1 - max ((n : ℤ) - K) (-1)).toNat = min n (K - 1) := by
    rcases max_cases ((n : ℤ) - K) (-1) with ⟨h, _⟩ | ⟨h, _⟩ <;> rw [h] <;> omega
  exact congrArg (fun m => (List.range m).map fun i => (n - 1 - i, i + 1)) this

section charts
variable {α R : Type} [CommSemiring R] {S : SR α} {ρ : α → R → Prop} {ζ ω : R}

theorem dp_invariant (H : SRRel S ρ) (T : Tame S ρ ζ ω) {K C : ℕ} (hK : 2 ≤ K) (hC : 1 ≤ C) (b L : ℕ) {x : ℕ → ℕ → ℕ → ℕ → ℕ → α} {wp : List ℕ → R}
    (hp : ∀ n k (c c' : Fin C), n < L → 1 ≤ k → k < K → ρ (x b n k c c') (wp (entry b (n, k, c, c')))) (t : ℕ) :
    (∀ m ≤ t, m ≤ L → ∀ c : Fin C, ρ (((List.range t).foldl (fun st i => SemiMarkov.dpStep S K C x st (i + 1)) (SemiMarkov.dpInit S)).2 m b c)
      (fw (K - 1) C b wp m c * ω)) ∧
    (∀ m < t, m < L → ∀ k, 1 ≤ k → k < K → ∀ c : Fin C,
      ρ (((List.range t).foldl (fun st i => SemiMarkov.dpStep S K C x st (i + 1)) (SemiMarkov.dpInit S)).1 b m k c)
        (∑ c' : Fin C, fw (K - 1) C b wp m c' * ω * wp (entry b (m, k, c, c')))) := by
  induction t with
  | zero =>
    refine ⟨fun m hm _ c => ?_, fun m hm => absurd hm (Nat.not_lt_zero m)⟩
    obtain rfl : m = 0 := by omega
    rw [fw_zero, one_mul]
    exact T.one
  | succ t ih =>
    rw [List.range_succ, List.foldl_append]
    generalize (List.range t).foldl (fun st i => SemiMarkov.dpStep S K C x st (i + 1)) (SemiMarkov.dpInit S) = st at ih ⊢
    obtain ⟨ihb, iha⟩ := ih
    have ha : ∀ m < t + 1, m < L → ∀ k, 1 ≤ k → k < K → ∀ c : Fin C,
        ρ ((SemiMarkov.dpStep S K C x st (t + 1)).1 b m k c) (∑ c' : Fin C, fw (K - 1) C b wp m c' * ω * wp (entry b (m, k, c, c'))) := by
      intro m hm hmL k hk1 hk c
      simp only [SemiMarkov.dpStep, Nat.add_sub_cancel]
      split_ifs with h
      · subst h
        rw [SR.dot]
        have e : List.zipWith S.mul ((List.range C).map fun c' => st.2 m b c') ((List.range C).map fun c' => x b m k c c') =
            List.ofFn fun c' : Fin C => S.mul (st.2 m b c') (x b m k c c') := by
          rw [List.zipWith_map, List.zipWith_self, List.ofFn_eq_map, ← List.map_coe_finRange_eq_range, List.map_map]; rfl
        rw [e]
        exact H.sum_ofFn hC fun c' => H.mul (ihb m le_rfl hmL.le c') (hp m k c c' hmL hk1 hk)
      · exact iha m (by omega) hmL k hk1 hk c
    refine ⟨fun m hm hmL c => ?_, ha⟩
    have e : (SemiMarkov.dpStep S K C x st (t + 1)).2 m b c =
        if m = t + 1 then S.sum ((SemiMarkov.dpPairs (t + 1) K).map fun ab => (SemiMarkov.dpStep S K C x st (t + 1)).1 b ab.1 ab.2 c) else st.2 m b c := rfl
    change ρ ((SemiMarkov.dpStep S K C x st (t + 1)).2 m b c) _
    rw [e]
    split_ifs with h
    · subst h
      rw [dpPairs_eq _ _ (by omega) (by omega), List.map_map]
      have e2 : fw (K - 1) C b wp (t + 1) c * ω = ∑ i ∈ range (min (t + 1) (K - 1)), ∑ c' : Fin C,
          fw (K - 1) C b wp (t - i) c' * ω * wp (entry b (t - i, i + 1, c, c')) := by
        rw [fw_succ, sum_mul]
        refine sum_congr rfl fun i _ => ?_
        rw [sum_mul]
        exact sum_congr rfl fun c' _ => by ring
      rw [e2]
      refine H.sum_range (by omega) fun i hi => ?_
      exact ha (t - i) (by omega) (by omega) (i + 1) (by omega) (by omega) c
    · exact ihb m (by omega) hmL c

end charts

/-- `_dp_standard` as an algorithm. -/
def dpAlgo : Algo where
  T := T5
  run S p lengths := SemiMarkov.dpStandard S p lengths
  map := SemiMarkov.algo.map
  index := SemiMarkov.algo.index

theorem dpStandard_ok {α : Type} (S : SR α) (p : T5 α) (lengths : Option (List ℕ)) (h : Valid p lengths) (hB : 1 ≤ p.d0)
    (hl : ∀ b < p.d0, 1 ≤ lenOf (p.d1 + 1) lengths b) :
    SemiMarkov.dpStandard S p lengths = .ok ((List.range p.d0).map fun b =>
      S.sum ((List.range p.d3).map fun c => (SemiMarkov.dpCharts S p.d2 p.d3 (p.d1 + 1) p.get).2 (steps p lengths b) b c)) := by
  have hs := h.segs
  have hlen := lensOr_length h.lens
  rw [SemiMarkov.dpStandard, checkPotentials_ok p lengths h]
  simp only [bind, Except.bind]
  rw [if_neg (by omega), if_neg (by omega), if_neg (by rintro hc; rw [hc] at hlen; simp at hlen; omega)]
  rw [hlen]
  congr 1
  refine List.map_congr_left fun b hb => ?_
  rw [lensOr_getD lengths b (List.mem_range.1 hb)]
  have := hl b (List.mem_range.1 hb)
  rw [if_neg (by omega)]
  rfl

theorem dpBatchDP {γ : Type} (p : T5 γ) (lengths : Option (List ℕ)) (h : Valid p lengths) (hB : 1 ≤ p.d0)
    (hl : ∀ b < p.d0, 1 ≤ lenOf (p.d1 + 1) lengths b) :
    Generic.BatchDP dpAlgo p lengths p.d0 (at5 p) (Entry p lengths) (ι := fun b => Segmentation p.d2 p.d3 (steps p lengths b))
      (π := fun _ => Empty) (fun b => segParts b) (fun _ _ => 1) (fun _ y => y.elim) where
  rows := by
    refine ⟨fun b α S x => S.sum ((List.range p.d3).map fun c =>
      (SemiMarkov.dpCharts S p.d2 p.d3 (p.d1 + 1) fun b n k c c' => x [b, n, k, c, c']).2 (steps p lengths b) b c), ?_, ?_⟩
    · intro α S f
      exact dpStandard_ok S (⟨p.d0, p.d1, p.d2, p.d3, p.d4, fun b n k c c' => f (p.get b n k c c') [b, n, k, c, c']⟩ : T5 α) lengths
        ⟨h.rows, h.square, h.classes, h.positions, h.segs, h.lens⟩ hB hl
    · intro b hb
      have hst := steps_le h b
      have hs := h.segs
      have hd : p.d2 - 1 + 1 = p.d2 := by omega
      refine ⟨?_, ?_, fun y => y.elim, ?_, fun y => y.elim, fun y => y.elim⟩
      · intro α R _ S ρ ζ ω H T x wp wm hp hm
        have key := (dp_invariant H T (K := p.d2) h.segs h.classes b (steps p lengths b) (x := fun b n k c c' => x [b, n, k, c, c']) (wp := wp)
          (fun n k c c' hn hk1 hk => hp _ ⟨n, k, c, c', rfl, hn, hk1, hk⟩) p.d1).1
        have e : ∑ y : Segmentation p.d2 p.d3 (steps p lengths b), ((segParts b y).map wp).prod * ω ^ 1 +
            ∑ y : Empty, (((y.elim : Multiset Atom)).map (Atom.weight wp wm ζ ω)).prod =
            ∑ c : Fin p.d3, fw (p.d2 - 1) p.d3 b wp (steps p lengths b) c * ω := by
          rw [Fintype.sum_empty (ι := Empty), add_zero, ← sum_mul, pow_one, ← sum_mul, sum_fw, hd]
        rw [e]
        have e2 : ∀ f : ℕ → α, (List.range p.d3).map f = List.ofFn fun c : Fin p.d3 => f c := fun f => by
          rw [List.ofFn_eq_map, ← List.map_coe_finRange_eq_range, List.map_map]; rfl
        beta_reduce
        rw [e2]
        exact H.sum_ofFn h.classes fun c => key _ hst.1 le_rfl c
      · intro y e he
        rw [segParts, Multiset.mem_coe, List.mem_map] at he
        obtain ⟨s, hs, rfl⟩ := he
        have h1 := segEdges_mem y.2.1 0 y.1 y.2.2.1 s hs
        have h2 := y.2.2.2
        exact ⟨s.1, s.2.1, s.2.2.1, s.2.2.2, rfl, by omega, h1.2.1, h1.2.2.1⟩
      · rintro e ⟨n, k, c, c', rfl, -⟩; rfl
  map_fst _ := rfl
  map_id := rfl

end SemiMarkovProofs
