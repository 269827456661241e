import Verif.Model.SemiMarkov
import Verif.Spec.Segmentation
import Verif.Proofs.AtomChain
import Verif.Proofs.LinearChain
import Verif.Proofs.ExactDP

/-! `SemiMarkov.logpartition` sums over the segmentations. -/

open Finset Spec ChainProofs Generic

noncomputable section
namespace SemiMarkovProofs

/-! ### Sums over lists of segments -/

section segments
variable {K1 C n L : ℕ} {R : Type} [AddCommMonoid R]

theorem segments_empty (K : ℕ) (h : L < n) : IsEmpty (Segments K C n L) := ⟨fun l => by have := l.2.2; omega⟩

theorem sum_segments_self (K : ℕ) (f : List (ℕ × Fin C) → R) : ∑ l : Segments K C L L, f l.1 = f [] := by
  have h : ∀ l : Segments K C L L, l = ⟨[], by simp⟩ := by
    rintro ⟨l, h1, h2⟩
    cases l with
    | nil => rfl
    | cons s l =>
      have := h1 s List.mem_cons_self
      simp only [List.map_cons, List.sum_cons] at h2
      omega
  rw [Fintype.sum_eq_single ⟨[], by simp⟩ fun l hl => absurd (h l) hl]

theorem sum_segments_cons (h : n < L) (f : List (ℕ × Fin C) → R) : ∑ l : Segments (K1 + 1) C n L, f l.1 =
    ∑ k : Fin K1, ∑ c : Fin C, ∑ l : Segments (K1 + 1) C (n + (k + 1)) L, f (((k : ℕ) + 1, c) :: l.1) := by
  let T := Σ k : Fin K1, Σ _ : Fin C, Segments (K1 + 1) C (n + (k + 1)) L
  have e : ∑ k : Fin K1, ∑ c : Fin C, ∑ l : Segments (K1 + 1) C (n + (k + 1)) L, f (((k : ℕ) + 1, c) :: l.1) =
      ∑ x : T, f (((x.1 : ℕ) + 1, x.2.1) :: x.2.2.1) := by
    simp only [T, Fintype.sum_sigma]
  rw [e]
  symm
  refine Fintype.sum_bijective (fun x : T => (⟨((x.1 : ℕ) + 1, x.2.1) :: x.2.2.1, ?_⟩ : Segments (K1 + 1) C n L)) ⟨?_, ?_⟩ _ _ fun _ => rfl
  · obtain ⟨k, c, l, h1, h2⟩ := x
    have hk := k.2
    refine ⟨?_, ?_⟩
    · intro s hs
      rcases List.mem_cons.1 hs with rfl | hs
      · simp only; omega
      · exact h1 s hs
    · simp only [List.map_cons, List.sum_cons]; omega
  · rintro ⟨⟨k, hk⟩, c, ⟨l, hl⟩⟩ ⟨⟨k', hk'⟩, c', ⟨l', hl'⟩⟩ he
    simp only [Subtype.mk.injEq, List.cons.injEq, Prod.mk.injEq, add_left_inj] at he
    obtain ⟨⟨rfl, rfl⟩, rfl⟩ := he
    rfl
  · rintro ⟨l, h1, h2⟩
    cases l with
    | nil => simp at h2; omega
    | cons s l =>
      have h3 := h1 s List.mem_cons_self
      simp only [List.map_cons, List.sum_cons] at h2
      refine ⟨⟨⟨s.1 - 1, by omega⟩, s.2, ⟨l, fun t ht => h1 t (List.mem_cons_of_mem _ ht), ?_⟩⟩, ?_⟩
      · simp only; omega
      · simp only [Subtype.mk.injEq, List.cons.injEq, and_true]
        rw [Nat.sub_add_cancel h3.1]

theorem segments_length {K : ℕ} (l : Segments K C n L) : n + l.1.length ≤ L := by
  obtain ⟨l, h1, h2⟩ := l
  have : l.length ≤ (l.map Prod.fst).sum := by
    clear h2
    induction l with
    | nil => simp
    | cons s l ih =>
      have h3 := h1 s List.mem_cons_self
      have h4 := ih fun t ht => h1 t (List.mem_cons_of_mem _ ht)
      simp only [List.length_cons, List.map_cons, List.sum_cons]; omega
  simp only; omega

end segments

/-! ### The cells of the chart -/

/-- The entry of the potentials of a segment of row `b`. -/
def entry (b : ℕ) {C : ℕ} (s : ℕ × ℕ × Fin C × Fin C) : List ℕ := [b, s.1, s.2.1, s.2.2.1, s.2.2.2]

/-- The factors of the entry `(i, j)` of matrix `n`, for a row `b` of `L` steps in a table of `N - 1` positions. -/
def cell (K1 C N L b n : ℕ) (i j : Fin (K1 * C)) : List Atom :=
  if (j.divNat : ℕ) = 0 then
    [if n < L then .zero else if (i.divNat : ℕ) = 0 ∧ i.modNat = j.modNat then .one else .zero,
     if n < N - 1 then if n < L then .pot (entry b (n, i.divNat + 1, i.modNat, j.modNat))
       else .masked (entry b (n, i.divNat + 1, i.modNat, j.modNat)) else .zero]
  else [if (i.divNat : ℕ) + 1 = j.divNat ∧ i.modNat = j.modNat ∧ n + j.divNat ≤ L then .one else .zero]

theorem written_apply {α : Type} (S : SR α) (N binN : ℕ) (lens : ℕ → ℕ) (lp : ℕ → ℕ → ℕ → ℕ → ℕ → α) (b n k1 k2 c1 c2 : ℕ) (hn : n < binN) :
    SemiMarkov.written S N binN lens lp b n k1 k2 c1 c2 =
      if k2 = 0 then S.sum [S.detach (S.setData (SemiMarkov.chartInit S b n k1 k2 c1 c2)
          (SR.fill (S.detach (SemiMarkov.chartInit S b n k1 k2 c1 c2)) (!decide (n ≥ lens b - 1)) S.zero)),
        S.setData (SemiMarkov.big S N lp b n (k1 + 1) c1 c2)
          (SR.fill (S.detach (SemiMarkov.big S N lp b n (k1 + 1) c1 c2)) (decide (n ≥ lens b - 1)) S.zero)]
      else SemiMarkov.chartInit S b n k1 k2 c1 c2 := by
  have h1 : (b * binN + n) / binN = b := by
    rw [Nat.mul_comm, Nat.mul_add_div (by omega), Nat.div_eq_of_lt hn]; simp
  have h2 : (b * binN + n) % binN = n := by
    rw [Nat.mul_comm, Nat.mul_add_mod, Nat.mod_eq_of_lt hn]
  simp only [SemiMarkov.written, Struct.unflat, Struct.flat, LinearChain.lengthMask, h1, h2]
  split_ifs <;> rfl

variable {α R : Type} [CommSemiring R] {S : SR α} {ρ : α → R → Prop} {ζ ω : R}

theorem chart_rel (H : SRRel S ρ) (T : Tame S ρ ζ ω) {K1 C N binN b n : ℕ} (lens : ℕ → ℕ) (hL : lens b - 1 ≤ N - 1)
    (x : List ℕ → α) {wp wm : List ℕ → R}
    (hp : ∀ n k (c c' : Fin C), n < lens b - 1 → k < K1 → ρ (x (entry b (n, k + 1, c, c'))) (wp (entry b (n, k + 1, c, c'))))
    (hm : ∀ e, ρ (S.setData (x e) S.zero) (wm e)) (hn : n < binN) (i j : Fin (K1 * C)) :
    ρ (SemiMarkov.chart S K1 C N binN lens (fun b n k c c' => x [b, n, k, c, c']) b n i j)
      (((cell K1 C N (lens b - 1) b n i j).map (Atom.weight wp wm ζ ω)).sum) := by
  unfold SemiMarkov.chart SemiMarkov.decremented
  rw [written_apply _ _ _ _ _ _ _ _ _ _ _ hn]
  by_cases hj : (j.divNat : ℕ) = 0
  · have h1 : decide ((i.divNat : ℕ) + 1 = j.divNat ∧ (i.modNat : ℕ) = j.modNat ∧ n + j.divNat < lens b) = false := by
      rw [decide_eq_false_iff_not]; omega
    rw [h1, SR.fill, if_neg (by simp), if_pos hj, cell, if_pos hj]
    simp only [List.map_cons, List.map_nil, List.sum_cons, List.sum_nil, add_zero]
    refine H.sum2 ?_ ?_
    · unfold SemiMarkov.chartInit
      by_cases hl : n < lens b - 1
      · have h2 : decide (n ≥ lens b - 1) = false := by rw [decide_eq_false_iff_not]; omega
        rw [h2, if_pos hl]
        simp only [Bool.not_false, SR.fill, if_true]
        split_ifs
        · exact T.doz
        · exact T.dzz
      · have h2 : decide (n ≥ lens b - 1) = true := by rw [decide_eq_true_iff]; omega
        rw [h2, if_neg hl]
        simp only [Bool.not_true, SR.fill, Bool.false_eq_true, if_false, decide_eq_true_eq]
        by_cases hc : (i.divNat : ℕ) = 0 ∧ i.modNat = j.modNat
        · rw [if_pos ⟨hc.1, hj, congrArg Fin.val hc.2⟩, if_pos hc]
          exact T.dok
        · rw [if_neg fun h => hc ⟨h.1, Fin.ext h.2.2⟩, if_neg hc]
          exact T.dzk
    · unfold SemiMarkov.big
      by_cases hN : n < N - 1
      · rw [if_pos hN, if_pos hN]
        by_cases hl : n < lens b - 1
        · have h2 : decide (n ≥ lens b - 1) = false := by rw [decide_eq_false_iff_not]; omega
          rw [h2, if_pos hl]
          simp only [SR.fill, Bool.false_eq_true, if_false]
          exact T.keep (hp n i.divNat i.modNat j.modNat hl i.divNat.2)
        · have h2 : decide (n ≥ lens b - 1) = true := by rw [decide_eq_true_iff]; omega
          rw [h2, if_neg hl]
          simp only [SR.fill, if_true]
          exact hm _
      · rw [if_neg hN, if_neg hN]
        have h2 : decide (n ≥ lens b - 1) = true := by rw [decide_eq_true_iff]; omega
        rw [h2]
        simp only [SR.fill, if_true]
        exact T.raw
  · rw [if_neg hj, cell, if_neg hj]
    simp only [List.map_cons, List.map_nil, List.sum_cons, List.sum_nil, add_zero, SR.fill, decide_eq_true_eq]
    by_cases hc : (i.divNat : ℕ) + 1 = j.divNat ∧ i.modNat = j.modNat ∧ n + j.divNat ≤ lens b - 1
    · rw [if_pos ⟨hc.1, congrArg Fin.val hc.2.1, by omega⟩, if_pos hc]
      exact T.one
    · rw [if_neg fun h => hc ⟨h.1, Fin.ext h.2.1, by omega⟩, if_neg hc]
      unfold SemiMarkov.chartInit
      rw [SR.fill, if_neg (by rw [decide_eq_true_iff]; exact fun h => hj h.2.1)]
      exact T.zero

/-! ### The sum over segmentations -/

section real
variable {K1 C N L M b : ℕ} (wp : List ℕ → R) (ω : R)

/-- The weight of the segments from `n` to `L` after class `c`, with one factor `ω` for every step up to `M` at which no segment starts. -/
def tail (K1 C L M b n : ℕ) (wp : List ℕ → R) (ω : R) (c : Fin C) : R :=
  ∑ l : Segments (K1 + 1) C n L, ((segEdges n c l.1).map fun s => wp (entry b s)).prod * ω ^ (M - n - l.1.length)

theorem tail_gt (h : L < n) (c : Fin C) : tail K1 C L M b n wp ω c = 0 := by
  have := segments_empty (C := C) (K1 + 1) h
  simp [tail]

theorem tail_self (c : Fin C) : tail K1 C L M b L wp ω c = ω ^ (M - L) := by
  rw [tail, sum_segments_self (K1 + 1) fun l => ((segEdges L c l).map fun s => wp (entry b s)).prod * ω ^ (M - L - l.length)]
  simp [segEdges]

theorem tail_lt (hM : L ≤ M) (h : n < L) (c : Fin C) : tail K1 C L M b n wp ω c =
    ∑ k : Fin K1, ∑ c' : Fin C, (ω ^ (k : ℕ) * tail K1 C L M b (n + (k + 1)) wp ω c') * wp (entry b (n, k + 1, c', c)) := by
  rw [tail, sum_segments_cons h fun l => ((segEdges n c l).map fun s => wp (entry b s)).prod * ω ^ (M - n - l.length)]
  refine sum_congr rfl fun k _ => sum_congr rfl fun c' _ => ?_
  rw [tail, mul_sum, sum_mul]
  refine sum_congr rfl fun l _ => ?_
  have := segments_length l
  simp only [segEdges, List.map_cons, List.prod_cons, List.length_cons]
  have e : M - n - (l.1.length + 1) = k + (M - (n + (k + 1)) - l.1.length) := by omega
  rw [e, pow_add]
  ring

/-- The state with remaining length `k` and class `c`. -/
def state (k : Fin K1) (c : Fin C) : Fin (K1 * C) := finProdFinEquiv (k, c)

@[simp] theorem divNat_state (k : Fin K1) (c : Fin C) : (state k c).divNat = k :=
  congrArg Prod.fst (finProdFinEquiv.symm_apply_apply (k, c))

@[simp] theorem modNat_state (k : Fin K1) (c : Fin C) : (state k c).modNat = c :=
  congrArg Prod.snd (finProdFinEquiv.symm_apply_apply (k, c))

theorem sum_states {A : Type} [AddCommMonoid A] (f : Fin (K1 * C) → A) : ∑ i, f i = ∑ k : Fin K1, ∑ c : Fin C, f (state k c) := by
  rw [← finProdFinEquiv.sum_comp, Fintype.sum_prod_type]
  rfl

/-- The weights of the real paths. -/
def w0 (K1 C N L b : ℕ) (wp : List ℕ → R) (ω : R) (n : ℕ) (i j : Fin (K1 * C)) : R :=
  ((cell K1 C N L b n i j).map (Atom.weight wp 0 0 ω)).sum

theorem backward (hK : 0 < K1) (hN : L ≤ N - 1) (hM : L ≤ M) (n : ℕ) (hn : n ≤ M) (k : Fin K1) (c : Fin C) :
    ∑ c' : Fin C, segProd (w0 K1 C N L b wp ω) n (M - n) (state ⟨0, hK⟩ c') (state k c) =
      if (k : ℕ) = 0 ∧ L ≤ n then ω ^ (M - n) else ω ^ (k : ℕ) * tail K1 C L M b (n + k) wp ω c := by
  induction h : M - n generalizing n k c with
  | zero =>
    obtain rfl : n = M := by omega
    simp only [segProd, Matrix.one_apply]
    by_cases hk : (k : ℕ) = 0
    · rw [if_pos ⟨hk, hM⟩, pow_zero]
      obtain rfl : k = ⟨0, hK⟩ := Fin.ext hk
      rw [sum_eq_single c]
      · simp
      · intro c' _ hc
        refine if_neg fun h => hc ?_
        have := congrArg Fin.modNat h
        simpa using this
      · simp
    · rw [if_neg fun h => hk h.1, tail_gt _ _ (by omega), mul_zero]
      refine sum_eq_zero fun c' _ => if_neg fun h => hk ?_
      have := congrArg (fun i => (Fin.divNat i : ℕ)) h
      simp only [divNat_state] at this
      exact this.symm
  | succ m ih =>
    have step : ∑ c' : Fin C, segProd (w0 K1 C N L b wp ω) n (m + 1) (state ⟨0, hK⟩ c') (state k c) =
        ∑ k' : Fin K1, ∑ c1 : Fin C, (if (k' : ℕ) = 0 ∧ L ≤ n + 1 then ω ^ m else ω ^ (k' : ℕ) * tail K1 C L M b (n + 1 + k') wp ω c1) *
          w0 K1 C N L b wp ω n (state k' c1) (state k c) := by
      have e : segProd (w0 K1 C N L b wp ω) n (m + 1) = segProd (w0 K1 C N L b wp ω) (n + 1) m * Matrix.of (w0 K1 C N L b wp ω n) := by
        rw [add_comm m 1, segProd_add]; congr 1; simp [segProd]
      rw [e]
      simp only [Matrix.mul_apply, Matrix.of_apply]
      rw [sum_comm, sum_states]
      refine sum_congr rfl fun k' _ => sum_congr rfl fun c1 _ => ?_
      have h2 : M - (n + 1) = m := by omega
      rw [← sum_mul, ih (n + 1) (by omega) k' c1 h2]
    rw [step]
    by_cases hk : (k : ℕ) = 0
    · by_cases hl : L ≤ n
      · rw [if_pos ⟨hk, hl⟩]
        have hw : ∀ (k' : Fin K1) (c1 : Fin C), w0 K1 C N L b wp ω n (state k' c1) (state k c) = if (k' : ℕ) = 0 ∧ c1 = c then ω else 0 := by
          intro k' c1
          rw [w0, cell]
          simp only [divNat_state, modNat_state, if_pos hk, if_neg (not_lt.2 hl)]
          split_ifs <;> simp [Atom.weight]
        simp only [hw]
        rw [sum_eq_single ⟨0, hK⟩, sum_eq_single c]
        · rw [if_pos ⟨rfl, by omega⟩, if_pos ⟨rfl, rfl⟩, pow_succ]
        · intro c1 _ hc
          rw [if_neg fun h : _ ∧ c1 = c => hc h.2, mul_zero]
        · simp
        · intro k' _ hk'
          refine sum_eq_zero fun c1 _ => ?_
          rw [if_neg (fun h : (k' : ℕ) = 0 ∧ c1 = c => hk' (Fin.ext h.1)), mul_zero]
        · simp
      · rw [if_neg fun h => hl h.2, hk, pow_zero, one_mul, add_zero, tail_lt _ _ hM (by omega)]
        refine sum_congr rfl fun k' _ => sum_congr rfl fun c1 _ => ?_
        have hw : w0 K1 C N L b wp ω n (state k' c1) (state k c) = wp (entry b (n, k' + 1, c1, c)) := by
          rw [w0, cell]
          simp only [divNat_state, modNat_state, if_pos hk, if_pos (not_le.1 hl), if_pos (lt_of_lt_of_le (not_le.1 hl) hN)]
          simp [Atom.weight]
        rw [hw]
        congr 1
        have e : n + (k' + 1) = n + 1 + (k' : ℕ) := by omega
        rw [e]
        split_ifs with hc
        · obtain rfl : L = n + 1 := by omega
          rw [hc.1, add_zero, tail_self, pow_zero, one_mul]
          congr 1; omega
        · rfl
    · rw [if_neg fun h => hk h.1]
      have hw : ∀ (k' : Fin K1) (c1 : Fin C), w0 K1 C N L b wp ω n (state k' c1) (state k c) =
          if (k' : ℕ) + 1 = k ∧ c1 = c ∧ n + k ≤ L then ω else 0 := by
        intro k' c1
        rw [w0, cell]
        simp only [divNat_state, modNat_state, if_neg hk]
        split_ifs <;> simp [Atom.weight]
      simp only [hw]
      by_cases hl : n + (k : ℕ) ≤ L
      · have hk' : (k : ℕ) - 1 < K1 := by have := k.2; omega
        rw [sum_eq_single ⟨(k : ℕ) - 1, hk'⟩, sum_eq_single c]
        · rw [if_pos (c := ((⟨(k : ℕ) - 1, hk'⟩ : Fin K1) : ℕ) + 1 = k ∧ c = c ∧ n + k ≤ L) ⟨by simp only; omega, rfl, hl⟩]
          have e2 : n + 1 + ((k : ℕ) - 1) = n + k := by omega
          have e3 : (k : ℕ) = (k : ℕ) - 1 + 1 := by omega
          simp only [e2]
          split_ifs with hc
          · obtain rfl : L = n + k := by omega
            rw [tail_self, e3, hc.1]
            have : M - (n + (0 + 1)) = m := by omega
            rw [this, ← pow_add, ← pow_succ]; congr 1; omega
          · rw [mul_right_comm, ← pow_succ, ← e3]
        · intro c1 _ hc
          rw [if_neg (fun h : _ ∧ c1 = c ∧ _ => hc h.2.1), mul_zero]
        · simp
        · intro k' _ hk''
          refine sum_eq_zero fun c1 _ => ?_
          rw [if_neg (c := (k' : ℕ) + 1 = k ∧ c1 = c ∧ n + k ≤ L) (fun h => hk'' (Fin.ext (by simp only; omega))), mul_zero]
        · simp
      · rw [tail_gt _ _ (by omega), mul_zero]
        refine sum_eq_zero fun k' _ => sum_eq_zero fun c1 _ => ?_
        rw [if_neg (c := (k' : ℕ) + 1 = k ∧ c1 = c ∧ n + k ≤ L) (fun h => hl h.2.2), mul_zero]

/-- The entries used by a segmentation of row `b`. -/
def segParts (b : ℕ) {K C L : ℕ} (y : Segmentation K C L) : Multiset (List ℕ) := ((segEdges 0 y.1 y.2.1).map (entry b) : List (List ℕ))

theorem real_eq (hK : 0 < K1) (hN : L ≤ N - 1) (hM : L ≤ M) :
    ∑ i : Fin C, ∑ j : Fin C, segProd (w0 K1 C N L b wp ω) 0 M (state ⟨0, hK⟩ i) (state ⟨0, hK⟩ j) =
      ∑ y : Segmentation (K1 + 1) C L, ((segParts b y).map wp).prod * ω ^ (M - y.2.1.length) := by
  rw [sum_comm, Fintype.sum_prod_type]
  refine sum_congr rfl fun c _ => ?_
  have := backward wp ω (b := b) hK hN hM 0 (Nat.zero_le _) ⟨0, hK⟩ c
  simp only [Nat.sub_zero] at this
  rw [this]
  have e : tail K1 C L M b 0 wp ω c = ∑ l : Segments (K1 + 1) C 0 L, ((segParts b (c, l)).map wp).prod * ω ^ (M - l.1.length) := by
    refine sum_congr rfl fun l _ => ?_
    rw [segParts, Multiset.map_coe, Multiset.prod_coe, List.map_map]
    rfl
  rw [← e]
  split_ifs with h
  · obtain rfl : L = 0 := by omega
    rw [tail_self]; rfl
  · rw [pow_zero, one_mul]

end real

/-! ### The segments of a segmentation -/

theorem segEdges_mem {K C : ℕ} : ∀ (l : List (ℕ × Fin C)) (n : ℕ) (c : Fin C), (∀ s ∈ l, 1 ≤ s.1 ∧ s.1 < K) →
    ∀ e ∈ segEdges n c l, n ≤ e.1 ∧ 1 ≤ e.2.1 ∧ e.2.1 < K ∧ e.1 + e.2.1 ≤ n + (l.map Prod.fst).sum
  | [], _, _, _, e, he => by simp [segEdges] at he
  | s :: l, n, c, h, e, he => by
    have h1 := h s List.mem_cons_self
    simp only [segEdges, List.mem_cons] at he
    simp only [List.map_cons, List.sum_cons]
    rcases he with rfl | he
    · simp only; omega
    · have := segEdges_mem l (n + s.1) s.2 (fun t ht => h t (List.mem_cons_of_mem _ ht)) e he
      omega

theorem segEdges_starts {K C : ℕ} : ∀ (l : List (ℕ × Fin C)) (n : ℕ) (c : Fin C), (∀ s ∈ l, 1 ≤ s.1 ∧ s.1 < K) →
    ((segEdges n c l).map Prod.fst).Nodup
  | [], _, _, _ => by simp [segEdges]
  | s :: l, n, c, h => by
    have h1 := h s List.mem_cons_self
    simp only [segEdges, List.map_cons, List.nodup_cons]
    refine ⟨?_, segEdges_starts l (n + s.1) s.2 fun t ht => h t (List.mem_cons_of_mem _ ht)⟩
    intro hc
    obtain ⟨e, he, h2⟩ := List.mem_map.1 hc
    have := segEdges_mem l (n + s.1) s.2 (fun t ht => h t (List.mem_cons_of_mem _ ht)) e he
    omega

theorem segEdges_length {C : ℕ} : ∀ (l : List (ℕ × Fin C)) (n : ℕ) (c : Fin C), (segEdges n c l).length = l.length
  | [], _, _ => rfl
  | s :: l, n, c => by simp [segEdges, segEdges_length l]

theorem entry_injective (b : ℕ) {C : ℕ} : Function.Injective (entry b (C := C)) := by
  rintro ⟨n, k, c, c'⟩ ⟨n', k', d, d'⟩ h
  simp only [entry, List.cons.injEq, and_true, true_and] at h
  obtain ⟨rfl, rfl, h1, h2⟩ := h
  rw [Fin.ext h1, Fin.ext h2]

theorem segParts_nodup (b : ℕ) {K C L : ℕ} (y : Segmentation K C L) : (segParts b y).Nodup := by
  rw [segParts, Multiset.coe_nodup]
  exact (List.Nodup.of_map _ (segEdges_starts _ _ _ y.2.2.1)).map (entry_injective b)

theorem segParts_card (b : ℕ) {K C L : ℕ} (y : Segmentation K C L) : Multiset.card (segParts b y) ≤ L := by
  rw [segParts, Multiset.coe_card, List.length_map, segEdges_length]
  have := segments_length y.2
  omega

theorem nonempty_segments {K C : ℕ} (hK : 2 ≤ K) (hC : 1 ≤ C) (L : ℕ) : Nonempty (Segmentation K C L) := by
  refine ⟨⟨⟨0, hC⟩, List.replicate L (1, ⟨0, hC⟩), ?_, ?_⟩⟩
  · intro s hs
    obtain rfl := List.eq_of_mem_replicate hs
    simp only; omega
  · simp

/-! ### The batch -/

/-- Reading a table by index. -/
def at5 {γ : Type} (p : T5 γ) (e : List ℕ) : γ := p.get (e.getD 0 0) (e.getD 1 0) (e.getD 2 0) (e.getD 3 0) (e.getD 4 0)

/-- The shape of the inputs: at least one row, at least one class, at least two positions, `K ≥ 2`. -/
structure Valid {γ : Type} (p : T5 γ) (lengths : Option (List ℕ)) : Prop where
  rows : 1 ≤ p.d0
  square : p.d3 = p.d4
  classes : 1 ≤ p.d3
  positions : 1 ≤ p.d1
  segs : 2 ≤ p.d2
  lens : ValidLengths p.d0 (p.d1 + 1) lengths

/-- The number of steps of row `b`. -/
def steps {γ : Type} (p : T5 γ) (lengths : Option (List ℕ)) (b : ℕ) : ℕ := lenOf (p.d1 + 1) lengths b - 1

theorem max?_eq {l : List ℕ} {N : ℕ} (h1 : ∀ x ∈ l, x ≤ N) (h2 : N ∈ l) : l.max? = some N := by
  rw [List.max?_eq_some_iff]
  exact ⟨h2, h1⟩

theorem checkPotentials_ok {γ : Type} (p : T5 γ) (lengths : Option (List ℕ)) (h : Valid p lengths) :
    SemiMarkov.checkPotentials p lengths = .ok (LinearChain.lensOr p.d0 (p.d1 + 1) lengths) := by
  have hl := h.lens
  have hr := h.rows
  have hm : (LinearChain.lensOr p.d0 (p.d1 + 1) lengths).max? = some (p.d1 + 1) := by
    cases lengths with
    | none => exact max?_eq (fun x hx => (List.eq_of_mem_replicate hx).le) (List.mem_replicate.mpr ⟨by omega, rfl⟩)
    | some l => exact max?_eq hl.2.1 hl.2.2
  simp [SemiMarkov.checkPotentials, hm, h.square]

theorem lensOr_length {B N : ℕ} {lengths : Option (List ℕ)} (h : ValidLengths B N lengths) : (LinearChain.lensOr B N lengths).length = B := by
  cases lengths with
  | none => exact List.length_replicate
  | some l => exact h.1

theorem lensOr_getD {B N : ℕ} (lengths : Option (List ℕ)) (b : ℕ) (hb : b < B) : (LinearChain.lensOr B N lengths).getD b 0 = lenOf N lengths b := by
  cases lengths with
  | none => simp [LinearChain.lensOr, lenOf, hb]
  | some l => rfl

theorem logpartition_ok {α : Type} (S : SR α) (p : T5 α) (lengths : Option (List ℕ)) (h : Valid p lengths) (hK : 0 < p.d2 - 1) :
    SemiMarkov.logpartition S p lengths =
      .ok ((List.range p.d0).map fun b => SemiMarkov.core S p.d3 hK (p.d1 + 1) (Nat.clog 2 p.d1)
        (fun b => (LinearChain.lensOr p.d0 (p.d1 + 1) lengths).getD b 0) p.get b) := by
  have hp := h.positions
  have hs := h.segs
  have h4 : Struct.binLength p.d1 = .ok (Nat.clog 2 p.d1, 2 ^ Nat.clog 2 p.d1) := by rw [Struct.binLength, if_neg (by omega)]
  rw [SemiMarkov.logpartition, checkPotentials_ok p lengths h]
  simp only [bind, Except.bind, h4]
  rw [if_neg (by omega), dif_pos hK, if_pos (lensOr_length h.lens)]

/-- The entries of the potentials of row `b`: segments inside its steps. -/
def Entry {γ : Type} (p : T5 γ) (lengths : Option (List ℕ)) (b : ℕ) (e : List ℕ) : Prop :=
  ∃ (n k : ℕ) (c c' : Fin p.d3), e = entry b (n, k, c, c') ∧ n < steps p lengths b ∧ 1 ≤ k ∧ k < p.d2

/-- The factors of the chart of row `b`. -/
def cells {γ : Type} (p : T5 γ) (lengths : Option (List ℕ)) (b : ℕ) : ℕ → Fin ((p.d2 - 1) * p.d3) → Fin ((p.d2 - 1) * p.d3) → List Atom :=
  cell (p.d2 - 1) p.d3 (p.d1 + 1) (steps p lengths b) b

/-- The final states. -/
def finals {γ : Type} (p : T5 γ) (hK : 0 < p.d2 - 1) : Fin p.d3 → Fin ((p.d2 - 1) * p.d3) := state ⟨0, hK⟩

/-- The phantoms of row `b`. -/
abbrev Ph {γ : Type} (p : T5 γ) (lengths : Option (List ℕ)) (hK : 0 < p.d2 - 1) (b : ℕ) : Type :=
  AtomChain.Phantom (finals p hK) (cells p lengths b) (2 ^ Nat.clog 2 p.d1)

theorem lenOf_le {B N : ℕ} {lengths : Option (List ℕ)} (h : ValidLengths B N lengths) (b : ℕ) : lenOf N lengths b ≤ N :=
  LinearChainProofs.lenOf_le h b

theorem steps_le {γ : Type} {p : T5 γ} {lengths : Option (List ℕ)} (h : Valid p lengths) (b : ℕ) :
    steps p lengths b ≤ p.d1 ∧ steps p lengths b ≤ 2 ^ Nat.clog 2 p.d1 := by
  have h1 := LinearChainProofs.lenOf_le h.lens b
  have h2 : p.d1 ≤ 2 ^ Nat.clog 2 p.d1 := Nat.le_pow_clog Nat.one_lt_two _
  unfold steps
  omega

theorem potE {γ : Type} {p : T5 γ} {lengths : Option (List ℕ)} (b n : ℕ) (i j : Fin ((p.d2 - 1) * p.d3)) (e : List ℕ)
    (h : Atom.pot e ∈ cells p lengths b n i j) : n < steps p lengths b ∧ Entry p lengths b e := by
  unfold cells cell at h
  have hi := i.divNat.2
  split_ifs at h <;> simp at h
  rename_i h1 h2 h3
  exact ⟨h2, n, i.divNat + 1, i.modNat, j.modNat, h, h2, by omega, by omega⟩

theorem cell_link {K1 C N L b n : ℕ} {i j : Fin (K1 * C)} {a : Atom} (h : a ∈ cell K1 C N L b n i j) {e : List ℕ} (he : a.link = some e) :
    e = entry b (n, i.divNat + 1, i.modNat, j.modNat) := by
  unfold cell at h
  split_ifs at h <;> simp at h
  all_goals rcases h with rfl | rfl <;> simp_all [Atom.link]

theorem cell_length (K1 C N L b n : ℕ) (i j : Fin (K1 * C)) : (cell K1 C N L b n i j).length ≤ 2 := by
  unfold cell
  split_ifs <;> simp

theorem batchDP {γ : Type} (p : T5 γ) (lengths : Option (List ℕ)) (h : Valid p lengths) (hK : 0 < p.d2 - 1) :
    Generic.BatchDP SemiMarkov.algo p lengths p.d0 (at5 p) (Entry p lengths) (ι := fun b => Segmentation p.d2 p.d3 (steps p lengths b))
      (π := Ph p lengths hK) (fun b => segParts b) (fun _ y => 2 ^ Nat.clog 2 p.d1 - y.2.1.length) (fun _ => AtomChain.Phantom.atoms) where
  rows := by
    refine ⟨fun b α S x => SemiMarkov.core S p.d3 hK (p.d1 + 1) (Nat.clog 2 p.d1)
        (fun b => (LinearChain.lensOr p.d0 (p.d1 + 1) lengths).getD b 0) (fun b n k c c' => x [b, n, k, c, c']) b, ?_, ?_⟩
    · intro α S f
      exact logpartition_ok S (⟨p.d0, p.d1, p.d2, p.d3, p.d4, fun b n k c c' => f (p.get b n k c c') [b, n, k, c, c']⟩ : T5 α) lengths
        ⟨h.rows, h.square, h.classes, h.positions, h.segs, h.lens⟩ hK
    · intro b hb
      have hlen : (LinearChain.lensOr p.d0 (p.d1 + 1) lengths).getD b 0 - 1 = steps p lengths b := by
        rw [lensOr_getD lengths b hb]; rfl
      have hst := steps_le h b
      have hd : p.d2 - 1 + 1 = p.d2 := by omega
      refine AtomChain.rowDP ?_ ?_ ?_ ?_ ?_ ?_
      · intro α R _ S ρ ζ ω H T x wp wm hp hm
        refine AtomChain.scan_total_rel (st := finals p hK) H h.classes (Nat.mul_pos hK h.classes) _ _ _ ?_
        intro n hn i j
        have := chart_rel (b := b) (N := p.d1 + 1) H T (fun b => (LinearChain.lensOr p.d0 (p.d1 + 1) lengths).getD b 0) (by rw [hlen]; omega) x
          (wp := wp) (wm := wm) (C := p.d3) (K1 := p.d2 - 1)
          (fun n k c c' hn hk => hp _ ⟨n, k + 1, c, c', rfl, by rw [← hlen]; exact hn, by omega, by omega⟩) hm hn i j
        rw [hlen] at this
        exact this
      · intro R _ wp ω
        have := real_eq wp ω (b := b) (C := p.d3) hK (N := p.d1 + 1) (L := steps p lengths b) (by omega) hst.2
        rw [hd] at this
        exact this
      · intro y e he
        rw [segParts, Multiset.mem_coe, List.mem_map] at he
        obtain ⟨s, hs, rfl⟩ := he
        have h1 := segEdges_mem y.2.1 0 y.1 y.2.2.1 s hs
        have h2 := y.2.2.2
        exact ⟨s.1, s.2.1, s.2.2.1, s.2.2.2, rfl, by omega, h1.2.1, h1.2.2.1⟩
      · intro n i j e _ he
        exact (potE b n i j e he).2
      · rintro e ⟨n, k, c, c', rfl, -⟩; rfl
      · intro n i j e _ he
        rw [cell_link he (e := e) rfl]; rfl
  map_fst _ := rfl
  map_id := rfl

end SemiMarkovProofs
