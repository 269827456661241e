import Mathlib.Tactic.Ring
import Mathlib.Data.List.GetD
import Mathlib.Tactic.Linarith
import Verif.Proofs.Chain
import Verif.Spec.Lengths

/-! `LinearChain.core` over a raw semiring is related to an explicit sum over tag sequences. -/

open Finset Spec LinearChain ChainProofs Struct

namespace LinearChainProofs
variable {α R : Type} [CommSemiring R] {C : ℕ}

theorem unflat_flat {β : Type} (n : ℕ) (x : ℕ → ℕ → β) (b i : ℕ) (h : i < n) :
    unflat n (flat n x) b i = x b i := by
  unfold unflat flat
  have h1 : (b * n + i) / n = b := by
    rw [Nat.mul_comm, Nat.mul_add_div (by omega), Nat.div_eq_of_lt h]; simp
  have h2 : (b * n + i) % n = i := by
    rw [Nat.mul_comm, Nat.mul_add_mod, Nat.mod_eq_of_lt h]
  rw [h1, h2]

/-- The two summands that line 79 adds, at one entry. -/
def maskedC (S : SR α) (len n : ℕ) (i j : Fin C) : α :=
  S.detach (S.setData (SR.fill S.zero (decide (i = j)) S.one)
    (SR.fill (S.detach (SR.fill S.zero (decide (i = j)) S.one)) (!decide (n ≥ len - 1)) S.zero))

/-- see `maskedC`. -/
def maskedL (S : SR α) (N len : ℕ) (lp : ℕ → Fin C → Fin C → α) (n : ℕ) (i j : Fin C) : α :=
  S.setData (if n < N - 1 then lp n i j else S.raw0)
    (SR.fill (S.detach (if n < N - 1 then lp n i j else S.raw0)) (decide (n ≥ len - 1)) S.zero)

theorem masked_apply (S : SR α) (N binN : ℕ) (lens : ℕ → ℕ) (lp : ℕ → ℕ → Fin C → Fin C → α) (b n : ℕ)
    (hn : n < binN) (i j : Fin C) :
    masked S N binN lens lp b n i j =
      S.sum [maskedC S (lens b) n i j, maskedL S N (lens b) (lp b) n i j] := by
  have h1 : (b * binN + n) / binN = b := by
    rw [Nat.mul_comm, Nat.mul_add_div (by omega), Nat.div_eq_of_lt hn]; simp
  have h2 : (b * binN + n) % binN = n := by
    rw [Nat.mul_comm, Nat.mul_add_mod, Nat.mod_eq_of_lt hn]
  simp only [masked, unflat, flat, lengthMask, chartInit, big, h1, h2, maskedC, maskedL]

theorem core_rel {S : SR α} {ρ : α → R → Prop} (H : SRRel S ρ) (hC : 0 < C) (N logN : ℕ) (lens : ℕ → ℕ)
    (lp : ℕ → ℕ → Fin C → Fin C → α) (b : ℕ) (w : ℕ → Fin C → Fin C → R)
    (h : ∀ n < 2 ^ logN, ∀ i j,
      ρ (S.sum [maskedC S (lens b) n i j, maskedL S N (lens b) (lp b) n i j]) (w n i j)) :
    ρ (core S N logN lens lp b) (chainSum (2 ^ logN) w) :=
  total_scan_rel H hC logN _ w fun n hn i j => by rw [masked_apply _ _ _ _ _ _ _ hn]; exact h n hn i j

/-- Value-level semirings: `.data` has no effect beyond the value. -/
structure Plain (S : SR α) : Prop where
  detach : ∀ x, S.detach x = x
  setData : ∀ x v, S.setData x v = v

theorem chainSum_smooth (hC : 0 < C) (ζ : R) (φ : ℕ → Fin C → Fin C → R) (L M : ℕ) (hLM : L ≤ M) :
    chainSum M (fun n i j => if n < L then ζ + φ n i j else (if i = j then 1 else ζ) + ζ) =
      (1 + (2 * C - 1 : ℕ) * ζ) ^ (M - L) * chainSum L (fun n i j => φ n i j + ζ) := by
  obtain ⟨p, rfl⟩ := Nat.exists_eq_add_of_le hLM
  rw [chainSum_pad (s := 1 + (2 * C - 1 : ℕ) * ζ)]
  · congr 1
    · congr 1; omega
    · exact chainSum_congr fun n hn i j => by simp [hn, add_comm]
  · intro n h1 h2 j
    simp only [show ¬ n < L by omega, if_false]
    rw [Finset.sum_add_distrib, Finset.sum_ite, sum_const, sum_const, sum_const]
    have e1 : (univ.filter fun i : Fin C => i = j).card = 1 := by rw [filter_eq' univ j]; simp
    have e2 : (univ.filter fun i : Fin C => ¬ i = j).card = C - 1 := by
      rw [filter_ne' univ j, card_erase_of_mem (mem_univ _), card_univ, Fintype.card_fin]
    rw [e1, e2]
    simp only [card_univ, Fintype.card_fin, nsmul_eq_mul, Nat.cast_one, one_mul]
    obtain ⟨c, rfl⟩ : ∃ c, C = c + 1 := ⟨C - 1, by omega⟩
    have : 2 * (c + 1) - 1 = c + (c + 1) := by omega
    rw [this, Nat.add_sub_cancel]
    push_cast
    ring

theorem core_plain {S : SR α} {ρ : α → R → Prop} (H : SRRel S ρ) (P : Plain S) (hC : 0 < C) {N logN : ℕ}
    (hN : N - 1 ≤ 2 ^ logN) {lens : ℕ → ℕ} {lp : ℕ → ℕ → Fin C → Fin C → α} {b : ℕ} (hl : lens b ≤ N)
    {ζ : R} (hz : ρ S.zero ζ) (h1 : ρ S.one 1) (φ : ℕ → Fin C → Fin C → R)
    (hφ : ∀ n < lens b - 1, ∀ i j, ρ (lp b n i j) (φ n i j)) :
    ρ (core S N logN lens lp b)
      ((1 + (2 * C - 1 : ℕ) * ζ) ^ (2 ^ logN - (lens b - 1)) *
        chainSum (lens b - 1) (fun n i j => φ n i j + ζ)) := by
  rw [← chainSum_smooth hC ζ φ (lens b - 1) (2 ^ logN) (by omega)]
  apply core_rel H hC
  intro n hn i j
  simp only [maskedC, maskedL, P.detach, P.setData, SR.fill]
  by_cases hlt : n < lens b - 1
  · have : ¬ (n ≥ lens b - 1) := by omega
    simp only [hlt, this, decide_false, Bool.not_false, if_true, if_pos (show n < N - 1 by omega)]
    exact H.sum2 hz (hφ n hlt i j)
  · have : n ≥ lens b - 1 := by omega
    simp only [hlt, this, decide_true, Bool.not_true, if_true, if_false]
    refine H.sum2 ?_ hz
    by_cases hij : i = j
    · simpa [hij] using h1
    · simpa [hij] using hz

theorem scan_congr (S : SR α) (k : ℕ) : ∀ (c c' : ℕ → Fin C → Fin C → α) (M : ℕ),
    (∀ n < M * 2 ^ k, c n = c' n) → ∀ n < M, scan S k c n = scan S k c' n := by
  induction k with
  | zero => intro c c' M h n hn; simpa [scan] using h n (by simpa using hn)
  | succ k ih =>
    intro c c' M h n hn
    refine ih _ _ M (fun n hn => ?_) n hn
    have hb : 2 * n + 1 < M * 2 ^ (k + 1) := by rw [pow_succ, ← mul_assoc]; omega
    simp only [scanStep]
    rw [h _ hb, h (2 * n) (by omega)]

theorem core_congr (S : SR α) (N logN : ℕ) (lens lens' : ℕ → ℕ) (lp lp' : ℕ → ℕ → Fin C → Fin C → α) (b : ℕ)
    (hlen : lens b = lens' b)
    (h : ∀ n < 2 ^ logN, ∀ i j, maskedL S N (lens b) (lp b) n i j = maskedL S N (lens b) (lp' b) n i j) :
    core S N logN lens lp b = core S N logN lens' lp' b := by
  unfold core
  congr 1
  refine scan_congr S logN _ _ 1 (fun n hn => ?_) 0 (by omega)
  funext i j
  have hn' : n < 2 ^ logN := by omega
  rw [masked_apply _ _ _ _ _ _ _ hn', masked_apply _ _ _ _ _ _ _ hn', ← hlen, h n hn']

/-- Under valid arguments `logpartition` returns one `core` value per batch row. -/
theorem logpartition_ok (S : SR α) (edge : T4 α) (lengths : Option (List ℕ)) (hsq : edge.d2 = edge.d3)
    (hpos : 0 < edge.d1) (hl : ValidLengths edge.d0 (edge.d1 + 1) lengths) :
    logpartition S edge lengths = .ok ((List.range edge.d0).map fun b =>
      core S (C := edge.d2) (edge.d1 + 1) (Nat.clog 2 edge.d1) (lenOf (edge.d1 + 1) lengths)
        (fun b n i j => edge.get b n i j) b) := by
  have h0 : edge.d1 ≠ 0 := by omega
  cases lengths with
  | none =>
    simp only [logpartition, checkPotentials, hsq, binLength, h0, if_false, if_true, bind, Except.bind,
      List.length_replicate]
    congr 1
    apply List.map_congr_left
    intro b hb
    apply core_congr
    · simp only [lenOf]
      rw [List.getD_eq_getElem?_getD, List.getElem?_replicate]
      simp [List.mem_range.1 hb]
    · intros; rfl
  | some l =>
    obtain ⟨h1, h2, h3⟩ := hl
    have hm : l.max? = some (edge.d1 + 1) := by
      rw [List.max?_eq_some_iff]; exact ⟨h3, h2⟩
    simp only [logpartition, checkPotentials, hsq, binLength, h0, if_false, if_true, bind, Except.bind, hm, h1, le_refl]
    rfl

theorem lenOf_le {batch N : ℕ} {lengths : Option (List ℕ)} (hl : ValidLengths batch N lengths) (b : ℕ) :
    lenOf N lengths b ≤ N := by
  cases lengths with
  | none => exact le_rfl
  | some l =>
    obtain ⟨_, h2, _⟩ := hl
    simp only [lenOf]
    by_cases h : b < l.length
    · rw [List.getD_eq_getElem _ _ h]; exact h2 _ (List.getElem_mem h)
    · rw [List.getD_eq_default _ _ (by omega)]; omega

theorem le_two_pow_clog (n : ℕ) : n ≤ 2 ^ Nat.clog 2 n := Nat.le_pow_clog (by norm_num) n

/-- `logpartition` for value-level semirings, related to sums over tag sequences. -/
theorem logpartition_plain {S : SR α} {ρ : α → R → Prop} (H : SRRel S ρ) (P : Plain S) (edge : T4 α)
    (lengths : Option (List ℕ)) (hsq : edge.d2 = edge.d3) (hpos : 0 < edge.d1) (hC : 0 < edge.d2)
    (hl : ValidLengths edge.d0 (edge.d1 + 1) lengths) {ζ : R} (hz : ρ S.zero ζ) (h1 : ρ S.one 1)
    (φ : ℕ → ℕ → Fin edge.d2 → Fin edge.d2 → R)
    (hφ : ∀ b < edge.d0, ∀ n < lenOf (edge.d1 + 1) lengths b - 1, ∀ i j : Fin edge.d2, ρ (edge.get b n i j) (φ b n i j)) :
    ∃ vs, logpartition S edge lengths = .ok vs ∧ vs.length = edge.d0 ∧ ∀ b (hb : b < vs.length),
      ρ vs[b] ((1 + (2 * edge.d2 - 1 : ℕ) * ζ) ^ (2 ^ Nat.clog 2 edge.d1 - (lenOf (edge.d1 + 1) lengths b - 1)) *
        chainSum (lenOf (edge.d1 + 1) lengths b - 1) (fun n i j => φ b n i j + ζ)) := by
  refine ⟨_, logpartition_ok S edge lengths hsq hpos hl, by simp, ?_⟩
  intro b hb
  have hb' : b < edge.d0 := by simpa using hb
  simp only [List.getElem_map, List.getElem_range]
  exact core_plain H P hC (by simpa using le_two_pow_clog edge.d1) (lenOf_le hl b) hz h1 _ (hφ b hb')

end LinearChainProofs
