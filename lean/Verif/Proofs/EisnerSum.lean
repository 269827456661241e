import Mathlib.Tactic.Ring
import Verif.Proofs.Eisner

/-! Sums over projective trees as sums over derivations, and the recurrences of Eisner's algorithm. -/

open Finset Spec

noncomputable section
namespace Eisner
open Deriv

/-! ### Trees and derivations -/

theorem Proj.congr {n : ℕ} {h h' : ℕ → ℕ} (hp : Proj n h) (he : ∀ k ≤ n, h' k = h k) : Proj n h' := by
  have hl : ∀ {y x}, y ≤ n → Leads h y x → Leads h' y x := fun hy H =>
    Leads.map (D := fun k => k ≤ n) id hp.le (fun k hk => Or.inr (he k hk)) hy H
  refine ⟨(he 0 (Nat.zero_le _)).trans hp.root, fun k hk => (he k hk).trans_le (hp.le k hk), fun k hk => hl hk (hp.tree k hk), ?_⟩
  intro k h1 h2 y hy
  rw [he k h2] at hy ⊢
  refine hl ?_ (hp.proj k h1 h2 y hy)
  have := hp.le k h2
  unfold Between at hy; omega

theorem headOf_zero {n : ℕ} (h : Heads n) : headOf h 0 = 0 := by simp [headOf]

theorem headOf_succ {n : ℕ} (h : Heads n) (k : Fin n) : headOf h (k + 1) = h k := by
  unfold headOf
  rw [dif_pos ⟨by omega, by omega⟩]
  rfl

theorem headOf_le {n : ℕ} (h : Heads n) (k : ℕ) : headOf h k ≤ n := by
  unfold headOf
  split_ifs
  · exact Nat.lt_succ_iff.1 (h _).2
  · exact Nat.zero_le _

theorem proj_iff {n : ℕ} (h : Heads n) : Proj n (headOf h) ↔ IsDepTree h ∧ IsProjective h := by
  constructor
  · intro hp
    refine ⟨fun k => hp.tree (k + 1) (by omega), fun k y hy => ?_⟩
    have := hp.proj (k + 1) (by omega) (by omega) y
    rw [headOf_succ] at this
    exact this hy
  · rintro ⟨h1, h2⟩
    refine ⟨headOf_zero h, fun k _ => headOf_le h k, fun k hk => ?_, fun k hk hn y hy => ?_⟩
    · cases k with
      | zero => exact Leads.refl _ _
      | succ k => exact h1 ⟨k, by omega⟩
    · obtain ⟨k, rfl⟩ : ∃ j, k = j + 1 := ⟨k - 1, by omega⟩
      have e := headOf_succ h ⟨k, by omega⟩
      simp only at e
      rw [e] at hy ⊢
      exact h2 ⟨k, by omega⟩ y hy

/-- The head vector of a derivation. -/
def toHeads {n : ℕ} (t : Derivs n) : Heads n := fun k => ⟨t.1.head (k + 1), Nat.lt_succ_iff.2 <| by
  have := (head_proj t.1).le (k + 1) (by rw [t.2]; omega)
  rwa [t.2] at this⟩

theorem headOf_toHeads {n : ℕ} (t : Derivs n) {k : ℕ} (hk : k ≤ n) : headOf (toHeads t) k = t.1.head k := by
  cases k with
  | zero => rw [headOf_zero, head_zero]
  | succ k => exact headOf_succ (toHeads t) ⟨k, by omega⟩

theorem toHeads_proj {n : ℕ} (t : Derivs n) : IsDepTree (toHeads t) ∧ IsProjective (toHeads t) := by
  rw [← proj_iff]
  have := head_proj t.1
  rw [t.2] at this
  exact this.congr fun k hk => headOf_toHeads t hk

theorem toHeads_injective {n : ℕ} : Function.Injective (toHeads : Derivs n → Heads n) := by
  intro t t' h
  refine Subtype.ext (head_injective _ _ (t.2.trans t'.2.symm) fun k hk => ?_)
  rw [t.2] at hk
  rw [← headOf_toHeads t hk, ← headOf_toHeads t' hk, h]

theorem toHeads_surjective {n : ℕ} {h : Heads n} (h1 : IsDepTree h) (h2 : IsProjective h) : ∃ t : Derivs n, toHeads t = h := by
  obtain ⟨t, ht, hk⟩ := head_surjective n (headOf h) ((proj_iff h).2 ⟨h1, h2⟩)
  refine ⟨⟨t, ht⟩, funext fun k => Fin.ext ?_⟩
  exact (hk (k + 1) (by omega)).trans (headOf_succ h k)

/-- Sums over all projective trees. -/
theorem sum_multi {R : Type} [AddCommMonoid R] (n : ℕ) (f : Heads n → R) : ∑ h : ProjTrees true n, f h.1 = ∑ t : Derivs n, f (toHeads t) := by
  symm
  refine Fintype.sum_bijective (fun t => (⟨toHeads t, (toHeads_proj t).1, (toHeads_proj t).2, by simp⟩ : ProjTrees true n)) ⟨?_, ?_⟩ _ _ fun _ => rfl
  · intro t t' h
    exact toHeads_injective (congrArg Subtype.val h)
  · rintro ⟨h, h1, h2, -⟩
    obtain ⟨t, rfl⟩ := toHeads_surjective h1 h2
    exact ⟨t, rfl⟩

/-- A derivation whose head has a single child. -/
def Single : Deriv → Prop
  | node leaf _ _ => True
  | _ => False

theorem single_iff {n : ℕ} (t : Derivs n) : IsSingleRoot (toHeads t) ↔ Single t.1 := by
  obtain ⟨t, rfl⟩ := t
  have hz : ∀ k : Fin t.width, toHeads ⟨t, rfl⟩ k = 0 ↔ t.head (k + 1) = 0 := fun k => by
    rw [Fin.ext_iff]; rfl
  unfold IsSingleRoot
  simp only [hz]
  cases t with
  | leaf =>
    simp only [Single, iff_false]
    rintro ⟨k, -⟩
    have := k.2
    simp [width] at this
  | node a b c =>
    have S := node_split a b c
    cases a with
    | leaf =>
      simp only [Single, iff_true]
      have h1 := S.um
      have h2 := S.mn
      refine ⟨⟨width leaf + b.width, by omega⟩, S.hm, ?_⟩
      rintro ⟨k, hk⟩ hk0
      simp only at hk0
      refine Fin.ext ?_
      simp only
      rcases Nat.lt_trichotomy (k + 1) (width leaf + b.width + 1) with h3 | h3 | h3
      · have := S.mid (k + 1) (by simp [width]) h3
        omega
      · omega
      · have := S.far (k + 1) h3 (by omega)
        omega
    | node a1 a2 a3 =>
      simp only [Single, iff_false]
      rintro ⟨k, -, hk2⟩
      have S' := node_split a1 a2 a3
      have h1 := S.um
      have h2 := S.mn
      have h3 := S'.mn
      have e1 := hk2 ⟨(node a1 a2 a3).width + b.width, by omega⟩ S.hm
      have e2 := hk2 ⟨a1.width + a2.width, by omega⟩ (by
        have := S'.hm
        simp only
        rw [head_a (by omega)]
        exact this)
      rw [← e2, Fin.mk.injEq] at e1
      omega

/-- Sums over the projective trees with a single root. -/
theorem sum_single {R : Type} [AddCommMonoid R] (n : ℕ) (f : Heads (n + 1) → R) :
    ∑ h : ProjTrees false (n + 1), f h.1 = ∑ u ∈ range (n + 1), ∑ b : Derivs u, ∑ c : Derivs (n - u),
      if hw : (node leaf b.1 c.1).width = n + 1 then f (toHeads ⟨node leaf b.1 c.1, hw⟩) else 0 := by
  let T := Σ u : Fin (n + 1), Σ _ : Derivs u, Derivs (n - u)
  have hT : ∀ x : T, (node leaf x.2.1.1 x.2.2.1).width = n + 1 := fun x => by
    have h1 := x.2.1.2
    have h2 := x.2.2.2
    have h3 := x.1.2
    simp only [width, h1, h2]; omega
  have h : (∑ u ∈ range (n + 1), ∑ b : Derivs u, ∑ c : Derivs (n - u),
      if hw : (node leaf b.1 c.1).width = n + 1 then f (toHeads ⟨node leaf b.1 c.1, hw⟩) else 0) =
      ∑ x : T, f (toHeads ⟨node leaf x.2.1.1 x.2.2.1, hT x⟩) := by
    simp only [T, Fintype.sum_sigma, Finset.sum_range]
    refine sum_congr rfl fun u _ => sum_congr rfl fun b _ => sum_congr rfl fun c _ => ?_
    exact dif_pos (hT ⟨u, b, c⟩)
  rw [h]
  symm
  refine Fintype.sum_bijective (fun x : T => (⟨toHeads ⟨node leaf x.2.1.1 x.2.2.1, hT x⟩, (toHeads_proj _).1, (toHeads_proj _).2,
    fun _ => (single_iff _).2 trivial⟩ : ProjTrees false (n + 1))) ⟨?_, ?_⟩ _ _ fun _ => rfl
  · rintro ⟨⟨u, hu⟩, ⟨b, hb⟩, ⟨c, hc⟩⟩ ⟨⟨u', hu'⟩, ⟨b', hb'⟩, ⟨c', hc'⟩⟩ h
    have h := congrArg Subtype.val (toHeads_injective (congrArg Subtype.val h))
    simp only [Deriv.node.injEq, true_and] at h
    obtain ⟨rfl, rfl⟩ := h
    simp only at hb hb'
    obtain rfl : u = u' := by omega
    rfl
  · rintro ⟨h, h1, h2, h3⟩
    obtain ⟨⟨t, ht⟩, rfl⟩ := toHeads_surjective h1 h2
    have hs := (single_iff _).1 (h3 rfl)
    cases t with
    | leaf => exact absurd hs (by simp [Single])
    | node a b c =>
      cases a with
      | leaf =>
        simp only [width] at ht
        exact ⟨⟨⟨b.width, by omega⟩, ⟨b, rfl⟩, ⟨c, by simp only; omega⟩⟩, rfl⟩
      | node a1 a2 a3 => exact absurd hs (by simp [Single])

/-! ### The weight of a derivation -/

variable {R : Type} [CommSemiring R]

/-- The product of the weights of the arcs of a derivation, `W head word` in distances. -/
def arcs (W : ℕ → ℕ → R) (t : Deriv) : R := ∏ k ∈ range t.width, W (t.head (k + 1)) (k + 1)

theorem arcs_congr {W W' : ℕ → ℕ → R} {t : Deriv} (h : ∀ x y, x ≤ t.width → 1 ≤ y → y ≤ t.width → W x y = W' x y) : arcs W t = arcs W' t := by
  refine prod_congr rfl fun k hk => ?_
  have hk := mem_range.1 hk
  exact h _ _ ((head_proj t).le _ (by omega)) (by omega) (by omega)

theorem arcs_leaf (W : ℕ → ℕ → R) : arcs W leaf = 1 := by simp [arcs, width]

theorem arcs_node (W : ℕ → ℕ → R) (a b c : Deriv) : arcs W (node a b c) =
    arcs W a * arcs (fun x y => W (a.width + b.width + 1 - x) (a.width + b.width + 1 - y)) b * W 0 (a.width + b.width + 1) *
      arcs (fun x y => W (a.width + b.width + 1 + x) (a.width + b.width + 1 + y)) c := by
  have e : (node a b c).width = a.width + b.width + 1 + c.width := by simp only [width]; omega
  unfold arcs
  rw [e, prod_range_add, prod_range_succ, prod_range_add]
  congr 1
  · rw [head_m]
    congr 1
    congr 1
    · refine prod_congr rfl fun k hk => ?_
      have hk := mem_range.1 hk
      rw [head_a (by omega)]
    · rw [← prod_range_reflect]
      refine prod_congr rfl fun k hk => ?_
      have hk := mem_range.1 hk
      have e1 : a.width + (b.width - 1 - k) + 1 = a.width + b.width + 1 - (k + 1) := by omega
      rw [e1, head_b (by omega) (by omega), Nat.sub_sub_self (by omega)]
  · refine prod_congr rfl fun k hk => ?_
    have e1 : a.width + b.width + 1 + k + 1 = a.width + b.width + 1 + (k + 1) := by omega
    rw [head_c (by omega), e1, Nat.add_sub_cancel_left]

theorem depArcs {n : ℕ} (W : ℕ → ℕ → R) (t : Derivs n) : ∏ k : Fin n, W (toHeads t k) (k + 1) = arcs W t.1 := by
  obtain ⟨t, rfl⟩ := t
  rw [arcs, Finset.prod_range]
  rfl

/-- The weight of all derivations of width `n`; every derivation has `2 n + 1` leaves. -/
def total (ω : R) (W : ℕ → ℕ → R) (n : ℕ) : R := ∑ t : Derivs n, arcs W t.1 * ω ^ (2 * n + 1)

theorem total_congr {ω : R} {W W' : ℕ → ℕ → R} {n : ℕ} (h : ∀ x y, x ≤ n → 1 ≤ y → y ≤ n → W x y = W' x y) : total ω W n = total ω W' n := by
  refine sum_congr rfl fun t _ => ?_
  rw [arcs_congr fun x y h1 h2 h3 => h x y (by rwa [t.2] at h1) h2 (by rwa [t.2] at h3)]

theorem total_zero (ω : R) (W : ℕ → ℕ → R) : total ω W 0 = ω := by
  rw [total, sum_derivs_zero fun t => arcs W t * ω ^ (2 * 0 + 1), arcs_leaf]; simp

theorem total_succ (ω : R) (W : ℕ → ℕ → R) (n : ℕ) : total ω W (n + 1) =
    ∑ v ∈ range (n + 1), (∑ u ∈ range (v + 1), total ω W u * total ω (fun x y => W (v + 1 - x) (v + 1 - y)) (v - u)) * W 0 (v + 1) *
      total ω (fun x y => W (v + 1 + x) (v + 1 + y)) (n - v) := by
  rw [total, sum_derivs_succ n fun t => arcs W t * ω ^ (2 * (n + 1) + 1)]
  refine sum_congr rfl fun v hv => ?_
  have hv := mem_range.1 hv
  rw [sum_mul, sum_mul]
  refine sum_congr rfl fun u hu => ?_
  have hu := mem_range.1 hu
  unfold total
  rw [sum_mul_sum, sum_mul, sum_mul]
  refine sum_congr rfl fun a _ => ?_
  rw [sum_mul, sum_mul]
  refine sum_congr rfl fun b _ => ?_
  rw [mul_sum]
  refine sum_congr rfl fun c _ => ?_
  have ha := a.2
  have hb := b.2
  have e : u + (v - u) + 1 = v + 1 := by omega
  have e2 : 2 * (n + 1) + 1 = (2 * u + 1) + (2 * (v - u) + 1) + (2 * (n - v) + 1) := by omega
  rw [arcs_node, ha, hb, e, e2, pow_add, pow_add]
  ring

/-! ### The recurrences -/

/-- Complete span with its head `i` at the left end. -/
def CR (ω : R) (w : ℕ → ℕ → R) (i n : ℕ) : R := total ω (fun x y => w (i + x) (i + y)) n

/-- Complete span with its head `j` at the right end. -/
def CL (ω : R) (w : ℕ → ℕ → R) (j n : ℕ) : R := total ω (fun x y => w (j - x) (j - y)) n

/-- Incomplete span with its head `i` at the left end. -/
def IR (ω : R) (w : ℕ → ℕ → R) (i k : ℕ) : R := (∑ u ∈ range k, CR ω w i u * CL ω w (i + k) (k - 1 - u)) * w i (i + k)

/-- Incomplete span with its head `j` at the right end. -/
def IL (ω : R) (w : ℕ → ℕ → R) (j k : ℕ) : R := (∑ u ∈ range k, CR ω w (j - k) u * CL ω w j (k - 1 - u)) * w j (j - k)

theorem CR_zero (ω : R) (w : ℕ → ℕ → R) (i : ℕ) : CR ω w i 0 = ω := total_zero _ _

theorem CL_zero (ω : R) (w : ℕ → ℕ → R) (j : ℕ) : CL ω w j 0 = ω := total_zero _ _

theorem CR_succ (ω : R) (w : ℕ → ℕ → R) (i n : ℕ) :
    CR ω w i (n + 1) = ∑ u ∈ range (n + 1), IR ω w i (1 + u) * CR ω w (i + u + 1) (n - u) := by
  rw [CR, total_succ]
  refine sum_congr rfl fun v hv => ?_
  have e : 1 + v = v + 1 := by omega
  rw [IR, e, Nat.add_sub_cancel]
  congr 1
  · congr 1
    refine sum_congr rfl fun u hu => ?_
    have hu := mem_range.1 hu
    congr 1
    refine total_congr fun x y h1 h2 h3 => ?_
    congr 1 <;> omega
  · refine total_congr fun x y h1 h2 h3 => ?_
    congr 1 <;> omega

theorem CL_succ (ω : R) (w : ℕ → ℕ → R) (j n : ℕ) (hj : n + 1 ≤ j) :
    CL ω w j (n + 1) = ∑ u ∈ range (n + 1), CL ω w (j - (n + 1) + u) u * IL ω w j (n + 1 - u) := by
  rw [CL, total_succ, ← sum_range_reflect]
  refine sum_congr rfl fun v hv => ?_
  have hv := mem_range.1 hv
  have e : n + 1 - 1 - v + 1 = n + 1 - v := by omega
  have e2 : n - (n + 1 - 1 - v) = v := by omega
  rw [e, e2, mul_comm, IL]
  congr 1
  · refine total_congr fun x y h1 h2 h3 => ?_
    congr 1 <;> omega
  · congr 1
    rw [← sum_range_reflect]
    refine sum_congr rfl fun u hu => ?_
    have hu := mem_range.1 hu
    rw [mul_comm]
    congr 1
    · have e3 : n + 1 - 1 - v - (n + 1 - v - 1 - u) = u := by omega
      rw [e3]
      refine total_congr fun x y h1 h2 h3 => ?_
      congr 1 <;> omega

/-- All trees. -/
theorem CR_eq_trees (ω : R) (w : ℕ → ℕ → R) (n : ℕ) :
    CR ω w 0 n = ∑ h : ProjTrees true n, (∏ k : Fin n, w (h.1 k) (k + 1)) * ω ^ (2 * n + 1) := by
  rw [sum_multi n fun h => (∏ k : Fin n, w (h k) (k + 1)) * ω ^ (2 * n + 1), CR, total]
  refine sum_congr rfl fun t _ => ?_
  rw [depArcs w t]
  simp only [Nat.zero_add]

/-- Trees with a single root. -/
theorem single_eq_trees (ω : R) (w : ℕ → ℕ → R) (n : ℕ) :
    ∑ u ∈ range (n + 1), CL ω w (1 + u) u * w 0 (1 + u) * CR ω w (u + 1) (n - u) =
      ∑ h : ProjTrees false (n + 1), (∏ k : Fin (n + 1), w (h.1 k) (k + 1)) * ω ^ (2 * (n + 1)) := by
  rw [sum_single n fun h => (∏ k : Fin (n + 1), w (h k) (k + 1)) * ω ^ (2 * (n + 1))]
  refine sum_congr rfl fun u hu => ?_
  have hu := mem_range.1 hu
  rw [CL, CR, total, total, sum_mul, sum_mul]
  refine sum_congr rfl fun b _ => ?_
  rw [mul_sum]
  refine sum_congr rfl fun c _ => ?_
  have hb := b.2
  have hc := c.2
  have hw : (node leaf b.1 c.1).width = n + 1 := by simp only [width, hb, hc]; omega
  rw [dif_pos hw, depArcs w ⟨_, hw⟩, arcs_node, arcs_leaf, hb]
  have e1 : width leaf + u + 1 = 1 + u := by simp only [width]; omega
  have e2 : 2 * (n + 1) = (2 * u + 1) + (2 * (n - u) + 1) := by omega
  rw [e1, e2, pow_add, add_comm u 1]
  ring

end Eisner
