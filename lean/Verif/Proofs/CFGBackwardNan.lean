import Verif.Proofs.CFGBackwardFactors

/-! Where the backward pass of `SentCFG.marginals` gives NaN. -/

open Finset Spec Generic GrammarProofs CKYProofs

noncomputable section
namespace CFGBackwardProofs
open CFGBackward

variable {N NT T last : ℕ} {f : Factors Prop}

/-- The gradient of a chart cell is NaN when its iteration begins. -/
def Hit (f : Factors Prop) (N NT T last w i X : ℕ) : Prop := (stage f N NT T last w).A i w X ∨ (stage f N NT T last w).B (i + w) (N - w - 1) X

/-- The gradients of the rules of `X` in one block are NaN. -/
theorem rule_hit {l r : Bool} {w i X y z : ℕ} (hp : Present l r w) (hw : 1 ≤ w) (hi : i + w < N) (hy : y < size NT T l) (hz : z < size NT T r)
    (h : Hit f N NT T last w i X ∨ f.part l r w i X ∨ f.entry l r w i X y z) : (backLoop truth f N NT T last).rule X (off NT l + y) (off NT r + z) := by
  refine (stage_grows last (w - 1)).1 _ _ _ ?_
  have e : w - 1 + 1 = w := by omega
  rw [stage_step last (w - 1) (by omega), e]
  have k : ruleGrad truth f N (stage f N NT T last w) l r w X y z := (ruleGrad_truth _ _ _ _ _ _ _).2 ⟨i, by omega, (useGrad_truth _ _ _ _ _ _ _ _).2 h⟩
  cases l <;> cases r <;> simp only [size, off, if_true, if_false, Bool.false_eq_true] at hy hz ⊢ <;> simp only [backStep]
  · rw [if_neg (by omega), if_neg (by omega)]
    simp only [Nat.zero_add]
    exact Or.inr k
  · rw [if_neg (by omega), if_pos (by omega)]
    simp only [Nat.zero_add, Nat.add_sub_cancel_left]
    exact Or.inr k
  · rw [if_pos (by omega), if_neg (by omega)]
    simp only [Nat.zero_add, Nat.add_sub_cancel_left]
    exact Or.inr k
  · rw [if_pos (by omega), if_pos (by omega), if_pos (hp rfl rfl)]
    simp only [Nat.add_sub_cancel_left]
    exact Or.inr k

/-- The gradients of the preterminals of the two outer words of a span are NaN. -/
theorem right_hit (hNT : 0 < NT) {w i X t : ℕ} (hw : 1 ≤ w) (hi : i + w < N) (hX : X < NT)
    (h : Hit f N NT T last w i X ∨ ∃ y < NT, f.part false true w i X ∨ f.entry false true w i X y t) : (backLoop truth f N NT T last).term (i + w) t := by
  refine (stage_grows last (w - 1)).2 _ _ ?_
  have e : w - 1 + 1 = w := by omega
  rw [stage_step last (w - 1) (by omega), e]
  refine Or.inl (Or.inr (Or.inl ?_))
  rw [if_pos ⟨by omega, by omega⟩, Nat.add_sub_cancel]
  refine (truth_all _ _).2 ?_
  rcases h with h | ⟨y, hy, h⟩
  · exact ⟨0, hNT, (pairGrad_truth _ _ _ _ _ _ _).2 ⟨X, hX, (useGrad_truth _ _ _ _ _ _ _ _).2 (Or.inl h)⟩⟩
  · exact ⟨y, hy, (pairGrad_truth _ _ _ _ _ _ _).2 ⟨X, hX, (useGrad_truth _ _ _ _ _ _ _ _).2 (Or.inr h)⟩⟩

theorem left_hit (hNT : 0 < NT) {w i X t : ℕ} (hw : 1 ≤ w) (hi : i + w < N) (hX : X < NT)
    (h : Hit f N NT T last w i X ∨ ∃ z < NT, f.part true false w i X ∨ f.entry true false w i X t z) : (backLoop truth f N NT T last).term i t := by
  refine (stage_grows last (w - 1)).2 _ _ ?_
  have e : w - 1 + 1 = w := by omega
  rw [stage_step last (w - 1) (by omega), e]
  refine Or.inl (Or.inr (Or.inr ?_))
  rw [if_pos (by omega)]
  refine (truth_all _ _).2 ?_
  rcases h with h | ⟨y, hy, h⟩
  · exact ⟨0, hNT, (pairGrad_truth _ _ _ _ _ _ _).2 ⟨X, hX, (useGrad_truth _ _ _ _ _ _ _ _).2 (Or.inl h)⟩⟩
  · exact ⟨y, hy, (pairGrad_truth _ _ _ _ _ _ _).2 ⟨X, hX, (useGrad_truth _ _ _ _ _ _ _ _).2 (Or.inr h)⟩⟩

/-- Two preterminals. -/
theorem both_hit {i X t u : ℕ} (hi : i + 1 < N) (hX : X < NT) (ht : t < T) (hu : u < T) (h : f.entry true true 1 i X t u) :
    (backLoop truth f N NT T last).term i t ∧ (backLoop truth f N NT T last).term (i + 1) u := by
  have key : pairGrad truth f N NT (stage f N NT T last 1) true true 1 i t u :=
    (pairGrad_truth _ _ _ _ _ _ _).2 ⟨X, hX, (useGrad_truth _ _ _ _ _ _ _ _).2 (Or.inr (Or.inr h))⟩
  constructor
  · refine (stage_grows last 0).2 _ _ ?_
    rw [stage_step last 0 (by omega)]
    refine Or.inr ?_
    rw [if_pos rfl]
    refine Or.inl ?_
    rw [if_pos (by omega)]
    exact (truth_all _ _).2 ⟨u, hu, key⟩
  · refine (stage_grows last 0).2 _ _ ?_
    rw [stage_step last 0 (by omega)]
    refine Or.inr ?_
    rw [if_pos rfl]
    refine Or.inr ?_
    rw [if_pos ⟨by omega, by omega⟩]
    exact (truth_all _ _).2 ⟨t, ht, key⟩

/-- A zero in a block of a span of three words reaches the cells of two words inside. -/
theorem hit_left (hNT : 0 < NT) (hT : 0 < T) {w i X Y : ℕ} (hw : 1 ≤ w) (hi : i + (w + 1) < N) (hY : Y < NT)
    (h : (∀ z, f.entry false false (w + 1) i Y X z) ∨ ∀ z, f.entry false true (w + 1) i Y X z) : Hit f N NT T last w i X := by
  left
  rw [stage_step last w (by omega)]
  simp only [backStep]
  rw [if_pos (by omega), if_pos (by omega)]
  rcases h with h | h
  · exact Or.inl (Or.inr ((truth_all _ _).2 ⟨0, hNT, Or.inl ((pairGrad_truth _ _ _ _ _ _ _).2 ⟨Y, hY, (useGrad_truth _ _ _ _ _ _ _ _).2 (Or.inr (Or.inr (h 0)))⟩)⟩))
  · refine Or.inr ?_
    rw [if_pos (by omega)]
    exact (truth_all _ _).2 ⟨0, hT, (pairGrad_truth _ _ _ _ _ _ _).2 ⟨Y, hY, (useGrad_truth _ _ _ _ _ _ _ _).2 (Or.inr (Or.inr (h 0)))⟩⟩

theorem hit_right (hNT : 0 < NT) (hT : 0 < T) {w i X Y : ℕ} (hw : 1 ≤ w) (hi : i + (w + 1) < N) (hY : Y < NT)
    (h : (∀ y, f.entry false false (w + 1) i Y y X) ∨ ∀ y, f.entry true false (w + 1) i Y y X) : Hit f N NT T last w (i + 1) X := by
  right
  rw [stage_step last w (by omega)]
  simp only [backStep]
  have e : i + 1 + w - (w + 1) = i := by omega
  rw [if_pos ⟨by omega, by omega⟩, if_pos ⟨by omega, by omega⟩, e]
  rcases h with h | h
  · exact Or.inl (Or.inr ((truth_all _ _).2 ⟨0, hNT, Or.inl ((pairGrad_truth _ _ _ _ _ _ _).2 ⟨Y, hY, (useGrad_truth _ _ _ _ _ _ _ _).2 (Or.inr (Or.inr (h 0)))⟩)⟩))
  · refine Or.inr ?_
    rw [if_pos (by omega)]
    exact (truth_all _ _).2 ⟨0, hT, (pairGrad_truth _ _ _ _ _ _ _).2 ⟨Y, hY, (useGrad_truth _ _ _ _ _ _ _ _).2 (Or.inr (Or.inr (h 0)))⟩⟩

/-- The roots. -/
theorem root_hit (X : ℕ) (v : ℕ) : (stage f N NT T last v).root X ↔ f.top X := by
  by_cases hv : N - 1 ≤ v
  · rw [stage_last last v hv]
    simp [start, truth]
  · rw [stage_step last v (by omega)]
    exact root_hit X (v + 1)
termination_by N - 1 - v

/-- Nothing is NaN if no factor is. -/
theorem none_hit (hp : ∀ l r w i X, Present l r w → 1 ≤ w → i + w < N → X < NT → ¬ f.part l r w i X)
    (he : ∀ l r w i X y z, Present l r w → 1 ≤ w → i + w < N → X < NT → y < size NT T l → z < size NT T r → ¬ f.entry l r w i X y z)
    (hs : ∀ w i u y z, 1 ≤ w → i + w < N → u < w → y < NT → z < NT → ¬ f.split w i u y z) (ht : ∀ X < NT, ¬ f.top X) :
    (∀ n, ∀ t < T, ¬ (backLoop truth f N NT T last).term n t) ∧
    (∀ X < NT, ∀ y < NT + T, ∀ z < NT + T, ¬ (backLoop truth f N NT T last).rule X y z) ∧
    (∀ X < NT, ¬ (backLoop truth f N NT T last).root X) ∧ (∀ w i, ∀ X < NT, ¬ (backLoop truth f N NT T last).span w i X) := by
  have R : OpsRel truth truth fun P _ => ¬ P := ⟨id, id, fun h1 h2 h => h.elim h1 h2, fun h1 h2 h => h.elim h1 h2⟩
  have F : FactorsRel (fun P _ => ¬ P) N NT T f f := ⟨hp, he, hs, ht⟩
  have k := backLoop_rel R F last
  exact ⟨k.term, k.rule, k.root, k.span⟩

end CFGBackwardProofs
