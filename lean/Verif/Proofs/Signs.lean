import Verif.Proofs.Consistency
import Verif.Model.Distributions

/-! Inequalities that every dynamic program preserves. -/

open Semirings

noncomputable section
namespace Signs
open Consistency

theorem sum_soft {xs : List ℝ} (hne : xs ≠ []) : (xs.map fun x => Real.exp (x - lse xs)).sum = 1 := by
  have h : (xs.map fun x => Real.exp (x - lse xs)) = (xs.map Real.exp).map fun y => y * (Real.exp (lse xs))⁻¹ := by
    rw [List.map_map]
    refine List.map_congr_left fun x _ => ?_
    rw [Function.comp_apply, Real.exp_sub, div_eq_mul_inv]
  rw [h, List.sum_map_mul_right, List.map_id', SemiringRel.exp_lse hne]
  refine mul_inv_cancel₀ (ne_of_gt ?_)
  rw [← SemiringRel.exp_lse hne]
  exact Real.exp_pos _

/-- Gibbs' inequality for one summand. -/
theorem gibbs (a b : ℝ) : Real.exp b * (a - b) ≤ Real.exp a - Real.exp b := by
  have h := Real.add_one_le_exp (a - b)
  have : Real.exp b * (a - b + 1) ≤ Real.exp b * Real.exp (a - b) := mul_le_mul_of_nonneg_left h (Real.exp_pos b).le
  rw [← Real.exp_add] at this
  have e : b + (a - b) = a := by ring
  rw [e] at this
  linarith

theorem forall_of_rel {α β : Type} {ρ : α → β → Prop} {as : List α} {bs : List β} (h : List.Forall₂ ρ as bs) {a : α} (ha : a ∈ as) : ∃ b ∈ bs, ρ a b := exists_rel h ha

/-- `0 ≤ partition - max ≤ entropy` (the second slot of the pair is the running entropy). -/
theorem entropy_ge : SRP (entropyZ negInf) (prod Semirings.log Semirings.max) fun a x => a.1 = x.1 ∧ x.2 ≤ x.1 ∧ x.1 - x.2 ≤ a.2 where
  zero := by simp [entropyZ, prod, Semirings.log, Semirings.max, logZ]
  one := by simp [entropyZ, prod, Semirings.log, Semirings.max, logZ]
  raw0 := by simp [entropyZ, prod, Semirings.log, Semirings.max, logZ]
  mul := by
    rintro a b x y ⟨h1, h2, h3⟩ ⟨g1, g2, g3⟩
    refine ⟨?_, ?_, ?_⟩ <;> simp only [entropyZ, prod, Semirings.log, logZ, Semirings.max] <;> linarith
  sum := by
    intro as xs hne h
    have e1 : as.map Prod.fst = xs.map Prod.fst := forall₂_pull h fun a b h => h.1
    have hx : xs ≠ [] := forall₂_ne h hne
    have hm := Bag.listMax_spec (xs.map Prod.snd) (by simpa using hx)
    refine ⟨?_, ?_, ?_⟩
    · simp only [entropyZ, prod, Semirings.log, logZ]; rw [e1]
    · show listMax (xs.map Prod.snd) ≤ lse (xs.map Prod.fst)
      obtain ⟨y, hy, e⟩ := List.mem_map.1 hm.1
      rw [← e]
      have : ∃ a ∈ as, a.1 = y.1 ∧ y.2 ≤ y.1 ∧ y.1 - y.2 ≤ a.2 := exists_rel h.flip hy
      obtain ⟨a, -, -, h2, -⟩ := this
      exact h2.trans (le_lse (List.mem_map.2 ⟨y, hy, rfl⟩))
    · show lse (xs.map Prod.fst) - listMax (xs.map Prod.snd) ≤ _
      simp only [entropyZ]
      rw [e1]
      have hs : (xs.map fun x => Real.exp (x.1 - lse (xs.map Prod.fst))).sum = 1 := by
        have := sum_soft (xs := xs.map Prod.fst) (by simpa using hx)
        rwa [List.map_map] at this
      have hle : ∀ x ∈ xs, x.2 ≤ listMax (xs.map Prod.snd) := fun x hx => hm.2 _ (List.mem_map.2 ⟨x, hx, rfl⟩)
      generalize lse (xs.map Prod.fst) = P at hs ⊢
      generalize listMax (xs.map Prod.snd) = M at hle ⊢
      have key : (xs.map fun x => Real.exp (x.1 - P)).sum * (P - M) ≤ (as.map fun x => x.2 * Real.exp (x.1 - P) - (x.1 - P) * Real.exp (x.1 - P)).sum := by
        clear hs hx hm e1 hne
        induction h with
        | nil => simp
        | @cons a b as bs h _ ih =>
          simp only [List.map_cons, List.sum_cons]
          have ih := ih fun x hx => hle x (by simp [hx])
          have hb := hle b (by simp)
          obtain ⟨h1, h2, h3⟩ := h
          have hp := Real.exp_pos (b.1 - P)
          rw [h1]
          have : Real.exp (b.1 - P) * (P - M) ≤ a.2 * Real.exp (b.1 - P) - (b.1 - P) * Real.exp (b.1 - P) := by
            have : Real.exp (b.1 - P) * (P - M) ≤ Real.exp (b.1 - P) * (a.2 - (b.1 - P)) := mul_le_mul_of_nonneg_left (by linarith) hp.le
            linarith
          linarith
      rw [hs, one_mul] at key
      exact key
  detach := fun h => h
  setData := fun _ h => h

/-- The divergence is at least 0. -/
theorem kl_nonneg (z : ℝ) : SRP (klZ z) (logZ z) fun c x => c.1 = x ∧ 0 ≤ c.2.2 where
  zero := by simp [klZ, logZ]
  one := by simp [klZ, logZ]
  raw0 := by simp [klZ, logZ]
  mul := by
    rintro a b x y ⟨h1, h2⟩ ⟨g1, g2⟩
    refine ⟨?_, ?_⟩ <;> simp only [klZ, logZ] <;> linarith
  sum := by
    intro as xs hne h
    have e1 : as.map (fun x => x.1) = xs := by
      have := forall₂_pull h (f := fun x => x.1) (g := fun x => x) fun a b h => h.1
      rwa [List.map_id'] at this
    refine ⟨?_, ?_⟩
    · simp only [klZ, logZ]; rw [e1]
    · have h2 : ∀ a ∈ as, 0 ≤ a.2.2 := fun a ha => by obtain ⟨_, -, h⟩ := exists_rel h ha; exact h.2
      simp only [klZ]
      have s1 : (as.map fun x => Real.exp (x.1 - lse (as.map fun x => x.1))).sum = 1 := by
        have := sum_soft (xs := as.map fun x => x.1) (by simpa using hne)
        rwa [List.map_map] at this
      have s2 : (as.map fun x => Real.exp (x.2.1 - lse (as.map fun x => x.2.1))).sum = 1 := by
        have := sum_soft (xs := as.map fun x => x.2.1) (by simpa using hne)
        rwa [List.map_map] at this
      generalize lse (as.map fun x => x.1) = P at s1 ⊢
      generalize lse (as.map fun x => x.2.1) = Q at s2 ⊢
      have key : (as.map fun x => Real.exp (x.1 - P)).sum - (as.map fun x => Real.exp (x.2.1 - Q)).sum ≤
          (as.map fun x => x.2.2 * Real.exp (x.1 - P) - (x.2.1 - Q) * Real.exp (x.1 - P) + (x.1 - P) * Real.exp (x.1 - P)).sum := by
        clear s1 s2 e1 h hne
        induction as with
        | nil => simp
        | cons a as ih =>
          simp only [List.map_cons, List.sum_cons]
          have ih := ih fun x hx => h2 x (by simp [hx])
          have ha := mul_nonneg (h2 a (by simp)) (Real.exp_pos (a.1 - P)).le
          have := gibbs (a.2.1 - Q) (a.1 - P)
          linarith
      rw [s1, s2, sub_self] at key
      exact key
  detach := fun h => h
  setData := fun _ h => h

/-- The cross entropy is at least the entropy. -/
theorem ce_ge (z : ℝ) : SRP (entropyZ z) (crossEntropyZ z) fun h c => h.1 = c.1 ∧ h.2 ≤ c.2.2 where
  zero := by simp [crossEntropyZ, entropyZ]
  one := by simp [crossEntropyZ, entropyZ]
  raw0 := by simp [crossEntropyZ, entropyZ]
  mul := by
    rintro a b x y ⟨h1, h2⟩ ⟨g1, g2⟩
    refine ⟨?_, ?_⟩ <;> simp only [crossEntropyZ, entropyZ] <;> linarith
  sum := by
    intro as xs hne h
    have e1 : as.map Prod.fst = xs.map fun x => x.1 := forall₂_pull h fun a b h => h.1
    have hx : xs ≠ [] := forall₂_ne h hne
    refine ⟨?_, ?_⟩
    · simp only [crossEntropyZ, entropyZ]; rw [e1]
    · simp only [crossEntropyZ, entropyZ]
      rw [e1]
      have s1 : (xs.map fun x => Real.exp (x.1 - lse (xs.map fun x => x.1))).sum = 1 := by
        have := sum_soft (xs := xs.map fun x => x.1) (by simpa using hx)
        rwa [List.map_map] at this
      have s2 : (xs.map fun x => Real.exp (x.2.1 - lse (xs.map fun x => x.2.1))).sum = 1 := by
        have := sum_soft (xs := xs.map fun x => x.2.1) (by simpa using hx)
        rwa [List.map_map] at this
      generalize lse (xs.map fun x => x.1) = P at s1 ⊢
      generalize lse (xs.map fun x => x.2.1) = Q at s2 ⊢
      have key : (xs.map fun x => Real.exp (x.1 - P)).sum - (xs.map fun x => Real.exp (x.2.1 - Q)).sum ≤
          (xs.map fun x => x.2.2 * Real.exp (x.1 - P) - (x.2.1 - Q) * Real.exp (x.1 - P)).sum - (as.map fun x => x.2 * Real.exp (x.1 - P) - (x.1 - P) * Real.exp (x.1 - P)).sum := by
        clear s1 s2 e1 hne hx
        induction h with
        | nil => simp
        | @cons a b as bs h _ ih =>
          simp only [List.map_cons, List.sum_cons]
          have := gibbs (b.2.1 - Q) (b.1 - P)
          have h2 := mul_le_mul_of_nonneg_right h.2 (Real.exp_pos (b.1 - P)).le
          rw [h.1]
          linarith
      rw [s1, s2, sub_self] at key
      linarith
  detach := fun h => h
  setData := fun _ h => h

/-- Gradients of `LogSemiring` are at least 0. -/
theorem grad_nonneg {E : Type} (z : ℝ) : SRP (Autograd.logZ z : SR (Autograd.Grad E)) (logZ z) fun g x => g.1 = x ∧ ∀ e, 0 ≤ g.2 e where
  zero := ⟨rfl, fun _ => le_refl _⟩
  one := ⟨rfl, fun _ => le_refl _⟩
  raw0 := ⟨rfl, fun _ => le_refl _⟩
  mul := by
    rintro a b x y ⟨h1, h2⟩ ⟨g1, g2⟩
    exact ⟨congrArg₂ (· + ·) h1 g1, fun e => add_nonneg (h2 e) (g2 e)⟩
  sum := by
    intro as xs hne h
    have e1 : as.map Prod.fst = xs := by
      have := forall₂_pull h (f := Prod.fst) (g := fun x => x) fun a b h => h.1
      rwa [List.map_id'] at this
    refine ⟨?_, fun e => ?_⟩
    · simp only [Autograd.logZ, logZ]; rw [e1]
    · have h2 : ∀ a ∈ as, ∀ e, 0 ≤ a.2 e := fun a ha => by obtain ⟨_, -, h⟩ := exists_rel h ha; exact h.2
      simp only [Autograd.logZ]
      generalize lse (as.map Prod.fst) = P
      clear e1 h hne
      induction as with
      | nil => simp
      | cons a as ih =>
        rw [List.map_cons, List.sum_cons]
        refine add_nonneg ?_ (ih fun x hx => h2 x (by simp [hx]))
        exact mul_nonneg (Real.exp_pos _).le (h2 a (by simp) e)
  detach := by rintro a x ⟨h1, h2⟩; exact ⟨h1, fun _ => le_refl _⟩
  setData := by rintro a b x y ⟨h1, h2⟩ ⟨g1, g2⟩; exact ⟨g1, h2⟩

end Signs
