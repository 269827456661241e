import Verif.Proofs.Gibbs
import Verif.Proofs.RowDP

/-! What every dynamic program of the form `RowDP` computes under each of the semirings. -/

open Finset Spec SemiringRel

noncomputable section
namespace Generic

section duals
variable {M : Type} [AddCommGroup M] [Module ℝ M] [Module ℝᵐᵒᵖ M] [IsCentralScalar ℝ M]

theorem prod_dual {A : Type} (m : Multiset A) (s : A → ℝ) (g : A → M) :
    (m.map fun a => dual (Real.exp (s a)) (g a)).prod = dual (Real.exp (m.map s).sum) (m.map g).sum := by
  induction m using Multiset.induction_on with
  | empty => simp [dual_one]
  | cons a m ih => simp only [Multiset.map_cons, Multiset.prod_cons, Multiset.sum_cons, ih, dual_mul, Real.exp_add]

omit [Module ℝᵐᵒᵖ M] [IsCentralScalar ℝ M] in
theorem sum_dual_fst {T : Type} [Fintype T] (w : T → ℝ) (g : T → M) : (∑ t, dual (w t) (g t)).fst = ∑ t, w t := by
  have h : ∀ s : Finset T, (∑ t ∈ s, dual (w t) (g t)).fst = ∑ t ∈ s, w t := by
    classical
    intro s
    induction s using Finset.induction_on with
    | empty => simp
    | insert a s ha ih => rw [sum_insert ha, sum_insert ha, TrivSqZeroExt.fst_add, ih]; simp [dual]
  exact h univ

omit [Module ℝᵐᵒᵖ M] [IsCentralScalar ℝ M] in
theorem sum_dual_snd {T : Type} [Fintype T] (w : T → ℝ) (g : T → M) : (∑ t, dual (w t) (g t)).snd = ∑ t, w t • g t := by
  have h : ∀ s : Finset T, (∑ t ∈ s, dual (w t) (g t)).snd = ∑ t ∈ s, w t • g t := by
    classical
    intro s
    induction s using Finset.induction_on with
    | empty => simp
    | insert a s ha ih => rw [sum_insert ha, sum_insert ha, TrivSqZeroExt.snd_add, ih]; simp [dual]
  exact h univ

omit [Module ℝᵐᵒᵖ M] [IsCentralScalar ℝ M] in
theorem dual_fst (w : ℝ) (g : M) : (dual w g).fst = w := by simp [dual]

omit [Module ℝᵐᵒᵖ M] [IsCentralScalar ℝ M] in
theorem dual_snd (w : ℝ) (g : M) : (dual w g).snd = w • g := by simp [dual]

end duals

theorem prod_pair {A X Y : Type} [CommMonoid X] [CommMonoid Y] (m : Multiset A) (f : A → X) (g : A → Y) :
    (m.map fun a => (f a, g a)).prod = ((m.map f).prod, (m.map g).prod) := by
  induction m using Multiset.induction_on with
  | empty => simp; rfl
  | cons a m ih => simp [ih]

theorem prod_single_bag {A G : Type} [AddCommMonoid G] (m : Multiset A) (g : A → G) :
    (m.map fun a => Bag.single (g a)).prod = Bag.single (m.map g).sum := by
  induction m using Multiset.induction_on with
  | empty => simp [Bag.single_zero]
  | cons a m ih => simp [ih, Bag.single_mul]

theorem tame_std {R : Type} [CommSemiring R] : Tame (Semirings.std R) (fun a x : R => a = x) 0 1 := by
  constructor <;> intros <;> first | rfl | assumption

theorem tame_logE (z : EReal) : Tame (Semirings.logE z) (fun a (x : ENNReal) => EReal.exp a = x) (EReal.exp z) 1 := by
  constructor <;> simp [Semirings.logE]

theorem tame_log (z : ℝ) : Tame (Semirings.logZ z) (fun a x : ℝ => Real.exp a = x) (Real.exp z) 1 := by
  constructor <;> intros <;> first | rfl | assumption | simp [Semirings.logZ]

theorem tame_gradLog {E : Type} (z : ℝ) : Tame (Autograd.logZ (E := E) z) (fun a x => gradDual a = x) (dual (Real.exp z) 0) 1 := by
  have h1 : gradDual ((0, 0) : Autograd.Grad E) = 1 := by simp [gradDual, dual_one]
  constructor
  case keep => intro a x h; exact h
  case one => exact h1
  case dok => exact h1
  all_goals rfl

theorem tame_entropy (z : ℝ) : Tame (Semirings.entropyZ z) (fun a x => entDual a = x) (dual (Real.exp z) z) 1 := by
  have h1 : entDual (0, 0) = 1 := by simp [entDual, dual_one]
  have h2 : entDual (z, 0) = dual (Real.exp z) z := by simp [entDual]
  constructor
  case keep => intro a x h; exact h
  case one => exact h1
  case dok => exact h1
  all_goals exact h2

theorem tame_ce (z : ℝ) : Tame (Semirings.crossEntropyZ z) (fun a x => ceDual a = x) (dual (Real.exp z) z, Real.exp z) 1 := by
  have h1 : ceDual (0, 0, 0) = 1 := by simp [ceDual, dual_one]
  have h2 : ceDual (z, z, 0) = (dual (Real.exp z) z, Real.exp z) := by simp [ceDual]
  constructor
  case keep => intro a x h; exact h
  case one => exact h1
  case dok => exact h1
  all_goals exact h2

theorem tame_kl (z : ℝ) : Tame (Semirings.klZ z) (fun a x => klDual a = x) (dual (Real.exp z) 0, Real.exp z) 1 := by
  have h1 : klDual (0, 0, 0) = 1 := by simp [klDual, dual_one]
  have h2 : klDual (z, z, 0) = (dual (Real.exp z) 0, Real.exp z) := by simp [klDual]
  constructor
  case keep => intro a x h; exact h
  case one => exact h1
  case dok => exact h1
  all_goals exact h2

theorem isMax_single {G : Type} [AddCommMonoid G] (score : G → ℝ) (g : G) : Bag.IsMax score g (Bag.single g) := by simp [Bag.IsMax]

theorem tame_max : Tame Semirings.max (Bag.IsMax fun x : ℝ => x) (Bag.single Semirings.negInf) 1 := by
  constructor
  case keep => intro a x h; exact h
  all_goals exact isMax_single _ _

theorem tame_gradMax {E : Type} (pick : List (Autograd.Grad E) → Autograd.Grad E) :
    Tame (Autograd.max pick) (Bag.IsMax Prod.fst) (Bag.single (Semirings.negInf, 0)) 1 := by
  constructor
  case keep => intro a x h; exact h
  all_goals exact isMax_single _ _

variable {row : (α : Type) → SR α → (List ℕ → α) → α} {b : ℕ} {E : List ℕ → Prop} {ι π : Type} [Fintype ι] [Fintype π]
  {parts : ι → Multiset (List ℕ)} {ones : ι → ℕ} {atoms : π → Multiset Atom} (D : RowDP row b E parts ones atoms)

namespace RowDP
include D

/-- `LogSemiring`. -/
theorem exp_log (z : ℝ) (v : List ℕ → ℝ) : Real.exp (row ℝ (Semirings.logZ z) v) = Gibbs.Z (tot parts atoms z v) := by
  have h := D.rel' (log_rel z) (tame_log z) (x := v) (wp := fun e => Real.exp (v e)) (wm := fun _ => Real.exp z) (fun _ _ => rfl) (fun _ => rfl)
  rw [h, Gibbs.Z]
  refine sum_congr rfl fun t _ => ?_
  rw [tot_eq (ones := ones), Real.exp_multiset_sum, Multiset.map_map]
  congr 1
  refine Multiset.map_congr rfl fun a _ => ?_
  cases a <;> simp [Atom.weight, Atom.score]

theorem log_eq (z : ℝ) (v : List ℕ → ℝ) : row ℝ (Semirings.logZ z) v = Real.log (Gibbs.Z (tot parts atoms z v)) := by
  rw [← D.exp_log, Real.log_exp]

/-- Under `StdSemiring` phantoms vanish. -/
theorem std_eq {R : Type} [CommSemiring R] (x : List ℕ → R) : row R (Semirings.std R) x = ∑ y, ((parts y).map x).prod := by
  have h := D.rel std_rel tame_std (x := x) (wp := x) (wm := fun _ => 0) (fun _ _ => rfl) (fun _ => rfl)
  rw [h]
  have : ∀ y, ((atoms y).map (Atom.weight x (fun _ => (0 : R)) 0 1)).prod = 0 := fun y => by
    obtain ⟨a, ha, hl⟩ := D.leak y
    refine Multiset.prod_eq_zero (Multiset.mem_map.2 ⟨a, ha, ?_⟩)
    cases a <;> first | rfl | exact hl.elim
  rw [sum_eq_zero fun y _ => this y, add_zero]
  simp

/-- `LogSemiring` with potentials that may be `-∞`. -/
theorem logE_eq (z : EReal) (hz : z = ⊥ ∨ IsEmpty π) (v : List ℕ → EReal) :
    EReal.exp (row EReal (Semirings.logE z) v) = ∑ y, EReal.exp ((parts y).map v).sum := by
  have h := D.rel (logE_rel z) (tame_logE z) (x := v) (wp := fun e => EReal.exp (v e)) (wm := fun _ => EReal.exp z) (fun _ _ => rfl)
    (fun _ => by simp [Semirings.logE])
  rw [h]
  have : ∀ y, ((atoms y).map (Atom.weight (fun e => EReal.exp (v e)) (fun _ => EReal.exp z) (EReal.exp z) 1)).prod = 0 := fun y => by
    rcases hz with hz | hz
    · obtain ⟨a, ha, hl⟩ := D.leak y
      refine Multiset.prod_eq_zero (Multiset.mem_map.2 ⟨a, ha, ?_⟩)
      cases a <;> first | exact hl.elim | simp [Atom.weight, hz]
    · exact isEmptyElim y
  rw [sum_eq_zero fun y _ => this y, add_zero]
  refine sum_congr rfl fun y _ => ?_
  rw [one_pow, mul_one]
  generalize parts y = m
  induction m using Multiset.induction_on with
  | empty => simp
  | cons a m ih => rw [Multiset.map_cons, Multiset.prod_cons, ih, Multiset.map_cons, Multiset.sum_cons, EReal.exp_add]

/-- With no phantoms and no real structure nothing could be summed: there is always a structure. -/
theorem nonempty_real : Nonempty (ι ⊕ π) := by
  by_contra hne
  rw [not_nonempty_iff] at hne
  have := D.exp_log 0 0
  rw [Gibbs.Z, univ_eq_empty, sum_empty] at this
  exact (Real.exp_pos _).ne' this

/-- `LogSemiring` with gradients. -/
theorem gradLog_eq (z : ℝ) (v : List ℕ → ℝ) :
    row _ (Autograd.logZ z) (fun e => Autograd.leaf (v e) e) =
      (Real.log (Gibbs.Z (tot parts atoms z v)),
        fun e => Gibbs.expect (tot parts atoms z v) fun t => ((allAtoms parts ones atoms t).map fun a => a.grad e).sum) := by
  have h := D.rel' (gradLog_rel z) (tame_gradLog z) (x := fun e => Autograd.leaf (v e) e)
    (wp := fun e => dual (Real.exp (v e)) (Pi.single e 1)) (wm := fun e => dual (Real.exp z) (Pi.single e 1)) (fun _ _ => rfl) (fun _ => rfl)
  have h2 : ∀ t, ((allAtoms parts ones atoms t).map (Atom.weight (fun e => dual (Real.exp (v e)) (Pi.single e (1 : ℝ)))
      (fun e => dual (Real.exp z) (Pi.single e 1)) (dual (Real.exp z) 0) 1)).prod =
      dual (Real.exp (tot parts atoms z v t)) ((allAtoms parts ones atoms t).map Atom.grad).sum := by
    intro t
    rw [tot_eq (ones := ones), ← prod_dual]
    congr 1
    refine Multiset.map_congr rfl fun a _ => ?_
    cases a <;> simp [Atom.weight, Atom.score, Atom.grad, dual_one]
  simp only [h2] at h
  have hne := D.nonempty_real
  have h3 := congrArg TrivSqZeroExt.fst h
  have h4 := congrArg TrivSqZeroExt.snd h
  rw [sum_dual_fst, gradDual, dual_fst] at h3
  rw [sum_dual_snd, gradDual, dual_snd] at h4
  have h5 : (row _ (Autograd.logZ z) fun e => Autograd.leaf (v e) e).1 = Real.log (Gibbs.Z (tot parts atoms z v)) := by
    rw [Gibbs.Z, ← h3, Real.log_exp]
  refine Prod.ext h5 ?_
  funext e
  have h6 := congrFun h4 e
  rw [Pi.smul_apply, smul_eq_mul, h5, Real.exp_log (Gibbs.Z_pos _)] at h6
  have hZ := Gibbs.Z_pos (tot parts atoms z v)
  have h7 : (row _ (Autograd.logZ z) fun e => Autograd.leaf (v e) e).2 e =
      (∑ t, Real.exp (tot parts atoms z v t) • ((allAtoms parts ones atoms t).map Atom.grad).sum) e / Gibbs.Z (tot parts atoms z v) := by
    rw [← h6, mul_div_cancel_left₀ _ hZ.ne']
  rw [h7, Finset.sum_apply, sum_div]
  unfold Gibbs.expect
  refine sum_congr rfl fun t _ => ?_
  rw [Pi.smul_apply, smul_eq_mul, Gibbs.prob]
  have : ((allAtoms parts ones atoms t).map Atom.grad).sum e = ((allAtoms parts ones atoms t).map fun a => a.grad e).sum := by
    induction (allAtoms parts ones atoms t) using Multiset.induction_on with
    | empty => simp
    | cons a m ih => simp [ih]
  rw [this]; ring

/-- `EntropySemiring`. -/
theorem entropy_eq (z : ℝ) (v : List ℕ → ℝ) :
    (row _ (Semirings.entropyZ z) fun e => Semirings.entropyConvert (v e)).2 = Gibbs.entropy (tot parts atoms z v) := by
  have h := D.rel' (entropyZ_rel z) (tame_entropy z) (x := fun e => Semirings.entropyConvert (v e))
    (wp := fun e => dual (Real.exp (v e)) (v e)) (wm := fun e => dual (Real.exp z) z)
    (fun _ _ => by simp [entDual, Semirings.entropyConvert]) (fun _ => by simp [entDual, Semirings.entropyZ])
  have h2 : ∀ t, ((allAtoms parts ones atoms t).map (Atom.weight (fun e => dual (Real.exp (v e)) (v e))
      (fun e => dual (Real.exp z) z) (dual (Real.exp z) z) 1)).prod =
      dual (Real.exp (tot parts atoms z v t)) (tot parts atoms z v t) := by
    intro t
    rw [tot_eq (ones := ones), ← prod_dual]
    congr 1
    refine Multiset.map_congr rfl fun a _ => ?_
    cases a <;> simp [Atom.weight, Atom.score, dual_one]
  simp only [h2] at h
  have hne := D.nonempty_real
  have h3 := congrArg TrivSqZeroExt.fst h
  have h4 := congrArg TrivSqZeroExt.snd h
  rw [sum_dual_fst, entDual, dual_fst] at h3
  rw [sum_dual_snd, entDual, dual_snd] at h4
  set r := row _ (Semirings.entropyZ z) fun e => Semirings.entropyConvert (v e)
  have h5 : r.1 = Real.log (Gibbs.Z (tot parts atoms z v)) := by rw [Gibbs.Z, ← h3, Real.log_exp]
  rw [Gibbs.entropy_eq, ← h5]
  have hE := Real.exp_pos r.1
  have h6 : Gibbs.expect (tot parts atoms z v) (tot parts atoms z v) = r.1 - r.2 := by
    rw [smul_eq_mul] at h4
    rw [← mul_div_cancel_left₀ (r.1 - r.2) hE.ne', h4, h3, sum_div, Gibbs.expect]
    exact sum_congr rfl fun t _ => by rw [Gibbs.prob, smul_eq_mul, Gibbs.Z]; ring
  rw [h6]; ring

/-- `CrossEntropySemiring`. -/
theorem ce_eq (z : ℝ) (v u : List ℕ → ℝ) :
    (row _ (Semirings.crossEntropyZ z) fun e => Semirings.pairConvert (v e, u e)).2.2 =
      Gibbs.crossEntropy (tot parts atoms z v) (tot parts atoms z u) := by
  have h := D.rel' (crossEntropyZ_rel z) (tame_ce z) (x := fun e => Semirings.pairConvert (v e, u e))
    (wp := fun e => (dual (Real.exp (v e)) (u e), Real.exp (u e))) (wm := fun e => (dual (Real.exp z) z, Real.exp z))
    (fun _ _ => by simp [ceDual, Semirings.pairConvert]) (fun _ => by simp [ceDual, Semirings.crossEntropyZ])
  have h2 : ∀ t, ((allAtoms parts ones atoms t).map (Atom.weight (fun e => (dual (Real.exp (v e)) (u e), Real.exp (u e)))
      (fun e => (dual (Real.exp z) z, Real.exp z)) (dual (Real.exp z) z, Real.exp z) 1)).prod =
      (dual (Real.exp (tot parts atoms z v t)) (tot parts atoms z u t), Real.exp (tot parts atoms z u t)) := by
    intro t
    have : ∀ a, Atom.weight (fun e => (dual (Real.exp (v e)) (u e), Real.exp (u e)))
      (fun e => (dual (Real.exp z) z, Real.exp z)) (dual (Real.exp z) z, Real.exp z) 1 a =
        (dual (Real.exp (a.score z v)) (a.score z u), Real.exp (a.score z u)) := by
      intro a
      cases a <;> first | rfl | simp [Atom.weight, Atom.score, dual_one] <;> rfl
    simp only [this]
    rw [prod_pair, tot_eq (ones := ones), tot_eq (ones := ones), prod_dual, Real.exp_multiset_sum]
    simp only [Real.exp_multiset_sum, Multiset.map_map]
    rfl
  simp only [h2] at h
  have hne := D.nonempty_real
  have h3 := congrArg TrivSqZeroExt.fst (congrArg Prod.fst h)
  have h4 := congrArg TrivSqZeroExt.snd (congrArg Prod.fst h)
  have h5 := congrArg Prod.snd h
  rw [Prod.fst_sum] at h3 h4
  rw [Prod.snd_sum] at h5
  simp only [ceDual] at h3 h4 h5
  rw [sum_dual_fst, dual_fst] at h3
  rw [sum_dual_snd, dual_snd] at h4
  set r := row _ (Semirings.crossEntropyZ z) fun e => Semirings.pairConvert (v e, u e)
  have h6 : r.2.1 = Real.log (Gibbs.Z (tot parts atoms z u)) := by rw [Gibbs.Z, ← h5, Real.log_exp]
  rw [Gibbs.crossEntropy_eq, ← h6]
  have hE := Real.exp_pos r.1
  have h7 : Gibbs.expect (tot parts atoms z v) (tot parts atoms z u) = r.2.1 - r.2.2 := by
    rw [smul_eq_mul] at h4
    rw [← mul_div_cancel_left₀ (r.2.1 - r.2.2) hE.ne', h4, h3, sum_div, Gibbs.expect]
    exact sum_congr rfl fun t _ => by rw [Gibbs.prob, smul_eq_mul, Gibbs.Z]; ring
  rw [h7]; ring

/-- `KLDivergenceSemiring`. -/
theorem kl_eq (z : ℝ) (v u : List ℕ → ℝ) :
    (row _ (Semirings.klZ z) fun e => Semirings.pairConvert (v e, u e)).2.2 =
      Gibbs.kl (tot parts atoms z v) (tot parts atoms z u) := by
  have h := D.rel' (klZ_rel z) (tame_kl z) (x := fun e => Semirings.pairConvert (v e, u e))
    (wp := fun e => (dual (Real.exp (v e)) (v e - u e), Real.exp (u e))) (wm := fun e => (dual (Real.exp z) (0 : ℝ), Real.exp z))
    (fun _ _ => by simp [klDual, Semirings.pairConvert]) (fun _ => by simp [klDual, Semirings.klZ])
  have h2 : ∀ t, ((allAtoms parts ones atoms t).map (Atom.weight (fun e => (dual (Real.exp (v e)) (v e - u e), Real.exp (u e)))
      (fun e => (dual (Real.exp z) (0 : ℝ), Real.exp z)) (dual (Real.exp z) 0, Real.exp z) 1)).prod =
      (dual (Real.exp (tot parts atoms z v t)) (tot parts atoms z v t - tot parts atoms z u t), Real.exp (tot parts atoms z u t)) := by
    intro t
    have : ∀ a, Atom.weight (fun e => (dual (Real.exp (v e)) (v e - u e), Real.exp (u e)))
      (fun e => (dual (Real.exp z) (0 : ℝ), Real.exp z)) (dual (Real.exp z) 0, Real.exp z) 1 a =
        (dual (Real.exp (a.score z v)) (a.score z v - a.score z u), Real.exp (a.score z u)) := by
      intro a
      cases a <;> first | rfl | simp [Atom.weight, Atom.score, dual_one] <;> rfl
    simp only [this]
    rw [prod_pair, tot_eq (ones := ones), tot_eq (ones := ones), prod_dual, Multiset.sum_map_sub, Real.exp_multiset_sum, Multiset.map_map]
    simp only [Multiset.map_map, Real.exp_multiset_sum]
    rfl
  simp only [h2] at h
  have hne := D.nonempty_real
  have h3 := congrArg TrivSqZeroExt.fst (congrArg Prod.fst h)
  have h4 := congrArg TrivSqZeroExt.snd (congrArg Prod.fst h)
  have h5 := congrArg Prod.snd h
  rw [Prod.fst_sum] at h3 h4
  rw [Prod.snd_sum] at h5
  simp only [klDual] at h3 h4 h5
  rw [sum_dual_fst, dual_fst] at h3
  rw [sum_dual_snd, dual_snd] at h4
  set r := row _ (Semirings.klZ z) fun e => Semirings.pairConvert (v e, u e)
  have h6 : r.2.1 = Real.log (Gibbs.Z (tot parts atoms z u)) := by rw [Gibbs.Z, ← h5, Real.log_exp]
  have h6' : r.1 = Real.log (Gibbs.Z (tot parts atoms z v)) := by rw [Gibbs.Z, ← h3, Real.log_exp]
  rw [Gibbs.kl_eq, ← h6, ← h6']
  have hE := Real.exp_pos r.1
  have h7 : Gibbs.expect (tot parts atoms z v) (tot parts atoms z v) - Gibbs.expect (tot parts atoms z v) (tot parts atoms z u) =
      r.2.2 + r.1 - r.2.1 := by
    rw [smul_eq_mul] at h4
    rw [← mul_div_cancel_left₀ (r.2.2 + r.1 - r.2.1) hE.ne', h4, h3, sum_div, Gibbs.expect, Gibbs.expect, ← sum_sub_distrib]
    exact sum_congr rfl fun t _ => by rw [Gibbs.prob, smul_eq_mul, Gibbs.Z]; ring
  rw [h7]; ring

/-- `MaxSemiring`: the best of all structures. -/
theorem max_top (v : List ℕ → ℝ) :
    (∃ t, row ℝ Semirings.max v = tot parts atoms Semirings.negInf v t) ∧ ∀ t, tot parts atoms Semirings.negInf v t ≤ row ℝ Semirings.max v := by
  have h := D.rel' Bag.max_isMaxSR.rel tame_max (x := v) (wp := fun e => Bag.single (v e)) (wm := fun _ => Bag.single Semirings.negInf)
    (fun _ _ => isMax_single _ _) (fun _ => isMax_single _ _)
  have h2 : ∀ t, ((allAtoms parts ones atoms t).map (Atom.weight (fun e => Bag.single (v e)) (fun _ => Bag.single Semirings.negInf)
      (Bag.single Semirings.negInf) 1)).prod = Bag.single (tot parts atoms Semirings.negInf v t) := by
    intro t
    rw [tot_eq (ones := ones), ← prod_single_bag]
    congr 1
    refine Multiset.map_congr rfl fun a _ => ?_
    cases a <;> simp [Atom.weight, Atom.score, Bag.single_zero]
  simp only [h2] at h
  constructor
  · obtain ⟨t, -, ht⟩ := Bag.mem_sum.1 h.1
    exact ⟨t, by simpa using ht⟩
  · intro t
    exact h.2 _ (Bag.mem_sum.2 ⟨t, mem_univ t, by simp⟩)

/-- `MaxSemiring` with gradients: a best structure, for every tie-breaking rule. -/
theorem gradMax_top (v : List ℕ → ℝ) {pick : List (Autograd.Grad (List ℕ)) → Autograd.Grad (List ℕ)} (hp : Autograd.IsArgmax Prod.fst pick) :
    ∃ t, row _ (Autograd.max pick) (fun e => Autograd.leaf (v e) e) =
        (tot parts atoms Semirings.negInf v t, fun e => ((allAtoms parts ones atoms t).map fun a => a.grad e).sum) ∧
      ∀ t', tot parts atoms Semirings.negInf v t' ≤ tot parts atoms Semirings.negInf v t := by
  have h := D.rel' (Bag.gradMax_isMaxSR hp).rel (tame_gradMax pick) (x := fun e => Autograd.leaf (v e) e)
    (wp := fun e => Bag.single (Autograd.leaf (v e) e)) (wm := fun e => Bag.single (Semirings.negInf, Pi.single e 1))
    (fun _ _ => isMax_single _ _) (fun _ => isMax_single _ _)
  have h2 : ∀ t, ((allAtoms parts ones atoms t).map (Atom.weight (fun e => Bag.single (Autograd.leaf (v e) e))
      (fun e => Bag.single (Semirings.negInf, Pi.single e 1)) (Bag.single (Semirings.negInf, 0)) 1)).prod =
      Bag.single ((tot parts atoms Semirings.negInf v t, fun e => ((allAtoms parts ones atoms t).map fun a => a.grad e).sum) :
        Autograd.Grad (List ℕ)) := by
    intro t
    have e1 : ((tot parts atoms Semirings.negInf v t, fun e => ((allAtoms parts ones atoms t).map fun a => a.grad e).sum) :
        Autograd.Grad (List ℕ)) = ((allAtoms parts ones atoms t).map fun a => (a.score Semirings.negInf v, a.grad)).sum := by
      rw [tot_eq (ones := ones)]
      induction (allAtoms parts ones atoms t) using Multiset.induction_on with
      | empty => simp; rfl
      | cons a m ih =>
        simp only [Multiset.map_cons, Multiset.sum_cons, ← ih]
        rfl
    rw [e1, ← prod_single_bag]
    congr 1
    refine Multiset.map_congr rfl fun a _ => ?_
    cases a <;> rfl
  simp only [h2] at h
  obtain ⟨t, -, ht⟩ := Bag.mem_sum.1 h.1
  have ht := Multiset.mem_singleton.1 ht
  refine ⟨t, ht, fun t' => ?_⟩
  have := h.2 _ (Bag.mem_sum.2 ⟨t', mem_univ t', by simp; rfl⟩)
  rw [ht] at this
  exact this

end RowDP
end Generic
