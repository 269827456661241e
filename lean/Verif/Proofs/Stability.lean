import Verif.Proofs.RoundedArgmax
import Verif.Proofs.Gibbs

/-! Distributions of structures with nearby scores. -/

open Finset Spec Consistency
open Rounding hiding fst_rel err_rel mag_rel

noncomputable section
namespace Spec.Gibbs
variable {ι : Type} [Fintype ι]

theorem stable_Z {s s' : ι → ℝ} {K : ℝ} (h : ∀ y, |s' y - s y| ≤ K) : Z s' ≤ Real.exp K * Z s := by
  rw [Z, Z, mul_sum]
  refine sum_le_sum fun y _ => ?_
  rw [← Real.exp_add]
  exact Real.exp_le_exp.2 (by have := (abs_le.1 (h y)).2; linarith)

theorem stable_prob {s s' : ι → ℝ} {K : ℝ} (h : ∀ y, |s' y - s y| ≤ K) (y : ι) : prob s' y ≤ Real.exp (2 * K) * prob s y := by
  have : Nonempty ι := ⟨y⟩
  have h1 : Z s ≤ Real.exp K * Z s' := stable_Z fun y => by rw [abs_sub_comm]; exact h y
  have h2 : Real.exp (s' y) ≤ Real.exp K * Real.exp (s y) := by
    rw [← Real.exp_add]
    exact Real.exp_le_exp.2 (by have := (abs_le.1 (h y)).2; linarith)
  rw [prob, prob, ← mul_div_assoc, div_le_div_iff₀ (Z_pos _) (Z_pos _), two_mul, Real.exp_add]
  have h3 := Real.exp_pos K
  have h4 := Real.exp_pos (s y)
  calc Real.exp (s' y) * Z s ≤ (Real.exp K * Real.exp (s y)) * (Real.exp K * Z s') := mul_le_mul h2 h1 (Z_nonneg _) (by positivity)
    _ = _ := by ring

theorem stable_expect {s s' f : ι → ℝ} {K : ℝ} (h : ∀ y, |s' y - s y| ≤ K) (hf : ∀ y, 0 ≤ f y) : expect s' f ≤ Real.exp (2 * K) * expect s f := by
  rw [expect, expect, mul_sum]
  refine sum_le_sum fun y _ => ?_
  rw [← mul_assoc]
  exact mul_le_mul_of_nonneg_right (stable_prob h y) (hf y)

end Spec.Gibbs

namespace Generic

/-- The bound of the differences is correct for all structures of the bag. -/
def OkD (k : ℝ) (m : Bag ℝ) : Prop := 0 ≤ k ∧ ∀ u ∈ m.ms, |u| ≤ k

theorem okD_single {k u : ℝ} (h : |u| ≤ k) : OkD k (Bag.single u) := by
  refine ⟨(abs_nonneg _).trans h, fun v hv => ?_⟩
  rw [Bag.ms_single, Multiset.mem_singleton] at hv
  rw [hv]; exact h

theorem okD_rel : SRRel (cost 0 0 fun _ => 0) OkD where
  mul := by
    rintro a b x y ⟨ha, hx⟩ ⟨hb, hy⟩
    simp only [cost, add_zero]
    refine ⟨by linarith, fun c hc => ?_⟩
    obtain ⟨s, hs, t, ht, rfl⟩ := Bag.mem_mul.1 hc
    exact (abs_add_le _ _).trans (add_le_add (hx s hs) (hy t ht))
  sum := by
    intro as ms hne h
    have m1 := Bag.listMax_spec _ hne
    simp only [cost, add_zero]
    refine ⟨?_, fun u hu => ?_⟩
    · obtain ⟨m, -, hr⟩ := exists_rel h m1.1
      exact hr.1
    · obtain ⟨m, hm, hum⟩ := Bag.mem_list_sum.1 hu
      obtain ⟨x, hx, hr⟩ := exists_rel h.flip hm
      exact (hr.2 u hum).trans (m1.2 x hx)

theorem okD_tame : Tame (cost 0 0 fun _ => 0) OkD (Bag.single 0) 1 := by
  have z : OkD 0 (Bag.single 0) := okD_single (by simp)
  have o : OkD 0 1 := by rw [← Bag.single_zero]; exact z
  constructor
  case keep => intro a x h; exact h
  case one => exact o
  case dok => exact o
  all_goals exact z

/-- One row: the scores of every structure under the two tables differ by at most the cost. -/
theorem RowDP.scores_near {row : (α : Type) → SR α → (List ℕ → α) → α} {b : ℕ} {E : List ℕ → Prop} {ι π : Type} [Fintype ι] [Fintype π]
    {parts : ι → Multiset (List ℕ)} {ones : ι → ℕ} {atoms : π → Multiset Atom} (D : RowDP row b E parts ones atoms)
    {v v' d : List ℕ → ℝ} (hv : ∀ e, E e → |v' e - v e| ≤ d e) (t : ι ⊕ π) :
    |tot parts atoms Semirings.negInf v' t - tot parts atoms Semirings.negInf v t| ≤ row _ (cost 0 0 fun _ => 0) d := by
  have h := D.rel' okD_rel okD_tame (x := d) (wp := fun e => Bag.single (v' e - v e)) (wm := fun e => Bag.single 0)
    (fun e he => okD_single (hv e he)) (fun e => okD_single (show |(0 : ℝ)| ≤ 0 by simp))
  have h2 : ∀ t, ((allAtoms parts ones atoms t).map (Atom.weight (fun e => Bag.single (v' e - v e)) (fun e => Bag.single (0 : ℝ)) (Bag.single 0) 1)).prod =
      Bag.single (tot parts atoms Semirings.negInf v' t - tot parts atoms Semirings.negInf v t) := by
    intro t
    rw [tot_eq (ones := ones), tot_eq (ones := ones), ← Multiset.sum_map_sub, ← prod_single_bag]
    congr 1
    refine Multiset.map_congr rfl fun a _ => ?_
    cases a
    · rfl
    · exact congrArg Bag.single (sub_self _).symm
    · exact congrArg Bag.single (sub_self _).symm
    · exact Bag.single_zero.symm.trans (congrArg Bag.single (sub_self _).symm)
  simp only [h2] at h
  exact h.2 _ (Bag.mem_sum.2 ⟨t, mem_univ t, by rw [Bag.ms_single]; exact Multiset.mem_singleton_self _⟩)

/-- Two numbers are equal up to a factor. -/
def Factor (K x y : ℝ) : Prop := y ≤ Real.exp K * x ∧ x ≤ Real.exp K * y

namespace BatchDP
variable {A : Algo} {lengths : Option (List ℕ)} {B : ℕ} {E : ℕ → List ℕ → Prop}
  {ι π : ℕ → Type} [∀ b, Fintype (ι b)] [∀ b, Fintype (π b)] {parts : ∀ b, ι b → Multiset (List ℕ)} {ones : ∀ b, ι b → ℕ}
  {atoms : ∀ b, π b → Multiset Atom} {p q : A.T ℝ} {v v' : List ℕ → ℝ}

theorem marginals_near (D : BatchDP A p lengths B v E parts ones atoms) (D' : BatchDP A q lengths B v' E parts ones atoms) {d : List ℕ → ℝ}
    (hv : ∀ b < B, ∀ e, E b e → |v' e - v e| ≤ d e) {K : ℝ} (hK : AllE (· ≤ K) (A.run (cost 0 0 fun _ => 0) (A.map (fun x : ℝ × List ℕ => d x.2) (A.index p)) lengths)) :
    ∃ μ ν, Dist.marginals A p lengths = .ok μ ∧ Dist.marginals A q lengths = .ok ν ∧ ∀ b < B, ∀ e : List ℕ, e.head? = some b → Factor (2 * K) (μ e) (ν e) := by
  obtain ⟨μ, h1, h2⟩ := D.marginals_eq
  obtain ⟨ν, h3, h4⟩ := D'.marginals_eq
  obtain ⟨row, r1, r2⟩ := D.rows
  rw [r1 (cost 0 0 fun _ => 0) fun _ e => d e] at hK
  refine ⟨μ, ν, h1, h3, fun b hb e he => ?_⟩
  have key : ∀ t, |tot (parts b) (atoms b) Semirings.negInf v' t - tot (parts b) (atoms b) Semirings.negInf v t| ≤ K := fun t =>
    ((r2 b hb).scores_near (hv b hb) t).trans (hK _ rfl _ (List.mem_map.2 ⟨b, List.mem_range.2 hb, rfl⟩))
  rw [h2 b hb e he, h4 b hb e he]
  exact ⟨Gibbs.stable_expect key fun _ => Nat.cast_nonneg _, Gibbs.stable_expect (fun t => by rw [abs_sub_comm]; exact key t) fun _ => Nat.cast_nonneg _⟩

end BatchDP
end Generic
