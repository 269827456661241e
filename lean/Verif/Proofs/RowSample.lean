import Verif.Proofs.RowValues

/-! The expression recorded under the sampling semirings by a dynamic program of the form `RowDP`. -/

open Finset Spec Sampling MvPolynomial

noncomputable section
namespace Generic

theorem tame_poly (z : ℝ) : Tame (sr z) (fun (e : Expr) (q : MvPolynomial (List ℕ) ℝ) => e.NoEmpty ∧ e.poly = q)
    (MvPolynomial.C (Real.exp z)) 1 := by
  constructor <;> try intros
  case keep a x h =>
    refine ⟨h.1, ?_⟩
    simp only [sr, Expr.poly, Expr.value, sub_self, Real.exp_zero, map_one, one_mul]
    exact h.2
  all_goals exact ⟨trivial, by simp [sr, Expr.poly, Expr.value]⟩

theorem monomial_prod {A : Type} (m : Multiset A) (g : A → Ev) (s : A → ℝ) :
    (m.map fun a => (monomial (g a) (Real.exp (s a)) : MvPolynomial (List ℕ) ℝ)).prod =
      monomial (m.map g).sum (Real.exp (m.map s).sum) := by
  induction m using Multiset.induction_on with
  | empty => simp
  | cons a m ih => simp only [Multiset.map_cons, Multiset.prod_cons, Multiset.sum_cons, ih, monomial_mul, Real.exp_add]

/-- How often an entry occurs among the factors. -/
theorem event_sum (m : Multiset Atom) (id : List ℕ) : (m.map Atom.event).sum id = (m.filterMap Atom.link).count id := by
  induction m using Multiset.induction_on with
  | empty => simp
  | cons a m ih =>
    rw [Multiset.map_cons, Multiset.sum_cons, Finsupp.add_apply, ih]
    cases a with
    | pot e =>
      rw [Multiset.filterMap_cons_some _ _ _ (rfl : Atom.link (Atom.pot e) = some e), Multiset.count_cons]
      simp only [Atom.event, Atom.weight, Finsupp.single_apply]
      rw [add_comm]; congr 1; simp only [eq_comm]
    | masked e =>
      rw [Multiset.filterMap_cons_some _ _ _ (rfl : Atom.link (Atom.masked e) = some e), Multiset.count_cons]
      simp only [Atom.event, Atom.weight, Finsupp.single_apply]
      rw [add_comm]; congr 1; simp only [eq_comm]
    | zero => rw [Multiset.filterMap_cons_none _ _ (rfl : Atom.link Atom.zero = none)]; simp [Atom.event, Atom.weight]
    | one => rw [Multiset.filterMap_cons_none _ _ (rfl : Atom.link Atom.one = none)]; simp [Atom.event, Atom.weight]

/-- The event of a real structure: how often it uses each entry. -/
def ev {ι : Type} (parts : ι → Multiset (List ℕ)) (y : ι) : Ev := ((parts y).map fun e => Finsupp.single e 1).sum

theorem ev_apply {ι : Type} (parts : ι → Multiset (List ℕ)) (y : ι) (id : List ℕ) : ev parts y id = (parts y).count id := by
  unfold ev
  induction (parts y) using Multiset.induction_on with
  | empty => simp
  | cons a m ih =>
    rw [Multiset.map_cons, Multiset.sum_cons, Finsupp.add_apply, ih, Multiset.count_cons, Finsupp.single_apply, add_comm]
    congr 1; simp only [eq_comm]

variable {row : (α : Type) → SR α → (List ℕ → α) → α} {b : ℕ} {E : List ℕ → Prop} {ι π : Type} [Fintype ι] [Fintype π]
  {parts : ι → Multiset (List ℕ)} {ones : ι → ℕ} {atoms : π → Multiset Atom} (D : RowDP row b E parts ones atoms)

namespace RowDP
include D

theorem poly_eq (z : ℝ) (v : List ℕ → ℝ) :
    (row _ (sr z) fun e => Expr.leaf (v e) e).NoEmpty ∧
    (row _ (sr z) fun e => Expr.leaf (v e) e).poly =
      ∑ t, monomial ((allAtoms parts ones atoms t).map Atom.event).sum (Real.exp (tot parts atoms z v t)) := by
  have h := D.rel' (poly_rel z) (tame_poly z) (x := fun e => Expr.leaf (v e) e)
    (wp := fun e => monomial (Finsupp.single e 1) (Real.exp (v e))) (wm := fun e => monomial (Finsupp.single e 1) (Real.exp z))
    (fun e _ => ⟨trivial, by simp only [Expr.poly]; rw [C_mul_X_eq_monomial]⟩)
    (fun e => ⟨trivial, by
      simp only [sr, Expr.poly, Expr.value]
      rw [← mul_assoc, ← MvPolynomial.C_mul, ← Real.exp_add, sub_add_cancel, C_mul_X_eq_monomial]⟩)
  refine ⟨h.1, h.2.trans (sum_congr rfl fun t _ => ?_)⟩
  rw [tot_eq (ones := ones), ← monomial_prod]
  congr 1
  refine Multiset.map_congr rfl fun a _ => ?_
  cases a with
  | pot e => rfl
  | masked e => rfl
  | zero => rfl
  | one => change (1 : MvPolynomial (List ℕ) ℝ) = monomial 0 (Real.exp 0); rw [Real.exp_zero]; rfl

theorem link_head (t : ι ⊕ π) (id : List ℕ) (h : id ∈ (allAtoms parts ones atoms t).filterMap Atom.link) : id.head? = some b := by
  rw [Multiset.mem_filterMap] at h
  obtain ⟨a, ha, hl⟩ := h
  cases t with
  | inl y =>
    simp only [allAtoms, Sum.elim_inl, Multiset.mem_add, Multiset.mem_map, Multiset.mem_replicate] at ha
    rcases ha with ⟨e', h1, rfl⟩ | ⟨_, rfl⟩
    · cases hl; exact D.head _ (D.partE y _ h1)
    · cases hl
  | inr y =>
    cases a with
    | pot e => cases hl; exact D.head _ (D.potE y _ ha)
    | masked e => cases hl; exact D.headM y _ ha
    | zero => cases hl
    | one => cases hl

omit [Fintype ι] [Fintype π] D in
theorem links_inl (y : ι) : (allAtoms parts ones atoms (Sum.inl y)).filterMap Atom.link = parts y := by
  simp only [allAtoms, Sum.elim_inl, Multiset.filterMap_add]
  rw [Multiset.filterMap_map]
  have e1 : (Multiset.replicate (ones y) Atom.one).filterMap Atom.link = 0 := by
    rw [Multiset.eq_zero_iff_forall_notMem]
    intro e he
    rw [Multiset.mem_filterMap] at he
    obtain ⟨a, ha, hl⟩ := he
    rw [Multiset.mem_replicate] at ha
    rw [ha.2] at hl; cases hl
  rw [e1, add_zero]
  exact Multiset.filterMap_some _

/-- `SampledSemiring` and `MultiSampledSemiring`: the law of the sampled row. -/
theorem rowLaw [Nonempty ι] (z : ℝ) (v : List ℕ → ℝ) (hnd : ∀ y, (parts y).Nodup) (hnd' : ∀ y, ((atoms y).filterMap Atom.link).Nodup) :
    RowLaw (row _ (sr z) fun e => Expr.leaf (v e) e) b (ev parts) (fun y => Real.exp (realScore parts v y))
      (Real.log (1 + Gibbs.excess (realScore parts v) (phScore atoms z v))) where
  noEmpty := (D.poly_eq z v).1
  degree id := by
    classical
    rw [(D.poly_eq z v).2]
    refine (degreeOf_sum_le id _ _).trans (Finset.sup_le fun t _ => ?_)
    rw [degreeOf_le_iff]
    intro m hm
    rw [mem_support_iff, coeff_monomial] at hm
    split_ifs at hm with hc
    swap
    · exact absurd rfl hm
    rw [← hc, event_sum]
    split_ifs with hb
    · refine Multiset.nodup_iff_count_le_one.1 ?_ id
      cases t with
      | inl y => rw [links_inl]; exact hnd y
      | inr y => exact hnd' y
    · rw [Multiset.count_eq_zero_of_notMem fun h => hb (D.link_head t id h)]
  cle := by
    rw [(D.poly_eq z v).2, Fintype.sum_sum_type]
    have e : ∀ y, monomial ((allAtoms parts ones atoms (Sum.inl y)).map Atom.event).sum (Real.exp (tot parts atoms z v (Sum.inl y))) =
        monomial (ev parts y) (Real.exp (realScore parts v y)) := by
      intro y
      have : ((allAtoms parts ones atoms (Sum.inl y)).map Atom.event).sum = ev parts y := by
        ext id
        rw [event_sum, links_inl, ev_apply]
      rw [this]; rfl
    rw [sum_congr rfl fun y _ => e y]
    intro m
    have h1 := CLE.sum univ fun y _ => CLE.refl_monomial (ev parts y) (Real.exp_pos (realScore parts v y)).le
    have h2 := CLE.sum univ fun y _ => CLE.refl_monomial ((allAtoms parts ones atoms (Sum.inr y)).map Atom.event).sum
      (Real.exp_pos (tot parts atoms z v (Sum.inr y))).le
    refine ⟨(h1 m).1, ?_⟩
    rw [coeff_add]
    linarith [(h2 m).1]
  value := by
    have h := D.poly_eq z v
    rw [← Expr.eval_poly _ h.1, h.2, map_sum]
    have e : ∀ t, (eval fun _ => (1 : ℝ)) (monomial ((allAtoms parts ones atoms t).map Atom.event).sum (Real.exp (tot parts atoms z v t))) =
        Real.exp (tot parts atoms z v t) := by
      intro t; rw [eval_monomial]; simp [Finsupp.prod]
    rw [sum_congr rfl fun t _ => e t]
    have hx := Gibbs.excess_nonneg (realScore parts v) (phScore atoms z v)
    rw [Real.exp_log (by linarith)]
    exact (Gibbs.Z_elim_eq (realScore parts v) (phScore atoms z v)).le
  nonneg := Real.log_nonneg (by linarith [Gibbs.excess_nonneg (realScore parts v) (phScore atoms z v)])
  pos y := Real.exp_pos _

end RowDP
end Generic
