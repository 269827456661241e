import Mathlib.Analysis.Calculus.LocalExtr.Basic
import Verif.Proofs.Derivative

/-! The log-normaliser lies above its tangents, whose slopes are the marginals; maximum likelihood. -/

open Finset Spec

noncomputable section
namespace Generic

/-- What the atoms of a structure contribute, entry by entry. -/
theorem sum_weight {κ : Type} (X : Finset κ) (f : κ → List ℕ) (hf : Set.InjOn f X) (d : List ℕ → ℝ) (m : Multiset Atom)
    (h : ∀ e, Atom.pot e ∈ m → ∃ x ∈ X, f x = e) :
    (m.map (Atom.weight d (fun _ => 0) 0 0)).sum = ∑ x ∈ X, d (f x) * ((m.filterMap Atom.potential).count (f x) : ℝ) := by
  induction m using Multiset.induction_on with
  | empty => simp
  | cons a m ih =>
    rw [Multiset.map_cons, Multiset.sum_cons, ih fun e he => h e (Multiset.mem_cons_of_mem he)]
    cases a with
    | pot e =>
      obtain ⟨x, hx, rfl⟩ := h e (Multiset.mem_cons_self _ _)
      rw [Multiset.filterMap_cons_some Atom.potential _ _ (b := f x) rfl]
      simp only [Multiset.count_cons, Atom.weight]
      push_cast
      simp only [mul_add, sum_add_distrib]
      rw [add_comm]
      congr 1
      rw [sum_eq_single x]
      · simp
      · intro y hy hne
        rw [if_neg (fun hc => hne (hf hy hx hc)), mul_zero]
      · intro hc; exact absurd hx hc
    | masked e => rw [Multiset.filterMap_cons_none _ _ rfl]; simp [Atom.weight]
    | zero => rw [Multiset.filterMap_cons_none _ _ rfl]; simp [Atom.weight]
    | one => rw [Multiset.filterMap_cons_none _ _ rfl]; simp [Atom.weight]

namespace BatchDP
variable {A : Algo} {lengths : Option (List ℕ)} {B : ℕ} {E : ℕ → List ℕ → Prop}
  {ι π : ℕ → Type} [∀ b, Fintype (ι b)] [∀ b, Fintype (π b)] {parts : ∀ b, ι b → Multiset (List ℕ)} {ones : ∀ b, ι b → ℕ}
  {atoms : ∀ b, π b → Multiset Atom}

/-- The mean change of the scores from `p` to other potentials, entry by entry. -/
theorem slope {p : A.T ℝ} {val : List ℕ → ℝ} (D : BatchDP A p lengths B val E parts ones atoms) (val' : List ℕ → ℝ)
    {μ : List ℕ → ℝ} (hμ : Dist.marginals A p lengths = .ok μ) (b : ℕ) (hb : b < B) {κ : Type} (X : Finset κ) (f : κ → List ℕ) (hf : Set.InjOn f X)
    (hX : ∀ e, E b e → ∃ x ∈ X, f x = e) (hh : ∀ x ∈ X, (f x).head? = some b) (hm : ∀ x ∈ X, ∀ y, Atom.masked (f x) ∉ atoms b y) :
    Gibbs.expect (tot (parts b) (atoms b) Semirings.negInf val) (fun y => tot (parts b) (atoms b) Semirings.negInf val' y - tot (parts b) (atoms b) Semirings.negInf val y) =
      ∑ x ∈ X, μ (f x) * (val' (f x) - val (f x)) := by
  obtain ⟨μ', h1, h2⟩ := D.marginals_eq
  obtain rfl : μ = μ' := Except.ok.inj (hμ.symm.trans h1)
  have e : ∀ y, tot (parts b) (atoms b) Semirings.negInf val' y - tot (parts b) (atoms b) Semirings.negInf val y =
      ∑ x ∈ X, (val' (f x) - val (f x)) * (((allAtoms (parts b) (ones b) (atoms b) y).filterMap Atom.link).count (f x) : ℝ) := by
    intro y
    have h3 := D.tot_line Semirings.negInf val' val (fun e => val' e - val e) 1 b hb (fun e _ => by ring) y
    rw [h3, one_mul, add_sub_cancel_left, sum_weight X f hf]
    · refine sum_congr rfl fun x hx => ?_
      rw [count_link]
      cases y with
      | inl y =>
        simp only [allAtoms, Sum.elim_inl, Multiset.mem_add, Multiset.mem_map, reduceCtorEq, and_false, exists_false, false_or]
        intro hc
        cases Multiset.eq_of_mem_replicate hc
      | inr y => exact hm x hx y
    · intro e he
      obtain ⟨row, -, hr⟩ := D.rows
      exact hX e ((hr b hb).pot_entry he)
  simp only [e, Gibbs.expect, mul_sum]
  rw [sum_comm]
  refine sum_congr rfl fun x hx => ?_
  rw [h2 b hb _ (hh x hx), Gibbs.expect, sum_mul]
  exact sum_congr rfl fun y _ => by ring

/-- `partition` of the potentials `q` lies above the tangent at `p`, and the slope of the tangent is `marginals` of `p`. -/
theorem tangent {p q : A.T ℝ} {val val' : List ℕ → ℝ} (D : BatchDP A p lengths B val E parts ones atoms) (D' : BatchDP A q lengths B val' E parts ones atoms)
    {μ : List ℕ → ℝ} (hμ : Dist.marginals A p lengths = .ok μ) (b : ℕ) (hb : b < B) {κ : Type} (X : Finset κ) (f : κ → List ℕ) (hf : Set.InjOn f X)
    (hX : ∀ e, E b e → ∃ x ∈ X, f x = e) (hh : ∀ x ∈ X, (f x).head? = some b) (hm : ∀ x ∈ X, ∀ y, Atom.masked (f x) ∉ atoms b y) :
    ∃ z z', rowValue (Dist.partition A p lengths) b = some z ∧ rowValue (Dist.partition A q lengths) b = some z' ∧
      z + ∑ x ∈ X, μ (f x) * (val' (f x) - val (f x)) ≤ z' := by
  have := D.nonempty_all b hb
  refine ⟨_, _, by rw [D.partition_eq, rowValue_ok _ _ _ hb], by rw [D'.partition_eq, rowValue_ok _ _ _ hb], ?_⟩
  rw [← D.slope val' hμ b hb X f hf hX hh hm]
  exact Gibbs.tangent_le _ _

end BatchDP

/-- A log-likelihood that lies below its tangents is largest exactly where its gradient vanishes. -/
theorem best_iff {κ G V : Type} (X : Finset κ) (L : G → V → ℝ) (p : G) (x : G → κ → ℝ) (val : V → κ → ℝ) (μ : κ → ℝ) (values : List V)
    (tan : ∀ g, ∀ v ∈ values, L g v ≤ L p v + ∑ e ∈ X, (val v e - μ e) * (x g e - x p e)) (nudge : κ → ℝ → G) (h0 : ∀ e ∈ X, nudge e 0 = p)
    (hn : ∀ e ∈ X, ∀ v ∈ values, HasDerivAt (fun t => L (nudge e t) v) (val v e - μ e) 0) :
    (∀ g, (values.map (L g)).sum ≤ (values.map (L p)).sum) ↔ ∀ e ∈ X, (values.map (val · e)).sum = values.length * μ e := by
  have key : ∀ e, (values.map fun v => val v e - μ e).sum = (values.map (val · e)).sum - values.length * μ e := by
    intro e
    clear tan hn
    induction values with
    | nil => simp
    | cons v vs ih => simp only [List.map_cons, List.sum_cons, ih, List.length_cons]; push_cast; ring
  constructor
  · intro h e he
    have hd : HasDerivAt (fun t => (values.map (L (nudge e t))).sum) (values.map fun v => val v e - μ e).sum 0 := by
      clear tan h key
      induction values with
      | nil => simpa using hasDerivAt_const (0 : ℝ) (0 : ℝ)
      | cons v vs ih =>
        simp only [List.map_cons, List.sum_cons]
        exact (hn e he v List.mem_cons_self).fun_add (ih fun e he v hv => hn e he v (List.mem_cons_of_mem _ hv))
    have hmax : IsLocalMax (fun t => (values.map (L (nudge e t))).sum) 0 := by
      refine Filter.Eventually.of_forall fun t => ?_
      beta_reduce
      rw [h0 e he]
      exact h _
    have := hmax.hasDerivAt_eq_zero hd
    rw [key] at this
    linarith
  · intro h g
    have hle : (values.map (L g)).sum ≤ (values.map (L p)).sum + (values.map fun v => ∑ e ∈ X, (val v e - μ e) * (x g e - x p e)).sum := by
      clear h hn key
      induction values with
      | nil => simp
      | cons v vs ih =>
        simp only [List.map_cons, List.sum_cons]
        have h1 := ih fun g v hv => tan g v (List.mem_cons_of_mem _ hv)
        have h2 := tan g v List.mem_cons_self
        linarith
    have hz : (values.map fun v => ∑ e ∈ X, (val v e - μ e) * (x g e - x p e)).sum = ∑ e ∈ X, (values.map fun v => val v e - μ e).sum * (x g e - x p e) := by
      clear h hn key tan hle
      induction values with
      | nil => simp
      | cons v vs ih =>
        simp only [List.map_cons, List.sum_cons, ih, ← sum_add_distrib]
        exact sum_congr rfl fun e _ => by ring
    rw [hz, sum_eq_zero, add_zero] at hle
    · exact hle
    · intro e he
      rw [key, h e he, sub_self, zero_mul]

end Generic
