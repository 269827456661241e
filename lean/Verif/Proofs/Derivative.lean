import Mathlib.Analysis.SpecialFunctions.ExpDeriv
import Mathlib.Analysis.SpecialFunctions.Log.Deriv
import Mathlib.Analysis.Calculus.Deriv.Add
import Mathlib.Analysis.Calculus.Deriv.Mul
import Verif.Proofs.ExactDP
import Verif.Spec.Gradient

/-! Derivatives and convexity of the log-normaliser, and of `partition` for every dynamic program of the form `BatchDP`. -/

open Finset Spec

noncomputable section
namespace Spec.Gibbs
variable {ι : Type} [Fintype ι]

/-- The derivative of the log-normaliser is an expectation. -/
theorem hasDerivAt_logZ [Nonempty ι] (s c : ι → ℝ) : HasDerivAt (fun t => Real.log (Z fun y => s y + t * c y)) (expect s c) 0 := by
  have h1 : HasDerivAt (fun t : ℝ => Z fun y => s y + t * c y) (∑ y, Real.exp (s y) * c y) 0 := by
    unfold Z
    refine HasDerivAt.fun_sum fun y _ => ?_
    have h : HasDerivAt (fun t : ℝ => s y + t * c y) (c y) 0 := by
      simpa using ((hasDerivAt_id (0 : ℝ)).mul_const (c y)).const_add (s y)
    have := h.exp
    simpa using this
  have h2 : (Z fun y => s y + 0 * c y) = Z s := by simp
  have h3 := h1.log (by rw [h2]; exact (Z_pos s).ne')
  rw [h2] at h3
  have e : expect s c = (∑ y, Real.exp (s y) * c y) / Z s := by
    rw [expect, sum_div]
    exact sum_congr rfl fun y _ => by rw [prob]; ring
  rw [e]
  exact h3

/-- The log-normaliser lies above its tangents. -/
theorem tangent_le [Nonempty ι] (s t : ι → ℝ) : Real.log (Z s) + expect s (fun y => t y - s y) ≤ Real.log (Z t) := by
  have h := kl_nonneg s t
  rw [kl_eq] at h
  have e : expect s (fun y => t y - s y) = expect s t - expect s s := by
    unfold expect
    rw [← sum_sub_distrib]
    exact sum_congr rfl fun y _ => by ring
  rw [e]
  linarith

/-- The log-normaliser is convex. -/
theorem logZ_convex [Nonempty ι] (s t : ι → ℝ) (a : ℝ) (h0 : 0 ≤ a) (h1 : a ≤ 1) :
    Real.log (Z fun y => (1 - a) * s y + a * t y) ≤ (1 - a) * Real.log (Z s) + a * Real.log (Z t) := by
  set m : ι → ℝ := fun y => (1 - a) * s y + a * t y with hm
  have hs := tangent_le m s
  have ht := tangent_le m t
  have e : (1 - a) * expect m (fun y => s y - m y) + a * expect m (fun y => t y - m y) = 0 := by
    unfold expect
    rw [mul_sum, mul_sum, ← sum_add_distrib]
    refine sum_eq_zero fun y _ => ?_
    rw [hm]
    ring
  nlinarith

end Spec.Gibbs

namespace Generic

/-- The potential of a factor. -/
def Atom.potential : Atom → Option (List ℕ)
  | pot e => some e
  | _ => none

theorem score_add (z : ℝ) (v d : List ℕ → ℝ) (x : ℝ) (a : Atom) :
    a.score z (fun e => v e + x * d e) = a.score z v + x * a.weight d (fun _ => 0) 0 0 := by
  cases a <;> simp [Atom.score, Atom.weight]

theorem sum_score_add (z : ℝ) (v d : List ℕ → ℝ) (x : ℝ) (m : Multiset Atom) :
    (m.map (Atom.score z fun e => v e + x * d e)).sum = (m.map (Atom.score z v)).sum + x * (m.map (Atom.weight d (fun _ => 0) 0 0)).sum := by
  induction m using Multiset.induction_on with
  | empty => simp
  | cons a m ih => rw [Multiset.map_cons, Multiset.sum_cons, ih, Multiset.map_cons, Multiset.sum_cons, Multiset.map_cons, Multiset.sum_cons, score_add]; ring

theorem sum_weight_single (e : List ℕ) (m : Multiset Atom) :
    (m.map (Atom.weight (fun e' => if e' = e then (1 : ℝ) else 0) (fun _ => 0) 0 0)).sum = (m.filterMap Atom.potential).count e := by
  induction m using Multiset.induction_on with
  | empty => simp
  | cons a m ih =>
    rw [Multiset.map_cons, Multiset.sum_cons, ih]
    cases a with
    | pot e' =>
      rw [Multiset.filterMap_cons_some Atom.potential _ _ (b := e') rfl, Multiset.count_cons]
      simp only [Atom.weight, eq_comm (a := e)]
      push_cast
      ring
    | masked e' => rw [Multiset.filterMap_cons_none _ _ rfl]; simp [Atom.weight]
    | zero => rw [Multiset.filterMap_cons_none _ _ rfl]; simp [Atom.weight]
    | one => rw [Multiset.filterMap_cons_none _ _ rfl]; simp [Atom.weight]

/-- If an entry is never overwritten, the gradient flows to it exactly where its value is used. -/
theorem count_link (e : List ℕ) (m : Multiset Atom) (h : Atom.masked e ∉ m) :
    (m.filterMap Atom.link).count e = (m.filterMap Atom.potential).count e := by
  induction m using Multiset.induction_on with
  | empty => simp
  | cons a m ih =>
    rw [Multiset.mem_cons, not_or] at h
    cases a with
    | pot e' =>
      rw [Multiset.filterMap_cons_some Atom.link _ _ (b := e') rfl, Multiset.filterMap_cons_some Atom.potential _ _ (b := e') rfl, Multiset.count_cons, Multiset.count_cons, ih h.2]
    | masked e' =>
      rw [Multiset.filterMap_cons_some Atom.link _ _ (b := e') rfl, Multiset.filterMap_cons_none _ _ rfl, Multiset.count_cons, ih h.2]
      rw [if_neg (fun hc => h.1 (by rw [hc])), add_zero]
    | zero => rw [Multiset.filterMap_cons_none _ _ rfl, Multiset.filterMap_cons_none _ _ rfl, ih h.2]
    | one => rw [Multiset.filterMap_cons_none _ _ rfl, Multiset.filterMap_cons_none _ _ rfl, ih h.2]

/-- Every potential that a structure uses is one of the entries that matter. -/
theorem RowDP.pot_entry {row : (α : Type) → SR α → (List ℕ → α) → α} {b : ℕ} {E : List ℕ → Prop} {ι π : Type} [Fintype ι] [Fintype π]
    {parts : ι → Multiset (List ℕ)} {ones : ι → ℕ} {atoms : π → Multiset Atom} (D : RowDP row b E parts ones atoms) {t : ι ⊕ π} {e : List ℕ}
    (h : Atom.pot e ∈ allAtoms parts ones atoms t) : E e := by
  cases t with
  | inl y =>
    simp only [allAtoms, Sum.elim_inl, Multiset.mem_add, Multiset.mem_map] at h
    rcases h with ⟨e', h4, h5⟩ | h
    · injection h5 with h5; subst h5; exact D.partE y _ h4
    · have := Multiset.eq_of_mem_replicate h; cases this
  | inr y => exact D.potE y e h

namespace BatchDP
variable {A : Algo} {lengths : Option (List ℕ)} {B : ℕ} {E : ℕ → List ℕ → Prop}
  {ι π : ℕ → Type} [∀ b, Fintype (ι b)] [∀ b, Fintype (π b)] {parts : ∀ b, ι b → Multiset (List ℕ)} {ones : ∀ b, ι b → ℕ}
  {atoms : ∀ b, π b → Multiset Atom}

theorem nonempty_all {γ : Type} {p : A.T γ} {val : List ℕ → γ} (D : BatchDP A p lengths B val E parts ones atoms) (b : ℕ) (hb : b < B) :
    Nonempty (ι b ⊕ π b) := by
  obtain ⟨row, -, h⟩ := D.rows
  exact (h b hb).nonempty_real

/-- The scores along a line. -/
theorem tot_line {γ : Type} {p : A.T γ} {val : List ℕ → γ} (D : BatchDP A p lengths B val E parts ones atoms) (z : ℝ) (u v d : List ℕ → ℝ) (x : ℝ) (b : ℕ)
    (hb : b < B) (h : ∀ e, E b e → u e = v e + x * d e) (t : ι b ⊕ π b) :
    tot (parts b) (atoms b) z u t = tot (parts b) (atoms b) z v t +
      x * ((allAtoms (parts b) (ones b) (atoms b) t).map (Atom.weight d (fun _ => 0) 0 0)).sum := by
  obtain ⟨row, -, hr⟩ := D.rows
  rw [tot_eq (ones := ones b), tot_eq (ones := ones b), ← sum_score_add]
  congr 1
  refine Multiset.map_congr rfl fun a ha => ?_
  cases a with
  | pot e => exact h e ((hr b hb).pot_entry ha)
  | masked e => rfl
  | zero => rfl
  | one => rfl

section line
variable {p : ℝ → A.T ℝ} {val : ℝ → List ℕ → ℝ} {d : List ℕ → ℝ} (D : ∀ t, BatchDP A (p t) lengths B (val t) E parts ones atoms)
  (hd : ∀ t, ∀ b < B, ∀ e, E b e → val t e = val 0 e + t * d e)
include D hd

/-- Row `b` of `partition` along a line of potentials. -/
theorem partition_line (b : ℕ) (hb : b < B) (t : ℝ) : rowValue (Dist.partition A (p t) lengths) b =
    some (Real.log (Gibbs.Z fun y => tot (parts b) (atoms b) Semirings.negInf (val 0) y +
      t * ((allAtoms (parts b) (ones b) (atoms b) y).map (Atom.weight d (fun _ => 0) 0 0)).sum)) := by
  rw [(D t).partition_eq, rowValue_ok _ _ _ hb]
  congr 3
  funext y
  exact (D t).tot_line _ _ _ _ _ _ hb (hd t b hb) _

theorem partition_deriv (b : ℕ) (hb : b < B) : HasRowDeriv (fun t => Dist.partition A (p t) lengths) b
    (Gibbs.expect (tot (parts b) (atoms b) Semirings.negInf (val 0)) fun y =>
      ((allAtoms (parts b) (ones b) (atoms b) y).map (Atom.weight d (fun _ => 0) 0 0)).sum) :=
  have := (D 0).nonempty_all b hb
  ⟨_, fun t => partition_line D hd b hb t, Gibbs.hasDerivAt_logZ _ _⟩

/-- `partition` is convex along a line of potentials. -/
theorem partition_convex (b : ℕ) (hb : b < B) : ConvexRow (fun t => Dist.partition A (p t) lengths) b := by
  have := (D 0).nonempty_all b hb
  refine ⟨_, fun t => partition_line D hd b hb t, fun t u a ha => ?_⟩
  refine le_trans (le_of_eq ?_) (Gibbs.logZ_convex _ _ a ha.1 ha.2)
  congr 2
  funext y
  ring

end line

/-- Moving one entry that is never overwritten: the derivative is the entry of `marginals`, and 0 for the other rows. -/
theorem marginals_deriv {p : ℝ → A.T ℝ} {val : ℝ → List ℕ → ℝ} {e : List ℕ} (D : ∀ t, BatchDP A (p t) lengths B (val t) E parts ones atoms)
    (hd : ∀ t, ∀ b < B, ∀ e', E b e' → val t e' = val 0 e' + t * if e' = e then 1 else 0)
    {μ : List ℕ → ℝ} (hμ : Dist.marginals A (p 0) lengths = .ok μ) (b0 : ℕ) (hb0 : b0 < B)
    (he : e.head? = some b0) (hm : ∀ y, Atom.masked e ∉ atoms b0 y) (b : ℕ) (hb : b < B) :
    HasRowDeriv (fun t => Dist.partition A (p t) lengths) b (if b = b0 then μ e else 0) := by
  obtain ⟨μ', h1, h2⟩ := (D 0).marginals_eq
  obtain rfl : μ = μ' := Except.ok.inj (hμ.symm.trans h1)
  have h3 := partition_deriv D hd b hb
  simp only [sum_weight_single] at h3
  convert h3 using 1
  by_cases h : b = b0
  · subst h
    rw [if_pos rfl, h2 b hb e he]
    congr 1
    funext y
    rw [count_link]
    cases y with
    | inl y =>
      simp only [allAtoms, Sum.elim_inl, Multiset.mem_add, Multiset.mem_map, reduceCtorEq, and_false, exists_false, false_or]
      intro hc
      cases Multiset.eq_of_mem_replicate hc
    | inr y => exact hm y
  · rw [if_neg h, Gibbs.expect, sum_eq_zero]
    intro y _
    rw [Multiset.count_eq_zero_of_notMem]
    · simp
    · intro hc
      obtain ⟨row, -, hr⟩ := (D 0).rows
      obtain ⟨a, ha, hae⟩ := (Multiset.mem_filterMap _ _).1 hc
      have : a = .pot e := by cases a <;> simp_all [Atom.potential]
      subst this
      have h6 := (hr b hb).head e ((hr b hb).pot_entry ha)
      rw [he] at h6
      exact h (Option.some.inj h6).symm

/-- Moving an entry that no structure uses: `partition` does not change. -/
theorem unused_deriv {p : ℝ → A.T ℝ} {val : ℝ → List ℕ → ℝ} {e : List ℕ} (D : ∀ t, BatchDP A (p t) lengths B (val t) E parts ones atoms)
    (hd : ∀ t, ∀ b < B, ∀ e', E b e' → val t e' = val 0 e' + t * if e' = e then 1 else 0) (hE : ∀ b < B, ¬ E b e) (b : ℕ) (hb : b < B) :
    HasRowDeriv (fun t => Dist.partition A (p t) lengths) b 0 := by
  have h3 := partition_deriv D hd b hb
  simp only [sum_weight_single] at h3
  convert h3 using 1
  rw [Gibbs.expect, sum_eq_zero]
  intro y _
  rw [Multiset.count_eq_zero_of_notMem]
  · simp
  · intro hc
    obtain ⟨row, -, hr⟩ := (D 0).rows
    obtain ⟨a, ha, hae⟩ := (Multiset.mem_filterMap _ _).1 hc
    have : a = .pot e := by cases a <;> simp_all [Atom.potential]
    subst this
    exact hE b hb ((hr b hb).pot_entry ha)

end BatchDP
end Generic
