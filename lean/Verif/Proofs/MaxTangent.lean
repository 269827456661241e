import Verif.Proofs.Reweight

/-! `max` lies above its tangents, whose slopes are `argmax`. -/

open Finset Spec

noncomputable section
namespace Generic
namespace BatchDP
variable {A : Algo} {lengths : Option (List ℕ)} {B : ℕ} {E : ℕ → List ℕ → Prop}
  {ι π : ℕ → Type} [∀ b, Fintype (ι b)] [∀ b, Fintype (π b)] {parts : ∀ b, ι b → Multiset (List ℕ)} {ones : ∀ b, ι b → ℕ}
  {atoms : ∀ b, π b → Multiset Atom}

/-- The change of a score, entry by entry. -/
theorem tot_change {p : A.T ℝ} {val : List ℕ → ℝ} (D : BatchDP A p lengths B val E parts ones atoms) (val' : List ℕ → ℝ) (b : ℕ) (hb : b < B) {κ : Type} (X : Finset κ)
    (f : κ → List ℕ) (hf : Set.InjOn f X) (hX : ∀ e, E b e → ∃ x ∈ X, f x = e) (hm : ∀ x ∈ X, ∀ y, Atom.masked (f x) ∉ atoms b y) (y : ι b ⊕ π b) :
    tot (parts b) (atoms b) Semirings.negInf val' y = tot (parts b) (atoms b) Semirings.negInf val y +
      ∑ x ∈ X, (((allAtoms (parts b) (ones b) (atoms b) y).filterMap Atom.link).count (f x) : ℝ) * (val' (f x) - val (f x)) := by
  rw [D.tot_line Semirings.negInf val' val (fun e => val' e - val e) 1 b hb (fun e _ => by ring) y, one_mul, sum_weight X f hf]
  · refine congrArg _ (sum_congr rfl fun x hx => ?_)
    rw [count_link, mul_comm]
    cases y with
    | inl y =>
      simp only [allAtoms, Sum.elim_inl, Multiset.mem_add, Multiset.mem_map, reduceCtorEq, and_false, exists_false, false_or]
      intro hc
      cases Multiset.eq_of_mem_replicate hc
    | inr y => exact hm x hx y
  · intro e he
    obtain ⟨row, -, hr⟩ := D.rows
    exact hX e ((hr b hb).pot_entry he)

/-- `max` of the potentials `q` lies above the tangent at `p`, and the slope of the tangent is `argmax` of `p`. -/
theorem max_tangent {p q : A.T ℝ} {val val' : List ℕ → ℝ} (D : BatchDP A p lengths B val E parts ones atoms) (D' : BatchDP A q lengths B val' E parts ones atoms)
    {pick : List (Autograd.Grad (List ℕ)) → Autograd.Grad (List ℕ)} (hp : Autograd.IsArgmax Prod.fst pick)
    {μ : List ℕ → ℝ} (hμ : Dist.argmax A p lengths pick = .ok μ) (b : ℕ) (hb : b < B) {κ : Type} (X : Finset κ) (f : κ → List ℕ) (hf : Set.InjOn f X)
    (hX : ∀ e, E b e → ∃ x ∈ X, f x = e) (hh : ∀ x ∈ X, (f x).head? = some b) (hm : ∀ x ∈ X, ∀ y, Atom.masked (f x) ∉ atoms b y) :
    ∃ z z', rowValue (Dist.max A p lengths) b = some z ∧ rowValue (Dist.max A q lengths) b = some z' ∧
      z + ∑ x ∈ X, μ (f x) * (val' (f x) - val (f x)) ≤ z' := by
  obtain ⟨μ', h1, h2⟩ := D.argmax_eq hp
  obtain rfl : μ = μ' := Except.ok.inj (hμ.symm.trans h1)
  obtain ⟨vs, v1, v2, v3⟩ := D.max_eq
  obtain ⟨ws, w1, w2, w3⟩ := D'.max_eq
  have hv : b < vs.length := v2 ▸ hb
  have hw : b < ws.length := w2 ▸ hb
  refine ⟨vs[b], ws[b], by rw [v1]; exact List.getElem?_eq_getElem hv, by rw [w1]; exact List.getElem?_eq_getElem hw, ?_⟩
  obtain ⟨t, t1, t2⟩ := h2 b hb
  obtain ⟨⟨t', e'⟩, h4⟩ := v3 b hv
  have e : vs[b] = tot (parts b) (atoms b) Semirings.negInf val t := le_antisymm (e' ▸ t1 t') (h4 t)
  refine le_trans (le_of_eq ?_) ((w3 b hw).2 t)
  rw [D.tot_change val' b hb X f hf hX hm t, e]
  exact congrArg _ (sum_congr rfl fun x hx => by rw [t2 _ (hh x hx)])

/-- The two tangents at the potentials before and after one of them moved by `δ`. -/
theorem max_move {p q : A.T ℝ} {val val' : List ℕ → ℝ} (D : BatchDP A p lengths B val E parts ones atoms) (D' : BatchDP A q lengths B val' E parts ones atoms)
    {pick : List (Autograd.Grad (List ℕ)) → Autograd.Grad (List ℕ)} (hp : Autograd.IsArgmax Prod.fst pick)
    (b : ℕ) (hb : b < B) (e : List ℕ) (hh : e.head? = some b) (δ : ℝ) (hv : ∀ e', E b e' → val' e' = val e' + δ * if e' = e then 1 else 0)
    (hm : ∀ y, Atom.masked e ∉ atoms b y) :
    ∃ μ ν z z', Dist.argmax A p lengths pick = .ok μ ∧ Dist.argmax A q lengths pick = .ok ν ∧ rowValue (Dist.max A p lengths) b = some z ∧
      rowValue (Dist.max A q lengths) b = some z' ∧ z + μ e * δ ≤ z' ∧ z' + ν e * (-δ) ≤ z := by
  obtain ⟨μ, h1, h2⟩ := D.argmax_eq hp
  obtain ⟨ν, g1, g2⟩ := D'.argmax_eq hp
  obtain ⟨vs, v1, v2, v3⟩ := D.max_eq
  obtain ⟨ws, w1, w2, w3⟩ := D'.max_eq
  have hb1 : b < vs.length := v2 ▸ hb
  have hb2 : b < ws.length := w2 ▸ hb
  refine ⟨μ, ν, vs[b], ws[b], h1, g1, by rw [v1]; exact List.getElem?_eq_getElem hb1, by rw [w1]; exact List.getElem?_eq_getElem hb2, ?_⟩
  have ht := D.tot_move b hb e δ hv hm
  obtain ⟨t, t1, t2⟩ := h2 b hb
  obtain ⟨u, u1, u2⟩ := g2 b hb
  obtain ⟨⟨t', e1⟩, a1⟩ := v3 b hb1
  obtain ⟨⟨u', e2⟩, a2⟩ := w3 b hb2
  have c1 : vs[b] = tot (parts b) (atoms b) Semirings.negInf val t := le_antisymm (e1 ▸ t1 t') (a1 t)
  have c2 : ws[b] = tot (parts b) (atoms b) Semirings.negInf val' u := le_antisymm (e2 ▸ u1 u') (a2 u)
  rw [t2 e hh, u2 e hh]
  constructor
  · have := a2 t
    rw [ht] at this
    linarith
  · have := a1 u
    rw [ht] at c2
    linarith

end BatchDP
end Generic
