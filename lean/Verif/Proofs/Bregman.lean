import Verif.Proofs.Consistency
import Verif.Proofs.Derivative

/-! The divergence computed by `KLDivergenceSemiring` is the distance between `partition` and its tangent: in every dynamic program, along the line from
the potentials of the first distribution to those of the second. -/

open Finset Semirings Spec

noncomputable section
namespace Bregman

/-- `LogSemiring` on functions of a parameter. -/
def along (z : ℝ) : SR (ℝ → ℝ) where
  zero := fun _ => z
  one := fun _ => 0
  mul a b := fun t => a t + b t
  sum xs := fun t => lse (xs.map fun x => x t)
  raw0 := fun _ => 0
  detach x := x
  setData _ v := v

theorem eval (z t : ℝ) : SRP (along z) (logZ z) fun φ x => φ t = x where
  zero := rfl
  one := rfl
  raw0 := rfl
  mul := by rintro a b _ _ rfl rfl; rfl
  sum := by intro as xs _ h; rw [← Consistency.forall₂_map h]; rfl
  detach := by rintro a _ rfl; rfl
  setData := by rintro a b _ _ rfl rfl; rfl

/-- The values at both ends, and the derivative at the first. -/
def Line (c : ℝ × ℝ × ℝ) (φ : ℝ → ℝ) : Prop := φ 0 = c.1 ∧ φ 1 = c.2.1 ∧ HasDerivAt φ (c.2.1 - c.1 - c.2.2) 0

theorem exp_deriv {as : List (ℝ × ℝ × ℝ)} {xs : List (ℝ → ℝ)} (h : List.Forall₂ Line as xs) :
    HasDerivAt (fun t => (xs.map fun x => Real.exp (x t)).sum) (as.map fun a => Real.exp a.1 * (a.2.1 - a.1 - a.2.2)).sum 0 := by
  induction h with
  | nil => simpa using hasDerivAt_const (0 : ℝ) (0 : ℝ)
  | cons h _ ih =>
    simp only [List.map_cons, List.sum_cons]
    have := h.2.2.exp
    rw [h.1] at this
    exact this.add ih

theorem sum_exp_pos {as : List ℝ} (hne : as ≠ []) : 0 < (as.map Real.exp).sum := by
  refine List.sum_pos _ (fun x hx => ?_) (by simpa using hne)
  obtain ⟨a, -, rfl⟩ := List.mem_map.1 hx
  exact Real.exp_pos a

theorem kl_line (z : ℝ) : SRP (klZ z) (along z) Line where
  zero := ⟨rfl, rfl, by simpa [klZ, along] using hasDerivAt_const (0 : ℝ) z⟩
  one := ⟨rfl, rfl, by simpa [klZ, along] using hasDerivAt_const (0 : ℝ) (0 : ℝ)⟩
  raw0 := ⟨rfl, rfl, by simpa [klZ, along] using hasDerivAt_const (0 : ℝ) (0 : ℝ)⟩
  mul := by
    rintro a b x y ⟨h1, h2, h3⟩ ⟨g1, g2, g3⟩
    refine ⟨by simp [klZ, along, h1, g1], by simp [klZ, along, h2, g2], ?_⟩
    have e : (klZ z).mul a b = (a.1 + b.1, a.2.1 + b.2.1, a.2.2 + b.2.2) := rfl
    rw [e]
    have := h3.fun_add g3
    rw [show a.2.1 - a.1 - a.2.2 + (b.2.1 - b.1 - b.2.2) = a.2.1 + b.2.1 - (a.1 + b.1) - (a.2.2 + b.2.2) by ring] at this
    exact this
  sum := by
    intro as xs hne h
    have e0 : (xs.map fun x => x 0) = as.map fun a => a.1 := (Consistency.forall₂_pull h fun a b h => h.1.symm).symm
    have e1 : (xs.map fun x => x 1) = as.map fun a => a.2.1 := (Consistency.forall₂_pull h fun a b h => h.2.1.symm).symm
    refine ⟨by simp only [along, klZ]; rw [e0], by simp only [along, klZ]; rw [e1], ?_⟩
    have hd := exp_deriv h
    have hp := sum_exp_pos (as := as.map fun a => a.1) (by simpa using hne)
    have e2 : (xs.map fun x => Real.exp (x 0)).sum = ((as.map fun a => a.1).map Real.exp).sum := by rw [← e0, List.map_map]; rfl
    have hl := hd.log (by rw [e2]; exact hp.ne')
    have e3 : (fun t => lse (xs.map fun x => x t)) = fun t => Real.log (xs.map fun x => Real.exp (x t)).sum := by
      funext t; rw [lse, List.map_map]; rfl
    simp only [along]
    rw [e3]
    convert hl using 1
    rw [e2]
    simp only [klZ]
    have e4 : lse (as.map fun a => a.1) = Real.log ((as.map fun a => a.1).map Real.exp).sum := rfl
    generalize hS : ((as.map fun a => a.1).map Real.exp).sum = S at *
    generalize lse (as.map fun a => a.2.1) = Q
    rw [e4]
    have key : ∀ l : List (ℝ × ℝ × ℝ), (l.map fun x => x.2.2 * Real.exp (x.1 - Real.log S) - (x.2.1 - Q) * Real.exp (x.1 - Real.log S) +
        (x.1 - Real.log S) * Real.exp (x.1 - Real.log S)).sum =
        ((Q - Real.log S) * ((l.map fun a => a.1).map Real.exp).sum - (l.map fun a => Real.exp a.1 * (a.2.1 - a.1 - a.2.2)).sum) / S := by
      intro l
      induction l with
      | nil => simp
      | cons a l ih =>
        simp only [List.map_cons, List.sum_cons]
        rw [ih, Real.exp_sub, Real.exp_log hp]
        field_simp
        ring
    rw [key, hS]
    field_simp
    ring
  detach := fun h => h
  setData := fun _ h => h

/-- The two distributions as one table, and the line between them. -/
def between (x : ℝ × ℝ) (t : ℝ) : ℝ := x.1 + t * (x.2 - x.1)

theorem between_line (x : ℝ × ℝ) : Line (pairConvert x) (between x) := by
  refine ⟨by simp [between, pairConvert], by simp [between, pairConvert], ?_⟩
  have : HasDerivAt (fun t : ℝ => x.1 + t * (x.2 - x.1)) (x.2 - x.1) 0 := by
    simpa using ((hasDerivAt_id (0 : ℝ)).mul_const (x.2 - x.1)).const_add x.1
  have e : (pairConvert x).2.1 - (pairConvert x).1 - (pairConvert x).2.2 = x.2 - x.1 := by simp [pairConvert]
  rw [e]
  exact this

/-- In every dynamic program: row `b` of the divergence, from the partition along the line. -/
theorem kl_row {A : Algo} {good : ∀ {γ : Type}, A.T γ → Prop} (P : Parametric A good) (x : A.T (ℝ × ℝ)) (h : good x) (lengths : Option (List ℕ)) {b : ℕ} {F : ℝ → ℝ}
    (hF : ∀ t, rowValue (A.run log (A.map (fun y => between y t) x) lengths) b = some (F t)) {d : ℝ} (hd : HasDerivAt F d 0) :
    rowValue ((A.run kl (A.map pairConvert x) lengths).map (List.map fun a => a.2.2)) b = some (F 1 - F 0 - d) := by
  have R := P.run (kl_line negInf) x h pairConvert between between_line lengths
  have E : ∀ t, (A.run (along negInf) (A.map between x) lengths).map (List.map fun φ => φ t) = A.run log (A.map (fun y => between y t) x) lengths :=
    fun t => RelE.map_eq (P.run (eval negInf t) x h between (fun y => between y t) (fun _ => rfl) lengths)
  change RelE Line (A.run kl _ lengths) _ at R
  rcases h1 : A.run kl (A.map pairConvert x) lengths with e | as <;> rcases h2 : A.run (along negInf) (A.map between x) lengths with e' | fs <;> rw [h1, h2] at R
  · have := hF 0
    rw [← E, h2] at this
    simp [rowValue, Except.map] at this
  · exact R.elim
  · exact R.elim
  · have R : List.Forall₂ Line as fs := R
    have hv : ∀ t, (fs.map fun φ => φ t)[b]? = some (F t) := by
      intro t
      have := hF t
      rw [← E, h2] at this
      exact this
    have hb : b < fs.length := by
      by_contra hc
      have := hv 0
      rw [List.getElem?_eq_none (by simpa using hc)] at this
      cases this
    have hb' : b < as.length := by rw [R.length_eq]; exact hb
    have hl := List.forall₂_iff_get.1 R |>.2 b hb' hb
    have hφ : ∀ t, fs[b] t = F t := by
      intro t
      have := hv t
      rw [List.getElem?_eq_getElem (by simpa using hb), List.getElem_map] at this
      exact Option.some.inj this
    obtain ⟨l1, l2, l3⟩ := hl
    simp only [List.get_eq_getElem] at l1 l2 l3
    have e : (fs[b] : ℝ → ℝ) = F := funext hφ
    rw [e] at l1 l2 l3
    have := l3.unique hd
    change (as.map fun a => a.2.2)[b]? = _
    rw [List.getElem?_eq_getElem (by simpa using hb'), List.getElem_map, l1, l2]
    congr 1
    linarith

end Bregman
