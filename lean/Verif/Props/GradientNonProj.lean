import Verif.Proofs.Derivative
import Verif.Props.NonProjLengths

/-! Property theorems C61 and C62 for `NonProjectiveDependencyCRF`: `marginals`, which is computed from the inverse of the matrix and not by
automatic differentiation, is the derivative of `partition`; `partition` is convex. -/

open Finset hiding offDiag
open Spec MatrixTree

noncomputable section
namespace Props.GradientNonProj
open _root_.NonProj Props.NonProj

/-- The scores with entry `(h, m)` moved by `t`. -/
def nudgeRow (s : ℕ → ℕ → ℝ) (h m : ℕ) (t : ℝ) : ℕ → ℕ → ℝ := fun h' m' => s h' m' + if h' = h ∧ m' = m then t else 0

/-- The direction in which column `m` of the matrix moves. -/
def dir (multiroot : Bool) {N : ℕ} (h m : Fin N) (j : Fin N) : ℝ :=
  if multiroot then (if j = m then 1 else 0) - (if h = m then 0 else if j = h then 1 else 0)
  else if h = m then (if (j : ℕ) = 0 then 1 else 0)
  else if (j : ℕ) = 0 then 0 else (if j = m then 1 else 0) - if j = h then 1 else 0

/-- How far it moves. -/
def step (s : ℕ → ℕ → ℝ) (len : Option ℕ) (h m : ℕ) (t : ℝ) : ℝ := expIn s len h m * (Real.exp t - 1)

theorem exp_nudge (s : ℕ → ℕ → ℝ) (len : Option ℕ) (h m : ℕ) (t : ℝ) (h' m' : ℕ) :
    expIn (nudgeRow s h m t) len h' m' = expIn s len h' m' + if h' = h ∧ m' = m then step s len h m t else 0 := by
  unfold step expIn nudgeRow
  by_cases hc : h' = h ∧ m' = m
  · obtain ⟨rfl, rfl⟩ := hc
    simp only [and_self, if_true]
    split_ifs
    · rw [Real.exp_add]; ring
    · ring
  · simp [hc]

theorem off_nudge (eps : ℝ) (s : ℕ → ℕ → ℝ) (len : Option ℕ) (h m : ℕ) (t : ℝ) (h' m' : ℕ) :
    offDiag eps (nudgeRow s h m t) len h' m' = offDiag eps s len h' m' + if h ≠ m ∧ h' = h ∧ m' = m then step s len h m t else 0 := by
  unfold offDiag
  by_cases h1 : h' = m'
  · subst h1
    have : ¬ (h ≠ m ∧ h' = h ∧ h' = m) := fun hc => hc.1 (hc.2.1 ▸ hc.2.2)
    simp [this]
  · rw [if_neg h1, if_neg h1, exp_nudge]
    by_cases hc : h' = h ∧ m' = m
    · have : h ≠ m := fun he => h1 (hc.1.trans (he.trans hc.2.symm))
      simp only [hc, this, ne_eq, not_false_eq_true, and_self, if_true]; ring
    · have : ¬ (h ≠ m ∧ h' = h ∧ m' = m) := fun x => hc x.2
      rw [if_neg hc, if_neg this]; ring

theorem sum_nudge (eps : ℝ) (s : ℕ → ℕ → ℝ) (len : Option ℕ) {N : ℕ} (h m : ℕ) (hh : h < N) (t : ℝ) (k : ℕ) :
    ((List.range N).map fun j => offDiag eps (nudgeRow s h m t) len j k).sum =
      ((List.range N).map fun j => offDiag eps s len j k).sum + if h ≠ m ∧ k = m then step s len h m t else 0 := by
  rw [range_sum, range_sum]
  simp only [off_nudge, sum_add_distrib]
  congr 1
  rw [sum_eq_single_of_mem h (mem_range.2 hh)]
  · simp
  · intro j _ hj
    rw [if_neg fun hc => hj hc.2.1]

theorem matrix_nudge (multiroot : Bool) (eps : ℝ) (s : ℕ → ℕ → ℝ) (len : Option ℕ) {N : ℕ} (h m : Fin N) (t : ℝ) :
    matrix multiroot eps (nudgeRow s h m t) len N =
      (matrix multiroot eps s len N).updateCol m fun j => matrix multiroot eps s len N j m + step s len h m t * dir multiroot h m j := by
  ext j k
  rw [Matrix.updateCol_apply]
  simp only [matrix, Matrix.of_apply, full, lap]
  simp only [sum_nudge eps s len h m h.2]
  simp only [off_nudge, exp_nudge]
  have hv : ∀ a b : Fin N, (a : ℕ) = b ↔ a = b := fun a b => Fin.ext_iff.symm
  simp only [hv, ne_eq]
  by_cases hk : k = m
  · subst hk
    simp only [if_true, dir, hv]
    cases multiroot with
    | true =>
      by_cases hhm : h = k
      · subst hhm
        by_cases hj : j = h
        · subst hj; simp
          ring
        · simp [hj]
      · by_cases hj : j = k
        · subst hj
          have : ¬ j = h := fun hc => hhm hc.symm
          simp [hhm, this]; ring
        · by_cases hj2 : j = h
          · subst hj2; simp [hhm]; ring
          · simp [hj, hj2, hhm]
    | false =>
      by_cases hj0 : (j : ℕ) = 0
      · by_cases hhm : h = k
        · subst hhm; simp [hj0]
        · have : ¬ k = h := fun hc => hhm hc.symm
          simp [hj0, hhm, this]
      · by_cases hhm : h = k
        · subst hhm; simp [hj0]
        · by_cases hj : j = k
          · subst hj
            have : ¬ j = h := fun hc => hhm hc.symm
            simp [hj0, hhm, this]; ring
          · by_cases hj2 : j = h
            · subst hj2; simp [hj0, hhm]; ring
            · simp [hj0, hj, hj2, hhm]
  · simp [hk]

/-- The determinant moves along a line, as a function of `exp t`. -/
theorem det_nudge (multiroot : Bool) (eps : ℝ) (s : ℕ → ℕ → ℝ) (len : Option ℕ) {N : ℕ} (h m : Fin N) (t : ℝ) :
    (matrix multiroot eps (nudgeRow s h m t) len N).det = (matrix multiroot eps s len N).det +
      step s len h m t * ∑ j, (matrix multiroot eps s len N).adjugate m j * dir multiroot h m j := by
  rw [matrix_nudge]
  have e : (fun j => matrix multiroot eps s len N j m + step s len h m t * dir multiroot h m j) =
      (fun j => matrix multiroot eps s len N j m) + step s len h m t • dir multiroot h m := rfl
  rw [e, Matrix.det_updateCol_add, Matrix.det_updateCol_smul, Matrix.updateCol_eq_self, ← Matrix.cramer_apply, Matrix.cramer_eq_adjugate_mulVec]
  rfl

/-- What `marginals` computes, in terms of the direction. -/
theorem marginal_dir (multiroot : Bool) (s : ℕ → ℕ → ℝ) (len : Option ℕ) {N : ℕ} (inv : Matrix (Fin N) (Fin N) ℝ) (h m : Fin N) :
    marginal multiroot s len inv h m = expIn s len h m * ∑ j, inv m j * dir multiroot h m j := by
  unfold marginal dir
  have hN : 0 < N := Nat.lt_of_le_of_lt (Nat.zero_le _) m.2
  cases multiroot with
  | true =>
    by_cases hm : h = m
    · subst hm
      simp
    · simp [hm, mul_sub, sum_sub_distrib]
  | false =>
    have h0 : ∀ j : Fin N, (j : ℕ) = 0 ↔ j = ⟨0, hN⟩ := fun j => ⟨fun hj => Fin.ext hj, fun hj => by rw [hj]⟩
    by_cases hm : h = m
    · subst hm
      simp [h0]
    · have hs : ∀ x : Fin N, (∑ j : Fin N, if (j : ℕ) = 0 then (0 : ℝ) else if j = x then inv m j else 0) = if (x : ℕ) = 0 then 0 else inv m x := by
        intro x
        rw [sum_eq_single x]
        · simp
        · intro j _ hj; simp [hj]
        · simp
      have e : ∀ j : Fin N, (inv m j * if (j : ℕ) = 0 then 0 else (if j = m then 1 else 0) - if j = h then 1 else 0) =
          (if (j : ℕ) = 0 then (0 : ℝ) else if j = m then inv m j else 0) - if (j : ℕ) = 0 then (0 : ℝ) else if j = h then inv m j else 0 := by
        intro j
        split_ifs <;> simp
      simp only [Bool.false_eq_true, if_false, hm, e, sum_sub_distrib, hs]
      split_ifs <;> ring

theorem det_deriv (multiroot : Bool) (eps : ℝ) (s : ℕ → ℕ → ℝ) (len : Option ℕ) {N : ℕ} (h m : Fin N) (hdet : 0 < (matrix multiroot eps s len N).det) :
    HasDerivAt (fun t => Real.log (matrix multiroot eps (nudgeRow s h m t) len N).det)
      (marginal multiroot s len (matrix multiroot eps s len N)⁻¹ h m) 0 := by
  simp only [det_nudge]
  set A := ∑ j, (matrix multiroot eps s len N).adjugate m j * dir multiroot h m j with hA
  set D := (matrix multiroot eps s len N).det with hD
  have h0 : step s len h m 0 = 0 := by simp [step]
  have h1 : HasDerivAt (fun t => step s len h m t) (expIn s len h m) 0 := by
    have := ((Real.hasDerivAt_exp 0).sub_const 1).const_mul (expIn s len h m)
    simpa [step] using this
  have h2 := (h1.mul_const A).const_add D
  have h3 := h2.log (by rw [h0]; simpa using hdet.ne')
  rw [h0, zero_mul, add_zero] at h3
  convert h3 using 1
  rw [marginal_dir, mul_div_assoc, hA]
  congr 1
  rw [Matrix.inv_def, ← hD, sum_div]
  refine sum_congr rfl fun j _ => ?_
  rw [Matrix.smul_apply, Ring.inverse_eq_inv', smul_eq_mul]
  field_simp

/-- The table with entry `(b, h, m)` moved by `t`. -/
def nudge (p : Table) (b h m : ℕ) (t : ℝ) : Table := ⟨p.batch, p.N, fun b' h' m' => p.get b' h' m' + if b' = b ∧ h' = h ∧ m' = m then t else 0⟩

theorem get_nudge (p : Table) (b h m : ℕ) (t : ℝ) : (nudge p b h m t).get b = nudgeRow (p.get b) h m t := by
  funext h' m'
  simp [nudge, nudgeRow]

theorem get_other (p : Table) (b h m : ℕ) (t : ℝ) (b' : ℕ) (hb : b' ≠ b) : (nudge p b h m t).get b' = p.get b' := by
  funext h' m'
  simp [nudge, hb]

/-- The length of row `b`. -/
def rowLen (lengths : Option (List ℕ)) (b : ℕ) : Option ℕ := lengths.map fun l => l.getD b 0

theorem rows_eq (B : ℕ) (lengths : Option (List ℕ)) (hl : ∀ l, lengths = some l → l.length = B) :
    rows B lengths = .ok ((List.range B).map fun b => (b, rowLen lengths b)) := by
  cases lengths with
  | none => rfl
  | some l => rw [rows_some _ _ (hl l rfl)]; rfl

theorem part_row (multiroot : Bool) (eps : ℝ) (p : Table) (lengths : Option (List ℕ)) (hl : ∀ l, lengths = some l → l.length = p.batch) (hN : 1 ≤ p.N) (b : ℕ)
    (hb : b < p.batch) : rowValue (part multiroot eps p lengths) b = some (logdet (matrix multiroot eps (p.get b) (rowLen lengths b) p.N)) := by
  rw [part, if_neg (by omega), rows_eq _ _ hl]
  change (List.map _ (List.map _ _))[b]? = _
  rw [List.map_map]
  exact rowValue_ok p.batch _ b hb

theorem marginals_row (multiroot : Bool) (eps : ℝ) (p : Table) (lengths : Option (List ℕ)) (hl : ∀ l, lengths = some l → l.length = p.batch) (hN : 1 ≤ p.N)
    (hdet : ∀ b < p.batch, (matrix multiroot eps (p.get b) (rowLen lengths b) p.N).det ≠ 0) :
    marginals multiroot eps p lengths = .ok ((List.range p.batch).map fun b => marginal multiroot (p.get b) (rowLen lengths b)
      (matrix multiroot eps (p.get b) (rowLen lengths b) p.N)⁻¹) := by
  rw [marginals, if_neg (by omega), rows_eq _ _ hl]
  change List.mapM _ (List.map _ _) = _
  rw [List.mapM_map]
  refine mapM_ok _ _ _ fun b hb => ?_
  change marginalsRow multiroot eps (p.get b) (rowLen lengths b) p.N = _
  rw [marginalsRow, if_neg (hdet b (List.mem_range.1 hb))]

/-- **C61, `NonProjectiveDependencyCRF`**, with or without lengths: if `partition` of every row is a number, `marginals` returns a table, and its entry
`(h, m)` of row `b` is the derivative of row `b` of `partition` with respect to score `(b, h, m)`; the other rows of `partition` do not change.  (This holds with the smoothing
constant `1e-5`, although the marginals are then not exactly probabilities.) -/
theorem marginals_deriv (multiroot : Bool) (p : Table) (lengths : Option (List ℕ)) (hl : ∀ l, lengths = some l → l.length = p.batch) (hN : 1 ≤ p.N)
    (hv : ∀ b < p.batch, ∃ v, rowValue (partition multiroot p lengths) b = some (some v)) :
    ∃ ms, distMarginals multiroot p lengths = .ok ms ∧ ms.length = p.batch ∧ ∀ b (hb : b < ms.length) (h m : Fin p.N),
      (∃ F : ℝ → ℝ, (∀ᶠ t in nhds 0, rowValue (partition multiroot (nudge p b h m t) lengths) b = some (some (F t))) ∧ HasDerivAt F (ms[b] h m) 0) ∧
      ∀ b' < p.batch, b' ≠ b → ∀ t, rowValue (partition multiroot (nudge p b h m t) lengths) b' = rowValue (partition multiroot p lengths) b' := by
  have hdet : ∀ b < p.batch, 0 < (matrix multiroot eps0 (p.get b) (rowLen lengths b) p.N).det := by
    intro b hb
    obtain ⟨v, h1⟩ := hv b hb
    rw [partition, part_row multiroot eps0 p lengths hl hN b hb, logdet] at h1
    by_contra hc
    rw [if_neg hc] at h1
    simp at h1
  refine ⟨_, marginals_row multiroot eps0 p lengths hl hN fun b hb => (hdet b hb).ne', by simp, fun b hb h m => ⟨?_, ?_⟩⟩
  · have hb' : b < p.batch := by simpa using hb
    have hd := det_deriv multiroot eps0 (p.get b) (rowLen lengths b) h m (hdet b hb')
    refine ⟨_, ?_, by simpa using hd⟩
    have hpos : ∀ᶠ t in nhds (0 : ℝ), 0 < (matrix multiroot eps0 (nudgeRow (p.get b) h m t) (rowLen lengths b) p.N).det := by
      have hc : Continuous fun t : ℝ => (matrix multiroot eps0 (nudgeRow (p.get b) h m t) (rowLen lengths b) p.N).det := by
        simp only [det_nudge, step]
        fun_prop
      refine hc.continuousAt.eventually_mem (IsOpen.mem_nhds isOpen_Ioi ?_)
      have : nudgeRow (p.get b) h m 0 = p.get b := by funext h' m'; simp [nudgeRow]
      rw [this]
      exact hdet b hb'
    filter_upwards [hpos] with t ht
    rw [partition, part_row multiroot eps0 (nudge p b h m t) lengths hl hN b hb', get_nudge, logdet]
    exact congrArg some (if_pos ht)
  · intro b' hb' hne t
    rw [partition, part_row multiroot eps0 (nudge p b h m t) lengths hl hN b' hb', get_other p b h m t b' hne, partition, part_row multiroot eps0 p lengths hl hN b' hb']
    rfl

/-- Without lengths the hypothesis on `partition` always holds. -/
theorem partition_some (multiroot : Bool) (p : Table) (hN : 1 ≤ p.N) (b : ℕ) (hb : b < p.batch) :
    ∃ v, rowValue (partition multiroot p none) b = some (some v) := by
  rw [partition_spec multiroot p (Or.inr hN)]
  exact ⟨_, rowValue_ok p.batch _ b hb⟩

/-- It also holds with lengths and several roots. -/
theorem partition_some_lengths (p : Table) (l : List ℕ) (hl : LengthsIn p.batch p.N (some l)) (hN : 1 ≤ p.N) (b : ℕ) (hb : b < p.batch) :
    ∃ v, rowValue (partition true p (some l)) b = some (some v) := by
  obtain ⟨vs, h1, h2, h3⟩ := partition_too_large p l hl hN
  obtain ⟨v, h4, -⟩ := h3 b (by omega)
  refine ⟨v, ?_⟩
  rw [h1]
  change vs[b]? = _
  rw [List.getElem?_eq_getElem (by omega), h4]

example (multiroot : Bool) : ∃ ms, distMarginals multiroot sample none = .ok ms ∧ ∃ μ, ms[1]? = some μ ∧
    ∃ F : ℝ → ℝ, (∀ᶠ t in nhds 0, rowValue (partition multiroot (nudge sample 1 2 0 t) none) 1 = some (some (F t))) ∧
      HasDerivAt F (μ (⟨2, by decide⟩ : Fin 3) (⟨0, by decide⟩ : Fin 3)) 0 := by
  obtain ⟨ms, h1, h2, h3⟩ := marginals_deriv multiroot sample none (by simp) (by decide) fun b hb => partition_some multiroot sample (by decide) b hb
  have hb : 1 < ms.length := by rw [h2]; decide
  exact ⟨ms, h1, ms[1], List.getElem?_eq_getElem hb, (h3 1 hb (⟨2, by decide⟩ : Fin 3) (⟨0, by decide⟩ : Fin 3)).1⟩

example : ∀ b < sample.batch, ∃ v, rowValue (partition true sample (some [3, 1])) b = some (some v) :=
  partition_some_lengths sample [3, 1] ⟨rfl, by decide⟩ (by decide)

/-! ### Convexity -/

/-- The scores on the line from `p` to `q`. -/
def line (p q : Table) (t : ℝ) : Table := ⟨p.batch, p.N, fun b h m => (1 - t) * p.get b h m + t * q.get b h m⟩

/-- The total as a normaliser: a tree, and for every arc between words either its score or the smoothing constant. -/
theorem total_gibbs (multiroot : Bool) {eps : ℝ} (he : 0 < eps) (s : ℕ → ℕ → ℝ) (n : ℕ) :
    total multiroot eps s n = Gibbs.Z fun x : Σ t : SpanTrees multiroot n, ∀ m : Fin n, Fin (if t.1 m = 0 then 1 else 2) =>
      ∑ m : Fin n, if x.1.1 m = 0 then s m m else if (x.2 m : ℕ) = 0 then s ((x.1.1 m : ℕ) - 1) m else Real.log eps := by
  unfold Gibbs.Z total
  rw [Fintype.sum_sigma]
  refine sum_congr rfl fun t _ => ?_
  simp only [Real.exp_sum, weight]
  have := Finset.prod_univ_sum (fun m : Fin n => (univ : Finset (Fin (if t.1 m = 0 then 1 else 2)))) fun m x =>
    Real.exp (if t.1 m = 0 then s m m else if (x : ℕ) = 0 then s ((t.1 m : ℕ) - 1) m else Real.log eps)
  rw [Fintype.piFinset_univ] at this
  refine Eq.trans ?_ this
  refine prod_congr rfl fun m _ => ?_
  by_cases h : t.1 m = 0
  · simp only [h, if_true]
    have : ∀ k, k = 1 → ∑ _x : Fin k, Real.exp (s m m) = Real.exp (s m m) := by rintro k rfl; simp
    exact (this _ (if_pos h)).symm
  · simp only [h, if_false]
    have : ∀ k, k = 2 → ∑ x : Fin k, Real.exp (if (x : ℕ) = 0 then s ((t.1 m : ℕ) - 1) m else Real.log eps) = Real.exp (s ((t.1 m : ℕ) - 1) m) + eps := by
      rintro k rfl
      rw [Fin.sum_univ_two]
      simp [Real.exp_log he]
    exact (this _ (if_neg h)).symm

/-- **C62, `NonProjectiveDependencyCRF`.** Every row of `partition` is a convex function of the scores. -/
theorem partition_convex (multiroot : Bool) (p q : Table) (hN : 1 ≤ p.N) (b : ℕ) (hb : b < p.batch) :
    ∃ F : ℝ → ℝ, (∀ t, rowValue (partition multiroot (line p q t) none) b = some (some (F t))) ∧
      ∀ t u, ∀ a ∈ Set.Icc (0 : ℝ) 1, F ((1 - a) * t + a * u) ≤ (1 - a) * F t + a * F u := by
  refine ⟨fun t => Real.log (total multiroot eps0 ((line p q t).get b) p.N), fun t => ?_, fun t u a ha => ?_⟩
  · rw [partition, part_eq multiroot (by norm_num [eps0]) (line p q t) (Or.inr hN)]
    exact rowValue_ok p.batch _ b hb
  · have he : 0 < eps0 := by norm_num [eps0]
    simp only [total_gibbs multiroot he]
    obtain ⟨t0⟩ := nonempty_trees multiroot (n := p.N) (Or.inr hN)
    have : Nonempty (Σ t : SpanTrees multiroot p.N, ∀ m : Fin p.N, Fin (if t.1 m = 0 then 1 else 2)) :=
      ⟨⟨t0, fun m => ⟨0, by split_ifs <;> omega⟩⟩⟩
    refine le_trans (le_of_eq ?_) (Gibbs.logZ_convex _ _ a ha.1 ha.2)
    congr 2
    funext x
    rw [mul_sum, mul_sum, ← sum_add_distrib]
    refine sum_congr rfl fun m _ => ?_
    simp only [line]
    by_cases h1 : x.1.1 m = 0
    · simp only [h1, if_true]; ring
    · simp only [h1, if_false]
      by_cases h2 : (x.2 m : ℕ) = 0
      · simp only [h2, if_true]; ring
      · simp only [h2, if_false]; ring

example (multiroot : Bool) : ∃ F : ℝ → ℝ, (∀ t, rowValue (partition multiroot (line sample ⟨2, 3, fun _ h m => h * m⟩ t) none) 1 = some (some (F t))) ∧
    ∀ t u, ∀ a ∈ Set.Icc (0 : ℝ) 1, F ((1 - a) * t + a * u) ≤ (1 - a) * F t + a * F u :=
  partition_convex multiroot sample _ (by decide) 1 (by decide)

end Props.GradientNonProj
