import Verif.Proofs.Derivative
import Verif.Props.LinearChainMarginals

/-! Property theorems C61 and C62 for `LinearChainCRF` (and `HMM`, which is one): `marginals` is the derivative of `partition`; `partition` is convex. -/

open Finset Spec LinearChainProofs ChainProofs LinearChainLog ChainBounds SemiringRel

noncomputable section
namespace Props.GradientChain
open _root_.LinearChain Props.LinearChain

/-! ### Derivatives and dual numbers -/

/-- The dual number `x` holds value and derivative of `f` at 0. -/
def Follows (f : ℝ → ℝ) (x : TrivSqZeroExt ℝ ℝ) : Prop := f 0 = x.fst ∧ HasDerivAt f x.snd 0

theorem Follows.mul {f g : ℝ → ℝ} {x y : TrivSqZeroExt ℝ ℝ} (hf : Follows f x) (hg : Follows g y) : Follows (fun t => f t * g t) (x * y) := by
  refine ⟨by simp [hf.1, hg.1], ?_⟩
  have := hf.2.fun_mul hg.2
  rw [hf.1, hg.1] at this
  have e : (x * y).snd = x.snd * y.fst + x.fst * y.snd := by
    rw [TrivSqZeroExt.snd_mul, smul_eq_mul, MulOpposite.smul_eq_mul_unop, MulOpposite.unop_op]
    ring
  rw [e]
  exact this

theorem Follows.add {f g : ℝ → ℝ} {x y : TrivSqZeroExt ℝ ℝ} (hf : Follows f x) (hg : Follows g y) : Follows (fun t => f t + g t) (x + y) :=
  ⟨by simp [hf.1, hg.1], by simpa using hf.2.fun_add hg.2⟩

theorem Follows.sum {ι : Type} (s : Finset ι) {f : ι → ℝ → ℝ} {x : ι → TrivSqZeroExt ℝ ℝ} (h : ∀ i ∈ s, Follows (f i) (x i)) :
    Follows (fun t => ∑ i ∈ s, f i t) (∑ i ∈ s, x i) := by
  classical
  induction s using Finset.induction_on with
  | empty => exact ⟨by simp, by simpa using hasDerivAt_const (0 : ℝ) (0 : ℝ)⟩
  | insert a s ha ih =>
    simp only [sum_insert ha]
    exact (h a (mem_insert_self a s)).add (ih fun i hi => h i (mem_insert_of_mem hi))

theorem Follows.prod {ι : Type} (s : Finset ι) {f : ι → ℝ → ℝ} {x : ι → TrivSqZeroExt ℝ ℝ} (h : ∀ i ∈ s, Follows (f i) (x i)) :
    Follows (fun t => ∏ i ∈ s, f i t) (∏ i ∈ s, x i) := by
  classical
  induction s using Finset.induction_on with
  | empty => exact ⟨by simp, by simpa using hasDerivAt_const (0 : ℝ) (1 : ℝ)⟩
  | insert a s ha ih =>
    simp only [prod_insert ha]
    exact (h a (mem_insert_self a s)).mul (ih fun i hi => h i (mem_insert_of_mem hi))

theorem Follows.chainSum {C M : ℕ} {w : ℝ → ℕ → Fin C → Fin C → ℝ} {x : ℕ → Fin C → Fin C → TrivSqZeroExt ℝ ℝ}
    (h : ∀ n < M, ∀ i j, Follows (fun t => w t n i j) (x n i j)) : Follows (fun t => chainSum M (w t)) (chainSum M x) :=
  Follows.sum _ fun _ _ => Follows.prod _ fun n _ => h n n.2 _ _

/-! ### The theorem -/

variable {C : ℕ}

/-- The value of a row, as a sum over the whole (padded) chain. -/
theorem row_value (hC : 0 < C) (z : ℝ) {N logN : ℕ} (hN : N - 1 ≤ 2 ^ logN) (lens : ℕ → ℕ) (p : ℕ → ℕ → Fin C → Fin C → ℝ) (b : ℕ) (hl : lens b ≤ N) :
    Real.exp (core (Semirings.logZ z) N logN lens p b) =
      chainSum (2 ^ logN) fun n i j => cw z (lens b - 1) n i j + lw z (p b) (lens b - 1) n i j := by
  rw [chainSum_w hC z (p b) _ _ (by omega)]
  exact core_plain (log_rel z) (log_plain z) hC hN hl (ζ := Real.exp z) rfl (by simp [Semirings.logZ]) _ fun _ _ _ _ => rfl

/-- The gradient that autograd computes for an entry inside the row is the derivative of the row's value. -/
theorem row_deriv (hC : 0 < C) (z : ℝ) {N logN : ℕ} (hN : N - 1 ≤ 2 ^ logN) (lens : ℕ → ℕ) (p : ℕ → ℕ → Fin C → Fin C → ℝ) (b : ℕ) (hl : lens b ≤ N)
    (b0 n0 : ℕ) (i0 j0 : Fin C) (hn : n0 < lens b - 1) :
    HasDerivAt (fun t => core (Semirings.logZ z) N logN lens (fun b' n i j => p b' n i j + if b' = b0 ∧ n = n0 ∧ i = i0 ∧ j = j0 then t else 0) b)
      ((core (Autograd.logZ z) N logN lens (leafRow p) b).2 [b0, n0, i0, j0]) 0 := by
  set q : ℝ → ℕ → ℕ → Fin C → Fin C → ℝ := fun t b' n i j => p b' n i j + if b' = b0 ∧ n = n0 ∧ i = i0 ∧ j = j0 then t else 0 with hq
  have hq0 : q 0 = p := by funext b' n i j; simp [hq]
  have key := row_eval hC z (N := N) (logN := logN) lens p b hl [b0, n0, i0, j0]
  have hf : Follows (fun t => chainSum (2 ^ logN) fun n i j => cw z (lens b - 1) n i j + lw z (q t b) (lens b - 1) n i j)
      (evalDual [b0, n0, (i0 : ℕ), (j0 : ℕ)] (core (Autograd.logZ z) N logN lens (leafRow p) b)) := by
    rw [key]
    refine Follows.chainSum fun n _ i j => ?_
    refine ⟨by beta_reduce; rw [hq0, fst_mk], ?_⟩
    rw [snd_mk]
    by_cases he : [b0, n0, (i0 : ℕ), (j0 : ℕ)] = [b, n, (i : ℕ), (j : ℕ)]
    · simp only [List.cons.injEq, and_true] at he
      obtain ⟨rfl, rfl, h1, h2⟩ := he
      obtain rfl := Fin.ext h1
      obtain rfl := Fin.ext h2
      rw [if_pos ⟨rfl, by omega⟩]
      simp only [lw, hn, if_true, hq, and_self]
      refine HasDerivAt.const_add _ ?_
      have : HasDerivAt (fun t : ℝ => p b0 n0 i0 j0 + t) 1 0 := (hasDerivAt_id (0 : ℝ)).const_add _
      simpa using this.exp
    · rw [if_neg (fun h => he h.1)]
      have : ∀ t, q t b n i j = p b n i j := by
        intro t
        simp only [hq]
        rw [if_neg, add_zero]
        rintro ⟨rfl, rfl, rfl, rfl⟩
        exact he rfl
      simp only [lw, this]
      exact hasDerivAt_const _ _
  have hv : ∀ t, (chainSum (2 ^ logN) fun n i j => cw z (lens b - 1) n i j + lw z (q t b) (lens b - 1) n i j) =
      Real.exp (core (Semirings.logZ z) N logN lens (q t) b) := fun t => (row_value hC z hN lens (q t) b hl).symm
  simp only [hv] at hf
  obtain ⟨h1, h2⟩ := hf
  beta_reduce at h1
  have h3 := h2.log (Real.exp_pos _).ne'
  simp only [Real.log_exp] at h3
  convert h3 using 1
  rw [h1]
  set g := core (Autograd.logZ z) N logN lens (leafRow p) b
  obtain ⟨v, g⟩ := g
  rw [evalDual_mk, fst_mk, snd_mk]
  have := (Real.exp_pos v).ne'
  field_simp

/-- The gradient of the sum over the batch, at an entry of row `b`. -/
theorem gradOfSum_row (z : ℝ) (p : T4 ℝ) (lengths : Option (List ℕ)) (h : Valid p lengths) (b : ℕ) (hb : b < p.d0) (n : ℕ) (i j : Fin p.d2) :
    Dist.gradOfSum ((List.range p.d0).map fun b => core (Autograd.logZ z) (C := p.d2) (p.d1 + 1) (Nat.clog 2 p.d1) (lenOf (p.d1 + 1) lengths)
        (leafRow fun b n i j => p.get b n i j) b) [b, n, (i : ℕ), (j : ℕ)] =
      (core (Autograd.logZ z) (C := p.d2) (p.d1 + 1) (Nat.clog 2 p.d1) (lenOf (p.d1 + 1) lengths)
        (leafRow fun b n i j => p.get b n i j) b).2 [b, n, (i : ℕ), (j : ℕ)] := by
  rw [Dist.gradOfSum, List.map_map, apply_list_sum]
  have : ∀ f : ℕ → ℝ, ((List.range p.d0).map f).sum = ∑ b ∈ range p.d0, f b := by
    intro f; rw [← List.sum_toFinset _ List.nodup_range, List.toFinset_range]
  rw [this, sum_eq_single b]
  · rfl
  · intro b' _ hne
    exact row_grad_other h.classes z _ _ b b' (lenOf_le h.lens b') hne.symm n i j
  · intro hc; exact absurd (mem_range.2 hb) hc

/-- The potentials with entry `(b, n, i, j)` moved by `t`. -/
def nudge (p : T4 ℝ) (b n i j : ℕ) (t : ℝ) : T4 ℝ :=
  ⟨p.d0, p.d1, p.d2, p.d3, fun b' n' i' j' => p.get b' n' i' j' + if b' = b ∧ n' = n ∧ i' = i ∧ j' = j then t else 0⟩

/-- **C61, `LinearChainCRF`.** Every entry of `marginals` at an edge of the row is the derivative of `partition` with respect to that potential.  Potentials
of edges past the end of the row do not change `partition`, nor do the potentials of other rows. -/
theorem marginals_deriv (p : T4 ℝ) (lengths : Option (List ℕ)) (h : Valid p lengths) : ∃ μ, Dist.marginals algo p lengths = .ok μ ∧
    ∀ b < p.d0, ∀ n, ∀ i j : Fin p.d2, ∀ b' < p.d0, HasRowDeriv (fun t => Dist.partition algo (nudge p b n i j t) lengths) b'
      (if b' = b ∧ n < numEdges p lengths b then μ [b, n, i, j] else 0) := by
  have hok := logpartition_ok (Autograd.logZ Semirings.negInf) (Dist.leaves algo p) lengths h.square h.edges h.lens
  have hμ : Dist.marginals algo p lengths = .ok (Dist.gradOfSum ((List.range p.d0).map fun b => core (Autograd.logZ Semirings.negInf) (C := p.d2) (p.d1 + 1)
      (Nat.clog 2 p.d1) (lenOf (p.d1 + 1) lengths) (leafRow fun b n i j => p.get b n i j) b)) := by
    rw [show Dist.marginals algo p lengths = (logpartition (Autograd.logZ Semirings.negInf) (Dist.leaves algo p) lengths).map Dist.gradOfSum from rfl, hok]
    rfl
  refine ⟨_, hμ, ?_⟩
  intro b hb n i j b' hb'
  have hval : ∀ t, rowValue (Dist.partition algo (nudge p b n i j t) lengths) b' =
      some (core (Semirings.logZ Semirings.negInf) (C := p.d2) (p.d1 + 1) (Nat.clog 2 p.d1) (lenOf (p.d1 + 1) lengths)
        (fun b1 n1 i1 j1 => p.get b1 n1 i1 j1 + if b1 = b ∧ n1 = n ∧ i1 = i ∧ j1 = j then t else 0) b') := by
    intro t
    have := logpartition_ok Semirings.log (nudge p b n i j t) lengths h.square h.edges h.lens
    rw [show Dist.partition algo (nudge p b n i j t) lengths = logpartition Semirings.log (nudge p b n i j t) lengths from rfl, this]
    refine (rowValue_ok p.d0 _ _ hb').trans ?_
    congr 1
    change core _ _ _ _ (fun b1 n1 (i1 j1 : Fin p.d2) => p.get b1 n1 i1 j1 + if b1 = b ∧ n1 = n ∧ (i1 : ℕ) = i ∧ (j1 : ℕ) = j then t else 0) b' = _
    simp only [← Fin.ext_iff]
    rfl
  refine ⟨_, hval, ?_⟩
  have hlen := lenOf_le h.lens b'
  by_cases hc : b' = b ∧ n < numEdges p lengths b
  · rw [if_pos hc]
    obtain ⟨rfl, hn⟩ := hc
    have h1 := row_deriv h.classes Semirings.negInf (N := p.d1 + 1) (logN := Nat.clog 2 p.d1) (by simpa using le_two_pow_clog p.d1)
      (lenOf (p.d1 + 1) lengths) (fun b n i j => p.get b n i j) b' hlen b' n i j hn
    rw [← gradOfSum_row Semirings.negInf p lengths h b' hb'] at h1
    exact h1
  · rw [if_neg hc]
    have : ∀ t, core (Semirings.logZ Semirings.negInf) (C := p.d2) (p.d1 + 1) (Nat.clog 2 p.d1) (lenOf (p.d1 + 1) lengths)
        (fun b1 n1 i1 j1 => p.get b1 n1 i1 j1 + if b1 = b ∧ n1 = n ∧ i1 = i ∧ j1 = j then t else 0) b' =
        core (Semirings.logZ Semirings.negInf) (C := p.d2) (p.d1 + 1) (Nat.clog 2 p.d1) (lenOf (p.d1 + 1) lengths) (fun b n i j => p.get b n i j) b' := by
      intro t
      refine core_congr _ _ _ _ _ _ _ _ rfl fun n1 _ i1 j1 => ?_
      by_cases hn : n1 < lenOf (p.d1 + 1) lengths b' - 1
      · have : ¬ (b' = b ∧ n1 = n ∧ i1 = i ∧ j1 = j) := by
          rintro ⟨rfl, rfl, -⟩
          exact hc ⟨rfl, hn⟩
        simp [maskedL, this]
      · have : n1 ≥ lenOf (p.d1 + 1) lengths b' - 1 := by omega
        simp [maskedL, this, SR.fill, Semirings.logZ]
    simp only [this]
    exact hasDerivAt_const _ _

example : ∃ μ, Dist.marginals algo sample (some [3, 2]) = .ok μ ∧
    HasRowDeriv (fun t => Dist.partition algo (nudge sample 1 0 1 0 t) (some [3, 2])) 1 (μ [1, 0, 1, 0]) := by
  obtain ⟨μ, h1, h2⟩ := marginals_deriv sample _ sample_valid
  have := h2 1 (by decide) 0 (⟨1, by decide⟩ : Fin 2) (⟨0, by decide⟩ : Fin 2) 1 (by decide)
  rw [if_pos ⟨rfl, by decide⟩] at this
  exact ⟨μ, h1, this⟩

/-! ### Convexity -/

/-- The potentials on the line from `p` to `q`. -/
def line (p q : T4 ℝ) (t : ℝ) : T4 ℝ := ⟨p.d0, p.d1, p.d2, p.d3, fun b n i j => (1 - t) * p.get b n i j + t * q.get b n i j⟩

/-- The total of a row as a normaliser: a tag sequence, and for every edge either its potential or the stand-in. -/
theorem chainSum_gibbs (L : ℕ) (φ : ℕ → Fin C → Fin C → ℝ) (z : ℝ) :
    (Spec.chainSum L fun n i j => Real.exp (φ n i j) + Real.exp z) =
      Gibbs.Z fun x : Tags L C × (Fin L → Bool) => ∑ n : Fin L, if x.2 n then φ n (x.1 n.succ) (x.1 n.castSucc) else z := by
  unfold Gibbs.Z Spec.chainSum seqProd
  rw [Fintype.sum_prod_type]
  refine sum_congr rfl fun y _ => ?_
  simp only [Real.exp_sum]
  have := Finset.prod_univ_sum (fun _ : Fin L => (univ : Finset Bool)) fun n s => Real.exp (if s then φ n (y n.succ) (y n.castSucc) else z)
  simp only [Fintype.sum_bool, if_true, Bool.false_eq_true, if_false, Fintype.piFinset_univ] at this
  exact this

/-- **C62, `LinearChainCRF`.** Every row of `partition` is a convex function of the potentials. -/
theorem partition_convex (p q : T4 ℝ) (lengths : Option (List ℕ)) (h : Valid p lengths) (b : ℕ) (hb : b < p.d0) :
    ConvexRow (fun t => Dist.partition algo (line p q t) lengths) b := by
  have : Nonempty (Fin p.d2) := ⟨⟨0, h.classes⟩⟩
  set S : ℝ → Tags (numEdges p lengths b) p.d2 × (Fin (numEdges p lengths b) → Bool) → ℝ := fun t x =>
    ∑ n : Fin (numEdges p lengths b), if x.2 n then row (line p q t) b n (x.1 n.succ) (x.1 n.castSucc) else -100000 with hS
  refine ⟨fun t => ((2 ^ Nat.clog 2 p.d1 - numEdges p lengths b : ℕ) : ℝ) * Real.log (1 + (2 * p.d2 - 1 : ℕ) * Real.exp (-100000)) +
    Real.log (Gibbs.Z (S t)), fun t => ?_, ?_⟩
  · obtain ⟨vs, h1, h2, h3⟩ := partition_closed_form (line p q t) lengths ⟨h.square, h.edges, h.classes, h.lens⟩
    have hb' : b < vs.length := by rw [h2]; exact hb
    beta_reduce
    rw [h1]
    change vs[b]? = _
    rw [List.getElem?_eq_getElem hb', h3 b hb', chainSum_gibbs]
    rfl
  · intro t u a ha
    have e : S ((1 - a) * t + a * u) = fun x => (1 - a) * S t x + a * S u x := by
      funext x
      simp only [hS]
      rw [mul_sum, mul_sum, ← sum_add_distrib]
      refine sum_congr rfl fun n _ => ?_
      simp only [row, line]
      split_ifs <;> ring
    have := Gibbs.logZ_convex (S t) (S u) a ha.1 ha.2
    beta_reduce
    rw [e]
    linarith

example : ConvexRow (fun t => Dist.partition algo (line sample ⟨2, 2, 2, 2, fun _ _ i j => i * j⟩ t) (some [3, 2])) 1 :=
  partition_convex sample _ _ sample_valid 1 (by decide)

end Props.GradientChain
