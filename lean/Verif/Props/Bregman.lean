import Verif.Proofs.Bregman
import Verif.Props.Ascent
import Verif.Props.Consistency

/-! Property theorems C114: `kl`, `cross_entropy` and `entropy` from `partition` and `marginals`.  `p.kl(q)` is the amount by which `partition` at `q` exceeds the
tangent at `p`; so its gradient with respect to the potentials of `q` is the difference of the marginals. -/

open Finset Spec Generic Semirings

noncomputable section
namespace Props.Bregman
open Props.Likelihood

/-- Exact dynamic programs: the mean score, entry by entry. -/
theorem _root_.Generic.BatchDP.mean {A : Algo} {lengths : Option (List ℕ)} {B : ℕ} {E : ℕ → List ℕ → Prop}
    {ι π : ℕ → Type} [∀ b, Fintype (ι b)] [∀ b, Fintype (π b)] [∀ b, IsEmpty (π b)] {parts : ∀ b, ι b → Multiset (List ℕ)} {ones : ∀ b, ι b → ℕ}
    {atoms : ∀ b, π b → Multiset Atom} {p : A.T ℝ} {val : List ℕ → ℝ} (D : BatchDP A p lengths B val E parts ones atoms) (val' : List ℕ → ℝ)
    {μ : List ℕ → ℝ} (hμ : Dist.marginals A p lengths = .ok μ) (b : ℕ) (hb : b < B) {κ : Type} (X : Finset κ) (f : κ → List ℕ) (hf : Set.InjOn f X)
    (hX : ∀ e, E b e → ∃ x ∈ X, f x = e) (hh : ∀ x ∈ X, (f x).head? = some b) :
    Gibbs.expect (tot (parts b) (atoms b) negInf val) (tot (parts b) (atoms b) negInf val') = ∑ x ∈ X, μ (f x) * val' (f x) := by
  have h1 := D.slope val' hμ b hb X f hf hX hh (fun _ _ y => isEmptyElim y)
  have h2 := D.slope (fun _ => 0) hμ b hb X f hf hX hh (fun _ _ y => isEmptyElim y)
  have h3 : ∀ y, tot (parts b) (atoms b) negInf (fun _ => 0) y = 0 := by
    rintro (y | y)
    · simp [tot, realScore]
    · exact isEmptyElim y
  have h4 : ∀ u v w : (ι b ⊕ π b) → ℝ, Gibbs.expect w (fun y => u y - v y) = Gibbs.expect w u - Gibbs.expect w v := by
    intro u v w
    simp only [Gibbs.expect, mul_sub, sum_sub_distrib]
  rw [h4] at h1 h2
  have h5 : Gibbs.expect (tot (parts b) (atoms b) negInf val) (tot (parts b) (atoms b) negInf fun _ => 0) = 0 := by
    simp [Gibbs.expect, h3]
  have h6 : ∑ x ∈ X, μ (f x) * (val' (f x) - val (f x)) = ∑ x ∈ X, μ (f x) * val' (f x) - ∑ x ∈ X, μ (f x) * val (f x) := by
    rw [← sum_sub_distrib]; exact sum_congr rfl fun x _ => by ring
  have h7 : ∑ x ∈ X, μ (f x) * (0 - val (f x)) = - ∑ x ∈ X, μ (f x) * val (f x) := by
    rw [← sum_neg_distrib]; exact sum_congr rfl fun x _ => by ring
  rw [h5, h7] at h2
  rw [h6] at h1
  linarith

/-! ### `TreeCRF` -/

/-- The score that the table `x` gives to the event table `μ` in row `b`: `(marginals * potentials).sum()`. -/
def dot4 (p : T4 ℝ) (b : ℕ) (μ : List ℕ → ℝ) (x : ℕ → ℕ → ℕ → ℕ → ℝ) : ℝ :=
  ∑ i ∈ range p.d1, ∑ j ∈ range p.d2, ∑ a ∈ range p.d3, μ [b, i, j, a] * x b i j a

/-- **C114, `TreeCRF`.** `entropy` is `partition` minus the potentials weighted by the marginals; `cross_entropy` is `partition` of the other distribution minus its
potentials weighted by the marginals; `kl` is the amount by which `partition` of the other exceeds the tangent at `p`. -/
theorem tree_spec (p : T4 ℝ) (lengths : Option (List ℕ)) (h : TreeCRF.Valid p lengths) : ∃ μ, Dist.marginals CKYCRF.algo p lengths = .ok μ ∧
    ∀ b < p.d0, ∀ g : ℕ → ℕ → ℕ → ℕ → ℝ, ∃ z z', rowValue (Dist.partition CKYCRF.algo p lengths) b = some z ∧
      rowValue (Dist.partition CKYCRF.algo { p with get := g } lengths) b = some z' ∧
      rowValue (Dist.entropy CKYCRF.algo p lengths) b = some (z - dot4 p b μ p.get) ∧
      rowValue (CKYCRF.crossEntropy p { p with get := g } lengths) b = some (z' - dot4 p b μ g) ∧
      rowValue (CKYCRF.kl p { p with get := g } lengths) b = some (z' - z - dot4 p b μ fun b i j a => g b i j a - p.get b i j a) := by
  have D := CKYCRFProofs.batchDP p lengths h
  obtain ⟨μ, hμ, -⟩ := D.marginals_eq
  refine ⟨μ, hμ, fun b hb g => ?_⟩
  have D' := CKYCRFProofs.batchDP { p with get := g } lengths ⟨h.square, h.words, h.labels, h.lens⟩
  have D2 := CKYCRFProofs.batchDP (TreeCRF.pairT p { p with get := g }) lengths ⟨h.square, h.words, h.labels, h.lens⟩
  have := D.nonempty_all b hb
  let S : (ℕ → ℕ → ℕ → ℕ → ℝ) → Trees p.d3 (lenOf p.d1 lengths b) ⊕ Empty → ℝ := fun g' =>
    tot (CKYCRFProofs.treeParts b) (fun y : Empty => y.elim) negInf (CKYCRFProofs.at4 { p with get := g' })
  have m : ∀ g' : ℕ → ℕ → ℕ → ℕ → ℝ, Gibbs.expect (S p.get) (S g') = dot4 p b μ g' := fun g' => by
    have := D.mean (CKYCRFProofs.at4 { p with get := g' }) hμ b hb (range p.d1 ×ˢ range p.d2 ×ˢ range p.d3) (fun x => [b, x.1, x.2.1, x.2.2])
      (fun x _ y _ hxy => by simpa [Prod.ext_iff] using hxy)
      (by
        rintro e ⟨i, j, a, rfl, hij, hj, ha⟩
        have := (CKYCRFProofs.len_in h.words h.lens b hb).2
        have hs := h.square
        exact ⟨(i, j, a), mem3.2 ⟨by dsimp only; omega, by dsimp only; omega, ha⟩, rfl⟩)
      (fun _ _ => rfl)
    rw [dot4, ← sum3 p.d1 p.d2 p.d3 fun i j a => μ [b, i, j, a] * g' b i j a]
    exact this
  refine ⟨_, _, by rw [D.partition_eq, rowValue_ok _ _ _ hb], by rw [D'.partition_eq, rowValue_ok _ _ _ hb], ?_, ?_, ?_⟩
  · rw [D.entropy_eq, rowValue_ok _ _ _ hb, ← m p.get]
    exact congrArg some (Gibbs.entropy_eq (S p.get))
  · have e : CKYCRF.crossEntropy p { p with get := g } lengths =
        (CKYCRF.algo.run Semirings.crossEntropy (CKYCRF.algo.map pairConvert (TreeCRF.pairT p { p with get := g })) lengths).map (List.map fun a => a.2.2) := by
      unfold CKYCRF.crossEntropy LinearChain.pairPotentials
      rw [if_pos ⟨rfl, rfl, rfl, rfl⟩]
      rfl
    rw [e, D2.ce_eq]
    erw [rowValue_ok _ _ _ hb]
    rw [← m g]
    exact congrArg some (Gibbs.crossEntropy_eq (S p.get) (S g))
  · have e : CKYCRF.kl p { p with get := g } lengths =
        (CKYCRF.algo.run Semirings.kl (CKYCRF.algo.map pairConvert (TreeCRF.pairT p { p with get := g })) lengths).map (List.map fun a => a.2.2) := by
      unfold CKYCRF.kl LinearChain.pairPotentials
      rw [if_pos ⟨rfl, rfl, rfl, rfl⟩]
      rfl
    have e2 : (dot4 p b μ fun b i j a => g b i j a - p.get b i j a) = dot4 p b μ g - dot4 p b μ p.get := by
      simp only [dot4, ← sum_sub_distrib, mul_sub]
    rw [e, D2.kl_eq]
    erw [rowValue_ok _ _ _ hb]
    rw [e2, ← m g, ← m p.get]
    have e3 : Gibbs.kl (S p.get) (S g) = Real.log (Gibbs.Z (S g)) - Real.log (Gibbs.Z (S p.get)) - (Gibbs.expect (S p.get) (S g) - Gibbs.expect (S p.get) (S p.get)) := by
      rw [Gibbs.kl_eq]; ring
    exact congrArg some e3

/-- Moving one entry. -/
theorem dot4_nudge (p : T4 ℝ) (b : ℕ) (μ : List ℕ → ℝ) (q : ℕ → ℕ → ℕ → ℕ → ℝ) {i j a : ℕ} (hi : i < p.d1) (hj : j < p.d2) (ha : a < p.d3) (t : ℝ) :
    (dot4 p b μ fun b' i' j' a' => q b' i' j' a' + (if b' = b ∧ i' = i ∧ j' = j ∧ a' = a then t else 0) - p.get b' i' j' a') =
      (dot4 p b μ fun b i j a => q b i j a - p.get b i j a) + t * μ [b, i, j, a] := by
  have e : ∀ i' j' a', μ [b, i', j', a'] * (q b i' j' a' + (if b = b ∧ i' = i ∧ j' = j ∧ a' = a then t else 0) - p.get b i' j' a') =
      μ [b, i', j', a'] * (q b i' j' a' - p.get b i' j' a') + if i' = i then (if j' = j then (if a' = a then t * μ [b, i', j', a'] else 0) else 0) else 0 := by
    intro i' j' a'
    by_cases h1 : i' = i <;> by_cases h2 : j' = j <;> by_cases h3 : a' = a <;> simp [h1, h2, h3]
    ring
  unfold dot4
  rw [sum_congr rfl fun i' _ => sum_congr rfl fun j' _ => sum_congr rfl fun a' _ => e i' j' a']
  simp only [sum_add_distrib]
  congr 1
  rw [sum_eq_single i, sum_eq_single j, sum_eq_single a]
  · simp
  · intro a' _ h; simp [h]
  · intro hc; exact absurd (mem_range.2 ha) hc
  · intro j' _ h; simp [h]
  · intro hc; exact absurd (mem_range.2 hj) hc
  · intro i' _ h; simp [h]
  · intro hc; exact absurd (mem_range.2 hi) hc

/-- **C114, `TreeCRF`.** The gradient of `p.kl(q)` and of `p.cross_entropy(q)` with respect to the potentials of `q` is `marginals` of `q` minus `marginals` of `p`. -/
theorem tree_grad (p : T4 ℝ) (lengths : Option (List ℕ)) (h : TreeCRF.Valid p lengths) (g : ℕ → ℕ → ℕ → ℕ → ℝ) :
    ∃ μ ν, Dist.marginals CKYCRF.algo p lengths = .ok μ ∧ Dist.marginals CKYCRF.algo { p with get := g } lengths = .ok ν ∧
      ∀ b < p.d0, ∀ i < p.d1, ∀ j < p.d2, ∀ a < p.d3,
        HasRowDeriv (fun t => CKYCRF.kl p (Gradient.nudge4 { p with get := g } b i j a t) lengths) b (ν [b, i, j, a] - μ [b, i, j, a]) ∧
        HasRowDeriv (fun t => CKYCRF.crossEntropy p (Gradient.nudge4 { p with get := g } b i j a t) lengths) b (ν [b, i, j, a] - μ [b, i, j, a]) := by
  obtain ⟨μ, hμ, H⟩ := tree_spec p lengths h
  obtain ⟨ν, hν, G⟩ := Gradient.tree_marginals { p with get := g } lengths ⟨h.square, h.words, h.labels, h.lens⟩
  refine ⟨μ, ν, hμ, hν, fun b hb i hi j hj a ha => ?_⟩
  obtain ⟨F, hF, hd⟩ := G b hb i j a b hb
  rw [if_pos rfl] at hd
  choose z z' h1 h2 _ h3 h4 using fun t => H b hb (Gradient.nudge4 { p with get := g } b i j a t).get
  have hz : ∀ t, z' t = F t := fun t => Option.some.inj ((h2 t).symm.trans (hF t))
  have hz0 : ∀ t, z t = z 0 := fun t => Option.some.inj ((h1 t).symm.trans (h1 0))
  have lin : ∀ c d : ℝ, HasDerivAt (fun t : ℝ => c + t * d) d 0 := fun c d => by
    simpa using ((hasDerivAt_id (0 : ℝ)).mul_const d).const_add c
  have key : ∀ t, (dot4 p b μ fun b' i' j' a' => (Gradient.nudge4 { p with get := g } b i j a t).get b' i' j' a' - p.get b' i' j' a') = _ :=
    fun t => dot4_nudge p b μ g hi hj ha t
  refine ⟨⟨_, h4, ?_⟩, ⟨_, h3, ?_⟩⟩
  · have := (hd.sub_const (z 0)).fun_sub (lin (dot4 p b μ fun b i j a => g b i j a - p.get b i j a) (μ [b, i, j, a]))
    simpa only [key, hz, hz0] using this
  · have key2 : ∀ t, dot4 p b μ (Gradient.nudge4 { p with get := g } b i j a t).get =
        (dot4 p b μ fun b i j a => g b i j a - p.get b i j a) + dot4 p b μ p.get + t * μ [b, i, j, a] := by
      intro t
      have : dot4 p b μ (Gradient.nudge4 { p with get := g } b i j a t).get =
          (dot4 p b μ fun b' i' j' a' => (Gradient.nudge4 { p with get := g } b i j a t).get b' i' j' a' - p.get b' i' j' a') + dot4 p b μ p.get := by
        simp only [dot4, ← sum_add_distrib]
        refine sum_congr rfl fun _ _ => sum_congr rfl fun _ _ => sum_congr rfl fun _ _ => by ring
      rw [this, key]
      ring
    have := hd.fun_sub (lin ((dot4 p b μ fun b i j a => g b i j a - p.get b i j a) + dot4 p b μ p.get) (μ [b, i, j, a]))
    simpa only [key2, hz] using this

/-- **C114, `TreeCRF`.** The two divergences together: the difference of the potentials weighted by the difference of the marginals. -/
theorem tree_both (p : T4 ℝ) (lengths : Option (List ℕ)) (h : TreeCRF.Valid p lengths) (g : ℕ → ℕ → ℕ → ℕ → ℝ) :
    ∃ μ ν, Dist.marginals CKYCRF.algo p lengths = .ok μ ∧ Dist.marginals CKYCRF.algo { p with get := g } lengths = .ok ν ∧ ∀ b < p.d0, ∃ k k',
      rowValue (CKYCRF.kl p { p with get := g } lengths) b = some k ∧ rowValue (CKYCRF.kl { p with get := g } p lengths) b = some k' ∧
      k + k' = ∑ i ∈ range p.d1, ∑ j ∈ range p.d2, ∑ a ∈ range p.d3, (ν [b, i, j, a] - μ [b, i, j, a]) * (g b i j a - p.get b i j a) := by
  obtain ⟨μ, hμ, H⟩ := tree_spec p lengths h
  obtain ⟨ν, hν, G⟩ := tree_spec { p with get := g } lengths ⟨h.square, h.words, h.labels, h.lens⟩
  refine ⟨μ, ν, hμ, hν, fun b hb => ?_⟩
  obtain ⟨z, z', h1, h2, -, -, h3⟩ := H b hb g
  obtain ⟨y, y', g1, g2, -, -, g3⟩ := G b hb p.get
  obtain rfl : y = z' := Option.some.inj (g1.symm.trans h2)
  obtain rfl : y' = z := Option.some.inj (g2.symm.trans h1)
  refine ⟨_, _, h3, g3, ?_⟩
  have e : ∑ i ∈ range p.d1, ∑ j ∈ range p.d2, ∑ a ∈ range p.d3, (ν [b, i, j, a] - μ [b, i, j, a]) * (g b i j a - p.get b i j a) =
      - (dot4 p b ν fun b i j a => p.get b i j a - g b i j a) - (dot4 p b μ fun b i j a => g b i j a - p.get b i j a) := by
    simp only [dot4, ← sum_neg_distrib, ← sum_sub_distrib]
    exact sum_congr rfl fun _ _ => sum_congr rfl fun _ _ => sum_congr rfl fun _ _ => by ring
  rw [e]
  have : (dot4 ({ p with get := g } : T4 ℝ) b ν fun b i j a => p.get b i j a - g b i j a) = dot4 p b ν fun b i j a => p.get b i j a - g b i j a := rfl
  rw [this]
  ring

/-- **C114, `TreeCRF`.** Potentials that differ by at most `c` have a divergence of at most `((2 N - 1) c)² / 2`. -/
theorem tree_small (p : T4 ℝ) (lengths : Option (List ℕ)) (h : TreeCRF.Valid p lengths) (g : ℕ → ℕ → ℕ → ℕ → ℝ) (b : ℕ) (hb : b < p.d0) (c : ℝ) (hc : 0 ≤ c)
    (hg : ∀ i < p.d1, ∀ j < p.d2, ∀ a < p.d3, |g b i j a - p.get b i j a| ≤ c) :
    ∃ k, rowValue (CKYCRF.kl p { p with get := g } lengths) b = some k ∧ k ≤ ((2 * p.d1 - 1) * c) ^ 2 / 2 := by
  obtain ⟨μ, hμ, H⟩ := tree_spec p lengths h
  obtain ⟨μ', hμ', P⟩ := Ascent.tree_parabola p lengths h
  obtain rfl : μ = μ' := Except.ok.inj (hμ.symm.trans hμ')
  obtain ⟨z, z', h1, h2, -, -, h3⟩ := H b hb g
  obtain ⟨y, y', g1, g2, g3⟩ := P b hb g c hc hg
  obtain rfl : y = z := Option.some.inj (g1.symm.trans h1)
  obtain rfl : y' = z' := Option.some.inj (g2.symm.trans h2)
  refine ⟨_, h3, ?_⟩
  unfold dot4
  linarith

/-! ### `LinearChainCRF` -/

/-- The same for the edges of row `b`. -/
def dotChain (p : T4 ℝ) (lengths : Option (List ℕ)) (b : ℕ) (μ : List ℕ → ℝ) (x : ℕ → ℕ → ℕ → ℕ → ℝ) : ℝ :=
  ∑ n ∈ range (LinearChain.numEdges p lengths b), ∑ i ∈ range p.d2, ∑ j ∈ range p.d3, μ [b, n, i, j] * x b n i j

open GradientChain in
/-- **C114, `LinearChainCRF`.** `kl` is the amount by which `partition` of the other distribution exceeds the tangent at `p`: without error terms, although both
compute with `-1e5` for log 0. -/
theorem chain_spec (p : T4 ℝ) (lengths : Option (List ℕ)) (h : LinearChain.Valid p lengths) : ∃ μ, Dist.marginals _root_.LinearChain.algo p lengths = .ok μ ∧
    ∀ b < p.d0, ∀ g : ℕ → ℕ → ℕ → ℕ → ℝ, ∃ z z', rowValue (Dist.partition _root_.LinearChain.algo p lengths) b = some z ∧
      rowValue (Dist.partition _root_.LinearChain.algo { p with get := g } lengths) b = some z' ∧
      rowValue (_root_.LinearChain.kl p { p with get := g } lengths) b = some (z' - z - dotChain p lengths b μ fun b n i j => g b n i j - p.get b n i j) := by
  have : Nonempty (Fin p.d2) := ⟨⟨0, h.classes⟩⟩
  obtain ⟨μ, hμ, hs⟩ := chain_slope p lengths h
  refine ⟨μ, hμ, fun b hb g => ?_⟩
  set L := LinearChain.numEdges p lengths b with hL
  let x : T4 (ℝ × ℝ) := ⟨p.d0, p.d1, p.d2, p.d3, fun a b c d => (p.get a b c d, g a b c d)⟩
  let q : ℝ → T4 ℝ := fun t => _root_.LinearChain.algo.map (fun y => _root_.Bregman.between y t) x
  have hq : ∀ t, rowValue (Dist.partition _root_.LinearChain.algo (q t) lengths) b = some _ := fun t =>
    partition_stand (q t) lengths ⟨h.square, h.edges, h.classes, h.lens⟩ b hb
  have hsc : ∀ t, standScore L (LinearChain.row (q t) b) = fun y : Tags L p.d2 × (Fin L → Bool) => standScore L (LinearChain.row p b) y +
      t * (standScore L (LinearChain.row ({ p with get := g } : T4 ℝ) b) y - standScore L (LinearChain.row p b) y) := by
    intro t
    funext y
    unfold standScore
    rw [← sum_sub_distrib, mul_sum, ← sum_add_distrib]
    refine sum_congr rfl fun n _ => ?_
    change (if y.2 n then p.get b n _ _ + t * (g b n _ _ - p.get b n _ _) else (-100000 : ℝ)) = _
    cases y.2 n
    · simp
    · rfl
  let c : ℝ := ((2 ^ Nat.clog 2 p.d1 - L : ℕ) : ℝ) * Real.log (1 + (2 * p.d2 - 1 : ℕ) * Real.exp (-100000))
  have hd := (Gibbs.hasDerivAt_logZ (standScore L (LinearChain.row p b)) fun y =>
    standScore L (LinearChain.row ({ p with get := g } : T4 ℝ) b) y - standScore L (LinearChain.row p b) y).const_add c
  rw [← hs b hb g] at hd
  have hF : ∀ t, rowValue (Dist.partition _root_.LinearChain.algo (q t) lengths) b = some (c + Real.log (Gibbs.Z fun y : Tags L p.d2 × (Fin L → Bool) =>
      standScore L (LinearChain.row p b) y + t * (standScore L (LinearChain.row ({ p with get := g } : T4 ℝ) b) y - standScore L (LinearChain.row p b) y))) := by
    intro t
    rw [hq t, ← hsc t]
    rfl
  have e : _root_.LinearChain.kl p { p with get := g } lengths =
      (_root_.LinearChain.algo.run Semirings.kl (_root_.LinearChain.algo.map pairConvert x) lengths).map (List.map fun a => a.2.2) := by
    unfold _root_.LinearChain.kl _root_.LinearChain.pairPotentials
    rw [if_pos ⟨rfl, rfl, rfl, rfl⟩]
    rfl
  have q0 : q 0 = p := by
    simp only [q, x, _root_.LinearChain.algo, _root_.Bregman.between, zero_mul, add_zero]
  have q1 : q 1 = { p with get := g } := by
    simp only [q, x, _root_.LinearChain.algo, _root_.Bregman.between, one_mul, add_sub_cancel]
  have r0 := hF 0
  have r1 := hF 1
  rw [q0] at r0
  rw [q1] at r1
  refine ⟨_, _, r0, r1, ?_⟩
  rw [e]
  exact _root_.Bregman.kl_row _root_.LinearChain.parametric x h.classes lengths hF hd

/-- Moving one entry. -/
theorem dotChain_nudge (p : T4 ℝ) (lengths : Option (List ℕ)) (b : ℕ) (μ : List ℕ → ℝ) (q : ℕ → ℕ → ℕ → ℕ → ℝ) {n i j : ℕ} (hi : i < p.d2) (hj : j < p.d3) (t : ℝ) :
    (dotChain p lengths b μ fun b' n' i' j' => q b' n' i' j' + (if b' = b ∧ n' = n ∧ i' = i ∧ j' = j then t else 0) - p.get b' n' i' j') =
      (dotChain p lengths b μ fun b n i j => q b n i j - p.get b n i j) + t * if n < LinearChain.numEdges p lengths b then μ [b, n, i, j] else 0 := by
  have e : ∀ n' i' j', μ [b, n', i', j'] * (q b n' i' j' + (if b = b ∧ n' = n ∧ i' = i ∧ j' = j then t else 0) - p.get b n' i' j') =
      μ [b, n', i', j'] * (q b n' i' j' - p.get b n' i' j') + if n' = n then (if i' = i then (if j' = j then t * μ [b, n', i', j'] else 0) else 0) else 0 := by
    intro i' j' a'
    by_cases h1 : i' = n <;> by_cases h2 : j' = i <;> by_cases h3 : a' = j <;> simp [h1, h2, h3]
    ring
  unfold dotChain
  rw [sum_congr rfl fun i' _ => sum_congr rfl fun j' _ => sum_congr rfl fun a' _ => e i' j' a']
  simp only [sum_add_distrib]
  congr 1
  have inner : ∀ n', (∑ i' ∈ range p.d2, ∑ j' ∈ range p.d3, if n' = n then (if i' = i then (if j' = j then t * μ [b, n', i', j'] else 0) else 0) else 0) =
      if n' = n then t * μ [b, n, i, j] else 0 := by
    intro n'
    rw [sum_eq_single i, sum_eq_single j]
    · by_cases h : n' = n <;> simp [h]
    · intro a' _ h; simp [h]
    · intro hc; exact absurd (mem_range.2 hj) hc
    · intro j' _ h; simp [h]
    · intro hc; exact absurd (mem_range.2 hi) hc
  simp only [inner, sum_ite_eq', mem_range]
  split_ifs <;> simp

/-- Row `b` of a difference. -/
theorem row_difference {x y : Except PyErr (List ℝ)} {b : ℕ} {d w : ℝ} (h : rowValue (Consistency.difference x y) b = some d) (hy : rowValue y b = some w) :
    rowValue x b = some (d + w) := by
  rcases x with e | as
  · simp [Consistency.difference, rowValue, bind, Except.bind] at h
  · rcases y with e | bs
    · simp [rowValue] at hy
    · have h : (List.zipWith (· - ·) as bs)[b]? = some d := h
      have hy : bs[b]? = some w := hy
      change as[b]? = _
      rw [List.getElem?_zipWith] at h
      rcases ha : as[b]? with - | a
      · simp [ha] at h
      · rw [ha, hy] at h
        have : a - w = d := by simpa using h
        rw [← this]; simp

/-- **C114, `LinearChainCRF`.** The gradient of `p.kl(q)` and of `p.cross_entropy(q)` with respect to the potentials of `q` is `marginals` of `q` minus `marginals` of `p`,
at the edges of the row, and 0 past its end. -/
theorem chain_grad (p : T4 ℝ) (lengths : Option (List ℕ)) (h : LinearChain.Valid p lengths) (g : ℕ → ℕ → ℕ → ℕ → ℝ) :
    ∃ μ ν, Dist.marginals _root_.LinearChain.algo p lengths = .ok μ ∧ Dist.marginals _root_.LinearChain.algo { p with get := g } lengths = .ok ν ∧
      ∀ b < p.d0, ∀ n, ∀ i < p.d2, ∀ j < p.d3,
        HasRowDeriv (fun t => _root_.LinearChain.kl p (GradientChain.nudge { p with get := g } b n i j t) lengths) b
          (if n < LinearChain.numEdges p lengths b then ν [b, n, i, j] - μ [b, n, i, j] else 0) ∧
        HasRowDeriv (fun t => _root_.LinearChain.crossEntropy p (GradientChain.nudge { p with get := g } b n i j t) lengths) b
          (if n < LinearChain.numEdges p lengths b then ν [b, n, i, j] - μ [b, n, i, j] else 0) := by
  obtain ⟨μ, hμ, H⟩ := chain_spec p lengths h
  obtain ⟨ν, hν, G⟩ := GradientChain.marginals_deriv { p with get := g } lengths ⟨h.square, h.edges, h.classes, h.lens⟩
  refine ⟨μ, ν, hμ, hν, fun b hb n i hi j hj => ?_⟩
  obtain ⟨F, hF, hd⟩ := G b hb n ⟨i, hi⟩ ⟨j, h.square ▸ hj⟩ b hb
  choose z z' h1 h2 h4 using fun t => H b hb (GradientChain.nudge { p with get := g } b n i j t).get
  have hz : ∀ t, z' t = F t := fun t => Option.some.inj ((h2 t).symm.trans (hF t))
  have hz0 : ∀ t, z t = z 0 := fun t => Option.some.inj ((h1 t).symm.trans (h1 0))
  have lin : ∀ c d : ℝ, HasDerivAt (fun t : ℝ => c + t * d) d 0 := fun c d => by
    simpa using ((hasDerivAt_id (0 : ℝ)).mul_const d).const_add c
  have key : ∀ t, (dotChain p lengths b μ fun b' i' j' a' => (GradientChain.nudge { p with get := g } b n i j t).get b' i' j' a' - p.get b' i' j' a') = _ :=
    fun t => dotChain_nudge p lengths b μ g hi hj t
  have hk := (hd.sub_const (z 0)).fun_sub (lin (dotChain p lengths b μ fun b i j a => g b i j a - p.get b i j a)
    (if n < LinearChain.numEdges p lengths b then μ [b, n, i, j] else 0))
  have e : (if b = b ∧ n < LinearChain.numEdges ({ p with get := g } : T4 ℝ) lengths b then ν [b, n, i, j] else 0) -
      (if n < LinearChain.numEdges p lengths b then μ [b, n, i, j] else 0) = if n < LinearChain.numEdges p lengths b then ν [b, n, i, j] - μ [b, n, i, j] else 0 := by
    have : LinearChain.numEdges ({ p with get := g } : T4 ℝ) lengths b = LinearChain.numEdges p lengths b := rfl
    rw [this]
    by_cases hn : n < LinearChain.numEdges p lengths b <;> simp [hn]
  have hk' : HasDerivAt (fun t => F t - z 0 - ((dotChain p lengths b μ fun b i j a => g b i j a - p.get b i j a) +
      t * if n < LinearChain.numEdges p lengths b then μ [b, n, i, j] else 0)) (if n < LinearChain.numEdges p lengths b then ν [b, n, i, j] - μ [b, n, i, j] else 0) 0 := by
    rw [← e]; exact hk
  have hkl : ∀ t, rowValue (_root_.LinearChain.kl p (GradientChain.nudge { p with get := g } b n i j t) lengths) b = some (F t - z 0 -
      ((dotChain p lengths b μ fun b i j a => g b i j a - p.get b i j a) + t * if n < LinearChain.numEdges p lengths b then μ [b, n, i, j] else 0)) := by
    intro t
    rw [← hz t, ← hz0 t, ← key t]
    exact h4 t
  refine ⟨⟨_, hkl, hk'⟩, ?_⟩
  have hH : ∃ w, rowValue (Dist.entropy _root_.LinearChain.algo p lengths) b = some w := by
    have e1 := hkl 0
    rw [Consistency.chain_kl _ _ _ h.classes] at e1
    rcases hc : Dist.entropy _root_.LinearChain.algo p lengths with e | bs
    · rw [hc] at e1
      rcases hx : _root_.LinearChain.crossEntropy p (GradientChain.nudge { p with get := g } b n i j 0) lengths with e' | as <;> rw [hx] at e1 <;>
        simp [Consistency.difference, rowValue, bind, Except.bind] at e1
    · rw [hc] at e1
      rcases hx : _root_.LinearChain.crossEntropy p (GradientChain.nudge { p with get := g } b n i j 0) lengths with e' | as <;> rw [hx] at e1
      · simp [Consistency.difference, rowValue, bind, Except.bind] at e1
      · have e1 : (List.zipWith (· - ·) as bs)[b]? = some _ := e1
        rw [List.getElem?_zipWith] at e1
        rcases hb' : bs[b]? with - | w
        · rcases ha : as[b]? with - | a <;> simp [ha, hb'] at e1
        · exact ⟨w, hb'⟩
  obtain ⟨w, hw⟩ := hH
  refine ⟨_, fun t => row_difference (b := b) (y := Dist.entropy _root_.LinearChain.algo p lengths) ?_ hw, hk'.add_const w⟩
  rw [← Consistency.chain_kl _ _ _ h.classes]
  exact hkl t

/-- **C114, `LinearChainCRF`.** Potentials that differ by at most `c` at the `L` edges of the row have a divergence of at most `(L c)² / 2`. -/
theorem chain_small (p : T4 ℝ) (lengths : Option (List ℕ)) (h : LinearChain.Valid p lengths) (g : ℕ → ℕ → ℕ → ℕ → ℝ) (b : ℕ) (hb : b < p.d0) (c : ℝ) (hc : 0 ≤ c)
    (hg : ∀ n < LinearChain.numEdges p lengths b, ∀ i < p.d2, ∀ j < p.d3, |g b n i j - p.get b n i j| ≤ c) :
    ∃ k, rowValue (_root_.LinearChain.kl p { p with get := g } lengths) b = some k ∧ k ≤ (LinearChain.numEdges p lengths b * c) ^ 2 / 2 := by
  obtain ⟨μ, hμ, H⟩ := chain_spec p lengths h
  obtain ⟨μ', hμ', P⟩ := Ascent.chain_parabola p lengths h
  obtain rfl : μ = μ' := Except.ok.inj (hμ.symm.trans hμ')
  obtain ⟨z, z', h1, h2, h3⟩ := H b hb g
  obtain ⟨y, y', g1, g2, g3⟩ := P b hb g c hc hg
  obtain rfl : y = z := Option.some.inj (g1.symm.trans h1)
  obtain rfl : y' = z' := Option.some.inj (g2.symm.trans h2)
  refine ⟨_, h3, ?_⟩
  unfold dotChain
  linarith

/-- **C114, `LinearChainCRF`.** The two divergences together. -/
theorem chain_both (p : T4 ℝ) (lengths : Option (List ℕ)) (h : LinearChain.Valid p lengths) (g : ℕ → ℕ → ℕ → ℕ → ℝ) :
    ∃ μ ν, Dist.marginals _root_.LinearChain.algo p lengths = .ok μ ∧ Dist.marginals _root_.LinearChain.algo { p with get := g } lengths = .ok ν ∧ ∀ b < p.d0, ∃ k k',
      rowValue (_root_.LinearChain.kl p { p with get := g } lengths) b = some k ∧ rowValue (_root_.LinearChain.kl { p with get := g } p lengths) b = some k' ∧
      k + k' = ∑ n ∈ range (LinearChain.numEdges p lengths b), ∑ i ∈ range p.d2, ∑ j ∈ range p.d3, (ν [b, n, i, j] - μ [b, n, i, j]) * (g b n i j - p.get b n i j) := by
  obtain ⟨μ, hμ, H⟩ := chain_spec p lengths h
  obtain ⟨ν, hν, G⟩ := chain_spec { p with get := g } lengths ⟨h.square, h.edges, h.classes, h.lens⟩
  refine ⟨μ, ν, hμ, hν, fun b hb => ?_⟩
  obtain ⟨z, z', h1, h2, h3⟩ := H b hb g
  obtain ⟨y, y', g1, g2, g3⟩ := G b hb p.get
  obtain rfl : y = z' := Option.some.inj (g1.symm.trans h2)
  obtain rfl : y' = z := Option.some.inj (g2.symm.trans h1)
  refine ⟨_, _, h3, g3, ?_⟩
  have e : ∑ n ∈ range (LinearChain.numEdges p lengths b), ∑ i ∈ range p.d2, ∑ j ∈ range p.d3, (ν [b, n, i, j] - μ [b, n, i, j]) * (g b n i j - p.get b n i j) =
      - (dotChain p lengths b ν fun b i j a => p.get b i j a - g b i j a) - (dotChain p lengths b μ fun b i j a => g b i j a - p.get b i j a) := by
    simp only [dotChain, ← sum_neg_distrib, ← sum_sub_distrib]
    exact sum_congr rfl fun _ _ => sum_congr rfl fun _ _ => sum_congr rfl fun _ _ => by ring
  rw [e]
  have : (dotChain ({ p with get := g } : T4 ℝ) lengths b ν fun b i j a => p.get b i j a - g b i j a) = dotChain p lengths b ν fun b i j a => p.get b i j a - g b i j a := rfl
  rw [this]
  ring

/-! ### `DependencyCRF` -/

theorem arc_entropy (mr : Bool) (q : DepTree.Arcs ℝ) (lengths : Option (List ℕ)) (h : DepTreeProofs.Valid mr q lengths) :
    ∃ μ, DepTree.marginals mr q lengths = .ok μ ∧ ∀ b < q.d0, ∃ z, rowValue (DepTree.partition mr q lengths) b = some z ∧
      rowValue (DepTree.entropy mr q lengths) b = some (z - ∑ i ∈ range q.d1, ∑ j ∈ range q.d2, ∑ l ∈ range q.labels,
        μ (DepTreeProofs.cellTag (decide q.labeled) b i j l) * q.get b i j l) := by
  have hv : DepTree.convert DepTree.negBig q = .ok (DepTreeProofs.conv DepTree.negBig q) := DepTreeProofs.convert_ok _ h.rank h.square
  have D := DepTreeProofs.batchDP mr DepTree.negBig q lengths h
  obtain ⟨μ, hμ, -⟩ := D.marginals_eq
  refine ⟨μ, by rw [DepTree.marginals, hv]; exact hμ, fun b hb => ?_⟩
  have hl : ∀ l < q.labels, q.labeled ∨ l = 0 := by
    intro l hl
    rcases h.rank with h3 | h4
    · rw [DepTreeProofs.labels_one h3] at hl; right; omega
    · exact Or.inl h4
  have m := D.mean (DepTreeProofs.atQ DepTree.negBig q) hμ b hb
    (range q.d1 ×ˢ range q.d2 ×ˢ range q.labels) (fun x => DepTreeProofs.cellTag (decide q.labeled) b x.1 x.2.1 x.2.2)
    (fun x hx y hy hxy => by
      obtain ⟨-, e1, e2, e3⟩ := DepTreeProofs.cellTag_inj hxy
      refine Prod.ext e1 (Prod.ext e2 ?_)
      rcases hl _ (mem3.1 hx).2.2 with hq | hx0
      · exact e3 (decide_eq_true hq)
      · rcases hl _ (mem3.1 hy).2.2 with hq | hy0
        · exact e3 (decide_eq_true hq)
        · exact hx0.trans hy0.symm)
    (by
      rintro e ⟨h', k, l, rfl, hh, hk, -, hl'⟩
      have e1 := DepTreeProofs.arcCell_lt hh hk
      have e2 : lenOf q.d1 lengths b ≤ q.d1 := (DepTreeProofs.len_le h hb).1
      have e3 := h.square
      exact ⟨((arcCell h' k).1, (arcCell h' k).2, l), mem3.2 ⟨by dsimp only; omega, by dsimp only; omega, hl'⟩, rfl⟩)
    (fun x _ => by simp [DepTreeProofs.cellTag])
  have := D.nonempty_all b hb
  refine ⟨_, by rw [DepTree.partition, hv]; exact (congrArg (rowValue · b) D.partition_eq).trans (rowValue_ok _ _ _ hb), ?_⟩
  rw [DepTree.entropy, hv]
  refine ((congrArg (rowValue · b) D.entropy_eq).trans (rowValue_ok _ _ _ hb)).trans ?_
  rw [Gibbs.entropy_eq, m, ← sum3 q.d1 q.d2 q.labels fun i j l => μ (DepTreeProofs.cellTag (decide q.labeled) b i j l) * q.get b i j l]
  congr 2
  exact sum_congr rfl fun x hx => by rw [DepTreeProofs.atQ_cell _ q _ _ _ _ (hl _ (mem3.1 hx).2.2)]

/-- **C114, `DependencyCRF`.** `entropy` is `partition` minus the arc scores weighted by the marginals. -/
theorem dependency_entropy (mr : Bool) (q : DepTree.Arcs ℝ) (lengths : Option (List ℕ)) (h : Dependency.Valid mr q lengths) :
    ∃ μ, DepTree.marginals mr q lengths = .ok μ ∧ ∀ b < q.d0, ∃ z, rowValue (DepTree.partition mr q lengths) b = some z ∧
      rowValue (DepTree.entropy mr q lengths) b = some (z - ∑ i ∈ range q.d1, ∑ j ∈ range q.d2, μ [b, i, j] * q.get b i j 0) := by
  obtain ⟨μ, h1, h2⟩ := arc_entropy mr q lengths h.toValid
  refine ⟨μ, h1, fun b hb => ?_⟩
  obtain ⟨z, e1, e2⟩ := h2 b hb
  refine ⟨z, e1, ?_⟩
  simpa [DepTreeProofs.labels_one h.rank, DepTreeProofs.cellTag, DepTreeProofs.not_labeled h.rank] using e2

/-- **C114, `DependencyCRF` with labels.** -/
theorem labelled_entropy (mr : Bool) (q : DepTree.Arcs ℝ) (lengths : Option (List ℕ)) (h : LabelledDependency.Valid mr q lengths) :
    ∃ μ, DepTree.marginals mr q lengths = .ok μ ∧ ∀ b < q.d0, ∃ z, rowValue (DepTree.partition mr q lengths) b = some z ∧
      rowValue (DepTree.entropy mr q lengths) b = some (z - ∑ i ∈ range q.d1, ∑ j ∈ range q.d2, ∑ l ∈ range q.labels, μ [b, i, j, l] * q.get b i j l) := by
  obtain ⟨μ, h1, h2⟩ := arc_entropy mr q lengths h.toValid
  refine ⟨μ, h1, fun b hb => ?_⟩
  obtain ⟨z, e1, e2⟩ := h2 b hb
  refine ⟨z, e1, ?_⟩
  simpa [DepTreeProofs.cellTag, DepTreeProofs.is_labeled h.rank] using e2

/-! ### The hypotheses are met -/

/-- Two different chains of a batch of two rows of different lengths. -/
example : ∃ k k', rowValue (_root_.LinearChain.kl LinearChain.sample { LinearChain.sample with get := fun _ _ i j => i + 2 * j } (some [3, 2])) 1 = some k ∧
    rowValue (_root_.LinearChain.kl { LinearChain.sample with get := fun _ _ i j => i + 2 * j } LinearChain.sample (some [3, 2])) 1 = some k' := by
  obtain ⟨μ, ν, -, -, h⟩ := chain_both LinearChain.sample _ LinearChain.sample_valid fun _ _ i j => i + 2 * j
  obtain ⟨k, k', h1, h2, -⟩ := h 1 (by decide)
  exact ⟨k, k', h1, h2⟩

example : ∃ k, rowValue (CKYCRF.kl TreeCRF.sample { TreeCRF.sample with get := fun b i j a => TreeCRF.sample.get b i j a + if i = 0 then 1 / 10 else 0 } (some [3, 2])) 1 = some k ∧
    k ≤ ((2 * TreeCRF.sample.d1 - 1) * (1 / 10)) ^ 2 / 2 :=
  tree_small TreeCRF.sample _ TreeCRF.sample_valid _ 1 (by decide) (1 / 10) (by norm_num) fun i _ j _ a _ => by
    rw [add_sub_cancel_left]
    split_ifs
    · rw [abs_of_nonneg (by norm_num)]
    · rw [abs_zero]; norm_num

example (mr : Bool) : ∃ z, rowValue (DepTree.partition mr Dependency.sample (some [3, 2])) 1 = some z := by
  obtain ⟨μ, -, h⟩ := dependency_entropy mr Dependency.sample _ (Dependency.sample_valid mr)
  obtain ⟨z, h1, -⟩ := h 1 (by decide)
  exact ⟨z, h1⟩

example (mr : Bool) : ∃ z, rowValue (DepTree.partition mr LabelledDependency.sample (some [3, 2])) 1 = some z := by
  obtain ⟨μ, -, h⟩ := labelled_entropy mr LabelledDependency.sample _ (LabelledDependency.sample_valid mr)
  obtain ⟨z, h1, -⟩ := h 1 (by decide)
  exact ⟨z, h1⟩

end Props.Bregman
