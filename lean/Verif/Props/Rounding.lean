import Verif.Proofs.Rounding
import Verif.Props.LinearChainValue
import Verif.Props.TreeCRF
import Verif.Props.SemiMarkov
import Verif.Props.LabelledDependency
import Verif.Props.SentCFG
import Mathlib.Algebra.Order.Round

/-! C66 and C67: rounding errors add up, they are not amplified; and the values depend continuously on the potentials.

C66.  The dynamic program is run on potentials `q` that are within `δ` of `p` in a semiring `S'` whose operations have an error of at most `ε` each (`Spec.Rounded`).  The result of
every row is within (number of potentials of a structure) * `δ` + (a small multiple of the length) * `ε` of the exact value for `p`: the error grows linearly with the length, whatever the
potentials, the number of labels and the lengths are.  `B` bounds the potentials (it is at least the stand-in for minus infinity) and `Q` the sizes of the dimensions that are summed over; they
only enter in the hypothesis that all intermediate values stay in the range `R` in which the operations are accurate.  Errors that the code raises are the same.

C67.  With exact operations: moving every potential by at most `δ` moves the value by at most (number of potentials of a structure) * `δ`. -/

open Semirings Spec Rounding

noncomputable section
namespace Props.Rounding

/-! ### Tables -/

/-- Two tables of the same shape whose entries differ by at most `δ`. -/
def Near4 (δ : ℝ) (p q : T4 ℝ) : Prop := (q.d0 = p.d0 ∧ q.d1 = p.d1 ∧ q.d2 = p.d2 ∧ q.d3 = p.d3) ∧
  ∀ b < p.d0, ∀ n < p.d1, ∀ i < p.d2, ∀ j < p.d3, |q.get b n i j - p.get b n i j| ≤ δ

/-- All entries lie between `-B` and `B`. -/
def Within4 (B : ℝ) (p : T4 ℝ) : Prop := ∀ b < p.d0, ∀ n < p.d1, ∀ i < p.d2, ∀ j < p.d3, |p.get b n i j| ≤ B

/-- see `Near4`. -/
def Near5 (δ : ℝ) (p q : T5 ℝ) : Prop := (q.d0 = p.d0 ∧ q.d1 = p.d1 ∧ q.d2 = p.d2 ∧ q.d3 = p.d3 ∧ q.d4 = p.d4) ∧
  ∀ b < p.d0, ∀ n < p.d1, ∀ k < p.d2, ∀ i < p.d3, ∀ j < p.d4, |q.get b n k i j - p.get b n k i j| ≤ δ

/-- see `Within4`. -/
def Within5 (B : ℝ) (p : T5 ℝ) : Prop := ∀ b < p.d0, ∀ n < p.d1, ∀ k < p.d2, ∀ i < p.d3, ∀ j < p.d4, |p.get b n k i j| ≤ B

/-- see `Near4`. -/
def NearArcs (δ : ℝ) (p q : DepTree.Arcs ℝ) : Prop := (q.rank = p.rank ∧ q.d0 = p.d0 ∧ q.d1 = p.d1 ∧ q.d2 = p.d2 ∧ q.d3 = p.d3) ∧
  ∀ b < p.d0, ∀ i < p.d1, ∀ j < p.d2, ∀ l < p.labels, |q.get b i j l - p.get b i j l| ≤ δ

/-- see `Within4`. -/
def WithinArcs (B : ℝ) (p : DepTree.Arcs ℝ) : Prop := ∀ b < p.d0, ∀ i < p.d1, ∀ j < p.d2, ∀ l < p.labels, |p.get b i j l| ≤ B

/-- see `Near4`. -/
def NearCfg (δ : ℝ) (p q : CKY.Scores ℝ) : Prop := (q.batch = p.batch ∧ q.N = p.N ∧ q.T = p.T ∧ q.NT = p.NT ∧ q.S = p.S ∧ p.mark = none ∧ q.mark = none) ∧
  (∀ b < p.batch, ∀ n < p.N, ∀ t < p.T, |q.term b n t - p.term b n t| ≤ δ) ∧
  (∀ b < p.batch, ∀ x < p.NT, ∀ y < p.NT + p.T, ∀ z < p.NT + p.T, |q.rule b x y z - p.rule b x y z| ≤ δ) ∧
  ∀ b < p.batch, ∀ x < p.NT, |q.root b x - p.root b x| ≤ δ

/-- see `Within4`. -/
def WithinCfg (B : ℝ) (p : CKY.Scores ℝ) : Prop :=
  (∀ b < p.batch, ∀ n < p.N, ∀ t < p.T, |p.term b n t| ≤ B) ∧
  (∀ b < p.batch, ∀ x < p.NT, ∀ y < p.NT + p.T, ∀ z < p.NT + p.T, |p.rule b x y z| ≤ B) ∧
  ∀ b < p.batch, ∀ x < p.NT, |p.root b x| ≤ B

/-! ### Rounded semirings -/

/-- Results rounded to multiples of `g`. -/
def onGrid (g : ℝ) (S : SR ℝ) : SR ℝ := { S with mul := fun a b => round (S.mul a b / g) * g, sum := fun xs => round (S.sum xs / g) * g }

theorem grid_error {g : ℝ} (hg : 0 < g) (x : ℝ) : |round (x / g) * g - x| ≤ g / 2 := by
  have h := abs_sub_round (x / g)
  have e : round (x / g) * g - x = -((x / g - round (x / g)) * g) := by
    rw [sub_mul, div_mul_cancel₀ _ hg.ne']; ring
  rw [e, abs_neg, abs_mul, abs_of_pos hg]
  linarith [mul_le_mul_of_nonneg_right h hg.le]

/-- Fixed-point arithmetic: rounding to a grid is an instance, in every range. -/
theorem onGrid_rounded {g : ℝ} (hg : 0 < g) (S : SR ℝ) (R : ℝ) : Rounded (onGrid g S) S R (g / 2) :=
  ⟨rfl, rfl, rfl, fun _ => rfl, fun _ _ => rfl, fun _ _ _ => grid_error hg _, fun _ _ _ => grid_error hg _⟩

/-- Floating-point arithmetic: operations with a relative error of at most `u` are an instance with `ε = u * R`. -/
theorem relative_rounded {S' S : SR ℝ} {u R : ℝ} (hu : 0 ≤ u) (h0 : S'.zero = S.zero ∧ S'.one = S.one ∧ S'.raw0 = S.raw0) (hd : ∀ a, S'.detach a = S.detach a)
    (hs : ∀ a b, S'.setData a b = S.setData a b) (hm : ∀ a b, |S'.mul a b - S.mul a b| ≤ u * |S.mul a b|) (hsum : ∀ xs, |S'.sum xs - S.sum xs| ≤ u * |S.sum xs|) :
    Rounded S' S R (u * R) :=
  ⟨h0.1, h0.2.1, h0.2.2, hd, hs, fun a b h => (hm a b).trans (mul_le_mul_of_nonneg_left h hu), fun xs _ h => (hsum xs).trans (mul_le_mul_of_nonneg_left h hu)⟩

theorem exact_rounded (S : SR ℝ) (R : ℝ) : Rounded S S R 0 := ⟨rfl, rfl, rfl, fun _ => rfl, fun _ _ => rfl, fun _ _ _ => by simp, fun _ _ _ => by simp⟩

/-! ### Every table is bounded -/

theorem bounded_range {P : ℕ → ℝ → Prop} (mono : ∀ i B B', B ≤ B' → P i B → P i B') (n : ℕ) (h : ∀ i < n, ∃ B, P i B) : ∃ B, ∀ i < n, P i B := by
  induction n with
  | zero => exact ⟨0, fun i hi => absurd hi (by omega)⟩
  | succ n ih =>
    obtain ⟨B, hB⟩ := ih fun i hi => h i (by omega)
    obtain ⟨B', hB'⟩ := h n (by omega)
    refine ⟨Max.max B B', fun i hi => ?_⟩
    rcases Nat.lt_succ_iff_lt_or_eq.1 hi with h1 | rfl
    · exact mono _ _ _ (le_max_left _ _) (hB i h1)
    · exact mono _ _ _ (le_max_right _ _) hB'

theorem bounded1 (n : ℕ) (f : ℕ → ℝ) : ∃ B, ∀ i < n, |f i| ≤ B := bounded_range (fun _ _ _ h h' => h'.trans h) n fun i _ => ⟨_, le_refl _⟩

theorem bounded2 (m n : ℕ) (f : ℕ → ℕ → ℝ) : ∃ B, ∀ i < m, ∀ j < n, |f i j| ≤ B :=
  bounded_range (fun _ _ _ h h' j hj => (h' j hj).trans h) m fun i _ => bounded1 n (f i)

theorem bounded3 (l m n : ℕ) (f : ℕ → ℕ → ℕ → ℝ) : ∃ B, ∀ a < l, ∀ i < m, ∀ j < n, |f a i j| ≤ B :=
  bounded_range (fun _ _ _ h h' i hi j hj => (h' i hi j hj).trans h) l fun a _ => bounded2 m n (f a)

theorem bounded4 (k l m n : ℕ) (f : ℕ → ℕ → ℕ → ℕ → ℝ) : ∃ B, ∀ b < k, ∀ a < l, ∀ i < m, ∀ j < n, |f b a i j| ≤ B :=
  bounded_range (fun _ _ _ h h' a ha i hi j hj => (h' a ha i hi j hj).trans h) k fun b _ => bounded3 l m n (f b)

theorem bounded5 (o k l m n : ℕ) (f : ℕ → ℕ → ℕ → ℕ → ℕ → ℝ) : ∃ B, ∀ c < o, ∀ b < k, ∀ a < l, ∀ i < m, ∀ j < n, |f c b a i j| ≤ B :=
  bounded_range (fun _ _ _ h h' b hb a ha i hi j hj => (h' b hb a ha i hi j hj).trans h) o fun c _ => bounded4 k l m n (f c)

theorem within_arcs (p : DepTree.Arcs ℝ) : ∃ B, 1000000000 ≤ B ∧ WithinArcs B p := by
  obtain ⟨B, hB⟩ := bounded4 p.d0 p.d1 p.d2 p.labels p.get
  exact ⟨Max.max 1000000000 B, le_max_left _ _, fun b hb i hi j hj l hl => (hB b hb i hi j hj l hl).trans (le_max_right _ _)⟩

theorem within4 (p : T4 ℝ) : ∃ B, 100000 ≤ B ∧ Within4 B p := by
  obtain ⟨B, hB⟩ := bounded4 p.d0 p.d1 p.d2 p.d3 p.get
  exact ⟨Max.max 100000 B, le_max_left _ _, fun b hb i hi j hj l hl => (hB b hb i hi j hj l hl).trans (le_max_right _ _)⟩

theorem within5 (p : T5 ℝ) : ∃ B, 100000 ≤ B ∧ Within5 B p := by
  obtain ⟨B, hB⟩ := bounded5 p.d0 p.d1 p.d2 p.d3 p.d4 p.get
  exact ⟨Max.max 100000 B, le_max_left _ _, fun b hb i hi j hj l hl k hk => (hB b hb i hi j hj l hl k hk).trans (le_max_right _ _)⟩

theorem within_cfg (p : CKY.Scores ℝ) : ∃ B, 100000 ≤ B ∧ WithinCfg B p := by
  obtain ⟨B1, h1⟩ := bounded3 p.batch p.N p.T p.term
  obtain ⟨B2, h2⟩ := bounded4 p.batch p.NT (p.NT + p.T) (p.NT + p.T) p.rule
  obtain ⟨B3, h3⟩ := bounded2 p.batch p.NT p.root
  refine ⟨Max.max 100000 (Max.max B1 (Max.max B2 B3)), le_max_left _ _, fun b hb n hn t ht => ?_, fun b hb x hx y hy z hz => ?_, fun b hb x hx => ?_⟩
  · exact (h1 b hb n hn t ht).trans ((le_max_left _ _).trans (le_max_right _ _))
  · exact (h2 b hb x hx y hy z hz).trans (((le_max_left _ _).trans (le_max_right _ _)).trans (le_max_right _ _))
  · exact (h3 b hb x hx).trans (((le_max_right _ _).trans (le_max_right _ _)).trans (le_max_right _ _))

variable {S' : SR ℝ} {R ε δ B : ℝ}

/-! ### `LinearChainCRF` -/

/-- **C66.** `partition` of `LinearChainCRF`, rounded. -/
theorem chain_partition_rounded {p q : T4 ℝ} {Q : ℕ} (hC : 0 < p.d2) (hS : Rounded S' log R ε) (hε : 0 ≤ ε) (hδ : 0 ≤ δ) (hB : 100000 ≤ B) (hpq : Near4 δ p q) (hp : Within4 B p)
    (hQ2 : 2 ≤ Q) (hQ : p.d2 ≤ Q) (hR : (p.d1 * (δ + 6 * ε)) + p.d1 * (2 * B + 5 * Real.log Q) ≤ R) (lengths : Option (List ℕ)) :
    RelE (fun a b => |a - b| ≤ p.d1 * (δ + 6 * ε)) (LinearChain.algo.run S' q lengths) (Dist.partition LinearChain.algo p lengths) :=
  chain_rounded lip_log hS hε hδ hB hpq.1.1 hpq.1.2.1 hpq.1.2.2.1 hpq.1.2.2.2 hC (fun b hb n hn i hi j hj => ⟨hpq.2 b hb n hn i hi j hj, hp b hb n hn i hi j hj⟩) hQ2 hQ hR lengths

/-- **C66.** `max` of `LinearChainCRF`, rounded. -/
theorem chain_max_rounded {p q : T4 ℝ} {Q : ℕ} (hC : 0 < p.d2) (hS : Rounded S' Semirings.max R ε) (hε : 0 ≤ ε) (hδ : 0 ≤ δ) (hB : 100000 ≤ B) (hpq : Near4 δ p q) (hp : Within4 B p)
    (hQ2 : 2 ≤ Q) (hQ : p.d2 ≤ Q) (hR : (p.d1 * (δ + 6 * ε)) + p.d1 * (2 * B + 5 * Real.log Q) ≤ R) (lengths : Option (List ℕ)) :
    RelE (fun a b => |a - b| ≤ p.d1 * (δ + 6 * ε)) (LinearChain.algo.run S' q lengths) (Dist.max LinearChain.algo p lengths) :=
  chain_rounded lip_max hS hε hδ hB hpq.1.1 hpq.1.2.1 hpq.1.2.2.1 hpq.1.2.2.2 hC (fun b hb n hn i hi j hj => ⟨hpq.2 b hb n hn i hi j hj, hp b hb n hn i hi j hj⟩) hQ2 hQ hR lengths

/-- **C67.** `partition` of `LinearChainCRF` is Lipschitz in the potentials: a structure uses the `N - 1` transitions. -/
theorem chain_partition_stable {p q : T4 ℝ} (hC : 0 < p.d2) (hδ : 0 ≤ δ) (hpq : Near4 δ p q) (lengths : Option (List ℕ)) :
    RelE (fun a b => |a - b| ≤ p.d1 * δ) (Dist.partition LinearChain.algo q lengths) (Dist.partition LinearChain.algo p lengths) := by
  obtain ⟨B, hB, hp⟩ := within4 p
  have h := chain_partition_rounded (Q := p.d2 + 2) hC (exact_rounded log _) (le_refl 0) hδ hB hpq hp (by omega) (by omega) (le_refl _) lengths
  refine RelE.mono (fun a b hab => hab.trans (le_of_eq (by ring))) h

/-- **C67.** `max` of `LinearChainCRF` is Lipschitz in the potentials: a structure uses the `N - 1` transitions. -/
theorem chain_max_stable {p q : T4 ℝ} (hC : 0 < p.d2) (hδ : 0 ≤ δ) (hpq : Near4 δ p q) (lengths : Option (List ℕ)) :
    RelE (fun a b => |a - b| ≤ p.d1 * δ) (Dist.max LinearChain.algo q lengths) (Dist.max LinearChain.algo p lengths) := by
  obtain ⟨B, hB, hp⟩ := within4 p
  have h := chain_max_rounded (Q := p.d2 + 2) hC (exact_rounded Semirings.max _) (le_refl 0) hδ hB hpq hp (by omega) (by omega) (le_refl _) lengths
  refine RelE.mono (fun a b hab => hab.trans (le_of_eq (by ring))) h

/-! ### `SemiMarkovCRF` -/

/-- **C66.** `partition` of `SemiMarkovCRF`, rounded. -/
theorem semimarkov_partition_rounded {p q : T5 ℝ} {Q : ℕ} (hC : 0 < p.d3) (hS : Rounded S' log R ε) (hε : 0 ≤ ε) (hδ : 0 ≤ δ) (hB : 100000 ≤ B) (hpq : Near5 δ p q) (hp : Within5 B p)
    (hQ2 : 2 ≤ Q) (hQ : (p.d2 - 1) * p.d3 ≤ Q) (hR : (p.d1 * (δ + 6 * ε)) + p.d1 * (2 * B + 5 * Real.log Q) ≤ R) (lengths : Option (List ℕ)) :
    RelE (fun a b => |a - b| ≤ p.d1 * (δ + 6 * ε)) (SemiMarkov.algo.run S' q lengths) (Dist.partition SemiMarkov.algo p lengths) :=
  semi_rounded lip_log hS hε hδ hB hpq.1.1 hpq.1.2.1 hpq.1.2.2.1 hpq.1.2.2.2.1 hpq.1.2.2.2.2 hC
    (fun b hb n hn k hk i hi j hj => ⟨hpq.2 b hb n hn k hk i hi j hj, hp b hb n hn k hk i hi j hj⟩) hQ2 hQ hR lengths

/-- **C66.** `max` of `SemiMarkovCRF`, rounded. -/
theorem semimarkov_max_rounded {p q : T5 ℝ} {Q : ℕ} (hC : 0 < p.d3) (hS : Rounded S' Semirings.max R ε) (hε : 0 ≤ ε) (hδ : 0 ≤ δ) (hB : 100000 ≤ B) (hpq : Near5 δ p q) (hp : Within5 B p)
    (hQ2 : 2 ≤ Q) (hQ : (p.d2 - 1) * p.d3 ≤ Q) (hR : (p.d1 * (δ + 6 * ε)) + p.d1 * (2 * B + 5 * Real.log Q) ≤ R) (lengths : Option (List ℕ)) :
    RelE (fun a b => |a - b| ≤ p.d1 * (δ + 6 * ε)) (SemiMarkov.algo.run S' q lengths) (Dist.max SemiMarkov.algo p lengths) :=
  semi_rounded lip_max hS hε hδ hB hpq.1.1 hpq.1.2.1 hpq.1.2.2.1 hpq.1.2.2.2.1 hpq.1.2.2.2.2 hC
    (fun b hb n hn k hk i hi j hj => ⟨hpq.2 b hb n hn k hk i hi j hj, hp b hb n hn k hk i hi j hj⟩) hQ2 hQ hR lengths

/-- **C67.** `partition` of `SemiMarkovCRF` is Lipschitz in the potentials: a structure uses at most `N - 1` segments. -/
theorem semimarkov_partition_stable {p q : T5 ℝ} (hC : 0 < p.d3) (hδ : 0 ≤ δ) (hpq : Near5 δ p q) (lengths : Option (List ℕ)) :
    RelE (fun a b => |a - b| ≤ p.d1 * δ) (Dist.partition SemiMarkov.algo q lengths) (Dist.partition SemiMarkov.algo p lengths) := by
  obtain ⟨B, hB, hp⟩ := within5 p
  have h := semimarkov_partition_rounded (Q := (p.d2 - 1) * p.d3 + 2) hC (exact_rounded log _) (le_refl 0) hδ hB hpq hp (by omega) (by omega) (le_refl _) lengths
  refine RelE.mono (fun a b hab => hab.trans (le_of_eq (by ring))) h

/-- **C67.** `max` of `SemiMarkovCRF` is Lipschitz in the potentials: a structure uses at most `N - 1` segments. -/
theorem semimarkov_max_stable {p q : T5 ℝ} (hC : 0 < p.d3) (hδ : 0 ≤ δ) (hpq : Near5 δ p q) (lengths : Option (List ℕ)) :
    RelE (fun a b => |a - b| ≤ p.d1 * δ) (Dist.max SemiMarkov.algo q lengths) (Dist.max SemiMarkov.algo p lengths) := by
  obtain ⟨B, hB, hp⟩ := within5 p
  have h := semimarkov_max_rounded (Q := (p.d2 - 1) * p.d3 + 2) hC (exact_rounded Semirings.max _) (le_refl 0) hδ hB hpq hp (by omega) (by omega) (le_refl _) lengths
  refine RelE.mono (fun a b hab => hab.trans (le_of_eq (by ring))) h

/-! ### `TreeCRF` -/

/-- **C66.** `partition` of `TreeCRF`, rounded. -/
theorem tree_partition_rounded {p q : T4 ℝ} {Q : ℕ} (hb : 0 < p.d0) (hC : 0 < p.d3) (hS : Rounded S' log R ε) (hε : 0 ≤ ε) (hδ : 0 ≤ δ) (hB : 100000 ≤ B) (hpq : Near4 δ p q) (hp : Within4 B p)
    (hQ1 : p.d1 ≤ Q) (hQ : p.d3 ≤ Q) (hR : ((2 * p.d1 - 1) * δ + 5 * p.d1 * ε) + p.d1 * (2 * B + 3 * Real.log Q) ≤ R) (lengths : Option (List ℕ)) :
    RelE (fun a b => |a - b| ≤ (2 * p.d1 - 1) * δ + 5 * p.d1 * ε) (CKYCRF.algo.run S' q lengths) (Dist.partition CKYCRF.algo p lengths) :=
  tree_rounded lip_log hS hε hδ hB hpq.1.1 hpq.1.2.1 hpq.1.2.2.1 hpq.1.2.2.2 hC hb (fun b hb n hn i hi j hj => ⟨hpq.2 b hb n hn i hi j hj, hp b hb n hn i hi j hj⟩) hQ1 hQ hR lengths

/-- **C66.** `max` of `TreeCRF`, rounded. -/
theorem tree_max_rounded {p q : T4 ℝ} {Q : ℕ} (hb : 0 < p.d0) (hC : 0 < p.d3) (hS : Rounded S' Semirings.max R ε) (hε : 0 ≤ ε) (hδ : 0 ≤ δ) (hB : 100000 ≤ B) (hpq : Near4 δ p q) (hp : Within4 B p)
    (hQ1 : p.d1 ≤ Q) (hQ : p.d3 ≤ Q) (hR : ((2 * p.d1 - 1) * δ + 5 * p.d1 * ε) + p.d1 * (2 * B + 3 * Real.log Q) ≤ R) (lengths : Option (List ℕ)) :
    RelE (fun a b => |a - b| ≤ (2 * p.d1 - 1) * δ + 5 * p.d1 * ε) (CKYCRF.algo.run S' q lengths) (Dist.max CKYCRF.algo p lengths) :=
  tree_rounded lip_max hS hε hδ hB hpq.1.1 hpq.1.2.1 hpq.1.2.2.1 hpq.1.2.2.2 hC hb (fun b hb n hn i hi j hj => ⟨hpq.2 b hb n hn i hi j hj, hp b hb n hn i hi j hj⟩) hQ1 hQ hR lengths

/-- **C67.** `partition` of `TreeCRF` is Lipschitz in the potentials: a structure uses the `2 N - 1` spans of a tree. -/
theorem tree_partition_stable {p q : T4 ℝ} (hb : 0 < p.d0) (hC : 0 < p.d3) (hδ : 0 ≤ δ) (hpq : Near4 δ p q) (lengths : Option (List ℕ)) :
    RelE (fun a b => |a - b| ≤ (2 * p.d1 - 1) * δ) (Dist.partition CKYCRF.algo q lengths) (Dist.partition CKYCRF.algo p lengths) := by
  obtain ⟨B, hB, hp⟩ := within4 p
  have h := tree_partition_rounded (Q := p.d1 + p.d3) hb hC (exact_rounded log _) (le_refl 0) hδ hB hpq hp (by omega) (by omega) (le_refl _) lengths
  refine RelE.mono (fun a b hab => hab.trans (le_of_eq (by ring))) h

/-- **C67.** `max` of `TreeCRF` is Lipschitz in the potentials: a structure uses the `2 N - 1` spans of a tree. -/
theorem tree_max_stable {p q : T4 ℝ} (hb : 0 < p.d0) (hC : 0 < p.d3) (hδ : 0 ≤ δ) (hpq : Near4 δ p q) (lengths : Option (List ℕ)) :
    RelE (fun a b => |a - b| ≤ (2 * p.d1 - 1) * δ) (Dist.max CKYCRF.algo q lengths) (Dist.max CKYCRF.algo p lengths) := by
  obtain ⟨B, hB, hp⟩ := within4 p
  have h := tree_max_rounded (Q := p.d1 + p.d3) hb hC (exact_rounded Semirings.max _) (le_refl 0) hδ hB hpq hp (by omega) (by omega) (le_refl _) lengths
  refine RelE.mono (fun a b hab => hab.trans (le_of_eq (by ring))) h

/-! ### `DependencyCRF` -/

/-- **C66.** `partition` of `DependencyCRF`, rounded. -/
theorem dependency_partition_rounded {p q : DepTree.Arcs ℝ} {Q : ℕ} (mr : Bool) (hC : 0 < p.labels) (hS : Rounded S' log R ε) (hε : 0 ≤ ε) (hδ : 0 ≤ δ) (hB : 1000000000 ≤ B) (hpq : NearArcs δ p q) (hp : WithinArcs B p)
    (hQ1 : p.d1 ≤ Q) (hQ : p.labels ≤ Q) (hR : (p.d1 * (δ + 6 * ε)) + p.d1 * (B + 3 * Real.log Q) ≤ R) (lengths : Option (List ℕ)) :
    RelE (fun a b => |a - b| ≤ p.d1 * (δ + 6 * ε)) (DepTree.sum mr S' DepTree.negBig q lengths) (DepTree.partition mr p lengths) :=
  dep_rounded mr lip_log hS hε hδ hB hpq.1.1 hpq.1.2.1 hpq.1.2.2.1 hpq.1.2.2.2.1 hpq.1.2.2.2.2 hC
    (fun b hb n hn i hi j hj => ⟨hpq.2 b hb n hn i hi j hj, hp b hb n hn i hi j hj⟩) hQ1 hQ hR lengths

/-- **C66.** `max` of `DependencyCRF`, rounded. -/
theorem dependency_max_rounded {p q : DepTree.Arcs ℝ} {Q : ℕ} (mr : Bool) (hC : 0 < p.labels) (hS : Rounded S' Semirings.max R ε) (hε : 0 ≤ ε) (hδ : 0 ≤ δ) (hB : 1000000000 ≤ B) (hpq : NearArcs δ p q) (hp : WithinArcs B p)
    (hQ1 : p.d1 ≤ Q) (hQ : p.labels ≤ Q) (hR : (p.d1 * (δ + 6 * ε)) + p.d1 * (B + 3 * Real.log Q) ≤ R) (lengths : Option (List ℕ)) :
    RelE (fun a b => |a - b| ≤ p.d1 * (δ + 6 * ε)) (DepTree.sum mr S' DepTree.negBig q lengths) (DepTree.max mr p lengths) :=
  dep_rounded mr lip_max hS hε hδ hB hpq.1.1 hpq.1.2.1 hpq.1.2.2.1 hpq.1.2.2.2.1 hpq.1.2.2.2.2 hC
    (fun b hb n hn i hi j hj => ⟨hpq.2 b hb n hn i hi j hj, hp b hb n hn i hi j hj⟩) hQ1 hQ hR lengths

/-- **C67.** `partition` of `DependencyCRF` is Lipschitz in the potentials: a structure uses one arc per word. -/
theorem dependency_partition_stable {p q : DepTree.Arcs ℝ} (mr : Bool) (hC : 0 < p.labels) (hδ : 0 ≤ δ) (hpq : NearArcs δ p q) (lengths : Option (List ℕ)) :
    RelE (fun a b => |a - b| ≤ p.d1 * δ) (DepTree.partition mr q lengths) (DepTree.partition mr p lengths) := by
  obtain ⟨B, hB, hp⟩ := within_arcs p
  have h := dependency_partition_rounded (Q := p.d1 + p.labels) mr hC (exact_rounded log _) (le_refl 0) hδ hB hpq hp (by omega) (by omega) (le_refl _) lengths
  refine RelE.mono (fun a b hab => hab.trans (le_of_eq (by ring))) h

/-- **C67.** `max` of `DependencyCRF` is Lipschitz in the potentials: a structure uses one arc per word. -/
theorem dependency_max_stable {p q : DepTree.Arcs ℝ} (mr : Bool) (hC : 0 < p.labels) (hδ : 0 ≤ δ) (hpq : NearArcs δ p q) (lengths : Option (List ℕ)) :
    RelE (fun a b => |a - b| ≤ p.d1 * δ) (DepTree.max mr q lengths) (DepTree.max mr p lengths) := by
  obtain ⟨B, hB, hp⟩ := within_arcs p
  have h := dependency_max_rounded (Q := p.d1 + p.labels) mr hC (exact_rounded Semirings.max _) (le_refl 0) hδ hB hpq hp (by omega) (by omega) (le_refl _) lengths
  refine RelE.mono (fun a b hab => hab.trans (le_of_eq (by ring))) h

/-! ### `SentCFG` -/

/-- **C66.** `partition` of `SentCFG`, rounded. -/
theorem cfg_partition_rounded {p q : CKY.Scores ℝ} {Q : ℕ}  (hS : Rounded S' log R ε) (hε : 0 ≤ ε) (hδ : 0 ≤ δ) (hB : 100000 ≤ B) (hpq : NearCfg δ p q) (hp : WithinCfg B p)
    (hQ1 : p.N ≤ Q) (hQ4 : 4 ≤ Q) (hQ : p.S * p.S ≤ Q) (hR : (2 * p.N * δ + 5 * p.N * ε) + p.N * (2 * B + 3 * Real.log Q) ≤ R) (lengths : Option (List ℕ)) :
    RelE (fun a b => |a - b| ≤ 2 * p.N * δ + 5 * p.N * ε) (CKY.algo.run S' q lengths) (Dist.partition CKY.algo p lengths) :=
  cfg_rounded lip_log hS hε hδ hB hpq.1.1 hpq.1.2.1 hpq.1.2.2.1 hpq.1.2.2.2.1 hpq.1.2.2.2.2.1 hpq.1.2.2.2.2.2.1 hpq.1.2.2.2.2.2.2
    (fun b hb n hn t ht => ⟨hpq.2.1 b hb n hn t ht, hp.1 b hb n hn t ht⟩)
    (fun b hb x hx y hy z hz => ⟨hpq.2.2.1 b hb x hx y hy z hz, hp.2.1 b hb x hx y hy z hz⟩) (fun b hb x hx => ⟨hpq.2.2.2 b hb x hx, hp.2.2 b hb x hx⟩) hQ1 hQ4 hQ hR lengths

/-- **C66.** `max` of `SentCFG`, rounded. -/
theorem cfg_max_rounded {p q : CKY.Scores ℝ} {Q : ℕ}  (hS : Rounded S' Semirings.max R ε) (hε : 0 ≤ ε) (hδ : 0 ≤ δ) (hB : 100000 ≤ B) (hpq : NearCfg δ p q) (hp : WithinCfg B p)
    (hQ1 : p.N ≤ Q) (hQ4 : 4 ≤ Q) (hQ : p.S * p.S ≤ Q) (hR : (2 * p.N * δ + 5 * p.N * ε) + p.N * (2 * B + 3 * Real.log Q) ≤ R) (lengths : Option (List ℕ)) :
    RelE (fun a b => |a - b| ≤ 2 * p.N * δ + 5 * p.N * ε) (CKY.algo.run S' q lengths) (Dist.max CKY.algo p lengths) :=
  cfg_rounded lip_max hS hε hδ hB hpq.1.1 hpq.1.2.1 hpq.1.2.2.1 hpq.1.2.2.2.1 hpq.1.2.2.2.2.1 hpq.1.2.2.2.2.2.1 hpq.1.2.2.2.2.2.2
    (fun b hb n hn t ht => ⟨hpq.2.1 b hb n hn t ht, hp.1 b hb n hn t ht⟩)
    (fun b hb x hx y hy z hz => ⟨hpq.2.2.1 b hb x hx y hy z hz, hp.2.1 b hb x hx y hy z hz⟩) (fun b hb x hx => ⟨hpq.2.2.2 b hb x hx, hp.2.2 b hb x hx⟩) hQ1 hQ4 hQ hR lengths

/-- **C67.** `partition` of `SentCFG` is Lipschitz in the potentials: a structure uses `N` terms, `N - 1` rules and one root. -/
theorem cfg_partition_stable {p q : CKY.Scores ℝ}  (hδ : 0 ≤ δ) (hpq : NearCfg δ p q) (lengths : Option (List ℕ)) :
    RelE (fun a b => |a - b| ≤ 2 * p.N * δ) (Dist.partition CKY.algo q lengths) (Dist.partition CKY.algo p lengths) := by
  obtain ⟨B, hB, hp⟩ := within_cfg p
  have h := cfg_partition_rounded (Q := p.N + 4 + p.S * p.S)  (exact_rounded log _) (le_refl 0) hδ hB hpq hp (by omega) (by omega) (by omega) (le_refl _) lengths
  refine RelE.mono (fun a b hab => hab.trans (le_of_eq (by ring))) h

/-- **C67.** `max` of `SentCFG` is Lipschitz in the potentials: a structure uses `N` terms, `N - 1` rules and one root. -/
theorem cfg_max_stable {p q : CKY.Scores ℝ}  (hδ : 0 ≤ δ) (hpq : NearCfg δ p q) (lengths : Option (List ℕ)) :
    RelE (fun a b => |a - b| ≤ 2 * p.N * δ) (Dist.max CKY.algo q lengths) (Dist.max CKY.algo p lengths) := by
  obtain ⟨B, hB, hp⟩ := within_cfg p
  have h := cfg_max_rounded (Q := p.N + 4 + p.S * p.S)  (exact_rounded Semirings.max _) (le_refl 0) hδ hB hpq hp (by omega) (by omega) (by omega) (le_refl _) lengths
  refine RelE.mono (fun a b hab => hab.trans (le_of_eq (by ring))) h

/-! ### The hypotheses are met -/

/-- A table and the same table with every entry moved by 1/1000. -/
def moved (p : T4 ℝ) : T4 ℝ := { p with get := fun b n i j => p.get b n i j + 1 / 1000 }

theorem near_moved (p : T4 ℝ) : Near4 (1 / 1000) p (moved p) :=
  ⟨⟨rfl, rfl, rfl, rfl⟩, fun b _ n _ i _ j _ => by show |p.get b n i j + 1 / 1000 - p.get b n i j| ≤ _; rw [add_sub_cancel_left, abs_of_pos (by norm_num)]⟩

theorem sample_within : Within4 100000 Props.LinearChain.sample := by
  intro b hb n hn i hi j hj
  simp only [Props.LinearChain.sample] at hb hn hi hj ⊢
  interval_cases b <;> interval_cases n <;> interval_cases i <;> interval_cases j <;> norm_num [abs_le]

/-- Fixed-point arithmetic with six digits on a table whose entries are off by 1/1000: the partition is off by at most 0.003. -/
example : ∃ vs, LinearChain.algo.run (onGrid (1 / 1000000) log) (moved Props.LinearChain.sample) (some [3, 2]) = .ok vs ∧
    ∃ zs, Dist.partition LinearChain.algo Props.LinearChain.sample (some [3, 2]) = .ok zs ∧ List.Forall₂ (fun a b => |a - b| ≤ 0.003) vs zs := by
  have hg : (0 : ℝ) < 1 / 1000000 := by norm_num
  have h := chain_partition_rounded (p := Props.LinearChain.sample) (q := moved Props.LinearChain.sample) (Q := 2) (by decide) (onGrid_rounded hg log 1000000)
    (by norm_num) (by norm_num) (le_refl _) (near_moved _) sample_within (le_refl _) (le_refl _) (by
      have h2 : Real.log (2 : ℕ) ≤ 2 := by
        have := Real.log_le_sub_one_of_pos (x := ((2 : ℕ) : ℝ)) (by norm_num)
        norm_num at this ⊢
        linarith
      have e : (Props.LinearChain.sample.d1 : ℝ) = 2 := by norm_num [Props.LinearChain.sample]
      rw [e]
      norm_num at h2 ⊢
      linarith) (some [3, 2])
  have e : (Props.LinearChain.sample.d1 : ℝ) = 2 := by norm_num [Props.LinearChain.sample]
  rw [e] at h
  obtain ⟨zs, hz, -⟩ := Props.LinearChain.partition_closed_form _ _ Props.LinearChain.sample_valid
  rw [hz] at h
  rcases hx : LinearChain.algo.run (onGrid (1 / 1000000) log) (moved Props.LinearChain.sample) (some [3, 2]) with err | vs
  · rw [hx] at h; exact h.elim
  · rw [hx] at h
    exact ⟨vs, rfl, zs, hz, List.Forall₂.imp (fun a b hab => hab.trans (by norm_num)) h⟩

end Props.Rounding
