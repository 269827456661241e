import Verif.Proofs.Bag
import Verif.Model.Distributions

/-! Property theorems about the values computed by `LinearChainCRF`: C01, C02, C03, C11, C44, C45. -/

open Finset Spec LinearChainProofs ChainProofs SemiringRel

noncomputable section
namespace Props.LinearChain
open _root_.LinearChain

/-- The arguments that `LinearChainCRF` accepts: square transitions, at least one edge (`N ≥ 2`), at least one
class, valid lengths. -/
structure Valid {α : Type} (p : T4 α) (lengths : Option (List ℕ)) : Prop where
  square : p.d2 = p.d3
  edges : 0 < p.d1
  classes : 0 < p.d2
  lens : ValidLengths p.d0 (p.d1 + 1) lengths

/-- Number of edges of row `b`. -/
def numEdges {α : Type} (p : T4 α) (lengths : Option (List ℕ)) (b : ℕ) : ℕ := lenOf (p.d1 + 1) lengths b - 1

/-- The potentials of row `b`. -/
def row {α : Type} (p : T4 α) (b : ℕ) : ℕ → Fin p.d2 → Fin p.d2 → α := fun n i j => p.get b n i j

/-- `m` is a lower bound of the potentials that belong to the rows (padding excluded). -/
def LowerBound (p : T4 ℝ) (lengths : Option (List ℕ)) (m : ℝ) : Prop :=
  ∀ b < p.d0, ∀ n < numEdges p lengths b, ∀ i j : Fin p.d2, m ≤ row p b n i j

/-- Every table of potentials has a lower bound. -/
theorem exists_lowerBound (p : T4 ℝ) (lengths : Option (List ℕ)) : ∃ m, LowerBound p lengths m := by
  obtain ⟨m, hm⟩ := (Set.finite_range fun x : Σ b : Fin p.d0, Fin (numEdges p lengths b) × Fin p.d2 × Fin p.d2 =>
    row p x.1 x.2.1 x.2.2.1 x.2.2.2).bddBelow
  exact ⟨m, fun b hb n hn i j => hm ⟨⟨⟨b, hb⟩, ⟨n, hn⟩, i, j⟩, rfl⟩⟩

/-- A valid, non-trivial instance: two rows of lengths 3 and 2 over 2 classes. -/
def sample : T4 ℝ := ⟨2, 2, 2, 2, fun b n i j => (b : ℝ) + n + 2 * i - j⟩

theorem sample_valid : Valid sample (some [3, 2]) := by
  constructor <;> simp [sample, ValidLengths]

/-- The exact value that the code computes with `zero = -1e5`, in closed form: every edge weight `e^φ` is replaced by
`e^φ + e^-1e5`, and each padded position multiplies by `1 + (2C-1) e^-1e5`. -/
theorem partition_closed_form (p : T4 ℝ) (lengths : Option (List ℕ)) (h : Valid p lengths) :
    ∃ vs, Dist.partition algo p lengths = .ok vs ∧ vs.length = p.d0 ∧ ∀ b (hb : b < vs.length),
      vs[b] = ((2 ^ Nat.clog 2 p.d1 - numEdges p lengths b : ℕ) : ℝ) *
          Real.log (1 + (2 * p.d2 - 1 : ℕ) * Real.exp (-100000)) +
        Real.log (chainSum (numEdges p lengths b) fun n i j => Real.exp (row p b n i j) + Real.exp (-100000)) := by
  obtain ⟨vs, h1, h2, h3⟩ := logpartition_plain (log_rel Semirings.negInf) (log_plain _) p lengths h.square h.edges
    h.classes h.lens (ζ := Real.exp (-100000)) rfl (by simp [Semirings.logZ])
    (fun b n i j => Real.exp (p.get b n i j)) (fun _ _ _ _ _ _ => rfl)
  refine ⟨vs, h1, h2, fun b hb => ?_⟩
  have := h3 b hb
  have hz : 0 < chainSum (numEdges p lengths b)
      (fun n (i j : Fin p.d2) => Real.exp (p.get b n i j) + Real.exp (-100000)) := by
    have : Nonempty (Fin p.d2) := ⟨⟨0, h.classes⟩⟩
    exact sum_pos (fun y _ => prod_pos fun n _ => by positivity) univ_nonempty
  simp only [numEdges, row] at hz ⊢
  rw [← Real.log_exp vs[b], this, Real.log_mul (by positivity) hz.ne', Real.log_pow]

/-- **C44 / C01.** With the library's `zero = -1e5`, in exact arithmetic, the computed log-partition is at least the
log of the sum over all tag sequences, and exceeds it by at most `L·e^(-1e5-m) + pad·(2C-1)·e^(-1e5)`, where `m` is any lower bound of the potentials,
`L` the number of edges of the row and `pad` the number of padded positions. -/
theorem partition_bounds (p : T4 ℝ) (lengths : Option (List ℕ)) (h : Valid p lengths) (m : ℝ)
    (hm : LowerBound p lengths m) :
    ∃ vs, Dist.partition algo p lengths = .ok vs ∧ vs.length = p.d0 ∧ ∀ b (hb : b < vs.length),
      let L := numEdges p lengths b
      let truth := Real.log (∑ y : Tags L p.d2, Real.exp (seqScore (row p b) y))
      truth ≤ vs[b] ∧
      vs[b] ≤ truth + (L * Real.exp (-100000 - m) +
        ((2 ^ Nat.clog 2 p.d1 - L : ℕ) : ℝ) * ((2 * p.d2 - 1 : ℕ) * Real.exp (-100000))) := by
  obtain ⟨vs, h1, h2, h3⟩ := partition_closed_form p lengths h
  refine ⟨vs, h1, h2, fun b hb => ?_⟩
  have h3 := h3 b hb
  intro L truth
  have : Nonempty (Fin p.d2) := ⟨⟨0, h.classes⟩⟩
  set ζ := Real.exp (-100000)
  have hζ : 0 < ζ := Real.exp_pos _
  have hpad : 0 ≤ Real.log (1 + (2 * p.d2 - 1 : ℕ) * ζ) := Real.log_nonneg (by
    have : (0 : ℝ) ≤ (2 * p.d2 - 1 : ℕ) * ζ := by positivity
    linarith)
  have hpad' : Real.log (1 + (2 * p.d2 - 1 : ℕ) * ζ) ≤ (2 * p.d2 - 1 : ℕ) * ζ := by
    have := Real.log_le_sub_one_of_pos (show (0 : ℝ) < 1 + (2 * p.d2 - 1 : ℕ) * ζ by positivity)
    linarith
  have hscore : ∀ y : Tags L p.d2, Real.exp (seqScore (row p b) y) =
      ∏ n : Fin L, Real.exp (row p b n (y n.succ) (y n.castSucc)) := fun y => by
    rw [seqScore, Real.exp_sum]
  have hpos : 0 < ∑ y : Tags L p.d2, Real.exp (seqScore (row p b) y) :=
    sum_pos (fun y _ => Real.exp_pos _) univ_nonempty
  constructor
  · rw [h3]
    have : truth ≤ Real.log (∑ y : Tags L p.d2, ∏ n : Fin L, (Real.exp (row p b n (y n.succ) (y n.castSucc)) + ζ)) := by
      apply Real.log_le_log hpos
      apply sum_le_sum
      intro y _
      rw [hscore]
      exact prod_le_prod (fun _ _ => (Real.exp_pos _).le) fun n _ => by linarith
    have h4 : (0 : ℝ) ≤ ((2 ^ Nat.clog 2 p.d1 - L : ℕ) : ℝ) * Real.log (1 + (2 * p.d2 - 1 : ℕ) * ζ) := by positivity
    simp only [chainSum, seqProd]
    linarith
  · rw [h3]
    have hexp : ∀ n < L, ∀ i j : Fin p.d2, Real.exp (row p b n i j) + ζ ≤
        Real.exp (row p b n i j) * Real.exp (Real.exp (-100000 - m)) := by
      intro n hn i j
      have e1 : ζ ≤ Real.exp (row p b n i j) * Real.exp (-100000 - m) := by
        rw [← Real.exp_add]; apply Real.exp_le_exp.2
        have := hm b (by omega) n hn i j
        linarith
      have e2 := Real.add_one_le_exp (Real.exp (-100000 - m))
      have e3 := Real.exp_pos (row p b n i j)
      nlinarith
    have : Real.log (∑ y : Tags L p.d2, ∏ n : Fin L, (Real.exp (row p b n (y n.succ) (y n.castSucc)) + ζ)) ≤
        truth + L * Real.exp (-100000 - m) := by
      have e : ∑ y : Tags L p.d2, ∏ n : Fin L, (Real.exp (row p b n (y n.succ) (y n.castSucc)) + ζ) ≤
          (∑ y : Tags L p.d2, Real.exp (seqScore (row p b) y)) * Real.exp (L * Real.exp (-100000 - m)) := by
        rw [sum_mul]
        apply sum_le_sum
        intro y _
        rw [hscore, Real.exp_nat_mul, ← Fin.prod_const, ← prod_mul_distrib]
        exact prod_le_prod (fun _ _ => by positivity) fun n _ => hexp _ n.2 _ _
      have e' := Real.log_le_log (sum_pos (fun y _ => prod_pos fun n _ => by positivity) univ_nonempty) e
      rwa [Real.log_mul hpos.ne' (Real.exp_pos _).ne', Real.log_exp] at e'
    have h4 : ((2 ^ Nat.clog 2 p.d1 - L : ℕ) : ℝ) * Real.log (1 + (2 * p.d2 - 1 : ℕ) * ζ) ≤
        ((2 ^ Nat.clog 2 p.d1 - L : ℕ) : ℝ) * ((2 * p.d2 - 1 : ℕ) * ζ) :=
      mul_le_mul_of_nonneg_left hpad' (by positivity)
    simp only [chainSum, seqProd]
    linarith

theorem EReal_exp_sum {ι : Type} (s : Finset ι) (f : ι → EReal) :
    EReal.exp (∑ i ∈ s, f i) = ∏ i ∈ s, EReal.exp (f i) := by
  classical
  induction s using Finset.induction_on with
  | empty => simp
  | insert a s ha ih => rw [sum_insert ha, prod_insert ha, EReal.exp_add, ih]

/-- **C01** (exact form). If `zero` is `-∞` (and potentials may be `-∞` too), the computed value of each row is exactly the log of the
sum over all tag sequences of the exponentiated score. -/
theorem partition_exact (p : T4 EReal) (lengths : Option (List ℕ)) (h : Valid p lengths) :
    ∃ vs, logpartition (Semirings.logE ⊥) p lengths = .ok vs ∧ vs.length = p.d0 ∧ ∀ b (hb : b < vs.length),
      vs[b] = ENNReal.log (∑ y : Tags (numEdges p lengths b) p.d2, EReal.exp (seqScore (row p b) y)) := by
  obtain ⟨vs, h1, h2, h3⟩ := logpartition_plain (logE_rel ⊥) (logE_plain _) p lengths h.square h.edges
    h.classes h.lens (ζ := 0) (by simp [Semirings.logE]) (by simp [Semirings.logE])
    (fun b n i j => EReal.exp (p.get b n i j)) (fun _ _ _ _ _ _ => rfl)
  refine ⟨vs, h1, h2, fun b hb => ?_⟩
  have := h3 b hb
  simp only [mul_zero, add_zero, one_pow, one_mul] at this
  rw [← EReal.log_exp vs[b], this, chainSum]
  congr 1
  refine sum_congr rfl fun y _ => ?_
  exact (EReal_exp_sum univ _).symm

/-- **C01 / C02** in any commutative semiring: the sum over all tag sequences of the product of edge weights, each sequence once, and only
the first `len - 1` positions are read. -/
theorem sum_any_semiring {R : Type} [CommSemiring R] (p : T4 R) (lengths : Option (List ℕ)) (h : Valid p lengths) :
    ∃ vs, logpartition (Semirings.std R) p lengths = .ok vs ∧ vs.length = p.d0 ∧ ∀ b (hb : b < vs.length),
      vs[b] = ∑ y : Tags (numEdges p lengths b) p.d2, seqProd (row p b) y := by
  obtain ⟨vs, h1, h2, h3⟩ := logpartition_plain (std_rel (R := R)) std_plain p lengths h.square h.edges
    h.classes h.lens (ζ := 0) rfl rfl (fun b n i j => p.get b n i j) (fun _ _ _ _ _ _ => rfl)
  refine ⟨vs, h1, h2, fun b hb => ?_⟩
  have := h3 b hb
  simp only [mul_zero, add_zero, one_pow, one_mul] at this
  exact this

/-- **C02** (padding is never read). For every semiring of the library without autograd effects, two potential tables that agree on the
first `len - 1` positions of every row give the same values. -/
theorem padding_irrelevant {α : Type} {S : SR α} (P : Plain S) (p : T4 α) (lengths : Option (List ℕ))
    (h : Valid p lengths) (g : ℕ → ℕ → ℕ → ℕ → α)
    (hpq : ∀ b < p.d0, ∀ n < numEdges p lengths b, ∀ i < p.d2, ∀ j < p.d2, p.get b n i j = g b n i j) :
    logpartition S p lengths = logpartition S { p with get := g } lengths := by
  rw [logpartition_ok S p lengths h.square h.edges h.lens,
    logpartition_ok S { p with get := g } lengths h.square h.edges h.lens]
  congr 1
  apply List.map_congr_left
  intro b hb
  apply core_congr _ _ _ _ _ _ _ _ rfl
  intro n _ i j
  simp only [maskedL, P.setData, P.detach, SR.fill]
  by_cases hn : n < lenOf (p.d1 + 1) lengths b - 1
  · simp only [hpq b (List.mem_range.1 hb) n hn i i.2 j j.2]
  · simp [show n ≥ lenOf (p.d1 + 1) lengths b - 1 by omega]

/-- **C02** (exact truncation). Row `b` of a batch with lengths has the value of the unpadded, single-row problem made of its first
`len - 1` positions, in every commutative semiring. -/
theorem truncation {R : Type} [CommSemiring R] (p : T4 R) (lengths : Option (List ℕ)) (h : Valid p lengths) (b : ℕ)
    (hb : b < p.d0) (hlen : 2 ≤ lenOf (p.d1 + 1) lengths b) :
    ∃ vs v, logpartition (Semirings.std R) p lengths = .ok vs ∧
      logpartition (Semirings.std R) ⟨1, numEdges p lengths b, p.d2, p.d3, fun _ n i j => p.get b n i j⟩ none = .ok [v] ∧
      vs[b]? = some v := by
  obtain ⟨vs, h1, h2, h3⟩ := sum_any_semiring p lengths h
  have hv : Valid (⟨1, numEdges p lengths b, p.d2, p.d3, fun _ n i j => p.get b n i j⟩ : T4 R) none :=
    ⟨h.square, by simp only [numEdges]; omega, h.classes, trivial⟩
  obtain ⟨vs', h1', h2', h3'⟩ := sum_any_semiring _ none hv
  obtain ⟨v, rfl⟩ : ∃ v, vs' = [v] := List.length_eq_one_iff.1 h2'
  refine ⟨vs, v, h1, h1', ?_⟩
  have e := h3' 0 (by simp)
  simp only [List.getElem_cons_zero] at e
  rw [List.getElem?_eq_getElem (by omega), h3 b (by omega), e]
  rfl

/-- Bags that only contain scores `≤ 0`, one of them `0`. -/
theorem pad_bag (c k : ℕ) :
    (∀ u ∈ ((1 + (c : Bag ℝ) * Bag.single (-100000)) ^ k : Bag ℝ).ms, u ≤ 0) ∧
      (0 : ℝ) ∈ ((1 + (c : Bag ℝ) * Bag.single (-100000)) ^ k : Bag ℝ).ms := by
  have hc : ∀ c : ℕ, ∀ u ∈ ((c : Bag ℝ)).ms, u = 0 := by
    intro c
    induction c with
    | zero => simp
    | succ c ih =>
      intro u hu
      rw [Nat.cast_succ, Bag.ms_add, Multiset.mem_add] at hu
      rcases hu with hu | hu
      · exact ih u hu
      · simpa using hu
  induction k with
  | zero => simp
  | succ k ih =>
    rw [pow_succ]
    constructor
    · intro u hu
      obtain ⟨a, ha, b, hb, rfl⟩ := Bag.mem_mul.1 hu
      have h1 := ih.1 a ha
      rw [Bag.ms_add, Multiset.mem_add] at hb
      rcases hb with hb | hb
      · have : b = 0 := by simpa using hb
        linarith
      · obtain ⟨d, hd, e, he, rfl⟩ := Bag.mem_mul.1 hb
        have := hc c d hd
        have : e = -100000 := by simpa using he
        linarith
    · exact Bag.mem_mul.2 ⟨0, ih.2, 0, by simp, by simp⟩

/-- **C03.** `LinearChainCRF.max` is the largest score of a tag sequence (attained, and an upper bound), provided no potential is below the
stand-in `-1e5`. -/
theorem max_spec (p : T4 ℝ) (lengths : Option (List ℕ)) (h : Valid p lengths)
    (hp : LowerBound p lengths (-100000)) :
    ∃ vs, Dist.max algo p lengths = .ok vs ∧ vs.length = p.d0 ∧ ∀ b (hb : b < vs.length),
      (∃ y : Tags (numEdges p lengths b) p.d2, vs[b] = seqScore (row p b) y) ∧
      ∀ y : Tags (numEdges p lengths b) p.d2, seqScore (row p b) y ≤ vs[b] := by
  obtain ⟨vs, h1, h2, h3⟩ := logpartition_plain Bag.max_isMaxSR.rel ⟨fun _ => rfl, fun _ _ => rfl⟩ p lengths h.square h.edges
    h.classes h.lens (ζ := Bag.single (-100000)) (by simp [Bag.IsMax, Semirings.max, Semirings.negInf])
    (by simp [Bag.IsMax, Semirings.max]) (fun b n i j => Bag.single (p.get b n i j)) (fun _ _ _ _ _ _ => by simp [Bag.IsMax])
  refine ⟨vs, h1, h2, fun b hb => ?_⟩
  obtain ⟨hmem, hmax⟩ := h3 b hb
  obtain ⟨hp1, hp2⟩ := pad_bag (2 * p.d2 - 1) (2 ^ Nat.clog 2 p.d1 - (lenOf (p.d1 + 1) lengths b - 1))
  have hup : ∀ y : Tags (numEdges p lengths b) p.d2, seqScore (row p b) y ≤ vs[b] := by
    intro y
    apply hmax
    refine Bag.mem_mul.2 ⟨0, hp2, seqScore (row p b) y, ?_, by simp⟩
    refine Bag.mem_sum.2 ⟨y, mem_univ _, Bag.mem_prod.2 ⟨fun n => row p b n (y n.succ) (y n.castSucc), ?_, rfl⟩⟩
    intro n _
    simp [row]
  refine ⟨?_, hup⟩
  obtain ⟨a, ha, u, hu, hv⟩ := Bag.mem_mul.1 hmem
  obtain ⟨y, _, hy⟩ := Bag.mem_sum.1 hu
  obtain ⟨c, hc, rfl⟩ := Bag.mem_prod.1 hy
  refine ⟨y, le_antisymm ?_ (hup y)⟩
  rw [← hv]
  have h5 : ∑ n : Fin (lenOf (p.d1 + 1) lengths b - 1), c n ≤ seqScore (row p b) y := by
    apply sum_le_sum
    intro n hn
    have := hc n hn
    simp only [Bag.ms_add, Bag.ms_single, Multiset.mem_add, Multiset.mem_singleton] at this
    rcases this with e | e
    · rw [e]; exact le_rfl
    · rw [e]; exact hp b (by omega) n n.2 _ _
  have h6 := hp1 a ha
  have h7 : a + ∑ n : Fin (lenOf (p.d1 + 1) lengths b - 1), c n ≤ 0 + seqScore (row p b) y := add_le_add h6 h5
  rwa [zero_add] at h7

/-- **C03**, the threshold is needed: one class, two tags, a single edge of potential `-2e5`.  The only sequence scores `-2e5`, but the
computed max is `-1e5`. -/
theorem max_threshold_needed :
    Dist.max algo ⟨1, 1, 1, 1, fun _ _ _ _ => -200000⟩ none = .ok [-100000] ∧
      ∀ y : Tags 1 1, seqScore (fun _ _ _ => (-200000 : ℝ)) y = -200000 := by
  constructor
  · simp [Dist.max, algo, logpartition, checkPotentials, Struct.binLength, bind, Except.bind, core, total, scan, masked,
      Semirings.max, Struct.flat, Struct.unflat, chartInit, big, lengthMask, SR.fill, Semirings.negInf, Semirings.listMax]
    norm_num
  · intro y; simp [seqScore]

/-- **C11.** `LinearChainCRF.count` is the number of tag sequences none of whose edges has potential `-inf`. -/
theorem count_spec (p : T4 EReal) (lengths : Option (List ℕ)) (h : Valid p lengths) :
    ∃ vs, Dist.count algo lengths p = .ok vs ∧ vs.length = p.d0 ∧ ∀ b (hb : b < vs.length),
      vs[b] = Fintype.card {y : Tags (numEdges p lengths b) p.d2 // ∀ n : Fin (numEdges p lengths b),
        row p b n (y n.succ) (y n.castSucc) ≠ ⊥} := by
  classical
  obtain ⟨vs, h1, h2, h3⟩ := sum_any_semiring (R := ℝ)
    (algo.map (fun v : EReal => if v = ⊥ then (0 : ℝ) else 1) p) lengths ⟨h.square, h.edges, h.classes, h.lens⟩
  refine ⟨vs, h1, h2, fun b hb => ?_⟩
  rw [h3 b hb, Fintype.card_subtype, card_filter]
  push_cast
  refine sum_congr rfl fun y _ => ?_
  change (∏ n : Fin (numEdges p lengths b), if p.get b n (y n.succ) (y n.castSucc) = ⊥ then (0 : ℝ) else 1) = _
  by_cases hy : ∀ n : Fin (numEdges p lengths b), row p b n (y n.succ) (y n.castSucc) ≠ ⊥
  · rw [if_pos hy]
    exact prod_eq_one fun n _ => if_neg (hy n)
  · rw [if_neg hy]
    push Not at hy
    obtain ⟨n, hn⟩ := hy
    exact prod_eq_zero (mem_univ n) (if_pos hn)

/-- **C11**, finite potentials: `C ^ len`. -/
theorem count_finite (p : T4 EReal) (lengths : Option (List ℕ)) (h : Valid p lengths)
    (hf : ∀ b < p.d0, ∀ n < numEdges p lengths b, ∀ i j : Fin p.d2, row p b n i j ≠ ⊥) (hpos : ∀ b < p.d0, 1 ≤ lenOf (p.d1 + 1) lengths b) :
    ∃ vs, Dist.count algo lengths p = .ok vs ∧ vs.length = p.d0 ∧ ∀ b (hb : b < vs.length),
      vs[b] = (p.d2 : ℝ) ^ lenOf (p.d1 + 1) lengths b := by
  obtain ⟨vs, h1, h2, h3⟩ := count_spec p lengths h
  refine ⟨vs, h1, h2, fun b hb => ?_⟩
  rw [h3 b hb, Fintype.card_congr (Equiv.subtypeUnivEquiv (p := fun y : Tags (numEdges p lengths b) p.d2 =>
    ∀ n : Fin (numEdges p lengths b), row p b n (y n.succ) (y n.castSucc) ≠ ⊥) fun y n => hf b (by omega) n n.2 _ _)]
  have := hpos b (by omega)
  have e : Fintype.card (Tags (numEdges p lengths b) p.d2) = p.d2 ^ (numEdges p lengths b + 1) := by
    simp [Tags]
  rw [show lenOf (p.d1 + 1) lengths b = numEdges p lengths b + 1 by simp only [numEdges]; omega, ← Nat.cast_pow, ← e]

/-- **C45.** Adding `a n` to all potentials of position `n` adds `Σ a n` to the partition (exact log semiring). -/
theorem shift_partition (p : T4 EReal) (a : ℕ → ℝ) (lengths : Option (List ℕ)) (h : Valid p lengths) :
    ∃ vs vs', logpartition (Semirings.logE ⊥) p lengths = .ok vs ∧
      logpartition (Semirings.logE ⊥) { p with get := fun b n i j => p.get b n i j + a n } lengths = .ok vs' ∧
      vs.length = p.d0 ∧ vs'.length = p.d0 ∧ ∀ b (hb : b < vs.length) (hb' : b < vs'.length),
        vs'[b] = vs[b] + ((∑ n ∈ range (numEdges p lengths b), a n : ℝ) : EReal) := by
  obtain ⟨vs, h1, h2, h3⟩ := partition_exact p lengths h
  obtain ⟨vs', h1', h2', h3'⟩ := partition_exact { p with get := fun b n i j => p.get b n i j + a n } lengths
    ⟨h.square, h.edges, h.classes, h.lens⟩
  refine ⟨vs, vs', h1, h1', h2, h2', fun b hb hb' => ?_⟩
  rw [h3 b hb, h3' b hb', ← EReal.log_exp ((∑ n ∈ range (numEdges p lengths b), a n : ℝ) : EReal), ← ENNReal.log_mul_add,
    sum_mul]
  congr 1
  refine sum_congr rfl fun y _ => ?_
  rw [← EReal.exp_add]
  congr 1
  simp only [seqScore, row, numEdges]
  rw [Finset.sum_add_distrib]
  congr 1
  rw [← Fin.sum_univ_eq_sum_range (fun n => a n)]
  exact (map_sum (⟨⟨Real.toEReal, EReal.coe_zero⟩, EReal.coe_add⟩ : ℝ →+ EReal) _ _).symm

end Props.LinearChain
