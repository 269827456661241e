import Verif.Proofs.DepTree
import Verif.Proofs.Gibbs
import Verif.Proofs.Lists
import Verif.Proofs.SampleExists

/-! Property theorems about `DependencyCRF` with labelled arcs (potentials of shape `batch × N × N × L`): C24, and C22, C46, C47, C48, `log_prob` and
sampling for labelled trees.

The structures of a row with `n` words are `Spec.LabelledTrees multiroot n L`: the projective dependency trees, with any number of
root children or exactly one, and a label for every arc. -/

open Finset Spec Generic DepTreeProofs

noncomputable section
namespace Props.LabelledDependency
open DepTree

/-- What the theorems assume: a non-empty batch of square tables, and lengths that are at most the number of words; for single-root trees there is at least one
word in every row. -/
structure Valid {γ : Type} (multiroot : Bool) (q : Arcs γ) (lengths : Option (List ℕ)) : Prop where
  rank : q.rank = 4
  labels : 1 ≤ q.d3
  square : q.d1 = q.d2
  batch : 1 ≤ q.d0
  words : multiroot = false → 1 ≤ q.d1
  lens : ∀ l, lengths = some l → l.length = q.d0 ∧ ∀ x ∈ l, x ≤ q.d1 ∧ (multiroot = false → 1 ≤ x)

theorem Valid.toValid {γ : Type} {mr : Bool} {q : Arcs γ} {lengths : Option (List ℕ)} (h : Valid mr q lengths) : DepTreeProofs.Valid mr q lengths :=
  ⟨Or.inr h.rank, h.square, by rw [labels_four h.rank]; exact h.labels, h.batch, h.words, h.lens⟩

/-- The number of words of row `b`. -/
def len {γ : Type} (q : Arcs γ) (lengths : Option (List ℕ)) (b : ℕ) : ℕ := lenOf q.d1 lengths b

/-- The potentials of row `b`. -/
def row {γ : Type} (q : Arcs γ) (b : ℕ) : ℕ → ℕ → ℕ → γ := fun i j l => q.get b i j l

/-- A concrete input that meets all hypotheses, for both kinds of trees: two rows of lengths 3 and 2, two labels. -/
def sample : Arcs ℝ := ⟨4, 2, 3, 3, 2, fun b i j l => (b : ℝ) + i - 2 * j + l⟩

theorem sample_valid (mr : Bool) : Valid mr sample (some [3, 2]) :=
  ⟨rfl, by decide, rfl, by decide, fun _ => by decide, by
    intro l hl
    obtain rfl : [3, 2] = l := by simpa using hl
    exact ⟨rfl, by intro x hx; simp at hx; rcases hx with rfl | rfl <;> exact ⟨by decide, fun _ => by decide⟩⟩⟩

theorem realScore_eq (neg : ℝ) (q : Arcs ℝ) (b : ℕ) {mr : Bool} {n L : ℕ} (h4 : q.labeled) :
    realScore (labParts true b : LabelledTrees mr n L → _) (atQ neg q) = labScore (row q b) := by
  funext t
  rw [realScore, labParts, Multiset.map_map]
  refine sum_congr rfl fun k _ => ?_
  have := atQ_cell neg q b (arcCell (t.1.1 k) k).1 (arcCell (t.1.1 k) k).2 (t.2 k) (Or.inl h4)
  rw [decide_eq_true h4] at this
  exact this

theorem prod_parts {R : Type} [CommSemiring R] (neg : R) (q : Arcs R) (b : ℕ) {mr : Bool} {n L : ℕ} (h4 : q.labeled) (t : LabelledTrees mr n L) :
    ((labParts true b t).map (atQ neg q)).prod = labProd (row q b) t := by
  rw [labParts, Multiset.map_map]
  refine prod_congr rfl fun k _ => ?_
  have := atQ_cell neg q b (arcCell (t.1.1 k) k).1 (arcCell (t.1.1 k) k).2 (t.2 k) (Or.inl h4)
  rw [decide_eq_true h4] at this
  exact this

open Classical in
theorem count_parts (b : ℕ) {mr : Bool} {n L : ℕ} (t : LabelledTrees mr n L) (i j l : ℕ) :
    (labParts true b t).count [b, i, j, l] = if HasLabArc t i j l then 1 else 0 := by
  rw [Multiset.count_eq_of_nodup (labParts_nodup true b t)]
  congr 1
  rw [mem_labParts, eq_iff_iff]
  constructor
  · rintro ⟨i', j', l', he, ha⟩
    simp only [List.cons.injEq, and_true, true_and] at he
    rwa [he.1, he.2.1, he.2.2]
  · intro ha; exact ⟨i, j, l, rfl, ha⟩

theorem conv_eq {γ : Type} (neg : γ) {q : Arcs γ} {lengths : Option (List ℕ)} {mr : Bool} (h : Valid mr q lengths) : convert neg q = .ok (conv neg q) :=
  convert_ok neg (Or.inr h.rank) h.square

/-! ### Values -/

/-- **C24.** In every commutative semiring the value of row `b` is the sum, over the projective dependency trees of its words (for
`multiroot=False`: those with exactly one root child) and over all labellings of their arcs, of the product of the labelled arc potentials.  The constant `-1e9` (`neg`) that `convert`
writes does not enter. -/
theorem sum_any_semiring {R : Type} [CommSemiring R] (mr : Bool) (neg : R) (q : Arcs R) (lengths : Option (List ℕ)) (h : Valid mr q lengths) :
    sum mr (Semirings.std R) neg q lengths = .ok ((List.range q.d0).map fun b => ∑ t : LabelledTrees mr (len q lengths b) q.d3, labProd (row q b) t) := by
  rw [sum, conv_eq neg h]
  have := (batchDP4 mr neg q lengths h.toValid h.rank).any_semiring
  simp only [prod_parts neg q _ h.rank] at this
  exact this

/-- **C24.** `partition` is exactly the log of the sum over the trees of the exponentiated score. -/
theorem partition_spec (mr : Bool) (q : Arcs ℝ) (lengths : Option (List ℕ)) (h : Valid mr q lengths) : partition mr q lengths =
    .ok ((List.range q.d0).map fun b => Real.log (∑ t : LabelledTrees mr (len q lengths b) q.d3, Real.exp (labScore (row q b) t))) := by
  rw [partition, conv_eq negBig h]
  have := (batchDP4 mr negBig q lengths h.toValid h.rank).partition_exact
  simp only [realScore_eq negBig q _ h.rank] at this
  exact this

/-- **C24** with potentials that may be `-∞` (forbidden arcs), and any value of the constants. -/
theorem partition_neg_inf (mr : Bool) (z neg : EReal) (q : Arcs EReal) (lengths : Option (List ℕ)) (h : Valid mr q lengths) :
    sum mr (Semirings.logE z) neg q lengths =
    .ok ((List.range q.d0).map fun b => ENNReal.log (∑ t : LabelledTrees mr (len q lengths b) q.d3, EReal.exp (labScore (row q b) t))) := by
  rw [sum, conv_eq neg h]
  refine ((batchDP4 mr neg q lengths h.toValid h.rank).logE_eq z (Or.inr fun _ => inferInstance)).trans ?_
  congr 1
  refine List.map_congr_left fun b _ => congrArg _ (sum_congr rfl fun t _ => ?_)
  rw [labParts, Multiset.map_map]
  refine congrArg EReal.exp ?_
  change ∑ k, _ = ∑ k, _
  refine sum_congr rfl fun k _ => ?_
  have := atQ_cell neg q b (arcCell (t.1.1 k) k).1 (arcCell (t.1.1 k) k).2 (t.2 k) (Or.inl h.rank)
  rw [is_labeled h.rank] at this
  exact this

/-- **C22.** The table that holds only the leading `L × L` block of row `b`. -/
def block {γ : Type} (q : Arcs γ) (b L : ℕ) : Arcs γ := ⟨4, 1, L, L, q.d3, fun _ i j l => q.get b i j l⟩

theorem block_valid {γ : Type} {mr : Bool} {q : Arcs γ} {lengths : Option (List ℕ)} (h : Valid mr q lengths) {b : ℕ} (hb : b < q.d0) :
    Valid mr (block q b (len q lengths b)) none :=
  ⟨rfl, h.labels, rfl, le_rfl, (len_le h.toValid hb).2, fun l hl => by simp at hl⟩

/-- **C22.** With lengths, the value of row `b` is the value of the leading `len × len` block alone. -/
theorem truncation {R : Type} [CommSemiring R] (mr : Bool) (neg : R) (q : Arcs R) (lengths : Option (List ℕ)) (h : Valid mr q lengths) :
    ∃ vs, sum mr (Semirings.std R) neg q lengths = .ok vs ∧ vs.length = q.d0 ∧
      ∀ b (hb : b < vs.length), sum mr (Semirings.std R) neg (block q b (len q lengths b)) none = .ok [vs[b]] := by
  refine ⟨_, sum_any_semiring mr neg q lengths h, by simp, fun b hb => ?_⟩
  rw [sum_any_semiring mr neg _ none (block_valid h (by simpa using hb))]
  rw [getElem_map_range]
  rfl

/-- **C22** for `partition`. -/
theorem partition_truncation (mr : Bool) (q : Arcs ℝ) (lengths : Option (List ℕ)) (h : Valid mr q lengths) :
    ∃ vs, partition mr q lengths = .ok vs ∧ vs.length = q.d0 ∧
      ∀ b (hb : b < vs.length), partition mr (block q b (len q lengths b)) none = .ok [vs[b]] := by
  refine ⟨_, partition_spec mr q lengths h, by simp, fun b hb => ?_⟩
  rw [partition_spec mr _ none (block_valid h (by simpa using hb))]
  rw [getElem_map_range]
  rfl

open Classical in
/-- **C24.** `count` is the number of trees that use no potential equal to `-∞`. -/
theorem count_spec (mr : Bool) (q : Arcs EReal) (lengths : Option (List ℕ)) (h : Valid mr q lengths) : count mr lengths q =
    .ok ((List.range q.d0).map fun b => (((univ : Finset (LabelledTrees mr (len q lengths b) q.d3)).filter fun t : LabelledTrees mr (len q lengths b) q.d3 =>
      ∀ i j l, HasLabArc t i j l → row q b i j l ≠ ⊥).card : ℝ)) := by
  refine (sum_any_semiring mr negBig (⟨q.rank, q.d0, q.d1, q.d2, q.d3, fun b i j l => if q.get b i j l = ⊥ then (0 : ℝ) else 1⟩ : Arcs ℝ) lengths
    ⟨h.rank, h.labels, h.square, h.batch, h.words, h.lens⟩).trans ?_
  congr 1
  refine List.map_congr_left fun b _ => ?_
  rw [← Finset.sum_boole]
  refine sum_congr rfl fun t _ => ?_
  split_ifs with hc
  · refine prod_eq_one fun k _ => ?_
    exact if_neg (hc _ _ _ ((hasLabArc_iff t _ _ _).2 ⟨k, rfl, rfl⟩))
  · push Not at hc
    obtain ⟨i, j, l, ha, hb⟩ := hc
    obtain ⟨k, hk, rfl⟩ := (hasLabArc_iff t _ _ _).1 ha
    refine prod_eq_zero (mem_univ k) ?_
    rw [hk]
    exact if_pos hb

theorem trees_nonempty {γ : Type} {mr : Bool} {q : Arcs γ} {lengths : Option (List ℕ)} (h : Valid mr q lengths) (b : ℕ) (hb : b < q.d0) :
    Nonempty (LabelledTrees mr (len q lengths b) q.d3) :=
  have := nonempty_trees mr (len q lengths b) (len_le h.toValid hb).2
  ⟨(Classical.choice this, fun _ => ⟨0, h.labels⟩)⟩

/-! ### Best trees -/

/-- **C47.** `max` is the score of the best tree of each row. -/
theorem max_spec (mr : Bool) (q : Arcs ℝ) (lengths : Option (List ℕ)) (h : Valid mr q lengths) : ∃ vs, max mr q lengths = .ok vs ∧ vs.length = q.d0 ∧
    ∀ b (hb : b < vs.length), (∃ t : LabelledTrees mr (len q lengths b) q.d3, vs[b] = labScore (row q b) t) ∧
      ∀ t : LabelledTrees mr (len q lengths b) q.d3, labScore (row q b) t ≤ vs[b] := by
  rw [DepTree.max, conv_eq negBig h]
  have := (batchDP4 mr negBig q lengths h.toValid h.rank).max_exact
  simp only [realScore_eq negBig q _ h.rank] at this
  exact this

open Classical in
/-- **C47.** `argmax` is, for every row, the 0/1 indicator of the arcs of one tree, and that tree has the highest score, however ties are broken. -/
theorem argmax_spec (mr : Bool) (q : Arcs ℝ) (lengths : Option (List ℕ)) (h : Valid mr q lengths)
    {pick : List (Autograd.Grad (List ℕ)) → Autograd.Grad (List ℕ)} (hp : Autograd.IsArgmax Prod.fst pick) :
    ∃ μ, argmax mr q lengths pick = .ok μ ∧ ∀ b < q.d0, ∃ t : LabelledTrees mr (len q lengths b) q.d3,
      (∀ t' : LabelledTrees mr (len q lengths b) q.d3, labScore (row q b) t' ≤ labScore (row q b) t) ∧
      ∀ i j l, μ [b, i, j, l] = if HasLabArc t i j l then 1 else 0 := by
  rw [argmax, conv_eq negBig h]
  obtain ⟨μ, h1, h2⟩ := (batchDP4 mr negBig q lengths h.toValid h.rank).argmax_exact hp
  refine ⟨μ, h1, fun b hb => ?_⟩
  obtain ⟨t, h3, h4⟩ := h2 b hb
  simp only [realScore_eq negBig q _ h.rank] at h3
  refine ⟨t, h3, fun i j l => ?_⟩
  rw [h4 _ rfl, count_parts]
  push_cast; rfl

/-! ### Marginals -/

open Classical in
/-- The posterior probability of a labelled arc. -/
def arcProb (mr : Bool) (L : ℕ) (φ : ℕ → ℕ → ℕ → ℝ) (n i j l : ℕ) : ℝ :=
  ∑ t : LabelledTrees mr n L, if HasLabArc t i j l then Gibbs.prob (labScore φ) t else 0

/-- **C46.** `marginals` are exactly the posterior probabilities of the labelled arcs, root arcs on the diagonal. -/
theorem marginals_spec (mr : Bool) (q : Arcs ℝ) (lengths : Option (List ℕ)) (h : Valid mr q lengths) :
    ∃ μ, marginals mr q lengths = .ok μ ∧ ∀ b < q.d0, ∀ i j l, μ [b, i, j, l] = arcProb mr q.d3 (row q b) (len q lengths b) i j l := by
  rw [marginals, conv_eq negBig h]
  obtain ⟨μ, h1, h2⟩ := (batchDP4 mr negBig q lengths h.toValid h.rank).marginals_exact
  refine ⟨μ, h1, fun b hb i j l => ?_⟩
  rw [h2 b hb _ rfl, Gibbs.expect, arcProb]
  refine sum_congr rfl fun t _ => ?_
  rw [count_parts, realScore_eq negBig q _ h.rank]
  by_cases hc : HasLabArc t i j l
  · rw [if_pos hc, Nat.cast_one, mul_one]; exact (if_pos hc).symm
  · rw [if_neg hc, Nat.cast_zero, mul_zero]; exact (if_neg hc).symm

theorem hasLabArc_lt {mr : Bool} {n L : ℕ} {t : LabelledTrees mr n L} {i j l : ℕ} (ha : HasLabArc t i j l) : i < n ∧ j < n ∧ l < L := by
  obtain ⟨k, hk, hl⟩ := (hasLabArc_iff t _ _ _).1 ha
  have h1 := arcCell_lt (Nat.lt_succ_iff.1 (t.1.1 k).2) k.2
  rw [hk] at h1
  exact ⟨h1.1, h1.2, hl ▸ (t.2 k).2⟩

/-- **C46.** Entries that involve a word past the row's length have marginal 0. -/
theorem outside_marginal (mr : Bool) (L : ℕ) (φ : ℕ → ℕ → ℕ → ℝ) (n i j l : ℕ) (h : n ≤ i ∨ n ≤ j) : arcProb mr L φ n i j l = 0 := by
  refine sum_eq_zero fun t _ => if_neg fun hc => ?_
  have := hasLabArc_lt hc
  omega

/-- **C46.** Every word has exactly one head and label: the marginals of its incoming arcs add up to 1. -/
theorem head_marginal (mr : Bool) (L : ℕ) (hL : 1 ≤ L) (φ : ℕ → ℕ → ℕ → ℝ) (n j : ℕ) (hj : j < n) :
    ∑ x ∈ range n ×ˢ range L, arcProb mr L φ n x.1 j x.2 = 1 := by
  classical
  have hn := nonempty_trees mr n fun _ => by omega
  have : Nonempty (LabelledTrees mr n L) := ⟨(Classical.choice hn, fun _ => ⟨0, hL⟩)⟩
  simp only [arcProb]
  rw [sum_comm, ← Gibbs.sum_prob (labScore φ : LabelledTrees mr n L → ℝ)]
  refine sum_congr rfl fun t _ => ?_
  have hlt := arcCell_lt (Nat.lt_succ_iff.1 (t.1.1 ⟨j, hj⟩).2) hj
  rw [sum_eq_single ((arcCell (t.1.1 ⟨j, hj⟩) j).1, (t.2 ⟨j, hj⟩ : ℕ))]
  · refine if_pos ((hasLabArc_iff t _ _ _).2 ⟨⟨j, hj⟩, ?_, rfl⟩)
    exact Prod.ext rfl (arcCell_snd _ _)
  · rintro ⟨i, l⟩ _ hne
    refine if_neg fun hc => hne ?_
    obtain ⟨k, hk, hl⟩ := (hasLabArc_iff t _ _ _).1 hc
    have e : k = ⟨j, hj⟩ := Fin.ext (by simpa [arcCell_snd] using congrArg Prod.snd hk)
    rw [e] at hk hl
    simp only at hk hl
    rw [hk, hl]
  · intro hc
    exact (hc (mem_product.2 ⟨mem_range.2 hlt.1, mem_range.2 (t.2 ⟨j, hj⟩).2⟩)).elim

/-! ### Entropy and k-best -/

/-- **C48.** `entropy` is exactly the Shannon entropy of the distribution over trees. -/
theorem entropy_spec (mr : Bool) (q : Arcs ℝ) (lengths : Option (List ℕ)) (h : Valid mr q lengths) : entropy mr q lengths =
    .ok ((List.range q.d0).map fun b => Gibbs.entropy (labScore (row q b) : LabelledTrees mr (len q lengths b) q.d3 → ℝ)) := by
  rw [entropy, conv_eq negBig h]
  have := (batchDP4 mr negBig q lengths h.toValid h.rank).entropy_exact
  simp only [realScore_eq negBig q _ h.rank] at this
  exact this

/-- The potentials are so small that no tree's score comes near the stand-in `-1e5`, which fills unused slots of `kmax`. -/
structure SmallPotentials (q : Arcs ℝ) (lengths : Option (List ℕ)) (M : ℝ) : Prop where
  nonneg : 0 ≤ M
  bound : ∀ b < q.d0, ∀ i j l, i < len q lengths b → j < len q lengths b → l < q.d3 → |q.get b i j l| ≤ M
  small : 2 * (q.d1 + 1) * M < 100000

theorem small {mr : Bool} {q : Arcs ℝ} {lengths : Option (List ℕ)} (h : Valid mr q lengths) {M : ℝ} (hM : SmallPotentials q lengths M) (b : ℕ) (hb : b < q.d0) :
    BatchDP.Small (atQ negBig q) (Entry true q.d3 (lenOf q.d1 lengths b) b) (labParts true b : LabelledTrees mr (len q lengths b) q.d3 → _)
      (fun y : Empty => y.elim) (q.d1 + 1) M where
  nonneg := hM.nonneg
  bound := by
    rintro e ⟨h', k, l, rfl, h1, h2, h3, h4⟩
    have hlt := arcCell_lt h1 h2
    have := atQ_cell negBig q b (arcCell h' k).1 (arcCell h' k).2 l (Or.inl h.rank)
    rw [is_labeled h.rank] at this
    rw [this]
    exact hM.bound b hb _ _ _ hlt.1 hlt.2 h4
  size t := by
    rw [labParts_card]
    exact (len_le h.toValid hb).1.trans (Nat.le_succ _)
  sizeA y := y.elim
  small := by
    have := hM.small
    push_cast; exact this
  below := by
    have h1 := hM.small
    have h2 : (0 : ℝ) ≤ q.d1 := Nat.cast_nonneg _
    have h3 := hM.nonneg
    nlinarith

/-- **C48.** `kmax(k)` returns the scores of the `k` best trees of every row, in decreasing order. -/
theorem kmax_spec (mr : Bool) (q : Arcs ℝ) (lengths : Option (List ℕ)) (h : Valid mr q lengths) {M : ℝ} (hM : SmallPotentials q lengths M) {k : ℕ}
    (hk : 0 < k) (hc : ∀ b < q.d0, k ≤ Fintype.card (LabelledTrees mr (len q lengths b) q.d3)) :
    ∃ vs, kmax mr q lengths k = .ok vs ∧ vs.length = q.d0 ∧ ∀ b (hb : b < vs.length), ∃ ts : List (LabelledTrees mr (len q lengths b) q.d3),
      IsKBest (labScore (row q b)) k ts ∧ vs[b] = ts.map (labScore (row q b)) := by
  rw [kmax, conv_eq negBig h]
  have := (batchDP4 mr negBig q lengths h.toValid h.rank).kmax_eq (fun b hb => small h hM b hb) hk hc
  simp only [realScore_eq negBig q _ h.rank] at this
  exact this

open Classical in
/-- **C48.** `topk(k)` returns the indicators of the `k` best trees. -/
theorem topk_spec (mr : Bool) (q : Arcs ℝ) (lengths : Option (List ℕ)) (h : Valid mr q lengths) {M : ℝ} (hM : SmallPotentials q lengths M) {k : ℕ}
    (hk : 0 < k) (hc : ∀ b < q.d0, k ≤ Fintype.card (LabelledTrees mr (len q lengths b) q.d3))
    {sel : List (Autograd.Grad (List ℕ)) → List (Autograd.Grad (List ℕ))} (hsel : Autograd.IsTopk Prod.fst k sel) :
    ∃ μ : ℕ → List ℕ → ℝ, (∀ s < k, topk mr q lengths k sel s = .ok (μ s)) ∧
      ∀ b < q.d0, ∃ ts : List (LabelledTrees mr (len q lengths b) q.d3), IsKBest (labScore (row q b)) k ts ∧
        ∀ s (hs : s < ts.length), ∀ i j l, μ s [b, i, j, l] = if HasLabArc ts[s] i j l then 1 else 0 := by
  obtain ⟨vs, μ, -, h2, h3, h4⟩ := (batchDP4 mr negBig q lengths h.toValid h.rank).topk_eq (fun b hb => small h hM b hb) hk hc hsel
  refine ⟨μ, fun s hs => ?_, fun b hb => ?_⟩
  · rw [topk, conv_eq negBig h]; exact h3 s hs
  obtain ⟨ts, a1, -, a3⟩ := h4 b (by omega)
  rw [realScore_eq negBig q _ h.rank] at a1
  refine ⟨ts, a1, fun s hs i j l => ?_⟩
  rw [a3 s hs _ rfl, count_parts]
  push_cast; rfl

/-- The hypotheses of `kmax_spec` and `topk_spec` are met by `sample` with `k = 1`. -/
example (mr : Bool) : SmallPotentials sample (some [3, 2]) 10 ∧ ∀ b < sample.d0, 1 ≤ Fintype.card (LabelledTrees mr (len sample (some [3, 2]) b) sample.d3) := by
  constructor
  · refine ⟨by norm_num, ?_, by norm_num [sample]⟩
    intro b hb i j l hi hj hl
    have hl : l < 2 := hl
    have hb : b < 2 := hb
    have hj : j < len sample (some [3, 2]) b := hj
    have hi : i < len sample (some [3, 2]) b := hi
    have hj' : j < 3 := by interval_cases b <;> simp [len, lenOf] at hj <;> omega
    have hi' : i < 3 := by interval_cases b <;> simp [len, lenOf] at hi <;> omega
    interval_cases b <;> interval_cases i <;> interval_cases j <;> interval_cases l <;> norm_num [sample, abs_le]
  · intro b hb
    have := trees_nonempty (sample_valid mr) b hb
    exact Fintype.card_pos

/-! ### `log_prob` -/

open Classical in
/-- The event of a tree, one row. -/
def event {mr : Bool} {n L : ℕ} (t : LabelledTrees mr n L) (i j l : ℕ) : ℝ := if HasLabArc t i j l then 1 else 0

theorem score_event {mr : Bool} {n N L : ℕ} (hn : n ≤ N) (φ : ℕ → ℕ → ℕ → ℝ) (t : LabelledTrees mr n L) :
    Struct.score ((idx3 N N L).map fun x => φ x.1 x.2.1 x.2.2) ((idx3 N N L).map fun x => event t x.1 x.2.1 x.2.2) = labScore φ t := by
  rw [Struct.score, CKYCRFProofs.zipWith_map]
  refine (score_indicator ((List.finRange n).map fun k => ((arcCell (t.1.1 k) k).1, (arcCell (t.1.1 k) k).2, (t.2 k : ℕ))) ?_ ?_
    (fun x : ℕ × ℕ × ℕ => φ x.1 x.2.1 x.2.2) (fun x => event t x.1 x.2.1 x.2.2) ?_ ?_).trans ?_
  · refine List.Nodup.map (fun k k' h => ?_) (List.nodup_finRange n)
    simp only [arcCell_snd, Prod.mk.injEq] at h
    exact Fin.ext h.2.1
  · intro x hx
    obtain ⟨k, -, rfl⟩ := List.mem_map.1 hx
    have := arcCell_lt (Nat.lt_succ_iff.1 (t.1.1 k).2) k.2
    have hl := (t.2 k).2
    simp only
    omega
  · intro x hx
    obtain ⟨k, -, rfl⟩ := List.mem_map.1 hx
    exact if_pos ((hasLabArc_iff t _ _ _).2 ⟨k, rfl, rfl⟩)
  · rintro ⟨i, j, l⟩ - - - hx
    refine if_neg fun hc => hx ?_
    obtain ⟨k, hk, hl⟩ := (hasLabArc_iff t _ _ _).1 hc
    refine List.mem_map.2 ⟨k, List.mem_finRange k, ?_⟩
    simp only at hk hl
    rw [hk, hl]
  · rw [List.map_map, labScore, ← List.sum_ofFn, List.ofFn_eq_map]
    rfl

/-- **C08 for `DependencyCRF`.** `log_prob` of the event of a tree is the log of the tree's probability. -/
theorem logProb_spec (mr : Bool) (q : Arcs ℝ) (lengths : Option (List ℕ)) (h : Valid mr q lengths) (b : ℕ) (hb : b < q.d0)
    (t : LabelledTrees mr (len q lengths b) q.d3) :
    logProb mr q lengths b (event t) = .ok (Real.log (Gibbs.prob (labScore (row q b) : LabelledTrees mr (len q lengths b) q.d3 → ℝ) t)) := by
  have hne := trees_nonempty h b hb
  simp only [logProb]
  rw [partition_spec mr q lengths h]
  change Except.ok _ = _
  congr 1
  rw [List.getD_eq_getElem _ _ (by simpa using hb), List.getElem_map, List.getElem_range, Gibbs.log_prob (ι := LabelledTrees mr (len q lengths b) q.d3)]
  congr 1
  rw [← h.square, labels_four h.rank]
  exact score_event (len_le h.toValid hb).1 (q.get b) t

/-- **C08 for `DependencyCRF`.** The probabilities given by `log_prob` to the trees of a row add up to exactly 1. -/
theorem logProb_normalised (mr : Bool) (q : Arcs ℝ) (lengths : Option (List ℕ)) (h : Valid mr q lengths) (b : ℕ) (hb : b < q.d0) :
    ∃ lp : LabelledTrees mr (len q lengths b) q.d3 → ℝ, (∀ t, logProb mr q lengths b (event t) = .ok (lp t)) ∧ ∑ t, Real.exp (lp t) = 1 := by
  have hne := trees_nonempty h b hb
  refine ⟨_, logProb_spec mr q lengths h b hb, ?_⟩
  rw [← Gibbs.sum_prob (labScore (row q b) : LabelledTrees mr (len q lengths b) q.d3 → ℝ)]
  exact sum_congr rfl fun t _ => Real.exp_log (Gibbs.prob_pos _ _)

/-! ### Sampling -/

open Classical in
/-- The batch of events of a batch of trees. -/
def batchEvent {B L : ℕ} {mr : Bool} {n : Fin B → ℕ} (Y : ∀ b, LabelledTrees mr (n b) L) (id : List ℕ) : ℕ :=
  if ∃ (b : Fin B) (i j l : ℕ), id = [(b : ℕ), i, j, l] ∧ HasLabArc (Y b) i j l then 1 else 0

theorem sum_event {B L : ℕ} {mr : Bool} {n : Fin B → ℕ} (Y : ∀ b, LabelledTrees mr (n b) L) (id : List ℕ) :
    ∑ b : Fin B, (labParts true b (Y b)).count id = batchEvent Y id := by
  classical
  rw [batchEvent]
  split_ifs with h
  · obtain ⟨b, i, j, l, rfl, hm⟩ := h
    rw [sum_eq_single b]
    · rw [count_parts, if_pos hm]
    · intro b' _ hne
      refine Multiset.count_eq_zero_of_notMem fun hc => hne ?_
      obtain ⟨i', j', l', he, -⟩ := (mem_labParts _ _ _).1 hc
      simp only [List.cons.injEq] at he
      exact Fin.ext he.1.symm
    · simp
  · refine sum_eq_zero fun b _ => Multiset.count_eq_zero_of_notMem fun hc => h ?_
    obtain ⟨i', j', l', he, ha⟩ := (mem_labParts _ _ _).1 hc
    exact ⟨b, i', j', l', he, ha⟩

/-- Distinct trees have distinct events. -/
theorem batchEvent_injective {B L : ℕ} {mr : Bool} {n : Fin B → ℕ} :
    Function.Injective (batchEvent : (∀ b : Fin B, LabelledTrees mr (n b) L) → List ℕ → ℕ) := by
  classical
  intro Y Y' h
  funext b
  refine lab_ext fun i j l ha => ?_
  have h1 : batchEvent Y [(b : ℕ), i, j, l] = 1 := if_pos ⟨b, i, j, l, rfl, ha⟩
  rw [h] at h1
  by_contra hc
  rw [batchEvent, if_neg] at h1
  · exact zero_ne_one h1
  · rintro ⟨b', i', j', l', he, hm⟩
    simp only [List.cons.injEq, and_true] at he
    obtain ⟨hb, rfl, rfl, rfl⟩ := he
    obtain rfl := Fin.ext hb
    exact hc hm

/-- **C12 for `DependencyCRF`.** One backward pass of `SampledSemiring` draws, for every row independently, a tree from the row's distribution, and
returns exactly the tree's event. -/
theorem sampled_law (mr : Bool) (z : ℝ) (q : Arcs ℝ) (lengths : Option (List ℕ)) (h : Valid mr q lengths) :
    ∃ es, (convert negBig q).bind (fun p => Sampling.record (algo mr) z p lengths) = .ok es ∧ es.length = q.d0 ∧
      SamplesFrom es (fun Y : ∀ b : Fin q.d0, LabelledTrees mr (len q lengths b) q.d3 =>
        ∏ b : Fin q.d0, Gibbs.prob (labScore (row q b) : LabelledTrees mr (len q lengths b) q.d3 → ℝ) (Y b)) batchEvent 0 := by
  rw [conv_eq negBig h]
  have := (batchDP4 mr negBig q lengths h.toValid h.rank).sampled_exact (trees_nonempty h) (fun b _ t => labParts_nodup true b t) z batchEvent sum_event
  simp only [realScore_eq negBig q _ h.rank] at this
  exact this

/-- **C12, C50 for `DependencyCRF`.** `sample((n,))` returns `n` independent batches of events of trees drawn from the distribution. -/
theorem sample_law (mr : Bool) (q : Arcs ℝ) (lengths : Option (List ℕ)) (h : Valid mr q lengths) :
    ∃ es, (convert negBig q).bind (fun p => Sampling.record (algo mr) (-100000) p lengths) = .ok es ∧ es.length = q.d0 ∧
      MultiSamplesFrom es (fun Y : ∀ b : Fin q.d0, LabelledTrees mr (len q lengths b) q.d3 =>
        ∏ b : Fin q.d0, Gibbs.prob (labScore (row q b) : LabelledTrees mr (len q lengths b) q.d3 → ℝ) (Y b)) batchEvent 0 := by
  rw [conv_eq negBig h]
  have := (batchDP4 mr negBig q lengths h.toValid h.rank).sample_exact (trees_nonempty h) (fun b _ t => labParts_nodup true b t) (-100000) batchEvent sum_event
  simp only [realScore_eq negBig q _ h.rank] at this
  exact this

/-- The hypotheses of `SamplesFrom` and `MultiSamplesFrom` can be met. -/
example (mr : Bool) : ∃ es, (convert negBig sample).bind (fun p => Sampling.record (algo mr) (-100000) p (some [3, 2])) = .ok es ∧ es.length = 2 ∧
    ∃ (K : Type) (_ : Fintype K) (_ : DecidableEq K)
    (T : ℕ → Sampling.Tape K) (obj : ℕ → K) (Ω : Type) (_ : MeasurableSpace Ω) (P : MeasureTheory.Measure Ω)
    (_ : MeasureTheory.IsProbabilityMeasure P) (X : ℕ → ℕ → K → Ω → ℕ) (G G' : ℕ → Ω → K → ℕ),
    (∀ r, Sampling.Repr (T r) (Sampling.batchSum es) (obj r)) ∧ MultiDraws T P X ∧
    (∀ r ω, Sampling.IsBackward (Sampling.sendMulti (T r) fun j k => X r j k ω) (obj r) (G r ω)) ∧
    (∀ j ω, Sampling.IsBackward (Sampling.sendOne (T 0) fun k => X 0 j k ω) (obj 0) (G' j ω)) := by
  obtain ⟨es, h1, h2, -⟩ := sample_law mr sample (some [3, 2]) (sample_valid mr)
  exact ⟨es, h1, h2, Sampling.passes_exist _⟩

end Props.LabelledDependency
