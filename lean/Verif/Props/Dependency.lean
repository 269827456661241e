import Verif.Proofs.DepTree
import Verif.Proofs.Gibbs
import Verif.Proofs.Lists
import Verif.Proofs.SampleExists

/-! Property theorems about `DependencyCRF` with unlabelled arcs (potentials of shape `batch × N × N`): C20, C21, C22, C46, C47, C48 and `log_prob`,
sampling.

The structures of a row with `n` words are `Spec.ProjTrees multiroot n`: the projective dependency trees, with any number of root children or exactly one. -/

open Finset Spec Generic DepTreeProofs

noncomputable section
namespace Props.Dependency
open DepTree

/-- What the theorems assume: a non-empty batch of square tables, and lengths that are at most the number of words; for single-root trees there is at least one
word in every row. -/
structure Valid {γ : Type} (multiroot : Bool) (q : Arcs γ) (lengths : Option (List ℕ)) : Prop where
  rank : q.rank = 3
  square : q.d1 = q.d2
  batch : 1 ≤ q.d0
  words : multiroot = false → 1 ≤ q.d1
  lens : ∀ l, lengths = some l → l.length = q.d0 ∧ ∀ x ∈ l, x ≤ q.d1 ∧ (multiroot = false → 1 ≤ x)

theorem Valid.toValid {γ : Type} {mr : Bool} {q : Arcs γ} {lengths : Option (List ℕ)} (h : Valid mr q lengths) : DepTreeProofs.Valid mr q lengths :=
  ⟨Or.inl h.rank, h.square, by rw [labels_one h.rank], h.batch, h.words, h.lens⟩

/-- The number of words of row `b`. -/
def len {γ : Type} (q : Arcs γ) (lengths : Option (List ℕ)) (b : ℕ) : ℕ := lenOf q.d1 lengths b

/-- The potentials of row `b`. -/
def row {γ : Type} (q : Arcs γ) (b : ℕ) : ℕ → ℕ → γ := fun i j => q.get b i j 0

/-- A concrete input that meets all hypotheses, for both kinds of trees: two rows of lengths 3 and 2. -/
def sample : Arcs ℝ := ⟨3, 2, 3, 3, 0, fun b i j _ => (b : ℝ) + i - 2 * j⟩

theorem sample_valid (mr : Bool) : Valid mr sample (some [3, 2]) :=
  ⟨rfl, rfl, by decide, fun _ => by decide, by
    intro l hl
    obtain rfl : [3, 2] = l := by simpa using hl
    exact ⟨rfl, by intro x hx; simp at hx; rcases hx with rfl | rfl <;> exact ⟨by decide, fun _ => by decide⟩⟩⟩

theorem realScore_eq (neg : ℝ) (q : Arcs ℝ) (b : ℕ) {mr : Bool} {n : ℕ} :
    realScore (depParts b : ProjTrees mr n → _) (atQ neg q) = fun h => depScore (row q b) h.1 := by
  funext h
  rw [realScore, depParts, Multiset.map_map]
  rfl

theorem prod_parts {R : Type} [CommSemiring R] (neg : R) (q : Arcs R) (b : ℕ) {mr : Bool} {n : ℕ} (h : ProjTrees mr n) :
    ((depParts b h).map (atQ neg q)).prod = depProd (row q b) h.1 := by
  rw [depParts, Multiset.map_map]
  rfl

open Classical in
theorem count_parts (b : ℕ) {mr : Bool} {n : ℕ} (h : ProjTrees mr n) (i j : ℕ) :
    (depParts b h).count [b, i, j] = if HasArc h.1 i j then 1 else 0 := by
  rw [Multiset.count_eq_of_nodup (depParts_nodup b h)]
  congr 1
  rw [mem_depParts, eq_iff_iff]
  constructor
  · rintro ⟨i', j', he, ha⟩
    simp only [List.cons.injEq, and_true, true_and] at he
    rwa [he.1, he.2]
  · intro ha; exact ⟨i, j, rfl, ha⟩

theorem conv_eq {γ : Type} (neg : γ) {q : Arcs γ} {lengths : Option (List ℕ)} {mr : Bool} (h : Valid mr q lengths) : convert neg q = .ok (conv neg q) :=
  convert_ok neg (Or.inl h.rank) h.square

/-! ### Values -/

/-- **C20, C21.** In every commutative semiring the value of row `b` is the sum, over the projective dependency trees of its words (for
`multiroot=False`: those with exactly one root child), of the product of the arc potentials, each tree once.  The constant `-1e9` (`neg`) that `convert`
writes does not enter. -/
theorem sum_any_semiring {R : Type} [CommSemiring R] (mr : Bool) (neg : R) (q : Arcs R) (lengths : Option (List ℕ)) (h : Valid mr q lengths) :
    sum mr (Semirings.std R) neg q lengths = .ok ((List.range q.d0).map fun b => ∑ t : ProjTrees mr (len q lengths b), depProd (row q b) t.1) := by
  rw [sum, conv_eq neg h]
  have := (batchDP3 mr neg q lengths h.toValid h.rank).any_semiring
  simp only [prod_parts] at this
  exact this

/-- **C20, C21.** `partition` is exactly the log of the sum over the trees of the exponentiated score. -/
theorem partition_spec (mr : Bool) (q : Arcs ℝ) (lengths : Option (List ℕ)) (h : Valid mr q lengths) : partition mr q lengths =
    .ok ((List.range q.d0).map fun b => Real.log (∑ t : ProjTrees mr (len q lengths b), Real.exp (depScore (row q b) t.1))) := by
  rw [partition, conv_eq negBig h]
  have := (batchDP3 mr negBig q lengths h.toValid h.rank).partition_exact
  simp only [realScore_eq] at this
  exact this

/-- **C20, C21** with potentials that may be `-∞` (forbidden arcs), and any value of the constants. -/
theorem partition_neg_inf (mr : Bool) (z neg : EReal) (q : Arcs EReal) (lengths : Option (List ℕ)) (h : Valid mr q lengths) :
    sum mr (Semirings.logE z) neg q lengths =
    .ok ((List.range q.d0).map fun b => ENNReal.log (∑ t : ProjTrees mr (len q lengths b), EReal.exp (depScore (row q b) t.1))) := by
  rw [sum, conv_eq neg h]
  refine ((batchDP3 mr neg q lengths h.toValid h.rank).logE_eq z (Or.inr fun _ => inferInstance)).trans ?_
  congr 1
  refine List.map_congr_left fun b _ => congrArg _ (sum_congr rfl fun t _ => ?_)
  rw [depParts, Multiset.map_map]
  rfl

/-- **C22.** The table that holds only the leading `L × L` block of row `b`. -/
def block {γ : Type} (q : Arcs γ) (b L : ℕ) : Arcs γ := ⟨3, 1, L, L, 0, fun _ i j l => q.get b i j l⟩

theorem block_valid {γ : Type} {mr : Bool} {q : Arcs γ} {lengths : Option (List ℕ)} (h : Valid mr q lengths) {b : ℕ} (hb : b < q.d0) :
    Valid mr (block q b (len q lengths b)) none :=
  ⟨rfl, rfl, le_rfl, (len_le h.toValid hb).2, fun l hl => by simp at hl⟩

/-- **C22.** With lengths, the value of row `b` is the value of the leading `len × len` block alone. -/
theorem truncation {R : Type} [CommSemiring R] (mr : Bool) (neg : R) (q : Arcs R) (lengths : Option (List ℕ)) (h : Valid mr q lengths) :
    ∃ vs, sum mr (Semirings.std R) neg q lengths = .ok vs ∧ vs.length = q.d0 ∧
      ∀ b (hb : b < vs.length), sum mr (Semirings.std R) neg (block q b (len q lengths b)) none = .ok [vs[b]] := by
  refine ⟨_, sum_any_semiring mr neg q lengths h, by simp, fun b hb => ?_⟩
  rw [sum_any_semiring mr neg _ none (block_valid h (by simpa using hb))]
  rw [getElem_map_range]
  rfl

/-- **C22** for `partition`. -/
theorem partition_truncation (mr : Bool) (q : Arcs ℝ) (lengths : Option (List ℕ)) (h : Valid mr q lengths) :
    ∃ vs, partition mr q lengths = .ok vs ∧ vs.length = q.d0 ∧
      ∀ b (hb : b < vs.length), partition mr (block q b (len q lengths b)) none = .ok [vs[b]] := by
  refine ⟨_, partition_spec mr q lengths h, by simp, fun b hb => ?_⟩
  rw [partition_spec mr _ none (block_valid h (by simpa using hb))]
  rw [getElem_map_range]
  rfl

open Classical in
/-- **C20, C21.** `count` is the number of trees that use no potential equal to `-∞`. -/
theorem count_spec (mr : Bool) (q : Arcs EReal) (lengths : Option (List ℕ)) (h : Valid mr q lengths) : count mr lengths q =
    .ok ((List.range q.d0).map fun b => (((univ : Finset (ProjTrees mr (len q lengths b))).filter fun t : ProjTrees mr (len q lengths b) =>
      ∀ i j, HasArc t.1 i j → row q b i j ≠ ⊥).card : ℝ)) := by
  refine (sum_any_semiring mr negBig (⟨q.rank, q.d0, q.d1, q.d2, q.d3, fun b i j l => if q.get b i j l = ⊥ then (0 : ℝ) else 1⟩ : Arcs ℝ) lengths
    ⟨h.rank, h.square, h.batch, h.words, h.lens⟩).trans ?_
  congr 1
  refine List.map_congr_left fun b _ => ?_
  rw [← Finset.sum_boole]
  refine sum_congr rfl fun t _ => ?_
  split_ifs with hc
  · refine prod_eq_one fun k _ => ?_
    exact if_neg (hc _ _ ((hasArc_iff t.2.1 _ _).2 ⟨k, rfl⟩))
  · push Not at hc
    obtain ⟨i, j, ha, hb⟩ := hc
    obtain ⟨k, hk⟩ := (hasArc_iff t.2.1 _ _).1 ha
    refine prod_eq_zero (mem_univ k) ?_
    rw [hk]
    exact if_pos hb

theorem trees_nonempty {γ : Type} {mr : Bool} {q : Arcs γ} {lengths : Option (List ℕ)} (h : Valid mr q lengths) (b : ℕ) (hb : b < q.d0) :
    Nonempty (ProjTrees mr (len q lengths b)) :=
  nonempty_trees mr _ (len_le h.toValid hb).2

/-! ### Best trees -/

/-- **C47.** `max` is the score of the best tree of each row. -/
theorem max_spec (mr : Bool) (q : Arcs ℝ) (lengths : Option (List ℕ)) (h : Valid mr q lengths) : ∃ vs, max mr q lengths = .ok vs ∧ vs.length = q.d0 ∧
    ∀ b (hb : b < vs.length), (∃ t : ProjTrees mr (len q lengths b), vs[b] = depScore (row q b) t.1) ∧
      ∀ t : ProjTrees mr (len q lengths b), depScore (row q b) t.1 ≤ vs[b] := by
  rw [DepTree.max, conv_eq negBig h]
  have := (batchDP3 mr negBig q lengths h.toValid h.rank).max_exact
  simp only [realScore_eq] at this
  exact this

open Classical in
/-- **C47.** `argmax` is, for every row, the 0/1 indicator of the arcs of one tree, and that tree has the highest score, however ties are broken. -/
theorem argmax_spec (mr : Bool) (q : Arcs ℝ) (lengths : Option (List ℕ)) (h : Valid mr q lengths)
    {pick : List (Autograd.Grad (List ℕ)) → Autograd.Grad (List ℕ)} (hp : Autograd.IsArgmax Prod.fst pick) :
    ∃ μ, argmax mr q lengths pick = .ok μ ∧ ∀ b < q.d0, ∃ t : ProjTrees mr (len q lengths b),
      (∀ t' : ProjTrees mr (len q lengths b), depScore (row q b) t'.1 ≤ depScore (row q b) t.1) ∧
      ∀ i j, μ [b, i, j] = if HasArc t.1 i j then 1 else 0 := by
  rw [argmax, conv_eq negBig h]
  obtain ⟨μ, h1, h2⟩ := (batchDP3 mr negBig q lengths h.toValid h.rank).argmax_exact hp
  refine ⟨μ, h1, fun b hb => ?_⟩
  obtain ⟨t, h3, h4⟩ := h2 b hb
  simp only [realScore_eq] at h3
  refine ⟨t, h3, fun i j => ?_⟩
  rw [h4 _ rfl, count_parts]
  push_cast; rfl

/-! ### Marginals -/

open Classical in
/-- The posterior probability of an arc. -/
def arcProb (mr : Bool) (φ : ℕ → ℕ → ℝ) (n i j : ℕ) : ℝ :=
  ∑ t : ProjTrees mr n, if HasArc t.1 i j then Gibbs.prob (fun t : ProjTrees mr n => depScore φ t.1) t else 0

/-- **C46.** `marginals` are exactly the posterior probabilities of the arcs, root arcs on the diagonal. -/
theorem marginals_spec (mr : Bool) (q : Arcs ℝ) (lengths : Option (List ℕ)) (h : Valid mr q lengths) :
    ∃ μ, marginals mr q lengths = .ok μ ∧ ∀ b < q.d0, ∀ i j, μ [b, i, j] = arcProb mr (row q b) (len q lengths b) i j := by
  rw [marginals, conv_eq negBig h]
  obtain ⟨μ, h1, h2⟩ := (batchDP3 mr negBig q lengths h.toValid h.rank).marginals_exact
  refine ⟨μ, h1, fun b hb i j => ?_⟩
  rw [h2 b hb _ rfl, Gibbs.expect, arcProb]
  refine sum_congr rfl fun t _ => ?_
  rw [count_parts, realScore_eq]
  by_cases hc : HasArc t.1 i j
  · rw [if_pos hc, Nat.cast_one, mul_one]; exact (if_pos hc).symm
  · rw [if_neg hc, Nat.cast_zero, mul_zero]; exact (if_neg hc).symm

theorem hasArc_lt {n : ℕ} {h : Heads n} {i j : ℕ} (ha : HasArc h i j) : i < n ∧ j < n := by
  obtain ⟨k, hk, hc⟩ := ha
  have h1 := k.2
  have h2 := (h k).2
  split_ifs at hc <;> omega

/-- **C46.** Entries that involve a word past the row's length have marginal 0. -/
theorem outside_marginal (mr : Bool) (φ : ℕ → ℕ → ℝ) (n i j : ℕ) (h : n ≤ i ∨ n ≤ j) : arcProb mr φ n i j = 0 := by
  refine sum_eq_zero fun t _ => if_neg fun hc => ?_
  have := hasArc_lt hc
  omega

/-- **C46.** Every word has exactly one head: column `j` of the marginals adds up to 1. -/
theorem head_marginal (mr : Bool) (φ : ℕ → ℕ → ℝ) (n j : ℕ) (hj : j < n) : ∑ i ∈ range n, arcProb mr φ n i j = 1 := by
  classical
  have := nonempty_trees mr n fun _ => by omega
  simp only [arcProb]
  rw [sum_comm, ← Gibbs.sum_prob (fun t : ProjTrees mr n => depScore φ t.1)]
  refine sum_congr rfl fun t _ => ?_
  have hlt := arcCell_lt (Nat.lt_succ_iff.1 (t.1 ⟨j, hj⟩).2) hj
  rw [sum_eq_single (arcCell (t.1 ⟨j, hj⟩) j).1]
  · refine if_pos ((hasArc_iff t.2.1 _ _).2 ⟨⟨j, hj⟩, ?_⟩)
    exact Prod.ext rfl (arcCell_snd _ _)
  · intro i _ hne
    refine if_neg fun hc => hne ?_
    obtain ⟨k, hk⟩ := (hasArc_iff t.2.1 _ _).1 hc
    have e : k = ⟨j, hj⟩ := Fin.ext (by simpa [arcCell_snd] using congrArg Prod.snd hk)
    rw [e] at hk
    rw [hk]
  · intro hc
    exact absurd (mem_range.2 hlt.1) hc

/-- **C46.** With `multiroot=False` the root arcs (the diagonal) have total marginal 1. -/
theorem root_marginal (φ : ℕ → ℕ → ℝ) (n : ℕ) (hn : 1 ≤ n) : ∑ j ∈ range n, arcProb false φ n j j = 1 := by
  classical
  have := nonempty_trees false n fun _ => hn
  simp only [arcProb]
  rw [sum_comm, ← Gibbs.sum_prob (fun t : ProjTrees false n => depScore φ t.1)]
  refine sum_congr rfl fun t _ => ?_
  obtain ⟨k, hk, hu⟩ := t.2.2.2 rfl
  rw [sum_eq_single (k : ℕ)]
  · exact if_pos ⟨k, rfl, by rw [if_pos rfl]; exact hk⟩
  · rintro j _ hne
    refine if_neg ?_
    rintro ⟨k', hk', hc⟩
    rw [if_pos rfl] at hc
    exact hne (by rw [← hk', hu k' hc])
  · intro hc
    exact absurd (mem_range.2 k.2) hc

/-! ### Entropy and k-best -/

/-- **C48.** `entropy` is exactly the Shannon entropy of the distribution over trees. -/
theorem entropy_spec (mr : Bool) (q : Arcs ℝ) (lengths : Option (List ℕ)) (h : Valid mr q lengths) : entropy mr q lengths =
    .ok ((List.range q.d0).map fun b => Gibbs.entropy fun t : ProjTrees mr (len q lengths b) => depScore (row q b) t.1) := by
  rw [entropy, conv_eq negBig h]
  have := (batchDP3 mr negBig q lengths h.toValid h.rank).entropy_exact
  simp only [realScore_eq] at this
  exact this

/-- The potentials are so small that no tree's score comes near the stand-in `-1e5`, which fills unused slots of `kmax`. -/
structure SmallPotentials (q : Arcs ℝ) (lengths : Option (List ℕ)) (M : ℝ) : Prop where
  nonneg : 0 ≤ M
  bound : ∀ b < q.d0, ∀ i j, i < len q lengths b → j < len q lengths b → |q.get b i j 0| ≤ M
  small : 2 * (q.d1 + 1) * M < 100000

theorem small {mr : Bool} {q : Arcs ℝ} {lengths : Option (List ℕ)} (h : Valid mr q lengths) {M : ℝ} (hM : SmallPotentials q lengths M) (b : ℕ) (hb : b < q.d0) :
    BatchDP.Small (atQ negBig q) (Entry (decide q.labeled) q.labels (lenOf q.d1 lengths b) b) (depParts b : ProjTrees mr (len q lengths b) → _)
      (fun y : Empty => y.elim) (q.d1 + 1) M where
  nonneg := hM.nonneg
  bound := by
    rintro e ⟨h', k, l, rfl, h1, h2, h3, h4⟩
    rw [labels_one h.rank] at h4
    have hlt := arcCell_lt h1 h2
    obtain rfl : l = 0 := by omega
    rw [atQ_cell negBig q _ _ _ _ (Or.inr rfl)]
    exact hM.bound b hb _ _ hlt.1 hlt.2
  size t := by
    rw [depParts_card]
    exact (len_le h.toValid hb).1.trans (Nat.le_succ _)
  sizeA y := y.elim
  small := by
    have := hM.small
    push_cast; exact this
  below := by
    have h1 := hM.small
    have h2 : (0 : ℝ) ≤ q.d1 := Nat.cast_nonneg _
    have h3 := hM.nonneg
    nlinarith

/-- **C48.** `kmax(k)` returns the scores of the `k` best trees of every row, in decreasing order. -/
theorem kmax_spec (mr : Bool) (q : Arcs ℝ) (lengths : Option (List ℕ)) (h : Valid mr q lengths) {M : ℝ} (hM : SmallPotentials q lengths M) {k : ℕ}
    (hk : 0 < k) (hc : ∀ b < q.d0, k ≤ Fintype.card (ProjTrees mr (len q lengths b))) :
    ∃ vs, kmax mr q lengths k = .ok vs ∧ vs.length = q.d0 ∧ ∀ b (hb : b < vs.length), ∃ ts : List (ProjTrees mr (len q lengths b)),
      IsKBest (fun t => depScore (row q b) t.1) k ts ∧ vs[b] = ts.map fun t => depScore (row q b) t.1 := by
  rw [kmax, conv_eq negBig h]
  have := (batchDP3 mr negBig q lengths h.toValid h.rank).kmax_eq (fun b hb => small h hM b hb) hk hc
  simp only [realScore_eq] at this
  exact this

open Classical in
/-- **C48.** `topk(k)` returns the indicators of the `k` best trees. -/
theorem topk_spec (mr : Bool) (q : Arcs ℝ) (lengths : Option (List ℕ)) (h : Valid mr q lengths) {M : ℝ} (hM : SmallPotentials q lengths M) {k : ℕ}
    (hk : 0 < k) (hc : ∀ b < q.d0, k ≤ Fintype.card (ProjTrees mr (len q lengths b)))
    {sel : List (Autograd.Grad (List ℕ)) → List (Autograd.Grad (List ℕ))} (hsel : Autograd.IsTopk Prod.fst k sel) :
    ∃ μ : ℕ → List ℕ → ℝ, (∀ s < k, topk mr q lengths k sel s = .ok (μ s)) ∧
      ∀ b < q.d0, ∃ ts : List (ProjTrees mr (len q lengths b)), IsKBest (fun t => depScore (row q b) t.1) k ts ∧
        ∀ s (hs : s < ts.length), ∀ i j, μ s [b, i, j] = if HasArc ts[s].1 i j then 1 else 0 := by
  obtain ⟨vs, μ, -, h2, h3, h4⟩ := (batchDP3 mr negBig q lengths h.toValid h.rank).topk_eq (fun b hb => small h hM b hb) hk hc hsel
  refine ⟨μ, fun s hs => ?_, fun b hb => ?_⟩
  · rw [topk, conv_eq negBig h]; exact h3 s hs
  obtain ⟨ts, a1, -, a3⟩ := h4 b (by omega)
  rw [realScore_eq] at a1
  refine ⟨ts, a1, fun s hs i j => ?_⟩
  rw [a3 s hs _ rfl, count_parts]
  push_cast; rfl

/-- The hypotheses of `kmax_spec` and `topk_spec` are met by `sample` with `k = 1`. -/
example (mr : Bool) : SmallPotentials sample (some [3, 2]) 10 ∧ ∀ b < sample.d0, 1 ≤ Fintype.card (ProjTrees mr (len sample (some [3, 2]) b)) := by
  constructor
  · refine ⟨by norm_num, ?_, by norm_num [sample]⟩
    intro b hb i j hi hj
    have hb : b < 2 := hb
    have hj : j < len sample (some [3, 2]) b := hj
    have hi : i < len sample (some [3, 2]) b := hi
    have hj' : j < 3 := by interval_cases b <;> simp [len, lenOf] at hj <;> omega
    have hi' : i < 3 := by interval_cases b <;> simp [len, lenOf] at hi <;> omega
    interval_cases b <;> interval_cases i <;> interval_cases j <;> norm_num [sample, abs_le]
  · intro b hb
    have := trees_nonempty (sample_valid mr) b hb
    exact Fintype.card_pos

/-! ### `log_prob` -/

open Classical in
/-- The event of a tree, one row. -/
def event {mr : Bool} {n : ℕ} (t : ProjTrees mr n) (i j _ : ℕ) : ℝ := if HasArc t.1 i j then 1 else 0

theorem score_event {mr : Bool} {n N : ℕ} (hn : n ≤ N) (φ : ℕ → ℕ → ℕ → ℝ) (t : ProjTrees mr n) :
    Struct.score ((idx3 N N 1).map fun x => φ x.1 x.2.1 x.2.2) ((idx3 N N 1).map fun x => event t x.1 x.2.1 x.2.2) =
    depScore (fun i j => φ i j 0) t.1 := by
  rw [Struct.score, CKYCRFProofs.zipWith_map]
  refine (score_indicator ((List.finRange n).map fun k => ((arcCell (t.1 k) k).1, (arcCell (t.1 k) k).2, 0)) ?_ ?_ (fun x : ℕ × ℕ × ℕ => φ x.1 x.2.1 x.2.2)
    (fun x => event t x.1 x.2.1 x.2.2) ?_ ?_).trans ?_
  · refine List.Nodup.map (fun k k' h => ?_) (List.nodup_finRange n)
    simp only [arcCell_snd, Prod.mk.injEq, and_true] at h
    exact Fin.ext h.2
  · intro x hx
    obtain ⟨k, -, rfl⟩ := List.mem_map.1 hx
    have := arcCell_lt (Nat.lt_succ_iff.1 (t.1 k).2) k.2
    simp only
    omega
  · intro x hx
    obtain ⟨k, -, rfl⟩ := List.mem_map.1 hx
    exact if_pos ((hasArc_iff t.2.1 _ _).2 ⟨k, rfl⟩)
  · rintro ⟨i, j, l⟩ - - hl hx
    refine if_neg fun hc => hx ?_
    obtain ⟨k, hk⟩ := (hasArc_iff t.2.1 _ _).1 hc
    refine List.mem_map.2 ⟨k, List.mem_finRange k, ?_⟩
    simp only at hk hl
    rw [hk]
    exact Prod.ext rfl (Prod.ext rfl (by simp only; omega))
  · rw [List.map_map, depScore, ← List.sum_ofFn, List.ofFn_eq_map]
    rfl

/-- **C08 for `DependencyCRF`.** `log_prob` of the event of a tree is the log of the tree's probability. -/
theorem logProb_spec (mr : Bool) (q : Arcs ℝ) (lengths : Option (List ℕ)) (h : Valid mr q lengths) (b : ℕ) (hb : b < q.d0)
    (t : ProjTrees mr (len q lengths b)) :
    logProb mr q lengths b (event t) = .ok (Real.log (Gibbs.prob (fun t : ProjTrees mr (len q lengths b) => depScore (row q b) t.1) t)) := by
  have hne := trees_nonempty h b hb
  simp only [logProb]
  rw [partition_spec mr q lengths h]
  change Except.ok _ = _
  congr 1
  rw [List.getD_eq_getElem _ _ (by simpa using hb), List.getElem_map, List.getElem_range, Gibbs.log_prob (ι := ProjTrees mr (len q lengths b))]
  congr 1
  rw [← h.square, labels_one h.rank]
  exact score_event (len_le h.toValid hb).1 (q.get b) t

/-- **C08 for `DependencyCRF`.** The probabilities given by `log_prob` to the trees of a row add up to exactly 1. -/
theorem logProb_normalised (mr : Bool) (q : Arcs ℝ) (lengths : Option (List ℕ)) (h : Valid mr q lengths) (b : ℕ) (hb : b < q.d0) :
    ∃ lp : ProjTrees mr (len q lengths b) → ℝ, (∀ t, logProb mr q lengths b (event t) = .ok (lp t)) ∧ ∑ t, Real.exp (lp t) = 1 := by
  have hne := trees_nonempty h b hb
  refine ⟨_, logProb_spec mr q lengths h b hb, ?_⟩
  rw [← Gibbs.sum_prob (fun t : ProjTrees mr (len q lengths b) => depScore (row q b) t.1)]
  exact sum_congr rfl fun t _ => Real.exp_log (Gibbs.prob_pos _ _)

/-! ### Sampling -/

open Classical in
/-- The batch of events of a batch of trees. -/
def batchEvent {B : ℕ} {mr : Bool} {n : Fin B → ℕ} (Y : ∀ b, ProjTrees mr (n b)) (id : List ℕ) : ℕ :=
  if ∃ (b : Fin B) (i j : ℕ), id = [(b : ℕ), i, j] ∧ HasArc (Y b).1 i j then 1 else 0

theorem sum_event {B : ℕ} {mr : Bool} {n : Fin B → ℕ} (Y : ∀ b, ProjTrees mr (n b)) (id : List ℕ) :
    ∑ b : Fin B, (depParts b (Y b)).count id = batchEvent Y id := by
  classical
  rw [batchEvent]
  split_ifs with h
  · obtain ⟨b, i, j, rfl, hm⟩ := h
    rw [sum_eq_single b]
    · rw [count_parts, if_pos hm]
    · intro b' _ hne
      refine Multiset.count_eq_zero_of_notMem fun hc => hne ?_
      obtain ⟨i', j', he, -⟩ := (mem_depParts _ _ _).1 hc
      simp only [List.cons.injEq] at he
      exact Fin.ext he.1.symm
    · simp
  · refine sum_eq_zero fun b _ => Multiset.count_eq_zero_of_notMem fun hc => h ?_
    obtain ⟨i', j', he, ha⟩ := (mem_depParts _ _ _).1 hc
    exact ⟨b, i', j', he, ha⟩

/-- Distinct trees have distinct events. -/
theorem batchEvent_injective {B : ℕ} {mr : Bool} {n : Fin B → ℕ} :
    Function.Injective (batchEvent : (∀ b : Fin B, ProjTrees mr (n b)) → List ℕ → ℕ) := by
  classical
  intro Y Y' h
  funext b
  refine Subtype.ext (heads_ext (Y b).2.1 (Y' b).2.1 fun i j ha => ?_)
  have h1 : batchEvent Y [(b : ℕ), i, j] = 1 := if_pos ⟨b, i, j, rfl, ha⟩
  rw [h] at h1
  by_contra hc
  rw [batchEvent, if_neg] at h1
  · exact zero_ne_one h1
  · rintro ⟨b', i', j', he, hm⟩
    simp only [List.cons.injEq, and_true] at he
    obtain ⟨hb, rfl, rfl⟩ := he
    obtain rfl := Fin.ext hb
    exact hc hm

/-- **C12 for `DependencyCRF`.** One backward pass of `SampledSemiring` draws, for every row independently, a tree from the row's distribution, and
returns exactly the tree's event. -/
theorem sampled_law (mr : Bool) (z : ℝ) (q : Arcs ℝ) (lengths : Option (List ℕ)) (h : Valid mr q lengths) :
    ∃ es, (convert negBig q).bind (fun p => Sampling.record (algo mr) z p lengths) = .ok es ∧ es.length = q.d0 ∧
      SamplesFrom es (fun Y : ∀ b : Fin q.d0, ProjTrees mr (len q lengths b) =>
        ∏ b : Fin q.d0, Gibbs.prob (fun t : ProjTrees mr (len q lengths b) => depScore (row q b) t.1) (Y b)) batchEvent 0 := by
  rw [conv_eq negBig h]
  have := (batchDP3 mr negBig q lengths h.toValid h.rank).sampled_exact (trees_nonempty h) (fun b _ t => depParts_nodup b t) z batchEvent sum_event
  simp only [realScore_eq] at this
  exact this

/-- **C12, C50 for `DependencyCRF`.** `sample((n,))` returns `n` independent batches of events of trees drawn from the distribution. -/
theorem sample_law (mr : Bool) (q : Arcs ℝ) (lengths : Option (List ℕ)) (h : Valid mr q lengths) :
    ∃ es, (convert negBig q).bind (fun p => Sampling.record (algo mr) (-100000) p lengths) = .ok es ∧ es.length = q.d0 ∧
      MultiSamplesFrom es (fun Y : ∀ b : Fin q.d0, ProjTrees mr (len q lengths b) =>
        ∏ b : Fin q.d0, Gibbs.prob (fun t : ProjTrees mr (len q lengths b) => depScore (row q b) t.1) (Y b)) batchEvent 0 := by
  rw [conv_eq negBig h]
  have := (batchDP3 mr negBig q lengths h.toValid h.rank).sample_exact (trees_nonempty h) (fun b _ t => depParts_nodup b t) (-100000) batchEvent sum_event
  simp only [realScore_eq] at this
  exact this

/-- The hypotheses of `SamplesFrom` and `MultiSamplesFrom` can be met. -/
example (mr : Bool) : ∃ es, (convert negBig sample).bind (fun p => Sampling.record (algo mr) (-100000) p (some [3, 2])) = .ok es ∧ es.length = 2 ∧
    ∃ (K : Type) (_ : Fintype K) (_ : DecidableEq K)
    (T : ℕ → Sampling.Tape K) (obj : ℕ → K) (Ω : Type) (_ : MeasurableSpace Ω) (P : MeasureTheory.Measure Ω)
    (_ : MeasureTheory.IsProbabilityMeasure P) (X : ℕ → ℕ → K → Ω → ℕ) (G G' : ℕ → Ω → K → ℕ),
    (∀ r, Sampling.Repr (T r) (Sampling.batchSum es) (obj r)) ∧ MultiDraws T P X ∧
    (∀ r ω, Sampling.IsBackward (Sampling.sendMulti (T r) fun j k => X r j k ω) (obj r) (G r ω)) ∧
    (∀ j ω, Sampling.IsBackward (Sampling.sendOne (T 0) fun k => X 0 j k ω) (obj 0) (G' j ω)) := by
  obtain ⟨es, h1, h2, -⟩ := sample_law mr sample (some [3, 2]) (sample_valid mr)
  exact ⟨es, h1, h2, Sampling.passes_exist _⟩

end Props.Dependency
