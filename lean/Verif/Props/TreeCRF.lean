import Mathlib.Combinatorics.Enumerative.Catalan.Basic
import Verif.Proofs.CKYCRF
import Verif.Proofs.Gibbs
import Verif.Proofs.Lists
import Verif.Proofs.SampleExists

/-! Property theorems about `TreeCRF`: C25, C26, C46, C47, C48 and sampling, `log_prob`.

A labelled binary tree over the `n` words of a row is an element of `Spec.Trees NT n`; its spans are `LTree.spans`. -/

open Finset Spec Generic CKYCRFProofs

noncomputable section
namespace Props.TreeCRF
open CKYCRF

/-- What the theorems assume: a square table with at least one word and one label, and lengths between 1 and the number of words. -/
abbrev Valid {γ : Type} (p : T4 γ) (lengths : Option (List ℕ)) : Prop := CKYCRFProofs.Valid p lengths

/-- The number of words of row `b`. -/
def len {γ : Type} (p : T4 γ) (lengths : Option (List ℕ)) (b : ℕ) : ℕ := lenOf p.d1 lengths b

/-- The potentials of row `b`: first word, last word, label. -/
def row {γ : Type} (p : T4 γ) (b : ℕ) : ℕ → ℕ → ℕ → γ := fun i j a => p.get b i j a

/-- A concrete input that meets all hypotheses: two rows of lengths 3 and 2, two labels. -/
def sample : T4 ℝ := ⟨2, 3, 3, 2, fun b i j a => (b : ℝ) + i - 2 * j + a⟩

theorem sample_valid : Valid sample (some [3, 2]) := ⟨rfl, by decide, by decide, rfl, by decide⟩

variable {p : T4 ℝ} {lengths : Option (List ℕ)}

theorem realScore_eq (p : T4 ℝ) (b : ℕ) {NT L : ℕ} : realScore (treeParts b : Trees NT L → _) (at4 p) = treeScore (row p b) := by
  funext t
  rw [realScore, treeParts, treeScore, Multiset.map_coe, Multiset.sum_coe, List.map_map]
  rfl

theorem count_parts (b : ℕ) {NT L : ℕ} (t : Trees NT L) (i j : ℕ) (a : Fin NT) :
    (treeParts b t).count [b, i, j, (a : ℕ)] = if (i, j, a) ∈ t.1.spans 0 then 1 else 0 := by
  rw [Multiset.count_eq_of_nodup (treeParts_nodup b t)]
  congr 1
  rw [treeParts, Multiset.mem_coe, List.mem_map, eq_iff_iff]
  constructor
  · rintro ⟨⟨i', j', a'⟩, hs, he⟩
    simp only [List.cons.injEq, and_true, true_and] at he
    obtain ⟨rfl, rfl, h⟩ := he
    rwa [← Fin.ext h]
  · intro h
    exact ⟨(i, j, a), h, rfl⟩

/-- **C25 / C26** in any commutative semiring: the value of a row is the sum over the labelled binary trees of its words, each once, of the
product of the potentials of the tree's labelled spans.  (The potentials of spans that are not inside the first `len` words are not
mentioned, so they do not matter, nor do entries below the diagonal, nor does `zero`.) -/
theorem sum_any_semiring {R : Type} [CommSemiring R] (p : T4 R) (lengths : Option (List ℕ)) (h : Valid p lengths) :
    logpartition (Semirings.std R) p lengths =
      .ok ((List.range p.d0).map fun b => ∑ t : Trees p.d3 (len p lengths b), treeProd (row p b) t) := by
  refine (batchDP p lengths h).any_semiring.trans ?_
  congr 1
  refine List.map_congr_left fun b _ => sum_congr rfl fun t _ => ?_
  rw [treeParts, Multiset.map_coe, Multiset.prod_coe, List.map_map]
  rfl

/-- **C25.** `TreeCRF.partition` is exactly the log of the sum over the labelled binary trees of the exponentiated score: the stand-in
`zero = -1e5` does not enter. -/
theorem partition_spec (p : T4 ℝ) (lengths : Option (List ℕ)) (h : Valid p lengths) : Dist.partition algo p lengths =
    .ok ((List.range p.d0).map fun b => Real.log (∑ t : Trees p.d3 (len p lengths b), Real.exp (treeScore (row p b) t))) := by
  have := (batchDP p lengths h).partition_exact
  simp only [realScore_eq] at this
  exact this

/-- **C25** with potentials that may be `-∞` (forbidden spans), and any value of the constant `zero`. -/
theorem partition_neg_inf (z : EReal) (p : T4 EReal) (lengths : Option (List ℕ)) (h : Valid p lengths) : logpartition (Semirings.logE z) p lengths =
    .ok ((List.range p.d0).map fun b => ENNReal.log (∑ t : Trees p.d3 (len p lengths b),
      EReal.exp ((t.1.spans 0).map fun s => row p b s.1 s.2.1 s.2.2).sum)) := by
  refine ((batchDP p lengths h).logE_eq z (Or.inr fun _ => inferInstance)).trans ?_
  congr 1
  refine List.map_congr_left fun b _ => congrArg _ (sum_congr rfl fun t _ => ?_)
  rw [treeParts, Multiset.map_coe, Multiset.sum_coe, List.map_map]
  rfl

/-- **C26.** The table that holds only the leading `L × L` block of row `b`. -/
def block {γ : Type} (p : T4 γ) (b L : ℕ) : T4 γ := ⟨1, L, L, p.d3, fun _ i j a => p.get b i j a⟩

/-- **C26.** With lengths, the value of row `b` is the value of the leading `len × len` block alone. -/
theorem truncation {R : Type} [CommSemiring R] (p : T4 R) (lengths : Option (List ℕ)) (h : Valid p lengths) :
    ∃ vs, logpartition (Semirings.std R) p lengths = .ok vs ∧ vs.length = p.d0 ∧
      ∀ b (hb : b < vs.length), logpartition (Semirings.std R) (block p b (len p lengths b)) none = .ok [vs[b]] := by
  refine ⟨_, sum_any_semiring p lengths h, by simp, fun b hb => ?_⟩
  have hl := len_in h.words h.lens b (by simpa using hb)
  rw [sum_any_semiring (block p b (len p lengths b)) none ⟨rfl, hl.1, h.labels, trivial⟩]
  rw [getElem_map_range]
  rfl

/-- **C26** for `partition`. -/
theorem partition_truncation (p : T4 ℝ) (lengths : Option (List ℕ)) (h : Valid p lengths) :
    ∃ vs, Dist.partition algo p lengths = .ok vs ∧ vs.length = p.d0 ∧
      ∀ b (hb : b < vs.length), Dist.partition algo (block p b (len p lengths b)) none = .ok [vs[b]] := by
  refine ⟨_, partition_spec p lengths h, by simp, fun b hb => ?_⟩
  have hl := len_in h.words h.lens b (by simpa using hb)
  rw [partition_spec (block p b (len p lengths b)) none ⟨rfl, hl.1, h.labels, trivial⟩]
  rw [getElem_map_range]
  rfl

/-- The number of labelled binary trees. -/
theorem card_trees (NT n : ℕ) : Fintype.card (Trees NT (n + 1)) = catalan n * NT ^ (2 * n + 1) := by
  induction n using Nat.strong_induction_on with
  | _ n ih =>
    cases n with
    | zero =>
      have := sum_trees_one (NT := NT) (R := ℕ) fun _ => 1
      simpa using this
    | succ n =>
      have := sum_trees_node (NT := NT) (R := ℕ) n fun _ => 1
      simp only [sum_const, card_univ, smul_eq_mul, mul_one, Fintype.card_fin] at this
      rw [this, catalan_succ, sum_mul, mul_sum]
      refine sum_congr rfl fun k _ => ?_
      have hk := k.2
      have e : n + 1 - (k : ℕ) = n - k + 1 := by omega
      rw [e, ih k (by omega), ih (n - k) (by omega)]
      have e2 : 2 * (n + 1) + 1 = 1 + (2 * (k : ℕ) + 1) + (2 * (n - k) + 1) := by omega
      rw [e2, pow_add, pow_add]; ring

/-- **C25.** `count` is the number of trees that use no potential equal to `-∞`. -/
theorem count_spec (p : T4 EReal) (lengths : Option (List ℕ)) (h : Valid p lengths) : Dist.count algo lengths p =
    .ok ((List.range p.d0).map fun b => (((univ : Finset (Trees p.d3 (len p lengths b))).filter fun t : Trees p.d3 (len p lengths b) =>
      ∀ s ∈ t.1.spans 0, row p b s.1 s.2.1 s.2.2 ≠ ⊥).card : ℝ)) := by
  classical
  refine (batchDP p lengths h).count_eq.trans ?_
  congr 1
  refine List.map_congr_left fun b _ => ?_
  congr 2
  refine filter_congr fun t _ => ?_
  rw [treeParts]
  simp only [Multiset.mem_coe, List.forall_mem_map]
  rfl

/-- **C25.** With finite potentials `count` is Catalan(N-1) · NT^(2N-1). -/
theorem count_catalan (p : T4 EReal) (lengths : Option (List ℕ)) (h : Valid p lengths) (hfin : ∀ b i j a, p.get b i j a ≠ ⊥) :
    Dist.count algo lengths p =
      .ok ((List.range p.d0).map fun b => ((catalan (len p lengths b - 1) * p.d3 ^ (2 * len p lengths b - 1) : ℕ) : ℝ)) := by
  rw [count_spec p lengths h]
  congr 1
  refine List.map_congr_left fun b hb => ?_
  have hl : 1 ≤ len p lengths b := (len_in h.words h.lens b (by simpa using hb)).1
  rw [filter_true_of_mem fun (t : Trees p.d3 (len p lengths b)) _ (s : ℕ × ℕ × Fin p.d3) _ => hfin b s.1 s.2.1 s.2.2, card_univ]
  have e : Fintype.card (Trees p.d3 (len p lengths b)) = Fintype.card (Trees p.d3 (len p lengths b - 1 + 1)) := by
    rw [Nat.sub_add_cancel hl]
  rw [e, card_trees]
  have e2 : 2 * (len p lengths b - 1) + 1 = 2 * len p lengths b - 1 := by omega
  rw [e2]

example : Dist.count algo none ⟨1, 4, 4, 1, fun _ _ _ _ => (0 : EReal)⟩ = .ok [5] := by
  rw [count_catalan _ none ⟨rfl, by decide, by decide, trivial⟩ (fun _ _ _ _ => EReal.zero_ne_bot)]
  simp [len, lenOf, List.range_succ, catalan_three]

/-- **C47.** `max` is the score of the best tree of each row. -/
theorem max_spec (p : T4 ℝ) (lengths : Option (List ℕ)) (h : Valid p lengths) : ∃ vs, Dist.max algo p lengths = .ok vs ∧ vs.length = p.d0 ∧
    ∀ b (hb : b < vs.length), (∃ t : Trees p.d3 (len p lengths b), vs[b] = treeScore (row p b) t) ∧
      ∀ t : Trees p.d3 (len p lengths b), treeScore (row p b) t ≤ vs[b] := by
  have := (batchDP p lengths h).max_exact
  simp only [realScore_eq] at this
  exact this

/-- **C47.** `argmax` is, for every row, the 0/1 indicator of the labelled spans of one tree, and that tree has the highest score, however ties are
broken. -/
theorem argmax_spec (p : T4 ℝ) (lengths : Option (List ℕ)) (h : Valid p lengths)
    {pick : List (Autograd.Grad (List ℕ)) → Autograd.Grad (List ℕ)} (hp : Autograd.IsArgmax Prod.fst pick) :
    ∃ μ, Dist.argmax algo p lengths pick = .ok μ ∧ ∀ b < p.d0, ∃ t : Trees p.d3 (len p lengths b),
      (∀ t' : Trees p.d3 (len p lengths b), treeScore (row p b) t' ≤ treeScore (row p b) t) ∧
      ∀ i j (a : Fin p.d3), μ [b, i, j, (a : ℕ)] = if (i, j, a) ∈ t.1.spans 0 then 1 else 0 := by
  obtain ⟨μ, h1, h2⟩ := (batchDP p lengths h).argmax_exact hp
  refine ⟨μ, h1, fun b hb => ?_⟩
  obtain ⟨t, h3, h4⟩ := h2 b hb
  simp only [realScore_eq] at h3
  refine ⟨t, h3, fun i j a => ?_⟩
  rw [h4 _ rfl, count_parts]
  push_cast; rfl

/-- The posterior probability of a labelled span. -/
def spanProb {NT : ℕ} (φ : ℕ → ℕ → ℕ → ℝ) (L i j : ℕ) (a : Fin NT) : ℝ :=
  ∑ t : Trees NT L, if (i, j, a) ∈ t.1.spans 0 then Gibbs.prob (treeScore φ) t else 0

/-- **C46.** `marginals` are exactly the posterior probabilities of the labelled spans. -/
theorem marginals_spec (p : T4 ℝ) (lengths : Option (List ℕ)) (h : Valid p lengths) :
    ∃ μ, Dist.marginals algo p lengths = .ok μ ∧ ∀ b < p.d0, ∀ i j (a : Fin p.d3),
      μ [b, i, j, (a : ℕ)] = spanProb (row p b) (len p lengths b) i j a := by
  obtain ⟨μ, h1, h2⟩ := (batchDP p lengths h).marginals_exact
  refine ⟨μ, h1, fun b hb i j a => ?_⟩
  rw [h2 b hb _ rfl, Gibbs.expect, spanProb]
  refine sum_congr rfl fun t _ => ?_
  rw [count_parts, realScore_eq]
  split_ifs
  · rw [Nat.cast_one, mul_one]; rfl
  · rw [Nat.cast_zero, mul_zero]

/-- The whole sentence is always a span, with exactly one label. -/
theorem root_mem {NT : ℕ} : ∀ (t : LTree NT) (i : ℕ), ∃ a, (i, i + t.size - 1, a) ∈ t.spans i
  | .leaf a, i => ⟨a, by simp [LTree.spans, LTree.size]⟩
  | .node a l r, i => ⟨a, by simp [LTree.spans, LTree.size, add_assoc]⟩

theorem label_unique {NT : ℕ} {t : LTree NT} {i i' j' : ℕ} {a a' : Fin NT} (h : (i', j', a) ∈ t.spans i) (h' : (i', j', a') ∈ t.spans i) : a = a' := by
  have := List.inj_on_of_nodup_map (spans_pos_nodup t i) h h' rfl
  simpa using this

/-- A position that is a span of every tree has total marginal 1. -/
theorem spanProb_sum {NT : ℕ} (hNT : 1 ≤ NT) (φ : ℕ → ℕ → ℕ → ℝ) (L i j : ℕ) (hL : 1 ≤ L)
    (hall : ∀ t : Trees NT L, ∃ a, (i, j, a) ∈ t.1.spans 0) : ∑ a : Fin NT, spanProb φ L i j a = 1 := by
  have := nonempty_trees hNT hL
  simp only [spanProb]
  rw [sum_comm, ← Gibbs.sum_prob (treeScore φ : Trees NT L → ℝ)]
  refine sum_congr rfl fun t _ => ?_
  obtain ⟨a, ha⟩ := hall t
  rw [sum_eq_single a]
  · exact if_pos ha
  · intro a' _ hne
    exact if_neg fun hc => hne (label_unique hc ha)
  · simp

/-- **C46.** The labels of the whole sentence have total marginal 1. -/
theorem root_marginal {NT : ℕ} (hNT : 1 ≤ NT) (φ : ℕ → ℕ → ℕ → ℝ) (L : ℕ) (hL : 1 ≤ L) : ∑ a : Fin NT, spanProb φ L 0 (L - 1) a = 1 := by
  refine spanProb_sum hNT φ L 0 (L - 1) hL fun t => ?_
  have := root_mem t.1 0
  simpa [t.2] using this

theorem word_mem {NT : ℕ} : ∀ (t : LTree NT) (i k : ℕ), k < t.size → ∃ a, (i + k, i + k, a) ∈ t.spans i
  | .leaf a, i, k, hk => by
    simp only [LTree.size] at hk
    obtain rfl : k = 0 := by omega
    exact ⟨a, by simp [LTree.spans]⟩
  | .node a l r, i, k, hk => by
    simp only [LTree.size] at hk
    by_cases h : k < l.size
    · obtain ⟨b, hb⟩ := word_mem l i k h
      exact ⟨b, by simp [LTree.spans, hb]⟩
    · obtain ⟨b, hb⟩ := word_mem r (i + l.size) (k - l.size) (by omega)
      have e : i + l.size + (k - l.size) = i + k := by omega
      rw [e] at hb
      exact ⟨b, by simp [LTree.spans, hb]⟩

/-- **C46.** The labels of every word have total marginal 1. -/
theorem word_marginal {NT : ℕ} (hNT : 1 ≤ NT) (φ : ℕ → ℕ → ℕ → ℝ) (L k : ℕ) (hk : k < L) : ∑ a : Fin NT, spanProb φ L k k a = 1 := by
  refine spanProb_sum hNT φ L k k (by omega) fun t => ?_
  have := word_mem t.1 0 k (by rw [t.2]; exact hk)
  simpa using this

/-- **C46.** Spans that reach past the row's length, or end before they start, have marginal 0. -/
theorem outside_marginal {NT : ℕ} (φ : ℕ → ℕ → ℕ → ℝ) (L i j : ℕ) (a : Fin NT) (h : L ≤ j ∨ j < i) : spanProb φ L i j a = 0 := by
  refine sum_eq_zero fun t _ => if_neg fun hc => ?_
  have := spans_mem t.1 0 _ hc
  rw [t.2] at this
  simp only at this
  omega

/-- **C48.** `entropy` is exactly the Shannon entropy of the distribution over trees. -/
theorem entropy_spec (p : T4 ℝ) (lengths : Option (List ℕ)) (h : Valid p lengths) : Dist.entropy algo p lengths =
    .ok ((List.range p.d0).map fun b => Gibbs.entropy (treeScore (row p b) : Trees p.d3 (len p lengths b) → ℝ)) := by
  have := (batchDP p lengths h).entropy_exact
  simp only [realScore_eq] at this
  exact this

/-- The two tables as one table of pairs. -/
def pairT (p q : T4 ℝ) : T4 (ℝ × ℝ) := ⟨p.d0, p.d1, p.d2, p.d3, fun a b c d => (p.get a b c d, q.get a b c d)⟩

/-- Two tables of the same shape. -/
structure SameShape (p q : T4 ℝ) : Prop where
  d0 : p.d0 = q.d0
  d1 : p.d1 = q.d1
  d2 : p.d2 = q.d2
  d3 : p.d3 = q.d3

/-- **C48.** `cross_entropy(other)` is exactly `-Σ p log q` over the trees. -/
theorem crossEntropy_spec (p q : T4 ℝ) (lengths : Option (List ℕ)) (h : Valid p lengths) (hs : SameShape p q) :
    crossEntropy p q lengths = .ok ((List.range p.d0).map fun b =>
      Gibbs.crossEntropy (treeScore (row p b) : Trees p.d3 (len p lengths b) → ℝ) (treeScore (row q b))) := by
  have := (batchDP (pairT p q) lengths ⟨h.square, h.words, h.labels, h.lens⟩).ce_exact
  have e : ∀ b, (realScore (treeParts b : Trees p.d3 (len p lengths b) → _) fun e => (at4 (pairT p q) e).1) = treeScore (row p b) :=
    fun b => realScore_eq p b
  have e' : ∀ b, (realScore (treeParts b : Trees p.d3 (len p lengths b) → _) fun e => (at4 (pairT p q) e).2) = treeScore (row q b) :=
    fun b => realScore_eq q b
  simp only [crossEntropy, LinearChain.pairPotentials]
  rw [if_pos ⟨hs.d0, hs.d1, hs.d2, hs.d3⟩]
  refine Eq.trans this ?_
  congr 1
  refine List.map_congr_left fun b _ => ?_
  exact congrArg₂ (Gibbs.crossEntropy (ι := Trees p.d3 (len p lengths b))) (e b) (e' b)

/-- **C48.** `kl(other)` is exactly the Kullback-Leibler divergence over the trees. -/
theorem kl_spec (p q : T4 ℝ) (lengths : Option (List ℕ)) (h : Valid p lengths) (hs : SameShape p q) :
    kl p q lengths = .ok ((List.range p.d0).map fun b =>
      Gibbs.kl (treeScore (row p b) : Trees p.d3 (len p lengths b) → ℝ) (treeScore (row q b))) := by
  have := (batchDP (pairT p q) lengths ⟨h.square, h.words, h.labels, h.lens⟩).kl_exact
  have e : ∀ b, (realScore (treeParts b : Trees p.d3 (len p lengths b) → _) fun e => (at4 (pairT p q) e).1) = treeScore (row p b) :=
    fun b => realScore_eq p b
  have e' : ∀ b, (realScore (treeParts b : Trees p.d3 (len p lengths b) → _) fun e => (at4 (pairT p q) e).2) = treeScore (row q b) :=
    fun b => realScore_eq q b
  simp only [kl, LinearChain.pairPotentials]
  rw [if_pos ⟨hs.d0, hs.d1, hs.d2, hs.d3⟩]
  refine Eq.trans this ?_
  congr 1
  refine List.map_congr_left fun b _ => ?_
  exact congrArg₂ (Gibbs.kl (ι := Trees p.d3 (len p lengths b))) (e b) (e' b)

/-- The potentials are so small that no tree's score comes near the stand-in `-1e5`, which fills unused slots of `kmax`. -/
structure SmallPotentials (p : T4 ℝ) (lengths : Option (List ℕ)) (M : ℝ) : Prop where
  nonneg : 0 ≤ M
  bound : ∀ b < p.d0, ∀ i j a, i ≤ j → j < len p lengths b → a < p.d3 → |p.get b i j a| ≤ M
  small : 2 * (2 * p.d1 - 1 : ℕ) * M < 100000

theorem small (h : Valid p lengths) {M : ℝ} (hM : SmallPotentials p lengths M) (b : ℕ) (hb : b < p.d0) :
    BatchDP.Small (at4 p) (Entry p.d1 p.d3 lengths b) (treeParts b : Trees p.d3 (len p lengths b) → _) (fun y : Empty => y.elim) (2 * p.d1 - 1) M where
  nonneg := hM.nonneg
  bound := by rintro e ⟨i, j, a, rfl, h1, h2, h3⟩; exact hM.bound b hb i j a h1 h2 h3
  size t := by
    rw [treeParts_card]
    have := (len_in h.words h.lens b hb).2
    simp only [len]; omega
  sizeA y := y.elim
  small := hM.small
  below := by
    have h1 := hM.small
    have h2 : (1 : ℝ) ≤ (2 * p.d1 - 1 : ℕ) := by exact_mod_cast (show 1 ≤ 2 * p.d1 - 1 by have := h.words; omega)
    have h3 := hM.nonneg
    nlinarith

/-- **C48.** `kmax(k)` returns the scores of the `k` best trees of every row, in decreasing order. -/
theorem kmax_spec (p : T4 ℝ) (lengths : Option (List ℕ)) (h : Valid p lengths) {M : ℝ} (hM : SmallPotentials p lengths M) {k : ℕ} (hk : 0 < k)
    (hc : ∀ b < p.d0, k ≤ Fintype.card (Trees p.d3 (len p lengths b))) :
    ∃ vs, Dist.kmax algo p lengths k = .ok vs ∧ vs.length = p.d0 ∧ ∀ b (hb : b < vs.length), ∃ ts : List (Trees p.d3 (len p lengths b)),
      IsKBest (treeScore (row p b)) k ts ∧ vs[b] = ts.map (treeScore (row p b)) := by
  have := (batchDP p lengths h).kmax_eq (fun b hb => small h hM b hb) hk hc
  simp only [realScore_eq] at this
  exact this

/-- **C48.** `topk(k)` returns the indicators of the `k` best trees. -/
theorem topk_spec (p : T4 ℝ) (lengths : Option (List ℕ)) (h : Valid p lengths) {M : ℝ} (hM : SmallPotentials p lengths M) {k : ℕ} (hk : 0 < k)
    (hc : ∀ b < p.d0, k ≤ Fintype.card (Trees p.d3 (len p lengths b)))
    {sel : List (Autograd.Grad (List ℕ)) → List (Autograd.Grad (List ℕ))} (hsel : Autograd.IsTopk Prod.fst k sel) :
    ∃ μ : ℕ → List ℕ → ℝ, (∀ s < k, Dist.topk algo p lengths k sel s = .ok (μ s)) ∧
      ∀ b < p.d0, ∃ ts : List (Trees p.d3 (len p lengths b)), IsKBest (treeScore (row p b)) k ts ∧
        ∀ s (hs : s < ts.length), ∀ i j (a : Fin p.d3), μ s [b, i, j, (a : ℕ)] = if (i, j, a) ∈ ts[s].1.spans 0 then 1 else 0 := by
  obtain ⟨vs, μ, -, h2, h3, h4⟩ := (batchDP p lengths h).topk_eq (fun b hb => small h hM b hb) hk hc hsel
  refine ⟨μ, h3, fun b hb => ?_⟩
  obtain ⟨ts, a1, -, a3⟩ := h4 b (by omega)
  rw [realScore_eq] at a1
  refine ⟨ts, a1, fun s hs i j a => ?_⟩
  rw [a3 s hs _ rfl, count_parts]
  push_cast; rfl

/-- The hypotheses of `kmax_spec` and `topk_spec` are met by `sample` with `k = 3`. -/
example : SmallPotentials sample (some [3, 2]) 10 ∧ ∀ b < sample.d0, 3 ≤ Fintype.card (Trees sample.d3 (len sample (some [3, 2]) b)) := by
  constructor
  · refine ⟨by norm_num, ?_, by norm_num [sample]⟩
    intro b hb i j a hij hj ha
    have hb : b < 2 := hb
    have hj : j < len sample (some [3, 2]) b := hj
    have ha : a < 2 := ha
    have hj' : j < 3 := by
      interval_cases b <;> simp [len, lenOf] at hj <;> omega
    have hi' : i < 3 := by omega
    interval_cases b <;> interval_cases i <;> interval_cases j <;> interval_cases a <;> norm_num [sample, abs_le]
  · intro b hb
    have hb : b < 2 := hb
    interval_cases b
    · exact (card_trees 2 2).symm ▸ by norm_num [catalan_two]
    · exact (card_trees 2 1).symm ▸ by norm_num [catalan_one]

/-! ### `log_prob` -/

/-- The event of a tree, one row. -/
def event {NT L : ℕ} (t : Trees NT L) (i j a : ℕ) : ℝ := if (i, j, a) ∈ (t.1.spans 0).map fun s => (s.1, s.2.1, (s.2.2 : ℕ)) then 1 else 0

theorem event_apply {NT L : ℕ} (t : Trees NT L) (i j : ℕ) (a : Fin NT) : event t i j a = if (i, j, a) ∈ t.1.spans 0 then 1 else 0 := by
  unfold event
  congr 1
  rw [List.mem_map, eq_iff_iff]
  constructor
  · rintro ⟨⟨i', j', a'⟩, hs, he⟩
    simp only [Prod.mk.injEq] at he
    obtain ⟨rfl, rfl, h⟩ := he
    rwa [← Fin.ext h]
  · intro h; exact ⟨_, h, rfl⟩

/-- **C08 for `TreeCRF`.** `log_prob` of the event of a tree is the log of the tree's probability. -/
theorem logProb_spec (p : T4 ℝ) (lengths : Option (List ℕ)) (h : Valid p lengths) (b : ℕ) (hb : b < p.d0) (t : Trees p.d3 (len p lengths b)) :
    logProb p lengths b (event t) = .ok (Real.log (Gibbs.prob (treeScore (row p b)) t)) := by
  have hl := len_in h.words h.lens b hb
  have hne : Nonempty (Trees p.d3 (len p lengths b)) := nonempty_trees h.labels hl.1
  simp only [logProb]
  rw [partition_spec p lengths h]
  change Except.ok _ = _
  congr 1
  rw [List.getD_eq_getElem _ _ (by simpa using hb), List.getElem_map, List.getElem_range, Gibbs.log_prob (ι := Trees p.d3 (len p lengths b))]
  congr 1
  rw [Struct.score, zipWith_map]
  have hmem : ∀ x : ℕ × ℕ × ℕ, x ∈ ((List.range p.d1).flatMap fun i => (List.range p.d2).flatMap fun j =>
      (List.range p.d3).map fun a => (i, j, a)) ↔ x.1 < p.d1 ∧ x.2.1 < p.d2 ∧ x.2.2 < p.d3 := by
    rintro ⟨i, j, a⟩
    simp only [List.mem_flatMap, List.mem_map, List.mem_range, Prod.mk.injEq]
    constructor
    · rintro ⟨i', hi, j', hj, a', ha, rfl, rfl, rfl⟩; exact ⟨hi, hj, ha⟩
    · rintro ⟨hi, hj, ha⟩; exact ⟨i, hi, j, hj, a, ha, rfl, rfl, rfl⟩
  refine (sum_indicator _ ((t.1.spans 0).map fun s => (s.1, s.2.1, (s.2.2 : ℕ))) ?_ ?_ ?_ (fun x : ℕ × ℕ × ℕ => p.get b x.1 x.2.1 x.2.2)
    _ (fun x hx => if_pos hx) fun x hx => if_neg hx).trans ?_
  · refine flatMap_nodup _ _ List.nodup_range (fun i _ => ?_) ?_
    · refine flatMap_nodup _ _ List.nodup_range (fun j _ => ?_) ?_
      · exact List.Nodup.map (fun a a' h => by simpa using h) List.nodup_range
      · rintro j - j' - hne y hy hy'
        simp only [List.mem_map] at hy hy'
        obtain ⟨a, -, rfl⟩ := hy
        obtain ⟨a', -, he⟩ := hy'
        exact hne (by simp at he; exact he.1.symm)
    · rintro i - i' - hne y hy hy'
      simp only [List.mem_flatMap, List.mem_map] at hy hy'
      obtain ⟨j, -, a, -, rfl⟩ := hy
      obtain ⟨j', -, a', -, he⟩ := hy'
      exact hne (by simp at he; exact he.1.symm)
  · refine List.Nodup.map ?_ (spans_nodup t.1 0)
    rintro ⟨i, j, a⟩ ⟨i', j', a'⟩ h
    simp only [Prod.mk.injEq] at h
    obtain ⟨rfl, rfl, h⟩ := h
    rw [Fin.ext h]
  · intro x hx
    rw [List.mem_map] at hx
    obtain ⟨s, hs, rfl⟩ := hx
    rw [hmem]
    have h1 := spans_mem t.1 0 s hs
    rw [t.2] at h1
    have h2 : len p lengths b ≤ p.d1 := hl.2
    have h3 := h.square
    exact ⟨by simp only; omega, by simp only; omega, s.2.2.2⟩
  · rw [List.map_map]; rfl

/-- **C08 for `TreeCRF`.** The probabilities given by `log_prob` to the trees of a row add up to exactly 1. -/
theorem logProb_normalised (p : T4 ℝ) (lengths : Option (List ℕ)) (h : Valid p lengths) (b : ℕ) (hb : b < p.d0) :
    ∃ lp : Trees p.d3 (len p lengths b) → ℝ, (∀ t, logProb p lengths b (event t) = .ok (lp t)) ∧ ∑ t, Real.exp (lp t) = 1 := by
  have hl := len_in h.words h.lens b hb
  have hne : Nonempty (Trees p.d3 (len p lengths b)) := nonempty_trees h.labels hl.1
  refine ⟨_, logProb_spec p lengths h b hb, ?_⟩
  rw [← Gibbs.sum_prob (treeScore (row p b) : Trees p.d3 (len p lengths b) → ℝ)]
  exact sum_congr rfl fun t _ => Real.exp_log (Gibbs.prob_pos _ _)

/-! ### Events determine trees -/

theorem first_spans {NT : ℕ} (a : Fin NT) (l r : LTree NT) (i j : ℕ) (b : Fin NT) (h : (i, j, b) ∈ (LTree.node a l r).spans i)
    (hj : j < i + l.size + r.size - 1) : j ≤ i + l.size - 1 := by
  have h1 := l.size_pos
  simp only [LTree.spans, List.mem_cons, List.mem_append] at h
  rcases h with h | h | h
  · simp only [Prod.mk.injEq] at h; omega
  · have := spans_mem l i _ h; simp only at this; omega
  · have := spans_mem r _ _ h; simp only at this; omega

theorem left_size_le {NT : ℕ} {a a' : Fin NT} {l r l' r' : LTree NT} {i : ℕ} (hs : l.size + r.size = l'.size + r'.size)
    (h : ∀ s, s ∈ (LTree.node a l r).spans i → s ∈ (LTree.node a' l' r').spans i) : l.size ≤ l'.size := by
  have h1 := l.size_pos
  have h2 := r.size_pos
  have h3 := l'.size_pos
  obtain ⟨b, hb⟩ := root_mem l i
  have := first_spans a' l' r' i (i + l.size - 1) b (h _ (by simp [LTree.spans, hb])) (by omega)
  omega

/-- Trees of the same size with the same labelled spans are equal. -/
theorem eq_of_spans {NT : ℕ} : ∀ (t t' : LTree NT) (i : ℕ), t.size = t'.size → (∀ s, s ∈ t.spans i ↔ s ∈ t'.spans i) → t = t'
  | .leaf a, .leaf a', i, _, h => by
    have := (h (i, i, a)).1 (by simp [LTree.spans])
    simp only [LTree.spans, List.mem_singleton, Prod.mk.injEq, true_and] at this
    rw [this]
  | .leaf a, .node a' l r, i, hs, _ => by
    have := l.size_pos; have := r.size_pos
    simp only [LTree.size] at hs; omega
  | .node a l r, .leaf a', i, hs, _ => by
    have := l.size_pos; have := r.size_pos
    simp only [LTree.size] at hs; omega
  | .node a l r, .node a' l' r', i, hs, h => by
    have h1 := l.size_pos
    have h2 := r.size_pos
    have h3 := l'.size_pos
    have h4 := r'.size_pos
    simp only [LTree.size] at hs
    have hl : l.size = l'.size := le_antisymm (left_size_le hs fun s => (h s).1) (left_size_le hs.symm fun s => (h s).2)
    have hr : r.size = r'.size := by omega
    have ha : a = a' := by
      have := (h (i, i + l.size + r.size - 1, a)).1 (by simp [LTree.spans])
      have h5 : (i, i + l.size + r.size - 1, a') ∈ (LTree.node a' l' r').spans i := by simp [LTree.spans, hl, hr]
      exact label_unique this h5
    have key : ∀ s : ℕ × ℕ × Fin NT, (s ∈ l.spans i ↔ s ∈ l'.spans i) ∧ (s ∈ r.spans (i + l.size) ↔ s ∈ r'.spans (i + l.size)) := by
      intro s
      have hh := h s
      simp only [LTree.spans, List.mem_cons, List.mem_append, ← hl, ← hr, ha] at hh
      have e1 : s ∈ l.spans i → s.2.1 < i + l.size := fun hm => (spans_mem l i s hm).2.2
      have e2 : s ∈ l'.spans i → s.2.1 < i + l.size := fun hm => hl ▸ (spans_mem l' i s hm).2.2
      have e3 : s ∈ r.spans (i + l.size) → i + l.size ≤ s.2.1 ∧ i + l.size ≤ s.1 := fun hm => by have := spans_mem r _ s hm; omega
      have e4 : s ∈ r'.spans (i + l.size) → i + l.size ≤ s.2.1 ∧ i + l.size ≤ s.1 := fun hm => by have := spans_mem r' _ s hm; omega
      have e5 : s = (i, i + l.size + r.size - 1, a') → s.1 = i ∧ i + l.size ≤ s.2.1 := by rintro rfl; exact ⟨rfl, by simp only; omega⟩
      constructor
      · constructor
        · intro hm
          rcases hh.1 (Or.inr (Or.inl hm)) with h6 | h6 | h6
          · have := e1 hm; have := e5 h6; omega
          · exact h6
          · have := e1 hm; have := e4 h6; omega
        · intro hm
          rcases hh.2 (Or.inr (Or.inl hm)) with h6 | h6 | h6
          · have := e2 hm; have := e5 h6; omega
          · exact h6
          · have := e2 hm; have := e3 h6; omega
      · constructor
        · intro hm
          rcases hh.1 (Or.inr (Or.inr hm)) with h6 | h6 | h6
          · have := e3 hm; have := e5 h6; omega
          · have := e3 hm; have := e2 h6; omega
          · exact h6
        · intro hm
          rcases hh.2 (Or.inr (Or.inr hm)) with h6 | h6 | h6
          · have := e4 hm; have := e5 h6; omega
          · have := e4 hm; have := e1 h6; omega
          · exact h6
    rw [ha, eq_of_spans l l' i hl fun s => (key s).1, eq_of_spans r r' (i + l.size) hr fun s => (key s).2]

/-! ### Sampling -/

open Classical in
/-- The batch of events of a batch of trees. -/
def batchEvent {B NT : ℕ} {L : Fin B → ℕ} (Y : ∀ b, Trees NT (L b)) (id : List ℕ) : ℕ :=
  if ∃ (b : Fin B) (i j : ℕ) (a : Fin NT), id = [(b : ℕ), i, j, (a : ℕ)] ∧ (i, j, a) ∈ (Y b).1.spans 0 then 1 else 0

theorem sum_event {B NT : ℕ} {L : Fin B → ℕ} (Y : ∀ b, Trees NT (L b)) (id : List ℕ) :
    ∑ b : Fin B, (treeParts b (Y b)).count id = batchEvent Y id := by
  classical
  rw [batchEvent]
  split_ifs with h
  · obtain ⟨b, i, j, a, rfl, hm⟩ := h
    rw [sum_eq_single b]
    · rw [count_parts, if_pos hm]
    · intro b' _ hne
      refine Multiset.count_eq_zero_of_notMem fun hc => hne ?_
      rw [treeParts, Multiset.mem_coe, List.mem_map] at hc
      obtain ⟨s, -, he⟩ := hc
      simp only [List.cons.injEq] at he
      exact Fin.ext he.1
    · simp
  · refine sum_eq_zero fun b _ => Multiset.count_eq_zero_of_notMem fun hc => h ?_
    rw [treeParts, Multiset.mem_coe, List.mem_map] at hc
    obtain ⟨s, hs, rfl⟩ := hc
    exact ⟨b, s.1, s.2.1, s.2.2, rfl, hs⟩

/-- Distinct trees have distinct events. -/
theorem batchEvent_injective {B NT : ℕ} {L : Fin B → ℕ} : Function.Injective (batchEvent : (∀ b : Fin B, Trees NT (L b)) → List ℕ → ℕ) := by
  classical
  intro Y Y' h
  funext b
  refine Subtype.ext (eq_of_spans _ _ 0 ((Y b).2.trans (Y' b).2.symm) ?_)
  have key : ∀ (Z : ∀ b : Fin B, Trees NT (L b)) (s : ℕ × ℕ × Fin NT),
      batchEvent Z [(b : ℕ), s.1, s.2.1, (s.2.2 : ℕ)] = 1 ↔ s ∈ (Z b).1.spans 0 := by
    rintro Z ⟨i, j, a⟩
    rw [batchEvent]
    constructor
    · intro hh
      by_contra hc
      rw [if_neg] at hh
      · exact zero_ne_one hh
      · rintro ⟨b', i', j', a', he, hm⟩
        simp only [List.cons.injEq, and_true] at he
        obtain ⟨hb, rfl, rfl, ha⟩ := he
        obtain rfl := Fin.ext hb
        obtain rfl := Fin.ext ha
        exact hc hm
    · intro hm
      exact if_pos ⟨b, i, j, a, rfl, hm⟩
  intro s
  rw [← key Y s, ← key Y' s, h]

theorem trees_nonempty (p : T4 ℝ) (lengths : Option (List ℕ)) (h : Valid p lengths) (b : ℕ) (hb : b < p.d0) : Nonempty (Trees p.d3 (len p lengths b)) :=
  nonempty_trees h.labels (len_in h.words h.lens b hb).1

/-- **C12 for `TreeCRF`.** One backward pass of `SampledSemiring` draws, for every row independently, a tree from the row's distribution, and returns
exactly the tree's event. -/
theorem sampled_law (z : ℝ) (p : T4 ℝ) (lengths : Option (List ℕ)) (h : Valid p lengths) :
    ∃ es, Sampling.record algo z p lengths = .ok es ∧ es.length = p.d0 ∧
      SamplesFrom es (fun Y : ∀ b : Fin p.d0, Trees p.d3 (len p lengths b) => ∏ b : Fin p.d0, Gibbs.prob (treeScore (row p b)) (Y b)) batchEvent 0 := by
  have := (batchDP p lengths h).sampled_exact (trees_nonempty p lengths h) (fun b _ t => treeParts_nodup b t) z batchEvent sum_event
  simp only [realScore_eq] at this
  exact this

/-- **C12, C50 for `TreeCRF`.** `sample((n,))` returns `n` independent batches of events of trees drawn from the distribution. -/
theorem sample_law (p : T4 ℝ) (lengths : Option (List ℕ)) (h : Valid p lengths) :
    ∃ es, Sampling.record algo (-100000) p lengths = .ok es ∧ es.length = p.d0 ∧
      MultiSamplesFrom es (fun Y : ∀ b : Fin p.d0, Trees p.d3 (len p lengths b) => ∏ b : Fin p.d0, Gibbs.prob (treeScore (row p b)) (Y b)) batchEvent 0 := by
  have := (batchDP p lengths h).sample_exact (trees_nonempty p lengths h) (fun b _ t => treeParts_nodup b t) (-100000) batchEvent sum_event
  simp only [realScore_eq] at this
  exact this

/-- The hypotheses of `SamplesFrom` and `MultiSamplesFrom` can be met. -/
example : ∃ es, Sampling.record algo (-100000) sample (some [3, 2]) = .ok es ∧ es.length = 2 ∧ ∃ (K : Type) (_ : Fintype K) (_ : DecidableEq K)
    (T : ℕ → Sampling.Tape K) (obj : ℕ → K) (Ω : Type) (_ : MeasurableSpace Ω) (P : MeasureTheory.Measure Ω)
    (_ : MeasureTheory.IsProbabilityMeasure P) (X : ℕ → ℕ → K → Ω → ℕ) (G G' : ℕ → Ω → K → ℕ),
    (∀ r, Sampling.Repr (T r) (Sampling.batchSum es) (obj r)) ∧ MultiDraws T P X ∧
    (∀ r ω, Sampling.IsBackward (Sampling.sendMulti (T r) fun j k => X r j k ω) (obj r) (G r ω)) ∧
    (∀ j ω, Sampling.IsBackward (Sampling.sendOne (T 0) fun k => X 0 j k ω) (obj 0) (G' j ω)) := by
  obtain ⟨es, h1, h2, -⟩ := sample_law sample (some [3, 2]) sample_valid
  exact ⟨es, h1, h2, Sampling.passes_exist _⟩

end Props.TreeCRF
