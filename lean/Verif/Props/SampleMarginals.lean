import Mathlib.Algebra.BigOperators.Ring.Finset
import Verif.Props.TreeCRF
import Verif.Props.SemiMarkov
import Verif.Props.Dependency
import Verif.Props.LabelledDependency
import Verif.Props.LinearChainSample
import Verif.Props.LinearChainMarginals

/-! Property theorems that connect `sample` and `marginals`: C78. Every entry of a sampled event is 1 with the probability that `marginals`
reports for it, so averages of samples are unbiased estimates of the marginals. -/

open Finset Spec Generic

noncomputable section
namespace Props.SampleMarginals

open Classical in
/-- The probability of an event about one coordinate of independent coordinates. -/
theorem sum_coordinate {B : ℕ} {ι : Fin B → Type} [∀ b, Fintype (ι b)] (q : ∀ b, ι b → ℝ) (hq : ∀ b, ∑ y, q b y = 1) (b : Fin B) (E : ι b → Prop) :
    (∑ Y : ∀ b, ι b, if E (Y b) then ∏ b, q b (Y b) else 0) = ∑ y, if E y then q b y else 0 := by
  have h1 : ∀ Y : ∀ b, ι b, (if E (Y b) then ∏ b, q b (Y b) else 0) =
      ∏ c, Function.update q b (fun y => if E y then q b y else 0) c (Y c) := by
    intro Y
    by_cases h : E (Y b)
    · rw [if_pos h]
      refine prod_congr rfl fun c _ => ?_
      by_cases hc : c = b
      · subst hc; simp [h]
      · simp [Function.update_of_ne hc]
    · rw [if_neg h, prod_eq_zero (mem_univ b)]
      simp [h]
  simp only [h1]
  rw [← Fintype.piFinset_univ, ← prod_univ_sum (fun _ => univ) fun c y => Function.update q b (fun y => if E y then q b y else 0) c y]
  rw [prod_eq_single b]
  · simp
  · intro c _ hc
    simp [Function.update_of_ne hc, hq]
  · intro h; exact absurd (mem_univ b) h

theorem frequencies {B : ℕ} {ι : Fin B → Type} [∀ b, Fintype (ι b)] {es : List Sampling.Expr} (q : ∀ b, ι b → ℝ) (hq : ∀ b, ∑ y, q b y = 1)
    {event : (∀ b, ι b) → List ℕ → ℕ} {ε ε' : ℝ} (h : MultiSamplesFrom es (fun Y => ∏ b, q b (Y b)) event ε) (ids : Set (List ℕ)) (μ : List ℕ → ℝ)
    (hid : ∀ id ∈ ids, ∃ (b : Fin B) (E : ι b → Prop), (∀ Y, event Y id = 1 ↔ E (Y b)) ∧ |(open Classical in ∑ y, if E y then q b y else 0) - μ id| ≤ ε') :
    SampleFrequencies es ids μ (ε + ε') := by
  classical
  intro K _ _ T obj hT Ω _ P _ X hX G hG n hn
  obtain ⟨smp, h1, h2, -, h4⟩ := h K T obj hT Ω P X hX G hG n hn
  refine ⟨smp, h1, h2, fun s hs id hi => ?_⟩
  obtain ⟨b, E, hE, hμ⟩ := hid id hi
  have k := h4 s hs {e | e id = 1}
  have k : |P.real {ω | (smp ω).getD s 0 ∈ {e : List ℕ → ℕ | e id = 1}} - ∑ y, if E y then q b y else 0| ≤ ε := by
    refine le_trans (le_of_eq ?_) k
    congr 2
    rw [← sum_coordinate q hq b E]
    refine sum_congr rfl fun Y _ => ?_
    by_cases hY : E (Y b)
    · rw [if_pos hY, if_pos (show event Y ∈ {e : List ℕ → ℕ | e id = 1} from (hE Y).2 hY)]
    · rw [if_neg hY, if_neg (show ¬ event Y ∈ {e : List ℕ → ℕ | e id = 1} from fun hc => hY ((hE Y).1 hc))]
  have hset : {ω | (smp ω).getD s 0 ∈ {e : List ℕ → ℕ | e id = 1}} = {ω | (smp ω).getD s 0 id = 1} := rfl
  rw [hset] at k
  calc |P.real {ω | (smp ω).getD s 0 id = 1} - μ id|
      ≤ |P.real {ω | (smp ω).getD s 0 id = 1} - ∑ y, if E y then q b y else 0| + |(∑ y, if E y then q b y else 0) - μ id| := abs_sub_le _ _ _
    _ ≤ ε + ε' := add_le_add k hμ

theorem ite_one {P : Prop} [Decidable P] : (if P then 1 else 0) = 1 ↔ P := by split_ifs with h <;> simp [h]

open Props.TreeCRF CKYCRF in
/-- **C78 for `TreeCRF`.** In every sample, a labelled span occurs with exactly the probability that `marginals` reports. -/
theorem tree_frequencies (p : T4 ℝ) (lengths : Option (List ℕ)) (h : Props.TreeCRF.Valid p lengths) :
    ∃ es μ, Sampling.record CKYCRF.algo (-100000) p lengths = .ok es ∧ Dist.marginals CKYCRF.algo p lengths = .ok μ ∧
      SampleFrequencies es {id | ∃ b < p.d0, ∃ i j, ∃ a < p.d3, id = [b, i, j, a]} μ 0 := by
  classical
  obtain ⟨es, h1, -, h2⟩ := Props.TreeCRF.sample_law p lengths h
  obtain ⟨μ, h3, h4⟩ := Props.TreeCRF.marginals_spec p lengths h
  have hn := trees_nonempty p lengths h
  refine ⟨es, μ, h1, h3, ?_⟩
  rw [show (0 : ℝ) = 0 + 0 from (add_zero 0).symm]
  refine frequencies (fun b => Gibbs.prob (treeScore (row p b))) (fun b => by have := hn b b.2; exact Gibbs.sum_prob _) h2 _ _ ?_
  rintro id ⟨b, hb, i, j, a, ha, rfl⟩
  refine ⟨⟨b, hb⟩, fun t => (i, j, (⟨a, ha⟩ : Fin p.d3)) ∈ t.1.spans 0, fun Y => ?_, ?_⟩
  · unfold Props.TreeCRF.batchEvent
    refine ite_one.trans ?_
    constructor
    · rintro ⟨b', i', j', a', he, hm⟩
      simp only [List.cons.injEq, and_true] at he
      obtain ⟨e1, rfl, rfl, e2⟩ := he
      obtain rfl : b' = ⟨b, hb⟩ := Fin.ext e1.symm
      obtain rfl : a' = ⟨a, ha⟩ := Fin.ext e2.symm
      exact hm
    · intro hm; exact ⟨⟨b, hb⟩, i, j, ⟨a, ha⟩, rfl, hm⟩
  · rw [h4 b hb i j ⟨a, ha⟩, spanProb, abs_le]
    have : ∀ x y : ℝ, x = y → -(0 : ℝ) ≤ x - y ∧ x - y ≤ 0 := by rintro x _ rfl; simp
    refine this _ _ (sum_congr rfl fun t _ => ?_)
    split_ifs <;> rfl

open Props.Dependency DepTree in
/-- **C78 for `DependencyCRF` without labels**, in both root modes: exact. -/
theorem dependency_frequencies (mr : Bool) (q : Arcs ℝ) (lengths : Option (List ℕ)) (h : Props.Dependency.Valid mr q lengths) :
    ∃ es μ, (convert negBig q).bind (fun p => Sampling.record (algo mr) (-100000) p lengths) = .ok es ∧ marginals mr q lengths = .ok μ ∧
      SampleFrequencies es {id | ∃ b < q.d0, ∃ i j, id = [b, i, j]} μ 0 := by
  classical
  obtain ⟨es, h1, -, h2⟩ := Props.Dependency.sample_law mr q lengths h
  obtain ⟨μ, h3, h4⟩ := Props.Dependency.marginals_spec mr q lengths h
  have hn := Props.Dependency.trees_nonempty h
  refine ⟨es, μ, h1, h3, ?_⟩
  rw [show (0 : ℝ) = 0 + 0 from (add_zero 0).symm]
  refine frequencies (fun b => Gibbs.prob (fun t : ProjTrees mr (len q lengths b) => depScore (row q b) t.1))
    (fun b => by have := hn b b.2; exact Gibbs.sum_prob _) h2 _ _ ?_
  rintro id ⟨b, hb, i, j, rfl⟩
  refine ⟨⟨b, hb⟩, fun t => HasArc t.1 i j, fun Y => ?_, ?_⟩
  · unfold Props.Dependency.batchEvent
    refine ite_one.trans ?_
    constructor
    · rintro ⟨b', i', j', he, hm⟩
      simp only [List.cons.injEq, and_true] at he
      obtain ⟨e1, rfl, rfl⟩ := he
      obtain rfl : b' = ⟨b, hb⟩ := Fin.ext e1.symm
      exact hm
    · intro hm; exact ⟨⟨b, hb⟩, i, j, rfl, hm⟩
  · rw [h4 b hb i j, arcProb]
    refine (le_of_eq (abs_eq_zero.2 (sub_eq_zero.2 (sum_congr rfl fun t _ => ?_))))
    split_ifs <;> rfl

open Props.LabelledDependency DepTree in
/-- **C78 for `DependencyCRF` with labels**: exact. -/
theorem labelled_frequencies (mr : Bool) (q : Arcs ℝ) (lengths : Option (List ℕ)) (h : Props.LabelledDependency.Valid mr q lengths) :
    ∃ es μ, (convert negBig q).bind (fun p => Sampling.record (algo mr) (-100000) p lengths) = .ok es ∧ marginals mr q lengths = .ok μ ∧
      SampleFrequencies es {id | ∃ b < q.d0, ∃ i j l, id = [b, i, j, l]} μ 0 := by
  classical
  obtain ⟨es, h1, -, h2⟩ := Props.LabelledDependency.sample_law mr q lengths h
  obtain ⟨μ, h3, h4⟩ := Props.LabelledDependency.marginals_spec mr q lengths h
  have hn := Props.LabelledDependency.trees_nonempty h
  refine ⟨es, μ, h1, h3, ?_⟩
  rw [show (0 : ℝ) = 0 + 0 from (add_zero 0).symm]
  refine frequencies (fun b => Gibbs.prob (labScore (row q b) : LabelledTrees mr (len q lengths b) q.d3 → ℝ))
    (fun b => by have := hn b b.2; exact Gibbs.sum_prob _) h2 _ _ ?_
  rintro id ⟨b, hb, i, j, l, rfl⟩
  refine ⟨⟨b, hb⟩, fun t => HasLabArc t i j l, fun Y => ?_, ?_⟩
  · unfold Props.LabelledDependency.batchEvent
    refine ite_one.trans ?_
    constructor
    · rintro ⟨b', i', j', l', he, hm⟩
      simp only [List.cons.injEq, and_true] at he
      obtain ⟨e1, rfl, rfl, rfl⟩ := he
      obtain rfl : b' = ⟨b, hb⟩ := Fin.ext e1.symm
      exact hm
    · intro hm; exact ⟨⟨b, hb⟩, i, j, l, rfl, hm⟩
  · rw [h4 b hb i j l, arcProb]
    refine (le_of_eq (abs_eq_zero.2 (sub_eq_zero.2 (sum_congr rfl fun t _ => ?_))))
    split_ifs <;> rfl

open Props.SemiMarkov _root_.SemiMarkov in
/-- **C78 for `SemiMarkovCRF`**, up to the error of the stand-in for `log 0`: once for every row in the law of the samples, once in the
marginals of the row; `ε` bounds the latter. -/
theorem semimarkov_frequencies (p : T5 ℝ) (lengths : Option (List ℕ)) (h : Props.SemiMarkov.Valid p lengths) {B : ℝ}
    (hB : Bounded p lengths B) (ε : ℝ) (hε : ∀ b < p.d0, Props.SemiMarkov.err p lengths B b ≤ ε) :
    ∃ es μ, Sampling.record algo (-100000) p lengths = .ok es ∧ Dist.marginals algo p lengths = .ok μ ∧
      SampleFrequencies es {id | ∃ b < p.d0, ∃ n k, ∃ c < p.d3, ∃ c' < p.d3, id = [b, n, k, c, c']} μ
        (∑ b : Fin p.d0, Props.SemiMarkov.err p lengths B b + ε) := by
  classical
  obtain ⟨es, h1, -, -, h2⟩ := Props.SemiMarkov.sample_law p lengths h hB
  obtain ⟨μ, h3, h4⟩ := Props.SemiMarkov.marginals_spec p lengths h hB
  refine ⟨es, μ, h1, h3, ?_⟩
  refine frequencies (fun b => Gibbs.prob (segScore (row p b) : Seg p lengths b → ℝ))
    (fun b => by have := seg_nonempty h b; exact Gibbs.sum_prob _) h2 _ _ ?_
  rintro id ⟨b, hb, n, k, c, hc, c', hc', rfl⟩
  refine ⟨⟨b, hb⟩, fun t => (n, k, (⟨c, hc⟩ : Fin p.d3), (⟨c', hc'⟩ : Fin p.d3)) ∈ segEdges 0 t.1 t.2.1, fun Y => ?_, ?_⟩
  · unfold Props.SemiMarkov.batchEvent
    refine ite_one.trans ?_
    constructor
    · rintro ⟨b', n', k', d, d', he, hm⟩
      simp only [List.cons.injEq, and_true] at he
      obtain ⟨e1, rfl, rfl, e2, e3⟩ := he
      obtain rfl : b' = ⟨b, hb⟩ := Fin.ext e1.symm
      obtain rfl : d = ⟨c, hc⟩ := Fin.ext e2.symm
      obtain rfl : d' = ⟨c', hc'⟩ := Fin.ext e3.symm
      exact hm
    · intro hm; exact ⟨⟨b, hb⟩, n, k, ⟨c, hc⟩, ⟨c', hc'⟩, rfl, hm⟩
  · have k := h4 b hb n k ⟨c, hc⟩ ⟨c', hc'⟩
    rw [abs_sub_comm] at k
    refine le_trans (le_of_eq ?_) (k.trans (hε b hb))
    congr 2
    exact sum_congr rfl fun t _ => by split_ifs <;> rfl

open Props.LinearChain _root_.LinearChain in
/-- **C78 for `LinearChainCRF`**, up to the error of the stand-in for `log 0`. -/
theorem chain_frequencies (p : T4 ℝ) (lengths : Option (List ℕ)) (h : Props.LinearChain.Valid p lengths) (m : ℝ)
    (hm : LowerBound p lengths m) (ε : ℝ) (hε : ∀ b < p.d0, Props.LinearChain.err p lengths (-100000) m b ≤ ε) :
    ∃ es μ, Sampling.record algo (-100000) p lengths = .ok es ∧ Dist.marginals algo p lengths = .ok μ ∧
      SampleFrequencies es {id | ∃ b < p.d0, ∃ n < p.d1, ∃ i < p.d2, ∃ j < p.d2, id = [b, n, i, j]} μ
        (1 - Real.exp (-∑ b : Fin p.d0, Props.LinearChain.err p lengths (-100000) m b) + ε) := by
  classical
  obtain ⟨es, h1, -, h2⟩ := Props.LinearChain.sample_law p lengths h m hm
  obtain ⟨μ, h3, h4⟩ := Props.LinearChain.marginals_spec p lengths h m hm
  refine ⟨es, μ, h1, h3, ?_⟩
  refine frequencies (fun b => (chainP (row p b) : Tags (numEdges p lengths b) p.d2 → ℝ)) (fun b => ?_) h2 _ _ ?_
  · have : Nonempty (Fin p.d2) := ⟨⟨0, h.classes⟩⟩
    exact Gibbs.sum_prob (seqScore (row p b) : Tags (numEdges p lengths b) p.d2 → ℝ)
  rintro id ⟨b, hb, n, hn, i, hi, j, hj, rfl⟩
  refine ⟨⟨b, hb⟩, fun t => UsesEdge t n (⟨i, hi⟩ : Fin p.d2) (⟨j, hj⟩ : Fin p.d2), fun Y => ?_, ?_⟩
  · unfold Props.LinearChain.batchEvent
    refine ite_one.trans ?_
    constructor
    · rintro ⟨b', n', d, d', he, hm⟩
      simp only [List.cons.injEq, and_true] at he
      obtain ⟨e1, rfl, e2, e3⟩ := he
      obtain rfl : b' = ⟨b, hb⟩ := Fin.ext e1.symm
      obtain rfl : d = ⟨i, hi⟩ := Fin.ext e2.symm
      obtain rfl : d' = ⟨j, hj⟩ := Fin.ext e3.symm
      exact hm
    · intro hm; exact ⟨⟨b, hb⟩, n, ⟨i, hi⟩, ⟨j, hj⟩, rfl, hm⟩
  · have k := (h4 b hb n hn ⟨i, hi⟩ ⟨j, hj⟩).2.2
    rw [abs_sub_comm] at k
    refine le_trans (le_of_eq ?_) (k.trans (hε b hb))
    congr 2
    exact sum_congr rfl fun t _ => by split_ifs <;> rfl

/-- Non-vacuity: the example batches of the models (two rows of different lengths) meet the hypotheses, and a run of the sampler as
`SampleFrequencies` quantifies over exists for each of them (the examples beside the five `sample_law` theorems). -/
example (mr : Bool) : Props.TreeCRF.Valid Props.TreeCRF.sample (some [3, 2]) ∧ Props.Dependency.Valid mr Props.Dependency.sample (some [3, 2]) ∧
    Props.LinearChain.Valid Props.LinearChain.sample (some [3, 2]) ∧ Props.SemiMarkov.Valid Props.SemiMarkov.sample (some [4, 3]) :=
  ⟨Props.TreeCRF.sample_valid, Props.Dependency.sample_valid mr, Props.LinearChain.sample_valid, Props.SemiMarkov.sample_valid⟩

end Props.SampleMarginals
