import Verif.Proofs.SampleExists
import Verif.Proofs.LinearChainSample
import Verif.Props.LinearChainMarginals

/-! Property theorems about `LinearChainCRF.sample`: C12, C38, C50. -/

open Finset Spec LinearChainProofs ChainProofs LinearChainLog Sampling

noncomputable section
namespace Props.LinearChain
open _root_.LinearChain

open Classical in
/-- The batch of events of a batch of tag sequences: entry `[b, n, i, j]` is 1 exactly if the sequence of row `b` goes from tag `j` at position `n`
to tag `i` at position `n + 1`; all other entries are 0. -/
def batchEvent {B C : ℕ} {L : Fin B → ℕ} (Y : ∀ b, Tags (L b) C) (id : List ℕ) : ℕ :=
  if ∃ (b : Fin B) (n : ℕ) (i j : Fin C), id = [(b : ℕ), n, (i : ℕ), (j : ℕ)] ∧ UsesEdge (Y b) n i j then 1 else 0

open Classical in
theorem ev_apply {C : ℕ} (b : ℕ) {L : ℕ} (y : Tags L C) (id : List ℕ) :
    LinearChainSample.ev b y id = if ∃ n, ∃ i j : Fin C, id = [b, n, (i : ℕ), (j : ℕ)] ∧ UsesEdge y n i j then 1 else 0 := by
  classical
  rw [LinearChainSample.ev, Finsupp.finsetSum_apply]
  simp only [Finsupp.single_apply]
  by_cases h : ∃ n, ∃ i j : Fin C, id = [b, n, (i : ℕ), (j : ℕ)] ∧ UsesEdge y n i j
  · rw [if_pos h]
    obtain ⟨n, i, j, rfl, hn, rfl, rfl⟩ := h
    rw [sum_eq_single (⟨n, hn⟩ : Fin L)]
    · exact if_pos rfl
    · intro n' _ hne
      rw [if_neg]; intro hc
      simp only [List.cons.injEq] at hc
      exact hne (Fin.ext hc.2.1)
    · simp
  · rw [if_neg h, sum_eq_zero]
    intro n _
    rw [if_neg]; intro hc
    exact h ⟨n, _, _, hc.symm, n.2, rfl, rfl⟩

theorem sum_ev {B C : ℕ} {L : Fin B → ℕ} (Y : ∀ b, Tags (L b) C) (id : List ℕ) :
    (∑ b : Fin B, LinearChainSample.ev b (Y b)) id = batchEvent Y id := by
  classical
  rw [Finsupp.finsetSum_apply, batchEvent]
  simp only [ev_apply]
  by_cases h : ∃ (b : Fin B) (n : ℕ) (i j : Fin C), id = [(b : ℕ), n, (i : ℕ), (j : ℕ)] ∧ UsesEdge (Y b) n i j
  · rw [if_pos h]
    obtain ⟨b, n, i, j, rfl, hu⟩ := h
    rw [sum_eq_single b]
    · exact if_pos ⟨n, i, j, rfl, hu⟩
    · intro b' _ hne
      rw [if_neg]; rintro ⟨n', i', j', hc, -⟩
      simp only [List.cons.injEq] at hc
      exact hne (Fin.ext hc.1.symm)
    · simp
  · rw [if_neg h, sum_eq_zero]
    intro b _
    rw [if_neg]; rintro ⟨n, i, j, hc, hu⟩
    exact h ⟨b, n, i, j, hc, hu⟩

theorem record_ok (z : ℝ) (p : T4 ℝ) (lengths : Option (List ℕ)) (h : Valid p lengths) :
    record algo z p lengths = .ok ((List.range p.d0).map
      (core (sr z) (C := p.d2) (p.d1 + 1) (Nat.clog 2 p.d1) (lenOf (p.d1 + 1) lengths)
        (LinearChainSample.leafRow fun b n i j => p.get b n i j))) :=
  logpartition_ok (sr z) (algo.map (fun q : ℝ × List ℕ => Expr.leaf q.1 q.2) (algo.index p)) lengths h.square h.edges h.lens

theorem rows_law (z : ℝ) (p : T4 ℝ) (lengths : Option (List ℕ)) (h : Valid p lengths) (m : ℝ) (hm : LowerBound p lengths m) (b : Fin p.d0) :
    RowLaw (core (sr z) (C := p.d2) (p.d1 + 1) (Nat.clog 2 p.d1) (lenOf (p.d1 + 1) lengths)
        (LinearChainSample.leafRow fun b n i j => p.get b n i j) b) b
      (LinearChainSample.ev b : Tags (numEdges p lengths b) p.d2 → Ev) (fun y => Real.exp (seqScore (row p b) y)) (err p lengths z m b) :=
  LinearChainSample.row_law h.classes z m (by simpa using le_two_pow_clog p.d1) _ _ b (lenOf_le h.lens b) (fun n hn i j => hm b b.2 n hn i j)

/-- **C12.** One backward pass of `SampledSemiring` through the linear chain draws, for every row independently, a tag sequence from the
distribution `chainP` of the row, and returns exactly its event (also for rows shorter than the batch: nothing after the length).  The stand-in
`zero = z` disturbs this law by at most `1 - e^(-Σ err)` in total variation. -/
theorem sampled_law (z : ℝ) (p : T4 ℝ) (lengths : Option (List ℕ)) (h : Valid p lengths) (m : ℝ) (hm : LowerBound p lengths m) :
    ∃ es, record algo z p lengths = .ok es ∧ es.length = p.d0 ∧
      SamplesFrom es (fun Y : ∀ b : Fin p.d0, Tags (numEdges p lengths b) p.d2 => ∏ b : Fin p.d0, chainP (row p b) (Y b)) batchEvent
        (1 - Real.exp (-∑ b : Fin p.d0, err p lengths z m b)) :=
  ⟨_, record_ok z p lengths h, by simp, samplesFrom (rows_law z p lengths h m hm) _ sum_ev⟩

/-- **C12, C50.** `LinearChainCRF.sample((n,))` returns `n` independent batches of events; each row of each is the event of a tag sequence drawn from the
row's distribution, independently of the other rows, up to `1 - e^(-Σ err)` in total variation (`zero = -1e5`). -/
theorem sample_law (p : T4 ℝ) (lengths : Option (List ℕ)) (h : Valid p lengths) (m : ℝ) (hm : LowerBound p lengths m) :
    ∃ es, record algo (-100000) p lengths = .ok es ∧ es.length = p.d0 ∧
      MultiSamplesFrom es (fun Y : ∀ b : Fin p.d0, Tags (numEdges p lengths b) p.d2 => ∏ b : Fin p.d0, chainP (row p b) (Y b)) batchEvent
        (1 - Real.exp (-∑ b : Fin p.d0, err p lengths (-100000) m b)) :=
  ⟨_, record_ok _ p lengths h, by simp, multiSamplesFrom (rows_law _ p lengths h m hm) _ sum_ev⟩

/-- **C38.** One 16-sample pass through a linear chain equals 16 single-sample passes: `to_discrete(grad, j)` is, entry by entry, the
gradient that the single-sample pass returns when it uses the `j`-th draw at every node. -/
theorem multi_sample_bits (z : ℝ) (p : T4 ℝ) (lengths : Option (List ℕ)) (h : Valid p lengths) :
    ∃ es, record algo z p lengths = .ok es ∧
      ∀ (K : Type) [Fintype K] [DecidableEq K] (T : Tape K) (obj : K), Repr T (batchSum es) obj →
      ∀ (draws : ℕ → K → ℕ) (G : K → ℕ) (G' : ℕ → K → ℕ), IsBackward (sendMulti T draws) obj G →
      (∀ j, IsBackward (sendOne T (draws j)) obj (G' j)) →
      ∀ j < 16, ∀ id, toDiscrete (gradAt T G id) j = gradAt T (G' j) id ∧ gradAt T (G' j) id ≤ 1 := by
  refine ⟨_, record_ok z p lengths h, ?_⟩
  intro K _ _ T obj hr draws G G' hG hG' j hj id
  obtain ⟨m, hm⟩ := exists_lowerBound p lengths
  have hlin := batch_lin (rows_law z p lengths h m hm)
  rw [backward_one (draws j) hr (hG' j) id]
  exact ⟨backward_multi draws hr hlin hG id j hj, grad_le_one (draws j) id _ _ hr hlin⟩

/-- The hypotheses of `sampled_law`, `sample_law` and `multi_sample_bits` are met by a two-row batch of lengths 3 and 2. -/
example : ∃ es, record algo (-100000) sample (some [3, 2]) = .ok es ∧ es.length = 2 ∧ ∃ (K : Type) (_ : Fintype K) (_ : DecidableEq K)
    (T : ℕ → Tape K) (obj : ℕ → K) (Ω : Type) (_ : MeasurableSpace Ω) (P : MeasureTheory.Measure Ω)
    (_ : MeasureTheory.IsProbabilityMeasure P) (X : ℕ → ℕ → K → Ω → ℕ) (G G' : ℕ → Ω → K → ℕ),
    (∀ r, Repr (T r) (batchSum es) (obj r)) ∧ MultiDraws T P X ∧
    (∀ r ω, IsBackward (sendMulti (T r) fun j k => X r j k ω) (obj r) (G r ω)) ∧
    (∀ j ω, IsBackward (sendOne (T 0) fun k => X 0 j k ω) (obj 0) (G' j ω)) :=
  ⟨_, record_ok _ sample _ sample_valid, by simp [sample], passes_exist _⟩

/-- The deviation vanishes as the stand-in for `log 0` goes to minus infinity. -/
theorem sample_deviation_tendsto (p : T4 ℝ) (lengths : Option (List ℕ)) (m : ℝ) :
    Filter.Tendsto (fun z => 1 - Real.exp (-∑ b : Fin p.d0, err p lengths z m b)) Filter.atBot (nhds 0) := by
  have h : Filter.Tendsto (fun z => ∑ b : Fin p.d0, err p lengths z m b) Filter.atBot (nhds 0) := by
    have := tendsto_finsetSum (f := fun (b : Fin p.d0) z => err p lengths z m b) (a := fun _ => (0 : ℝ)) univ
      fun b _ => err_tendsto p lengths m b
    simpa using this
  have h2 := (Real.continuous_exp.tendsto _).comp h.neg
  simpa using h2.const_sub 1

/-- Distinct tag sequences of a row with at least one edge have distinct events, so the law of the event determines the law of the sequence. -/
theorem batchEvent_injective {B C : ℕ} {L : Fin B → ℕ} (hL : ∀ b, 0 < L b) :
    Function.Injective (batchEvent : (∀ b : Fin B, Tags (L b) C) → List ℕ → ℕ) := by
  classical
  intro Y Y' h
  funext b k
  have key : ∀ n (hn : n < L b), Y b ⟨n + 1, by omega⟩ = Y' b ⟨n + 1, by omega⟩ ∧ Y b ⟨n, by omega⟩ = Y' b ⟨n, by omega⟩ := by
    intro n hn
    have h1 := congrFun h [(b : ℕ), n, (Y b ⟨n + 1, by omega⟩ : ℕ), (Y b ⟨n, by omega⟩ : ℕ)]
    have e1 : batchEvent Y [(b : ℕ), n, (Y b ⟨n + 1, by omega⟩ : ℕ), (Y b ⟨n, by omega⟩ : ℕ)] = 1 :=
      if_pos ⟨b, n, _, _, rfl, hn, rfl, rfl⟩
    rw [e1, batchEvent] at h1
    by_contra hne
    rw [if_neg] at h1
    · exact one_ne_zero h1
    · rintro ⟨b', n', i, j, hc, hn', hi, hj⟩
      simp only [List.cons.injEq, and_true] at hc
      obtain ⟨hb, rfl, h2, h3⟩ := hc
      obtain rfl := Fin.ext hb
      exact hne ⟨by rw [hi]; exact Fin.ext h2, by rw [hj]; exact Fin.ext h3⟩
  rcases Nat.lt_or_ge k (L b) with hk | hk
  · exact (key k hk).2
  · have h0 := hL b
    have : (k : ℕ) = (L b - 1) + 1 := by have := k.2; omega
    have h1 := (key (L b - 1) (by omega)).1
    have e : k = ⟨(L b - 1) + 1, by omega⟩ := Fin.ext this
    rw [e]; exact h1

end Props.LinearChain
