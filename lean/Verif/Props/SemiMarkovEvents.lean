import Verif.Proofs.SemiMarkovDP
import Verif.Props.SemiMarkov
import Verif.Props.LinearChainEvents

/-! Property theorems about `SemiMarkov._dp_standard` (C17), the events of `SemiMarkovCRF` (C18) and `SemiMarkov.hsmm` (C19). -/

open Finset Spec Generic SemiMarkovProofs

noncomputable section
namespace Props.SemiMarkov
open _root_.SemiMarkov

/-! ### C17: the sequential program -/

/-- What `_dp_standard` needs besides `Valid`: a non-empty batch and lengths of at least 1 (`lengths = 0` reads Python's last element). -/
structure DPValid {γ : Type} (p : T5 γ) (lengths : Option (List ℕ)) : Prop where
  valid : Valid p lengths
  batch : 1 ≤ p.d0
  pos : ∀ b < p.d0, 1 ≤ lenOf (p.d1 + 1) lengths b

theorem sample_dpValid : DPValid sample (some [4, 3]) where
  valid := sample_valid
  batch := by decide
  pos := by intro b hb; have hb : b < 2 := hb; interval_cases b <;> simp [lenOf]

/-- `_dp_standard` in any commutative semiring: the sum over the segmentations. -/
theorem dpStandard_sum {R : Type} [CommSemiring R] (p : T5 R) (lengths : Option (List ℕ)) (h : DPValid p lengths) :
    dpStandard (Semirings.std R) p lengths =
      .ok ((List.range p.d0).map fun b => ∑ y : Seg p lengths b, segWeight (row p b) y) := by
  refine (dpBatchDP p lengths h.valid h.batch h.pos).any_semiring.trans ?_
  congr 1
  refine List.map_congr_left fun b _ => sum_congr rfl fun t _ => ?_
  rw [segParts, Multiset.map_coe, Multiset.prod_coe, List.map_map]
  rfl

/-- **C17.** In every commutative semiring the scan and the sequential program return the same values. -/
theorem scan_eq_dpStandard {R : Type} [CommSemiring R] (p : T5 R) (lengths : Option (List ℕ)) (h : DPValid p lengths) :
    logpartition (Semirings.std R) p lengths = dpStandard (Semirings.std R) p lengths := by
  rw [sum_any_semiring p lengths h.valid, dpStandard_sum p lengths h]

/-- **C17.** With the log semiring of the code (`zero = -1e5`) the sequential program returns exactly the log of the sum over the
segmentations of the exponentiated score. -/
theorem dpStandard_log (p : T5 ℝ) (lengths : Option (List ℕ)) (h : DPValid p lengths) :
    dpStandard Semirings.log p lengths = .ok ((List.range p.d0).map fun b => truth p lengths b) := by
  have := (dpBatchDP p lengths h.valid h.batch h.pos).partition_exact
  simp only [realScore_eq] at this
  exact this

/-- **C17.** With the log semiring of the code the scan exceeds the sequential program by at most `err`. -/
theorem scan_dpStandard_log (p : T5 ℝ) (lengths : Option (List ℕ)) (h : DPValid p lengths) {B : ℝ} (hB : Bounded p lengths B) :
    ∃ vs ws, logpartition Semirings.log p lengths = .ok vs ∧ dpStandard Semirings.log p lengths = .ok ws ∧ vs.length = p.d0 ∧ ws.length = p.d0 ∧
      ∀ b (hv : b < vs.length) (hw : b < ws.length), ws[b] ≤ vs[b] ∧ vs[b] ≤ ws[b] + err p lengths B b := by
  obtain ⟨vs, h1, h2, h3⟩ := partition_spec p lengths h.valid hB
  refine ⟨vs, _, h1, dpStandard_log p lengths h, h2, by simp, fun b hv hw => ?_⟩
  rw [getElem_map_range]
  exact h3 b hv

/-- **C17.** With the max semiring both return the score of the best segmentation. -/
theorem scan_dpStandard_max (p : T5 ℝ) (lengths : Option (List ℕ)) (h : DPValid p lengths) {B : ℝ} (hB : Bounded p lengths B)
    (hsmall : 2 * p.d1 * B < 100000) : logpartition Semirings.max p lengths = dpStandard Semirings.max p lengths := by
  obtain ⟨vs, h1, h2, h3⟩ := max_spec p lengths h.valid hB hsmall
  obtain ⟨ws, h4, h5, h6⟩ := (dpBatchDP p lengths h.valid h.batch h.pos).max_exact
  have h1' : logpartition Semirings.max p lengths = .ok vs := h1
  have h4' : dpStandard Semirings.max p lengths = .ok ws := h4
  rw [h1', h4']
  congr 1
  refine List.ext_getElem (by rw [h2, h5]) fun b hv hw => ?_
  obtain ⟨⟨y, hy⟩, hy'⟩ := h3 b hv
  obtain ⟨⟨z, hz⟩, hz'⟩ := h6 b hw
  simp only [realScore_eq] at hz hz'
  refine le_antisymm ?_ ?_
  · rw [hy]; exact hz' y
  · rw [hz]; exact hy' z

/-! ### C18: sequences and events

A row of a sequence assigns to every position a class (`some c`) or -1 (`none`, inside a segment). -/

/-- Position `m` starts a segment of length `k` with class `c` after class `c'`, inside the first `N` positions. -/
def IsSegment (N : ℕ) (y : ℕ → Option ℕ) (m k c c' : ℕ) : Prop :=
  1 ≤ k ∧ m + k < N ∧ y m = some c' ∧ y (m + k) = some c ∧ ∀ j, m < j → j < m + k → y j = none

/-- What `to_event` needs of a row: it starts with a class, its classes are below `C`, its segments shorter than `K`. -/
structure ValidRow (N C K : ℕ) (y : ℕ → Option ℕ) : Prop where
  start : ∃ c, y 0 = some c
  classes : ∀ n < N, ∀ c, y n = some c → c < C
  gaps : ∀ m k c c', IsSegment N y m k c c' → k < K

/-- `e` is the event of the batch of sequences `s`. -/
structure Encodes (e : T5 ℕ) (s : T2 (Option ℕ)) (C K : ℕ) : Prop where
  d0 : e.d0 = s.d0
  d1 : e.d1 + 1 = s.d1
  d2 : e.d2 = K
  d3 : e.d3 = C
  d4 : e.d4 = C
  one : ∀ b < s.d0, ∀ m k c c', IsSegment s.d1 (s.get b) m k c c' → e.get b m k c c' = 1
  zero : ∀ b < s.d0, ∀ m k c c', ¬ IsSegment s.d1 (s.get b) m k c c' → e.get b m k c c' = 0

theorem foldlM_range_succ {σ : Type} (f : σ → ℕ → Except PyErr σ) (t : ℕ) (s : σ) :
    (List.range (t + 1)).foldlM f s = (List.range t).foldlM f s >>= fun st => f st t := by
  rw [List.range_succ, List.foldlM_append]
  congr 1
  funext st
  rw [List.foldlM_cons]
  simp only [List.foldlM_nil]
  cases f st t <;> rfl

open Classical in
theorem inner_loop (s : T2 (Option ℕ)) (C K b : ℕ) (h : ValidRow s.d1 C K (s.get b)) (labels : ℕ → ℕ → ℕ → ℕ → ℕ → ℕ) (t : ℕ) (ht : t + 1 ≤ s.d1) :
    ∃ L last cl, (List.range (t + 1)).foldlM (partStep s C K b) (labels, 0, 0) = .ok (L, last, cl) ∧ last ≤ t ∧ s.get b last = some cl ∧
      (∀ j, last < j → j ≤ t → s.get b j = none) ∧
      ∀ b' m k c c', L b' m k c c' = if b' = b ∧ IsSegment (t + 1) (s.get b) m k c c' then 1 else labels b' m k c c' := by
  induction t with
  | zero =>
    obtain ⟨c, hc⟩ := h.start
    refine ⟨labels, 0, c, ?_, le_rfl, hc, fun j h1 h2 => by omega, fun b' m k c1 c2 => ?_⟩
    · rw [foldlM_range_succ]
      simp [partStep, hc, bind, Except.bind, pure, Except.pure]
    · rw [if_neg]
      rintro ⟨-, h1, h2, -⟩
      omega
  | succ t ih =>
    obtain ⟨L, last, cl, h1, h2, h3, h4, h5⟩ := ih (by omega)
    rw [foldlM_range_succ, h1]
    simp only [bind, Except.bind]
    cases hn : s.get b (t + 1) with
    | none =>
      refine ⟨L, last, cl, ?_, by omega, h3, ?_, ?_⟩
      · simp only [partStep, hn]; rw [if_neg (by omega)]
      · intro j a1 a2
        rcases Nat.lt_or_ge j (t + 1) with a3 | a3
        · exact h4 j a1 (by omega)
        · obtain rfl : j = t + 1 := by omega
          exact hn
      · intro b' m k c1 c2
        rw [h5]
        have : IsSegment (t + 1) (s.get b) m k c1 c2 ↔ IsSegment (t + 1 + 1) (s.get b) m k c1 c2 := by
          constructor
          · rintro ⟨a1, a2, a3, a4, a5⟩; exact ⟨a1, by omega, a3, a4, a5⟩
          · rintro ⟨a1, a2, a3, a4, a5⟩
            refine ⟨a1, ?_, a3, a4, a5⟩
            by_contra hc
            obtain e : m + k = t + 1 := by omega
            rw [e, hn] at a4
            exact absurd a4 (by simp)
        simp only [this]
    | some newC =>
      have hseg : IsSegment s.d1 (s.get b) last (t + 1 - last) newC cl := by
        refine ⟨by omega, by omega, h3, ?_, fun j a1 a2 => h4 j a1 (by omega)⟩
        rw [show last + (t + 1 - last) = t + 1 by omega]; exact hn
      have hgap := h.gaps _ _ _ _ hseg
      have hc1 := h.classes (t + 1) (by omega) _ hn
      have hc2 := h.classes last (by omega) _ h3
      refine ⟨fun b' m k c1 c2 => if b' = b ∧ m = last ∧ k = t + 1 - last ∧ c1 = newC ∧ c2 = cl then 1 else L b' m k c1 c2,
        t + 1, newC, ?_, le_rfl, hn, fun j a1 a2 => by omega, ?_⟩
      · simp only [partStep, hn]
        rw [if_neg (by omega), if_pos ⟨hgap, hc1, hc2⟩]
      · intro b' m k c1 c2
        have key : IsSegment (t + 1 + 1) (s.get b) m k c1 c2 ↔
            (m = last ∧ k = t + 1 - last ∧ c1 = newC ∧ c2 = cl) ∨ IsSegment (t + 1) (s.get b) m k c1 c2 := by
          constructor
          · rintro ⟨a1, a2, a3, a4, a5⟩
            by_cases hlt : m + k < t + 1
            · exact Or.inr ⟨a1, hlt, a3, a4, a5⟩
            · left
              have e : m + k = t + 1 := by omega
              have hm : m = last := by
                rcases Nat.lt_trichotomy m last with a6 | a6 | a6
                · have := a5 last a6 (by omega); rw [h3] at this; exact absurd this (by simp)
                · exact a6
                · have := h4 m a6 (by omega); rw [a3] at this; exact absurd this (by simp)
              subst hm
              rw [e, hn] at a4
              rw [h3] at a3
              exact ⟨rfl, by omega, (Option.some.inj a4).symm, (Option.some.inj a3).symm⟩
          · rintro (⟨rfl, rfl, rfl, rfl⟩ | ⟨a1, a2, a3, a4, a5⟩)
            · exact ⟨hseg.1, by omega, hseg.2.2⟩
            · exact ⟨a1, by omega, a3, a4, a5⟩
        simp only [key, h5]
        by_cases hb : b' = b
        · simp only [hb, true_and]
          by_cases hx : m = last ∧ k = t + 1 - last ∧ c1 = newC ∧ c2 = cl
          · rw [if_pos hx, if_pos (Or.inl hx)]
          · rw [if_neg hx]
            simp only [hx, false_or]
        · simp only [hb, false_and, if_false]

open Classical in
theorem outer_loop (s : T2 (Option ℕ)) (C K : ℕ) (hN : 1 ≤ s.d1) (h : ∀ b < s.d0, ValidRow s.d1 C K (s.get b)) (t : ℕ) (ht : t ≤ s.d0) :
    ∃ L : ℕ → ℕ → ℕ → ℕ → ℕ → ℕ, (List.range t).foldlM (rowStep s C K) (fun _ _ _ _ _ => 0) = .ok L ∧
      ∀ b m k c c', L b m k c c' = if b < t ∧ IsSegment s.d1 (s.get b) m k c c' then 1 else 0 := by
  induction t with
  | zero => exact ⟨_, rfl, fun b m k c c' => by simp⟩
  | succ t ih =>
    obtain ⟨L, h1, h2⟩ := ih (by omega)
    rw [foldlM_range_succ, h1]
    simp only [bind, Except.bind]
    obtain ⟨L', last, cl, h3, -, -, -, h4⟩ := inner_loop s C K t (h t (by omega)) L (s.d1 - 1) (by omega)
    rw [Nat.sub_add_cancel hN] at h3 h4
    rw [rowStep, h3]
    refine ⟨L', rfl, fun b m k c c' => ?_⟩
    rw [h4, h2]
    by_cases hb : b = t
    · subst hb
      simp
    · have : b < t + 1 ↔ b < t := by omega
      simp only [hb, false_and, if_false, this]

/-- **C18.** `to_event` returns the event: the entry (start, length, class, previous class) is 1 exactly for the segments of the sequence. -/
theorem toParts_spec (s : T2 (Option ℕ)) (C K : ℕ) (hN : 1 ≤ s.d1) (h : ∀ b < s.d0, ValidRow s.d1 C K (s.get b)) :
    ∃ e, toParts s C K = .ok e ∧ Encodes e s C K := by
  classical
  obtain ⟨L, h1, h2⟩ := outer_loop s C K hN h s.d0 le_rfl
  refine ⟨⟨s.d0, s.d1 - 1, K, C, C, L⟩, ?_, rfl, Nat.sub_add_cancel hN, rfl, rfl, rfl, ?_, ?_⟩
  · rw [toParts, if_neg (by omega), h1]
    rfl
  · intro b hb m k c c' hs
    exact (h2 b m k c c').trans (if_pos ⟨hb, hs⟩)
  · intro b hb m k c c' hs
    exact (h2 b m k c c').trans (if_neg fun hc => hs hc.2)

theorem mem_nonzero (e : T5 ℕ) (b n k i j : ℕ) :
    (b, n, k, i, j) ∈ nonzero e ↔ b < e.d0 ∧ n < e.d1 ∧ k < e.d2 ∧ i < e.d3 ∧ j < e.d4 ∧ e.get b n k i j ≠ 0 := by
  simp only [nonzero, List.mem_flatMap, List.mem_range, List.mem_map, List.mem_filter, Prod.mk.injEq, decide_eq_true_eq]
  constructor
  · rintro ⟨b', hb, n', hn, k', hk, i', hi, j', ⟨hj, h0⟩, rfl, rfl, rfl, rfl, rfl⟩
    exact ⟨hb, hn, hk, hi, hj, h0⟩
  · rintro ⟨hb, hn, hk, hi, hj, h0⟩
    exact ⟨b, hb, n, hn, k, hk, i, hi, j, ⟨hj, h0⟩, rfl, rfl, rfl, rfl, rfl⟩

/-- **C18.** `from_event` of the event of a batch of sequences returns the sequences, provided every row has a class after its first position
(otherwise the event is empty), and `(C, K)`. -/
theorem fromParts_spec (e : T5 ℕ) (s : T2 (Option ℕ)) (C K : ℕ) (h : ∀ b < s.d0, ValidRow s.d1 C K (s.get b))
    (h2 : ∀ b < s.d0, ∃ n, 1 ≤ n ∧ n < s.d1 ∧ ∃ c, s.get b n = some c) (he : Encodes e s C K) :
    ∃ s', fromParts e = .ok (s', (C, K)) ∧ s'.d0 = s.d0 ∧ s'.d1 = s.d1 ∧ ∀ b < s.d0, ∀ n < s.d1, s'.get b n = s.get b n := by
  classical
  have hd0 := he.d0
  have hd1 := he.d1
  have hmem : ∀ b m k c c', (b, m, k, c, c') ∈ nonzero e ↔ b < s.d0 ∧ IsSegment s.d1 (s.get b) m k c c' := by
    intro b m k c c'
    rw [mem_nonzero]
    constructor
    · rintro ⟨hb, -, -, -, -, h0⟩
      rw [hd0] at hb
      refine ⟨hb, ?_⟩
      by_contra hc
      exact h0 (he.zero b hb m k c c' hc)
    · rintro ⟨hb, hs⟩
      refine ⟨hd0 ▸ hb, ?_, ?_, ?_, ?_, ?_⟩
      · have := hs.1; have := hs.2.1; omega
      · rw [he.d2]; exact (h b hb).gaps _ _ _ _ hs
      · rw [he.d3]; exact (h b hb).classes _ hs.2.1 _ hs.2.2.2.1
      · rw [he.d4]; exact (h b hb).classes m (by have := hs.2.1; omega) _ hs.2.2.1
      · rw [he.one b hb m k c c' hs]; exact one_ne_zero
  have hw : ∀ w : (ℕ × ℕ) × ℕ, w ∈ (nonzero e).flatMap partWrites ↔ ∃ b m k c c', (b < s.d0 ∧ IsSegment s.d1 (s.get b) m k c c') ∧
      ((m = 0 ∧ w = ((b, 0), c')) ∨ w = ((b, m + k), c)) := by
    intro w
    rw [List.mem_flatMap]
    constructor
    · rintro ⟨⟨b, m, k, c, c'⟩, hm, hw⟩
      refine ⟨b, m, k, c, c', (hmem ..).1 hm, ?_⟩
      simp only [partWrites, List.mem_append, List.mem_singleton] at hw
      rcases hw with hw | hw
      · split_ifs at hw with h0
        · rw [List.mem_singleton] at hw
          exact Or.inl ⟨h0, by rw [hw, h0]⟩
        · simp at hw
      · exact Or.inr hw
    · rintro ⟨b, m, k, c, c', hm, hw⟩
      refine ⟨(b, m, k, c, c'), (hmem ..).2 hm, ?_⟩
      simp only [partWrites, List.mem_append, List.mem_singleton]
      rcases hw with ⟨rfl, rfl⟩ | rfl
      · exact Or.inl (by simp)
      · exact Or.inr rfl
  have hval : ∀ w ∈ (nonzero e).flatMap partWrites, w.1.2 < s.d1 ∧ s.get w.1.1 w.1.2 = some w.2 := by
    intro w hm
    obtain ⟨b, m, k, c, c', ⟨hb, hs⟩, (⟨rfl, rfl⟩ | rfl)⟩ := (hw w).1 hm
    · exact ⟨by have := hs.2.1; simp only; omega, hs.2.2.1⟩
    · exact ⟨hs.2.1, hs.2.2.2.1⟩
  refine ⟨⟨e.d0, e.d1 + 1, fun b n => ((nonzero e).flatMap partWrites).foldl (fun t w => fun k => if k = w.1 then some w.2 else t k) (fun _ => none) (b, n)⟩,
    ?_, hd0, hd1, ?_⟩
  · rw [fromParts]
    simp only
    rw [if_neg, he.d2, he.d3]
    rintro ⟨w, hm, hlt⟩
    have := (hval w hm).1
    omega
  · intro b hb n hn
    have e1 : ((nonzero e).flatMap partWrites).foldl (fun t w => fun k => if k = w.1 then some w.2 else t k) (fun _ => none) (b, n) =
        (((nonzero e).flatMap partWrites).map fun w => (w.1, some w.2)).foldl (fun t w => fun k => if k = w.1 then w.2 else t k) (fun _ => none) (b, n) := by
      rw [List.foldl_map]
    change ((nonzero e).flatMap partWrites).foldl (fun t w => fun k => if k = w.1 then some w.2 else t k) (fun _ => none) (b, n) = _
    rw [e1]
    cases hy : s.get b n with
    | none =>
      refine Props.LinearChain.foldl_write_none _ _ _ fun w hm hc => ?_
      rw [List.mem_map] at hm
      obtain ⟨w', hm, rfl⟩ := hm
      have := (hval w' hm).2
      simp only at hc
      rw [hc, hy] at this
      exact absurd this (by simp)
    | some c =>
      refine Props.LinearChain.foldl_write_const _ _ _ _ ?_ fun w hm hc => ?_
      · -- there is a write
        rcases Nat.eq_zero_or_pos n with rfl | hn0
        · -- the first segment
          have hex : ∃ m, 1 ≤ m ∧ m < s.d1 ∧ ∃ c, s.get b m = some c := h2 b hb
          have hs := Nat.find_spec hex
          have hmin := fun j => Nat.find_min hex (m := j)
          obtain ⟨a1, a2, c2, a3⟩ := hs
          refine ⟨((b, 0), some c), List.mem_map.2 ⟨((b, 0), c), (hw _).2 ⟨b, 0, Nat.find hex, c2, c, ⟨hb, a1, by omega, hy, by simpa using a3, ?_⟩, Or.inl ⟨rfl, rfl⟩⟩, rfl⟩, rfl⟩
          intro j j1 j2
          have := hmin j (by omega)
          cases hj : s.get b j with
          | none => rfl
          | some d => exact absurd ⟨by omega, by omega, d, hj⟩ this
        · -- the segment that ends here
          have hex : ∃ k, 1 ≤ k ∧ k ≤ n ∧ ∃ c, s.get b (n - k) = some c := ⟨n, hn0, le_rfl, by rw [Nat.sub_self]; exact (h b hb).start⟩
          have hs := Nat.find_spec hex
          have hmin := fun j => Nat.find_min hex (m := j)
          obtain ⟨a1, a2, c2, a3⟩ := hs
          refine ⟨((b, n), some c), List.mem_map.2 ⟨((b, n), c), (hw _).2 ⟨b, n - Nat.find hex, Nat.find hex, c, c2, ⟨hb, a1, by omega, a3, ?_, ?_⟩, Or.inr ?_⟩, rfl⟩, rfl⟩
          · rw [Nat.sub_add_cancel a2]; exact hy
          · intro j j1 j2
            have := hmin (n - j) (by omega)
            cases hj : s.get b j with
            | none => rfl
            | some d => exact absurd ⟨by omega, by omega, d, by rw [show n - (n - j) = j by omega]; exact hj⟩ this
          · rw [Nat.sub_add_cancel a2]
      · rw [List.mem_map] at hm
        obtain ⟨w', hm, rfl⟩ := hm
        have := (hval w' hm).2
        simp only at hc
        rw [hc, hy] at this
        exact this.symm

/-- **C18.** `from_event(to_event(y, (C, K)))` returns `(y, (C, K))` for every batch of valid sequences that end with a class. -/
theorem fromParts_toParts (s : T2 (Option ℕ)) (C K : ℕ) (hN : 2 ≤ s.d1) (h : ∀ b < s.d0, ValidRow s.d1 C K (s.get b))
    (hend : ∀ b < s.d0, ∃ c, s.get b (s.d1 - 1) = some c) :
    ∃ e s', toParts s C K = .ok e ∧ fromParts e = .ok (s', (C, K)) ∧ s'.d0 = s.d0 ∧ s'.d1 = s.d1 ∧
      ∀ b < s.d0, ∀ n < s.d1, s'.get b n = s.get b n := by
  obtain ⟨e, h1, h2⟩ := toParts_spec s C K (by omega) h
  obtain ⟨s', h3, h4⟩ := fromParts_spec e s C K h (fun b hb => ⟨s.d1 - 1, by omega, by omega, hend b hb⟩) h2
  exact ⟨e, s', h1, h3, h4⟩

theorem isSegment_congr {N : ℕ} {y y' : ℕ → Option ℕ} (h : ∀ n < N, y n = y' n) (m k c c' : ℕ) :
    IsSegment N y m k c c' ↔ IsSegment N y' m k c c' := by
  constructor
  · rintro ⟨a1, a2, a3, a4, a5⟩
    exact ⟨a1, a2, by rw [← h _ (by omega)]; exact a3, by rw [← h _ a2]; exact a4, fun j h1 h2 => by rw [← h j (by omega)]; exact a5 j h1 h2⟩
  · rintro ⟨a1, a2, a3, a4, a5⟩
    exact ⟨a1, a2, by rw [h _ (by omega)]; exact a3, by rw [h _ a2]; exact a4, fun j h1 h2 => by rw [h j (by omega)]; exact a5 j h1 h2⟩

/-- **C18.** The other round trip: `to_event(from_event(e))` returns `e`. -/
theorem toParts_fromParts (e : T5 ℕ) (s : T2 (Option ℕ)) (C K : ℕ) (hN : 2 ≤ s.d1) (h : ∀ b < s.d0, ValidRow s.d1 C K (s.get b))
    (hend : ∀ b < s.d0, ∃ c, s.get b (s.d1 - 1) = some c) (he : Encodes e s C K) :
    ∃ s' e', fromParts e = .ok (s', (C, K)) ∧ toParts s' C K = .ok e' ∧ e'.d0 = e.d0 ∧ e'.d1 = e.d1 ∧ e'.d2 = e.d2 ∧ e'.d3 = e.d3 ∧ e'.d4 = e.d4 ∧
      ∀ b < e.d0, ∀ m k c c', e'.get b m k c c' = e.get b m k c c' := by
  obtain ⟨s', h1, h2, h3, h4⟩ := fromParts_spec e s C K h (fun b hb => ⟨s.d1 - 1, by omega, by omega, hend b hb⟩) he
  have h5 : ∀ b < s'.d0, ValidRow s'.d1 C K (s'.get b) := by
    intro b hb
    rw [h2] at hb
    rw [h3]
    have hr := h b hb
    refine ⟨?_, ?_, ?_⟩
    · obtain ⟨c, hc⟩ := hr.start
      exact ⟨c, by rw [h4 b hb 0 (by omega)]; exact hc⟩
    · intro n hn c hc
      rw [h4 b hb n hn] at hc
      exact hr.classes n hn c hc
    · intro m k c c' hs
      exact hr.gaps m k c c' ((isSegment_congr (h4 b hb) m k c c').1 hs)
  obtain ⟨e', h6, h7⟩ := toParts_spec s' C K (by omega) h5
  have hd0 := he.d0
  refine ⟨s', e', h1, h6, ?_, ?_, ?_, ?_, ?_, ?_⟩
  · rw [h7.d0, h2, he.d0]
  · have := h7.d1; have := he.d1; omega
  · rw [h7.d2, he.d2]
  · rw [h7.d3, he.d3]
  · rw [h7.d4, he.d4]
  · intro b hb m k c c'
    have hb1 : b < s.d0 := by omega
    have hb2 : b < s'.d0 := by omega
    by_cases hs : IsSegment s.d1 (s.get b) m k c c'
    · rw [he.one b hb1 m k c c' hs, h7.one b hb2 m k c c' (by rw [h3]; exact (isSegment_congr (h4 b hb1) m k c c').2 hs)]
    · rw [he.zero b hb1 m k c c' hs, h7.zero b hb2 m k c c' (by rw [h3]; exact fun hc => hs ((isSegment_congr (h4 b hb1) m k c c').1 hc))]

/-- A valid batch: `[0, -1, 1, 1]` and `[1, 0, -1, 0]`. -/
example : ∃ s : T2 (Option ℕ), s.d0 = 2 ∧ s.d1 = 4 ∧ (∀ b < s.d0, ValidRow s.d1 2 3 (s.get b)) ∧ ∀ b < s.d0, ∃ c, s.get b (s.d1 - 1) = some c := by
  refine ⟨⟨2, 4, fun b n => (([[some 0, none, some 1, some 1], [some 1, some 0, none, some 0]] : List (List (Option ℕ))).getD b []).getD n none⟩, rfl, rfl, ?_, ?_⟩
  · intro b hb
    have hb : b < 2 := hb
    refine ⟨?_, ?_, ?_⟩
    · interval_cases b <;> simp
    · intro n hn c hc
      have hn : n < 4 := hn
      interval_cases b <;> interval_cases n <;> simp at hc <;> omega
    · rintro m k c c' ⟨h1, h2, h3, h4, h5⟩
      by_contra hk
      have h2 : m + k < 4 := h2
      obtain ⟨rfl, rfl⟩ : m = 0 ∧ k = 3 := by omega
      interval_cases b
      · have := h5 2 (by omega) (by omega); simp at this
      · have := h5 1 (by omega) (by omega); simp at this
  · intro b hb
    have hb : b < 2 := hb
    interval_cases b <;> simp

/-! Sequences and segmentations. -/

/-- The sequence of a list of segments that starts at position `n` with class `c`. -/
def seqFrom {C : ℕ} : ℕ → Fin C → List (ℕ × Fin C) → ℕ → Option ℕ
  | n, c, [], j => if j = n then some (c : ℕ) else none
  | n, c, (k, c') :: l, j => if j = n then some (c : ℕ) else seqFrom (n + k) c' l j

/-- The sequence of a segmentation. -/
def seqOf {K C L : ℕ} (y : Segmentation K C L) : ℕ → Option ℕ := seqFrom 0 y.1 y.2.1

theorem seqFrom_self {C : ℕ} (n : ℕ) (c : Fin C) (l : List (ℕ × Fin C)) : seqFrom n c l n = some (c : ℕ) := by
  cases l <;> simp [seqFrom]

theorem seqFrom_lt {C : ℕ} : ∀ (l : List (ℕ × Fin C)) (n : ℕ) (c : Fin C) (j : ℕ), j < n → seqFrom n c l j = none
  | [], n, c, j, h => by simp [seqFrom]; omega
  | (k, c') :: l, n, c, j, h => by
    simp only [seqFrom]
    rw [if_neg (by omega)]
    exact seqFrom_lt l (n + k) c' j (by omega)

/-- The segments of a segmentation are the segments of its sequence. -/
theorem seqFrom_segment {C K : ℕ} : ∀ (l : List (ℕ × Fin C)) (n : ℕ) (c : Fin C), (∀ s ∈ l, 1 ≤ s.1 ∧ s.1 < K) → ∀ m k d d',
    IsSegment (n + (l.map Prod.fst).sum + 1) (seqFrom n c l) m k d d' ↔
      (m, k, d, d') ∈ (segEdges n c l).map fun s => (s.1, s.2.1, (s.2.2.1 : ℕ), (s.2.2.2 : ℕ))
  | [], n, c, _, m, k, d, d' => by
    simp only [segEdges, List.map_nil, List.not_mem_nil, iff_false]
    rintro ⟨a1, a2, a3, a4, -⟩
    simp only [seqFrom] at a3 a4
    split_ifs at a3 a4
    omega
  | (k0, c') :: l, n, c, h, m, k, d, d' => by
    have hk0 := (h (k0, c') List.mem_cons_self).1
    have hl := fun s hs => h s (List.mem_cons_of_mem _ hs)
    have ih := seqFrom_segment l (n + k0) c' hl m k d d'
    simp only [segEdges, List.map_cons, List.mem_cons, List.sum_cons] at ih ⊢
    rw [← ih, show n + (k0 + (l.map Prod.fst).sum) + 1 = n + k0 + (l.map Prod.fst).sum + 1 by omega]
    have hrest : ∀ j, j ≠ n → seqFrom n c ((k0, c') :: l) j = seqFrom (n + k0) c' l j := fun j hj => by
      simp only [seqFrom]; rw [if_neg hj]
    have hfirst : seqFrom n c ((k0, c') :: l) n = some (c : ℕ) := seqFrom_self _ _ _
    simp only at hk0
    constructor
    · rintro ⟨a1, a2, a3, a4, a5⟩
      by_cases hm : m = n
      · left
        subst hm
        rw [hfirst] at a3
        rw [hrest _ (by omega)] at a4
        have hk : k = k0 := by
          rcases Nat.lt_trichotomy k k0 with h1 | h1 | h1
          · rw [seqFrom_lt l (m + k0) c' (m + k) (by omega)] at a4; exact absurd a4 (by simp)
          · exact h1
          · have := a5 (m + k0) (by omega) (by omega)
            rw [hrest _ (by omega), seqFrom_self] at this
            exact absurd this (by simp)
        subst hk
        rw [seqFrom_self] at a4
        rw [Option.some.inj a4, Option.some.inj a3]
      · right
        rw [hrest _ hm] at a3
        have hge : n + k0 ≤ m := by
          by_contra hc
          rw [seqFrom_lt l (n + k0) c' m (by omega)] at a3
          exact absurd a3 (by simp)
        rw [hrest _ (by omega)] at a4
        refine ⟨a1, a2, a3, a4, fun j h1 h2 => ?_⟩
        rw [← hrest j (by omega)]; exact a5 j h1 h2
    · rintro (he | ⟨a1, a2, a3, a4, a5⟩)
      · simp only [Prod.mk.injEq] at he
        obtain ⟨rfl, rfl, rfl, rfl⟩ := he
        refine ⟨hk0, by omega, hfirst, ?_, ?_⟩
        · rw [hrest _ (by omega), seqFrom_self]
        · intro j h1 h2
          rw [hrest _ (by omega)]
          exact seqFrom_lt l _ c' j h2
      · have hge : n + k0 ≤ m := by
          by_contra hc
          rw [seqFrom_lt l (n + k0) c' m (by omega)] at a3
          exact absurd a3 (by simp)
        refine ⟨a1, a2, by rw [hrest _ (by omega)]; exact a3, by rw [hrest _ (by omega)]; exact a4, fun j h1 h2 => ?_⟩
        rw [hrest j (by omega)]; exact a5 j h1 h2

theorem seqFrom_class {C : ℕ} : ∀ (l : List (ℕ × Fin C)) (n : ℕ) (c : Fin C) (j d : ℕ), seqFrom n c l j = some d → d < C
  | [], n, c, j, d, h => by
    simp only [seqFrom] at h
    split_ifs at h
    rw [← Option.some.inj h]; exact c.2
  | (k, c') :: l, n, c, j, d, h => by
    simp only [seqFrom] at h
    split_ifs at h
    · rw [← Option.some.inj h]; exact c.2
    · exact seqFrom_class l (n + k) c' j d h

/-- **C18.** The sequence of a segmentation is valid, and its event is the event of the segmentation. -/
theorem seqOf_valid {K C L : ℕ} (y : Segmentation K C L) : ValidRow (L + 1) C K (seqOf y) where
  start := ⟨y.1, seqFrom_self _ _ _⟩
  classes n _ c hc := seqFrom_class _ _ _ _ _ hc
  gaps m k c c' hs := by
    have hsum := y.2.2.2
    have := seqFrom_segment y.2.1 0 y.1 y.2.2.1 m k c c'
    rw [hsum] at this
    have := this.1 hs
    rw [List.mem_map] at this
    obtain ⟨s, hm, he⟩ := this
    simp only [Prod.mk.injEq] at he
    have := (segEdges_mem y.2.1 0 y.1 y.2.2.1 s hm).2.2.1
    omega

theorem seqOf_event {K C L : ℕ} (y : Segmentation K C L) (m k c c' : ℕ) :
    IsSegment (L + 1) (seqOf y) m k c c' ↔ event y m k c c' = 1 := by
  have hsum := y.2.2.2
  have := seqFrom_segment y.2.1 0 y.1 y.2.2.1 m k c c'
  rw [hsum] at this
  rw [seqOf, this, event]
  split_ifs with h
  · simp [h]
  · simp [h]

/-! ### C19: hidden semi-Markov models -/

/-- The joint log-probability of a segmentation: the auxiliary first class, then for every segment the transition from the previous class, the
duration given the class, and the emission of the segment given class and duration. -/
def hsmmScore {K C L : ℕ} (init : ℕ → ℝ) (transition duration : ℕ → ℕ → ℝ) (emission : ℕ → ℕ → ℕ → ℝ) (y : Segmentation K C L) : ℝ :=
  init y.1 + ((segEdges 0 y.1 y.2.1).map fun s =>
    transition s.2.2.2 s.2.2.1 + duration s.2.2.1 s.2.1 + emission s.1 s.2.1 s.2.2.1).sum

/-- **C19.** With the potentials of `hsmm`, the score of every segmentation (of at least one step) is its joint log-probability. -/
theorem hsmm_score (init : ℕ → ℕ → ℝ) (transition duration : ℕ → ℕ → ℝ) (emission : T4 ℝ) (hN : 1 ≤ emission.d1) :
    ∃ e, hsmm init transition duration emission = .ok e ∧
      (e.d0, e.d1, e.d2, e.d3, e.d4) = (emission.d0, emission.d1, emission.d2, emission.d3, emission.d3) ∧
      ∀ b, ∀ L, 1 ≤ L → ∀ y : Segmentation emission.d2 emission.d3 L,
        segScore (row e b) y = hsmmScore (init b) transition duration (fun n k c => emission.get b n k c) y := by
  refine ⟨_, by rw [hsmm, if_neg (by omega)], rfl, fun b L hL y => ?_⟩
  obtain ⟨c0, l, h1, h2⟩ := y
  cases l with
  | nil => simp at h2; omega
  | cons s l =>
    have hs := h1 s List.mem_cons_self
    simp only [segScore, hsmmScore, segEdges, List.map_cons, List.sum_cons, row]
    have hl : ∀ x ∈ segEdges (0 + s.1) s.2 l, x.1 ≠ 0 := by
      intro x hx
      have := (segEdges_mem l (0 + s.1) s.2 (fun t ht => h1 t (List.mem_cons_of_mem _ ht)) x hx).1
      omega
    rw [if_pos trivial]
    have e : ((segEdges (0 + s.1) s.2 l).map fun s => (if s.1 = 0 then (0 : ℝ) + init b s.2.2.2 else 0) + transition s.2.2.2 s.2.2.1 +
        duration s.2.2.1 s.2.1 + emission.get b s.1 s.2.1 s.2.2.1) =
        (segEdges (0 + s.1) s.2 l).map fun s => transition s.2.2.2 s.2.2.1 + duration s.2.2.1 s.2.1 + emission.get b s.1 s.2.1 s.2.2.1 := by
      refine List.map_congr_left fun x hx => ?_
      rw [if_neg (hl x hx), zero_add]
    rw [e]
    ring

end Props.SemiMarkov
