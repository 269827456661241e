import Mathlib.Tactic.FinCases
import Verif.Model.LinearChainParts
import Verif.Props.LinearChainMarginals

/-! Property theorems about the events of `LinearChainCRF` (`to_event`, `from_event`) and `log_prob`: C08, C13. -/

open Finset Spec LinearChainProofs

noncomputable section
namespace Props.LinearChain
open _root_.LinearChain

/-- A batch of tag sequences whose tags are classes. -/
def Classes (s : T2 ℕ) (C : ℕ) : Prop := ∀ b < s.d0, ∀ n < s.d1, s.get b n < C

/-- `e` encodes the batch of tag sequences `s`, cut at the lengths: an entry is 1 when the sequence goes from tag `j` at position `n` to
tag `i` at position `n + 1 < length`, and 0 otherwise. -/
structure Encodes (e : T4 ℕ) (s : T2 ℕ) (C : ℕ) (lengths : Option (List ℕ)) : Prop where
  d0 : e.d0 = s.d0
  d1 : e.d1 + 1 = s.d1
  d2 : e.d2 = C
  d3 : e.d3 = C
  get : ∀ b < e.d0, ∀ n < e.d1, ∀ i < C, ∀ j < C,
    e.get b n i j = if n + 1 < lenOf s.d1 lengths b ∧ s.get b (n + 1) = i ∧ s.get b n = j then 1 else 0

theorem foldl_set {K V ι : Type} (P : ι → K → Prop) [∀ i k, Decidable (P i k)] (v : V) (l : List ι) (t : K → V) (k : K) :
    (l.foldl (fun t i => fun k => if P i k then v else t k) t) k = (open Classical in if ∃ i ∈ l, P i k then v else t k) := by
  classical
  induction l generalizing t with
  | nil => simp
  | cons a l ih =>
    rw [List.foldl_cons, ih]
    by_cases h1 : ∃ i ∈ l, P i k
    · rw [if_pos h1, if_pos]
      obtain ⟨i, hi, hp⟩ := h1; exact ⟨i, List.mem_cons_of_mem _ hi, hp⟩
    · rw [if_neg h1]
      by_cases h2 : P a k
      · rw [if_pos h2, if_pos ⟨a, List.mem_cons_self, h2⟩]
      · rw [if_neg h2, if_neg]
        rintro ⟨i, hi, hp⟩
        rcases List.mem_cons.1 hi with rfl | hi
        · exact h2 hp
        · exact h1 ⟨i, hi, hp⟩

theorem foldl_write_none {K V : Type} [DecidableEq K] (ws : List (K × V)) (t : K → V) (k : K) (h : ∀ w ∈ ws, w.1 ≠ k) :
    (ws.foldl (fun t w => fun k => if k = w.1 then w.2 else t k) t) k = t k := by
  induction ws generalizing t with
  | nil => rfl
  | cons w ws ih =>
    rw [List.foldl_cons, ih _ fun w hw => h w (List.mem_cons_of_mem _ hw), if_neg (h w List.mem_cons_self).symm]

theorem foldl_write_const {K V : Type} [DecidableEq K] (ws : List (K × V)) (t : K → V) (k : K) (v : V)
    (h1 : ∃ w ∈ ws, w.1 = k) (h2 : ∀ w ∈ ws, w.1 = k → w.2 = v) :
    (ws.foldl (fun t w => fun k => if k = w.1 then w.2 else t k) t) k = v := by
  induction ws generalizing t with
  | nil => simp at h1
  | cons w ws ih =>
    rw [List.foldl_cons]
    by_cases h : ∃ w ∈ ws, w.1 = k
    · exact ih _ h fun w hw => h2 w (List.mem_cons_of_mem _ hw)
    · push Not at h
      rw [foldl_write_none _ _ _ h]
      obtain ⟨w', hw', hk⟩ := h1
      rcases List.mem_cons.1 hw' with rfl | hw'
      · rw [if_pos hk.symm, h2 _ List.mem_cons_self hk]
      · exact absurd hk (h _ hw')

theorem mem_nonzero (e : T4 ℕ) (b n i j : ℕ) :
    (b, n, i, j) ∈ nonzero e ↔ b < e.d0 ∧ n < e.d1 ∧ i < e.d2 ∧ j < e.d3 ∧ e.get b n i j ≠ 0 := by
  simp only [nonzero, List.mem_flatMap, List.mem_range, List.mem_map, List.mem_filter, Prod.mk.injEq, decide_eq_true_eq]
  constructor
  · rintro ⟨b', hb, n', hn, i', hi, j', ⟨hj, h0⟩, rfl, rfl, rfl, rfl⟩
    exact ⟨hb, hn, hi, hj, h0⟩
  · rintro ⟨hb, hn, hi, hj, h0⟩
    exact ⟨b, hb, n, hn, i, hi, j, ⟨hj, h0⟩, rfl, rfl, rfl, rfl⟩

theorem mem_writes (e : T4 ℕ) (w : (ℕ × ℕ) × ℕ) :
    w ∈ (nonzero e).flatMap partWrites ↔ ∃ b n i j, (b < e.d0 ∧ n < e.d1 ∧ i < e.d2 ∧ j < e.d3 ∧ e.get b n i j ≠ 0) ∧
      ((n = 0 ∧ w = ((b, 0), j)) ∨ w = ((b, n + 1), i)) := by
  simp only [List.mem_flatMap]
  constructor
  · rintro ⟨⟨b, n, i, j⟩, h, hw⟩
    refine ⟨b, n, i, j, (mem_nonzero ..).1 h, ?_⟩
    simp only [partWrites, List.mem_append, List.mem_singleton] at hw
    rcases hw with hw | hw
    · split_ifs at hw with h0
      · simp only [List.mem_singleton] at hw
        exact .inl ⟨h0, by rw [hw, h0]⟩
      · simp at hw
    · exact .inr hw
  · rintro ⟨b, n, i, j, h, hw⟩
    refine ⟨(b, n, i, j), (mem_nonzero ..).2 h, ?_⟩
    simp only [partWrites, List.mem_append, List.mem_singleton]
    rcases hw with ⟨h0, hw⟩ | hw
    · left; rw [if_pos h0, hw, h0]; simp
    · exact .inr hw

/-- **C13.** `to_event` of a batch of tag sequences is its encoding: with `lengths`, exactly the edges at positions
`≥ lengths[b] - 1` are zeroed (lengths are at least 1). -/
theorem toParts_spec (s : T2 ℕ) (C : ℕ) (lengths : Option (List ℕ)) (hN : 0 < s.d1) (hC : Classes s C)
    (hl : ∀ l, lengths = some l → l.length = s.d0 ∧ ∀ x ∈ l, 1 ≤ x) :
    ∃ e, toParts s C lengths = .ok e ∧ Encodes e s C lengths := by
  classical
  have hcls : ¬ (2 ≤ s.d1 ∧ ∃ b ∈ List.range s.d0, ∃ n ∈ List.range s.d1, C ≤ s.get b n) := by
    rintro ⟨-, b, hb, n, hn, h⟩
    have := hC b (List.mem_range.1 hb) n (List.mem_range.1 hn); omega
  set lens := lensOr s.d0 s.d1 lengths with hlens
  have hlen : lens.length = s.d0 := by
    cases lengths with
    | none => simp [hlens, lensOr]
    | some l => exact (hl l rfl).1
  have hget : ∀ b < s.d0, lens.getD b 0 = lenOf s.d1 lengths b := by
    intro b hb
    cases lengths with
    | none => simp [hlens, lensOr, lenOf, hb]
    | some l => rfl
  have hpos : ∀ b < s.d0, 1 ≤ lenOf s.d1 lengths b := by
    intro b hb
    cases lengths with
    | none => exact hN
    | some l =>
      have hb' : b < l.length := (hl l rfl).1 ▸ hb
      simp only [lenOf, List.getD_eq_getElem?_getD, List.getElem?_eq_getElem hb', Option.getD_some]
      exact (hl l rfl).2 _ (List.getElem_mem hb')
  refine ⟨_, by
    unfold toParts
    simp only []
    rw [if_neg (by omega), if_neg hcls, if_neg (by rw [← hlens]; omega)], ?_⟩
  refine ⟨rfl, by simp only; omega, rfl, rfl, fun b hb n hn i hi j hj => ?_⟩
  simp only at hb hn
  rw [← hlens]
  have f1 := foldl_set (K := ℕ × ℕ × ℕ × ℕ) (fun (m : ℕ) k => k.2.1 = m - 1 ∧ k.2.2.1 = s.get k.1 m ∧ k.2.2.2 = s.get k.1 (m - 1)) 1
    (List.range' 1 (s.d1 - 1)) (fun _ => 0)
  have f2 := fun t => foldl_set (K := ℕ × ℕ × ℕ × ℕ) (fun (b : ℕ) k =>
    k.1 = b ∧ sliceStart (s.d1 - 1) ((lens.getD b 0 : ℤ) - 1) ≤ k.2.1) 0 (List.range s.d0) t
  -- currying commutes with the folds
  have curry : ∀ {ι : Type} (f : ι → (ℕ × ℕ × ℕ × ℕ → ℕ) → (ℕ × ℕ × ℕ × ℕ → ℕ)) (l : List ι) (t : ℕ × ℕ × ℕ × ℕ → ℕ),
      (l.foldl (fun t i => fun b m i' j => f i (fun k => t k.1 k.2.1 k.2.2.1 k.2.2.2) (b, m, i', j)) (fun b m i j => t (b, m, i, j))) =
        fun b m i j => (l.foldl (fun t i => f i t) t) (b, m, i, j) := by
    intro ι f l
    induction l with
    | nil => intro t; rfl
    | cons a l ih => intro t; rw [List.foldl_cons, List.foldl_cons]; exact ih (f a t)
  have c1 := curry (fun (m : ℕ) t => fun k => if k.2.1 = m - 1 ∧ k.2.2.1 = s.get k.1 m ∧ k.2.2.2 = s.get k.1 (m - 1) then 1 else t k)
    (List.range' 1 (s.d1 - 1)) (fun _ => 0)
  simp only at c1
  rw [c1]
  have c2 := curry (fun (b : ℕ) t => fun k => if k.1 = b ∧ sliceStart (s.d1 - 1) ((lens.getD b 0 : ℤ) - 1) ≤ k.2.1 then 0 else t k)
    (List.range s.d0) (fun k => (List.range' 1 (s.d1 - 1)).foldl (fun t m => fun k =>
      if k.2.1 = m - 1 ∧ k.2.2.1 = s.get k.1 m ∧ k.2.2.2 = s.get k.1 (m - 1) then 1 else t k) (fun _ => 0) k)
  simp only at c2
  rw [c2]
  beta_reduce
  simp only
  rw [f2, f1]
  have e1 : (∃ i ∈ List.range s.d0, b = i ∧ sliceStart (s.d1 - 1) ((lens.getD i 0 : ℤ) - 1) ≤ n) ↔ ¬ n + 1 < lenOf s.d1 lengths b := by
    have hs : sliceStart (s.d1 - 1) ((lens.getD b 0 : ℤ) - 1) = lenOf s.d1 lengths b - 1 := by
      have := hpos b hb
      rw [hget b hb, sliceStart, if_neg (by omega)]; omega
    constructor
    · rintro ⟨_, -, rfl, h⟩
      rw [hs] at h; omega
    · intro h
      exact ⟨b, List.mem_range.2 hb, rfl, by rw [hs]; omega⟩
  have e2 : (∃ m ∈ List.range' 1 (s.d1 - 1), n = m - 1 ∧ i = s.get b m ∧ j = s.get b (m - 1)) ↔ s.get b (n + 1) = i ∧ s.get b n = j := by
    constructor
    · rintro ⟨m, hm, rfl, rfl, rfl⟩
      rw [List.mem_range'_1] at hm
      rw [Nat.sub_add_cancel hm.1]; exact ⟨rfl, rfl⟩
    · rintro ⟨rfl, rfl⟩
      exact ⟨n + 1, by rw [List.mem_range'_1]; omega, rfl, rfl, rfl⟩
  simp only [e1, e2]
  by_cases h1 : n + 1 < lenOf s.d1 lengths b
  · simp [h1]
  · simp [h1]

/-- **C13.** `from_event` of an encoding gives the tags back: every tag of the row when the row has at least 2 tags, and 0 in the padding. -/
theorem fromParts_spec (e : T4 ℕ) (s : T2 ℕ) (C : ℕ) (lengths : Option (List ℕ)) (hC : Classes s C) (h : Encodes e s C lengths)
    (hle : ∀ b < s.d0, lenOf s.d1 lengths b ≤ s.d1) :
    (fromParts e).1.d0 = s.d0 ∧ (fromParts e).1.d1 = s.d1 ∧ (fromParts e).2 = C ∧
    ∀ b < s.d0, 2 ≤ lenOf s.d1 lengths b → ∀ n < s.d1,
      (fromParts e).1.get b n = if n < lenOf s.d1 lengths b then s.get b n else 0 := by
  refine ⟨h.d0, h.d1, h.d2, fun b hb hlen n hn => ?_⟩
  have hd1 := h.d1
  have hle := hle b hb
  have hbe : b < e.d0 := h.d0 ▸ hb
  -- which entries of the row are set
  have hset : ∀ n i j, (n < e.d1 ∧ i < e.d2 ∧ j < e.d3 ∧ e.get b n i j ≠ 0) →
      n + 1 < lenOf s.d1 lengths b ∧ s.get b (n + 1) = i ∧ s.get b n = j := by
    rintro n i j ⟨hn, hi, hj, h0⟩
    rw [h.get b hbe n hn i (h.d2 ▸ hi) j (h.d3 ▸ hj)] at h0
    by_contra hc
    rw [if_neg hc] at h0; exact h0 rfl
  have hset' : ∀ n, n < e.d1 → n + 1 < lenOf s.d1 lengths b →
      n < e.d1 ∧ s.get b (n + 1) < e.d2 ∧ s.get b n < e.d3 ∧ e.get b n (s.get b (n + 1)) (s.get b n) ≠ 0 := by
    intro n hn hl
    have hi : s.get b (n + 1) < C := hC b hb _ (by omega)
    have hj : s.get b n < C := hC b hb _ (by omega)
    refine ⟨hn, by rw [h.d2]; exact hi, by rw [h.d3]; exact hj, ?_⟩
    rw [h.get b hbe n hn _ hi _ hj, if_pos ⟨hl, rfl, rfl⟩]; exact one_ne_zero
  have hw : ∀ w ∈ (nonzero e).flatMap partWrites, w.1 = (b, n) → n < lenOf s.d1 lengths b ∧ w.2 = s.get b n := by
    intro w hw hk
    obtain ⟨b', n', i, j, ⟨_, hn', hi, hj, h0⟩, hw⟩ := (mem_writes e w).1 hw
    rcases hw with ⟨rfl, rfl⟩ | rfl
    · simp only [Prod.mk.injEq] at hk
      obtain ⟨rfl, rfl⟩ := hk
      obtain ⟨h1, -, h3⟩ := hset 0 i j ⟨hn', hi, hj, h0⟩
      exact ⟨by omega, h3.symm⟩
    · simp only [Prod.mk.injEq] at hk
      obtain ⟨rfl, rfl⟩ := hk
      obtain ⟨h1, h2, -⟩ := hset n' i j ⟨hn', hi, hj, h0⟩
      exact ⟨h1, h2.symm⟩
  unfold fromParts
  simp only
  split_ifs with hl
  · refine foldl_write_const _ _ _ _ ?_ fun w hw' hk => (hw w hw' hk).2
    rcases Nat.eq_zero_or_pos n with rfl | hn0
    · obtain ⟨h1, h2, h3, h4⟩ := hset' 0 (by omega) (by omega)
      exact ⟨_, (mem_writes e _).2 ⟨b, 0, _, _, ⟨hbe, h1, h2, h3, h4⟩, .inl ⟨rfl, rfl⟩⟩, rfl⟩
    · obtain ⟨n, rfl⟩ : ∃ k, n = k + 1 := ⟨n - 1, by omega⟩
      obtain ⟨h1, h2, h3, h4⟩ := hset' n (by omega) (by omega)
      exact ⟨_, (mem_writes e _).2 ⟨b, n, _, _, ⟨hbe, h1, h2, h3, h4⟩, .inr rfl⟩, rfl⟩
  · exact foldl_write_none _ _ _ fun w hw' hk => hl (hw w hw' hk).1

/-- **C13.** `from_event(to_event(y)) = y` for every batch of sequences of at least 2 tags. -/
theorem fromParts_toParts (s : T2 ℕ) (C : ℕ) (hN : 2 ≤ s.d1) (hC : Classes s C) :
    ∃ e, toParts s C none = .ok e ∧ (fromParts e).2 = C ∧ (fromParts e).1.d0 = s.d0 ∧ (fromParts e).1.d1 = s.d1 ∧
      ∀ b < s.d0, ∀ n < s.d1, (fromParts e).1.get b n = s.get b n := by
  obtain ⟨e, h1, h2⟩ := toParts_spec s C none (by omega) hC (by simp)
  obtain ⟨a1, a2, a3, a4⟩ := fromParts_spec e s C none hC h2 (fun _ _ => le_rfl)
  refine ⟨e, h1, a3, a1, a2, fun b hb n hn => ?_⟩
  rw [a4 b hb hN n hn]
  simp [lenOf, hn]

/-- **C13.** `to_event(from_event(e)) = e` for every event that encodes a batch of sequences of at least 2 tags. -/
theorem toParts_fromParts (e : T4 ℕ) (s : T2 ℕ) (C : ℕ) (hN : 2 ≤ s.d1) (hC : Classes s C) (h : Encodes e s C none) :
    ∃ e', toParts (fromParts e).1 (fromParts e).2 none = .ok e' ∧ e'.d0 = e.d0 ∧ e'.d1 = e.d1 ∧ e'.d2 = e.d2 ∧ e'.d3 = e.d3 ∧
      ∀ b < e.d0, ∀ n < e.d1, ∀ i < e.d2, ∀ j < e.d3, e'.get b n i j = e.get b n i j := by
  obtain ⟨a1, a2, a3, a4⟩ := fromParts_spec e s C none hC h (fun _ _ => le_rfl)
  have hd0 := h.d0; have hd1 := h.d1; have hd2 := h.d2; have hd3 := h.d3
  have hg : ∀ b < s.d0, ∀ n < s.d1, (fromParts e).1.get b n = s.get b n := by
    intro b hb n hn
    rw [a4 b hb hN n hn]; simp [lenOf, hn]
  obtain ⟨e', h1, h2⟩ := toParts_spec (fromParts e).1 (fromParts e).2 none (by omega)
    (by intro b hb n hn; rw [hg b (by omega) n (by omega), a3]; exact hC b (by omega) n (by omega)) (by simp)
  have k0 := h2.d0; have k1 := h2.d1; have k2 := h2.d2; have k3 := h2.d3
  refine ⟨e', h1, by omega, by omega, by omega, by omega, fun b hb n hn i hi j hj => ?_⟩
  rw [h2.get b (by omega) n (by omega) i (by omega) j (by omega), h.get b hb n hn i (by omega) j (by omega)]
  simp only [lenOf]
  rw [hg b (by omega) (n + 1) (by omega), hg b (by omega) n (by omega), a2]

/-- Non-vacuity: two sequences of 3 tags, the second of length 2. -/
def sampleTags : T2 ℕ := ⟨2, 3, fun b n => if b = 0 then n % 2 else 1 - n % 2⟩

example : Classes sampleTags 2 := by
  intro b _ n _; simp only [sampleTags]; split_ifs <;> omega

example : ∃ e, toParts sampleTags 2 (some [3, 2]) = .ok e ∧ Encodes e sampleTags 2 (some [3, 2]) :=
  toParts_spec _ _ _ (by simp [sampleTags]) (by intro b _ n _; simp only [sampleTags]; split_ifs <;> omega)
    (by rintro l ⟨⟩; simp [sampleTags])

/-- The hypothesis that lengths are at least 1 is needed: with length 0 the slice `labels[b, -1:]` clears only the last edge, so
the event of a row of length 0 keeps an edge. -/
theorem toParts_length_zero : ∃ (s : T2 ℕ) (e : T4 ℕ), toParts s 1 (some [0, 3]) = .ok e ∧ e.get 0 0 0 0 = 1 := by
  refine ⟨⟨2, 3, fun _ _ => 0⟩, _, rfl, ?_⟩
  simp [sliceStart, lensOr, List.range', List.range_succ]

/-- `from_event` cannot recover a single tag: with `N = 1` there are no edges, and the tag read back is 0. -/
theorem fromParts_single_tag : ∃ (s : T2 ℕ) (e : T4 ℕ), toParts s 2 none = .ok e ∧ Classes s 2 ∧ s.get 0 0 = 1 ∧ (fromParts e).1.get 0 0 = 0 := by
  refine ⟨⟨1, 1, fun _ _ => 1⟩, _, rfl, ?_, rfl, ?_⟩
  · intro b _ n _; norm_num
  · simp [fromParts, nonzero]

/-! ### `log_prob` -/

theorem sum_map_range (m : ℕ) (f : ℕ → ℝ) : ((List.range m).map f).sum = ∑ n : Fin m, f n := by
  rw [← List.sum_toFinset _ List.nodup_range, List.toFinset_range, Finset.sum_range]

theorem sum_flatMap {α : Type} (l : List α) (f : α → List ℝ) : (l.flatMap f).sum = (l.map fun a => (f a).sum).sum := by
  induction l with
  | nil => rfl
  | cons a l ih => simp [List.flatMap_cons, ih]

theorem score_event (m C L : ℕ) (φ : ℕ → Fin C → Fin C → ℝ) (f g : ℕ → ℕ → ℕ → ℝ) (hL : L ≤ m) (y : Tags L C)
    (hf : ∀ n < L, ∀ i j : Fin C, f n i j = φ n i j)
    (hg : ∀ n < m, ∀ i j : Fin C, g n i j = if UsesEdge y n i j then 1 else 0) :
    Struct.score (((List.range m).flatMap fun n => (List.range C).flatMap fun i =>
      (List.range C).map fun j => (n, i, j)).map fun x => f x.1 x.2.1 x.2.2)
      (((List.range m).flatMap fun n => (List.range C).flatMap fun i =>
      (List.range C).map fun j => (n, i, j)).map fun x => g x.1 x.2.1 x.2.2) = seqScore φ y := by
  rw [Struct.score, List.zipWith_map, List.zipWith_self, List.map_flatMap, sum_flatMap, sum_map_range]
  have h1 : ∀ n : Fin m, (((List.range C).flatMap fun i => (List.range C).map fun j => ((n : ℕ), i, j)).map fun a =>
      f a.1 a.2.1 a.2.2 * g a.1 a.2.1 a.2.2).sum = ∑ i : Fin C, ∑ j : Fin C, f n i j * g n i j := by
    intro n
    rw [List.map_flatMap, sum_flatMap, sum_map_range]
    refine sum_congr rfl fun i _ => ?_
    rw [List.map_map, sum_map_range]; rfl
  simp only [h1]
  rw [← Finset.sum_range (fun n => ∑ i : Fin C, ∑ j : Fin C, f n i j * g n i j)]
  have h2 : ∀ n ∈ range m, (∑ i : Fin C, ∑ j : Fin C, f n i j * g n i j) =
      if h : n < L then φ n (y ⟨n + 1, by omega⟩) (y ⟨n, by omega⟩) else 0 := by
    intro n hn
    split_ifs with h
    · rw [sum_eq_single (y ⟨n + 1, by omega⟩), sum_eq_single (y ⟨n, by omega⟩)]
      · rw [hg n (mem_range.1 hn), if_pos ⟨h, rfl, rfl⟩, mul_one, hf n h]
      · intro j _ hj
        rw [hg n (mem_range.1 hn), if_neg, mul_zero]
        rintro ⟨_, _, h'⟩; exact hj h'.symm
      · simp
      · intro i _ hi
        refine sum_eq_zero fun j _ => ?_
        rw [hg n (mem_range.1 hn), if_neg, mul_zero]
        rintro ⟨_, h', _⟩; exact hi h'.symm
      · simp
    · refine sum_eq_zero fun i _ => sum_eq_zero fun j _ => ?_
      rw [hg n (mem_range.1 hn), if_neg, mul_zero]
      rintro ⟨h', _⟩; exact h h'
  rw [sum_congr rfl h2, ← sum_subset (range_subset_range.2 hL), Finset.sum_range]
  · refine sum_congr rfl fun n _ => ?_
    rw [dif_pos n.2]; rfl
  · intro n _ hn
    rw [dif_neg (by simpa using hn)]

/-- Row `b` of the batch `s` is the tag sequence `y` (of `L + 1` tags; the rest of the row is padding). -/
def IsRow {L C : ℕ} (s : T2 ℕ) (b : ℕ) (y : Tags L C) : Prop := ∀ n : Fin (L + 1), s.get b n = y n

/-- **C08.** For a batch of tag sequences, `log_prob(to_event(y))` of row `b` is the score of its tag sequence minus the partition. -/
theorem logProb_event (p : T4 ℝ) (lengths : Option (List ℕ)) (h : Valid p lengths)
    (hpos : ∀ l, lengths = some l → ∀ x ∈ l, 1 ≤ x) (s : T2 ℕ) (hs0 : s.d0 = p.d0) (hs1 : s.d1 = p.d1 + 1) (hC : Classes s p.d2) :
    ∃ vs e, Dist.partition algo p lengths = .ok vs ∧ vs.length = p.d0 ∧ toParts s p.d2 lengths = .ok e ∧
      ∀ b (hb : b < vs.length) (y : Tags (numEdges p lengths b) p.d2), IsRow s b y →
        logProb p lengths b (fun n i j => e.get b n i j) = .ok (seqScore (row p b) y - vs[b]) := by
  obtain ⟨vs, h1, h2, -⟩ := partition_closed_form p lengths h
  obtain ⟨e, h3, h4⟩ := toParts_spec s p.d2 lengths (by omega) hC (by
    rintro l rfl
    exact ⟨by rw [hs0]; exact h.lens.1, hpos l rfl⟩)
  refine ⟨vs, e, h1, h2, h3, fun b hb y hy => ?_⟩
  have k0 := h4.d0; have k1 := h4.d1
  have hlen : lenOf (p.d1 + 1) lengths b ≤ p.d1 + 1 := lenOf_le h.lens b
  have hL : numEdges p lengths b ≤ p.d1 := by unfold numEdges; omega
  have key := score_event p.d1 p.d2 (numEdges p lengths b) (row p b) (p.get b) (fun n i j => (e.get b n i j : ℝ)) hL y
    (fun n _ i j => rfl) (by
      intro n hn i j
      rw [h4.get b (by omega) n (by omega) i i.2 j j.2]
      have hiff : (n + 1 < lenOf s.d1 lengths b ∧ s.get b (n + 1) = i ∧ s.get b n = j) ↔ UsesEdge y n i j := by
        rw [hs1]
        constructor
        · rintro ⟨ha, hi, hj⟩
          have hn' : n < numEdges p lengths b := by unfold numEdges; omega
          refine ⟨hn', Fin.ext ?_, Fin.ext ?_⟩
          · rw [← hi]; exact (hy ⟨n + 1, by omega⟩).symm
          · rw [← hj]; exact (hy ⟨n, by omega⟩).symm
        · rintro ⟨hn', hi, hj⟩
          refine ⟨by unfold numEdges at hn'; omega, ?_, ?_⟩
          · rw [← hi]; exact hy ⟨n + 1, by omega⟩
          · rw [← hj]; exact hy ⟨n, by omega⟩
      simp only [hiff]
      split_ifs <;> simp)
  unfold logProb
  rw [h1]
  change Except.ok _ = _
  rw [← h.square]
  congr 1
  rw [key]
  congr 1
  simp [List.getD_eq_getElem?_getD, hb]

/-- **C08.** `log_prob` is normalised: the probabilities `exp(log_prob(to_event(y)))` of all tag sequences `y` of a row sum to 1, up to the
error caused by the stand-in `zero = -1e5`: the sum is at most 1 and at least `exp(-err)`. -/
theorem logProb_normalised (p : T4 ℝ) (lengths : Option (List ℕ)) (h : Valid p lengths) (m : ℝ) (hm : LowerBound p lengths m)
    (hpos : ∀ l, lengths = some l → ∀ x ∈ l, 1 ≤ x) (b : ℕ) (hb : b < p.d0) :
    ∃ lp : Tags (numEdges p lengths b) p.d2 → ℝ,
      (∀ y, ∀ s : T2 ℕ, s.d0 = p.d0 → s.d1 = p.d1 + 1 → Classes s p.d2 → IsRow s b y →
        ∃ e, toParts s p.d2 lengths = .ok e ∧ logProb p lengths b (fun n i j => e.get b n i j) = .ok (lp y)) ∧
      Real.exp (-err p lengths (-100000) m b) ≤ ∑ y, Real.exp (lp y) ∧ ∑ y, Real.exp (lp y) ≤ 1 := by
  obtain ⟨vs, h1, h2, h3⟩ := partition_bounds p lengths h m hm
  have hb' : b < vs.length := by omega
  have h3 := h3 b hb'
  refine ⟨fun y => seqScore (row p b) y - vs[b], fun y s hs0 hs1 hC hy => ?_, ?_⟩
  · obtain ⟨vs', e, k1, k2, k3, k4⟩ := logProb_event p lengths h hpos s hs0 hs1 hC
    obtain rfl : vs = vs' := by rw [h1] at k1; exact Except.ok.inj k1
    exact ⟨e, k3, k4 b hb' y hy⟩
  · have : Nonempty (Fin p.d2) := ⟨⟨0, h.classes⟩⟩
    have hz : 0 < ∑ y : Tags (numEdges p lengths b) p.d2, Real.exp (seqScore (row p b) y) :=
      sum_pos (fun y _ => Real.exp_pos _) univ_nonempty
    have e : ∑ y : Tags (numEdges p lengths b) p.d2, Real.exp (seqScore (row p b) y - vs[b]) =
        Real.exp (Real.log (∑ y : Tags (numEdges p lengths b) p.d2, Real.exp (seqScore (row p b) y)) - vs[b]) := by
      rw [Real.exp_sub, Real.exp_log hz, sum_div]
      exact sum_congr rfl fun y _ => Real.exp_sub _ _
    simp only at h3
    rw [e]
    constructor
    · apply Real.exp_le_exp.2; unfold err; linarith [h3.2]
    · rw [Real.exp_le_one_iff]; linarith [h3.1]

/-- Non-vacuity: the hypotheses hold for the two-row example, with tags `0,1,0` and `1,0`. -/
example : ∃ vs e, Dist.partition algo sample (some [3, 2]) = .ok vs ∧ vs.length = 2 ∧ toParts sampleTags 2 (some [3, 2]) = .ok e ∧
    ∀ b (hb : b < vs.length) (y : Tags (numEdges sample (some [3, 2]) b) 2), IsRow sampleTags b y →
      logProb sample (some [3, 2]) b (fun n i j => e.get b n i j) = .ok (seqScore (row sample b) y - vs[b]) :=
  logProb_event sample (some [3, 2]) sample_valid (by rintro l ⟨⟩; simp) sampleTags rfl rfl
    (by intro b _ n _; simp only [sampleTags, sample]; split_ifs <;> omega)

example : IsRow sampleTags 1 (![1, 0] : Tags 1 2) := by
  intro n; fin_cases n <;> simp [sampleTags]

end Props.LinearChain
