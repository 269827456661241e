import Verif.Model.BertTagger
import Verif.Spec.Tagger
import Verif.Props.LinearChainEvents
import Verif.Props.LinearChainBest
import Verif.Props.LinearChainMarginals
import Verif.Props.BertData
import Verif.Props.BertDep
import Verif.Props.LogProbGradient

/-! C105: the part-of-speech tagger of the notebook is a linear chain with emission and transition scores, and what its evaluation and its loss measure.

`validate` compares the tags that edges lead to: it counts the wrong tags of all positions but the first. -/

open Finset Spec

noncomputable section
namespace Props.BertTagger
open _root_.BertTagger _root_.LinearChain Props.LinearChain

/-- The number of transitions of row `b`: one less than its length. -/
def edges (lengths : List ℕ) (b : ℕ) : ℕ := lengths.getD b 0 - 1

/-- A batch: at least two words per row (the tags include a start and an end symbol), the longest row has `N` words, the gold tags are tags. -/
structure Fits (batch N C : ℕ) (label : T2 ℕ) (lengths : List ℕ) : Prop where
  classes : 0 < C
  words : label.d0 = N
  rows : label.d1 = batch
  tags : ∀ n < N, ∀ b < batch, label.get n b < C
  lens : lengths.length = batch ∧ (∀ x ∈ lengths, x ≤ N) ∧ N ∈ lengths
  long : ∀ x ∈ lengths, 2 ≤ x

/-- The scores are bounded by `B`, far from the stand-in `-1e5`. -/
structure Bounded (batch N C : ℕ) (em : ℕ → ℕ → ℕ → ℝ) (tr : ℕ → ℕ → ℝ) (B : ℝ) : Prop where
  em : ∀ b < batch, ∀ n < N, ∀ c < C, |em b n c| ≤ B
  tr : ∀ i < C, ∀ j < C, |tr i j| ≤ B
  small : 3 * B < 100000

/-- The emission scores of row `b` and the transition scores, for `C` tags. -/
abbrev emOf (C : ℕ) (em : ℕ → ℕ → ℕ → ℝ) (b : ℕ) : ℕ → Fin C → ℝ := fun n c => em b n c
abbrev trOf (C : ℕ) (tr : ℕ → ℕ → ℝ) : Fin C → Fin C → ℝ := fun i j => tr i j

/-- The potentials that `forward` returns. -/
abbrev table (batch N C : ℕ) (em : ℕ → ℕ → ℕ → ℝ) (tr : ℕ → ℕ → ℝ) : T4 ℝ :=
  ⟨batch, N - 1, C, C, fun b n i j => if n = 0 then em b (n + 1) i + tr i j + em b 0 j else em b (n + 1) i + tr i j⟩

theorem forward_ok {batch N C : ℕ} (hN : 2 ≤ N) (em : ℕ → ℕ → ℕ → ℝ) (tr : ℕ → ℕ → ℝ) : forward batch N C em tr = .ok (table batch N C em tr) := by
  unfold forward
  rw [if_neg (by omega)]

variable {batch N C : ℕ} {em : ℕ → ℕ → ℕ → ℝ} {tr : ℕ → ℕ → ℝ} {label : T2 ℕ} {lengths : List ℕ} {B : ℝ}

theorem Fits.two (h : Fits batch N C label lengths) : 2 ≤ N := h.long N h.lens.2.2

theorem Fits.valid (h : Fits batch N C label lengths) : Valid (table batch N C em tr) (some lengths) := by
  have := h.two
  refine ⟨rfl, by show 0 < N - 1; omega, h.classes, h.lens.1, ?_, ?_⟩
  · intro x hx
    show x ≤ N - 1 + 1
    have := h.lens.2.1 x hx; omega
  · show N - 1 + 1 ∈ lengths
    rw [Nat.sub_add_cancel (by omega)]; exact h.lens.2.2

theorem Fits.mem (h : Fits batch N C label lengths) {b : ℕ} (hb : b < batch) : lengths.getD b 0 ∈ lengths := by
  have : b < lengths.length := by rw [h.lens.1]; exact hb
  rw [List.getD_eq_getElem _ _ this]
  exact List.getElem_mem this

theorem Fits.edges_pos (h : Fits batch N C label lengths) {b : ℕ} (hb : b < batch) : 1 ≤ edges lengths b ∧ edges lengths b + 1 ≤ N ∧
    edges lengths b + 1 = lengths.getD b 0 := by
  have h1 := h.long _ (h.mem hb)
  have h2 := h.lens.2.1 _ (h.mem hb)
  unfold edges
  omega

theorem row_score {m : ℕ} (hm : 1 ≤ m) (b : ℕ) (y : Tags m C) :
    seqScore (row (table batch N C em tr) b) y = taggerScore (emOf C em b) (trOf C tr) y := by
  obtain ⟨m, rfl⟩ : ∃ k, m = k + 1 := ⟨m - 1, by omega⟩
  unfold seqScore taggerScore
  have e : ∀ n : Fin (m + 1), row (table batch N C em tr) b n (y n.succ) (y n.castSucc) =
      emOf C em b n.succ (y n.succ) + trOf C tr (y n.succ) (y n.castSucc) + if n = 0 then emOf C em b 0 (y 0) else 0 := by
    intro n
    show (if (n : ℕ) = 0 then em b (n + 1) (y n.succ) + tr (y n.succ) (y n.castSucc) + em b 0 (y n.castSucc)
      else em b (n + 1) (y n.succ) + tr (y n.succ) (y n.castSucc)) = _
    by_cases hn : n = 0
    · subst hn; simp [emOf, trOf]
    · have : (n : ℕ) ≠ 0 := fun h => hn (Fin.ext h)
      rw [if_neg this, if_neg hn, add_zero]
      simp [emOf, trOf]
  simp only [e, sum_add_distrib, sum_ite_eq', mem_univ, if_true]
  rw [Fin.sum_univ_succ (fun n : Fin (m + 2) => emOf C em b n (y n))]
  simp only [Fin.val_zero]
  ring

/-- **C105.** The potentials that `forward` returns score a tag sequence by its emission scores (first word included) and transition scores. -/
theorem forward_spec (em : ℕ → ℕ → ℕ → ℝ) (tr : ℕ → ℕ → ℝ) (h : Fits batch N C label lengths) :
    ∃ p, forward batch N C em tr = .ok p ∧ p.d0 = batch ∧ p.d1 + 1 = N ∧ ∃ hC : p.d2 = C, p.d3 = C ∧ ∀ b < batch, ∀ y : Tags (edges lengths b) p.d2,
      seqScore (row p b) y = taggerScore (emOf p.d2 em b) (trOf p.d2 tr) y := by
  refine ⟨_, forward_ok h.two em tr, rfl, by have := h.two; show N - 1 + 1 = N; omega, rfl, rfl, fun b hb y => row_score (h.edges_pos hb).1 b y⟩

/-- Fewer than two words: `IndexError`. -/
theorem forward_short (em : ℕ → ℕ → ℕ → ℝ) (tr : ℕ → ℕ → ℝ) (hN : N ≤ 1) : forward batch N C em tr = .error .index := if_pos hN

theorem Bounded.low (h : Fits batch N C label lengths) (hB : Bounded batch N C em tr B) :
    LowerBound (table batch N C em tr) (some lengths) (-3 * B) := by
  intro b hb n hn i j
  have h1 : n < edges lengths b := hn
  have h2 := h.edges_pos hb
  show -3 * B ≤ if n = 0 then em b (n + 1) i + tr i j + em b 0 j else em b (n + 1) i + tr i j
  have a1 := abs_le.1 (hB.em b hb (n + 1) (by omega) i i.2)
  have a2 := abs_le.1 (hB.em b hb 0 (by omega) j j.2)
  have a3 := abs_le.1 (hB.tr i i.2 j j.2)
  split_ifs <;> linarith

/-! ### Evaluation -/

/-- The number of positions after the first one with a wrong tag. -/
def wrongTags {m C : ℕ} (y : Tags m C) (gold : ℕ → ℕ) : ℕ := (univ.filter fun n : Fin m => (y n.succ : ℕ) ≠ gold (n + 1)).card

theorem gold_parts (h : Fits batch N C label lengths) : ∃ gold, toParts (transpose label) C (some lengths) = .ok gold ∧
    Encodes gold (transpose label) C (some lengths) := by
  refine toParts_spec _ _ _ ?_ ?_ ?_
  · show 0 < label.d0
    have := h.two; have := h.words; omega
  · intro b hb n hn
    exact h.tags n (by rw [← h.words]; exact hn) b (by rw [← h.rows]; exact hb)
  · rintro l hl
    obtain rfl : lengths = l := by simpa using hl
    exact ⟨by rw [h.lens.1]; exact h.rows.symm, fun x hx => by have := h.long x hx; omega⟩

theorem gold_sum (h : Fits batch N C label lengths) {gold : T4 ℕ} (hg : Encodes gold (transpose label) C (some lengths)) {b n i : ℕ} (hb : b < batch)
    (hn : n < N - 1) (hi : i < C) :
    ∑ j ∈ range gold.d3, (gold.get b n i j : ℝ) = if n < edges lengths b ∧ label.get (n + 1) b = i then 1 else 0 := by
  have hw := h.words; have hr := h.rows
  have d0 : gold.d0 = batch := hg.d0.trans h.rows
  have d1 : gold.d1 + 1 = N := hg.d1.trans h.words
  rw [hg.d3]
  have e : ∀ j ∈ range C, (gold.get b n i j : ℝ) = if label.get n b = j then (if n < edges lengths b ∧ label.get (n + 1) b = i then 1 else 0) else 0 := by
    intro j hj
    rw [hg.get b (by omega) n (by omega) i hi j (mem_range.1 hj)]
    have e1 : lenOf (transpose label).d1 (some lengths) b = lengths.getD b 0 := rfl
    have e2 := (h.edges_pos hb).2.2
    rw [e1, ← e2]
    show ((if n + 1 < edges lengths b + 1 ∧ label.get (n + 1) b = i ∧ label.get n b = j then 1 else 0 : ℕ) : ℝ) = _
    push_cast
    by_cases a1 : n < edges lengths b <;> by_cases a2 : label.get (n + 1) b = i <;> by_cases a3 : label.get n b = j <;> simp [a1, a2, a3]
  rw [sum_congr rfl e, sum_ite_eq, if_pos]
  rw [mem_range]
  exact h.tags n (by omega) b hb

theorem predicted_sum {m : ℕ} (y : Tags m C) (n : ℕ) (i : Fin C) :
    ∑ j : Fin C, (if UsesEdge y n i j then (1 : ℝ) else 0) = if hn : n < m then (if y ⟨n + 1, by omega⟩ = i then 1 else 0) else 0 := by
  by_cases hn : n < m
  · rw [dif_pos hn, sum_eq_single (y ⟨n, by omega⟩)]
    · by_cases hi : y ⟨n + 1, by omega⟩ = i
      · rw [if_pos hi, if_pos ⟨hn, hi, rfl⟩]
      · rw [if_neg hi, if_neg]
        rintro ⟨_, h, _⟩; exact hi h
    · intro j _ hj
      rw [if_neg]
      rintro ⟨_, _, h⟩; exact hj h.symm
    · intro hc; exact absurd (mem_univ _) hc
  · rw [dif_neg hn]
    refine sum_eq_zero fun j _ => if_neg ?_
    rintro ⟨h, _⟩; exact hn h

theorem differ {a c : ℕ} (ha : a < C) (hc : c < C) :
    ∑ i ∈ range C, |(if a = i then (1 : ℝ) else 0) - (if c = i then 1 else 0)| = if a = c then 0 else 2 := by
  have := BertDep.column ha hc
  rw [← this]
  refine sum_congr rfl fun i _ => ?_
  simp only [eq_comm (a := a), eq_comm (a := c)]

theorem row_wrong {m : ℕ} (hm : m ≤ N - 1) (y : Tags m C) (gold : ℕ → ℕ) (hg : ∀ n < N, gold n < C) :
    ∑ n ∈ range (N - 1), ∑ i ∈ range C, |(if hn : n < m then (if (y ⟨n + 1, by omega⟩ : ℕ) = i then (1 : ℝ) else 0) else 0) -
      (if n < m ∧ gold (n + 1) = i then 1 else 0)| = 2 * wrongTags y gold := by
  have e : ∀ n ∈ range (N - 1), ∑ i ∈ range C, |(if hn : n < m then (if (y ⟨n + 1, by omega⟩ : ℕ) = i then (1 : ℝ) else 0) else 0) -
      (if n < m ∧ gold (n + 1) = i then 1 else 0)| = if hn : n < m then (if (y ⟨n + 1, by omega⟩ : ℕ) ≠ gold (n + 1) then 2 else 0) else 0 := by
    intro n hn
    rw [mem_range] at hn
    by_cases h : n < m
    · simp only [h, dif_pos, true_and]
      rw [differ (y ⟨n + 1, by omega⟩).2 (hg (n + 1) (by omega))]
      by_cases he : (y ⟨n + 1, by omega⟩ : ℕ) = gold (n + 1) <;> simp [he]
    · simp [h]
  rw [sum_congr rfl e, ← sum_subset (range_subset_range.2 hm), Finset.sum_range]
  · rw [wrongTags, card_filter, Nat.cast_sum, mul_sum]
    refine sum_congr rfl fun n _ => ?_
    rw [dif_pos n.2]
    have : (y ⟨n + 1, by omega⟩ : ℕ) = y n.succ := rfl
    rw [this]
    by_cases he : (y n.succ : ℕ) ≠ gold (n + 1)
    · simp [he]
    · rw [if_neg he, if_neg he]; simp
  · intro n _ hn
    rw [dif_neg (by simpa using hn)]

theorem row_total {m : ℕ} (hm : m ≤ N - 1) (y : Tags m C) :
    ∑ n ∈ range (N - 1), ∑ i ∈ range C, (if hn : n < m then (if (y ⟨n + 1, by omega⟩ : ℕ) = i then (1 : ℝ) else 0) else 0) = m := by
  have e : ∀ n ∈ range (N - 1), ∑ i ∈ range C, (if hn : n < m then (if (y ⟨n + 1, by omega⟩ : ℕ) = i then (1 : ℝ) else 0) else 0) =
      if n < m then 1 else 0 := by
    intro n _
    by_cases h : n < m
    · simp only [h, dif_pos, if_true]
      rw [sum_ite_eq, if_pos (mem_range.2 (y _).2)]
    · simp [h]
  rw [sum_congr rfl e, ← sum_subset (range_subset_range.2 hm)]
  · rw [sum_congr rfl fun n hn => if_pos (mem_range.1 hn)]; simp
  · intro n _ hn
    rw [if_neg (by simpa using hn)]

/-- **C105.** For every batch, the tags that `validate` evaluates are a sequence of largest emission plus transition score per row, and what it adds up is the number of wrong
tags at all positions but the first, and the number of these positions; ties may be broken in any way. -/
theorem validate_spec (h : Fits batch N C label lengths) (hB : Bounded batch N C em tr B)
    {pick : List (Autograd.Grad (List ℕ)) → Autograd.Grad (List ℕ)} (hp : Autograd.IsArgmax Prod.fst pick) :
    ∃ p, forward batch N C em tr = .ok p ∧ ∃ y : ∀ b, Tags (edges lengths b) C,
      (∀ b < batch, ∀ y' : Tags (edges lengths b) C, taggerScore (emOf C em b) (trOf C tr) y' ≤ taggerScore (emOf C em b) (trOf C tr) (y b)) ∧
      validate pick p label lengths = .ok (((∑ b ∈ range batch, wrongTags (y b) (fun n => label.get n b) : ℕ) : ℝ),
        ((∑ b ∈ range batch, edges lengths b : ℕ) : ℝ)) := by
  refine ⟨_, forward_ok h.two em tr, ?_⟩
  have hlow := hB.low h
  obtain ⟨μ, vs, h1, h2, h3, h4⟩ := argmax_spec (table batch N C em tr) (some lengths) h.valid
    (fun b hb n hn i j => lt_of_lt_of_le (by have := hB.small; linarith) (hlow b hb n hn i j)) pick hp
  obtain ⟨ws, k1, k2, k3⟩ := max_spec (table batch N C em tr) (some lengths) h.valid
    (fun b hb n hn i j => le_trans (by have := hB.small; linarith) (hlow b hb n hn i j))
  rw [h2] at k1
  cases k1
  obtain ⟨gold, g1, g2⟩ := gold_parts h
  have key : ∀ b, ∃ y : Tags (edges lengths b) C, b < batch →
      (∀ y' : Tags (edges lengths b) C, taggerScore (emOf C em b) (trOf C tr) y' ≤ taggerScore (emOf C em b) (trOf C tr) y) ∧
      ∀ n < N - 1, ∀ i j : Fin C, μ [b, n, i, j] = if UsesEdge y n i j then 1 else 0 := by
    intro b
    by_cases hb : b < batch
    · have hb' : b < vs.length := lt_of_lt_of_eq hb h3.symm
      obtain ⟨y, a1, a2⟩ := h4 b hb'
      refine ⟨y, fun _ => ⟨fun y' => ?_, a2⟩⟩
      have hpos := (h.edges_pos hb).1
      rw [← row_score (batch := batch) (N := N) hpos b y, ← row_score (batch := batch) (N := N) hpos b y']
      exact ((k3 b hb').2 y').trans_eq a1.symm
    · exact ⟨fun _ => ⟨0, h.classes⟩, fun hc => absurd hc hb⟩
  choose y hy using key
  refine ⟨y, fun b hb => (hy b hb).1, ?_⟩
  unfold validate
  simp only [h1, g1, bind, Except.bind]
  have d0 : gold.d0 = batch := g2.d0.trans h.rows
  have d1 : gold.d1 + 1 = N := g2.d1.trans h.words
  rw [if_neg (by rintro (hc | hc); exacts [hc d0, hc (by omega)])]
  have hpred : ∀ b < batch, ∀ n < N - 1, ∀ i < C, ∑ j ∈ range C, μ [b, n, i, j] =
      if hn : n < edges lengths b then (if (y b ⟨n + 1, by omega⟩ : ℕ) = i then 1 else 0) else 0 := by
    intro b hb n hn i hi
    rw [Finset.sum_range]
    have := predicted_sum (y b) n ⟨i, hi⟩
    rw [sum_congr rfl fun j _ => ((hy b hb).2 n hn ⟨i, hi⟩ j), this]
    by_cases hn' : n < edges lengths b
    · rw [dif_pos hn', dif_pos hn']
      simp only [Fin.ext_iff]
    · rw [dif_neg hn', dif_neg hn']
  have hle : ∀ b < batch, edges lengths b ≤ N - 1 := fun b hb => by have := h.edges_pos hb; omega
  congr 2
  · rw [div_eq_iff two_ne_zero, Nat.cast_sum, sum_mul]
    refine sum_congr rfl fun b hb => ?_
    rw [mem_range] at hb
    rw [mul_comm, ← row_wrong (hle b hb) (y b) (fun n => label.get n b) fun n hn => h.tags n hn b hb]
    refine sum_congr rfl fun n hn => sum_congr rfl fun i hi => ?_
    rw [hpred b hb n (mem_range.1 hn) i (mem_range.1 hi), gold_sum h g2 hb (mem_range.1 hn) (mem_range.1 hi)]
  · rw [Nat.cast_sum]
    refine sum_congr rfl fun b hb => ?_
    rw [mem_range] at hb
    rw [← row_total (hle b hb) (y b)]
    refine sum_congr rfl fun n hn => sum_congr rfl fun i hi => ?_
    exact hpred b hb n (mem_range.1 hn) i (mem_range.1 hi)

/-- There are at most as many wrong tags as positions after the first one: the error rate is at most 1. -/
theorem wrong_le {m : ℕ} (y : Tags m C) (gold : ℕ → ℕ) : wrongTags y gold ≤ m := (card_filter_le _ _).trans_eq (by simp)

/-- **C105.** The gold tag of the first word has no influence on the evaluation. -/
theorem first_tag_ignored (h : Fits batch N C label lengths) {label' : T2 ℕ} (h' : Fits batch N C label' lengths)
    (he : ∀ n b, n ≠ 0 → label.get n b = label'.get n b) (pick : List (Autograd.Grad (List ℕ)) → Autograd.Grad (List ℕ)) :
    validate pick (table batch N C em tr) label lengths = validate pick (table batch N C em tr) label' lengths := by
  obtain ⟨gold, g1, g2⟩ := gold_parts h
  obtain ⟨gold', g1', g2'⟩ := gold_parts h'
  have d0 : gold.d0 = batch := g2.d0.trans h.rows
  have d1 : gold.d1 + 1 = N := g2.d1.trans h.words
  have d0' : gold'.d0 = batch := g2'.d0.trans h'.rows
  have d1' : gold'.d1 + 1 = N := g2'.d1.trans h'.words
  unfold validate
  cases hμ : Dist.argmax algo (table batch N C em tr) (some lengths) pick with
  | error e => rfl
  | ok μ =>
    simp only [g1, g1', bind, Except.bind]
    rw [if_neg (by rintro (hc | hc); exacts [hc d0, hc (by omega)]), if_neg (by rintro (hc | hc); exacts [hc d0', hc (by omega)])]
    congr 3
    refine sum_congr rfl fun b hb => sum_congr rfl fun n hn => sum_congr rfl fun i hi => ?_
    rw [gold_sum h g2 (mem_range.1 hb) (mem_range.1 hn) (mem_range.1 hi), gold_sum h' g2' (mem_range.1 hb) (mem_range.1 hn) (mem_range.1 hi),
      he (n + 1) b (by omega)]

/-! ### The loss -/

/-- The probability of a tag sequence under the tagger. -/
def tagProb (em : ℕ → Fin C → ℝ) (tr : Fin C → Fin C → ℝ) {m : ℕ} (y : Tags m C) : ℝ :=
  Real.exp (taggerScore em tr y) / ∑ y' : Tags m C, Real.exp (taggerScore em tr y')

/-- **C105.** The number whose negative `train` minimises is the log-likelihood of the gold tags of the batch, up to the error of the stand-in `-1e5`. -/
theorem loss_spec (h : Fits batch N C label lengths) (hB : Bounded batch N C em tr B) (gold : ∀ b, Tags (edges lengths b) C)
    (hgold : ∀ b < batch, ∀ n : Fin (edges lengths b + 1), label.get n b = gold b n) :
    ∃ p v, forward batch N C em tr = .ok p ∧ trainLoss p label lengths = .ok (some v) ∧
      v ≤ ∑ b ∈ range batch, Real.log (tagProb (emOf C em b) (trOf C tr) (gold b)) ∧
      ∑ b ∈ range batch, Real.log (tagProb (emOf C em b) (trOf C tr) (gold b)) - ∑ b ∈ range batch, err p (some lengths) (-100000) (-3 * B) b ≤ v := by
  obtain ⟨vs, e, h1, h2, h3, h4⟩ := logProb_event (table batch N C em tr) (some lengths) h.valid
    (by rintro l hl x hx; obtain rfl : lengths = l := by simpa using hl
        have := h.long x hx; omega)
    (transpose label) h.rows (by have := h.two; have := h.words; show label.d0 = N - 1 + 1; omega)
    (by intro b hb n hn; exact h.tags n (by rw [← h.words]; exact hn) b (by rw [← h.rows]; exact hb))
  obtain ⟨ws, k1, k2, k3⟩ := partition_bounds (table batch N C em tr) (some lengths) h.valid (-3 * B) (hB.low h)
  rw [h1] at k1
  cases k1
  have hlp : ∀ b < batch, logProb (table batch N C em tr) (some lengths) b (fun n i j => (e.get b n i j : ℝ)) =
      .ok (taggerScore (emOf C em b) (trOf C tr) (gold b) - vs.getD b 0) := by
    intro b hb
    have hb' : b < vs.length := lt_of_lt_of_eq hb h2.symm
    rw [h4 b hb' (gold b) (fun n => hgold b hb n), List.getD_eq_getElem _ _ hb']
    congr 2
    exact row_score (h.edges_pos hb).1 b (gold b)
  have hl : ∀ l : List ℕ, (∀ b ∈ l, b < batch) → l.mapM (fun b => logProb (table batch N C em tr) (some lengths) b (fun n i j => (e.get b n i j : ℝ))) =
      .ok (l.map fun b => taggerScore (emOf C em b) (trOf C tr) (gold b) - vs.getD b 0) := by
    intro l
    induction l with
    | nil => intro _; rfl
    | cons b l ih =>
      intro hb
      rw [List.mapM_cons, hlp b (hb b (by simp)), ih (fun b hb' => hb b (by simp [hb']))]
      rfl
  refine ⟨_, ∑ b ∈ range batch, (taggerScore (emOf C em b) (trOf C tr) (gold b) - vs.getD b 0), forward_ok h.two em tr, ?_, ?_, ?_⟩
  · unfold trainLoss
    rw [if_neg]
    · simp only [h3, bind, Except.bind]
      rw [hl _ (fun b hb => List.mem_range.1 hb)]
      simp only [LogProbGradient.sum_range_list]
    · rintro ⟨l, hl, hlt⟩
      have := h.lens.2.1 l hl
      have := h.two
      simp only at hlt
      omega
  all_goals
    have hb2 : ∀ b < batch, Real.log (∑ y' : Tags (edges lengths b) C, Real.exp (taggerScore (emOf C em b) (trOf C tr) y')) ≤ vs.getD b 0 ∧
        vs.getD b 0 ≤ Real.log (∑ y' : Tags (edges lengths b) C, Real.exp (taggerScore (emOf C em b) (trOf C tr) y')) +
          err (table batch N C em tr) (some lengths) (-100000) (-3 * B) b := by
      intro b hb
      have hb' : b < vs.length := lt_of_lt_of_eq hb h2.symm
      rw [List.getD_eq_getElem _ _ hb']
      have := k3 b hb'
      have e1 : ∑ y : Tags (numEdges (table batch N C em tr) (some lengths) b) (table batch N C em tr).d2,
          Real.exp (seqScore (row (table batch N C em tr) b) y) =
          ∑ y' : Tags (edges lengths b) C, Real.exp (taggerScore (emOf C em b) (trOf C tr) y') :=
        sum_congr rfl fun y _ => congrArg Real.exp (row_score (h.edges_pos hb).1 b y)
      simp only [e1] at this
      exact this
    have hlog : ∀ b, Real.log (tagProb (emOf C em b) (trOf C tr) (gold b)) = taggerScore (emOf C em b) (trOf C tr) (gold b) -
        Real.log (∑ y' : Tags (edges lengths b) C, Real.exp (taggerScore (emOf C em b) (trOf C tr) y')) := by
      intro b
      have : Nonempty (Tags (edges lengths b) C) := ⟨gold b⟩
      rw [tagProb, Real.log_div (Real.exp_ne_zero _) (sum_pos (fun _ _ => Real.exp_pos _) univ_nonempty).ne', Real.log_exp]
  · refine sum_le_sum fun b hb => ?_
    rw [hlog]
    linarith [(hb2 b (mem_range.1 hb)).1]
  · rw [← sum_sub_distrib]
    refine sum_le_sum fun b hb => ?_
    rw [hlog]
    linarith [(hb2 b (mem_range.1 hb)).2]

/-- **C105.** A batch whose tags are longer than the potentials allow is skipped. -/
theorem loss_skip (p : T4 ℝ) (h : ∃ l ∈ lengths, p.d1 + 1 < l) : trainLoss p label lengths = .ok none := if_pos h

/-! ### Emissions -/

open BertData in
/-- **C105.** With the mapper of `SubTokenizedField`, the scores of the tags of word `w` of a sentence come from the network's vector at position `slot w + 1` (the first piece
of the word, if the later pieces of every word are marked: `Props.BertData.slot_aligned`).  Tag positions start at 1, the start symbol is 0. -/
theorem emission_spec (H P : ℕ) (lin : ℕ → ℕ → ℝ) (mapper vec : ℕ → ℕ → ℕ → ℝ) (b : ℕ) (pss : List (List BertDep.Str))
    (hm : mapper b = BertDep.mapperRow (wordNumbers pss)) (w : ℕ) (hw : w < pss.length) (hP : slot pss w + 1 < P) (c : ℕ) :
    final H P lin mapper vec b (w + 1) c = ∑ h ∈ range H, vec b (slot pss w + 1) h * lin c h := by
  unfold final
  refine sum_congr rfl fun h _ => ?_
  congr 1
  show ∑ i ∈ range P, mapper b i (w + 1) * vec b i h = _
  rw [sum_congr rfl fun i _ => by rw [hm, mapper_iff pss i w hw]]
  simp only [ite_mul, one_mul, zero_mul, sum_ite_eq', mem_range, if_pos hP]

/-! ### A case -/

/-- Two rows with 4 and 3 words, three tags. -/
def goldTags : T2 ℕ := ⟨4, 2, fun n b => (n + b) % 3⟩

example : Fits 2 4 3 goldTags [4, 3] ∧ Bounded 2 4 3 (fun b n c => (b : ℝ) + n - c) (fun i j => (i : ℝ) * j) 10 ∧
    (∃ gold : ∀ b, Tags (edges [4, 3] b) 3, ∀ b < 2, ∀ n : Fin (edges [4, 3] b + 1), goldTags.get n b = gold b n) := by
  refine ⟨⟨by decide, rfl, rfl, fun n _ b _ => Nat.mod_lt _ (by decide), ⟨rfl, by decide, by decide⟩, by decide⟩, ⟨?_, ?_, by norm_num⟩,
    ⟨fun b n => ⟨(n + b) % 3, Nat.mod_lt _ (by decide)⟩, fun _ _ _ => rfl⟩⟩
  · intro b hb n hn c hc
    interval_cases b <;> interval_cases n <;> interval_cases c <;> norm_num [abs_le]
  · intro i hi j hj
    interval_cases i <;> interval_cases j <;> norm_num [abs_le]

end Props.BertTagger
