import Verif.Props.Dependency
import Verif.Props.LabelledDependency

/-! Property theorems about the encoding of dependency trees (C23): moving root scores to and from the diagonal, and `to_event` / `from_event`. -/

open Spec DepTreeProofs

noncomputable section
namespace Props.DependencyEvents
open DepTree

/-- **C23.** `unconvert(convert(x)) = x` for every square table, labelled or not. -/
theorem unconvert_convert {γ : Type} (neg : γ) (q : Arcs γ) (hr : q.rank = 3 ∨ q.rank = 4) (hs : q.d1 = q.d2) :
    ∃ p, convert neg q = .ok p ∧ unconvert p = q := by
  refine ⟨_, convert_ok neg hr hs, ?_⟩
  cases q with
  | mk rank d0 d1 d2 d3 get =>
    simp only [unconvert, Nat.add_sub_cancel, Arcs.mk.injEq, true_and]
    funext b i j l
    by_cases h : i = j
    · simp [unconvertCell, convertCell, h]
    · simp [unconvertCell, convertCell, h]

/-- What `convert` does: column and diagonal hold the constant, row 0 the root scores, the rest the scores of the arcs between words. -/
theorem convert_spec {γ : Type} (neg : γ) (q : Arcs γ) (hr : q.rank = 3 ∨ q.rank = 4) (hs : q.d1 = q.d2) :
    ∃ p, convert neg q = .ok p ∧ p.d1 = q.d1 + 1 ∧ p.d2 = q.d1 + 1 ∧ ∀ b l, (∀ m, p.get b 0 (m + 1) l = q.get b m m l) ∧
      (∀ h m, h ≠ m → p.get b (h + 1) (m + 1) l = q.get b h m l) ∧ (∀ m, p.get b (m + 1) (m + 1) l = neg) ∧ ∀ h, p.get b h 0 l = neg := by
  refine ⟨_, convert_ok neg hr hs, rfl, by simp only [hs], fun b l => ⟨fun m => ?_, fun h m hne => ?_, fun m => ?_, fun h => ?_⟩⟩
  · simp [convertCell]
  · simp [convertCell, hne]
  · simp [convertCell]
  · simp [convertCell]

/-- The entries that the gradient is moved to (`tag`, used by the model of `marginals`) are those that `unconvert` reads. -/
theorem tag_unconvert (lab : Bool) (b h m i j l : ℕ) :
    tag lab b h m l = [b, i, j] ++ (if lab then [l] else []) ↔ (h, m) = if i = j then (0, j + 1) else (i + 1, j + 1) := by
  unfold tag
  by_cases hm : m = 0
  · subst hm
    rw [if_pos rfl]
    split_ifs <;> simp
  rw [if_neg hm]
  by_cases h0 : h = 0
  · subst h0
    rw [if_pos rfl]
    split_ifs <;> simp <;> omega
  rw [if_neg h0]
  by_cases h1 : h = m
  · subst h1
    rw [if_pos rfl]
    split_ifs <;> simp <;> omega
  · rw [if_neg h1]
    split_ifs <;> simp <;> omega

/-! ### Heads -/

/-- Every row of the heads is in range, and there is a length for every row. -/
structure ValidHeads (batch N : ℕ) (seq : ℕ → ℕ → ℕ) (lengths : Option (List ℕ)) : Prop where
  heads : ∀ b < batch, ∀ n < N, seq b n ≤ N
  lens : ∀ l, lengths = some l → l.length = batch

/-- **C23.** `to_event(heads)`: entry `(i, j)` is 1 exactly if word `j + 1` has head `i + 1` (for `i = j`: the root), and both words are within the row's
length: exactly the arcs that touch a word past the length are cleared. -/
theorem toParts_spec (batch N : ℕ) (seq : ℕ → ℕ → ℕ) (lengths : Option (List ℕ)) (h : ValidHeads batch N seq lengths) :
    ∃ arcs, toParts batch N seq lengths = .ok arcs ∧ ∀ b < batch, ∀ i < N, ∀ j < N,
      arcs b i j = if (if i = j then seq b j = 0 else seq b j = i + 1) ∧ i < lenOf N lengths b ∧ j < lenOf N lengths b then 1 else 0 := by
  refine ⟨fun b i j => unconvertCell (fun b h m _ => clearedCell N seq (lensOr batch (N + 1) lengths) b h m) b i j 0, ?_, ?_⟩
  · unfold toParts
    rw [if_neg, if_neg]
    · cases lengths with
      | none => simp [lensOr]
      | some l => have := h.lens l rfl; simp only [lensOr]; omega
    · rintro ⟨-, b, hb, n, hn, hc⟩
      have := h.heads b hb n hn
      omega
  · intro b hb i hi j hj
    simp only [unconvertCell, clearedCell]
    rw [lensOr_getD hb]
    by_cases hij : i = j
    · subst hij
      simp only [if_true, headCell, Nat.add_sub_cancel]
      split_ifs <;> omega
    · simp only [if_neg hij, headCell, Nat.add_sub_cancel]
      split_ifs <;> omega

/-- `to_event` of the heads of a tree is the event that `log_prob`, `argmax` and `sample` use. -/
theorem toParts_tree (batch N : ℕ) (seq : ℕ → ℕ → ℕ) (lengths : Option (List ℕ)) (h : ValidHeads batch N seq lengths) (b : ℕ) (hb : b < batch)
    {mr : Bool} (t : ProjTrees mr (lenOf N lengths b)) (ht : ∀ k : Fin (lenOf N lengths b), seq b k = t.1 k) :
    ∃ arcs, toParts batch N seq lengths = .ok arcs ∧ ∀ i < N, ∀ j < N, (arcs b i j : ℝ) = Dependency.event t i j 0 := by
  classical
  obtain ⟨arcs, h1, h2⟩ := toParts_spec batch N seq lengths h
  refine ⟨arcs, h1, fun i hi j hj => ?_⟩
  rw [h2 b hb i hi j hj, Dependency.event]
  have key : ((if i = j then seq b j = 0 else seq b j = i + 1) ∧ i < lenOf N lengths b ∧ j < lenOf N lengths b) ↔ HasArc t.1 i j := by
    constructor
    · rintro ⟨ha, h3, h4⟩
      refine ⟨⟨j, h4⟩, rfl, ?_⟩
      have := ht ⟨j, h4⟩
      simp only at this
      rw [this] at ha
      split_ifs at ha ⊢
      · exact Fin.ext ha
      · exact ha
    · intro ha
      refine ⟨?_, Dependency.hasArc_lt ha⟩
      obtain ⟨k, rfl, hc⟩ := ha
      rw [ht k]
      split_ifs at hc ⊢
      · rw [hc]; rfl
      · exact hc
  by_cases hc : HasArc t.1 i j
  · rw [if_pos (key.2 hc), if_pos hc]; exact Nat.cast_one
  · rw [if_neg fun h => hc (key.1 h), if_neg hc]; exact Nat.cast_zero

theorem fold_none (l : List (ℕ × ℕ × ℕ)) (init : ℕ → ℕ → ℕ) (b j : ℕ) (h : ∀ e ∈ l, ¬ (e.1 = b ∧ e.2.2 = j)) : l.foldl fromStep init b j = init b j := by
  induction l generalizing init with
  | nil => rfl
  | cons e l ih =>
    rw [List.foldl_cons, ih _ fun e' he' => h e' (List.mem_cons_of_mem _ he')]
    refine if_neg ?_
    rintro ⟨h1, h2⟩
    exact h e List.mem_cons_self ⟨h1.symm, h2.symm⟩

theorem fold_one (l : List (ℕ × ℕ × ℕ)) (init : ℕ → ℕ → ℕ) (b i j : ℕ) (hu : ∀ e ∈ l, e.1 = b → e.2.2 = j → e.2.1 = i) (hm : (b, i, j) ∈ l) :
    l.foldl fromStep init b j = if i = j then 0 else i + 1 := by
  induction l generalizing init with
  | nil => cases hm
  | cons e l ih =>
    rw [List.foldl_cons]
    by_cases hl : (b, i, j) ∈ l
    · exact ih _ (fun e' he' => hu e' (List.mem_cons_of_mem _ he')) hl
    · rw [fold_none]
      · rcases List.mem_cons.1 hm with rfl | h
        · exact if_pos ⟨rfl, rfl⟩
        · exact absurd h hl
      · rintro ⟨b', i', j'⟩ he' ⟨rfl, rfl⟩
        have := hu _ (List.mem_cons_of_mem _ he') rfl rfl
        simp only at this
        rw [this] at he'
        exact hl he'

/-- **C23.** `from_event(to_event(heads))` is `heads` at every word within the length whose head is a different word within the length or the root, and 0
elsewhere. -/
theorem round_trip (batch N : ℕ) (seq : ℕ → ℕ → ℕ) (lengths : Option (List ℕ)) (h : ValidHeads batch N seq lengths) :
    ∃ arcs, toParts batch N seq lengths = .ok arcs ∧ ∀ b < batch, ∀ j < N, fromParts batch N arcs b j =
      if j < lenOf N lengths b ∧ seq b j ≤ lenOf N lengths b ∧ seq b j ≠ j + 1 then seq b j else 0 := by
  obtain ⟨arcs, h1, h2⟩ := toParts_spec batch N seq lengths h
  refine ⟨arcs, h1, fun b hb j hj => ?_⟩
  have hmem : ∀ e : ℕ × ℕ × ℕ, e ∈ (((List.range batch).flatMap fun b => (List.range N).flatMap fun i => (List.range N).map fun j => (b, i, j)).filter
      fun e => arcs e.1 e.2.1 e.2.2 ≠ 0) ↔ e.1 < batch ∧ e.2.1 < N ∧ e.2.2 < N ∧
        (if e.2.1 = e.2.2 then seq e.1 e.2.2 = 0 else seq e.1 e.2.2 = e.2.1 + 1) ∧ e.2.1 < lenOf N lengths e.1 ∧ e.2.2 < lenOf N lengths e.1 := by
    rintro ⟨b, i, j⟩
    rw [List.mem_filter]
    have e1 := mem_idx3 (a := batch) (b := N) (c := N) (b, i, j)
    rw [idx3] at e1
    rw [e1]
    constructor
    · rintro ⟨⟨hb, hi, hj⟩, hne⟩
      refine ⟨hb, hi, hj, ?_⟩
      by_contra hc
      simp only at hb hi hj hc
      have := h2 b hb i hi j hj
      rw [if_neg hc] at this
      simp [this] at hne
    · rintro ⟨hb, hi, hj, hc⟩
      refine ⟨⟨hb, hi, hj⟩, ?_⟩
      simp only at hb hi hj hc
      have := h2 b hb i hi j hj
      rw [if_pos hc] at this
      simp [this]
  have hb2 := h.heads b hb j hj
  unfold fromParts
  by_cases hc : j < lenOf N lengths b ∧ seq b j ≤ lenOf N lengths b ∧ seq b j ≠ j + 1
  · rw [if_pos hc]
    by_cases h0 : seq b j = 0
    · rw [fold_one _ _ b j j]
      · rw [if_pos rfl, h0]
      · rintro ⟨b', i', j'⟩ he rfl rfl
        obtain ⟨-, -, -, ha, -⟩ := (hmem _).1 he
        simp only at ha h0 ⊢
        split_ifs at ha <;> omega
      · refine (hmem _).2 ⟨hb, hj, hj, ?_, hc.1, hc.1⟩
        simp only
        rw [if_pos trivial]; exact h0
    · rw [fold_one _ _ b (seq b j - 1) j]
      · rw [if_neg (by omega)]; omega
      · rintro ⟨b', i', j'⟩ he rfl rfl
        obtain ⟨-, -, -, ha, -⟩ := (hmem _).1 he
        simp only at ha h0 ⊢
        split_ifs at ha <;> omega
      · refine (hmem _).2 ⟨hb, by simp only; omega, hj, ?_, by simp only; omega, hc.1⟩
        simp only
        rw [if_neg (by omega)]; omega
  · rw [if_neg hc, fold_none]
    rintro ⟨b', i', j'⟩ he ⟨rfl, rfl⟩
    obtain ⟨-, -, -, ha, h3, h4⟩ := (hmem _).1 he
    simp only at ha h3 h4 hc
    refine hc ⟨h4, ?_⟩
    split_ifs at ha <;> omega

/-- **C23.** Without lengths, `from_event(to_event(heads)) = heads` for every head vector in which no word is its own head. -/
theorem round_trip_heads (batch N : ℕ) (seq : ℕ → ℕ → ℕ) (h : ∀ b < batch, ∀ n < N, seq b n ≤ N ∧ seq b n ≠ n + 1) :
    ∃ arcs, toParts batch N seq none = .ok arcs ∧ ∀ b < batch, ∀ j < N, fromParts batch N arcs b j = seq b j := by
  obtain ⟨arcs, h1, h2⟩ := round_trip batch N seq none ⟨fun b hb n hn => (h b hb n hn).1, fun l hl => by simp at hl⟩
  refine ⟨arcs, h1, fun b hb j hj => ?_⟩
  rw [h2 b hb j hj]
  exact if_pos ⟨hj, (h b hb j hj).1, (h b hb j hj).2⟩

/-- A concrete head vector that meets the hypotheses: a tree over three words. -/
example : ∀ b < 2, ∀ n < 3, (fun (_ n : ℕ) => if n = 1 then 0 else 2) b n ≤ 3 ∧ (fun (_ n : ℕ) => if n = 1 then 0 else 2) b n ≠ n + 1 := by
  intro b _ n hn
  interval_cases n <;> simp

/-- A head outside `0 .. N` is rejected. -/
theorem toParts_rejects (batch N : ℕ) (seq : ℕ → ℕ → ℕ) (lengths : Option (List ℕ)) (h : ∃ b < batch, ∃ n < N, N < seq b n) :
    toParts batch N seq lengths = .error .index := by
  unfold toParts
  obtain ⟨b, hb, n, hn, hc⟩ := h
  rw [if_pos ⟨by omega, b, hb, n, hn, hc⟩]

end Props.DependencyEvents
