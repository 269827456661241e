import Verif.Props.SentCFGEvents

/-! Property theorems C144: span tables that are no trees are rejected. -/

open Spec

noncomputable section
namespace Props.SpanReject

/-- The entry `(i, j)` of the span table can be split: some entry that starts at `i` is followed by one that ends at `j`. -/
def CanSplit (S : ℕ) (f : ℕ → ℕ → ℕ → ℝ) (N i j : ℕ) : Prop := ∃ k B C, k + 1 < N ∧ B < S ∧ C < S ∧ f i k B ≠ 0 ∧ f (k + 1) j C ≠ 0

theorem mem_cover {N S : ℕ} {f : ℕ → ℕ → ℕ → ℝ} (c : CKY.Cell) : c ∈ CKY.cover N S f ↔ c.1 < N ∧ c.2.1 < N ∧ c.2.2 < S ∧ f c.1 c.2.1 c.2.2 ≠ 0 := by
  obtain ⟨i, j, A⟩ := c
  simp only [CKY.cover, List.mem_filter, List.mem_flatMap, List.mem_map, List.mem_range, decide_eq_true_eq, Prod.mk.injEq]
  constructor
  · rintro ⟨⟨i', hi, j', hj, A', hA, rfl, rfl, rfl⟩, h⟩
    exact ⟨hi, hj, hA, h⟩
  · rintro ⟨hi, hj, hA, h⟩
    exact ⟨⟨i, hi, j, hj, A, hA, rfl, rfl, rfl⟩, h⟩

/-- There is a pair of neighbouring entries exactly where the code looks for one. -/
theorem find_none {N S : ℕ} {f : ℕ → ℕ → ℕ → ℝ} {i j : ℕ} (hno : ¬ CanSplit S f N i j) :
    ∀ l ∈ CKY.leftOf (CKY.cover N S f) i, (CKY.rightOf (CKY.cover N S f) j).find? (CKY.fits i j l) = none := by
  intro l hl
  rw [List.find?_eq_none]
  intro r hr hfit
  simp only [CKY.leftOf, CKY.rightOf, List.mem_map, List.mem_filter, decide_eq_true_eq] at hl hr
  obtain ⟨c, ⟨hc, rfl⟩, rfl⟩ := hl
  obtain ⟨d, ⟨hd, rfl⟩, rfl⟩ := hr
  simp only [CKY.fits, decide_eq_true_eq] at hfit
  have h1 := (mem_cover c).1 hc
  have h2 := (mem_cover d).1 hd
  rw [hfit.1] at h2
  exact hno ⟨c.2.1, c.2.2, d.2.2, h2.1, h1.2.2.1, h2.2.2.1, h1.2.2.2, h2.2.2.2⟩

theorem first_none {i j : ℕ} (right : List (ℕ × ℕ × ℤ)) : ∀ left : List (ℕ × ℕ × ℤ), (∀ l ∈ left, right.find? (CKY.fits i j l) = none) →
    left.foldl (CKY.firstStep i j right) none = none
  | [], _ => rfl
  | l :: left, h => by
    have : CKY.firstStep i j right none l = none := by
      simp only [CKY.firstStep, h l List.mem_cons_self, ite_self]
    rw [List.foldl_cons, this]
    exact first_none right left fun x hx => h x (List.mem_cons_of_mem _ hx)

theorem last_none {i j : ℕ} (right : List (ℕ × ℕ × ℤ)) : ∀ left : List (ℕ × ℕ × ℤ), (∀ l ∈ left, right.find? (CKY.fits i j l) = none) →
    left.foldl (CKY.lastStep i j right) none = none
  | [], _ => rfl
  | l :: left, h => by
    have : CKY.lastStep i j right none l = none := by
      simp only [CKY.lastStep, h l List.mem_cons_self]
    rw [List.foldl_cons, this]
    exact last_none right left fun x hx => h x (List.mem_cons_of_mem _ hx)

/-- A loop that raises at one of its elements raises; `P` are the errors that its steps can raise. -/
theorem loop_error {α σ : Type} (step : σ → α → Except PyErr σ) (P : PyErr → Prop) (hP : ∀ s a e, step s a = .error e → P e) :
    ∀ (cs : List α) (s : σ) (c : α), c ∈ cs → (∀ s, ∃ e, step s c = .error e) → ∃ e, P e ∧ cs.foldlM step s = .error e
  | [], _, _, hc, _ => by simp at hc
  | a :: cs, s, c, hc, hs => by
    rw [List.foldlM_cons]
    cases e : step s a with
    | error x => exact ⟨x, hP s a x e, rfl⟩
    | ok s' =>
      rcases List.mem_cons.1 hc with rfl | hc
      · obtain ⟨x, hx⟩ := hs s
        rw [hx] at e
        cases e
      · obtain ⟨x, h1, h2⟩ := loop_error step P hP cs s' c hc hs
        exact ⟨x, h1, h2⟩

/-- **C144.** `_intermediary` raises `AssertionError` when a nonzero entry of more than one word is not the union of two neighbouring entries. -/
theorem intermediary_rejects (N S : ℕ) (f : ℕ → ℕ → ℕ → ℝ) (i j A : ℕ) (hi : i < N) (hj : j < N) (hA : A < S) (hf : f i j A ≠ 0) (hij : i ≠ j) (hno : ¬ CanSplit S f N i j) :
    CKY.intermediaryRow N S f = .error .assertion := by
  have hstep : ∀ s, ∃ e, CKY.splitStep (CKY.cover N S f) s (i, j, A) = .error e := fun s => by
    refine ⟨.assertion, ?_⟩
    have : CKY.firstSplit (CKY.cover N S f) i j = none := first_none _ _ (find_none hno)
    simp only [CKY.splitStep, if_neg hij, this]
  obtain ⟨e, rfl, h⟩ := loop_error (CKY.splitStep (CKY.cover N S f)) (· = .assertion) (by
    intro s a e he
    unfold CKY.splitStep at he
    split_ifs at he
    split at he
    · exact (Except.error.inj he).symm
    · cases he) (CKY.cover N S f) (fun _ => none) (i, j, A) ((mem_cover _).2 ⟨hi, hj, hA, hf⟩) hstep
  exact h

/-- **C144.** So does `to_parts`, unless another entry of the row makes it raise `IndexError` first. -/
theorem to_parts_rejects (NT T N : ℕ) (f : ℕ → ℕ → ℕ → ℝ) (len i j A : ℕ) (hj : j < N) (hA : A < NT + T) (hf : f i j A ≠ 0) (hij : i < j)
    (hno : ¬ CanSplit (NT + T) f N i j) : CKY.toPartsRow NT T N f len = .error .assertion ∨ CKY.toPartsRow NT T N f len = .error .index := by
  have hstep : ∀ s, ∃ e, CKY.partStep NT (CKY.cover N (NT + T) f) s (i, j, A) = .error e := fun s => by
    refine ⟨.assertion, ?_⟩
    have : CKY.lastSplit (CKY.cover N (NT + T) f) i j = none := last_none _ _ (find_none hno)
    simp only [CKY.partStep, if_pos hij, this]
  obtain ⟨e, he, h⟩ := loop_error (CKY.partStep NT (CKY.cover N (NT + T) f)) (fun e => e = .assertion ∨ e = .index) (by
    intro s a e he
    unfold CKY.partStep at he
    split_ifs at he <;> split at he
    · exact Or.inl (Except.error.inj he).symm
    · cases he
    · exact Or.inl (Except.error.inj he).symm
    · exact Or.inr (Except.error.inj he).symm) (CKY.cover N (NT + T) f) (fun _ _ _ => 0) (i, j, A) ((mem_cover _).2 ⟨by dsimp only; omega, hj, hA, hf⟩) hstep
  unfold CKY.toPartsRow
  split_ifs
  · rw [h]
    rcases he with rfl | rfl
    · exact Or.inl rfl
    · exact Or.inr rfl
  · exact Or.inr rfl

/-- Three words; the entry for the whole sentence has only the words below it. -/
def flat (i j A : ℕ) : ℝ := if (i, j, A) ∈ [(0, 2, 0), (0, 0, 1), (1, 1, 1), (2, 2, 1)] then 1 else 0

theorem flat_stuck : ¬ CanSplit 2 flat 3 0 2 := by
  rintro ⟨k, B, C, h1, h2, h3, h4, h5⟩
  simp only [flat, List.mem_cons, Prod.mk.injEq, List.not_mem_nil, or_false, ne_eq, ite_eq_right_iff, one_ne_zero, imp_false, not_not] at h4 h5
  omega

example : CKY.intermediaryRow 3 2 flat = .error .assertion := intermediary_rejects 3 2 flat 0 2 0 (by decide) (by decide) (by decide) (by simp [flat]) (by decide) flat_stuck

example := to_parts_rejects 1 1 3 flat 3 0 2 0 (by decide) (by decide) (by simp [flat]) (by decide) flat_stuck

end Props.SpanReject
