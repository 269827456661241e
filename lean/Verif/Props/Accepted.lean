import Verif.Proofs.LinearChain
import Verif.Proofs.SemiMarkov
import Verif.Model.DepTree
import Verif.Model.CKY
import Verif.Model.NonProj
import Verif.Spec.Lengths
import Mathlib.Tactic.SplitIfs

/-! Which calls are accepted (C43): for every program and every semiring, a call returns a value exactly when its arguments have the stated
shape, and then it returns one value per row; every other call raises. -/

namespace Props.Accepted
open Spec

variable {α : Type}

theorem max?_iff (l : List ℕ) (N : ℕ) : l.max? = some N ↔ (∀ x ∈ l, x ≤ N) ∧ N ∈ l := by
  rw [List.max?_eq_some_iff]; exact ⟨fun h => ⟨h.2, h.1⟩, fun h => ⟨h.2, h.1⟩⟩

/-- `_check_potentials` of the linear chain. -/
theorem chain_check {P : Type} (edge : T4 P) (lengths : Option (List ℕ)) (lens : List ℕ) :
    LinearChain.checkPotentials edge lengths = .ok lens ↔
      edge.d2 = edge.d3 ∧ lens = LinearChain.lensOr edge.d0 (edge.d1 + 1) lengths ∧
        ∀ l, lengths = some l → (∀ x ∈ l, x ≤ edge.d1 + 1) ∧ edge.d1 + 1 ∈ l := by
  by_cases hsq : edge.d2 = edge.d3
  · cases lengths with
    | none => simp [LinearChain.checkPotentials, hsq, bind, Except.bind, LinearChain.lensOr, eq_comm]
    | some l =>
      have key := max?_iff l (edge.d1 + 1)
      simp only [LinearChain.checkPotentials, hsq, bind, Except.bind, LinearChain.lensOr, true_and, if_true, Option.some.injEq]
      constructor
      · intro h
        cases hm : l.max? with
        | none => simp [hm] at h
        | some m =>
          simp only [hm] at h
          split_ifs at h with h1 h2
          subst h2
          simp only [Except.ok.injEq] at h
          subst h
          exact ⟨rfl, fun l' hl => by subst hl; exact key.1 hm⟩
      · rintro ⟨rfl, h⟩
        have := key.2 (h _ rfl)
        simp [this]
  · simp only [hsq, false_and, iff_false]
    cases lengths with
    | none => simp [LinearChain.checkPotentials, hsq, bind, Except.bind]
    | some l =>
      cases hm : l.max? with
      | none => simp [LinearChain.checkPotentials, hm, bind, Except.bind]
      | some m => simp only [LinearChain.checkPotentials, hm, bind, Except.bind]; split_ifs <;> simp [hsq]

/-- `_check_potentials` of the semi-Markov model. -/
theorem semimarkov_check {P : Type} (edge : T5 P) (lengths : Option (List ℕ)) (lens : List ℕ) :
    SemiMarkov.checkPotentials edge lengths = .ok lens ↔
      edge.d3 = edge.d4 ∧ lens = LinearChain.lensOr edge.d0 (edge.d1 + 1) lengths ∧ (lengths = none → 1 ≤ edge.d0) ∧
        ∀ l, lengths = some l → (∀ x ∈ l, x ≤ edge.d1 + 1) ∧ edge.d1 + 1 ∈ l := by
  have hm : (∃ m, (LinearChain.lensOr edge.d0 (edge.d1 + 1) lengths).max? = some m ∧ m = edge.d1 + 1) ↔
      (lengths = none → 1 ≤ edge.d0) ∧ ∀ l, lengths = some l → (∀ x ∈ l, x ≤ edge.d1 + 1) ∧ edge.d1 + 1 ∈ l := by
    simp only [exists_eq_right, List.max?_eq_some_iff]
    cases lengths with
    | none => simp [LinearChain.lensOr, List.mem_replicate]; omega
    | some l => simp [LinearChain.lensOr, and_comm]
  rw [← hm, SemiMarkov.checkPotentials]
  split
  · rename_i h
    simp [h]
  · rename_i m h
    simp only [h, Option.some.injEq]
    split_ifs with h1 h2 h3
    · simp only [Except.ok.injEq]
      exact ⟨fun e => ⟨h3, e.symm, m, rfl, h2⟩, fun e => e.2.1.symm⟩
    · simp [h3]
    · simp only [reduceCtorEq, false_iff]
      rintro ⟨-, -, _, rfl, e⟩; exact h2 e
    · simp only [reduceCtorEq, false_iff]
      rintro ⟨-, -, _, rfl, e⟩; omega

theorem replicate_length {batch N : ℕ} (lengths : Option (List ℕ)) :
    (LinearChain.lensOr batch N lengths).length = batch ↔ ∀ l, lengths = some l → l.length = batch := by
  cases lengths with
  | none => simp [LinearChain.lensOr]
  | some l => simp [LinearChain.lensOr]

theorem valid_iff {batch N : ℕ} (lengths : Option (List ℕ)) :
    ValidLengths batch N lengths ↔ (∀ l, lengths = some l → (∀ x ∈ l, x ≤ N) ∧ N ∈ l) ∧ ∀ l, lengths = some l → l.length = batch := by
  cases lengths with
  | none => simp [ValidLengths]
  | some l => simp only [ValidLengths, Option.some.injEq, forall_eq']; tauto

/-- **C43, linear chain.**  A call is accepted exactly when the transition tables are square, there are at least two positions, and `lengths` is
omitted or has one entry per row, none above `N`, one equal to `N`. -/
theorem chain_accepts (S : SR α) (edge : T4 α) (lengths : Option (List ℕ)) :
    (∃ vs, LinearChain.logpartition S edge lengths = .ok vs) ↔
      edge.d2 = edge.d3 ∧ 1 ≤ edge.d1 ∧ ValidLengths edge.d0 (edge.d1 + 1) lengths := by
  constructor
  · rintro ⟨vs, h⟩
    simp only [LinearChain.logpartition, bind, Except.bind] at h
    cases hc : LinearChain.checkPotentials edge lengths with
    | error e => simp [hc] at h
    | ok lens =>
      obtain ⟨h1, h2, h3⟩ := (chain_check edge lengths lens).1 hc
      simp only [hc, Struct.binLength] at h
      by_cases h0 : edge.d1 = 0
      · simp [h0] at h
      · simp only [if_neg h0] at h
        split_ifs at h with h4
        refine ⟨h1, by omega, (valid_iff lengths).2 ⟨h3, ?_⟩⟩
        rw [h2] at h4
        exact (replicate_length lengths).1 h4
  · rintro ⟨h1, h2, h3⟩
    exact ⟨_, LinearChainProofs.logpartition_ok S edge lengths h1 h2 h3⟩

/-- An accepted call of the linear chain returns one value per row. -/
theorem chain_rows (S : SR α) (edge : T4 α) (lengths : Option (List ℕ)) (vs : List α)
    (h : LinearChain.logpartition S edge lengths = .ok vs) : vs.length = edge.d0 := by
  obtain ⟨h1, h2, h3⟩ := (chain_accepts S edge lengths).1 ⟨vs, h⟩
  rw [LinearChainProofs.logpartition_ok S edge lengths h1 h2 h3] at h
  simp only [Except.ok.injEq] at h
  simp [← h]

/-- **C43, semi-Markov.**  As for the linear chain; moreover the batch must have a row (the maximum of no lengths is an error here also when
`lengths` is omitted), and the segment dimension must be at least 2 (at `K = 1` no segment exists). -/
theorem semimarkov_accepts (S : SR α) (edge : T5 α) (lengths : Option (List ℕ)) :
    (∃ vs, SemiMarkov.logpartition S edge lengths = .ok vs) ↔
      1 ≤ edge.d0 ∧ edge.d3 = edge.d4 ∧ 1 ≤ edge.d1 ∧ 2 ≤ edge.d2 ∧ ValidLengths edge.d0 (edge.d1 + 1) lengths := by
  constructor
  · rintro ⟨vs, h⟩
    simp only [SemiMarkov.logpartition, bind, Except.bind] at h
    cases hc : SemiMarkov.checkPotentials edge lengths with
    | error e => simp [hc] at h
    | ok lens =>
      obtain ⟨h1, h2, hr, h3⟩ := (semimarkov_check edge lengths lens).1 hc
      simp only [hc, Struct.binLength] at h
      by_cases h0 : edge.d1 = 0
      · simp [h0] at h
      · simp only [if_neg h0] at h
        split_ifs at h with h4 h5 h6
        rw [h2] at h6
        have h7 := (replicate_length lengths).1 h6
        refine ⟨?_, h1, by omega, by omega, (valid_iff lengths).2 ⟨h3, h7⟩⟩
        cases lengths with
        | none => exact hr rfl
        | some l => exact h7 l rfl ▸ List.length_pos_of_mem (h3 l rfl).2
  · rintro ⟨h0, h1, h2, h3, h4⟩
    have hc := (semimarkov_check edge lengths _).2 ⟨h1, rfl, fun _ => h0, ((valid_iff lengths).1 h4).1⟩
    have hl := (replicate_length (N := edge.d1 + 1) lengths).2 ((valid_iff lengths).1 h4).2
    have e : Struct.binLength edge.d1 = .ok (Nat.clog 2 edge.d1, 2 ^ Nat.clog 2 edge.d1) := by rw [Struct.binLength, if_neg (by omega)]
    refine ⟨(List.range edge.d0).map fun b => SemiMarkov.core S edge.d3 (by omega : 0 < edge.d2 - 1) (edge.d1 + 1) (Nat.clog 2 edge.d1)
      (fun b => (LinearChain.lensOr edge.d0 (edge.d1 + 1) lengths).getD b 0) edge.get b, ?_⟩
    simp only [SemiMarkov.logpartition, hc, bind, Except.bind, e]
    rw [if_neg (by omega), dif_pos (by omega : 0 < edge.d2 - 1), if_pos hl]

/-- An accepted call of the semi-Markov model returns one value per row. -/
theorem semimarkov_rows (S : SR α) (edge : T5 α) (lengths : Option (List ℕ)) (vs : List α)
    (h : SemiMarkov.logpartition S edge lengths = .ok vs) : vs.length = edge.d0 := by
  simp only [SemiMarkov.logpartition, bind, Except.bind] at h
  split at h
  · simp at h
  · split at h
    · simp at h
    · split_ifs at h
      simp only [Except.ok.injEq] at h
      simp [← h]

/-- What the constituency programs accept as `lengths`: omitted, or no entry above `N` and one entry per row, or one entry for all rows; or, with a single
row (TreeCRF only), any number of entries. -/
def LengthsUpTo (batch N : ℕ) (single : Prop) : Option (List ℕ) → Prop
  | none => True
  | some l => (∀ x ∈ l, x ≤ N) ∧ (l.length = batch ∨ l.length = 1 ∨ single)

theorem upTo_iff {batch N : ℕ} {single : Prop} (lengths : Option (List ℕ)) :
    LengthsUpTo batch N single lengths ↔ (∀ x ∈ CKYCRF.lensOr batch N lengths, x ≤ N) ∧
      ((CKYCRF.lensOr batch N lengths).length = batch ∨ (CKYCRF.lensOr batch N lengths).length = 1 ∨ single) := by
  cases lengths with
  | none => simp [LengthsUpTo, CKYCRF.lensOr]
  | some l => rfl

/-- **C43, TreeCRF.** -/
theorem tree_accepts (S : SR α) (p : T4 α) (lengths : Option (List ℕ)) :
    (∃ vs, CKYCRF.logpartition S p lengths = .ok vs) ↔
      p.d1 = p.d2 ∧ 1 ≤ p.d1 ∧ LengthsUpTo p.d0 p.d1 (p.d0 = 1) lengths := by
  rw [upTo_iff]
  unfold CKYCRF.logpartition
  generalize CKYCRF.lensOr p.d0 p.d1 lengths = l
  split_ifs with h1 h2
  · simp only [reduceCtorEq, exists_false, false_iff]; tauto
  · simp only [reduceCtorEq, exists_false, false_iff]; omega
  unfold CKYCRF.gather
  by_cases h3 : ∀ x ∈ l, x ≤ p.d1
  swap
  · rw [if_neg h3]; simp [h3]
  rw [if_pos h3]
  split_ifs with h4 h5 h6
  · exact ⟨fun _ => ⟨by omega, by omega, h3, Or.inl h4⟩, fun _ => ⟨_, rfl⟩⟩
  · exact ⟨fun _ => ⟨by omega, by omega, h3, Or.inr (Or.inl h5)⟩, fun _ => ⟨_, rfl⟩⟩
  · exact ⟨fun _ => ⟨by omega, by omega, h3, Or.inr (Or.inr h6)⟩, fun _ => ⟨_, rfl⟩⟩
  · simp [h4, h5, h6]

/-- **C43, SentCFG.**  The three tables must fit (`S = NT + T`, no empty dimension). -/
theorem cfg_accepts (S : SR α) (p : CKY.Scores α) (lengths : Option (List ℕ)) :
    (∃ vs, CKY.logpartition S p lengths = .ok vs) ↔
      p.S = p.NT + p.T ∧ 1 ≤ p.NT ∧ 1 ≤ p.T ∧ 1 ≤ p.batch ∧ 1 ≤ p.N ∧ LengthsUpTo p.batch p.N False lengths := by
  rw [upTo_iff]
  unfold CKY.logpartition
  generalize CKYCRF.lensOr p.batch p.N lengths = l
  split_ifs with h1 h2
  · simp only [reduceCtorEq, exists_false, false_iff]; omega
  · simp only [reduceCtorEq, exists_false, false_iff]; omega
  by_cases h3 : ∀ x ∈ l, x ≤ p.N
  swap
  · rw [if_neg h3]; simp [h3]
  simp only [if_pos h3]
  split_ifs with h4 h5 h6
  · exact ⟨fun _ => ⟨by omega, by omega, by omega, by omega, by omega, h3, Or.inl h4⟩, fun _ => ⟨_, rfl⟩⟩
  · exact ⟨fun _ => ⟨by omega, by omega, by omega, by omega, by omega, h3, Or.inr (Or.inl h5)⟩, fun _ => ⟨_, rfl⟩⟩
  · simp [h4, h5]
  · simp [h4, h5]

theorem deptree_accepts (multiroot : Bool) (S : SR α) (p : DepTree.Arcs α) (lengths : Option (List ℕ)) :
    (∃ vs, DepTree.logpartition multiroot S p lengths = .ok vs) ↔
      p.d1 = p.d2 ∧ DepTree.lensOr p.d0 p.d1 lengths ≠ [] ∧ (DepTree.lensOr p.d0 p.d1 lengths).length = p.d0 ∧
        (multiroot = false → 2 ≤ p.d1) ∧ ∀ x ∈ DepTree.lensOr p.d0 p.d1 lengths, x < p.d1 := by
  unfold DepTree.logpartition
  dsimp only
  generalize DepTree.lensOr p.d0 p.d1 lengths = l
  by_cases h1 : p.d1 = p.d2
  swap
  · rw [if_pos h1]; simp [h1]
  rw [if_neg (not_not.2 h1)]
  by_cases h2 : l = []
  · rw [if_pos h2]; simp [h2]
  rw [if_neg h2]
  by_cases h3 : ∃ x ∈ l, p.d1 < x
  · rw [if_pos h3]
    simp only [reduceCtorEq, exists_false, false_iff]
    rintro ⟨-, -, -, -, h⟩
    obtain ⟨x, hx, h'⟩ := h3
    have := h x hx
    omega
  rw [if_neg h3]
  by_cases h4 : l.length < p.d0
  · rw [if_pos h4]; simp only [reduceCtorEq, exists_false, false_iff]; omega
  rw [if_neg h4]
  by_cases h5 : multiroot = false ∧ p.d1 < 2
  · rw [if_pos h5]
    simp only [reduceCtorEq, exists_false, false_iff]
    rintro ⟨-, -, -, h, -⟩
    have := h h5.1
    omega
  rw [if_neg h5]
  by_cases h6 : p.d0 < l.length ∨ ∃ x ∈ l, p.d1 ≤ x
  · rw [if_pos h6]
    simp only [reduceCtorEq, exists_false, false_iff]
    rintro ⟨-, -, h, -, h'⟩
    rcases h6 with h6 | ⟨x, hx, h6⟩
    · omega
    · have := h' x hx; omega
  rw [if_neg h6]
  refine ⟨fun _ => ⟨h1, h2, by omega, fun hm => ?_, fun x hx => ?_⟩, fun _ => ⟨_, rfl⟩⟩
  · by_contra hlt; exact h5 ⟨hm, by omega⟩
  · by_contra hlt; exact h6 (Or.inr ⟨x, hx, by omega⟩)

/-- **C43, DependencyCRF.**  A call is accepted exactly when the table has rank 3 or 4, is square in its word dimensions, has at least one row, and `lengths` is
omitted or has one entry per row, none above the number of words; the single-root program moreover needs a word. -/
theorem dep_accepts (multiroot : Bool) (S : SR α) (neg : α) (q : DepTree.Arcs α) (lengths : Option (List ℕ)) :
    (∃ vs, DepTree.sum multiroot S neg q lengths = .ok vs) ↔
      (q.rank = 3 ∨ q.rank = 4) ∧ q.d1 = q.d2 ∧ 1 ≤ q.d0 ∧ (multiroot = false → 1 ≤ q.d1) ∧
        ∀ l, lengths = some l → l.length = q.d0 ∧ ∀ x ∈ l, x ≤ q.d1 := by
  unfold DepTree.sum DepTree.convert
  simp only [bind, Except.bind]
  by_cases hr : q.rank ≠ 3 ∧ q.rank ≠ 4
  · simp only [if_pos hr, reduceCtorEq, exists_false, false_iff]; tauto
  rw [if_neg hr]
  by_cases h1 : q.d2 < q.d1
  · simp only [if_pos h1, reduceCtorEq, exists_false, false_iff]; omega
  rw [if_neg h1]
  by_cases h2 : q.d1 < q.d2
  · rw [if_pos h2]
    split_ifs <;> simp only [reduceCtorEq, exists_false, false_iff] <;> omega
  rw [if_neg h2]
  have hsq : q.d1 = q.d2 := by omega
  have hr' : q.rank = 3 ∨ q.rank = 4 := by omega
  simp only
  rw [deptree_accepts]
  cases lengths with
  | none =>
    simp only [DepTree.lensOr, ne_eq, List.replicate_eq_nil_iff, List.length_replicate, List.mem_replicate, reduceCtorEq, false_implies,
      implies_true, and_true]
    constructor
    · rintro ⟨-, h3, -, h4, -⟩
      exact ⟨hr', hsq, by omega, fun hm => by have := h4 hm; omega⟩
    · rintro ⟨-, -, h3, h4⟩
      exact ⟨by omega, by omega, trivial, fun hm => by have := h4 hm; omega, fun x hx => by omega⟩
  | some l =>
    simp only [DepTree.lensOr, Option.some.injEq, forall_eq']
    constructor
    · rintro ⟨-, h3, h4, h5, h6⟩
      have h9 : l.length ≠ 0 := by simpa using h3
      exact ⟨hr', hsq, by omega, fun hm => by have := h5 hm; omega, h4, fun x hx => by have := h6 x hx; omega⟩
    · rintro ⟨-, -, h3, h4, h5, h6⟩
      have hne : l ≠ [] := by rintro rfl; simp at h5; omega
      exact ⟨by omega, hne, h5, fun hm => by have := h4 hm; omega, fun x hx => by have := h6 x hx; omega⟩

/-- What a table that is not square in its word dimensions raises: `IndexError` if it has more rows than columns, otherwise `RuntimeError`, or
`AssertionError` if it has a single row. -/
theorem dep_not_square (multiroot : Bool) (S : SR α) (neg : α) (q : DepTree.Arcs α) (lengths : Option (List ℕ)) (hr : q.rank = 3 ∨ q.rank = 4) :
    (q.d2 < q.d1 → DepTree.sum multiroot S neg q lengths = .error .index) ∧
    (q.d1 < q.d2 → q.d1 ≠ 1 → DepTree.sum multiroot S neg q lengths = .error .runtime) ∧
    (q.d1 = 1 → 1 < q.d2 → DepTree.sum multiroot S neg q lengths = .error .assertion) := by
  have hr' : ¬ (q.rank ≠ 3 ∧ q.rank ≠ 4) := by omega
  unfold DepTree.sum DepTree.convert
  simp only [bind, Except.bind]
  rw [if_neg hr']
  refine ⟨fun h => ?_, fun h h1 => ?_, fun h1 h => ?_⟩
  · rw [if_pos h]
  · rw [if_neg (by omega), if_pos h, if_neg h1]
  · rw [if_neg (by omega), if_pos (by omega), if_pos h1]

/-- An accepted call of DependencyCRF returns one value per row. -/
theorem dep_rows (multiroot : Bool) (S : SR α) (neg : α) (q : DepTree.Arcs α) (lengths : Option (List ℕ)) (vs : List α)
    (h : DepTree.sum multiroot S neg q lengths = .ok vs) : vs.length = q.d0 := by
  unfold DepTree.sum DepTree.convert at h
  simp only [bind, Except.bind] at h
  split_ifs at h
  simp only [DepTree.logpartition] at h
  split_ifs at h
  simp only [Except.ok.injEq] at h
  simp [← h]

/-- **C43, NonProjectiveDependencyCRF.**  `partition` returns a tensor exactly when `lengths` is omitted or broadcasts against the batch; the single-root
program moreover needs a word.  Lengths are not compared with the number of words. -/
theorem nonproj_accepts (multiroot : Bool) (eps : ℝ) (p : NonProj.Table) (lengths : Option (List ℕ)) :
    (∃ vs, NonProj.part multiroot eps p lengths = .ok vs) ↔
      (multiroot = false → 1 ≤ p.N) ∧ ∀ l, lengths = some l → l.length = p.batch ∨ l.length = 1 ∨ p.batch = 1 := by
  unfold NonProj.part
  split_ifs with h
  · simp only [reduceCtorEq, exists_false, false_iff]
    rintro ⟨h', -⟩
    have := h' h.1
    omega
  have hm : multiroot = false → 1 ≤ p.N := fun hm => by by_contra h'; exact h ⟨hm, by omega⟩
  cases lengths with
  | none => simp only [NonProj.rows, Except.map, reduceCtorEq, false_implies, implies_true, and_true]; exact ⟨fun _ => hm, fun _ => ⟨_, rfl⟩⟩
  | some l =>
    simp only [NonProj.rows, Option.some.injEq, forall_eq']
    split_ifs with h1 h2 h3
    · exact ⟨fun _ => ⟨hm, Or.inl h1⟩, fun _ => ⟨_, rfl⟩⟩
    · exact ⟨fun _ => ⟨hm, Or.inr (Or.inl h2)⟩, fun _ => ⟨_, rfl⟩⟩
    · exact ⟨fun _ => ⟨hm, Or.inr (Or.inr h3)⟩, fun _ => ⟨_, rfl⟩⟩
    · simp [Except.map, h1, h2, h3]

/-- Accepted: two rows of lengths 2 and 3. -/
example (S : SR α) (x : α) : ∃ vs, LinearChain.logpartition S ⟨2, 2, 3, 3, fun _ _ _ _ => x⟩ (some [2, 3]) = .ok vs :=
  (chain_accepts S _ _).2 ⟨rfl, by norm_num, by simp [ValidLengths]⟩

/-- Rejected: no row fills the table. -/
example (S : SR α) (x : α) : ¬ ∃ vs, LinearChain.logpartition S ⟨2, 2, 3, 3, fun _ _ _ _ => x⟩ (some [2, 2]) = .ok vs := by
  rw [chain_accepts]; simp [ValidLengths]

/-- Rejected likewise. -/
example (S : SR α) (x : α) : ¬ ∃ vs, SemiMarkov.logpartition S ⟨2, 2, 2, 3, 3, fun _ _ _ _ _ => x⟩ (some [2, 2]) = .ok vs := by
  rw [semimarkov_accepts]; simp [ValidLengths]

/-- Accepted by the dependency program although no row fills the table. -/
example (S : SR α) (x : α) : ∃ vs, DepTree.sum false S x ⟨3, 2, 4, 4, 0, fun _ _ _ _ => x⟩ (some [2, 3]) = .ok vs :=
  (dep_accepts _ _ _ _ _).2 ⟨Or.inl rfl, rfl, by norm_num, by norm_num, by simp⟩

end Props.Accepted
