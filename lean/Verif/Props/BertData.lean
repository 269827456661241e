import Verif.Model.BertDep
import Verif.Props.BertDep
import Mathlib.Data.List.Basic
import Mathlib.Algebra.BigOperators.Group.Finset.Basic
import Mathlib.Algebra.BigOperators.Ring.Finset
import Mathlib.Tactic.Linarith

/-! C97, C98: the data of the dependency parser example. -/

open Finset

noncomputable section
open BertDep
namespace Props.BertData

/-! ### C97: reading CoNLL files -/

/-- The columns of a sentence: fields 1 (the word) and 6 (the head) of its lines. -/
def columns (s : List (List String)) : List String × List String := (s.filterMap (·[1]?), s.filterMap (·[6]?))

/-- A file in which the given blocks of lines are separated by single blank lines. -/
def file : List (List (List String)) → List Line
  | [] => []
  | [s] => s.map some
  | s :: t => s.map some ++ none :: file t

theorem add_block : ∀ (s : List (List String)) (ex : List (List String × List String)) (c : List String × List String),
    (s.map some).foldl readLine (ex, c) = (ex, (c.1 ++ (columns s).1, c.2 ++ (columns s).2))
  | [], ex, c => by simp [columns]
  | f :: s, ex, c => by
    rw [List.map_cons, List.foldl_cons, show readLine (ex, c) (some f) = (ex, addLine c f) from rfl, add_block s]
    unfold addLine columns
    simp only [List.append_assoc, Prod.mk.injEq, true_and, List.append_cancel_left_eq, List.filterMap_cons]
    constructor
    · cases f[1]? <;> simp
    · cases f[6]? <;> simp

theorem read_blocks : ∀ (bs : List (List (List String))), bs ≠ [] → ∀ ex : List (List String × List String),
    ((file bs).foldl readLine (ex, ([], []))).1 ++ [((file bs).foldl readLine (ex, ([], []))).2] = ex ++ bs.map columns
  | [], h, _ => absurd rfl h
  | [s], _, ex => by
    rw [file, add_block]
    simp
  | s :: t :: bs, _, ex => by
    rw [file, List.foldl_append, add_block, List.foldl_cons]
    · have := read_blocks (t :: bs) (by simp) (ex ++ [columns s])
      simp only [readLine, List.nil_append] at this ⊢
      rw [show ((columns s).1, (columns s).2) = columns s from rfl, this]
      simp
    · simp

/-- **C97.** The examples are exactly the blocks between blank lines, in order, the empty ones included. -/
theorem conllx_blocks (bs : List (List (List String))) (h : bs ≠ []) : conllx (file bs) = bs.map columns := by
  unfold conllx
  simpa using read_blocks bs h []

/-- Every file is of this form. -/
theorem every_file : ∀ f : List Line, ∃ bs, bs ≠ [] ∧ f = file bs
  | [] => ⟨[[]], by simp, rfl⟩
  | none :: f => by
    obtain ⟨bs, h, rfl⟩ := every_file f
    cases bs with
    | nil => exact absurd rfl h
    | cons b bs => exact ⟨[] :: b :: bs, by simp, rfl⟩
  | some x :: f => by
    obtain ⟨bs, h, rfl⟩ := every_file f
    cases bs with
    | nil => exact absurd rfl h
    | cons b bs =>
      refine ⟨(x :: b) :: bs, by simp, ?_⟩
      cases bs <;> rfl

/-- Sentences, each followed by one or more blank lines. -/
def wellFormed (ss : List (List (List String) × ℕ)) : List Line := ss.flatMap fun s => s.1.map some ++ List.replicate (s.2 + 1) none

theorem file_cons (s : List (List String)) {bs : List (List (List String))} (h : bs ≠ []) : file (s :: bs) = s.map some ++ none :: file bs := by
  cases bs with
  | nil => exact absurd rfl h
  | cons b bs => rfl

theorem file_replicate : ∀ (m : ℕ) {bs : List (List (List String))}, bs ≠ [] → file (List.replicate m [] ++ bs) = List.replicate m none ++ file bs
  | 0, _, _ => rfl
  | m + 1, bs, h => by
    rw [List.replicate_succ, List.cons_append, file_cons _ (by simp [h]), file_replicate m h]
    rfl

theorem wellFormed_eq : ∀ ss : List (List (List String) × ℕ), wellFormed ss = file (ss.flatMap (fun s => s.1 :: List.replicate s.2 []) ++ [[]])
  | [] => rfl
  | (s, m) :: ss => by
    have ih := wellFormed_eq ss
    have hne : ss.flatMap (fun s => s.1 :: List.replicate s.2 []) ++ [[]] ≠ [] := by simp
    unfold wellFormed at ih ⊢
    rw [List.flatMap_cons, ih, List.flatMap_cons, List.append_assoc, List.append_assoc, List.cons_append, file_cons _ (by simp), file_replicate m hne]
    simp [List.replicate_succ]

/-- **C97.** From a file in which every sentence is followed by one or more blank lines, the examples that are not empty are exactly the sentences, in order. -/
theorem conllx_sentences (ss : List (List (List String) × ℕ)) (h : ∀ s ∈ ss, columns s.1 ≠ ([], [])) :
    (conllx (wellFormed ss)).filter (fun e => e ≠ ([], [])) = ss.map fun s => columns s.1 := by
  rw [wellFormed_eq, conllx_blocks _ (by simp), List.map_append, List.filter_append]
  have e : [([] : List (List String))].map columns = [([], [])] := rfl
  rw [e]
  simp only [List.filter_cons_of_neg, List.filter_nil, ne_eq, not_true_eq_false, decide_false, Bool.false_eq_true, not_false_eq_true, List.append_nil]
  induction ss with
  | nil => rfl
  | cons s ss ih =>
    have hs := h s (by simp)
    have e2 : columns ([] : List (List String)) = ([], []) := rfl
    rw [List.flatMap_cons, List.map_append, List.filter_append, ih (fun s hs => h s (by simp [hs])), List.map_cons, List.map_cons, List.map_replicate, e2,
      List.filter_cons, if_pos (by simpa using hs)]
    simp

/-- **C97 (a defect).** If every sentence is followed by exactly one blank line, as the format asks, there is one example too many: an empty one at the end. -/
theorem conllx_extra (ss : List (List (List String))) : conllx (wellFormed (ss.map fun s => (s, 0))) = ss.map columns ++ [([], [])] := by
  rw [wellFormed_eq, conllx_blocks _ (by simp)]
  have : (ss.map fun s => (s, 0)).flatMap (fun s => s.1 :: List.replicate s.2 ([] : List (List String))) = ss := by
    induction ss with
    | nil => rfl
    | cons s ss ih => simpa using ih
  rw [this, List.map_append]
  rfl

/-- The words and the heads of a sentence belong together: if all lines have at least seven fields, entry `k` of both columns is from line `k`. -/
theorem columns_aligned (s : List (List String)) (h : ∀ f ∈ s, 7 ≤ f.length) :
    columns s = (s.map fun f => f.getD 1 "", s.map fun f => f.getD 6 "") := by
  induction s with
  | nil => rfl
  | cons f s ih =>
    have ih := ih (fun f hf => h f (by simp [hf]))
    have hf := h f (by simp)
    unfold columns at ih ⊢
    simp only [Prod.mk.injEq] at ih ⊢
    have e1 : f[1]? = some (f.getD 1 "") := by rw [List.getD_eq_getElem _ _ (by omega)]; exact List.getElem?_eq_getElem _
    have e6 : f[6]? = some (f.getD 6 "") := by rw [List.getD_eq_getElem _ _ (by omega)]; exact List.getElem?_eq_getElem _
    rw [List.filterMap_cons, List.filterMap_cons, e1, e6, ih.1, ih.2]
    exact ⟨rfl, rfl⟩

/-- A file of two sentences. -/
example : conllx (wellFormed [([["1", "a", "_", "_", "_", "_", "2"], ["2", "b", "_", "_", "_", "_", "0"]], 0), ([["1", "c", "_", "_", "_", "_", "0"]], 1)]) =
    [(["a", "b"], ["2", "0"]), (["c"], ["0"]), ([], []), ([], [])] := by
  simp [conllx, wellFormed, readLine, addLine]

/-! ### C98: words and pieces -/

/-- The number of characters of the word that a piece stands for. -/
def content (p : Str) : ℕ := if hashes p then p.length - 2 else p.length

/-- `ps` are the pieces of the word `w`: the first is not marked, they have together as many characters as the word in lower case, none is empty. -/
structure WordPieces (lower : Str → Str) (w : Str) (ps : List Str) : Prop where
  nonempty : ps ≠ []
  first : ∀ p, ps.head? = some p → hashes p = false
  total : (ps.map content).sum = (lower w).length
  pos : ∀ p ∈ ps, 0 < content p

/-- What is appended for the pieces after the first one of a word. -/
def marks (ps : List Str) : List ℤ := (ps.filter hashes).map fun _ => -1

theorem rest_run (lower : Str → Str) (q : List Str) : ∀ (ps : List Str) (out : List ℤ) (cur : ℕ), (∀ p ∈ ps, 0 < content p) →
    ps.foldlM (tokStep lower q) ⟨out, cur, (ps.map content).sum, false⟩ = .ok ⟨out ++ marks ps, cur, 0, false⟩
  | [], out, cur, _ => by simp [marks, pure, Except.pure]
  | p :: ps, out, cur, h => by
    have hp := h p (by simp)
    have hne : content p + (ps.map content).sum ≠ 0 := by omega
    rw [List.foldlM_cons, List.map_cons, List.sum_cons]
    have e : tokStep lower q ⟨out, cur, content p + (ps.map content).sum, false⟩ p = .ok ⟨out ++ marks [p], cur, (ps.map content).sum, false⟩ := by
      unfold tokStep
      simp only [hne, if_false, bind, Except.bind]
      unfold content at hp ⊢
      by_cases hh : hashes p
      · simp [hh, marks]
      · simp [hh, marks]
    rw [e]
    show ps.foldlM _ _ = _
    rw [rest_run lower q ps _ cur (fun p hp => h p (by simp [hp]))]
    simp [marks, List.filter_cons]
    split_ifs <;> simp; omega

theorem word_run (lower : Str → Str) (q : List Str) {w : Str} {ps : List Str} (h : WordPieces lower w ps) (out : List ℤ) (cur : ℕ) (first : Bool) (hq : q[cur]? = some w) :
    ps.foldlM (tokStep lower q) ⟨out, cur, 0, first⟩ = .ok ⟨out ++ ((cur : ℤ) + 1) :: marks ps.tail, cur + 1, 0, false⟩ := by
  cases ps with
  | nil => exact absurd rfl h.nonempty
  | cons p ps =>
    have hp := h.first p rfl
    have ht := h.total
    rw [List.map_cons, List.sum_cons] at ht
    have hc : content p = p.length := by unfold content; simp [hp]
    rw [List.foldlM_cons]
    have e : tokStep lower q ⟨out, cur, 0, first⟩ p = .ok ⟨out ++ [(cur : ℤ) + 1], cur + 1, (ps.map content).sum, false⟩ := by
      unfold tokStep
      simp only [if_true, hq, bind, Except.bind, hp, Bool.false_eq_true, if_false]
      have e : List.length (lower w) - List.length p = (ps.map content).sum := by omega
      rw [e]
      push_cast; rfl
    rw [e]
    show ps.foldlM _ _ = _
    rw [rest_run lower q ps _ _ (fun p hp => h.pos p (by simp [hp]))]
    simp

/-- The word numbers that are produced for the words from number `k` on. -/
def numbers (k : ℕ) : List (List Str) → List ℤ
  | [] => []
  | ps :: rest => ((k : ℤ) + 1) :: marks ps.tail ++ numbers (k + 1) rest

theorem words_run (lower : Str → Str) : ∀ (pre ws : List Str) (pss : List (List Str)), List.Forall₂ (WordPieces lower) ws pss → ∀ (out : List ℤ) (first : Bool),
    ∃ f, pss.flatten.foldlM (tokStep lower (pre ++ ws)) ⟨out, pre.length, 0, first⟩ = .ok ⟨out ++ numbers pre.length pss, (pre ++ ws).length, 0, f⟩
  | pre, [], [], _, out, first => ⟨first, by simp [numbers, pure, Except.pure]⟩
  | pre, w :: ws, ps :: pss, .cons h hs, out, first => by
    obtain ⟨f, hf⟩ := words_run lower (pre ++ [w]) ws pss hs (out ++ ((pre.length : ℤ) + 1) :: marks ps.tail) false
    refine ⟨f, ?_⟩
    rw [List.flatten_cons, List.foldlM_append, word_run lower _ h out pre.length first (by simp)]
    simp only [bind, Except.bind]
    rw [show pre ++ w :: ws = (pre ++ [w]) ++ ws by simp]
    simp only [List.length_append, List.length_cons, List.length_nil, Nat.zero_add] at hf ⊢
    rw [hf]
    simp [numbers]

/-- **C98.** The word numbers of a sentence whose pieces are those of its words: 0, then for every word its number, and -1 for each *marked* later piece, then the number of words plus one. -/
theorem tokenPre_spec (lower : Str → Str) (tokenize : List Str → List Str) (encode : List Str → List ℕ) (q : List Str) (pss : List (List Str))
    (ht : tokenize q = pss.flatten) (h : List.Forall₂ (WordPieces lower) q pss) :
    tokenPre lower tokenize encode q = .ok (encode q, (0 :: numbers 0 pss) ++ [(q.length : ℤ) + 1]) := by
  obtain ⟨f, hf⟩ := words_run lower [] q pss h [0] true
  unfold tokenPre
  rw [ht]
  simp only [List.nil_append, List.length_nil] at hf
  rw [hf]
  simp [bind, Except.bind]

/-- The number of positions that words before word `w` take in the list of word numbers. -/
def slot (pss : List (List Str)) (w : ℕ) : ℕ := ((pss.take w).map fun ps => 1 + (ps.tail.filter hashes).length).sum

/-- The number of pieces of the words before word `w`: the index of the first piece of word `w`. -/
def firstPiece (pss : List (List Str)) (w : ℕ) : ℕ := ((pss.take w).map List.length).sum

/-- The number of pieces before word `w` that are neither the first of their word nor marked. -/
def unmarked (pss : List (List Str)) (w : ℕ) : ℕ := ((pss.take w).map fun ps => (ps.tail.filter fun p => !hashes p).length).sum

theorem slot_add_unmarked : ∀ (pss : List (List Str)) (w : ℕ), (∀ ps ∈ pss, ps ≠ []) → slot pss w + unmarked pss w = firstPiece pss w
  | [], w, _ => by simp [slot, unmarked, firstPiece]
  | ps :: pss, 0, _ => by simp [slot, unmarked, firstPiece]
  | ps :: pss, w + 1, h => by
    have ih := slot_add_unmarked pss w (fun ps hps => h ps (by simp [hps]))
    have hp := List.length_pos_iff.2 (h ps (by simp))
    have e : (ps.tail.filter hashes).length + (ps.tail.filter fun p => !hashes p).length = ps.tail.length := (List.length_eq_length_filter_add hashes).symm
    rw [List.length_tail] at e
    unfold slot unmarked firstPiece at ih ⊢
    simp only [List.take_succ_cons, List.map_cons, List.sum_cons]
    omega

theorem mem_numbers : ∀ (k : ℕ) (pss : List (List Str)) (x : ℤ), x ∈ numbers k pss → x = -1 ∨ (k : ℤ) + 1 ≤ x ∧ x ≤ k + pss.length
  | k, [], x, h => by simp [numbers] at h
  | k, ps :: pss, x, h => by
    simp only [numbers, List.cons_append, List.mem_cons, List.mem_append] at h
    rcases h with rfl | h | h
    · right; simp
    · left
      unfold marks at h
      obtain ⟨_, -, rfl⟩ := List.mem_map.1 h
      rfl
    · rcases mem_numbers (k + 1) pss x h with h | h
      · exact .inl h
      · right; push_cast at h; simp; omega

theorem numbers_iff : ∀ (k : ℕ) (pss : List (List Str)) (i w : ℕ), w < pss.length → ((numbers k pss)[i]? = some ((k : ℤ) + w + 1) ↔ i = slot pss w)
  | k, [], i, w, h => by simp at h
  | k, ps :: pss, i, w, h => by
    have hm : ∀ x ∈ marks ps.tail, x = -1 := by
      intro x hx
      unfold marks at hx
      obtain ⟨_, -, rfl⟩ := List.mem_map.1 hx
      rfl
    have hl : (marks ps.tail).length = (ps.tail.filter hashes).length := by simp [marks]
    rw [numbers, List.cons_append]
    cases i with
    | zero =>
      rw [List.getElem?_cons_zero, Option.some_inj]
      cases w with
      | zero => simp [slot]
      | succ w => simp [slot]; omega
    | succ i =>
      rw [List.getElem?_cons_succ]
      by_cases hi : i < (marks ps.tail).length
      · rw [List.getElem?_append_left hi]
        constructor
        · intro he
          have := hm _ (List.mem_of_getElem? he)
          omega
        · intro he
          cases w with
          | zero => simp [slot] at he
          | succ w =>
            unfold slot at he
            simp only [List.take_succ_cons, List.map_cons, List.sum_cons] at he
            omega
      · rw [List.getElem?_append_right (by omega)]
        cases w with
        | zero =>
          constructor
          · intro he
            have := mem_numbers _ _ _ (List.mem_of_getElem? he)
            push_cast at this
            omega
          · intro he; simp [slot] at he
        | succ w =>
          have ih := numbers_iff (k + 1) pss (i - (marks ps.tail).length) w (by simpa using h)
          push_cast at ih ⊢
          rw [show (k : ℤ) + (w + 1) + 1 = k + 1 + w + 1 by ring, ih]
          unfold slot
          simp only [List.take_succ_cons, List.map_cons, List.sum_cons]
          omega

/-- The list of word numbers of a sentence. -/
def wordNumbers (pss : List (List Str)) : List ℤ := (0 :: numbers 0 pss) ++ [(pss.length : ℤ) + 1]

/-- Column `w + 1` of the mapper (word `w`) has exactly one entry. -/
theorem mapper_iff (pss : List (List Str)) (i w : ℕ) (hw : w < pss.length) : mapperRow (wordNumbers pss) i (w + 1) = if i = slot pss w + 1 then 1 else 0 := by
  unfold mapperRow wordNumbers
  refine if_congr ?_ rfl rfl
  have hn := numbers_iff 0 pss
  rw [List.cons_append]
  cases i with
  | zero => simp; omega
  | succ i =>
    rw [List.getElem?_cons_succ]
    by_cases hi : i < (numbers 0 pss).length
    · rw [List.getElem?_append_left hi]
      have := hn i w hw
      push_cast at this ⊢
      rw [show (w : ℤ) + 1 = 0 + w + 1 by ring, this]
    · rw [List.getElem?_append_right (by omega)]
      constructor
      · intro he
        have := List.mem_of_getElem? he
        simp at this
        omega
      · intro he
        have := (hn i w hw).2 (by omega)
        have := (List.getElem?_eq_some_iff.1 this).1
        omega

theorem numbers_length : ∀ (k : ℕ) (pss : List (List Str)), (numbers k pss).length = slot pss pss.length
  | k, [] => by simp [numbers, slot]
  | k, ps :: pss => by
    have := numbers_length (k + 1) pss
    unfold slot at this ⊢
    simp [numbers, marks, this]
    omega

theorem foldl_maxZ : ∀ (l : List ℤ) (a : ℤ), a ≤ l.foldl max a ∧ (∀ x ∈ l, x ≤ l.foldl max a) ∧ (l.foldl max a = a ∨ l.foldl max a ∈ l)
  | [], a => by simp
  | y :: l, a => by
    have := foldl_maxZ l (max a y)
    rw [List.foldl_cons]
    refine ⟨(le_max_left _ _).trans this.1, fun x hx => ?_, ?_⟩
    · rcases List.mem_cons.1 hx with rfl | hx
      · exact (le_max_right _ _).trans this.1
      · exact this.2.1 x hx
    · rcases this.2.2 with h | h
      · rw [h]
        rcases le_total a y with h' | h'
        · rw [max_eq_right h']; simp
        · rw [max_eq_left h']; simp
      · exact .inr (List.mem_cons_of_mem _ h)

theorem wordNumbers_max (pss : List (List Str)) : ((wordNumbers pss).foldl max ((wordNumbers pss).headD 0) + 1).toNat = pss.length + 2 := by
  have h := foldl_maxZ (wordNumbers pss) ((wordNumbers pss).headD 0)
  have h1 := h.2.1 ((pss.length : ℤ) + 1) (by simp [wordNumbers])
  have h2 : (wordNumbers pss).foldl max ((wordNumbers pss).headD 0) ≤ (pss.length : ℤ) + 1 := by
    rcases h.2.2 with h3 | h3
    · rw [h3]; simp [wordNumbers]; omega
    · generalize (wordNumbers pss).foldl max ((wordNumbers pss).headD 0) = x at h3
      simp only [wordNumbers, List.cons_append, List.mem_cons, List.mem_append, List.not_mem_nil, or_false] at h3
      rcases h3 with rfl | h3 | rfl
      · omega
      · have := mem_numbers _ _ _ h3
        push_cast at this
        omega
      · exact le_rfl
  omega

/-- The score of the arc from word `i` to word `j` (the root for `i = j`) from the vectors `x` of the words. -/
def arcScore (H : ℕ) (lin bil : ℕ → ℕ → ℝ) (root : ℕ → ℝ) (x : ℕ → ℕ → ℝ) (i j : ℕ) : ℝ :=
  ∑ h ∈ range H, ∑ g ∈ range H, x i h * bil h g * (∑ h' ∈ range H, x j h' * lin h' g) + if i = j then ∑ h ∈ range H, x i h * root h else 0

/-- A batch of sentences with the pieces of their words; `encode` adds one id before and one after the pieces. -/
structure Batch (lower : Str → Str) (tokenize : List Str → List Str) (encode : List Str → List ℕ) (rows : List (List Str × List (List Str))) : Prop where
  nonempty : rows ≠ []
  pieces : ∀ r ∈ rows, tokenize r.1 = r.2.flatten ∧ List.Forall₂ (WordPieces lower) r.1 r.2
  ids : ∀ r ∈ rows, (encode r.1).length = (tokenize r.1).length + 2

variable {lower : Str → Str} {tokenize : List Str → List Str} {encode : List Str → List ℕ} {rows : List (List Str × List (List Str))}

theorem pieces_ne {q : List Str} {pss : List (List Str)} (h : List.Forall₂ (WordPieces lower) q pss) : ∀ ps ∈ pss, ps ≠ [] := by
  induction h with
  | nil => simp
  | cons h _ ih =>
    intro ps hps
    rcases List.mem_cons.1 hps with rfl | hps
    · exact h.nonempty
    · exact ih ps hps

theorem maxOf_ok {l : List ℕ} (h : l ≠ []) : ∃ n, maxOf l = .ok n ∧ n ∈ l ∧ ∀ x ∈ l, x ≤ n := by
  cases l with
  | nil => exact absurd rfl h
  | cons a l =>
    have := BertDep.foldl_max l a
    refine ⟨_, rfl, ?_, ?_⟩
    · rcases this.2.2 with h | h
      · rw [h]; simp
      · exact List.mem_cons_of_mem _ h
    · intro x hx
      rcases List.mem_cons.1 hx with rfl | hx
      · exact this.1
      · exact this.2.1 x hx

theorem length_flatten (pss : List (List Str)) : pss.flatten.length = firstPiece pss pss.length := by
  simp [firstPiece, List.length_flatten]

theorem firstPiece_lt (pss : List (List Str)) (h : ∀ ps ∈ pss, ps ≠ []) (w : ℕ) (hw : w < pss.length) : firstPiece pss w < pss.flatten.length := by
  rw [length_flatten]
  unfold firstPiece
  rw [List.take_length]
  conv_rhs => rw [← List.take_append_drop w pss, List.map_append, List.sum_append]
  have : pss.drop w = pss[w] :: pss.drop (w + 1) := List.drop_eq_getElem_cons hw
  rw [this, List.map_cons, List.sum_cons]
  have := List.length_pos_iff.2 (h pss[w] (List.getElem_mem hw))
  omega

/-- **C98.** For every batch of sentences the fields and the model compute, for row `b` and words `i`, `j`, the score of the vectors at the positions `slot i + 1` and `slot j + 1`
of the network's output, and as many rows and columns as the longest sentence has words. -/
theorem potentials_spec (hB : Batch lower tokenize encode rows) (H : ℕ) (lin bil : ℕ → ℕ → ℝ) (root : ℕ → ℝ) (vec : ℕ → ℕ → ℕ → ℝ) :
    ∃ pre P W ids mapper, (rows.map Prod.fst).mapM (tokenPre lower tokenize encode) = .ok pre ∧ tokenPost pre = .ok (P, W, ids, mapper) ∧
      (∃ r ∈ rows, r.1.length = (forward H P W lin bil root rows.length mapper vec).d1) ∧
      (∀ r ∈ rows, r.1.length ≤ (forward H P W lin bil root rows.length mapper vec).d1) ∧
      (forward H P W lin bil root rows.length mapper vec).d2 = (forward H P W lin bil root rows.length mapper vec).d1 ∧
      (forward H P W lin bil root rows.length mapper vec).d0 = rows.length ∧
      ∀ b (hb : b < rows.length), ∀ i < rows[b].1.length, ∀ j < rows[b].1.length,
        (forward H P W lin bil root rows.length mapper vec).get b i j 0 = arcScore H lin bil root (fun w h => vec b (slot rows[b].2 w + 1) h) i j := by
  have e1 : ∀ r ∈ rows, r.2.length = r.1.length := fun r hr => ((hB.pieces r hr).2.length_eq).symm
  set pre := rows.map fun r => (encode r.1, wordNumbers r.2) with hpre
  have h1 : (rows.map Prod.fst).mapM (tokenPre lower tokenize encode) = .ok pre := by
    have : ∀ l : List (List Str × List (List Str)), (∀ r ∈ l, r ∈ rows) → (l.map Prod.fst).mapM (tokenPre lower tokenize encode) = .ok (l.map fun r => (encode r.1, wordNumbers r.2)) := by
      intro l
      induction l with
      | nil => intro _; rfl
      | cons r l ih =>
        intro hl
        have hr := hl r (by simp)
        rw [List.map_cons, List.mapM_cons, tokenPre_spec lower tokenize encode r.1 r.2 (hB.pieces r hr).1 (hB.pieces r hr).2, ih (fun r hr => hl r (by simp [hr]))]
        unfold wordNumbers
        rw [← e1 r hr]
        rfl
    exact this rows fun r hr => hr
  obtain ⟨P, hP1, hP2, hP3⟩ := maxOf_ok (l := pre.map fun l => l.1.length) (by simpa [hpre] using hB.nonempty)
  obtain ⟨W, hW1, hW2, hW3⟩ := maxOf_ok (l := pre.map fun l => (l.2.foldl max (l.2.headD 0) + 1).toNat) (by simpa [hpre] using hB.nonempty)
  have hPr : ∀ r ∈ rows, r.2.flatten.length + 2 ≤ P := by
    intro r hr
    have := hP3 (encode r.1).length (by rw [hpre, List.map_map]; exact List.mem_map.2 ⟨r, hr, rfl⟩)
    rw [hB.ids r hr, (hB.pieces r hr).1] at this
    exact this
  have hslot : ∀ r ∈ rows, ∀ w, slot r.2 w ≤ firstPiece r.2 w := by
    intro r hr w
    have := slot_add_unmarked r.2 w (pieces_ne (hB.pieces r hr).2)
    omega
  refine ⟨pre, P, W, fun b i => (pre.getD b ([], [])).1.getD i 0, fun b => mapperRow (pre.getD b ([], [])).2, h1, ?_, ?_, ?_, rfl, rfl, ?_⟩
  · unfold tokenPost
    rw [hP1, hW1]
    simp only [bind, Except.bind]
    rw [if_neg]
    rintro ⟨l, hl, hlt⟩
    rw [hpre] at hl
    obtain ⟨r, hr, rfl⟩ := List.mem_map.1 hl
    have h2 := hPr r hr
    have h3 := hslot r hr r.2.length
    rw [← length_flatten] at h3
    simp only [wordNumbers, List.length_append, List.length_cons, List.length_nil, numbers_length] at hlt
    omega
  · rw [hpre, List.map_map] at hW2
    obtain ⟨r, hr, e⟩ := List.mem_map.1 hW2
    refine ⟨r, hr, ?_⟩
    have := wordNumbers_max r.2
    show r.1.length = W - 2
    rw [← e, ← e1 r hr]
    simp only [Function.comp_apply]
    omega
  · intro r hr
    have := hW3 (r.2.length + 2) (by
      rw [hpre, List.map_map]
      exact List.mem_map.2 ⟨r, hr, wordNumbers_max r.2⟩)
    show r.1.length ≤ W - 2
    rw [← e1 r hr]; omega
  · intro b hb i hi j hj
    have hr : rows[b] ∈ rows := List.getElem_mem hb
    have hget : (pre.getD b ([], [])).2 = wordNumbers rows[b].2 := by
      rw [List.getD_eq_getElem _ _ (by simpa [hpre] using hb)]
      simp [hpre]
    have hx : ∀ w < rows[b].1.length, ∀ h, ∑ p ∈ range P, mapperRow (pre.getD b ([], [])).2 p (w + 1) * vec b p h = vec b (slot rows[b].2 w + 1) h := by
      intro w hw h
      rw [hget]
      have hw' : w < rows[b].2.length := by rw [e1 _ hr]; exact hw
      rw [sum_congr rfl (fun p _ => by rw [mapper_iff _ p w hw'])]
      simp only [ite_mul, one_mul, zero_mul, sum_ite_eq', mem_range]
      rw [if_pos]
      have h2 := hPr _ hr
      have h3 := hslot _ hr w
      have h4 := firstPiece_lt rows[b].2 (pieces_ne (hB.pieces _ hr).2) w hw'
      omega
    unfold forward arcScore
    simp only [hx i hi, hx j hj]

/-- **C98.** If every later piece of a word is marked with `##`, the vectors are those of the first pieces of the words (the first position is taken by the id that `encode` adds). -/
theorem slot_aligned (pss : List (List Str)) (hne : ∀ ps ∈ pss, ps ≠ []) (h : ∀ ps ∈ pss, ∀ p ∈ ps.tail, hashes p = true) (w : ℕ) : slot pss w = firstPiece pss w := by
  have h1 := slot_add_unmarked pss w hne
  have h2 : unmarked pss w = 0 := by
    unfold unmarked
    rw [List.sum_eq_zero]
    intro x hx
    obtain ⟨ps, hps, rfl⟩ := List.mem_map.1 hx
    have hps := List.mem_of_mem_take hps
    rw [List.length_eq_zero_iff, List.filter_eq_nil_iff]
    intro p hp
    simp [h ps hps p hp]
  omega

/-- **C98 (a defect).** Each later piece without a mark (punctuation inside a word) shifts all words after it one position to the left: the vector of a wrong piece is used. -/
theorem slot_shifted (pss : List (List Str)) (hne : ∀ ps ∈ pss, ps ≠ []) (w : ℕ) (h : 0 < unmarked pss w) : slot pss w < firstPiece pss w := by
  have := slot_add_unmarked pss w hne
  omega

/-! ### A case -/

/-- `playing a-b cd`, with pieces `play ##ing`, `a - b`, `cd`. -/
def sentence : List Str := ["playing".toList, "a-b".toList, "cd".toList]
def sentencePieces : List (List Str) := [["play".toList, "##ing".toList], ["a".toList, "-".toList, "b".toList], ["cd".toList]]

example : Batch id (fun _ => sentencePieces.flatten) (fun _ => List.replicate 8 7) [(sentence, sentencePieces)] ∧
    slot sentencePieces 1 = firstPiece sentencePieces 1 ∧ slot sentencePieces 2 = 3 ∧ firstPiece sentencePieces 2 = 5 := by
  refine ⟨⟨by simp, ?_, ?_⟩, by decide, by decide, by decide⟩
  · intro r hr
    obtain rfl : r = (sentence, sentencePieces) := by simpa using hr
    refine ⟨rfl, .cons ⟨by simp, ?_, by decide, by decide⟩ (.cons ⟨by simp, ?_, by decide, by decide⟩ (.cons ⟨by simp, ?_, by decide, by decide⟩ .nil))⟩ <;>
      · intro p hp
        cases hp
        decide
  · intro r hr
    obtain rfl : r = (sentence, sentencePieces) := by simpa using hr
    decide

end Props.BertData
