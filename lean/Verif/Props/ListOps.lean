import Verif.Model.ListOps
import Verif.Spec.ListOps
import Verif.Props.TreeCRF
import Mathlib.Data.List.Perm.Basic
import Mathlib.Data.List.Nodup
import Mathlib.Tactic.Linarith

/-! C95: reading and printing of bracketed expressions in the ListOps example.

`ListOpsDataset` reads a line of brackets and words; `tree_field` writes the spans into a table; `show` prints a table.  For every expression the words and the
spans that are read are those of the expression, the table marks exactly them, and printing it gives the line back.  What is printed for `TreeCRF.argmax` is the
bracketing of a best tree. -/

open Spec

namespace Props.ListOps

/-- The words and their number are positive. -/
theorem words_pos : ∀ t : Bracketed, 0 < t.words.length
  | .word _ => by simp [Bracketed.words]
  | .pair l _ => by have := words_pos l; simp [Bracketed.words]; omega

/-! ### Reading -/

/-- The spans in the order of the closing brackets. -/
def post : ℤ → Bracketed → List (ℤ × ℤ × String)
  | c, .word w => [(c, c, w)]
  | c, .pair l r => post c l ++ post (c + l.words.length) r ++ [(c, c + (l.words.length + r.words.length : ℕ) - 1, ")")]

theorem run : ∀ (t : Bracketed), t.Proper → ∀ s : ListOps.State,
    t.text.foldlM ListOps.step s = Except.ok ⟨s.cur + t.words.length, s.spans ++ post s.cur t, s.stack⟩
  | .word w, h, s => by
    obtain ⟨h1, h2, _⟩ := h w (by simp [Bracketed.words])
    simp [Bracketed.text, ListOps.step, h1, h2, post, Bracketed.words]
  | .pair l r, h, s => by
    have hl := run l (fun w hw => h w (by simp [Bracketed.words, hw]))
    have hr := run r (fun w hw => h w (by simp [Bracketed.words, hw]))
    have h0 : ListOps.step s "(" = .ok { s with stack := s.cur :: s.stack } := by simp [ListOps.step]
    simp only [Bracketed.text, List.foldlM_cons, h0, List.foldlM_append]
    simp only [bind, Except.bind, hl, hr, List.foldlM_nil, ListOps.step]
    simp [post, Bracketed.words, pure, Except.pure]
    ring

theorem filter_text : ∀ t : Bracketed, t.Proper → (t.text.filter fun w => !ListOps.inBrackets w) = t.words
  | .word w, h => by
    obtain ⟨h1, h2, h3, h4⟩ := h w (by simp [Bracketed.words])
    simp [Bracketed.text, Bracketed.words, ListOps.inBrackets, h1, h2, h3, h4]
  | .pair l r, h => by
    have hl := filter_text l (fun w hw => h w (by simp [Bracketed.words, hw]))
    have hr := filter_text r (fun w hw => h w (by simp [Bracketed.words, hw]))
    simp only [Bracketed.text, Bracketed.words, List.filter_cons, List.filter_append, hl, hr]
    simp [ListOps.inBrackets]

theorem parse_text (t : Bracketed) (h : t.Proper) : ListOps.parse t.text = .ok (t.words, post 0 t) := by
  unfold ListOps.parse
  rw [run t h, filter_text t h]
  simp [bind, Except.bind]

theorem post_perm : ∀ (t : Bracketed) (i : ℕ), ((post i t).map fun s => (s.1, s.2.1)).Perm ((t.spans i).map fun s => ((s.1 : ℤ), (s.2 : ℤ)))
  | .word w, i => by simp [post, Bracketed.spans]
  | .pair l r, i => by
    have hl := post_perm l i
    have hr := post_perm r (i + l.words.length)
    have := words_pos l
    simp only [post, Bracketed.spans, List.map_append, List.map_cons, List.map_nil]
    refine (List.perm_append_comm).trans ?_
    rw [List.singleton_append]
    have e : ((i + (l.words.length + r.words.length) - 1 : ℕ) : ℤ) = (i : ℤ) + (l.words.length + r.words.length : ℕ) - 1 := by push_cast; omega
    rw [e]
    push_cast at hr
    exact (hl.append hr).cons _

/-- Positions of the spans of a tree. -/
theorem spans_mem : ∀ (t : Bracketed) (i a b : ℕ), (a, b) ∈ t.spans i → i ≤ a ∧ a ≤ b ∧ b < i + t.words.length
  | .word w, i, a, b, h => by simp [Bracketed.spans] at h; simp [Bracketed.words]; omega
  | .pair l r, i, a, b, h => by
    have := words_pos l
    have := words_pos r
    simp only [Bracketed.spans, List.mem_cons, List.mem_append, Prod.mk.injEq] at h
    simp only [Bracketed.words, List.length_append]
    rcases h with ⟨h1, h2⟩ | h | h
    · omega
    · have := spans_mem l _ _ _ h; omega
    · have := spans_mem r _ _ _ h; omega

theorem spans_nodup : ∀ (t : Bracketed) (i : ℕ), (t.spans i).Nodup
  | .word w, i => by simp [Bracketed.spans]
  | .pair l r, i => by
    have h1 := words_pos l
    have h2 := words_pos r
    simp only [Bracketed.spans, List.nodup_cons, List.mem_append, List.nodup_append]
    refine ⟨?_, spans_nodup l i, spans_nodup r _, ?_⟩
    · rintro (h | h)
      · have := spans_mem l _ _ _ h; omega
      · have := spans_mem r _ _ _ h; omega
    · rintro ⟨a, b⟩ ha ⟨c, d⟩ hc e
      cases e
      have := spans_mem l _ _ _ ha
      have := spans_mem r _ _ _ hc
      omega

/-- Every word is a span of its own. -/
theorem diag_mem : ∀ (t : Bracketed) (i k : ℕ), i ≤ k → k < i + t.words.length → (k, k) ∈ t.spans i
  | .word w, i, k, h1, h2 => by simp [Bracketed.words] at h2; simp [Bracketed.spans]; omega
  | .pair l r, i, k, h1, h2 => by
    simp only [Bracketed.words, List.length_append] at h2
    simp only [Bracketed.spans, List.mem_cons, List.mem_append]
    by_cases h : k < i + l.words.length
    · exact .inr (.inl (diag_mem l i k h1 h))
    · exact .inr (.inr (diag_mem r _ k (by omega) (by omega)))

/-- The third component: the word on the diagonal, a bracket elsewhere. -/
theorem post_label : ∀ (t : Bracketed) (i : ℕ) (s : ℤ × ℤ × String), s ∈ post i t →
    if s.1 = s.2.1 then (i : ℤ) ≤ s.1 ∧ t.words[(s.1 - i).toNat]? = some s.2.2 else s.2.2 = ")"
  | .word w, i, s, h => by
    simp only [post, List.mem_singleton] at h
    subst h
    simp [Bracketed.words]
  | .pair l r, i, s, h => by
    have h1 := words_pos l
    have h2 := words_pos r
    simp only [post, List.mem_append, List.mem_singleton] at h
    rcases h with (h | h) | h
    · have := post_label l i s h
      split_ifs at this ⊢
      · refine ⟨this.1, ?_⟩
        rw [Bracketed.words, List.getElem?_append_left (List.getElem?_eq_some_iff.1 this.2).1]
        exact this.2
      · exact this
    · have := post_label r (i + l.words.length) s (by push_cast; exact h)
      push_cast at this
      split_ifs at this ⊢
      · refine ⟨by omega, ?_⟩
        rw [Bracketed.words, List.getElem?_append_right (by omega)]
        rw [show (s.1 - i).toNat - l.words.length = (s.1 - (i + l.words.length)).toNat by omega]
        exact this.2
      · exact this
    · subst h
      rw [if_neg (by push_cast; show ¬ ((i : ℤ) = i + (l.words.length + r.words.length) - 1); omega)]

/-- **C95.** Reading a written expression gives its words and exactly its spans; the span of a single word carries the word. -/
theorem parse_spec (t : Bracketed) (h : t.Proper) :
    ∃ L, ListOps.parse t.text = .ok (t.words, L) ∧
      (L.map fun s => (s.1, s.2.1)).Perm ((t.spans 0).map fun s => ((s.1 : ℤ), (s.2 : ℤ))) ∧
      ∀ s ∈ L, s.1 = s.2.1 → t.words[s.1.toNat]? = some s.2.2 := by
  refine ⟨post 0 t, parse_text t h, post_perm t 0, fun s hs e => ?_⟩
  have := post_label t 0 s hs
  rw [if_pos e] at this
  simpa using this.2

/-! ### The table -/

/-- The table of an expression: label `0` for an expression in brackets, the number of the word plus one for a word. -/
def Marks (t : Bracketed) (stoi : String → ℕ) (f : ℕ → ℕ → ℕ → ℝ) : Prop :=
  ∀ i j c, f i j c = if (i < j ∧ (i, j) ∈ t.spans 0 ∧ c = 0) ∨ (i = j ∧ ∃ w, t.words[i]? = some w ∧ c = stoi w + 1) then 1 else 0

theorem index_ok {n : ℕ} {i : ℕ} (h : i < n) : ListOps.index n (i : ℤ) = .ok i := by
  unfold ListOps.index
  rw [if_pos (by omega), if_pos (by omega)]
  simp

/-- The loop that fills the table. -/
theorem fill (N C : ℕ) (stoi : String → ℕ) : ∀ (L : List (ℤ × ℤ × String)) (f : ℕ → ℕ → ℕ → ℝ),
    (∀ s ∈ L, 0 ≤ s.1 ∧ s.1 < N ∧ 0 ≤ s.2.1 ∧ s.2.1 < N ∧ (if s.1 = s.2.1 then stoi s.2.2 + 1 else 0) < C) →
    ∃ g, L.foldlM (ListOps.postStep N C stoi) f = .ok g ∧
      ∀ i j c : ℕ, ((∃ s ∈ L, s.1 = i ∧ s.2.1 = j ∧ c = if s.1 = s.2.1 then stoi s.2.2 + 1 else 0) → g i j c = 1) ∧
        ((∀ s ∈ L, ¬ (s.1 = i ∧ s.2.1 = j ∧ c = if s.1 = s.2.1 then stoi s.2.2 + 1 else 0)) → g i j c = f i j c)
  | [], f, _ => ⟨f, rfl, fun i j c => ⟨fun ⟨_, h, _⟩ => absurd h (by simp), fun _ => rfl⟩⟩
  | s :: L, f, h => by
    obtain ⟨h1, h2, h3, h4, h5⟩ := h s (by simp)
    obtain ⟨a, b, w⟩ := s
    obtain ⟨i0, rfl⟩ := Int.eq_ofNat_of_zero_le h1
    obtain ⟨j0, rfl⟩ := Int.eq_ofNat_of_zero_le h3
    simp only at h1 h2 h3 h4 h5
    have e1 : ListOps.index N (i0 : ℤ) = .ok i0 := index_ok (by omega)
    have e2 : ListOps.index N (j0 : ℤ) = .ok j0 := index_ok (by omega)
    have e3 : ListOps.index C (if (i0 : ℤ) = j0 then (stoi w : ℤ) + 1 else 0) = .ok (if (i0 : ℤ) = j0 then stoi w + 1 else 0) := by
      rw [← index_ok h5]
      congr 1
      split_ifs <;> simp
    obtain ⟨g, h6, h7⟩ := fill N C stoi L (ListOps.put f i0 j0 (if (i0 : ℤ) = j0 then stoi w + 1 else 0)) (fun s hs => h s (by simp [hs]))
    have e4 : ListOps.postStep N C stoi f ((i0 : ℤ), (j0 : ℤ), w) = .ok (ListOps.put f i0 j0 (if (i0 : ℤ) = j0 then stoi w + 1 else 0)) := by
      unfold ListOps.postStep
      simp only [e1, e2, e3, bind, Except.bind]
    refine ⟨g, ?_, fun i j c => ⟨?_, ?_⟩⟩
    · rw [List.foldlM_cons, e4]
      exact h6
    · rintro ⟨s, hs, hc⟩
      by_cases hL : ∃ s ∈ L, s.1 = i ∧ s.2.1 = j ∧ c = if s.1 = s.2.1 then stoi s.2.2 + 1 else 0
      · exact (h7 i j c).1 hL
      · push Not at hL
        rw [(h7 i j c).2 (fun s hs => fun hh => hL s hs hh.1 hh.2.1 hh.2.2)]
        rcases List.mem_cons.1 hs with rfl | hs
        · obtain ⟨c1, c2, c3⟩ := hc
          simp only at c1 c2 c3
          unfold ListOps.put
          rw [if_pos ⟨by omega, by omega, c3⟩]
        · exact absurd hc.2.2 (hL s hs hc.1 hc.2.1)
    · intro hn
      rw [(h7 i j c).2 (fun s hs => hn s (by simp [hs]))]
      unfold ListOps.put
      rw [if_neg]
      rintro ⟨rfl, rfl, rfl⟩
      exact hn _ List.mem_cons_self ⟨rfl, rfl, rfl⟩

theorem post_mem (t : Bracketed) {s : ℤ × ℤ × String} (h : s ∈ post 0 t) : ∃ i j : ℕ, s.1 = i ∧ s.2.1 = j ∧ (i, j) ∈ t.spans 0 := by
  have h1 := (post_perm t 0).mem_iff.1 (List.mem_map_of_mem h)
  obtain ⟨⟨i, j⟩, h2, h3⟩ := List.mem_map.1 h1
  simp only [Prod.mk.injEq] at h3
  exact ⟨i, j, h3.1.symm, h3.2.symm, h2⟩

theorem mem_post (t : Bracketed) {i j : ℕ} (h : (i, j) ∈ t.spans 0) : ∃ w, ((i : ℤ), (j : ℤ), w) ∈ post 0 t := by
  have h1 := (post_perm t 0).symm.mem_iff.1 (List.mem_map_of_mem (f := fun s : ℕ × ℕ => ((s.1 : ℤ), (s.2 : ℤ))) h)
  obtain ⟨⟨a, b, w⟩, h2, h3⟩ := List.mem_map.1 h1
  simp only [Prod.mk.injEq] at h3
  obtain ⟨rfl, rfl⟩ := h3
  exact ⟨w, h2⟩

/-- The table of one row. -/
theorem fill_marks (t : Bracketed) (N V : ℕ) (stoi : String → ℕ) (hN : t.words.length ≤ N) (hV : ∀ w ∈ t.words, stoi w < V) :
    ∃ f, (post 0 t).foldlM (ListOps.postStep N (10 + V) stoi) (fun _ _ _ => 0) = .ok f ∧ Marks t stoi f := by
  obtain ⟨f, h1, h2⟩ := fill N (10 + V) stoi (post 0 t) (fun _ _ _ => 0) (by
    intro s hs
    obtain ⟨i, j, e1, e2, h3⟩ := post_mem t hs
    have := spans_mem t _ _ _ h3
    refine ⟨by omega, by omega, by omega, by omega, ?_⟩
    split_ifs with e
    · have := post_label t 0 s hs
      rw [if_pos e] at this
      have := hV _ (List.mem_of_getElem? this.2)
      omega
    · omega)
  refine ⟨f, h1, fun i j c => ?_⟩
  split_ifs with hc
  · apply (h2 i j c).1
    rcases hc with ⟨h3, h4, rfl⟩ | ⟨rfl, w, h4, rfl⟩
    · obtain ⟨w, h5⟩ := mem_post t h4
      exact ⟨_, h5, rfl, rfl, by simp; omega⟩
    · have h6 := (List.getElem?_eq_some_iff.1 h4).1
      obtain ⟨w', h5⟩ := mem_post t (diag_mem t 0 i (by omega) (by omega))
      refine ⟨_, h5, rfl, rfl, ?_⟩
      have := post_label t 0 _ h5
      simp [h4] at this
      simp [this]
  · apply (h2 i j c).2
    rintro s hs ⟨e1, e2, e3⟩
    obtain ⟨i', j', e4, e5, h3⟩ := post_mem t hs
    have h4 := spans_mem t _ _ _ h3
    obtain rfl : i = i' := by omega
    obtain rfl : j = j' := by omega
    apply hc
    by_cases e : i = j
    · have := post_label t 0 s hs
      rw [if_pos (by omega)] at this
      rw [if_pos (by omega)] at e3
      refine .inr ⟨e, _, ?_, e3⟩
      rw [← this.2]
      congr 1
      omega
    · rw [if_neg (by omega)] at e3
      exact .inl ⟨by omega, h3, e3⟩

/-! ### Printing -/

/-- Number of spans that begin at `k`. -/
def opens (L : List (ℕ × ℕ)) (k : ℕ) : ℕ := (L.filter fun s => s.1 = k).length
/-- Number of spans that end at `k`. -/
def closes (L : List (ℕ × ℕ)) (k : ℕ) : ℕ := (L.filter fun s => s.2 = k).length

theorem opens_cons (s : ℕ × ℕ) (M : List (ℕ × ℕ)) (k : ℕ) : opens (s :: M) k = (if s.1 = k then 1 else 0) + opens M k := by
  unfold opens; rw [List.filter_cons]; split_ifs with h1 h2 h2 <;> simp_all; omega
theorem closes_cons (s : ℕ × ℕ) (M : List (ℕ × ℕ)) (k : ℕ) : closes (s :: M) k = (if s.2 = k then 1 else 0) + closes M k := by
  unfold closes; rw [List.filter_cons]; split_ifs with h1 h2 h2 <;> simp_all; omega

theorem dicts_aux : ∀ (cells : List CKY.Cell) (d : (ℕ → Option ℤ) × (ℕ → Option ℤ)) (k : ℕ),
    (cells.foldl (fun d c => (ListOps.count d.1 c.1, ListOps.count d.2 c.2.1)) d).1 k =
      (if opens (cells.map fun c => (c.1, c.2.1)) k = 0 then d.1 k else some ((d.1 k).getD (-1) + opens (cells.map fun c => (c.1, c.2.1)) k)) ∧
    (cells.foldl (fun d c => (ListOps.count d.1 c.1, ListOps.count d.2 c.2.1)) d).2 k =
      (if closes (cells.map fun c => (c.1, c.2.1)) k = 0 then d.2 k else some ((d.2 k).getD (-1) + closes (cells.map fun c => (c.1, c.2.1)) k))
  | [], d, k => by simp [opens, closes]
  | c :: cells, d, k => by
    have := dicts_aux cells (ListOps.count d.1 c.1, ListOps.count d.2 c.2.1) k
    rw [List.foldl_cons]
    refine ⟨this.1.trans ?_, this.2.trans ?_⟩
    · rw [List.map_cons, opens_cons]
      generalize opens (cells.map fun c => (c.1, c.2.1)) k = n
      by_cases e : c.1 = k
      · subst e
        by_cases hn : n = 0
        · simp [hn, ListOps.count]
        · simp [hn, ListOps.count]; ring
      · simp [e, Ne.symm e, ListOps.count]
    · rw [List.map_cons, closes_cons]
      generalize closes (cells.map fun c => (c.1, c.2.1)) k = n
      by_cases e : c.2.1 = k
      · subst e
        by_cases hn : n = 0
        · simp [hn, ListOps.count]
        · simp [hn, ListOps.count]; ring
      · simp [e, Ne.symm e, ListOps.count]

theorem dicts_eq (cells : List CKY.Cell) (k : ℕ) :
    (((ListOps.dicts cells).1 k).getD 0).toNat = opens (cells.map fun c => (c.1, c.2.1)) k - 1 ∧
    (((ListOps.dicts cells).2 k).getD 0).toNat = closes (cells.map fun c => (c.1, c.2.1)) k - 1 := by
  have := dicts_aux cells (fun _ => none, fun _ => none) k
  unfold ListOps.dicts
  rw [this.1, this.2]
  constructor
  · split_ifs with h
    · simp [h]
    · simp; omega
  · split_ifs with h
    · simp [h]
    · simp; omega

theorem opens_append (L M : List (ℕ × ℕ)) (k : ℕ) : opens (L ++ M) k = opens L k + opens M k := by simp [opens]
theorem closes_append (L M : List (ℕ × ℕ)) (k : ℕ) : closes (L ++ M) k = closes L k + closes M k := by simp [closes]
theorem opens_out (t : Bracketed) (i k : ℕ) (h : k < i ∨ i + t.words.length ≤ k) : opens (t.spans i) k = 0 := by
  unfold opens
  rw [List.length_eq_zero_iff, List.filter_eq_nil_iff]
  rintro ⟨a, b⟩ hs e
  have := spans_mem t _ _ _ hs
  simp at e
  omega
theorem closes_out (t : Bracketed) (i k : ℕ) (h : k < i ∨ i + t.words.length ≤ k) : closes (t.spans i) k = 0 := by
  unfold closes
  rw [List.length_eq_zero_iff, List.filter_eq_nil_iff]
  rintro ⟨a, b⟩ hs e
  have := spans_mem t _ _ _ hs
  simp at e
  omega
theorem opens_in (t : Bracketed) (i k : ℕ) (h : i ≤ k) (h' : k < i + t.words.length) : 0 < opens (t.spans i) k :=
  List.length_pos_of_mem (List.mem_filter.2 ⟨diag_mem t i k h h', by simp⟩)
theorem closes_in (t : Bracketed) (i k : ℕ) (h : i ≤ k) (h' : k < i + t.words.length) : 0 < closes (t.spans i) k :=
  List.length_pos_of_mem (List.mem_filter.2 ⟨diag_mem t i k h h', by simp⟩)

/-- Words with the brackets before and after them. -/
def printed (S E : ℕ → ℕ) (l : List (String × ℕ)) : List String :=
  l.flatMap fun wi => List.replicate (S wi.2) "(" ++ [wi.1] ++ List.replicate (E wi.2) ")"

theorem printed_congr {S E S' E' : ℕ → ℕ} {l : List (String × ℕ)} (h : ∀ wi ∈ l, S wi.2 = S' wi.2 ∧ E wi.2 = E' wi.2) : printed S E l = printed S' E' l := by
  unfold printed
  apply List.flatMap_congr
  intro wi hwi
  rw [(h wi hwi).1, (h wi hwi).2]

theorem printed_append (S E : ℕ → ℕ) (l m : List (String × ℕ)) : printed S E (l ++ m) = printed S E l ++ printed S E m := by
  unfold printed; rw [List.flatMap_append]

theorem zipIdx_mem {l : List String} {i : ℕ} {x : String × ℕ} (h : x ∈ l.zipIdx i) : i ≤ x.2 ∧ x.2 < i + l.length := by
  obtain ⟨w, k⟩ := x
  have := List.mem_zipIdx h
  simp only
  omega

/-- The words of an expression with `x` more brackets before it and `y` after it. -/
theorem printed_text : ∀ (t : Bracketed) (i x y : ℕ),
    printed (fun k => opens (t.spans i) k - 1 + if k = i then x else 0) (fun k => closes (t.spans i) k - 1 + if k + 1 = i + t.words.length then y else 0)
      (t.words.zipIdx i) = List.replicate x "(" ++ t.text ++ List.replicate y ")"
  | .word w, i, x, y => by
    simp [printed, Bracketed.words, Bracketed.spans, Bracketed.text, opens, closes]
  | .pair l r, i, x, y => by
    have hl := words_pos l
    have hr := words_pos r
    have h1 := printed_text l i (x + 1) 0
    have h2 := printed_text r (i + l.words.length) 0 (y + 1)
    have e : (Bracketed.pair l r).words.zipIdx i = l.words.zipIdx i ++ r.words.zipIdx (i + l.words.length) := by
      rw [Bracketed.words, List.zipIdx_append]
    rw [e, printed_append]
    rw [printed_congr (l := l.words.zipIdx i) (S' := fun k => opens (l.spans i) k - 1 + if k = i then x + 1 else 0)
      (E' := fun k => closes (l.spans i) k - 1 + if k + 1 = i + l.words.length then 0 else 0), h1,
      printed_congr (l := r.words.zipIdx (i + l.words.length)) (S' := fun k => opens (r.spans (i + l.words.length)) k - 1 + if k = i + l.words.length then 0 else 0)
      (E' := fun k => closes (r.spans (i + l.words.length)) k - 1 + if k + 1 = i + l.words.length + r.words.length then y + 1 else 0), h2]
    · simp [Bracketed.text, List.replicate_succ', List.append_assoc, List.replicate_succ]
      rw [← List.replicate_succ, List.replicate_succ']
    · intro wi hwi
      have hk := zipIdx_mem hwi
      have a1 := opens_in r _ wi.2 hk.1 hk.2
      have a2 := closes_in r _ wi.2 hk.1 hk.2
      simp only [Bracketed.spans, opens_cons, closes_cons, opens_append, closes_append, Bracketed.words, List.length_append,
        opens_out l i wi.2 (.inr hk.1), closes_out l i wi.2 (.inr hk.1)]
      constructor
      · split_ifs <;> omega
      · split_ifs <;> omega
    · intro wi hwi
      have hk := zipIdx_mem hwi
      have a1 := opens_in l _ wi.2 hk.1 hk.2
      have a2 := closes_in l _ wi.2 hk.1 hk.2
      simp only [Bracketed.spans, opens_cons, closes_cons, opens_append, closes_append, Bracketed.words, List.length_append,
        opens_out r (i + l.words.length) wi.2 (.inl hk.2), closes_out r (i + l.words.length) wi.2 (.inl hk.2)]
      constructor
      · split_ifs <;> omega
      · split_ifs <;> omega

/-- A table with exactly one nonzero label in every span of `t`, and none elsewhere. -/
def OnePerSpan (t : Bracketed) (N C : ℕ) (f : ℕ → ℕ → ℕ → ℝ) : Prop :=
  ∀ i j, i < N → j < N → if (i, j) ∈ t.spans 0 then ∃! c, c < C ∧ f i j c ≠ 0 else ∀ c < C, f i j c = 0

theorem mem_cover {N C : ℕ} {f : ℕ → ℕ → ℕ → ℝ} {c : CKY.Cell} :
    c ∈ CKY.cover N C f ↔ c.1 < N ∧ c.2.1 < N ∧ c.2.2 < C ∧ f c.1 c.2.1 c.2.2 ≠ 0 := by
  obtain ⟨i, j, A⟩ := c
  simp [CKY.cover]
  tauto

theorem cover_nodup (N C : ℕ) (f : ℕ → ℕ → ℕ → ℝ) : (CKY.cover N C f).Nodup := by
  unfold CKY.cover
  apply List.Nodup.filter
  refine List.nodup_flatMap.2 ⟨fun i _ => List.nodup_flatMap.2 ⟨fun j _ => List.nodup_range.map fun a b h => by simpa using h, ?_⟩, ?_⟩
  · refine List.nodup_range.imp_of_mem ?_
    intro j j' _ _ hne
    rw [Function.onFun, List.disjoint_left]
    intro c hc hc'
    obtain ⟨k, -, rfl⟩ := List.mem_map.1 hc
    obtain ⟨k', -, he⟩ := List.mem_map.1 hc'
    simp at he
    exact hne he.1.symm
  · refine List.nodup_range.imp_of_mem ?_
    intro j j' _ _ hne
    rw [Function.onFun, List.disjoint_left]
    intro c hc hc'
    obtain ⟨k, -, hk⟩ := List.mem_flatMap.1 hc
    obtain ⟨k', -, hk'⟩ := List.mem_flatMap.1 hc'
    obtain ⟨_, -, rfl⟩ := List.mem_map.1 hk
    obtain ⟨_, -, he⟩ := List.mem_map.1 hk'
    simp at he
    exact hne he.1.symm

theorem cover_perm {t : Bracketed} {N C : ℕ} {f : ℕ → ℕ → ℕ → ℝ} (hN : t.words.length ≤ N) (h : OnePerSpan t N C f) :
    ((CKY.cover N C f).map fun c => (c.1, c.2.1)).Perm (t.spans 0) := by
  refine (List.perm_ext_iff_of_nodup ?_ (spans_nodup t 0)).2 ?_
  · refine List.Nodup.map_on ?_ (cover_nodup N C f)
    rintro ⟨i, j, A⟩ hc ⟨i', j', A'⟩ hc' he
    simp only [Prod.mk.injEq] at he
    obtain ⟨rfl, rfl⟩ := he
    have h1 := mem_cover.1 hc
    have h2 := mem_cover.1 hc'
    have h3 := h i j h1.1 h1.2.1
    split_ifs at h3 with hs
    · obtain ⟨c, -, hu⟩ := h3
      have e1 : A = c := hu A h1.2.2
      have e2 : A' = c := hu A' h2.2.2
      rw [e1, e2]
    · exact absurd (h3 A h1.2.2.1) h1.2.2.2
  · rintro ⟨i, j⟩
    constructor
    · intro hc
      obtain ⟨⟨i', j', A⟩, h1, h2⟩ := List.mem_map.1 hc
      simp only [Prod.mk.injEq] at h2
      obtain ⟨rfl, rfl⟩ := h2
      have h1 := mem_cover.1 h1
      have h3 := h i' j' h1.1 h1.2.1
      split_ifs at h3 with hs
      · exact hs
      · exact absurd (h3 A h1.2.2.1) h1.2.2.2
    · intro hs
      have hm := spans_mem t _ _ _ hs
      have h3 := h i j (by omega) (by omega)
      rw [if_pos hs] at h3
      obtain ⟨c, hc, -⟩ := h3
      exact List.mem_map.2 ⟨(i, j, c), mem_cover.2 ⟨by show i < N; omega, by show j < N; omega, hc.1, hc.2⟩, rfl⟩

/-- What the loop prints, as pieces. -/
theorem show_pieces (N C : ℕ) (f : ℕ → ℕ → ℕ → ℝ) (out : List String) {L : List (ℕ × ℕ)} (h : ((CKY.cover N C f).map fun c => (c.1, c.2.1)).Perm L) :
    ListOps.show N C f out = String.join ((printed (fun k => opens L k - 1) (fun k => closes L k - 1) out.zipIdx).map (· ++ " ")) := by
  have e1 : ∀ k, opens ((CKY.cover N C f).map fun c => (c.1, c.2.1)) k = opens L k := fun k => (h.filter _).length_eq
  have e2 : ∀ k, closes ((CKY.cover N C f).map fun c => (c.1, c.2.1)) k = closes L k := fun k => (h.filter _).length_eq
  unfold ListOps.show printed
  simp only [(dicts_eq _ _).1, (dicts_eq _ _).2, e1, e2]
  rw [List.map_flatMap]
  congr 1
  apply List.flatMap_congr
  intro wi _
  simp only [List.map_append, List.map_replicate, List.map_cons, List.map_nil]
  rfl

theorem printed_plain (S E : ℕ → ℕ) : ∀ (l : List String) (i : ℕ), (∀ k, i ≤ k → S k = 0 ∧ E k = 0) → printed S E (l.zipIdx i) = l
  | [], _, _ => rfl
  | w :: l, i, h => by
    have := printed_plain S E l (i + 1) (fun k hk => h k (by omega))
    rw [List.zipIdx_cons]
    unfold printed at this ⊢
    rw [List.flatMap_cons, this, (h i le_rfl).1, (h i le_rfl).2]
    rfl

/-- **C95.** `show` prints a table with one label per span of an expression as that expression; the words after it (padding) are printed without brackets. -/
theorem show_spec (t : Bracketed) (N C : ℕ) (f : ℕ → ℕ → ℕ → ℝ) (pads : List String) (hN : t.words.length ≤ N) (h : OnePerSpan t N C f) :
    ListOps.show N C f (t.words ++ pads) = String.join ((t.text ++ pads).map (· ++ " ")) := by
  rw [show_pieces N C f _ (cover_perm hN h), List.zipIdx_append, printed_append]
  have h1 := printed_text t 0 0 0
  simp only [List.replicate_zero, List.nil_append, List.append_nil, ite_self, Nat.add_zero] at h1
  rw [h1, printed_plain]
  intro k hk
  have hk : t.words.length ≤ k := by omega
  rw [opens_out t 0 k (.inr (by omega)), closes_out t 0 k (.inr (by omega))]
  exact ⟨rfl, rfl⟩

theorem Marks.onePerSpan {t : Bracketed} {stoi : String → ℕ} {f : ℕ → ℕ → ℕ → ℝ} (h : Marks t stoi f) (N V : ℕ) (hV : ∀ w ∈ t.words, stoi w < V) :
    OnePerSpan t N (10 + V) f := by
  intro i j _ _
  split_ifs with hs
  · have hm := spans_mem t _ _ _ hs
    by_cases e : i = j
    · subst e
      obtain ⟨w, hw⟩ : ∃ w, t.words[i]? = some w := ⟨_, List.getElem?_eq_getElem (by omega)⟩
      refine ⟨stoi w + 1, ⟨by have := hV w (List.mem_of_getElem? hw); omega, ?_⟩, ?_⟩
      · show f i i (stoi w + 1) ≠ 0
        rw [h i i (stoi w + 1), if_pos (.inr ⟨rfl, w, hw, rfl⟩)]
        exact one_ne_zero
      · rintro c ⟨-, hc⟩
        by_contra hne
        apply hc
        rw [h i i c, if_neg]
        rintro (⟨h1, -⟩ | ⟨-, w', h1, h2⟩)
        · omega
        · rw [hw] at h1; cases h1; exact hne h2
    · refine ⟨0, ⟨by omega, ?_⟩, ?_⟩
      · show f i j 0 ≠ 0
        rw [h i j 0, if_pos (.inl ⟨by omega, hs, rfl⟩)]
        exact one_ne_zero
      · rintro c ⟨-, hc⟩
        by_contra hne
        apply hc
        rw [h i j c, if_neg]
        rintro (⟨-, -, h1⟩ | ⟨h1, -⟩)
        · exact hne h1
        · exact e h1
  · intro c _
    rw [h i j c, if_neg]
    rintro (⟨-, h1, -⟩ | ⟨rfl, w, h1, -⟩)
    · exact hs h1
    · exact hs (diag_mem t 0 i (by omega) (by have := (List.getElem?_eq_some_iff.1 h1).1; omega))

/-! ### A batch -/

theorem post_last : ∀ (t : Bracketed) (i : ℕ), ∃ w, (post i t).getLast? = some ((post i t).getLast?.map (·.1) |>.getD 0, (i : ℤ) + t.words.length - 1, w)
  | .word w, i => ⟨w, by simp [post, Bracketed.words]⟩
  | .pair l r, i => ⟨")", by simp [post, Bracketed.words]⟩

theorem lastEnd_eq (t : Bracketed) : ListOps.lastEnd (post 0 t) = .ok ((t.words.length : ℤ) - 1) := by
  obtain ⟨w, hw⟩ := post_last t 0
  unfold ListOps.lastEnd
  rw [show (post 0 t) = post ((0 : ℕ) : ℤ) t from rfl, hw]
  simp

theorem mapM_ok {α β : Type} (g : α → Except PyErr β) (P : α → β → Prop) : ∀ l : List α, (∀ a ∈ l, ∃ b, g a = .ok b ∧ P a b) →
    ∃ m, l.mapM g = .ok m ∧ List.Forall₂ P l m
  | [], _ => ⟨[], rfl, .nil⟩
  | a :: l, h => by
    obtain ⟨b, h1, h2⟩ := h a (by simp)
    obtain ⟨m, h3, h4⟩ := mapM_ok g P l (fun a ha => h a (by simp [ha]))
    exact ⟨b :: m, by rw [List.mapM_cons, h1, h3]; rfl, .cons h2 h4⟩

theorem foldl_max_le : ∀ (l : List ℤ) (a : ℤ), a ≤ l.foldl max a ∧ ∀ x ∈ l, x ≤ l.foldl max a
  | [], a => by simp
  | y :: l, a => by
    have := foldl_max_le l (max a y)
    rw [List.foldl_cons]
    refine ⟨(le_max_left _ _).trans this.1, fun x hx => ?_⟩
    rcases List.mem_cons.1 hx with rfl | hx
    · exact (le_max_right _ _).trans this.1
    · exact this.2 x hx

/-- **C95.** The whole way: every row of a batch of lines is read, its table marks exactly the spans of the expression, and printing the table of the row gives the line back. -/
theorem round_trip (ts : List Bracketed) (hne : ts ≠ []) (hp : ∀ t ∈ ts, t.Proper) (V : ℕ) (stoi : String → ℕ) (hV : ∀ t ∈ ts, ∀ w ∈ t.words, stoi w < V) :
    ∃ Ls N rows, (ts.map Bracketed.text).mapM ListOps.parse = .ok Ls ∧ Ls.map Prod.fst = ts.map Bracketed.words ∧
      ListOps.treeField V stoi (Ls.map Prod.snd) = .ok (N, rows) ∧
      List.Forall₂ (fun t f => t.words.length ≤ N ∧ Marks t stoi f ∧ ∀ pads, ListOps.show N (10 + V) f (t.words ++ pads) = String.join ((t.text ++ pads).map (· ++ " "))) ts rows := by
  have h1 : (ts.map Bracketed.text).mapM ListOps.parse = .ok (ts.map fun t => (t.words, post 0 t)) := by
    clear hne hV
    induction ts with
    | nil => rfl
    | cons t ts ih =>
      rw [List.map_cons, List.mapM_cons, parse_text t (hp t (by simp)), ih (fun t ht => hp t (by simp [ht]))]
      rfl
  have h2 : (ts.map (post 0)).mapM ListOps.lastEnd = .ok (ts.map fun t => (t.words.length : ℤ) - 1) := by
    clear hne hV hp h1
    induction ts with
    | nil => rfl
    | cons t ts ih =>
      rw [List.map_cons, List.mapM_cons, lastEnd_eq, ih]
      rfl
  set lens := ts.map fun t : Bracketed => (t.words.length : ℤ) - 1 with hlens
  set N := (lens.foldl max (lens.headD 0) + 1).toNat with hN
  have h3 : ∀ t ∈ ts, t.words.length ≤ N := by
    intro t ht
    have := (foldl_max_le lens (lens.headD 0)).2 _ (List.mem_map_of_mem ht)
    omega
  obtain ⟨rows, h4, h5⟩ := mapM_ok (fun t => (post 0 t).foldlM (ListOps.postStep N (10 + V) stoi) fun _ _ _ => 0) (fun t f => Marks t stoi f ∧ t ∈ ts) ts
    (fun t ht => by
      obtain ⟨f, e1, e2⟩ := fill_marks t N V stoi (h3 t ht) (hV t ht)
      exact ⟨f, e1, e2, ht⟩)
  refine ⟨_, N, rows, h1, by simp, ?_, ?_⟩
  · unfold ListOps.treeField
    rw [List.map_map, show (Prod.snd ∘ fun t : Bracketed => (t.words, post 0 t)) = post 0 from rfl, h2]
    have : lens ≠ [] := by simpa [hlens] using hne
    simp only [bind, Except.bind, this, if_false, ← hN, List.mapM_map]
    have h4 : ts.mapM ((fun l => List.foldlM (ListOps.postStep N (10 + V) stoi) (fun _ _ _ => 0) l) ∘ post 0) = .ok rows := h4
    rw [h4]
  · refine h5.imp fun t f h => ⟨h3 t h.2, h.1, fun pads => show_spec t N _ f pads (h3 t h.2) (h.1.onePerSpan N V (hV t h.2))⟩

/-! ### Printing the result of `argmax` -/

/-- The bracketing of a labelled tree over given words. -/
def bracketing {NT : ℕ} (w : ℕ → String) : ℕ → LTree NT → Bracketed
  | i, .leaf _ => .word (w i)
  | i, .node _ l r => .pair (bracketing w i l) (bracketing w (i + l.size) r)

theorem bracketing_words {NT : ℕ} (w : ℕ → String) : ∀ (t : LTree NT) (i : ℕ), (bracketing w i t).words = (List.range' i t.size).map w
  | .leaf _, i => by simp [bracketing, Bracketed.words, LTree.size]
  | .node _ l r, i => by
    rw [bracketing, Bracketed.words, bracketing_words w l, bracketing_words w r, LTree.size, ← List.map_append, List.range'_append_1]

theorem bracketing_spans {NT : ℕ} (w : ℕ → String) : ∀ (t : LTree NT) (i : ℕ), (bracketing w i t).spans i = (t.spans i).map fun s => (s.1, s.2.1)
  | .leaf _, i => by simp [bracketing, Bracketed.spans, LTree.spans]
  | .node _ l r, i => by
    have e : (bracketing w i l).words.length = l.size := by rw [bracketing_words]; simp
    have e' : (bracketing w (i + l.size) r).words.length = r.size := by rw [bracketing_words]; simp
    rw [bracketing, Bracketed.spans, e, e', bracketing_spans w l, bracketing_spans w r, LTree.spans]
    simp [Nat.add_assoc]

/-- **C95.** Printing the table returned by `TreeCRF.argmax` gives, for every row, the bracketing of a tree of the highest score over the words of the row (then the
padding), however ties are broken. -/
theorem show_argmax (p : T4 ℝ) (lengths : Option (List ℕ)) (h : TreeCRF.Valid p lengths)
    {pick : List (Autograd.Grad (List ℕ)) → Autograd.Grad (List ℕ)} (hp : Autograd.IsArgmax Prod.fst pick) (out : ℕ → List String)
    (hout : ∀ b < p.d0, TreeCRF.len p lengths b ≤ (out b).length) :
    ∃ μ, Dist.argmax CKYCRF.algo p lengths pick = .ok μ ∧ ∀ b < p.d0, ∃ (t : Trees p.d3 (TreeCRF.len p lengths b)) (e : Bracketed),
      (∀ t' : Trees p.d3 (TreeCRF.len p lengths b), treeScore (TreeCRF.row p b) t' ≤ treeScore (TreeCRF.row p b) t) ∧
      e.words = (out b).take (TreeCRF.len p lengths b) ∧ e.spans 0 = ((t.1.spans 0).map fun s => (s.1, s.2.1)) ∧
      ListOps.show p.d1 p.d3 (fun i j a => μ [b, i, j, a]) (out b) = String.join ((e.text ++ (out b).drop (TreeCRF.len p lengths b)).map (· ++ " ")) := by
  obtain ⟨μ, h1, h2⟩ := TreeCRF.argmax_spec p lengths h hp
  refine ⟨μ, h1, fun b hb => ?_⟩
  obtain ⟨t, h3, h4⟩ := h2 b hb
  set e := bracketing (fun i => (out b).getD i "") 0 t.1 with he
  have hw : e.words = (out b).take (TreeCRF.len p lengths b) := by
    rw [he, bracketing_words, t.2]
    apply List.ext_getElem
    · have := hout b hb
      simp; omega
    · intro i hi hi'
      have := hout b hb
      simp at hi hi'
      simp [List.getD_eq_getElem?_getD, List.getElem?_eq_getElem (show i < (out b).length by omega)]
  have hs := bracketing_spans (fun i => (out b).getD i "") t.1 0
  refine ⟨t, e, h3, hw, hs, ?_⟩
  conv_lhs => rw [← List.take_append_drop (TreeCRF.len p lengths b) (out b), ← hw]
  refine show_spec e _ _ _ _ (by rw [hw]; have := (CKYCRFProofs.len_in h.words h.lens b hb).2; simp; exact .inl this) ?_
  intro i j _ _
  rw [he, hs]
  split_ifs with hm
  · obtain ⟨⟨i', j', a⟩, hm2, he⟩ := List.mem_map.1 hm
    simp only [Prod.mk.injEq] at he
    obtain ⟨rfl, rfl⟩ := he
    refine ⟨a, ⟨a.2, by show μ _ ≠ 0; rw [h4, if_pos hm2]; exact one_ne_zero⟩, ?_⟩
    rintro c ⟨hc, hc'⟩
    have hc' : μ [b, i', j', c] ≠ 0 := hc'
    have h5 := h4 i' j' ⟨c, hc⟩
    simp only at h5
    rw [h5] at hc'
    have hm' : (i', j', (⟨c, hc⟩ : Fin p.d3)) ∈ t.1.spans 0 := by by_contra hh; rw [if_neg hh] at hc'; exact hc' rfl
    have := List.inj_on_of_nodup_map (CKYCRFProofs.spans_pos_nodup t.1 0) hm2 hm' rfl
    simp only [Prod.mk.injEq, true_and] at this
    rw [this]
  · intro c hc
    have h5 := h4 i j ⟨c, hc⟩
    simp only at h5
    show μ [b, i, j, c] = 0
    rw [h5, if_neg]
    intro hh
    exact hm (List.mem_map.2 ⟨_, hh, rfl⟩)

/-! ### A case -/

/-- `( ( [MAX 2 ) ] )`. -/
def sample : Bracketed := .pair (.pair (.word "[MAX") (.word "2")) (.word "]")

theorem sample_proper : sample.Proper := by simp [sample, Bracketed.Proper, Bracketed.words]

example : sample.text = ["(", "(", "[MAX", "2", ")", "]", ")"] ∧ sample.spans 0 = [(0, 2), (0, 1), (0, 0), (1, 1), (2, 2)] := ⟨rfl, rfl⟩

/-- A closing bracket without an opening one raises `IndexError`. -/
theorem parse_unbalanced (ws : List String) (hw : ∀ w ∈ ws, w ≠ "(" ∧ w ≠ ")") (rest : List String) : ListOps.parse (ws ++ ")" :: rest) = .error .index := by
  have : ∀ (ws : List String) (s : ListOps.State), s.stack = [] → (∀ w ∈ ws, w ≠ "(" ∧ w ≠ ")") → (ws ++ ")" :: rest).foldlM ListOps.step s = .error .index := by
    intro ws
    induction ws with
    | nil =>
      intro s hs _
      rw [List.nil_append, List.foldlM_cons]
      simp [ListOps.step, hs]
      rfl
    | cons w ws ih =>
      intro s hs h
      rw [List.cons_append, List.foldlM_cons]
      have h1 := h w (by simp)
      have : ListOps.step s w = .ok ⟨s.cur + 1, s.spans ++ [(s.cur, s.cur, w)], s.stack⟩ := by simp [ListOps.step, h1]
      rw [this]
      exact ih _ hs (fun w hw => h w (by simp [hw]))
  unfold ListOps.parse
  rw [this ws _ rfl hw]
  rfl

/-- Empty brackets at the start of a line are read as a span that ends at `-1`, and do not change the words. -/
theorem empty_brackets (t : Bracketed) (h : t.Proper) : ListOps.parse ("(" :: ")" :: t.text) = .ok (t.words, (0, -1, ")") :: post 0 t) := by
  unfold ListOps.parse
  have h1 : ("(" :: ")" :: t.text).foldlM ListOps.step ⟨0, [], []⟩ = t.text.foldlM ListOps.step ⟨0, [(0, -1, ")")], []⟩ := by
    simp only [List.foldlM_cons, ListOps.step, bind, Except.bind]
    rfl
  rw [h1, run t h]
  have := filter_text t h
  simp [bind, Except.bind, ListOps.inBrackets] at this ⊢
  exact this

/-- That end counts from the last column: the cell of the whole row is marked, and nothing is raised. -/
theorem empty_brackets_mark (L C : ℕ) (hL : 0 < L) (hC : 0 < C) (stoi : String → ℕ) (f : ℕ → ℕ → ℕ → ℝ) :
    ListOps.postStep L C stoi f (0, -1, ")") = .ok (ListOps.put f 0 (L - 1) 0) := by
  have h1 : ListOps.index L 0 = .ok 0 := by simpa using index_ok hL
  have h2 : ListOps.index C 0 = .ok 0 := by simpa using index_ok hC
  have h3 : ListOps.index L (-1) = .ok (L - 1) := by
    unfold ListOps.index
    rw [if_neg (by omega), if_pos (by omega)]
    congr 1
    omega
  unfold ListOps.postStep
  simp [h1, h2, h3, bind, Except.bind]

/-- The hypotheses of `round_trip` are met by a batch of two lines of different lengths. -/
example : [sample, .word "7"] ≠ [] ∧ (∀ t ∈ [sample, Bracketed.word "7"], t.Proper) ∧
    ∀ t ∈ [sample, Bracketed.word "7"], ∀ w ∈ t.words, (fun w => if w = "2" then 3 else if w = "7" then 4 else 2) w < 5 := by
  refine ⟨by simp, ?_, ?_⟩
  · intro t ht
    simp only [List.mem_cons, List.not_mem_nil, or_false] at ht
    rcases ht with rfl | rfl
    · exact sample_proper
    · simp [Bracketed.Proper, Bracketed.words]
  · intro t _ w _
    simp only
    split_ifs <;> omega

/-- The token `()` must be excluded: it is left out of the words, because the test is for substrings of `"()"`, but it is counted in the spans. -/
theorem token_brackets : ListOps.parse ["(", "()", "2", ")"] = .ok (["2"], [(0, 0, "()"), (1, 1, "2"), (0, 1, ")")]) := by
  unfold ListOps.parse
  simp [ListOps.step, ListOps.inBrackets, bind, Except.bind, pure, Except.pure]

end Props.ListOps
