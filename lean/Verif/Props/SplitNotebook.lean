import Verif.Model.SplitNotebook
import Verif.Spec.Tree

/-! Property theorems C139: `split` of the notebook Unsupervised_CFG never returns a split point. -/

noncomputable section
namespace Props.SplitNotebook
open _root_.SplitNotebook CKY Spec

theorem mem_cover {N C : ℕ} {f : ℕ → ℕ → ℕ → ℝ} {c : Cell} : c ∈ cover N C f ↔ c.1 < N ∧ c.2.1 < N ∧ c.2.2 < C ∧ f c.1 c.2.1 c.2.2 ≠ 0 := by
  obtain ⟨i, j, A⟩ := c
  simp [cover]
  tauto

/-- `nonzero` lists the spans with the same start in the order of their ends. -/
theorem cover_sorted (N S : ℕ) (f : ℕ → ℕ → ℕ → ℝ) : (cover N S f).Pairwise fun c d => c.1 = d.1 → c.2.1 ≤ d.2.1 := by
  unfold cover
  refine List.Pairwise.filter _ ?_
  rw [List.pairwise_flatMap]
  refine ⟨fun i _ => ?_, List.pairwise_lt_range.imp fun {a b} hab x hx y hy he => ?_⟩
  · rw [List.pairwise_flatMap]
    refine ⟨fun j _ => ?_, List.pairwise_lt_range.imp fun {a b} hab x hx y hy _ => ?_⟩
    · rw [List.pairwise_map]
      exact List.Pairwise.imp (fun _ _ => le_rfl) List.pairwise_lt_range
    · simp only [List.mem_map] at hx hy
      obtain ⟨A, -, rfl⟩ := hx
      obtain ⟨B, -, rfl⟩ := hy
      exact hab.le
  · simp only [List.mem_flatMap, List.mem_map] at hx hy
    obtain ⟨j, -, A, -, rfl⟩ := hx
    obtain ⟨j', -, B, -, rfl⟩ := hy
    simp only at he
    omega

/-- After the inner loops, `k` is the end of the last span that starts at `i`. -/
theorem inner_k (cov : List Cell) (i j : ℕ) (s : St) : (inner cov i j s).k = ((leftOf cov i).getLast?.map fun x => x.2.1).or s.k ∧ (inner cov i j s).splits = s.splits := by
  unfold inner
  generalize leftOf cov i = xs
  induction xs generalizing s with
  | nil => exact ⟨rfl, rfl⟩
  | cons x xs ih =>
    rw [List.foldl_cons]
    obtain ⟨h1, h2⟩ := ih { s with
      k := some x.2.1
      kFinal := if (rightOf cov j).any fun y => decide (y.2.1 = x.2.1 + 1 ∧ x.2.2 + y.2.2 = (j : ℤ) - i + 1) then some x.2.1 else s.kFinal }
    refine ⟨h1.trans ?_, h2⟩
    cases xs with
    | nil => rfl
    | cons y ys =>
      rw [List.getLast?_cons_cons]
      cases hy : (y :: ys).getLast? with
      | none => simp at hy
      | some z => rfl

/-- The last span that starts at `i` has the largest end. -/
theorem last_max {cov : List Cell} (hs : cov.Pairwise fun c d => c.1 = d.1 → c.2.1 ≤ d.2.1) {c : Cell} (hc : c ∈ cov) :
    ∃ k A, (leftOf cov c.1).getLast?.map (fun x => x.2.1) = some k ∧ (c.1, k, A) ∈ cov ∧ ∀ d ∈ cov, d.1 = c.1 → d.2.1 ≤ k := by
  have hf : c ∈ cov.filter fun d => d.1 = c.1 := List.mem_filter.2 ⟨hc, by simp⟩
  obtain ⟨l, x, hx⟩ := List.eq_nil_or_concat (cov.filter fun d => d.1 = c.1) |>.resolve_left (List.ne_nil_of_mem hf)
  have hxm : x ∈ cov.filter fun d => d.1 = c.1 := by rw [hx]; simp
  obtain ⟨hx1, hx2⟩ := List.mem_filter.1 hxm
  have hx2 : x.1 = c.1 := by simpa using hx2
  refine ⟨x.2.1, x.2.2, ?_, ?_, fun d hd he => ?_⟩
  · unfold leftOf
    rw [hx]
    simp
  · rw [← hx2]; exact hx1
  · have hdm : d ∈ cov.filter fun d => d.1 = c.1 := List.mem_filter.2 ⟨hd, by simpa using he⟩
    have hp : (cov.filter fun d => d.1 = c.1).Pairwise fun c d => c.1 = d.1 → c.2.1 ≤ d.2.1 := hs.filter _
    rw [hx] at hdm hp
    rw [List.concat_eq_append] at hdm hp
    rcases List.mem_append.1 hdm with h | h
    · exact (List.pairwise_append.1 hp).2.2 d h x (by simp) (he.trans hx2.symm)
    · rw [List.mem_singleton.1 h]

open Classical in
theorem fold_splits (cov : List Cell) (hs : cov.Pairwise fun c d => c.1 = d.1 → c.2.1 ≤ d.2.1) : ∀ (cs : List Cell), (∀ c ∈ cs, c ∈ cov) → ∀ s : St,
    ∀ i j, (cs.foldl (step cov) s).splits (i, j) = if i < j ∧ ∃ A, (i, j, A) ∈ cs then (leftOf cov i).getLast?.map (fun x => x.2.1) else s.splits (i, j) := by
  intro cs
  induction cs with
  | nil => intro _ s i j; simp
  | cons c cs ih =>
    intro hcs s i j
    rw [List.foldl_cons, ih (fun d hd => hcs d (List.mem_cons_of_mem _ hd))]
    by_cases h1 : i < j ∧ ∃ A, (i, j, A) ∈ cs
    · rw [if_pos h1, if_pos ⟨h1.1, h1.2.imp fun A h => List.mem_cons_of_mem _ h⟩]
    rw [if_neg h1]
    obtain ⟨k1, k2⟩ := inner_k cov c.1 c.2.1 s
    obtain ⟨k, A, hk, -, -⟩ := last_max hs (hcs c List.mem_cons_self)
    unfold step
    dsimp only
    by_cases h2 : i = c.1 ∧ j = c.2.1
    · obtain ⟨rfl, rfl⟩ := h2
      by_cases h3 : c.1 < c.2.1
      · rw [if_pos h3, if_pos ⟨h3, c.2.2, List.mem_cons_self⟩]
        simp only [Function.update_self]
        rw [k1, hk]
        rfl
      · rw [if_neg h3, if_neg fun h => h3 h.1, k2]
    · rw [if_neg (c := i < j ∧ _)]
      · split_ifs
        · simp only
          rw [Function.update_of_ne (fun e => h2 ⟨congrArg Prod.fst e, congrArg Prod.snd e⟩), k2]
        · rw [k2]
      · rintro ⟨h4, A, h5⟩
        rcases List.mem_cons.1 h5 with h6 | h6
        · exact h2 ⟨by rw [← h6], by rw [← h6]⟩
        · exact h1 ⟨h4, A, h6⟩

/-- **C139.** Whatever the table: `split` has an entry for exactly the nonzero spans of more than one word, and the entry of `(i, j)` is the end of the longest span that
starts at `i`.  So it is at least `j`. -/
theorem split_spec (N S : ℕ) (f : ℕ → ℕ → ℕ → ℝ) (i j : ℕ) :
    ((¬ i < j ∨ ∀ A, (i, j, A) ∉ cover N S f) → splitRow N S f (i, j) = none) ∧
    ∀ A, i < j → (i, j, A) ∈ cover N S f → ∃ k B, splitRow N S f (i, j) = some k ∧ (i, k, B) ∈ cover N S f ∧ j ≤ k ∧ ∀ j' B', (i, j', B') ∈ cover N S f → j' ≤ k := by
  have h := fold_splits (cover N S f) (cover_sorted N S f) (cover N S f) (fun _ hc => hc) ⟨none, none, fun _ => none⟩ i j
  constructor
  · intro hn
    refine h.trans (if_neg ?_)
    rintro ⟨h1, A, h2⟩
    exact hn.elim (fun h3 => h3 h1) fun h3 => h3 A h2
  · intro A hij hA
    obtain ⟨k, B, h1, h2, h3⟩ := last_max (cover_sorted N S f) hA
    exact ⟨k, B, (h.trans (if_pos ⟨hij, A, hA⟩)).trans h1, h2, h3 _ hA rfl, fun j' B' h4 => h3 _ h4 rfl⟩

/-- The spans of a tree lie in the sentence. -/
theorem spans_in {NT : ℕ} : ∀ (t : LTree NT) (s i j : ℕ) (a : Fin NT), (i, j, a) ∈ t.spans s → s ≤ i ∧ i ≤ j ∧ j < s + t.size
  | .leaf a, s, i, j, b, h => by
    simp [LTree.spans] at h
    simp [LTree.size]; omega
  | .node a l r, s, i, j, b, h => by
    have h1 := l.size_pos
    have h2 := r.size_pos
    simp only [LTree.spans, List.mem_cons, List.mem_append, Prod.mk.injEq, LTree.size] at h ⊢
    rcases h with h | h | h
    · omega
    · have := spans_in l _ _ _ _ h; omega
    · have := spans_in r _ _ _ _ h; omega

/-- The inner nodes of a tree whose first word is word `s`: first word, last word, and last word of the left child. -/
def nodes {NT : ℕ} : ℕ → LTree NT → List (ℕ × ℕ × ℕ)
  | _, .leaf _ => []
  | s, .node _ l r => (s, s + l.size + r.size - 1, s + l.size - 1) :: (nodes s l ++ nodes (s + l.size) r)

theorem nodes_span {NT : ℕ} : ∀ (t : LTree NT) (s i j k : ℕ), (i, j, k) ∈ nodes s t → i ≤ k ∧ k < j ∧ ∃ a, (i, j, a) ∈ t.spans s
  | .leaf _, _, _, _, _, h => by simp [nodes] at h
  | .node a l r, s, i, j, k, h => by
    have h1 := l.size_pos
    have h2 := r.size_pos
    simp only [nodes, List.mem_cons, List.mem_append, Prod.mk.injEq] at h
    rcases h with ⟨rfl, rfl, rfl⟩ | h | h
    · exact ⟨by omega, by omega, a, by simp [LTree.spans]⟩
    · obtain ⟨e1, e2, b, e3⟩ := nodes_span l _ _ _ _ h
      exact ⟨e1, e2, b, by simp [LTree.spans, e3]⟩
    · obtain ⟨e1, e2, b, e3⟩ := nodes_span r _ _ _ _ h
      exact ⟨e1, e2, b, by simp [LTree.spans, e3]⟩

/-- **C139, trees.** For the table of a tree over `N` words, and every inner node of the tree, from word `i` to word `j` with split point `k`: `split` has an entry for
`(i, j)`, and it is never `k`. -/
theorem never_split_point {NT N : ℕ} (t : Trees NT N) (f : ℕ → ℕ → ℕ → ℝ) (hf : ∀ i j (a : Fin NT), f i j a ≠ 0 ↔ (i, j, a) ∈ t.1.spans 0) (i j k : ℕ) (h : (i, j, k) ∈ nodes 0 t.1) :
    ∃ v, splitRow N NT f (i, j) = some v ∧ j ≤ v ∧ v ≠ k := by
  obtain ⟨h1, h2, a, h3⟩ := nodes_span t.1 0 i j k h
  have h4 := spans_in t.1 0 i j a h3
  have hN := t.2
  obtain ⟨v, B, e1, -, e3, -⟩ := (split_spec N NT f i j).2 a (by omega) (mem_cover.2 ⟨by dsimp only; omega, by dsimp only; omega, a.2, (hf i j a).2 h3⟩)
  exact ⟨v, e1, e3, by omega⟩

/-- **C139, batches.** -/
theorem split_rows (batch N S : ℕ) (spans : ℕ → ℕ → ℕ → ℕ → ℝ) (b : ℕ) (hb : b < batch) : (split batch N S spans)[b]? = some (splitRow N S (spans b)) := by
  simp [split, hb]

/-! ## A concrete tree -/

/-- `((0 1) 2)`. -/
def tree : Trees 1 3 := ⟨.node 0 (.node 0 (.leaf 0) (.leaf 0)) (.leaf 0), rfl⟩

/-- Its root spans words 0 to 2 and splits after word 1; `split` says 2. -/
example : splitRow 3 1 (fun i j a => if (i, j, a) ∈ (tree.1.spans 0).map fun s => (s.1, s.2.1, (s.2.2 : ℕ)) then 1 else 0) (0, 2) = some 2 := by
  have hf : ∀ i j (a : Fin 1), (if (i, j, (a : ℕ)) ∈ (tree.1.spans 0).map (fun s => (s.1, s.2.1, (s.2.2 : ℕ))) then (1 : ℝ) else 0) ≠ 0 ↔ (i, j, a) ∈ tree.1.spans 0 := by
    intro i j a
    have : a = 0 := Subsingleton.elim _ _
    subst this
    simp [tree, LTree.spans, LTree.size]
    tauto
  obtain ⟨v, B, h1, h2, h3, -⟩ := (split_spec 3 1 (fun i j a => if (i, j, a) ∈ (tree.1.spans 0).map fun s => (s.1, s.2.1, (s.2.2 : ℕ)) then 1 else 0) 0 2).2 0 (by omega)
    (mem_cover.2 ⟨by decide, by decide, by decide, (hf 0 2 0).2 (by decide)⟩)
  have h4 : v < 3 := (mem_cover.1 h2).2.1
  rw [h1]
  congr 1
  omega

example : (0, 2, 1) ∈ nodes 0 tree.1 := by decide

end Props.SplitNotebook
