import Verif.Proofs.Cells
import Verif.Props.SentCFG

/-! Property theorems about the encodings of `CKY`: C49. -/

open Spec CellProofs

namespace Props.SentCFGEvents
variable {NT T : ℕ}

theorem mapM_ok {α β : Type} (f : α → Except PyErr β) (g : α → β) : ∀ (xs : List α), (∀ x ∈ xs, f x = .ok (g x)) → xs.mapM f = .ok (xs.map g)
  | [], _ => rfl
  | x :: xs, h => by
    rw [List.mapM_cons, h x List.mem_cons_self, mapM_ok f g xs fun y hy => h y (List.mem_cons_of_mem _ hy)]; rfl

/-- The derivation used in the examples: two nonterminals and one preterminal over three words. -/
def sample : Deriv 2 1 := .node 1 (.leaf 0) (.node 0 (.leaf 0) (.leaf 0))

/-! ### `to_parts` -/

/-- The rule that the loop of `to_parts` adds for a cell. -/
def added (cover : List CKY.Cell) (c : CKY.Cell) : Option (ℕ × ℕ × ℕ) :=
  if c.1 < c.2.1 then (CKY.lastSplit cover c.1 c.2.1).map fun x => (c.2.2, x.1, x.2) else none

theorem parts_loop {N : ℕ} (cover : List CKY.Cell) : ∀ (cs : List CKY.Cell) (rules : ℕ → ℕ → ℕ → ℝ),
    (∀ c ∈ cs, c.1 < c.2.1 → (CKY.lastSplit cover c.1 c.2.1).isSome ∧ c.2.2 < N) →
    cs.foldlM (CKY.partStep N cover) rules = .ok fun X y z => rules X y z + ((cs.filterMap (added cover)).count (X, y, z) : ℝ)
  | [], rules, _ => by simp; rfl
  | c :: cs, rules, h => by
    rw [List.foldlM_cons, CKY.partStep]
    have ih := fun rules => parts_loop (N := N) cover cs rules fun c hc => h c (List.mem_cons_of_mem _ hc)
    by_cases hc : c.1 < c.2.1
    · obtain ⟨h1, h2⟩ := h c List.mem_cons_self hc
      obtain ⟨x, hx⟩ := Option.isSome_iff_exists.1 h1
      rw [if_pos hc, hx]
      simp only
      rw [if_pos h2]
      refine (ih _).trans ?_
      congr 1
      funext X y z
      rw [List.filterMap_cons_some (b := (c.2.2, x.1, x.2)) (by rw [added, if_pos hc, hx]; rfl), List.count_cons, CKY.bump]
      by_cases he : X = c.2.2 ∧ y = x.1 ∧ z = x.2
      · obtain ⟨rfl, rfl, rfl⟩ := he
        simp; ring
      · rw [if_neg he, if_neg]
        · simp
        · simp only [beq_iff_eq, Prod.mk.injEq]
          exact fun hh => he ⟨hh.1.symm, hh.2.1.symm, hh.2.2.symm⟩
    · rw [if_neg hc]
      refine (ih _).trans ?_
      rw [List.filterMap_cons_none (by rw [added, if_neg hc])]

theorem added_cell {N : ℕ} {d : Deriv NT T} (hN : d.size ≤ N) (x : ℕ × Deriv NT T) (hx : x ∈ d.subs 0) :
    added (CKY.cover N (NT + T) d.table) (Deriv.cell x) = ruleOf x := by
  obtain ⟨i, t⟩ := x
  cases t with
  | leaf t => rw [cell_leaf, added, if_neg (by simp)]; rfl
  | node X l r =>
    have hl := l.size_pos
    have hr := r.size_pos
    rw [cell_node, added, if_pos (by simp only; omega), lastSplit_eq hN hx]; rfl

theorem table_root {d : Deriv NT T} (X : ℕ) : d.table 0 (d.size - 1) X = if d.sym = X then 1 else 0 := by
  rw [Deriv.table]
  have key : (0, d.size - 1, X) ∈ (d.subs 0).map Deriv.cell ↔ d.sym = X := by
    rw [List.mem_map]
    constructor
    · rintro ⟨x, hx, he⟩
      have := cell_inj hx (mem_self 0 d) (by rw [he]; rfl) (by rw [he]; simp [Deriv.cell])
      subst this
      simp only [Deriv.cell, Prod.mk.injEq] at he
      exact he.2.2
    · rintro rfl
      exact ⟨(0, d), mem_self 0 d, by simp [Deriv.cell]⟩
  simp only [key]

theorem table_word {d : Deriv NT T} (n t : ℕ) : d.table n n (NT + t) = ((d.words 0).count (n, t) : ℝ) := by
  rw [Deriv.table]
  have key : (n, n, NT + t) ∈ (d.subs 0).map Deriv.cell ↔ (n, t) ∈ d.words 0 := by
    rw [List.mem_map, ← words_eq d 0, List.mem_filterMap]
    refine exists_congr fun x => and_congr_right fun hx => ?_
    obtain ⟨i, u⟩ := x
    cases u with
    | leaf u =>
      rw [cell_leaf, wordOf]
      simp only [Prod.mk.injEq, Option.some.injEq]
      omega
    | node X l r =>
      have := X.2
      rw [cell_node, wordOf]
      simp only [Prod.mk.injEq, reduceCtorEq, iff_false]
      omega
  simp only [key]
  split_ifs with h
  · have h1 := List.count_pos_iff.2 h
    have h2 := Props.SentCFG.words_count_le d 0 n t
    have : (d.words 0).count (n, t) = 1 := by omega
    rw [this, Nat.cast_one]
  · rw [List.count_eq_zero_of_not_mem h, Nat.cast_zero]

/-- The result of `to_parts` for one row. -/
structure IsRowParts (R : CKY.RowParts) (d : Deriv NT T) : Prop where
  term : ∀ n t, R.term n t = (d.words 0).count (n, t)
  rule : ∀ X y z, R.rule X y z = d.rules.count (X, y, z)
  root : ∀ X, R.root X = if d.sym = X then 1 else 0

theorem toPartsRow_spec {N : ℕ} (d : Deriv NT T) (hN : d.size ≤ N) :
    ∃ R, CKY.toPartsRow NT T N d.table d.size = .ok R ∧ IsRowParts R d := by
  have hp := d.size_pos
  have hloop := parts_loop (N := NT) (CKY.cover N (NT + T) d.table) (CKY.cover N (NT + T) d.table) (fun _ _ _ => 0) (by
    intro c hc hlt
    rw [mem_cover d hN, List.mem_map] at hc
    obtain ⟨⟨i, t⟩, hx, rfl⟩ := hc
    cases t with
    | leaf t => rw [cell_leaf] at hlt; simp at hlt
    | node X l r =>
      rw [cell_node]
      refine ⟨?_, X.2⟩
      simp only
      rw [lastSplit_eq hN hx]; rfl)
  have hp2 : ((CKY.cover N (NT + T) d.table).filterMap (added (CKY.cover N (NT + T) d.table))).Perm d.rules := by
    refine ((cover_perm d hN).filterMap _).trans ?_
    rw [List.filterMap_map, ← rules_eq d 0]
    rw [List.filterMap_congr (f := added (CKY.cover N (NT + T) d.table) ∘ Deriv.cell) (g := ruleOf) fun x hx => added_cell hN x hx]
  refine ⟨_, (if_pos hN).trans (congrArg (Except.map _) hloop :), ?_, ?_, ?_⟩
  · intro n t
    change (if n < d.size then d.table n n (NT + t) else 0) = _
    split_ifs with hn
    · exact table_word n t
    · rw [List.count_eq_zero_of_not_mem, Nat.cast_zero]
      intro hc
      have : n ∈ (d.words 0).map Prod.fst := List.mem_map.2 ⟨_, hc, rfl⟩
      rw [Props.SentCFG.words_fst] at this
      simp only [List.mem_map, List.mem_range] at this
      omega
  · intro X y z
    change (0 : ℝ) + _ = _
    rw [zero_add, hp2.count_eq]
  · intro X
    change d.table 0 (CKYCRF.lastIndex N d.size) X = _
    rw [CKYCRF.lastIndex, if_neg (by omega)]
    exact table_root X

/-- **C49.** `to_parts` on the table of cells of labelled binary trees returns for every row the tree's preterminals, the number of uses of every
rule, and its root. -/
theorem toParts_spec (batch N : ℕ) (D : ℕ → Deriv NT T) (hD : ∀ b < batch, (D b).size ≤ N) :
    ∃ rows, CKY.toParts NT T batch N (NT + T) (fun b => (D b).table) (some ((List.range batch).map fun b => (D b).size)) = .ok rows ∧
      rows.length = batch ∧ ∀ b (hb : b < rows.length), IsRowParts rows[b] (D b) := by
  classical
  have hrow : ∀ b : ℕ, ∃ R, b < batch → CKY.toPartsRow NT T N (D b).table (D b).size = .ok R ∧ IsRowParts R (D b) := fun b => by
    by_cases hb : b < batch
    · obtain ⟨R, h⟩ := toPartsRow_spec (D b) (hD b hb)
      exact ⟨R, fun _ => h⟩
    · exact ⟨⟨fun _ _ => 0, fun _ _ _ => 0, fun _ => 0⟩, fun h => absurd h hb⟩
  choose R hR using hrow
  refine ⟨(List.range batch).map R, ?_, by simp, fun b hb => ?_⟩
  · rw [CKY.toParts, if_neg (by simp)]
    refine mapM_ok _ R _ fun b hb => ?_
    have hb' := List.mem_range.1 hb
    simp only [List.getElem?_map, List.getElem?_range hb', Option.map_some]
    exact (hR b hb').1
  · have hb' : b < batch := by simpa using hb
    simp only [List.getElem_map, List.getElem_range]
    exact (hR b hb').2

/-- Two rows of three words in tables of width four. -/
example : ∀ b < 2, ((fun _ => sample : ℕ → Deriv 2 1) b).size ≤ 4 := fun _ _ => (by decide : sample.size ≤ 4)

/-! ### `from_parts` -/

/-- The anchored rule table of a derivation: 1 at `(width - 2, first word, X, y, z)` for every inner node. -/
noncomputable def anchored (d : Deriv NT T) (w i X y z : ℕ) : ℝ :=
  open Classical in if ∃ (Y : Fin NT) (l r : Deriv NT T), (i, .node Y l r) ∈ d.subs 0 ∧ w = l.size + r.size - 2 ∧ X = Y ∧ y = l.sym ∧ z = r.sym then 1 else 0

theorem sum_range_single (n k : ℕ) (hk : k < n) (f : ℕ → ℝ) (h : ∀ j < n, j ≠ k → f j = 0) : ((List.range n).map f).sum = f k := by
  have : ((List.range n).map f).sum = ∑ j ∈ Finset.range n, f j := rfl
  rw [this]
  exact Finset.sum_eq_single_of_mem k (Finset.mem_range.2 hk) fun j hj hne => h j (Finset.mem_range.1 hj) hne

/-- **C49**, the inverse direction: `from_parts` on the anchored rules and the preterminals of a tree returns its table of cells. -/
theorem fromPartsRow_spec {N : ℕ} (d : Deriv NT T) (hN : d.size ≤ N) (i j A : ℕ) :
    CKY.fromPartsRow NT T N (fun n t => ((d.words 0).count (n, t) : ℝ)) (anchored d) i j A = d.table i j A := by
  classical
  rw [CKY.fromPartsRow]
  have hnode : ∀ {i j A : ℕ}, (i, j, A) ∈ (d.subs 0).map Deriv.cell →
      (i = j ∧ j < N ∧ NT ≤ A ∧ A < NT + T) ∨ (i < j ∧ j < N ∧ A < NT) := by
    intro i j A hm
    obtain ⟨⟨i', u⟩, hx, he⟩ := List.mem_map.1 hm
    have hb := bounds d 0 _ hx
    cases u with
    | leaf u =>
      have := u.2
      rw [cell_leaf, Prod.mk.injEq, Prod.mk.injEq] at he
      simp only [GTree.size] at hb
      omega
    | node X l r =>
      have := X.2
      have := l.size_pos
      have := r.size_pos
      rw [cell_node, Prod.mk.injEq, Prod.mk.injEq] at he
      simp only [GTree.size] at hb
      omega
  split_ifs with h1 h2
  · by_cases hm : ∃ (Y : Fin NT) (l r : Deriv NT T), (i, .node Y l r) ∈ d.subs 0 ∧ j - i - 1 = l.size + r.size - 2 ∧ A = Y
    · obtain ⟨Y, l, r, hx, hw, rfl⟩ := hm
      have hl := l.size_pos
      have hr := r.size_pos
      have hother : ∀ y z, ¬ (y = l.sym ∧ z = r.sym) → anchored d (j - i - 1) i Y y z = 0 := by
        intro y z hyz
        rw [anchored, if_neg]
        rintro ⟨Y', l', r', hx', hw', hY', rfl, rfl⟩
        have hl' := l'.size_pos
        have hr' := r'.size_pos
        have := extent_unique d 0 _ hx _ hx' rfl (by simp only [GTree.size]; omega)
        simp only [Prod.mk.injEq, GTree.node.injEq, true_and] at this
        obtain ⟨-, rfl, rfl⟩ := this
        exact hyz ⟨rfl, rfl⟩
      rw [sum_range_single _ l.sym (sym_bound l) _ fun y _ hy => ?_, sum_range_single _ r.sym (sym_bound r) _ fun z _ hz => ?_]
      · rw [anchored, if_pos ⟨Y, l, r, hx, hw, rfl, rfl, rfl⟩, Deriv.table, if_pos (List.mem_map.2 ⟨_, hx, ?_⟩)]
        rw [cell_node, Prod.mk.injEq, Prod.mk.injEq]
        exact ⟨rfl, by omega, rfl⟩
      · exact hother _ _ fun hc => hz hc.2
      · exact List.sum_eq_zero fun v hv => by
          obtain ⟨z, -, rfl⟩ := List.mem_map.1 hv
          exact hother _ _ fun hc => hy hc.1
    · rw [Deriv.table, if_neg]
      · refine List.sum_eq_zero fun v hv => ?_
        obtain ⟨y, -, rfl⟩ := List.mem_map.1 hv
        refine List.sum_eq_zero fun v hv => ?_
        obtain ⟨z, -, rfl⟩ := List.mem_map.1 hv
        rw [anchored, if_neg]
        rintro ⟨Y, l, r, hx, hw, hA, -⟩
        exact hm ⟨Y, l, r, hx, hw, hA⟩
      · intro hc
        obtain ⟨⟨i', u⟩, hx, he⟩ := List.mem_map.1 hc
        cases u with
        | leaf u => rw [cell_leaf, Prod.mk.injEq, Prod.mk.injEq] at he; omega
        | node X l r =>
          have hl := l.size_pos
          have hr := r.size_pos
          rw [cell_node, Prod.mk.injEq, Prod.mk.injEq] at he
          obtain ⟨rfl, he2, he3⟩ := he
          exact hm ⟨X, l, r, hx, by omega, he3.symm⟩
  · obtain ⟨rfl, -, h3, h4⟩ := h2
    rw [← table_word, show NT + (A - NT) = A by omega]
  · rw [Deriv.table, if_neg]
    intro hc
    rcases hnode hc with h | h
    · exact h2 h
    · exact h1 h

/-! ### `_intermediary` -/

theorem split_loop (cover : List CKY.Cell) (g : CKY.Cell → ℕ × ℕ × ℕ) : ∀ (cs : List CKY.Cell) (sp : ℕ × ℕ → Option (ℕ × ℕ × ℕ)),
    (∀ c ∈ cs, c.1 ≠ c.2.1 → CKY.firstSplit cover c.1 c.2.1 = some (g c)) → (∀ c ∈ cs, ∀ c' ∈ cs, (c.1, c.2.1) = (c'.1, c'.2.1) → g c = g c') →
    ∃ sp', cs.foldlM (CKY.splitStep cover) sp = .ok sp' ∧ (∀ c ∈ cs, c.1 ≠ c.2.1 → sp' (c.1, c.2.1) = some (g c)) ∧
      ∀ k, (∀ c ∈ cs, c.1 ≠ c.2.1 → (c.1, c.2.1) ≠ k) → sp' k = sp k
  | [], sp, _, _ => ⟨sp, rfl, by simp, fun _ _ => rfl⟩
  | c :: cs, sp, h, hg => by
    have ih := fun sp => split_loop cover g cs sp (fun c hc => h c (List.mem_cons_of_mem _ hc))
      fun c hc c' hc' => hg c (List.mem_cons_of_mem _ hc) c' (List.mem_cons_of_mem _ hc')
    rw [List.foldlM_cons, CKY.splitStep]
    by_cases hc : c.1 = c.2.1
    · rw [if_pos hc]
      obtain ⟨sp', h1, h2, h3⟩ := ih sp
      refine ⟨sp', h1, fun c' hc' hne => ?_, fun k hk => h3 k fun c' hc' => hk c' (List.mem_cons_of_mem _ hc')⟩
      rcases List.mem_cons.1 hc' with rfl | hc'
      · exact absurd hc hne
      · exact h2 c' hc' hne
    · rw [if_neg hc, h c List.mem_cons_self hc]
      obtain ⟨sp', h1, h2, h3⟩ := ih (Function.update sp (c.1, c.2.1) (some (g c)))
      refine ⟨sp', h1, fun c' hc' hne => ?_, fun k hk => ?_⟩
      · rcases List.mem_cons.1 hc' with rfl | hm
        · by_cases hex : ∃ e ∈ cs, e.1 ≠ e.2.1 ∧ (e.1, e.2.1) = (c'.1, c'.2.1)
          · obtain ⟨e, he, hne', heq⟩ := hex
            rw [← heq, h2 e he hne']
            exact congrArg some (hg e (List.mem_cons_of_mem _ he) c' hc' heq)
          · rw [h3 _ fun e he hne' heq => hex ⟨e, he, hne', heq⟩, Function.update_self]
        · exact h2 c' hm hne
      · rw [h3 k fun c' hc' => hk c' (List.mem_cons_of_mem _ hc'), Function.update_of_ne]
        exact (hk c List.mem_cons_self hc).symm

/-- **C49.** `_intermediary` returns for every inner node of the tree the last word of its left child and the symbols of its children, and
nothing else. -/
theorem intermediary_spec {N : ℕ} (d : Deriv NT T) (hN : d.size ≤ N) :
    ∃ sp, CKY.intermediaryRow N (NT + T) d.table = .ok sp ∧
      (∀ i X l r, (i, .node X l r) ∈ d.subs 0 → sp (i, i + (l.size + r.size) - 1) = some (i + l.size - 1, Deriv.sym l, Deriv.sym r)) ∧
      ∀ i j x, sp (i, j) = some x → ∃ X l r, (i, .node X l r) ∈ d.subs 0 ∧ j = i + (l.size + r.size) - 1 := by
  classical
  have hmem := fun c => mem_cover d hN c
  obtain ⟨sp, h1, h2, h3⟩ := split_loop (CKY.cover N (NT + T) d.table) (fun c => (CKY.firstSplit (CKY.cover N (NT + T) d.table) c.1 c.2.1).getD (0, 0, 0))
    (CKY.cover N (NT + T) d.table) (fun _ => none) (by
      intro c hc hne
      obtain ⟨⟨i, t⟩, hx, rfl⟩ := List.mem_map.1 ((hmem c).1 hc)
      cases t with
      | leaf t => rw [cell_leaf] at hne; simp at hne
      | node X l r => rw [cell_node]; simp only; rw [firstSplit_eq hN hx]; rfl)
    (fun c _ c' _ he => by
      simp only [Prod.mk.injEq] at he
      rw [he.1, he.2])
  refine ⟨sp, h1, fun i X l r hx => ?_, fun i j x hx => ?_⟩
  · have hl := l.size_pos
    have hr := r.size_pos
    have := h2 (i, i + (l.size + r.size) - 1, ↑X) ((hmem _).2 (List.mem_map.2 ⟨_, hx, cell_node i X l r⟩)) (by simp only; omega)
    rw [this, firstSplit_eq hN hx]; rfl
  · by_contra hcon
    rw [h3 (i, j) fun c hc hne he => hcon ?_] at hx
    · simp at hx
    · obtain ⟨⟨i', t⟩, hx', rfl⟩ := List.mem_map.1 ((hmem c).1 hc)
      cases t with
      | leaf t => rw [cell_leaf] at hne; simp at hne
      | node X l r =>
        rw [cell_node] at he
        simp only [Prod.mk.injEq] at he
        obtain ⟨rfl, rfl⟩ := he
        exact ⟨X, l, r, hx', rfl⟩

/-! ### `to_networkx` -/

/-- A subtree of row `b`. -/
abbrev Sub (NT T : ℕ) : Type := ℕ × ℕ × Deriv NT T

/-- Its cell. -/
def cell4 (x : Sub NT T) : CKY.Cell4 := (x.1, Deriv.cell x.2)

/-- The state of the loop after the subtrees `xs`. -/
structure Inv (xs : List (Sub NT T)) (s : CKY.NxState) : Prop where
  cur : s.cur = xs.length
  left : ∀ b i, (s.left (b, i) = none → ∀ x ∈ xs, ¬ (x.1 = b ∧ x.2.1 = i)) ∧ ∀ n h, s.left (b, i) = some (n, h) →
    ∃ t, xs[n]? = some (b, i, t) ∧ h = t.height ∧ ∀ x ∈ xs, x.1 = b → x.2.1 = i → x.2.2.size ≤ t.size
  right : ∀ b e, (s.right (b, e) = none → ∀ x ∈ xs, ¬ (x.1 = b ∧ x.2.1 + x.2.2.size - 1 = e)) ∧ ∀ n h, s.right (b, e) = some (n, h) →
    ∃ i t, xs[n]? = some (b, i, t) ∧ i + t.size - 1 = e ∧ h = t.height ∧ ∀ x ∈ xs, x.1 = b → x.2.1 + x.2.2.size - 1 = e → x.2.2.size ≤ t.size
  edges : ∃ ts : List (ℕ × ℕ × ℕ), s.a = ts.flatMap (fun t => [t.2.1, t.2.2]) ∧ s.b = ts.flatMap (fun t => [t.1, t.1]) ∧
    ts.map Prod.fst = (List.range xs.length).filter (fun n => ((xs[n]?).map fun x => x.2.2.isNode).getD false) ∧
    ∀ t ∈ ts, ∃ b i X l r, xs[t.1]? = some (b, i, .node X l r) ∧ xs[t.2.1]? = some (b, i, l) ∧ xs[t.2.2]? = some (b, i + l.size, r)
  topo : ∀ h, s.topo h = (List.range xs.length).filter fun n => ((xs[n]?).map fun x => decide (x.2.2.height = h)).getD false

theorem getElem?_snoc {α : Type} {xs : List α} {n : ℕ} {v : α} (x : α) (h : xs[n]? = some v) : (xs ++ [x])[n]? = some v := by
  rw [List.getElem?_append_left]
  · exact h
  · exact (List.getElem?_eq_some_iff.1 h).1

theorem filter_snoc {α : Type} (xs : List α) (x : α) (f : α → Bool) :
    (List.range (xs ++ [x]).length).filter (fun n => (((xs ++ [x])[n]?).map f).getD false) =
      (List.range xs.length).filter (fun n => ((xs[n]?).map f).getD false) ++ if f x then [xs.length] else [] := by
  rw [List.length_append, List.length_singleton, List.range_succ, List.filter_append]
  congr 1
  · refine List.filter_congr fun n hn => ?_
    rw [List.getElem?_append_left (List.mem_range.1 hn)]
  · simp only [List.filter_cons, List.getElem?_concat_length, Option.map_some, Option.getD_some, List.filter_nil]

/-- Registering the next subtree. -/
theorem put_inv {N : ℕ} {xs : List (Sub NT T)} {s : CKY.NxState} (h : Inv xs s) (x : Sub NT T) (hsorted : ∀ y ∈ xs, y.2.2.size ≤ x.2.2.size)
    (hN : x.2.2.height < N) (ts : List (ℕ × ℕ × ℕ)) (a b : List ℕ)
    (ha : a = s.a ++ ts.flatMap (fun t => [t.2.1, t.2.2])) (hb : b = s.b ++ ts.flatMap (fun t => [t.1, t.1]))
    (hts : ts.map Prod.fst = if x.2.2.isNode then [xs.length] else [])
    (ht : ∀ t ∈ ts, ∃ b i X l r, (xs ++ [x])[t.1]? = some (b, i, .node X l r) ∧ (xs ++ [x])[t.2.1]? = some (b, i, l) ∧
      (xs ++ [x])[t.2.2]? = some (b, i + l.size, r)) :
    ∃ s', CKY.nxPut N s (cell4 x) x.2.2.height a b = .ok s' ∧ Inv (xs ++ [x]) s' := by
  refine ⟨_, if_pos hN, ?_⟩
  obtain ⟨b₀, i₀, t₀⟩ := x
  refine ⟨by simp [h.cur], ?_, ?_, ?_, ?_⟩
  · intro b i
    change (Function.update s.left (b₀, i₀) (some (s.cur, t₀.height)) (b, i) = none → _) ∧ ∀ n h', Function.update s.left (b₀, i₀) (some (s.cur, t₀.height)) (b, i) = some (n, h') → _
    by_cases hk : (b, i) = (b₀, i₀)
    · rw [hk, Function.update_self]
      simp only [Prod.mk.injEq] at hk
      obtain ⟨rfl, rfl⟩ := hk
      refine ⟨fun hc => absurd hc (by simp), fun n h' hs => ?_⟩
      simp only [Option.some.injEq, Prod.mk.injEq] at hs
      obtain ⟨rfl, rfl⟩ := hs
      refine ⟨t₀, by rw [h.cur]; simp, rfl, fun y hy _ _ => ?_⟩
      rcases List.mem_append.1 hy with hy | hy
      · exact hsorted y hy
      · rw [List.mem_singleton] at hy; subst hy; exact le_rfl
    · rw [Function.update_of_ne hk]
      refine ⟨fun hc y hy => ?_, fun n h' hs => ?_⟩
      · rcases List.mem_append.1 hy with hy | hy
        · exact (h.left b i).1 hc y hy
        · rw [List.mem_singleton] at hy; subst hy
          rintro ⟨rfl, rfl⟩; exact hk rfl
      · obtain ⟨t, h1, h2, h3⟩ := (h.left b i).2 n h' hs
        refine ⟨t, getElem?_snoc _ h1, h2, fun y hy e1 e2 => ?_⟩
        rcases List.mem_append.1 hy with hy | hy
        · exact h3 y hy e1 e2
        · rw [List.mem_singleton] at hy; subst hy
          exact absurd (by rw [← e1, ← e2]) hk
  · intro b e
    change (Function.update s.right (b₀, i₀ + t₀.size - 1) (some (s.cur, t₀.height)) (b, e) = none → _) ∧
      ∀ n h', Function.update s.right (b₀, i₀ + t₀.size - 1) (some (s.cur, t₀.height)) (b, e) = some (n, h') → _
    by_cases hk : (b, e) = (b₀, i₀ + t₀.size - 1)
    · rw [hk, Function.update_self]
      simp only [Prod.mk.injEq] at hk
      obtain ⟨rfl, rfl⟩ := hk
      refine ⟨fun hc => absurd hc (by simp), fun n h' hs => ?_⟩
      simp only [Option.some.injEq, Prod.mk.injEq] at hs
      obtain ⟨rfl, rfl⟩ := hs
      refine ⟨i₀, t₀, by rw [h.cur]; simp, rfl, rfl, fun y hy _ _ => ?_⟩
      rcases List.mem_append.1 hy with hy | hy
      · exact hsorted y hy
      · rw [List.mem_singleton] at hy; subst hy; exact le_rfl
    · rw [Function.update_of_ne hk]
      refine ⟨fun hc y hy => ?_, fun n h' hs => ?_⟩
      · rcases List.mem_append.1 hy with hy | hy
        · exact (h.right b e).1 hc y hy
        · rw [List.mem_singleton] at hy; subst hy
          rintro ⟨rfl, rfl⟩; exact hk rfl
      · obtain ⟨i, t, h1, h4, h2, h3⟩ := (h.right b e).2 n h' hs
        refine ⟨i, t, getElem?_snoc _ h1, h4, h2, fun y hy e1 e2 => ?_⟩
        rcases List.mem_append.1 hy with hy | hy
        · exact h3 y hy e1 e2
        · rw [List.mem_singleton] at hy; subst hy
          exact absurd (by rw [← e1, ← e2]) hk
  · obtain ⟨ts', h1, h2, h3, h4⟩ := h.edges
    refine ⟨ts' ++ ts, ?_, ?_, ?_, ?_⟩
    · rw [List.flatMap_append, ← h1]; exact ha
    · rw [List.flatMap_append, ← h2]; exact hb
    · rw [List.map_append, h3, hts, filter_snoc xs (b₀, i₀, t₀) fun x => x.2.2.isNode]
    · intro t htm
      rcases List.mem_append.1 htm with htm | htm
      · obtain ⟨b, i, X, l, r, e1, e2, e3⟩ := h4 t htm
        exact ⟨b, i, X, l, r, getElem?_snoc _ e1, getElem?_snoc _ e2, getElem?_snoc _ e3⟩
      · exact ht t htm
  · intro k
    rw [filter_snoc xs (b₀, i₀, t₀) fun x => decide (x.2.2.height = k)]
    change Function.update s.topo t₀.height (s.topo t₀.height ++ [s.cur]) k = _
    by_cases hk : k = t₀.height
    · subst hk
      rw [Function.update_self, h.topo, h.cur]
      simp
    · rw [Function.update_of_ne hk, h.topo, if_neg (by simp only [decide_eq_true_eq]; exact fun hc => hk hc.symm), List.append_nil]

/-- One iteration, when both children have been registered. -/
theorem step_inv {N : ℕ} (D : ℕ → Deriv NT T) {xs : List (Sub NT T)} {s : CKY.NxState} (h : Inv xs s) (x : Sub NT T)
    (hmem : ∀ y ∈ xs, y.2 ∈ (D y.1).subs 0) (hx : x.2 ∈ (D x.1).subs 0) (hnot : x ∉ xs)
    (hchild : ∀ X l r, x.2.2 = .node X l r → (x.1, x.2.1, l) ∈ xs ∧ (x.1, x.2.1 + l.size, r) ∈ xs)
    (hsorted : ∀ y ∈ xs, y.2.2.size ≤ x.2.2.size) (hN : (D x.1).size ≤ N) :
    ∃ s', CKY.nxStep N s (cell4 x) = .ok s' ∧ Inv (xs ++ [x]) s' := by
  obtain ⟨b, i, u⟩ := x
  have hheight : u.height < N := by
    have h1 := height_lt u
    have h2 := bounds _ _ _ hx
    simp only at h2 hN
    omega
  cases u with
  | leaf t =>
    have e : cell4 ((b, i, .leaf t) : Sub NT T) = (b, i, i, NT + t) := by rw [cell4, cell_leaf]
    rw [CKY.nxStep, if_pos (by rw [e])]
    exact put_inv h (b, i, .leaf t) hsorted hheight [] _ _ (by simp) (by simp) (by simp [Deriv.isNode]) (by simp)
  | node X l r =>
    have hl := l.size_pos
    have hr := r.size_pos
    obtain ⟨c1, c2⟩ := hchild X l r rfl
    have e : cell4 ((b, i, .node X l r) : Sub NT T) = (b, i, i + (l.size + r.size) - 1, ↑X) := rfl
    -- the entry of `left`
    obtain ⟨n, hn⟩ : ∃ n, s.left (b, i) = some (n, Deriv.height l) ∧ xs[n]? = some (b, i, l) := by
      cases hs : s.left (b, i) with
      | none => exact absurd ⟨rfl, rfl⟩ ((h.left b i).1 hs _ c1)
      | some v =>
        obtain ⟨n, h'⟩ := v
        obtain ⟨t, h1, h2, h3⟩ := (h.left b i).2 n h' hs
        have hm : (b, i, t) ∈ xs := List.mem_of_getElem? h1
        have h4 := h3 _ c1 rfl rfl
        have h5 := hsorted _ hm
        have hsub := hmem _ hm
        simp only [GTree.size] at h4 h5 hsub
        have h6 : t.size ≠ l.size + r.size := fun hc => hnot (by
          have := extent_unique (D b) 0 _ hx _ hsub rfl (by simp only [GTree.size]; exact hc.symm)
          exact (congrArg (fun y => ((b, y) : Sub NT T)) this) ▸ hm)
        have h7 := start_le (D b) 0 i X l r hx _ hsub rfl (by simp only; omega)
        have h8 := extent_unique (D b) 0 _ (left_mem hx) _ hsub rfl (by simp only at h7 ⊢; omega)
        simp only [Prod.mk.injEq, true_and] at h8
        subst h8
        exact ⟨n, by rw [h2], h1⟩
    -- the entry of `right`
    obtain ⟨m, hm⟩ : ∃ m, s.right (b, i + (l.size + r.size) - 1) = some (m, Deriv.height r) ∧ xs[m]? = some (b, i + l.size, r) := by
      cases hs : s.right (b, i + (l.size + r.size) - 1) with
      | none => exact absurd ⟨rfl, by simp only; omega⟩ ((h.right b _).1 hs _ c2)
      | some v =>
        obtain ⟨n, h'⟩ := v
        obtain ⟨i', t, h1, h0, h2, h3⟩ := (h.right b _).2 n h' hs
        have hm : (b, i', t) ∈ xs := List.mem_of_getElem? h1
        have h4 := h3 _ c2 rfl (by simp only; omega)
        have h5 := hsorted _ hm
        have hsub := hmem _ hm
        have ht := t.size_pos
        simp only [GTree.size] at h4 h5 hsub
        have h6 : t.size ≠ l.size + r.size := fun hc => hnot (by
          have := extent_unique (D b) 0 _ hx _ hsub (by simp only; omega) (by simp only [GTree.size]; exact hc.symm)
          exact (congrArg (fun y => ((b, y) : Sub NT T)) this) ▸ hm)
        have h7 := end_le (D b) 0 i X l r hx _ hsub (by simp only; omega) (by simp only; omega)
        simp only at h7
        have h8 := extent_unique (D b) 0 _ (right_mem hx) _ hsub (by simp only; omega) (by simp only; omega)
        simp only [Prod.mk.injEq] at h8
        obtain ⟨rfl, rfl⟩ := h8
        exact ⟨n, by rw [h2], h1⟩
    rw [CKY.nxStep, if_neg (by rw [e]; simp only; omega), e]
    simp only
    rw [hn.1, hm.1]
    have hput := put_inv h (b, i, .node X l r) hsorted hheight [(s.cur, n, m)] (s.a ++ [n, m]) (s.b ++ [s.cur, s.cur]) (by simp) (by simp)
      (by simp [Deriv.isNode, h.cur]) (by
        intro t ht
        rw [List.mem_singleton] at ht
        subst ht
        exact ⟨b, i, X, l, r, by rw [h.cur]; simp, getElem?_snoc _ hn.2, getElem?_snoc _ hm.2⟩)
    exact hput

theorem loop_inv {N : ℕ} (D : ℕ → Deriv NT T) : ∀ (post pre : List (Sub NT T)) (s : CKY.NxState), Inv pre s →
    (∀ y ∈ pre ++ post, y.2 ∈ (D y.1).subs 0 ∧ (D y.1).size ≤ N) → (pre ++ post).Nodup →
    (∀ x ∈ pre ++ post, ∀ X l r, x.2.2 = .node X l r → (x.1, x.2.1, l) ∈ pre ++ post ∧ (x.1, x.2.1 + l.size, r) ∈ pre ++ post) →
    (pre ++ post).Pairwise (fun x y => x.2.2.size ≤ y.2.2.size) →
    ∃ s', (post.map cell4).foldlM (CKY.nxStep N) s = .ok s' ∧ Inv (pre ++ post) s'
  | [], pre, s, h, _, _, _, _ => ⟨s, rfl, by rw [List.append_nil]; exact h⟩
  | x :: post, pre, s, h, hmem, hnd, hch, hs => by
    have hpre : ∀ y, y ∈ pre ++ x :: post → y.2.2.size < x.2.2.size → y ∈ pre := by
      intro y hy hlt
      rcases List.mem_append.1 hy with hy | hy
      · exact hy
      · exfalso
        have h2 := (List.pairwise_append.1 hs).2.1
        rcases List.mem_cons.1 hy with rfl | hy
        · omega
        · have := (List.pairwise_cons.1 h2).1 y hy; omega
    have hx : x ∈ pre ++ x :: post := List.mem_append_right _ List.mem_cons_self
    obtain ⟨s', h1, h2⟩ := step_inv (N := N) D h x (fun y hy => (hmem y (List.mem_append_left _ hy)).1) (hmem x hx).1
      (fun hc => (List.nodup_append.1 hnd).2.2 x hc x List.mem_cons_self rfl)
      (fun X l r he => by
        have hl := l.size_pos
        have hr := r.size_pos
        obtain ⟨a1, a2⟩ := hch x hx X l r he
        exact ⟨hpre _ a1 (by rw [he]; simp only [GTree.size]; omega), hpre _ a2 (by rw [he]; simp only [GTree.size]; omega)⟩)
      (fun y hy => (List.pairwise_append.1 hs).2.2 y hy x List.mem_cons_self) (hmem x hx).2
    have e : pre ++ x :: post = pre ++ [x] ++ post := by simp
    rw [e] at hmem hnd hch hs
    obtain ⟨s'', h3, h4⟩ := loop_inv D post (pre ++ [x]) s' h2 hmem hnd hch hs
    refine ⟨s'', ?_, by rw [e]; exact h4⟩
    rw [List.map_cons, List.foldlM_cons, h1]
    exact h3

theorem mem_cover4 {batch N : ℕ} (D : ℕ → Deriv NT T) (hD : ∀ b < batch, (D b).size ≤ N) (c : CKY.Cell4) :
    c ∈ CKY.cover4 batch N (NT + T) (fun b => (D b).table) ↔ ∃ b < batch, ∃ x ∈ (D b).subs 0, c = cell4 (b, x) := by
  rw [CKY.cover4, List.mem_flatMap]
  constructor
  · rintro ⟨b, hb, hc⟩
    obtain ⟨c, hc', rfl⟩ := List.mem_map.1 hc
    have hb := List.mem_range.1 hb
    obtain ⟨x, hx, rfl⟩ := List.mem_map.1 ((mem_cover _ (hD b hb) c).1 hc')
    exact ⟨b, hb, x, hx, rfl⟩
  · rintro ⟨b, hb, x, hx, rfl⟩
    exact ⟨b, List.mem_range.2 hb, List.mem_map.2 ⟨_, (mem_cover _ (hD b hb) _).2 (List.mem_map_of_mem hx), rfl⟩⟩

theorem cover4_nodup (batch N S : ℕ) (spans : ℕ → ℕ → ℕ → ℕ → ℝ) : (CKY.cover4 batch N S spans).Nodup := by
  refine List.nodup_flatMap.2 ⟨fun b _ => (cover_nodup _ _ _).map fun c c' h => (Prod.mk.inj h).2, ?_⟩
  refine List.nodup_range.imp_of_mem ?_
  intro b b' _ _ hne
  rw [Function.onFun, List.disjoint_left]
  intro c hc hc'
  obtain ⟨k, -, rfl⟩ := List.mem_map.1 hc
  obtain ⟨k', -, he⟩ := List.mem_map.1 hc'
  exact hne (Prod.mk.inj he).1.symm

theorem exists_subs (P : Sub NT T → Prop) : ∀ cs : List CKY.Cell4, (∀ c ∈ cs, ∃ x, P x ∧ c = cell4 x) → ∃ xs : List (Sub NT T), cs = xs.map cell4 ∧ ∀ x ∈ xs, P x
  | [], _ => ⟨[], rfl, by simp⟩
  | c :: cs, h => by
    obtain ⟨x, hx, rfl⟩ := h c List.mem_cons_self
    obtain ⟨xs, rfl, hxs⟩ := exists_subs P cs fun c hc => h c (List.mem_cons_of_mem _ hc)
    exact ⟨x :: xs, rfl, fun y hy => by
      rcases List.mem_cons.1 hy with rfl | hy
      · exact hx
      · exact hxs y hy⟩

theorem sum_indicator {α : Type} (f : α → ℝ) (hf : ∀ x, f x = 0 ∨ f x = 1) : ∀ l : List α, (l.map f).sum = (l.filter fun x => decide (f x ≠ 0)).length
  | [] => by simp
  | x :: l => by
    rw [List.map_cons, List.sum_cons, sum_indicator f hf l]
    rcases hf x with h | h
    · rw [List.filter_cons_of_neg (by simp [h]), h, zero_add]
    · rw [List.filter_cons_of_pos (by simp [h]), h, List.length_cons]
      push_cast
      ring

theorem nNodes_eq (batch N : ℕ) (D : ℕ → Deriv NT T) :
    CKY.nNodes batch N (NT + T) (fun b => (D b).table) = (CKY.cover4 batch N (NT + T) fun b => (D b).table).length := by
  rw [CKY.nNodes, CKY.cover4, List.length_flatMap, Nat.cast_list_sum, List.map_map]
  refine congrArg List.sum (List.map_congr_left fun b _ => ?_)
  rw [sum_indicator (fun c : CKY.Cell => (D b).table c.1 c.2.1 c.2.2) (fun c => by unfold Deriv.table; split_ifs <;> simp), Function.comp_apply, List.length_map]
  rfl

theorem subs_length : ∀ (d : Deriv NT T) (i : ℕ), (d.subs i).length + 1 = 2 * d.size
  | .leaf _, _ => rfl
  | .node X l r, i => by
    have h1 := subs_length l i
    have h2 := subs_length r (i + l.size)
    rw [Deriv.subs, List.length_cons, List.length_append, GTree.size]
    omega

/-- **C49.** The number of nodes that `to_networkx` returns for a batch of labelled binary trees: `2 L - 1` for a row of `L` words. -/
theorem nNodes_spec (batch N : ℕ) (D : ℕ → Deriv NT T) (hD : ∀ b < batch, (D b).size ≤ N) :
    CKY.nNodes batch N (NT + T) (fun b => (D b).table) = ((List.range batch).map fun b => (2 * (D b).size - 1 : ℝ)).sum := by
  rw [nNodes_eq, CKY.cover4, List.length_flatMap, Nat.cast_list_sum, List.map_map]
  refine congrArg List.sum (List.map_congr_left fun b hb => ?_)
  have h1 := (cover_perm (D b) (hD b (List.mem_range.1 hb))).length_eq
  have h2 := subs_length (D b) 0
  rw [Function.comp_apply, List.length_map, h1, List.length_map, eq_sub_iff_add_eq]
  exact_mod_cast h2

/-- **C49.** `to_networkx` on the cells of a batch of labelled binary trees, whatever order `argsort` puts cells of equal width in: node `n` is the
`n`-th subtree in that order; there are edges from the two children of every inner node to that node, in the order of the nodes, and no others; and
`topo[h]` lists the nodes of height `h`.  The number `n_nodes` that is returned is the number of nodes, and `indices` maps every word `i` of row `b` to
the widest subtree that starts at it, with its height. -/
theorem toNetworkx_spec (batch N : ℕ) (D : ℕ → Deriv NT T) (hD : ∀ b < batch, (D b).size ≤ N) (ordered : List CKY.Cell4)
    (hperm : ordered.Perm (CKY.cover4 batch N (NT + T) fun b => (D b).table))
    (hsort : ordered.Pairwise fun c c' => c.2.2.1 - c.2.1 ≤ c'.2.2.1 - c'.2.1) :
    ∃ (xs : List (Sub NT T)) (s : CKY.NxState), CKY.toNetworkx N ordered = .ok s ∧ ordered = xs.map cell4 ∧ xs.Nodup ∧
      (∀ x, x ∈ xs ↔ x.1 < batch ∧ x.2 ∈ (D x.1).subs 0) ∧
      (∃ ts : List (ℕ × ℕ × ℕ), s.a = ts.flatMap (fun t => [t.2.1, t.2.2]) ∧ s.b = ts.flatMap (fun t => [t.1, t.1]) ∧
        ts.map Prod.fst = (List.range xs.length).filter (fun n => ((xs[n]?).map fun x => x.2.2.isNode).getD false) ∧
        ∀ t ∈ ts, ∃ b i X l r, xs[t.1]? = some (b, i, .node X l r) ∧ xs[t.2.1]? = some (b, i, l) ∧ xs[t.2.2]? = some (b, i + l.size, r)) ∧
      (∀ h, s.topo h = (List.range xs.length).filter fun n => ((xs[n]?).map fun x => decide (x.2.2.height = h)).getD false) ∧
      CKY.nNodes batch N (NT + T) (fun b => (D b).table) = xs.length ∧
      ∀ b i, (s.left (b, i) = none → ∀ x ∈ xs, ¬ (x.1 = b ∧ x.2.1 = i)) ∧ ∀ n h, s.left (b, i) = some (n, h) →
        ∃ t, xs[n]? = some (b, i, t) ∧ h = t.height ∧ ∀ x ∈ xs, x.1 = b → x.2.1 = i → x.2.2.size ≤ t.size := by
  obtain ⟨xs, rfl, hxs⟩ := exists_subs (fun x : Sub NT T => x.1 < batch ∧ x.2 ∈ (D x.1).subs 0) ordered fun c hc => by
    obtain ⟨b, hb, x, hx, rfl⟩ := (mem_cover4 D hD c).1 (hperm.mem_iff.1 hc)
    exact ⟨(b, x), ⟨hb, hx⟩, rfl⟩
  have hnd : xs.Nodup := ((hperm.nodup_iff).2 (cover4_nodup _ _ _ _)).of_map
  have hall : ∀ x, x ∈ xs ↔ x.1 < batch ∧ x.2 ∈ (D x.1).subs 0 := by
    refine fun x => ⟨hxs x, fun ⟨hb, hx⟩ => ?_⟩
    have : cell4 x ∈ xs.map cell4 := hperm.mem_iff.2 ((mem_cover4 D hD _).2 ⟨x.1, hb, x.2, hx, rfl⟩)
    obtain ⟨y, hy, he⟩ := List.mem_map.1 this
    obtain ⟨b, y⟩ := y
    obtain ⟨b', x⟩ := x
    simp only [cell4, Prod.mk.injEq] at he
    obtain ⟨rfl, he⟩ := he
    have := cell_inj (hxs _ hy).2 hx (by rw [he]) (by rw [he])
    exact (congrArg (fun z => ((b, z) : Sub NT T)) this) ▸ hy
  obtain ⟨s, h1, h2⟩ := loop_inv (N := N) D xs [] ⟨fun _ => none, fun _ => none, [], [], fun _ => [], 0⟩
    ⟨rfl, fun b i => ⟨by simp, by simp⟩, fun b e => ⟨by simp, by simp⟩, ⟨[], rfl, rfl, rfl, by simp⟩, fun h => rfl⟩
    (fun y hy => ⟨(hxs y hy).2, hD _ (hxs y hy).1⟩) hnd
    (fun x hx X l r he => by
      obtain ⟨b, i, t⟩ := x
      simp only at he
      subst he
      have := hxs _ hx
      exact ⟨(hall _).2 ⟨this.1, left_mem this.2⟩, (hall _).2 ⟨this.1, right_mem this.2⟩⟩)
    (by
      rw [List.nil_append]
      refine (List.pairwise_map.1 hsort).imp fun {x y} h => ?_
      have := x.2.2.size_pos
      have := y.2.2.size_pos
      simp only [cell4, Deriv.cell] at h
      omega)
  refine ⟨xs, s, h1, rfl, hnd, hall, h2.edges, h2.topo, ?_, h2.left⟩
  rw [nNodes_eq, ← hperm.length_eq, List.length_map]

/-- A batch of two trees, with an order in which neither tree comes first. -/
example : ∃ ordered : List CKY.Cell4, ordered.Perm (CKY.cover4 2 4 (2 + 1) fun _ => sample.table) ∧
    ordered.Pairwise fun c c' => c.2.2.1 - c.2.1 ≤ c'.2.2.1 - c'.2.1 := by
  refine ⟨(CKY.cover4 2 4 (2 + 1) fun _ => sample.table).mergeSort fun c c' => decide (c.2.2.1 - c.2.1 ≤ c'.2.2.1 - c'.2.1), List.mergeSort_perm _ _, ?_⟩
  have := List.pairwise_mergeSort (le := fun c c' : CKY.Cell4 => decide (c.2.2.1 - c.2.1 ≤ c'.2.2.1 - c'.2.1)) (fun a b c h1 h2 => by
    simp only [decide_eq_true_eq] at h1 h2 ⊢; omega) (fun a b => by simp only [Bool.or_eq_true, decide_eq_true_eq]; omega)
    (CKY.cover4 2 4 (2 + 1) fun _ => sample.table)
  exact this.imp fun h => by simpa using h

/-! ### `score` -/

theorem sum_count {α : Type} [DecidableEq α] [BEq α] [LawfulBEq α] (K : List α) (hK : K.Nodup) (f : α → ℝ) :
    ∀ L : List α, (∀ x ∈ L, x ∈ K) → (K.map fun k => (L.count k : ℝ) * f k).sum = (L.map f).sum
  | [], _ => by simp
  | x :: L, h => by
    have ih := sum_count K hK f L fun y hy => h y (List.mem_cons_of_mem _ hy)
    have hx := h x List.mem_cons_self
    have e : (fun k => ((x :: L).count k : ℝ) * f k) = fun k => (L.count k : ℝ) * f k + if x = k then f k else 0 := by
      funext k
      rw [List.count_cons]
      by_cases hk : x = k
      · subst hk; simp; ring
      · simp [hk]
    rw [e, List.sum_map_add, ih, List.map_cons, List.sum_cons, add_comm]
    congr 1
    clear e ih h
    induction K with
    | nil => simp at hx
    | cons k K ihK =>
      rw [List.map_cons, List.sum_cons]
      rcases List.nodup_cons.1 hK with ⟨h1, h2⟩
      rcases List.mem_cons.1 hx with rfl | hx
      · rw [if_pos rfl, List.sum_eq_zero, add_zero]
        intro v hv
        obtain ⟨y, hy, rfl⟩ := List.mem_map.1 hv
        exact if_neg fun hc : _ = y => h1 (by rw [hc]; exact hy)
      · rw [if_neg (fun hc : x = k => h1 (by rw [← hc]; exact hx)), zero_add, ihK h2 hx]

theorem pairs_nodup (m n : ℕ) : (CKY.pairs m n).Nodup := by
  refine List.nodup_flatMap.2 ⟨fun b _ => List.nodup_range.map fun c c' h => (Prod.mk.inj h).2, ?_⟩
  refine List.nodup_range.imp_of_mem ?_
  intro b b' _ _ hne
  rw [Function.onFun, List.disjoint_left]
  intro c hc hc'
  obtain ⟨k, -, rfl⟩ := List.mem_map.1 hc
  obtain ⟨k', -, he⟩ := List.mem_map.1 hc'
  exact hne (Prod.mk.inj he).1.symm

theorem mem_pairs {m n : ℕ} (x : ℕ × ℕ) : x ∈ CKY.pairs m n ↔ x.1 < m ∧ x.2 < n := by
  obtain ⟨a, b⟩ := x
  simp [CKY.pairs]

theorem words_bound : ∀ (d : Deriv NT T) (i : ℕ), ∀ x ∈ d.words i, x.1 < i + d.size ∧ x.2 < T
  | .leaf t, i, x, h => by
    rw [Deriv.words, List.mem_singleton] at h
    subst h
    exact ⟨by simp [GTree.size], t.2⟩
  | .node X l r, i, x, h => by
    rw [Deriv.words, List.mem_append] at h
    rw [GTree.size]
    rcases h with h | h
    · have := words_bound l i x h; omega
    · have := words_bound r _ x h; omega

theorem rules_bound : ∀ (d : Deriv NT T), ∀ x ∈ d.rules, x.1 < NT ∧ x.2.1 < NT + T ∧ x.2.2 < NT + T
  | .leaf t, x, h => by simp [Deriv.rules] at h
  | .node X l r, x, h => by
    rw [Deriv.rules, List.mem_cons, List.mem_append] at h
    rcases h with rfl | h | h
    · exact ⟨X.2, sym_bound l, sym_bound r⟩
    · exact rules_bound l x h
    · exact rules_bound r x h

theorem flat_nodup (NT S : ℕ) : ((List.range NT).flatMap fun X => (CKY.pairs S S).map fun x => (X, x.1, x.2)).Nodup := by
  refine List.nodup_flatMap.2 ⟨fun b _ => (pairs_nodup _ _).map fun c c' h => Prod.ext (Prod.mk.inj (Prod.mk.inj h).2).1 (Prod.mk.inj (Prod.mk.inj h).2).2, ?_⟩
  refine List.nodup_range.imp_of_mem ?_
  intro b b' _ _ hne
  rw [Function.onFun, List.disjoint_left]
  intro c hc hc'
  obtain ⟨k, -, rfl⟩ := List.mem_map.1 hc
  obtain ⟨k', -, he⟩ := List.mem_map.1 hc'
  exact hne (Prod.mk.inj he).1.symm

/-- `score` of the parts that `to_parts` returns is the score of the derivation, so that encoding a tree and scoring it agree with the scores that
the distribution sums over. -/
theorem score_parts (p : CKY.Scores ℝ) (hS : p.S = p.NT + p.T) (b : ℕ) {L : ℕ} (hL : L ≤ p.N) (d : Derivs p.NT p.T L) {R : CKY.RowParts} (hR : IsRowParts R d.1) :
    CKY.score p b R.term R.rule R.root = Props.SentCFG.dscore p b d := by
  have h1 := sum_count (CKY.pairs p.N p.T) (pairs_nodup _ _) (fun x => p.term b x.1 x.2) (d.1.words 0) fun x hx => by
    have := words_bound d.1 0 x hx
    have := d.2.1
    exact (mem_pairs x).2 (by omega)
  have h2 := sum_count _ (flat_nodup p.NT p.S) (fun x => p.rule b x.1 x.2.1 x.2.2) d.1.rules fun x hx => by
    have := rules_bound d.1 x hx
    exact List.mem_flatMap.2 ⟨x.1, List.mem_range.2 this.1, List.mem_map.2 ⟨x.2, (mem_pairs _).2 (by rw [hS]; exact this.2), rfl⟩⟩
  rw [List.map_flatMap] at h2
  simp only [List.map_map] at h2
  have h3 : ((List.range p.NT).map fun X => (if d.1.sym = X then (1 : ℝ) else 0) * p.root b X).sum = p.root b d.1.sym := by
    rw [sum_range_single p.NT d.1.sym ((CKYProofs.isNode_iff d.1).1 d.2.2) _ fun j _ hj => by rw [if_neg (Ne.symm hj), zero_mul]]
    rw [if_pos rfl, one_mul]
  rw [CKY.score, Props.SentCFG.dscore, derivScore]
  simp only [hR.term, hR.rule, hR.root]
  have h1' : (List.map (fun x : ℕ × ℕ => ((d.1.words 0).count (x.1, x.2) : ℝ) * p.term b x.1 x.2) (CKY.pairs p.N p.T)).sum = _ := h1
  have h2' : (List.flatMap (fun X => List.map (fun x : ℕ × ℕ => (d.1.rules.count (X, x.1, x.2) : ℝ) * p.rule b X x.1 x.2) (CKY.pairs p.S p.S))
    (List.range p.NT)).sum = _ := h2
  rw [h3, h1', h2']
  ring

/-- The derivation of the example, as a derivation of three words. -/
example : sample.size = 3 ∧ sample.isNode = true := by decide

end Props.SentCFGEvents
