import Verif.Model.CKYParts
import Verif.Spec.Grammar
import Mathlib.Data.List.Perm.Basic
import Mathlib.Data.List.Nodup

/-! Facts about the subtrees of a derivation, for `CKY.to_parts` and `CKY.to_networkx`. -/

open Spec

namespace CellProofs
variable {NT T : ℕ}

theorem mem_self : ∀ (s : ℕ) (d : Deriv NT T), (s, d) ∈ d.subs s
  | _, .leaf _ => List.mem_singleton_self _
  | _, .node _ _ _ => List.mem_cons_self

theorem bounds : ∀ (d : Deriv NT T) (s : ℕ), ∀ x ∈ d.subs s, s ≤ x.1 ∧ x.1 + x.2.size ≤ s + d.size
  | .leaf t, s, x, hx => by
    rw [Deriv.subs, List.mem_singleton] at hx
    subst hx
    exact ⟨le_rfl, le_rfl⟩
  | .node X l r, s, x, hx => by
    rw [Deriv.subs, List.mem_cons, List.mem_append] at hx
    have h1 := l.size_pos
    have h2 := r.size_pos
    simp only [GTree.size]
    rcases hx with rfl | hx | hx
    · exact ⟨le_rfl, le_rfl⟩
    · have := bounds l s x hx; omega
    · have := bounds r _ x hx; omega

/-- Subtrees of subtrees are subtrees. -/
theorem mem_trans : ∀ (d : Deriv NT T) (s : ℕ), ∀ x ∈ d.subs s, ∀ y ∈ x.2.subs x.1, y ∈ d.subs s
  | .leaf t, s, x, hx, y, hy => by
    rw [Deriv.subs, List.mem_singleton] at hx
    subst hx
    exact hy
  | .node X l r, s, x, hx, y, hy => by
    rw [Deriv.subs, List.mem_cons, List.mem_append] at hx
    rcases hx with rfl | hx | hx
    · exact hy
    · exact List.mem_cons_of_mem _ (List.mem_append_left _ (mem_trans l s x hx y hy))
    · exact List.mem_cons_of_mem _ (List.mem_append_right _ (mem_trans r _ x hx y hy))

theorem left_mem {d : Deriv NT T} {s i : ℕ} {X : Fin NT} {l r : Deriv NT T} (h : (i, .node X l r) ∈ d.subs s) : (i, l) ∈ d.subs s :=
  mem_trans d s _ h _ (List.mem_cons_of_mem _ (List.mem_append_left _ (mem_self i l)))

theorem right_mem {d : Deriv NT T} {s i : ℕ} {X : Fin NT} {l r : Deriv NT T} (h : (i, .node X l r) ∈ d.subs s) : (i + l.size, r) ∈ d.subs s :=
  mem_trans d s _ h _ (List.mem_cons_of_mem _ (List.mem_append_right _ (mem_self (i + l.size) r)))

/-- The words that a subtree covers determine it. -/
theorem extent_unique : ∀ (d : Deriv NT T) (s : ℕ), ∀ x ∈ d.subs s, ∀ y ∈ d.subs s, x.1 = y.1 → x.2.size = y.2.size → x = y
  | .leaf t, s, x, hx, y, hy, _, _ => by
    rw [Deriv.subs, List.mem_singleton] at hx hy
    rw [hx, hy]
  | .node X l r, s, x, hx, y, hy, h1, h2 => by
    rw [Deriv.subs, List.mem_cons, List.mem_append] at hx hy
    have hl := l.size_pos
    have hr := r.size_pos
    have pl := bounds l s
    have pr := bounds r (s + l.size)
    have px := x.2.size_pos
    rcases hx with rfl | hx | hx <;> rcases hy with rfl | hy | hy
    · rfl
    · have := pl y hy; simp only [GTree.size] at h1 h2; omega
    · have := pr y hy; simp only [GTree.size] at h1 h2; omega
    · have := pl x hx; simp only [GTree.size] at h1 h2; omega
    · exact extent_unique l s x hx y hy h1 h2
    · have := pl x hx; have := pr y hy; omega
    · have := pr x hx; simp only [GTree.size] at h1 h2; omega
    · have := pl y hy; have := pr x hx; omega
    · exact extent_unique r _ x hx y hy h1 h2

/-- A shorter subtree with the same first word lies in the left child. -/
theorem start_le : ∀ (d : Deriv NT T) (s i : ℕ) (X : Fin NT) (l r : Deriv NT T), (i, .node X l r) ∈ d.subs s → ∀ x ∈ d.subs s, x.1 = i →
    x.2.size < l.size + r.size → x.2.size ≤ l.size
  | .leaf t, s, i, X, l, r, h, x, hx, _, _ => by
    rw [Deriv.subs, List.mem_singleton] at h
    cases h
  | .node Y l' r', s, i, X, l, r, h, x, hx, h1, h2 => by
    rw [Deriv.subs, List.mem_cons, List.mem_append] at h hx
    have hl := l'.size_pos
    have hr := r'.size_pos
    have hll := l.size_pos
    have hrr := r.size_pos
    have pl := bounds l' s
    have pr := bounds r' (s + l'.size)
    have px := x.2.size_pos
    rcases h with h | h | h <;> rcases hx with rfl | hx | hx
    · simp only [Prod.mk.injEq, GTree.node.injEq] at h
      obtain ⟨-, -, rfl, rfl⟩ := h
      simp only [GTree.size] at h2; omega
    · simp only [Prod.mk.injEq, GTree.node.injEq] at h
      obtain ⟨rfl, -, rfl, rfl⟩ := h
      have := pl x hx; omega
    · simp only [Prod.mk.injEq, GTree.node.injEq] at h
      obtain ⟨rfl, -, rfl, rfl⟩ := h
      have := pr x hx; omega
    · have := pl _ h; simp only [GTree.size] at this h2 h1; omega
    · exact start_le l' s i X l r h x hx h1 h2
    · have := pl _ h; have := pr x hx; simp only [GTree.size] at *; omega
    · have := pr _ h; simp only [GTree.size] at this h2 h1; omega
    · have := pr _ h; have := pl x hx; simp only [GTree.size] at *; omega
    · exact start_le r' _ i X l r h x hx h1 h2

/-- A shorter subtree with the same last word lies in the right child. -/
theorem end_le : ∀ (d : Deriv NT T) (s i : ℕ) (X : Fin NT) (l r : Deriv NT T), (i, .node X l r) ∈ d.subs s → ∀ x ∈ d.subs s,
    x.1 + x.2.size = i + (l.size + r.size) → x.2.size < l.size + r.size → x.2.size ≤ r.size
  | .leaf t, s, i, X, l, r, h, x, hx, _, _ => by
    rw [Deriv.subs, List.mem_singleton] at h
    cases h
  | .node Y l' r', s, i, X, l, r, h, x, hx, h1, h2 => by
    rw [Deriv.subs, List.mem_cons, List.mem_append] at h hx
    have hl := l'.size_pos
    have hr := r'.size_pos
    have hll := l.size_pos
    have hrr := r.size_pos
    have pl := bounds l' s
    have pr := bounds r' (s + l'.size)
    have px := x.2.size_pos
    rcases h with h | h | h <;> rcases hx with rfl | hx | hx
    · simp only [Prod.mk.injEq, GTree.node.injEq] at h
      obtain ⟨-, -, rfl, rfl⟩ := h
      simp only [GTree.size] at h2; omega
    · simp only [Prod.mk.injEq, GTree.node.injEq] at h
      obtain ⟨rfl, -, rfl, rfl⟩ := h
      have := pl x hx; omega
    · simp only [Prod.mk.injEq, GTree.node.injEq] at h
      obtain ⟨rfl, -, rfl, rfl⟩ := h
      have := pr x hx; omega
    · have := pl _ h; simp only [GTree.size] at this h2 h1; omega
    · exact end_le l' s i X l r h x hx h1 h2
    · have := pl _ h; have := pr x hx; simp only [GTree.size] at *; omega
    · have := pr _ h; simp only [GTree.size] at this h2 h1; omega
    · have := pr _ h; have := pl x hx; simp only [GTree.size] at *; omega
    · exact end_le r' _ i X l r h x hx h1 h2

/-- No subtree is listed twice. -/
theorem subs_nodup : ∀ (d : Deriv NT T) (s : ℕ), ((d.subs s).map Deriv.cell).Nodup
  | .leaf t, s => by simp [Deriv.subs]
  | .node X l r, s => by
    have hl := l.size_pos
    have hr := r.size_pos
    rw [Deriv.subs, List.map_cons, List.map_append, List.nodup_cons, List.mem_append]
    refine ⟨?_, List.nodup_append.2 ⟨subs_nodup l s, subs_nodup r _, ?_⟩⟩
    · rintro (h | h) <;> obtain ⟨x, hx, he⟩ := List.mem_map.1 h
      · have := bounds l s x hx
        have := x.2.size_pos
        simp only [Deriv.cell, Prod.mk.injEq, GTree.size] at he; omega
      · have := bounds r _ x hx
        have := x.2.size_pos
        simp only [Deriv.cell, Prod.mk.injEq, GTree.size] at he; omega
    · intro a ha c hc he
      obtain ⟨x, hx, rfl⟩ := List.mem_map.1 ha
      obtain ⟨y, hy, rfl⟩ := List.mem_map.1 hc
      have := bounds l _ x hx
      have := bounds r _ y hy
      have := x.2.size_pos
      simp only [Deriv.cell, Prod.mk.injEq] at he; omega

theorem cell_inj {d : Deriv NT T} {s : ℕ} {x y : ℕ × Deriv NT T} (hx : x ∈ d.subs s) (hy : y ∈ d.subs s) (h1 : (Deriv.cell x).1 = (Deriv.cell y).1)
    (h2 : (Deriv.cell x).2.1 = (Deriv.cell y).2.1) : x = y := by
  have := x.2.size_pos
  have := y.2.size_pos
  simp only [Deriv.cell] at h1 h2
  exact extent_unique d s x hx y hy h1 (by omega)

theorem sym_bound : ∀ d : Deriv NT T, d.sym < NT + T
  | .leaf t => by simp [Deriv.sym]
  | .node X _ _ => by have := X.2; simp only [Deriv.sym]; omega

/-- The rule of a subtree that is not a leaf. -/
def ruleOf : ℕ × Deriv NT T → Option (ℕ × ℕ × ℕ)
  | (_, .leaf _) => none
  | (_, .node X l r) => some (↑X, Deriv.sym l, Deriv.sym r)

theorem rules_eq : ∀ (d : Deriv NT T) (s : ℕ), (d.subs s).filterMap ruleOf = d.rules
  | .leaf t, s => rfl
  | .node X l r, s => by
    change (↑X, Deriv.sym l, Deriv.sym r) :: (Deriv.subs s l ++ Deriv.subs (s + l.size) r).filterMap ruleOf = _
    rw [List.filterMap_append, rules_eq l, rules_eq r]; rfl

/-- The preterminal of a subtree that is a leaf. -/
def wordOf : ℕ × Deriv NT T → Option (ℕ × ℕ)
  | (i, .leaf t) => some (i, ↑t)
  | (_, .node _ _ _) => none

theorem words_eq : ∀ (d : Deriv NT T) (s : ℕ), (d.subs s).filterMap wordOf = d.words s
  | .leaf t, s => rfl
  | .node X l r, s => by
    rw [Deriv.subs, List.filterMap_cons_none rfl, List.filterMap_append, words_eq l, words_eq r]; rfl

/-! ### The cover -/

/-- The table of a derivation, with its cells inside the bounds. -/
theorem mem_cover {N : ℕ} (d : Deriv NT T) (hN : d.size ≤ N) (c : CKY.Cell) : c ∈ CKY.cover N (NT + T) d.table ↔ c ∈ (d.subs 0).map Deriv.cell := by
  obtain ⟨i, j, A⟩ := c
  rw [CKY.cover, List.mem_filter, List.mem_flatMap]
  simp only [List.mem_flatMap, List.mem_map, List.mem_range, Prod.mk.injEq, decide_eq_true_eq, Deriv.table]
  constructor
  · rintro ⟨-, h⟩
    by_contra hc
    exact h (if_neg hc)
  · rintro ⟨x, hx, he⟩
    have h1 := bounds d 0 x hx
    have h2 := x.2.size_pos
    have h3 := sym_bound x.2
    refine ⟨?_, ?_⟩
    · simp only [Deriv.cell, Prod.mk.injEq] at he
      exact ⟨i, by omega, j, by omega, A, by omega, rfl, rfl, rfl⟩
    · rw [if_pos ⟨x, hx, he⟩]; norm_num

theorem cover_nodup (N S : ℕ) (f : ℕ → ℕ → ℕ → ℝ) : (CKY.cover N S f).Nodup := by
  refine List.Nodup.filter _ (List.nodup_flatMap.2 ⟨fun i _ => List.nodup_flatMap.2 ⟨fun j _ => List.nodup_range.map fun A A' h => ?_, ?_⟩, ?_⟩)
  · simpa using h
  · refine List.nodup_range.imp_of_mem ?_
    intro j j' _ _ hne
    rw [Function.onFun, List.disjoint_left]
    intro c hc hc'
    obtain ⟨A, -, rfl⟩ := List.mem_map.1 hc
    obtain ⟨A', -, he⟩ := List.mem_map.1 hc'
    simp only [Prod.mk.injEq] at he
    exact hne he.2.1.symm
  · refine List.nodup_range.imp_of_mem ?_
    intro j j' _ _ hne
    rw [Function.onFun, List.disjoint_left]
    intro c hc hc'
    obtain ⟨k, -, hc⟩ := List.mem_flatMap.1 hc
    obtain ⟨k', -, hc'⟩ := List.mem_flatMap.1 hc'
    obtain ⟨A, -, rfl⟩ := List.mem_map.1 hc
    obtain ⟨A', -, he⟩ := List.mem_map.1 hc'
    simp only [Prod.mk.injEq] at he
    exact hne he.1.symm

theorem cover_perm {N : ℕ} (d : Deriv NT T) (hN : d.size ≤ N) : (CKY.cover N (NT + T) d.table).Perm ((d.subs 0).map Deriv.cell) :=
  (List.perm_ext_iff_of_nodup (cover_nodup _ _ _) (subs_nodup d 0)).2 fun c => mem_cover d hN c

/-! ### Splits -/

theorem fits_iff {N : ℕ} {d : Deriv NT T} (hN : d.size ≤ N) {i : ℕ} {X : Fin NT} {l r : Deriv NT T} (h : (i, .node X l r) ∈ d.subs 0)
    {a b : ℕ × ℕ × ℤ} (ha : a ∈ CKY.leftOf (CKY.cover N (NT + T) d.table) i)
    (hb : b ∈ CKY.rightOf (CKY.cover N (NT + T) d.table) (i + (l.size + r.size) - 1)) (hf : CKY.fits i (i + (l.size + r.size) - 1) a b = true) :
    a.1 = l.sym ∧ a.2.1 = i + l.size - 1 ∧ b.1 = r.sym := by
  have hl := l.size_pos
  have hr := r.size_pos
  rw [CKY.leftOf, List.mem_map] at ha
  rw [CKY.rightOf, List.mem_map] at hb
  obtain ⟨c, hc, rfl⟩ := ha
  obtain ⟨e, he, rfl⟩ := hb
  rw [List.mem_filter] at hc he
  obtain ⟨hc1, hc2⟩ := hc
  obtain ⟨he1, he2⟩ := he
  rw [mem_cover d hN, List.mem_map] at hc1 he1
  obtain ⟨x, hx, rfl⟩ := hc1
  obtain ⟨y, hy, rfl⟩ := he1
  have px := x.2.size_pos
  have py := y.2.size_pos
  have hf1 : y.1 = x.1 + x.2.size - 1 + 1 := (of_decide_eq_true hf).1
  have hc2 : x.1 = i := of_decide_eq_true hc2
  have he2 : y.1 + y.2.size - 1 = i + (l.size + r.size) - 1 := of_decide_eq_true he2
  have a1 := start_le d 0 i X l r h x hx hc2 (by omega)
  have a2 := end_le d 0 i X l r h y hy (by omega) (by omega)
  have e1 := extent_unique d 0 x hx _ (left_mem h) hc2 (by simp only; omega)
  have e2 := extent_unique d 0 y hy _ (right_mem h) (by simp only; omega) (by simp only; omega)
  subst e1 e2
  exact ⟨rfl, rfl, rfl⟩

theorem child_left {N : ℕ} {d : Deriv NT T} (hN : d.size ≤ N) {i : ℕ} {X : Fin NT} {l r : Deriv NT T} (h : (i, .node X l r) ∈ d.subs 0) :
    (l.sym, i + l.size - 1, ((i + l.size - 1 : ℕ) : ℤ) - i + 1) ∈ CKY.leftOf (CKY.cover N (NT + T) d.table) i :=
  List.mem_map.2 ⟨Deriv.cell (i, l), List.mem_filter.2 ⟨(mem_cover d hN _).2 (List.mem_map_of_mem (left_mem h)), by simp [Deriv.cell]⟩, rfl⟩

theorem child_right {N : ℕ} {d : Deriv NT T} (hN : d.size ≤ N) {i : ℕ} {X : Fin NT} {l r : Deriv NT T} (h : (i, .node X l r) ∈ d.subs 0) :
    (r.sym, i + l.size, ((i + (l.size + r.size) - 1 : ℕ) : ℤ) - (i + l.size : ℕ) + 1) ∈
      CKY.rightOf (CKY.cover N (NT + T) d.table) (i + (l.size + r.size) - 1) := by
  have e : i + l.size + r.size - 1 = i + (l.size + r.size) - 1 := by omega
  refine List.mem_map.2 ⟨Deriv.cell (i + l.size, r), List.mem_filter.2 ⟨(mem_cover d hN _).2 (List.mem_map_of_mem (right_mem h)), ?_⟩, ?_⟩
  · simp only [Deriv.cell, e, decide_true]
  · simp only [Deriv.cell, e]

/-- The child on the right is found for the child on the left ... -/
theorem find_child {N : ℕ} {d : Deriv NT T} (hN : d.size ≤ N) {i : ℕ} {X : Fin NT} {l r : Deriv NT T} (h : (i, .node X l r) ∈ d.subs 0) :
    ∃ b, (CKY.rightOf (CKY.cover N (NT + T) d.table) (i + (l.size + r.size) - 1)).find?
      (CKY.fits i (i + (l.size + r.size) - 1) (l.sym, i + l.size - 1, ((i + l.size - 1 : ℕ) : ℤ) - i + 1)) = some b := by
  have hl := l.size_pos
  have hr := r.size_pos
  refine Option.isSome_iff_exists.1 (List.find?_isSome.2 ⟨_, child_right hN h, ?_⟩)
  simp only [CKY.fits, decide_eq_true_eq]
  constructor <;> omega

/-- A fold whose steps either keep the accumulator or set the same value. -/
theorem foldl_set {α β : Type} (step : Option β → α → Option β) (v : β) :
    ∀ (xs : List α) (acc : Option β), (∀ a ∈ xs, ∀ acc, acc = none ∨ acc = some v → step acc a = acc ∨ step acc a = some v) → (acc = none ∨ acc = some v) →
      (acc = some v ∨ ∃ a ∈ xs, ∀ acc', acc' = none ∨ acc' = some v → step acc' a = some v) → xs.foldl step acc = some v
  | [], acc, _, _, h => by
    rcases h with h | ⟨a, ha, -⟩
    · exact h
    · simp at ha
  | a :: xs, acc, hstep, h0, h => by
    rw [List.foldl_cons]
    refine foldl_set step v xs _ (fun a ha => hstep a (List.mem_cons_of_mem _ ha)) ?_ ?_
    · rcases hstep a List.mem_cons_self acc h0 with e | e
      · rw [e]; exact h0
      · exact Or.inr e
    · rcases h with h | ⟨c, hc, hv⟩
      · left
        rcases hstep a List.mem_cons_self acc h0 with e | e
        · rw [e]; exact h
        · exact e
      · rcases List.mem_cons.1 hc with rfl | hc
        · exact Or.inl (hv acc h0)
        · exact Or.inr ⟨c, hc, hv⟩

theorem lastSplit_eq {N : ℕ} {d : Deriv NT T} (hN : d.size ≤ N) {i : ℕ} {X : Fin NT} {l r : Deriv NT T} (h : (i, .node X l r) ∈ d.subs 0) :
    CKY.lastSplit (CKY.cover N (NT + T) d.table) i (i + (l.size + r.size) - 1) = some (l.sym, r.sym) := by
  refine foldl_set _ _ _ _ (fun a ha acc _ => ?_) (Or.inl rfl) (Or.inr ⟨_, child_left hN h, fun acc _ => ?_⟩)
  · rw [CKY.lastStep]
    cases hf : (CKY.rightOf (CKY.cover N (NT + T) d.table) (i + (l.size + r.size) - 1)).find? (CKY.fits i (i + (l.size + r.size) - 1) a) with
    | none => exact Or.inl rfl
    | some b =>
      have := fits_iff hN h ha (List.mem_of_find?_eq_some hf) (List.find?_some hf)
      exact Or.inr (congrArg some (Prod.ext this.1 this.2.2))
  · obtain ⟨b, hf⟩ := find_child hN h
    rw [CKY.lastStep, hf]
    have := fits_iff hN h (child_left hN h) (List.mem_of_find?_eq_some hf) (List.find?_some hf)
    exact congrArg some (Prod.ext rfl this.2.2)

theorem firstSplit_eq {N : ℕ} {d : Deriv NT T} (hN : d.size ≤ N) {i : ℕ} {X : Fin NT} {l r : Deriv NT T} (h : (i, .node X l r) ∈ d.subs 0) :
    CKY.firstSplit (CKY.cover N (NT + T) d.table) i (i + (l.size + r.size) - 1) = some (i + l.size - 1, l.sym, r.sym) := by
  have hl := l.size_pos
  have hr := r.size_pos
  refine foldl_set _ _ _ _ (fun a ha acc hacc => ?_) (Or.inl rfl) (Or.inr ⟨_, child_left hN h, fun acc hacc => ?_⟩)
  · rcases hacc with rfl | rfl
    · rw [CKY.firstStep]
      split_ifs
      · exact Or.inl rfl
      · cases hf : (CKY.rightOf (CKY.cover N (NT + T) d.table) (i + (l.size + r.size) - 1)).find? (CKY.fits i (i + (l.size + r.size) - 1) a) with
        | none => exact Or.inl rfl
        | some b =>
          have := fits_iff hN h ha (List.mem_of_find?_eq_some hf) (List.find?_some hf)
          exact Or.inr (congrArg some (Prod.ext this.2.1 (Prod.ext this.1 this.2.2)))
    · exact Or.inl rfl
  · rcases hacc with rfl | rfl
    · obtain ⟨b, hf⟩ := find_child hN h
      rw [CKY.firstStep, if_neg (by simp only; omega), hf]
      have := fits_iff hN h (child_left hN h) (List.mem_of_find?_eq_some hf) (List.find?_some hf)
      exact congrArg some (Prod.ext rfl (Prod.ext rfl this.2.2))
    · rfl

theorem cell_leaf (i : ℕ) (t : Fin T) : Deriv.cell ((i, .leaf t) : ℕ × Deriv NT T) = (i, i, NT + t) := by
  simp [Deriv.cell, GTree.size, Deriv.sym]

theorem cell_node (i : ℕ) (X : Fin NT) (l r : Deriv NT T) : Deriv.cell (i, .node X l r) = (i, i + (l.size + r.size) - 1, ↑X) := rfl

theorem height_lt : ∀ d : Deriv NT T, d.height < d.size
  | .leaf _ => Nat.one_pos
  | .node _ l r => by
    have h1 := height_lt l
    have h2 := height_lt r
    have h3 := l.size_pos
    have h4 := r.size_pos
    simp only [Deriv.height, GTree.size]
    omega

end CellProofs
