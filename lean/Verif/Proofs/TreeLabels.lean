import Verif.Props.TreeCRF
import Verif.Spec.TreeLabels

/-! The labels of a tree, given its brackets: changing the label of one span is a bijection of the trees that moves the score by the difference of the two potentials. -/

open Finset Spec

noncomputable section
namespace TreeLabels
variable {NT : ℕ}

/-- The tree with the label of the span from `i` to `j`, if it has that span, changed by `σ`; the tree starts at word `s`. -/
def change (σ : Equiv.Perm (Fin NT)) (i j : ℕ) : ℕ → LTree NT → LTree NT
  | s, .leaf a => .leaf (if s = i ∧ s = j then σ a else a)
  | s, .node a l r => .node (if s = i ∧ s + l.size + r.size - 1 = j then σ a else a) (change σ i j s l) (change σ i j (s + l.size) r)

theorem change_size (σ : Equiv.Perm (Fin NT)) (i j : ℕ) : ∀ (s : ℕ) (t : LTree NT), (change σ i j s t).size = t.size
  | _, .leaf _ => rfl
  | s, .node _ l r => by rw [change, LTree.size, LTree.size, change_size σ i j s l, change_size σ i j _ r]

theorem change_spans (σ : Equiv.Perm (Fin NT)) (i j : ℕ) : ∀ (s : ℕ) (t : LTree NT),
    (change σ i j s t).spans s = (t.spans s).map fun x => (x.1, x.2.1, if x.1 = i ∧ x.2.1 = j then σ x.2.2 else x.2.2)
  | _, .leaf _ => rfl
  | s, .node _ l r => by
    rw [change, LTree.spans, LTree.spans, change_size, change_size, change_spans σ i j s l, change_spans σ i j _ r, List.map_cons, List.map_append]

theorem change_change (σ τ : Equiv.Perm (Fin NT)) (h : ∀ a, τ (σ a) = a) (i j : ℕ) : ∀ (s : ℕ) (t : LTree NT), change τ i j s (change σ i j s t) = t
  | s, .leaf a => by
    rw [change, change]
    split_ifs <;> simp [h]
  | s, .node a l r => by
    rw [change, change, change_size, change_size, change_change σ τ h i j s l, change_change σ τ h i j _ r]
    split_ifs <;> simp [h]

/-- Exchange of two labels at one span. -/
def swap (a a' : Fin NT) (i j : ℕ) (L : ℕ) : Trees NT L ≃ Trees NT L where
  toFun t := ⟨change (Equiv.swap a a') i j 0 t.1, (change_size _ i j 0 t.1).trans t.2⟩
  invFun t := ⟨change (Equiv.swap a a') i j 0 t.1, (change_size _ i j 0 t.1).trans t.2⟩
  left_inv t := Subtype.ext (change_change _ _ (fun x => by simp) i j 0 t.1)
  right_inv t := Subtype.ext (change_change _ _ (fun x => by simp) i j 0 t.1)

theorem swap_mem {a a' : Fin NT} {i j L : ℕ} (t : Trees NT L) : (i, j, a') ∈ (swap a a' i j L t).1.spans 0 ↔ (i, j, a) ∈ t.1.spans 0 := by
  change _ ∈ (change (Equiv.swap a a') i j 0 t.1).spans 0 ↔ _
  rw [change_spans, List.mem_map]
  constructor
  · rintro ⟨⟨x, y, c⟩, hx, he⟩
    simp only [Prod.mk.injEq] at he
    obtain ⟨rfl, rfl, he⟩ := he
    rw [if_pos ⟨rfl, rfl⟩] at he
    have : c = a := (Equiv.swap a a').injective (by rw [he, Equiv.swap_apply_left])
    rwa [this] at hx
  · intro h
    exact ⟨_, h, by simp⟩

/-- The spans of a tree are different from each other. -/
theorem spans_bounds : ∀ (t : LTree NT) (s : ℕ) (x : ℕ × ℕ × Fin NT), x ∈ t.spans s → s ≤ x.1 ∧ x.1 ≤ x.2.1 ∧ x.2.1 < s + t.size
  | .leaf a, s, x, h => by simp only [LTree.spans, List.mem_singleton] at h; subst h; simp [LTree.size]
  | .node a l r, s, x, h => by
    have h1 := l.size_pos
    have h2 := r.size_pos
    simp only [LTree.spans, List.mem_cons, List.mem_append] at h
    rw [LTree.size]
    rcases h with rfl | h | h
    · dsimp only; omega
    · have := spans_bounds l s x h; omega
    · have := spans_bounds r _ x h; omega

/-- A span carries one label. -/
theorem label_unique : ∀ (t : LTree NT) (s i j : ℕ) (a a' : Fin NT), (i, j, a) ∈ t.spans s → (i, j, a') ∈ t.spans s → a = a'
  | .leaf c, s, i, j, a, a', h, h' => by simp only [LTree.spans, List.mem_singleton, Prod.mk.injEq] at h h'; rw [h.2.2, h'.2.2]
  | .node c l r, s, i, j, a, a', h, h' => by
    have h1 := l.size_pos
    have h2 := r.size_pos
    simp only [LTree.spans, List.mem_cons, List.mem_append, Prod.mk.injEq] at h h'
    have bl : ∀ x, (i, j, x) ∈ l.spans s → s ≤ i ∧ i ≤ j ∧ j < s + l.size := fun x hx => spans_bounds l s _ hx
    have br : ∀ x, (i, j, x) ∈ r.spans (s + l.size) → s + l.size ≤ i ∧ i ≤ j ∧ j < s + l.size + r.size := fun x hx => spans_bounds r _ _ hx
    rcases h with ⟨e1, e2, rfl⟩ | h | h <;> rcases h' with ⟨e1', e2', rfl⟩ | h' | h'
    · rfl
    · have := bl _ h'; omega
    · have := br _ h'; omega
    · have := bl _ h; omega
    · exact label_unique l s i j a a' h h'
    · have := bl _ h; have := br _ h'; omega
    · have := br _ h; omega
    · have := bl _ h'; have := br _ h; omega
    · exact label_unique r _ i j a a' h h'

/-- A sum over the spans of a tree, after the change of a label. -/
theorem sum_change (φ : ℕ → ℕ → ℕ → ℝ) (σ : Equiv.Perm (Fin NT)) (i j : ℕ) (a : Fin NT) : ∀ (t : LTree NT) (s : ℕ), (i, j, a) ∈ t.spans s →
    (((change σ i j s t).spans s).map fun x => φ x.1 x.2.1 x.2.2).sum + φ i j a = ((t.spans s).map fun x => φ x.1 x.2.1 x.2.2).sum + φ i j (σ a) := by
  have hout : ∀ (t : LTree NT) (s : ℕ), (∀ x, (i, j, x) ∉ t.spans s) →
      ((change σ i j s t).spans s).map (fun x => φ x.1 x.2.1 x.2.2) = (t.spans s).map fun x => φ x.1 x.2.1 x.2.2 := by
    intro t s h
    rw [change_spans, List.map_map]
    refine List.map_congr_left fun x hx => ?_
    have : ¬ (x.1 = i ∧ x.2.1 = j) := by
      rintro ⟨rfl, rfl⟩
      exact h x.2.2 hx
    simp only [Function.comp, if_neg this]
  intro t
  induction t with
  | leaf c =>
    intro s h
    simp only [LTree.spans, List.mem_singleton, Prod.mk.injEq] at h
    obtain ⟨rfl, rfl, rfl⟩ := h
    simp [change, LTree.spans]; ring
  | node c l r ihl ihr =>
    intro s h
    have h1 := l.size_pos
    have h2 := r.size_pos
    simp only [LTree.spans, List.mem_cons, List.mem_append, Prod.mk.injEq] at h
    have bl : ∀ x, (i, j, x) ∈ l.spans s → s ≤ i ∧ i ≤ j ∧ j < s + l.size := fun x hx => spans_bounds l s _ hx
    have br : ∀ x, (i, j, x) ∈ r.spans (s + l.size) → s + l.size ≤ i ∧ i ≤ j ∧ j < s + l.size + r.size := fun x hx => spans_bounds r _ _ hx
    rw [change, LTree.spans, LTree.spans, change_size, change_size, List.map_cons, List.map_cons, List.map_append, List.map_append, List.sum_cons, List.sum_cons,
      List.sum_append, List.sum_append]
    dsimp only
    rcases h with ⟨rfl, rfl, rfl⟩ | h | h
    · rw [if_pos ⟨rfl, rfl⟩, hout l, hout r]
      · ring
      · intro x hx; have := br x hx; omega
      · intro x hx; have := bl x hx; omega
    · rw [if_neg (by have := bl _ h; omega), hout r _ (fun x hx => by have := bl _ h; have := br x hx; omega)]
      have := ihl s h
      linarith
    · rw [if_neg (by have := br _ h; omega), hout l _ (fun x hx => by have := br _ h; have := bl x hx; omega)]
      have := ihr _ h
      linarith

theorem score_swap (φ : ℕ → ℕ → ℕ → ℝ) {a a' : Fin NT} {i j L : ℕ} (t : Trees NT L) (h : (i, j, a) ∈ t.1.spans 0) :
    treeScore φ (swap a a' i j L t) + φ i j a = treeScore φ t + φ i j a' := by
  have := sum_change φ (Equiv.swap a a') i j a t.1 0 h
  rw [Equiv.swap_apply_left] at this
  exact this

/-! ### Trees with the same brackets -/

theorem brackets_size : ∀ t : LTree NT, t.brackets.size = t.size
  | .leaf _ => rfl
  | .node _ l r => by rw [LTree.brackets, LTree.size, LTree.size, brackets_size l, brackets_size r]

theorem brackets_spans : ∀ (t : LTree NT) (s : ℕ), t.brackets.spans s = (t.spans s).map fun x => (x.1, x.2.1, 0)
  | .leaf _, _ => rfl
  | .node _ l r, s => by rw [LTree.brackets, LTree.spans, LTree.spans, brackets_size, brackets_size, brackets_spans l, brackets_spans r, List.map_cons, List.map_append]

/-- The brackets of a tree over `L` words. -/
def strip {L : ℕ} (t : Trees NT L) : Trees 1 L := ⟨t.1.brackets, (brackets_size t.1).trans t.2⟩

/-- All labellings of the brackets. -/
def fiber : LTree 1 → Finset (LTree NT)
  | .leaf _ => univ.image LTree.leaf
  | .node _ l r => (univ ×ˢ (fiber l ×ˢ fiber r)).image fun x => LTree.node x.1 x.2.1 x.2.2

theorem mem_fiber : ∀ (u : LTree 1) (t : LTree NT), t ∈ fiber u ↔ t.brackets = u
  | .leaf a, .leaf b => by simp [fiber, LTree.brackets, Subsingleton.elim a 0]
  | .leaf a, .node b l r => by simp [fiber, LTree.brackets]
  | .node a l r, .leaf b => by simp [fiber, LTree.brackets]
  | .node a l r, .node b l' r' => by
    simp [fiber, LTree.brackets, mem_fiber l l', mem_fiber r r', Subsingleton.elim a 0]

/-- The sum over the labellings of the brackets is a product of sums over labels. -/
theorem sum_fiber {R : Type} [CommSemiring R] (w : ℕ → ℕ → ℕ → R) : ∀ (u : LTree 1) (s : ℕ),
    ∑ t ∈ fiber (NT := NT) u, ((t.spans s).map fun x => w x.1 x.2.1 x.2.2).prod = ((u.spans s).map fun x => ∑ c : Fin NT, w x.1 x.2.1 c).prod
  | .leaf a, s => by
    rw [fiber, sum_image (fun x _ y _ h => by simpa using h)]
    simp [LTree.spans]
  | .node a l r, s => by
    rw [fiber, sum_image (fun x _ y _ h => by
      simp only [LTree.node.injEq] at h
      exact Prod.ext h.1 (Prod.ext h.2.1 h.2.2)), sum_product]
    simp only [LTree.spans, List.map_cons, List.map_append, List.prod_cons, List.prod_append]
    rw [← sum_fiber w l, ← sum_fiber w r, sum_mul_sum, sum_mul]
    refine sum_congr rfl fun c _ => ?_
    rw [sum_product, mul_sum]
    refine sum_congr rfl fun t ht => ?_
    rw [mul_sum]
    refine sum_congr rfl fun t' ht' => ?_
    have e1 : t.size = l.size := by rw [← (mem_fiber l t).1 ht, brackets_size]
    have e2 : t'.size = r.size := by rw [← (mem_fiber r t').1 ht', brackets_size]
    rw [e1, e2]

theorem sum_strip {R : Type} [CommSemiring R] (w : ℕ → ℕ → ℕ → R) {L : ℕ} (u : Trees 1 L) :
    ∑ t : Trees NT L with strip t = u, treeProd w t = treeProd (fun i j _ => ∑ c : Fin NT, w i j c) u := by
  rw [treeProd, ← sum_fiber w u.1 0]
  refine sum_bij (fun t _ => t.1) (fun t ht => ?_) (fun t _ t' _ h => Subtype.ext h) (fun t ht => ?_) (fun t _ => rfl)
  · rw [mem_fiber]
    exact congrArg Subtype.val (mem_filter.1 ht).2
  · have hb := (mem_fiber u.1 t).1 ht
    exact ⟨⟨t, by rw [← brackets_size, hb, u.2]⟩, mem_filter.2 ⟨mem_univ _, Subtype.ext hb⟩, rfl⟩

theorem sum_trees {R : Type} [CommSemiring R] (w : ℕ → ℕ → ℕ → R) (L : ℕ) :
    ∑ t : Trees NT L, treeProd w t = ∑ u : Trees 1 L, treeProd (fun i j _ => ∑ c : Fin NT, w i j c) u := by
  rw [← sum_fiberwise univ strip]
  exact sum_congr rfl fun u _ => sum_strip w u

theorem exp_score (φ : ℕ → ℕ → ℕ → ℝ) {L : ℕ} (t : Trees NT L) : Real.exp (treeScore φ t) = treeProd (fun i j c => Real.exp (φ i j c)) t := by
  rw [treeScore, treeProd, Real.exp_list_sum, List.map_map]
  rfl

/-- The potentials of the brackets. -/
def lse (NT : ℕ) (φ : ℕ → ℕ → ℕ → ℝ) : ℕ → ℕ → ℕ → ℝ := fun i j _ => Real.log (∑ c : Fin NT, Real.exp (φ i j c))

theorem sum_exp_pos (hNT : 0 < NT) (s : ℕ → ℝ) : 0 < ∑ c : Fin NT, Real.exp (s c) :=
  sum_pos (fun _ _ => Real.exp_pos _) ⟨⟨0, hNT⟩, mem_univ _⟩

theorem exp_lse (hNT : 0 < NT) (φ : ℕ → ℕ → ℕ → ℝ) (i j c : ℕ) : Real.exp (lse NT φ i j c) = ∑ c : Fin NT, Real.exp (φ i j c) :=
  Real.exp_log (sum_exp_pos hNT _)

theorem Z_eq (hNT : 0 < NT) (φ : ℕ → ℕ → ℕ → ℝ) (L : ℕ) :
    Gibbs.Z (treeScore φ : Trees NT L → ℝ) = Gibbs.Z (treeScore (lse NT φ) : Trees 1 L → ℝ) := by
  rw [Gibbs.Z, Gibbs.Z]
  simp only [exp_score, exp_lse hNT]
  exact sum_trees _ L

theorem prob_strip (hNT : 0 < NT) (φ : ℕ → ℕ → ℕ → ℝ) {L : ℕ} (u : Trees 1 L) :
    ∑ t : Trees NT L with strip t = u, Gibbs.prob (treeScore φ) t = Gibbs.prob (treeScore (lse NT φ)) u := by
  simp only [Gibbs.prob]
  rw [← sum_div, ← Z_eq hNT]
  congr 1
  simp only [exp_score, exp_lse hNT]
  exact sum_strip _ u

/-- The probability of a tree is that of its brackets times those of its labels. -/
theorem prob_eq (hNT : 0 < NT) (φ : ℕ → ℕ → ℕ → ℝ) {L : ℕ} (t : Trees NT L) :
    Gibbs.prob (treeScore φ) t = Gibbs.prob (treeScore (lse NT φ)) (strip t) * ((t.1.spans 0).map fun x => softmaxLabel (φ x.1 x.2.1) x.2.2).prod := by
  have key : ∀ l : List (ℕ × ℕ × Fin NT), (l.map fun x => Real.exp (φ x.1 x.2.1 x.2.2)).prod =
      (l.map fun x => ∑ c : Fin NT, Real.exp (φ x.1 x.2.1 c)).prod * (l.map fun x => softmaxLabel (φ x.1 x.2.1) x.2.2).prod := by
    intro l
    induction l with
    | nil => simp
    | cons x l ih =>
      simp only [List.map_cons, List.prod_cons, ih, softmaxLabel]
      have := (sum_exp_pos hNT (φ x.1 x.2.1)).ne'
      field_simp
  rw [Gibbs.prob, Gibbs.prob, ← Z_eq hNT, exp_score, exp_score, treeProd, treeProd, key]
  have : ((strip t).1.spans 0).map (fun s => Real.exp (lse NT φ s.1 s.2.1 s.2.2)) = (t.1.spans 0).map fun x => ∑ c : Fin NT, Real.exp (φ x.1 x.2.1 c) := by
    change (t.1.brackets.spans 0).map _ = _
    rw [brackets_spans, List.map_map]
    refine List.map_congr_left fun x _ => ?_
    simp only [Function.comp, exp_lse hNT]
  rw [this]
  ring

theorem sum_softmax (hNT : 0 < NT) (s : ℕ → ℝ) : ∑ c : Fin NT, softmaxLabel s c = 1 := by
  simp only [softmaxLabel]
  rw [← sum_div, div_self (sum_exp_pos hNT s).ne']

open Props.TreeCRF (spanProb)

theorem odds (φ : ℕ → ℕ → ℕ → ℝ) (L i j : ℕ) (a a' : Fin NT) : spanProb φ L i j a * Real.exp (φ i j a') = spanProb φ L i j a' * Real.exp (φ i j a) := by
  rw [spanProb, spanProb, sum_mul, sum_mul, ← Equiv.sum_comp (swap a a' i j L) fun t => (if (i, j, a') ∈ t.1.spans 0 then Gibbs.prob (treeScore φ) t else 0) * _]
  refine sum_congr rfl fun t _ => ?_
  by_cases ht : (i, j, a) ∈ t.1.spans 0
  · rw [if_pos ht, if_pos (swap_mem t |>.2 ht), Gibbs.prob, Gibbs.prob, div_mul_eq_mul_div, div_mul_eq_mul_div, ← Real.exp_add, ← Real.exp_add, score_swap φ t ht]
  · rw [if_neg ht, if_neg (fun h => ht (swap_mem t |>.1 h)), zero_mul, zero_mul]

theorem sum_spanProb (hNT : 0 < NT) (φ : ℕ → ℕ → ℕ → ℝ) (L i j : ℕ) : ∑ a : Fin NT, spanProb φ L i j a = spanProb (lse NT φ) L i j (0 : Fin 1) := by
  simp only [spanProb]
  rw [sum_comm]
  have e : ∀ t : Trees NT L, (∑ a : Fin NT, if (i, j, a) ∈ t.1.spans 0 then Gibbs.prob (treeScore φ) t else 0) =
      if (i, j, (0 : Fin 1)) ∈ (strip t).1.spans 0 then Gibbs.prob (treeScore φ) t else 0 := by
    intro t
    by_cases h : ∃ a, (i, j, a) ∈ t.1.spans 0
    · obtain ⟨a, ha⟩ := h
      rw [sum_eq_single a (fun a' _ hne => if_neg fun h' => hne (label_unique t.1 0 i j a' a h' ha)) (fun h => absurd (mem_univ a) h), if_pos ha, if_pos]
      change _ ∈ t.1.brackets.spans 0
      rw [brackets_spans, List.mem_map]
      exact ⟨_, ha, rfl⟩
    · rw [if_neg, sum_eq_zero fun a _ => if_neg fun h' => h ⟨a, h'⟩]
      change _ ∉ t.1.brackets.spans 0
      rw [brackets_spans, List.mem_map]
      rintro ⟨⟨x, y, c⟩, hx, he⟩
      simp only [Prod.mk.injEq, and_true] at he
      obtain ⟨rfl, rfl⟩ := he
      exact h ⟨c, hx⟩
  rw [sum_congr rfl fun t _ => e t, ← sum_fiberwise univ strip]
  refine sum_congr rfl fun u _ => ?_
  rw [sum_congr rfl fun t ht => by rw [(mem_filter.1 ht).2]]
  by_cases hu : (i, j, (0 : Fin 1)) ∈ u.1.spans 0
  · simp only [if_pos hu]
    exact prob_strip hNT φ u
  · simp only [if_neg hu, sum_const_zero]

theorem spanProb_eq (hNT : 0 < NT) (φ : ℕ → ℕ → ℕ → ℝ) (L i j : ℕ) (a : Fin NT) :
    spanProb φ L i j a = spanProb (lse NT φ) L i j (0 : Fin 1) * softmaxLabel (φ i j) a := by
  have hp := sum_exp_pos hNT (φ i j)
  rw [softmaxLabel, mul_div_assoc', eq_div_iff hp.ne', ← sum_spanProb hNT, sum_mul, mul_sum]
  exact sum_congr rfl fun a' _ => odds φ L i j a a'

end TreeLabels
