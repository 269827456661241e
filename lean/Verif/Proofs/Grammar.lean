import Mathlib.Algebra.BigOperators.Fin
import Mathlib.Algebra.BigOperators.Ring.Finset
import Verif.Spec.Grammar
import Verif.Proofs.RowDP

/-! Trees whose leaves are words or nonterminals that cover a single word, and the inside weights. -/

open Finset Spec Generic

noncomputable section
namespace GrammarProofs

section sums
variable {NT : ℕ} {A : Type} [Fintype A]

theorem sum_one {R : Type} [AddCommMonoid R] (f : GTree NT A → R) : ∑ t : GTrees NT A 1, f t.1 = ∑ a, f (.leaf a) := by
  symm
  refine Fintype.sum_bijective (fun a : A => (⟨.leaf a, rfl⟩ : GTrees NT A 1)) ⟨?_, ?_⟩ _ _ fun _ => rfl
  · intro a a' h
    exact GTree.leaf.inj (congrArg Subtype.val h)
  · rintro ⟨t, ht⟩
    cases t with
    | leaf a => exact ⟨a, rfl⟩
    | node a l r =>
      have h1 := l.size_pos
      have h2 := r.size_pos
      simp only [GTree.size] at ht
      omega

theorem sum_node {R : Type} [AddCommMonoid R] (n : ℕ) (f : GTree NT A → R) : ∑ t : GTrees NT A (n + 2), f t.1 =
    ∑ X, ∑ k : Fin (n + 1), ∑ l : GTrees NT A (k + 1), ∑ r : GTrees NT A (n - k + 1), f (.node X l.1 r.1) := by
  let T := Σ _ : Fin NT, Σ k : Fin (n + 1), Σ _ : GTrees NT A (k + 1), GTrees NT A (n - k + 1)
  have h : ∑ X, ∑ k : Fin (n + 1), ∑ l : GTrees NT A (k + 1), ∑ r : GTrees NT A (n - k + 1), f (.node X l.1 r.1) =
      ∑ x : T, f (.node x.1 x.2.2.1.1 x.2.2.2.1) := by
    simp only [T, Fintype.sum_sigma]
  rw [h]
  symm
  refine Fintype.sum_bijective (fun x : T => (⟨.node x.1 x.2.2.1.1 x.2.2.2.1, ?_⟩ : GTrees NT A (n + 2))) ⟨?_, ?_⟩ _ _ fun _ => rfl
  · have h1 := x.2.2.1.2
    have h2 := x.2.2.2.2
    have h3 := x.2.1.2
    simp only [GTree.size, h1, h2]; omega
  · rintro ⟨a, ⟨k, hk⟩, ⟨l, hl⟩, ⟨r, hr⟩⟩ ⟨a', ⟨k', hk'⟩, ⟨l', hl'⟩, ⟨r', hr'⟩⟩ h
    simp only [Subtype.mk.injEq, GTree.node.injEq] at h
    obtain ⟨rfl, rfl, rfl⟩ := h
    have : k = k' := by
      have h1 : l.size = k + 1 := hl
      have h2 : l.size = k' + 1 := hl'
      omega
    subst this
    rfl
  · rintro ⟨t, ht⟩
    cases t with
    | leaf a => simp [GTree.size] at ht
    | node a l r =>
      have h1 := l.size_pos
      have h2 := r.size_pos
      simp only [GTree.size] at ht
      refine ⟨⟨a, ⟨l.size - 1, by omega⟩, ⟨l, ?_⟩, ⟨r, ?_⟩⟩, rfl⟩
      · simp only; omega
      · simp only; omega

/-- The prefix code of a tree. -/
def code : GTree NT A → List (Fin NT ⊕ A)
  | .leaf a => [.inr a]
  | .node X l r => .inl X :: (code l ++ code r)

omit [Fintype A] in
theorem code_length : ∀ t : GTree NT A, (code t).length = 2 * t.size - 1
  | .leaf _ => rfl
  | .node _ l r => by
    have h1 := l.size_pos
    have h2 := r.size_pos
    simp only [code, List.length_cons, List.length_append, code_length l, code_length r, GTree.size]; omega

omit [Fintype A] in
theorem code_inj : ∀ (t t' : GTree NT A) (u u' : List (Fin NT ⊕ A)), code t ++ u = code t' ++ u' → t = t' ∧ u = u'
  | .leaf a, .leaf a', u, u', h => by
    simp only [code, List.singleton_append, List.cons.injEq, Sum.inr.injEq] at h
    exact ⟨congrArg _ h.1, h.2⟩
  | .leaf a, .node X l r, u, u', h => by simp [code] at h
  | .node X l r, .leaf a, u, u', h => by simp [code] at h
  | .node X l r, .node X' l' r', u, u', h => by
    simp only [code, List.cons_append, List.append_assoc, List.cons.injEq, Sum.inl.injEq] at h
    obtain ⟨rfl, h⟩ := h
    have h1 := code_inj l l' _ _ h
    have h2 := code_inj r r' _ _ h1.2
    exact ⟨by rw [h1.1, h2.1], h2.2⟩

/-- A bound on the number of trees. -/
theorem card_gtrees (n : ℕ) : Fintype.card (GTrees NT A n) ≤ (NT + Fintype.card A) ^ (2 * n - 1) := by
  have : Fintype.card (List.Vector (Fin NT ⊕ A) (2 * n - 1)) = (NT + Fintype.card A) ^ (2 * n - 1) := by
    rw [card_vector, Fintype.card_sum, Fintype.card_fin]
  rw [← this]
  refine Fintype.card_le_of_injective (fun t => ⟨code t.1, by rw [code_length, t.2]⟩) fun t t' h => ?_
  have h : code t.1 = code t'.1 := congrArg Subtype.val h
  exact Subtype.ext (code_inj t.1 t'.1 [] [] (by rw [h])).1

end sums

/-! ### Trees with phantom leaves -/

variable {NT T : ℕ}

/-- A tree in which a single word may also be covered by a nonterminal (whose chart cell holds `zero`). -/
abbrev ETree (NT T : ℕ) : Type := GTree NT (Fin T ⊕ Fin NT)

/-- The symbol at the root. -/
def sym : ETree NT T → ℕ
  | .leaf (.inl t) => NT + t
  | .leaf (.inr X) => X
  | .node X _ _ => X

theorem sym_lt : ∀ t : ETree NT T, sym t < NT + T
  | .leaf (.inl t) => by have := t.2; simp only [sym]; omega
  | .leaf (.inr X) => by have := X.2; simp only [sym]; omega
  | .node X _ _ => by have := X.2; simp only [sym]; omega

/-- Some word is covered by a nonterminal. -/
def hole : ETree NT T → Prop
  | .leaf (.inl _) => False
  | .leaf (.inr _) => True
  | .node _ l r => hole l ∨ hole r

/-- The factors of a tree whose first word is word `i`.  `mk` says whether the intermediate values are marked. -/
def atoms (mk : Bool) (b : ℕ) : ℕ → ETree NT T → Multiset Atom
  | i, .leaf (.inl t) => {.pot [b, 0, i, ↑t]}
  | _, .leaf (.inr _) => {.zero}
  | i, .node X l r => {.pot [b, 1, ↑X, sym l, sym r]} + (if mk then {.pot [b, 3, l.size + r.size - 2, i, ↑X]} else 0) + atoms mk b i l +
      atoms mk b (i + l.size) r

section inside
variable {R : Type} [CommSemiring R]

/-- The product of the factors. -/
def wt (mk : Bool) (b : ℕ) (W : Atom → R) (i : ℕ) (t : ETree NT T) : R := ((atoms mk b i t).map W).prod

theorem wt_node (mk : Bool) (b : ℕ) (W : Atom → R) (i : ℕ) (X : Fin NT) (l r : ETree NT T) : wt mk b W i (.node X l r) =
    W (.pot [b, 1, ↑X, sym l, sym r]) * (wt mk b W i l * wt mk b W (i + l.size) r) *
      (if mk then W (.pot [b, 3, l.size + r.size - 2, i, ↑X]) else 1) := by
  simp only [wt, atoms, Multiset.map_add, Multiset.prod_add, Multiset.map_singleton, Multiset.prod_singleton]
  cases mk
  · simp [mul_assoc]
  · simp only [if_true, Multiset.map_singleton, Multiset.prod_singleton]; ring

/-- The inside weight of the symbol `s` over the `w + 1` words from word `i`. -/
def inside (NT T : ℕ) (mk : Bool) (b : ℕ) (W : Atom → R) (i w s : ℕ) : R :=
  ∑ t : GTrees NT (Fin T ⊕ Fin NT) (w + 1), if sym t.1 = s then wt mk b W i t.1 else 0

theorem inside_zero_nt (mk : Bool) (b : ℕ) (W : Atom → R) (i s : ℕ) (hs : s < NT) : inside NT T mk b W i 0 s = W .zero := by
  rw [inside, sum_one fun t : ETree NT T => if sym t = s then wt mk b W i t else 0, Fintype.sum_sum_type]
  have h1 : ∀ t : Fin T, (if sym (.leaf (.inl t) : ETree NT T) = s then wt mk b W i (.leaf (.inl t) : ETree NT T) else 0) = 0 := fun t =>
    if_neg (by simp only [sym]; omega)
  rw [sum_eq_zero fun t _ => h1 t, zero_add, sum_eq_single (⟨s, hs⟩ : Fin NT)]
  · simp [sym, wt, atoms]
  · intro X _ hX
    refine if_neg fun h => hX (Fin.ext h)
  · simp

theorem inside_zero_t (mk : Bool) (b : ℕ) (W : Atom → R) (i t : ℕ) (ht : t < T) :
    inside NT T mk b W i 0 (NT + t) = W (.pot [b, 0, i, t]) := by
  rw [inside, sum_one fun x : ETree NT T => if sym x = NT + t then wt mk b W i x else 0, Fintype.sum_sum_type]
  have h1 : ∀ X : Fin NT, (if sym (.leaf (.inr X) : ETree NT T) = NT + t then wt mk b W i (.leaf (.inr X) : ETree NT T) else 0) = 0 := fun X =>
    if_neg (by have := X.2; simp only [sym]; omega)
  rw [sum_eq_zero (f := fun X : Fin NT => (if sym (.leaf (.inr X) : ETree NT T) = NT + t then wt mk b W i (.leaf (.inr X) : ETree NT T) else 0))
    fun X _ => h1 X, add_zero, sum_eq_single (⟨t, ht⟩ : Fin T)]
  · simp [sym, wt, atoms]
  · intro X _ hX
    refine if_neg fun h => hX (Fin.ext ?_)
    have h : NT + (X : ℕ) = NT + t := h
    change (X : ℕ) = t
    omega
  · simp

theorem inside_succ_t (mk : Bool) (b : ℕ) (W : Atom → R) (i w t : ℕ) : inside NT T mk b W i (w + 1) (NT + t) = 0 := by
  refine sum_eq_zero fun x _ => if_neg ?_
  obtain ⟨x, hx⟩ := x
  cases x with
  | leaf a => simp [GTree.size] at hx
  | node X l r => have := X.2; simp only [sym]; omega

/-- Sums over the subtrees, grouped by the symbol at the root. -/
theorem sum_by_sym (f : ℕ → R) {n : ℕ} (g : GTrees NT (Fin T ⊕ Fin NT) n → R) :
    ∑ t, f (sym t.1) * g t = ∑ s ∈ range (NT + T), f s * ∑ t, if sym t.1 = s then g t else 0 := by
  simp only [mul_sum]
  rw [sum_comm]
  refine sum_congr rfl fun t _ => ?_
  rw [sum_eq_single (sym t.1)]
  · rw [if_pos rfl]
  · intro s _ hs
    rw [if_neg (Ne.symm hs), mul_zero]
  · intro h
    exact absurd (mem_range.2 (sym_lt t.1)) h

theorem inside_succ (mk : Bool) (b : ℕ) (W : Atom → R) (i w X : ℕ) (hX : X < NT) : inside NT T mk b W i (w + 1) X =
    (∑ k ∈ range (w + 1), ∑ y ∈ range (NT + T), ∑ z ∈ range (NT + T),
      W (.pot [b, 1, X, y, z]) * (inside NT T mk b W i k y * inside NT T mk b W (i + k + 1) (w - k) z)) *
      (if mk then W (.pot [b, 3, w, i, X]) else 1) := by
  rw [inside, sum_node w fun t : ETree NT T => if sym t = X then wt mk b W i t else 0, sum_eq_single (⟨X, hX⟩ : Fin NT)]
  · rw [sum_range, sum_mul]
    refine sum_congr rfl fun k _ => ?_
    have hk := k.2
    have e1 : ∀ (l : GTrees NT (Fin T ⊕ Fin NT) (k + 1)) (r : GTrees NT (Fin T ⊕ Fin NT) (w - k + 1)),
        (if sym (.node ⟨X, hX⟩ l.1 r.1 : ETree NT T) = X then wt mk b W i (.node ⟨X, hX⟩ l.1 r.1) else 0) =
        (W (.pot [b, 1, X, sym l.1, sym r.1]) * wt mk b W (i + k + 1) r.1) * wt mk b W i l.1 *
          (if mk then W (.pot [b, 3, w, i, X]) else 1) := by
      intro l r
      have hl : l.1.size = k + 1 := l.2
      have hr : r.1.size = w - k + 1 := r.2
      rw [if_pos (show sym (.node ⟨X, hX⟩ l.1 r.1 : ETree NT T) = X from rfl), wt_node, hl, hr]
      have e : (k : ℕ) + 1 + (w - k + 1) - 2 = w := by omega
      rw [e, ← add_assoc]
      ring
    simp only [e1, ← sum_mul]
    congr 1
    rw [sum_by_sym (fun y => ∑ r : GTrees NT (Fin T ⊕ Fin NT) (w - k + 1), W (.pot [b, 1, X, y, sym r.1]) * wt mk b W (i + k + 1) r.1)]
    refine sum_congr rfl fun y _ => ?_
    rw [sum_by_sym (fun z => W (.pot [b, 1, X, y, z])) (fun r : GTrees NT (Fin T ⊕ Fin NT) (w - k + 1) => wt mk b W (i + k + 1) r.1), sum_mul]
    refine sum_congr rfl fun z _ => ?_
    rw [mul_assoc, mul_comm (∑ t, _) (∑ t, _)]
    rfl
  · intro Y _ hY
    refine sum_eq_zero fun k _ => sum_eq_zero fun l _ => sum_eq_zero fun r _ => if_neg fun h => hY (Fin.ext h)
  · simp

/-- The four kinds of pairs of children. -/
theorem inside_blocks (mk : Bool) (b : ℕ) (W : Atom → R) (i w X : ℕ) (hX : X < NT) : inside NT T mk b W i (w + 1) X =
    ((∑ y ∈ range NT, ∑ z ∈ range NT, (∑ k ∈ range (w + 1), inside NT T mk b W i k y * inside NT T mk b W (i + k + 1) (w - k) z) *
        W (.pot [b, 1, X, 0 + y, 0 + z])) +
     (∑ y ∈ range NT, ∑ z ∈ range T, (inside NT T mk b W i w y * W (.pot [b, 0, i + (w + 1), z])) * W (.pot [b, 1, X, 0 + y, NT + z])) +
     (∑ y ∈ range T, ∑ z ∈ range NT, (W (.pot [b, 0, i, y]) * inside NT T mk b W (i + 1) w z) * W (.pot [b, 1, X, NT + y, 0 + z])) +
     (if w = 0 then ∑ y ∈ range T, ∑ z ∈ range T, (W (.pot [b, 0, i, y]) * W (.pot [b, 0, i + (w + 1), z])) * W (.pot [b, 1, X, NT + y, NT + z])
      else 0)) *
      (if mk then W (.pot [b, 3, w, i, X]) else 1) := by
  rw [inside_succ mk b W i w X hX]
  congr 1
  have split : ∀ k, ∑ y ∈ range (NT + T), ∑ z ∈ range (NT + T),
      W (.pot [b, 1, X, y, z]) * (inside NT T mk b W i k y * inside NT T mk b W (i + k + 1) (w - k) z) =
      (∑ y ∈ range NT, ∑ z ∈ range NT, W (.pot [b, 1, X, y, z]) * (inside NT T mk b W i k y * inside NT T mk b W (i + k + 1) (w - k) z)) +
      (∑ y ∈ range NT, ∑ z ∈ range T, W (.pot [b, 1, X, y, NT + z]) * (inside NT T mk b W i k y * inside NT T mk b W (i + k + 1) (w - k) (NT + z))) +
      (∑ y ∈ range T, ∑ z ∈ range NT, W (.pot [b, 1, X, NT + y, z]) * (inside NT T mk b W i k (NT + y) * inside NT T mk b W (i + k + 1) (w - k) z)) +
      (∑ y ∈ range T, ∑ z ∈ range T, W (.pot [b, 1, X, NT + y, NT + z]) * (inside NT T mk b W i k (NT + y) * inside NT T mk b W (i + k + 1) (w - k) (NT + z))) := by
    intro k
    rw [sum_range_add]
    simp only [sum_range_add, sum_add_distrib]
    ring
  simp only [split, sum_add_distrib]
  have tz : ∀ i k t, k ≠ 0 → inside NT T mk b W i k (NT + t) = 0 := by
    intro i k t hk
    obtain ⟨k, rfl⟩ := Nat.exists_eq_succ_of_ne_zero hk
    exact inside_succ_t mk b W i k t
  congr 1
  · congr 1
    · congr 1
      · rw [sum_comm]
        refine sum_congr rfl fun y _ => ?_
        rw [sum_comm]
        refine sum_congr rfl fun z _ => ?_
        rw [sum_mul]
        refine sum_congr rfl fun k _ => ?_
        rw [zero_add, zero_add, mul_comm]
      · rw [sum_eq_single w]
        · refine sum_congr rfl fun y _ => sum_congr rfl fun z hz => ?_
          rw [Nat.sub_self, inside_zero_t mk b W _ z (mem_range.1 hz), zero_add, mul_comm, add_assoc]
        · intro k hk hne
          have := mem_range.1 hk
          refine sum_eq_zero fun y _ => sum_eq_zero fun z _ => ?_
          rw [tz _ _ _ (by omega), mul_zero, mul_zero]
        · intro h; exact absurd (mem_range.2 (by omega)) h
    · rw [sum_eq_single 0]
      · refine sum_congr rfl fun y hy => sum_congr rfl fun z _ => ?_
        rw [inside_zero_t mk b W _ y (mem_range.1 hy), zero_add, mul_comm, add_zero, Nat.sub_zero]
      · intro k hk hne
        refine sum_eq_zero fun y _ => sum_eq_zero fun z _ => ?_
        rw [tz _ _ _ hne, zero_mul, mul_zero]
      · intro h; exact absurd (mem_range.2 (by omega)) h
  · split_ifs with hw
    · subst hw
      rw [sum_range_one]
      refine sum_congr rfl fun y hy => sum_congr rfl fun z hz => ?_
      rw [inside_zero_t mk b W _ y (mem_range.1 hy), Nat.sub_self, inside_zero_t mk b W _ z (mem_range.1 hz), mul_comm, zero_add, add_zero]
    · refine sum_eq_zero fun k hk => sum_eq_zero fun y _ => sum_eq_zero fun z _ => ?_
      by_cases hk0 : k = 0
      · subst hk0
        rw [tz (i + 0 + 1) _ _ (by omega), mul_zero, mul_zero]
      · rw [tz i _ _ hk0, zero_mul, mul_zero]

end inside

end GrammarProofs
