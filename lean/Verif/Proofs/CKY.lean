import Verif.Model.CKY
import Verif.Spec.Lengths
import Verif.Proofs.CKYCRF
import Verif.Proofs.Grammar

/-! `CKY.logpartition` sums over the derivations (plus phantoms that cover single words with nonterminals). -/

open Finset Spec Generic GrammarProofs

noncomputable section
namespace CKYProofs

variable {α R : Type} [CommSemiring R] {S : SR α} {ρ : α → R → Prop}

/-! ### The charts -/

theorem pairs_ne {m n : ℕ} (hm : 0 < m) (hn : 0 < n) : CKY.pairs m n ≠ [] := by
  intro h
  have : (0, 0) ∈ CKY.pairs m n := by
    rw [CKY.pairs, List.mem_flatMap]
    exact ⟨0, List.mem_range.2 hm, List.mem_map.2 ⟨0, List.mem_range.2 hn, rfl⟩⟩
  rw [h] at this
  exact absurd this (by simp)

theorem pairs_mem {m n : ℕ} {x : ℕ × ℕ} : x ∈ CKY.pairs m n ↔ x.1 < m ∧ x.2 < n := by
  obtain ⟨y, z⟩ := x
  simp only [CKY.pairs, List.mem_flatMap, List.mem_map, List.mem_range, Prod.mk.injEq]
  constructor
  · rintro ⟨y', hy, z', hz, rfl, rfl⟩; exact ⟨hy, hz⟩
  · rintro ⟨hy, hz⟩; exact ⟨y, hy, z, hz, rfl, rfl⟩

theorem sum_list_range (n : ℕ) (f : ℕ → R) : ((List.range n).map f).sum = ∑ i ∈ range n, f i := by
  induction n with
  | zero => simp
  | succ n ih => rw [List.range_succ, List.map_append, List.sum_append, ih, sum_range_succ]; simp

theorem pairs_sum (m n : ℕ) (f : ℕ → ℕ → R) : ((CKY.pairs m n).map fun x => f x.1 x.2).sum = ∑ y ∈ range m, ∑ z ∈ range n, f y z := by
  rw [CKY.pairs, List.map_flatMap, List.flatMap_def, List.sum_flatten, List.map_map, ← sum_list_range]
  congr 1
  refine List.map_congr_left fun y _ => ?_
  rw [Function.comp_apply, List.map_map, ← sum_list_range]
  rfl

theorem block_rel (H : SRRel S ρ) {m n : ℕ} (hm : 0 < m) (hn : 0 < n) {M : ℕ → ℕ → α} {M' : ℕ → ℕ → R} {rule : ℕ → ℕ → α} {r : ℕ → ℕ → R} {oy oz : ℕ}
    (hM : ∀ y < m, ∀ z < n, ρ (M y z) (M' y z)) (hr : ∀ y < m, ∀ z < n, ρ (rule (oy + y) (oz + z)) (r (oy + y) (oz + z))) :
    ρ (CKY.block S m n M rule oy oz) (∑ y ∈ range m, ∑ z ∈ range n, M' y z * r (oy + y) (oz + z)) := by
  rw [← pairs_sum m n fun y z => M' y z * r (oy + y) (oz + z), CKY.block]
  refine H.sum_map (pairs_ne hm hn) fun x hx => ?_
  obtain ⟨h1, h2⟩ := pairs_mem.1 hx
  exact H.mul (hM _ h1 _ h2) (hr _ h1 _ h2)

/-- All spans of at most `w` words inside the first `L` words are correct in both charts. -/
def Inv (ρ : α → R → Prop) (N NT T L b : ℕ) (mk : Bool) (W : Atom → R) (w : ℕ) (st : CKY.Charts α) : Prop :=
  ∀ u < w, ∀ i, i + u < L → ∀ X < NT, ρ (st.1 b i u X) (inside NT T mk b W i u X) ∧
    ρ (st.2 b (i + u) (N - 1 - u) X) (inside NT T mk b W i u X)

/-- The inputs of row `b` are related to the weights. -/
structure Inputs (ρ : α → R → Prop) (p : CKY.Scores α) (b L : ℕ) (W : Atom → R) : Prop where
  term : ∀ n < L, ∀ t < p.T, ρ (p.term b n t) (W (.pot [b, 0, n, t]))
  rule : ∀ X < p.NT, ∀ y < p.NT + p.T, ∀ z < p.NT + p.T, ρ (p.rule b X y z) (W (.pot [b, 1, X, y, z]))
  mark : ∀ m, p.mark = some m → ∀ w i X, i + (w + 1) < L → X < p.NT → ρ (m b w i X) (W (.pot [b, 3, w, i, X]))

theorem spanOf_rel (H : SRRel S ρ) {p : CKY.Scores α} {b L : ℕ} {W : Atom → R} (hp : Inputs ρ p b L W) (hNT : 0 < p.NT) (hT : 0 < p.T) (hL : L ≤ p.N)
    {w : ℕ} {st : CKY.Charts α} (hst : Inv ρ p.N p.NT p.T L b p.mark.isSome W (w + 1) st) {i X : ℕ} (hi : i + (w + 1) < L) (hX : X < p.NT) :
    ρ (CKY.touch S p (w + 1) b i X (CKY.spanOf S p st (w + 1) b i X)) (inside p.NT p.T p.mark.isSome b W i (w + 1) X) := by
  have h1 : ρ (CKY.x1 S p st (w + 1) b i X) (∑ y ∈ range p.NT, ∑ z ∈ range p.NT,
      (∑ k ∈ range (w + 1), inside p.NT p.T p.mark.isSome b W i k y * inside p.NT p.T p.mark.isSome b W (i + k + 1) (w - k) z) *
        W (.pot [b, 1, X, 0 + y, 0 + z])) := by
    refine block_rel H hNT hNT (r := fun y z => W (.pot [b, 1, X, y, z])) (fun y hy z hz => ?_)
      fun y hy z hz => hp.rule X hX _ (by omega) _ (by omega)
    rw [CKY.split]
    refine H.sum_range (by omega) fun u hu => H.mul (hst u hu i (by omega) y hy).1 ?_
    have := (hst (w - u) (by omega) (i + u + 1) (by omega) z hz).2
    have e1 : i + u + 1 + (w - u) = w + 1 + i := by omega
    have e2 : p.N - 1 - (w - u) = p.N - (w + 1) + u := by omega
    rwa [e1, e2] at this
  have h2 : ρ (CKY.x2 S p st (w + 1) b i X) (∑ y ∈ range p.NT, ∑ z ∈ range p.T,
      (inside p.NT p.T p.mark.isSome b W i w y * W (.pot [b, 0, i + (w + 1), z])) * W (.pot [b, 1, X, 0 + y, p.NT + z])) := by
    refine block_rel H hNT hT (r := fun y z => W (.pot [b, 1, X, y, z])) (fun y hy z hz => ?_)
      fun y hy z hz => hp.rule X hX _ (by omega) _ (by omega)
    refine H.mul (hst w (by omega) i (by omega) y hy).1 ?_
    have := hp.term (i + (w + 1)) hi z hz
    rwa [show i + (w + 1) = w + 1 + i by omega] at this ⊢
  have h3 : ρ (CKY.x3 S p st (w + 1) b i X) (∑ y ∈ range p.T, ∑ z ∈ range p.NT,
      (W (.pot [b, 0, i, y]) * inside p.NT p.T p.mark.isSome b W (i + 1) w z) * W (.pot [b, 1, X, p.NT + y, 0 + z])) := by
    refine block_rel H hT hNT (r := fun y z => W (.pot [b, 1, X, y, z])) (fun y hy z hz => ?_)
      fun y hy z hz => hp.rule X hX _ (by omega) _ (by omega)
    refine H.mul (hp.term i (by omega) y hy) ?_
    have := (hst w (by omega) (i + 1) (by omega) z hz).2
    have e1 : i + 1 + w = w + 1 + i := by omega
    have e2 : p.N - 1 - w = p.N - (w + 1) := by omega
    rwa [e1, e2] at this
  have h4 : ρ (CKY.x4 S p (w + 1) b i X) (∑ y ∈ range p.T, ∑ z ∈ range p.T,
      (W (.pot [b, 0, i, y]) * W (.pot [b, 0, i + (w + 1), z])) * W (.pot [b, 1, X, p.NT + y, p.NT + z])) := by
    refine block_rel H hT hT (r := fun y z => W (.pot [b, 1, X, y, z])) (fun y hy z hz => ?_)
      fun y hy z hz => hp.rule X hX _ (by omega) _ (by omega)
    refine H.mul (hp.term i (by omega) y hy) ?_
    have := hp.term (i + (w + 1)) hi z hz
    rwa [show i + (w + 1) = w + 1 + i by omega] at this ⊢
  have hsum : ρ (CKY.spanOf S p st (w + 1) b i X)
      ((∑ y ∈ range p.NT, ∑ z ∈ range p.NT,
      (∑ k ∈ range (w + 1), inside p.NT p.T p.mark.isSome b W i k y * inside p.NT p.T p.mark.isSome b W (i + k + 1) (w - k) z) *
        W (.pot [b, 1, X, 0 + y, 0 + z])) +
     (∑ y ∈ range p.NT, ∑ z ∈ range p.T, (inside p.NT p.T p.mark.isSome b W i w y * W (.pot [b, 0, i + (w + 1), z])) * W (.pot [b, 1, X, 0 + y, p.NT + z])) +
     (∑ y ∈ range p.T, ∑ z ∈ range p.NT, (W (.pot [b, 0, i, y]) * inside p.NT p.T p.mark.isSome b W (i + 1) w z) * W (.pot [b, 1, X, p.NT + y, 0 + z])) +
     (if w = 0 then ∑ y ∈ range p.T, ∑ z ∈ range p.T, (W (.pot [b, 0, i, y]) * W (.pot [b, 0, i + (w + 1), z])) * W (.pot [b, 1, X, p.NT + y, p.NT + z])
      else 0)) := by
    by_cases hw : w = 0
    · have := H.sum (by simp) (List.Forall₂.cons h1 (.cons h2 (.cons h3 (.cons h4 .nil))))
      rw [CKY.spanOf, if_pos (by omega), if_pos hw]
      convert this using 1
      · rfl
      · simp only [List.sum_cons, List.sum_nil, add_zero, add_assoc]
    · have := H.sum (by simp) (List.Forall₂.cons h1 (.cons h2 (.cons h3 .nil)))
      rw [CKY.spanOf, if_neg (by omega), if_neg hw, List.append_nil]
      convert this using 1
      simp only [List.sum_cons, List.sum_nil, add_zero, add_assoc]
  rw [inside_blocks _ b W i w X hX]
  rw [CKY.touch]
  cases hm : p.mark with
  | none =>
    rw [hm] at hsum
    simp only [Option.isSome_none, Bool.false_eq_true, if_false, mul_one] at hsum ⊢
    exact hsum
  | some m =>
    rw [hm] at hsum
    have hmk := hp.mark m hm w i X hi hX
    simp only [Option.isSome_some, if_true] at hsum ⊢
    exact H.mul hsum hmk

theorem step_inv (H : SRRel S ρ) {p : CKY.Scores α} {b L : ℕ} {W : Atom → R} (hp : Inputs ρ p b L W) (hNT : 0 < p.NT) (hT : 0 < p.T) (hL : L ≤ p.N)
    {w : ℕ} (hw : w + 1 < p.N) {st : CKY.Charts α} (hst : Inv ρ p.N p.NT p.T L b p.mark.isSome W (w + 1) st) :
    Inv ρ p.N p.NT p.T L b p.mark.isSome W (w + 2) (CKY.step S p st (w + 1)) := by
  intro u hu i hi X hX
  by_cases h : u = w + 1
  · subst h
    constructor
    · simp only [CKY.step]
      rw [if_pos ⟨by omega, trivial⟩]
      exact spanOf_rel H hp hNT hT hL hst hi hX
    · simp only [CKY.step]
      rw [if_pos ⟨by omega, by omega, by omega⟩]
      have := spanOf_rel H hp hNT hT hL hst hi hX
      rwa [Nat.add_sub_cancel]
  · have := hst u (by omega) i hi X hX
    constructor
    · simp only [CKY.step]
      rw [if_neg (by omega)]
      exact this.1
    · simp only [CKY.step]
      rw [if_neg (by omega)]
      exact this.2

theorem charts_inv (H : SRRel S ρ) {p : CKY.Scores α} {b L : ℕ} {W : Atom → R} (hz : ρ S.zero (W .zero)) (hp : Inputs ρ p b L W)
    (hNT : 0 < p.NT) (hT : 0 < p.T) (hN : 0 < p.N) (hL : L ≤ p.N) : Inv ρ p.N p.NT p.T L b p.mark.isSome W p.N (CKY.charts S p) := by
  have key : ∀ m ≤ p.N - 1, Inv ρ p.N p.NT p.T L b p.mark.isSome W (m + 1)
      ((List.range m).foldl (fun st w => CKY.step S p st (w + 1)) (CKY.init S)) := by
    intro m
    induction m with
    | zero =>
      intro _ u hu i hi X hX
      obtain rfl : u = 0 := by omega
      rw [inside_zero_nt _ b W i X hX]
      exact ⟨hz, hz⟩
    | succ m ih =>
      intro hm
      rw [List.range_succ, List.foldl_append]
      simp only [List.foldl_cons, List.foldl_nil]
      exact step_inv H hp hNT hT hL (by omega) (ih (by omega))
  have := key (p.N - 1) le_rfl
  rwa [Nat.sub_add_cancel hN] at this

/-! ### Derivations and phantoms -/

variable {NT T : ℕ}

/-- A derivation as a tree without phantom leaves. -/
def embed : Deriv NT T → ETree NT T
  | .leaf t => .leaf (.inl t)
  | .node X l r => .node X (embed l) (embed r)

theorem embed_size : ∀ d : Deriv NT T, (embed d).size = d.size
  | .leaf _ => rfl
  | .node _ l r => by simp only [embed, GTree.size, embed_size l, embed_size r]

theorem embed_sym (d : Deriv NT T) : sym (embed d) = d.sym := by cases d <;> rfl

theorem embed_hole : ∀ d : Deriv NT T, ¬ hole (embed d)
  | .leaf _ => id
  | .node _ l r => by simp only [embed, hole, not_or]; exact ⟨embed_hole l, embed_hole r⟩

theorem embed_inj : ∀ d d' : Deriv NT T, embed d = embed d' → d = d'
  | .leaf _, .leaf _, h => by simp only [embed, GTree.leaf.injEq, Sum.inl.injEq] at h; rw [h]
  | .leaf _, .node _ _ _, h => by simp [embed] at h
  | .node _ _ _, .leaf _, h => by simp [embed] at h
  | .node X l r, .node X' l' r', h => by
    simp only [embed, GTree.node.injEq] at h
    rw [h.1, embed_inj l l' h.2.1, embed_inj r r' h.2.2]

theorem embed_surj : ∀ t : ETree NT T, ¬ hole t → ∃ d : Deriv NT T, embed d = t
  | .leaf (.inl t), _ => ⟨.leaf t, rfl⟩
  | .leaf (.inr _), h => absurd trivial h
  | .node X l r, h => by
    simp only [hole, not_or] at h
    obtain ⟨d, hd⟩ := embed_surj l h.1
    obtain ⟨d', hd'⟩ := embed_surj r h.2
    exact ⟨.node X d d', by rw [embed, hd, hd']⟩

theorem isNode_iff (d : Deriv NT T) : d.isNode = true ↔ d.sym < NT := by
  cases d with
  | leaf t => simp [Deriv.isNode, Deriv.sym]
  | node X l r => simp [Deriv.isNode, Deriv.sym]

/-- The phantoms of row `b`: the root is a nonterminal and some word is covered by a nonterminal. -/
abbrev Ph (NT T L : ℕ) : Type := {t : GTrees NT (Fin T ⊕ Fin NT) L // sym t.1 < NT ∧ hole t.1}

instance (NT T L : ℕ) : Fintype (Ph NT T L) :=
  have : Finite (Ph NT T L) := inferInstance
  Fintype.ofFinite _

/-- The factors of a phantom. -/
def phAtoms (mk : Bool) (b : ℕ) {L : ℕ} (t : Ph NT T L) : Multiset Atom := {.pot [b, 2, sym t.1.1]} + atoms mk b 0 t.1.1

/-- The entries for the rules of a derivation. -/
def ruleIds (b : ℕ) (d : Deriv NT T) : Multiset (List ℕ) := (d.rules.map fun x => [b, 1, x.1, x.2.1, x.2.2] : List (List ℕ))

/-- The entries for the words of a derivation. -/
def wordIds (b i : ℕ) (d : Deriv NT T) : Multiset (List ℕ) := ((d.words i).map fun x => [b, 0, x.1, x.2] : List (List ℕ))

/-- The entries for the constituents of a derivation. -/
def spanIds (b i : ℕ) (d : Deriv NT T) : Multiset (List ℕ) := ((d.spans i).map fun x => [b, 3, x.2.1 - x.1 - 1, x.1, x.2.2] : List (List ℕ))

/-- The entries of the potentials that a derivation uses. -/
def derivParts (mk : Bool) (b : ℕ) {L : ℕ} (d : Derivs NT T L) : Multiset (List ℕ) :=
  {[b, 2, d.1.sym]} + (ruleIds b d.1 + wordIds b 0 d.1 + if mk then spanIds b 0 d.1 else 0)

theorem ids_node (b i : ℕ) (X : Fin NT) (l r : Deriv NT T) :
    ruleIds b (.node X l r) = {[b, 1, ↑X, l.sym, r.sym]} + (ruleIds b l + ruleIds b r) ∧
    wordIds b i (.node X l r) = wordIds b i l + wordIds b (i + l.size) r ∧
    spanIds b i (.node X l r) = {[b, 3, l.size + r.size - 2, i, ↑X]} + (spanIds b i l + spanIds b (i + l.size) r) := by
  have h1 := l.size_pos
  have h2 := r.size_pos
  have e : i + l.size + r.size - 1 - i - 1 = l.size + r.size - 2 := by omega
  refine ⟨?_, ?_, ?_⟩
  · simp only [ruleIds, Deriv.rules, List.map_cons, List.map_append, ← Multiset.cons_coe, ← Multiset.coe_add, ← Multiset.singleton_add]
  · simp only [wordIds, Deriv.words, List.map_append, ← Multiset.coe_add]
  · simp only [spanIds, Deriv.spans, List.map_cons, List.map_append, ← Multiset.cons_coe, ← Multiset.coe_add, ← Multiset.singleton_add, e]

theorem atoms_embed (mk : Bool) (b : ℕ) : ∀ (i : ℕ) (d : Deriv NT T), atoms mk b i (embed d) =
    (ruleIds b d + wordIds b i d + if mk then spanIds b i d else 0).map Atom.pot
  | i, .leaf t => by cases mk <;> simp [embed, atoms, ruleIds, wordIds, spanIds, Deriv.rules, Deriv.words, Deriv.spans]
  | i, .node X l r => by
    obtain ⟨h1, h2, h3⟩ := ids_node b i X l r
    rw [embed, atoms, atoms_embed mk b i l, atoms_embed mk b _ r, h1, h2, h3]
    simp only [embed_size, embed_sym]
    cases mk
    · simp only [Bool.false_eq_true, if_false, Multiset.map_zero, add_zero, Multiset.map_add, Multiset.map_singleton]
      abel
    · simp only [if_true, Multiset.map_add, Multiset.map_singleton]
      abel

/-- The sum over the trees with a nonterminal at the root splits into derivations and phantoms. -/
theorem sum_split {L : ℕ} (F : ETree NT T → R) : ∑ t : GTrees NT (Fin T ⊕ Fin NT) L, (if sym t.1 < NT then F t.1 else 0) =
    ∑ d : Derivs NT T L, F (embed d.1) + ∑ t : Ph NT T L, F t.1.1 := by
  classical
  rw [← sum_filter, ← sum_filter_not_add_sum_filter _ fun t : GTrees NT (Fin T ⊕ Fin NT) L => hole t.1]
  congr 1
  · symm
    refine sum_bij (fun d _ => (⟨embed d.1, by rw [embed_size, d.2.1]⟩ : GTrees NT (Fin T ⊕ Fin NT) L)) ?_ ?_ ?_ ?_
    · intro d _
      simp only [mem_filter, mem_univ, true_and]
      exact ⟨by rw [embed_sym]; exact (isNode_iff d.1).1 d.2.2, embed_hole d.1⟩
    · intro d _ d' _ h
      exact Subtype.ext (embed_inj _ _ (Subtype.mk.inj h))
    · rintro ⟨t, ht⟩ h
      simp only [mem_filter, mem_univ, true_and] at h
      obtain ⟨d, hd⟩ := embed_surj t h.2
      refine ⟨⟨d, ?_, ?_⟩, mem_univ _, Subtype.ext hd⟩
      · rw [← embed_size, hd, ht]
      · rw [isNode_iff, ← embed_sym, hd]; exact h.1
    · intro d _; rfl
  · rw [filter_filter]
    exact sum_subtype (p := fun t : GTrees NT (Fin T ⊕ Fin NT) L => sym t.1 < NT ∧ hole t.1) _ (by simp) fun t => F t.1

theorem hole_zero (mk : Bool) (b : ℕ) : ∀ (i : ℕ) (t : ETree NT T), hole t → Atom.zero ∈ atoms mk b i t
  | _, .leaf (.inl _), h => absurd h id
  | _, .leaf (.inr _), _ => by simp [atoms]
  | i, .node _ l r, h => by
    simp only [atoms, Multiset.mem_add]
    rcases h with h | h
    · exact Or.inl (Or.inr (hole_zero mk b i l h))
    · exact Or.inr (hole_zero mk b _ r h)

/-- The entries that row `b` may use. -/
def Entry (N NT T : ℕ) (mk : Bool) (lengths : Option (List ℕ)) (b : ℕ) (e : List ℕ) : Prop :=
  (∃ n t, e = [b, 0, n, t] ∧ n < lenOf N lengths b ∧ t < T) ∨
  (∃ X y z, e = [b, 1, X, y, z] ∧ X < NT ∧ y < NT + T ∧ z < NT + T) ∨
  (∃ X, e = [b, 2, X] ∧ X < NT) ∨
  (mk = true ∧ ∃ w i X, e = [b, 3, w, i, X] ∧ i + (w + 1) < lenOf N lengths b ∧ X < NT)

/-- The entries used by a tree over the words `i, ..., i + size - 1`. -/
theorem atoms_entry {N : ℕ} {lengths : Option (List ℕ)} (mk : Bool) (b : ℕ) : ∀ (i : ℕ) (t : ETree NT T), i + t.size ≤ lenOf N lengths b →
    ∀ e, (Atom.pot e ∈ atoms mk b i t → Entry N NT T mk lengths b e)
  | i, .leaf (.inl t), h, e, he => by
    simp only [atoms, Multiset.mem_singleton, Atom.pot.injEq] at he
    subst he
    simp only [GTree.size] at h
    exact Or.inl ⟨i, t, rfl, by omega, t.2⟩
  | i, .leaf (.inr X), h, e, he => by simp [atoms] at he
  | i, .node X l r, h, e, he => by
    have h1 := l.size_pos
    have h2 := r.size_pos
    simp only [GTree.size] at h
    simp only [atoms, Multiset.mem_add, Multiset.mem_singleton, Atom.pot.injEq] at he
    rcases he with ((rfl | he) | he) | he
    · exact Or.inr (Or.inl ⟨X, _, _, rfl, X.2, sym_lt l, sym_lt r⟩)
    · cases mk
      · simp at he
      · simp only [if_true, Multiset.mem_singleton, Atom.pot.injEq] at he
        subst he
        exact Or.inr (Or.inr (Or.inr ⟨rfl, _, _, _, rfl, by omega, X.2⟩))
    · exact atoms_entry mk b i l (by omega) e he
    · exact atoms_entry mk b _ r (by omega) e he

theorem atoms_masked (mk : Bool) (b : ℕ) : ∀ (i : ℕ) (t : ETree NT T) (e : List ℕ), Atom.masked e ∉ atoms mk b i t
  | i, .leaf (.inl t), e => by simp [atoms]
  | i, .leaf (.inr X), e => by simp [atoms]
  | i, .node X l r, e => by
    simp only [atoms, Multiset.mem_add, not_or]
    refine ⟨⟨⟨by simp, ?_⟩, atoms_masked mk b i l e⟩, atoms_masked mk b _ r e⟩
    cases mk <;> simp

theorem parts_pot (mk : Bool) (b : ℕ) {L : ℕ} (d : Derivs NT T L) :
    (derivParts mk b d).map Atom.pot = {.pot [b, 2, d.1.sym]} + atoms mk b 0 (embed d.1) := by
  rw [atoms_embed, derivParts, Multiset.map_add, Multiset.map_singleton]

/-! ### The batch -/

/-- Reading the potentials by index. -/
def atS {γ : Type} (p : CKY.Scores γ) : List ℕ → γ
  | [b, 0, n, t] => p.term b n t
  | [b, 1, x, y, z] => p.rule b x y z
  | [b, 3, w, i, x] => (p.mark.map fun m => m b w i x).getD (p.root b x)
  | [b, _, x] => p.root b x
  | _ => p.root 0 0

/-- The shape of the inputs. -/
structure Valid {γ : Type} (p : CKY.Scores γ) (lengths : Option (List ℕ)) : Prop where
  symbols : p.S = p.NT + p.T
  nonterminals : 1 ≤ p.NT
  preterminals : 1 ≤ p.T
  rows : 1 ≤ p.batch
  words : 1 ≤ p.N
  lens : LengthsIn p.batch p.N lengths

theorem logpartition_ok {α : Type} (S : SR α) (p : CKY.Scores α) (lengths : Option (List ℕ)) (h : Valid p lengths) :
    CKY.logpartition S p lengths = .ok ((List.range p.batch).map fun b =>
      S.dot ((List.range p.NT).map fun X => (CKY.charts S p).1 b 0 (lenOf p.N lengths b - 1) X) ((List.range p.NT).map fun X => p.root b X)) := by
  have h1 := h.nonterminals
  have h2 := h.preterminals
  have h3 := h.rows
  have h4 := h.words
  rw [CKY.logpartition, if_neg (by rw [h.symbols]; push Not; exact ⟨rfl, by omega, by omega, by omega⟩), if_neg (by omega)]
  have hl : ∀ l ∈ CKYCRF.lensOr p.batch p.N lengths, l ≤ p.N := by
    cases lengths with
    | none => intro l hl; exact (List.eq_of_mem_replicate hl).le
    | some l => exact fun x hx => (h.lens.2 x hx).2
  have hl2 : (CKYCRF.lensOr p.batch p.N lengths).length = p.batch := by
    cases lengths with
    | none => exact List.length_replicate
    | some l => exact h.lens.1
  dsimp only
  rw [if_pos hl, if_pos hl2]
  congr 1
  refine List.map_congr_left fun b hb => ?_
  have hb := List.mem_range.1 hb
  have e : (CKYCRF.lensOr p.batch p.N lengths).getD b 0 = lenOf p.N lengths b := by
    cases lengths with
    | none => simp [CKYCRF.lensOr, lenOf, hb]
    | some l => rfl
  have e2 : CKYCRF.lastIndex p.N (lenOf p.N lengths b) = lenOf p.N lengths b - 1 := by
    rw [CKYCRF.lastIndex, if_neg (by have := (CKYCRFProofs.len_in h.words h.lens b hb).1; omega)]
  simp only [CKY.logZ, CKY.top, e, e2]

/-- The value of a row as a function of the entries. -/
def rowOf {γ : Type} (p : CKY.Scores γ) (lengths : Option (List ℕ)) (b : ℕ) (α : Type) (S : SR α) (x : List ℕ → α) : α :=
  let q : CKY.Scores α := ⟨p.batch, p.N, p.T, p.NT, p.S, fun b n t => x [b, 0, n, t], fun b X y z => x [b, 1, X, y, z], fun b X => x [b, 2, X],
    p.mark.map fun _ b w i X => x [b, 3, w, i, X]⟩
  S.dot ((List.range p.NT).map fun X => (CKY.charts S q).1 b 0 (lenOf p.N lengths b - 1) X) ((List.range p.NT).map fun X => x [b, 2, X])

theorem inside_eq (mk : Bool) (b : ℕ) (W : Atom → R) {L : ℕ} (hL : 1 ≤ L) (s : ℕ) : inside NT T mk b W 0 (L - 1) s =
    ∑ t : GTrees NT (Fin T ⊕ Fin NT) L, if sym t.1 = s then wt mk b W 0 t.1 else 0 := by
  obtain ⟨L, rfl⟩ : ∃ k, L = k + 1 := ⟨L - 1, by omega⟩
  rfl

theorem row_rel {γ : Type} (p : CKY.Scores γ) (lengths : Option (List ℕ)) (h : Valid p lengths) (b : ℕ) (hb : b < p.batch) (H : SRRel S ρ)
    {x : List ℕ → α} {W : Atom → R} (hz : ρ S.zero (W .zero)) (hx : ∀ e, Entry p.N p.NT p.T p.mark.isSome lengths b e → ρ (x e) (W (.pot e))) :
    ρ (rowOf p lengths b α S x) (∑ d : Derivs p.NT p.T (lenOf p.N lengths b), ((({.pot [b, 2, d.1.sym]} + atoms p.mark.isSome b 0 (embed d.1) : Multiset Atom)).map W).prod +
      ∑ t : Ph p.NT p.T (lenOf p.N lengths b), ((phAtoms p.mark.isSome b t).map W).prod) := by
  have hl := CKYCRFProofs.len_in h.words h.lens b hb
  have hNT := h.nonterminals
  have hi : Inputs ρ (⟨p.batch, p.N, p.T, p.NT, p.S, fun b n t => x [b, 0, n, t], fun b X y z => x [b, 1, X, y, z], fun b X => x [b, 2, X],
      p.mark.map fun _ b w i X => x [b, 3, w, i, X]⟩ : CKY.Scores α) b (lenOf p.N lengths b) W := by
    refine ⟨fun n hn t ht => hx _ (Or.inl ⟨n, t, rfl, hn, ht⟩), fun X hX y hy z hz => hx _ (Or.inr (Or.inl ⟨X, y, z, rfl, hX, hy, hz⟩)), ?_⟩
    intro m hm w i X hw hX
    cases hp : p.mark with
    | none => simp [hp] at hm
    | some m' =>
      simp only [hp, Option.map_some, Option.some.injEq] at hm
      subst hm
      exact hx _ (Or.inr (Or.inr (Or.inr ⟨by rw [hp]; rfl, w, i, X, rfl, hw, hX⟩)))
  have hc := charts_inv H hz hi h.nonterminals h.preterminals h.words hl.2
  have e : (p.mark.map fun _ b w i X => x [b, 3, w, i, X] : Option (ℕ → ℕ → ℕ → ℕ → α)).isSome = p.mark.isSome := by cases p.mark <;> rfl
  have key : ρ (rowOf p lengths b α S x) (∑ X ∈ range p.NT,
      inside p.NT p.T p.mark.isSome b W 0 (lenOf p.N lengths b - 1) X * W (.pot [b, 2, X])) := by
    rw [rowOf, SR.dot, CKYCRFProofs.zipWith_map]
    refine H.sum_range hNT fun X hX => H.mul ?_ (hx _ (Or.inr (Or.inr (Or.inl ⟨X, rfl, hX⟩))))
    have := (hc (lenOf p.N lengths b - 1) (by change _ < p.N; omega) 0 (by omega) X hX).1
    simp only [e] at this
    exact this
  convert key using 1
  simp only [inside_eq _ b W hl.1]
  have h1 : ∀ X ∈ range p.NT, (∑ t : GTrees p.NT (Fin p.T ⊕ Fin p.NT) (lenOf p.N lengths b), if sym t.1 = X then wt p.mark.isSome b W 0 t.1 else 0) * W (.pot [b, 2, X]) =
      ∑ t : GTrees p.NT (Fin p.T ⊕ Fin p.NT) (lenOf p.N lengths b), if sym t.1 = X then W (.pot [b, 2, sym t.1]) * wt p.mark.isSome b W 0 t.1 else 0 := by
    intro X _
    rw [sum_mul]
    refine sum_congr rfl fun t _ => ?_
    split_ifs with h
    · rw [h, mul_comm]
    · rw [zero_mul]
  rw [sum_congr rfl h1, sum_comm]
  have h2 : ∀ t : GTrees p.NT (Fin p.T ⊕ Fin p.NT) (lenOf p.N lengths b),
      (∑ X ∈ range p.NT, if sym t.1 = X then W (.pot [b, 2, sym t.1]) * wt p.mark.isSome b W 0 t.1 else 0) =
      if sym t.1 < p.NT then W (.pot [b, 2, sym t.1]) * wt p.mark.isSome b W 0 t.1 else 0 := by
    intro t
    rw [sum_ite_eq]
    simp only [mem_range]
  rw [sum_congr rfl fun t _ => h2 t, sum_split fun t => W (.pot [b, 2, sym t]) * wt p.mark.isSome b W 0 t]
  simp only [phAtoms, Multiset.map_add, Multiset.prod_add, Multiset.map_singleton, Multiset.prod_singleton, embed_sym]
  rfl

theorem map_id {γ : Type} (p : CKY.Scores γ) : CKY.algo.map id p = p := by
  obtain ⟨_, _, _, _, _, _, _, _, m⟩ := p
  cases m <;> rfl

theorem batchDP {γ : Type} (p : CKY.Scores γ) (lengths : Option (List ℕ)) (h : Valid p lengths) :
    BatchDP CKY.algo p lengths p.batch (atS p) (Entry p.N p.NT p.T p.mark.isSome lengths) (ι := fun b => Derivs p.NT p.T (lenOf p.N lengths b))
      (π := fun b => Ph p.NT p.T (lenOf p.N lengths b)) (fun b => derivParts p.mark.isSome b) (fun _ _ => 0) (fun b => phAtoms p.mark.isSome b) where
  rows := by
    refine ⟨rowOf p lengths, ?_, ?_⟩
    · intro α S f
      refine (logpartition_ok S (CKY.algo.map (fun q : γ × List ℕ => f q.1 q.2) (CKY.algo.index p)) lengths
        ⟨h.symbols, h.nonterminals, h.preterminals, h.rows, h.words, h.lens⟩).trans ?_
      congr 1
      refine List.map_congr_left fun b _ => ?_
      have e : CKY.algo.map (fun q : γ × List ℕ => f q.1 q.2) (CKY.algo.index p) = (⟨p.batch, p.N, p.T, p.NT, p.S, fun b n t => f (atS p [b, 0, n, t]) [b, 0, n, t],
          fun b X y z => f (atS p [b, 1, X, y, z]) [b, 1, X, y, z], fun b X => f (atS p [b, 2, X]) [b, 2, X],
          p.mark.map fun _ b w i X => f (atS p [b, 3, w, i, X]) [b, 3, w, i, X]⟩ : CKY.Scores α) := by
        simp only [CKY.algo, atS, Option.map_map]
        congr 1
        cases hm : p.mark <;> simp [Function.comp_def]
      rw [e]
      rfl
    · intro b hb
      refine ⟨?_, ?_, ?_, ?_, ?_, ?_⟩
      · intro α R _ S ρ ζ ω H HT x wp wm hp _
        have := row_rel p lengths h b hb H (W := Atom.weight wp wm ζ ω) HT.zero hp
        simp only [pow_zero, mul_one]
        convert this using 3 with d
        rw [← parts_pot, Multiset.map_map]
        rfl
      · intro d e he
        have h1 : Atom.pot e ∈ (derivParts p.mark.isSome b d).map Atom.pot := Multiset.mem_map_of_mem _ he
        rw [parts_pot, Multiset.mem_add, Multiset.mem_singleton] at h1
        rcases h1 with h1 | h1
        · simp only [Atom.pot.injEq] at h1
          subst h1
          exact Or.inr (Or.inr (Or.inl ⟨_, rfl, (isNode_iff d.1).1 d.2.2⟩))
        · exact atoms_entry p.mark.isSome b 0 _ (by rw [embed_size, d.2.1]; omega) e h1
      · intro t e he
        rw [phAtoms, Multiset.mem_add, Multiset.mem_singleton] at he
        rcases he with h1 | h1
        · simp only [Atom.pot.injEq] at h1
          subst h1
          exact Or.inr (Or.inr (Or.inl ⟨_, rfl, t.2.1⟩))
        · exact atoms_entry p.mark.isSome b 0 _ (by rw [t.1.2]; omega) e h1
      · rintro e (⟨n, t, rfl, -⟩ | ⟨X, y, z, rfl, -⟩ | ⟨X, rfl, -⟩ | ⟨-, w, i, X, rfl, -⟩) <;> rfl
      · intro t e he
        rw [phAtoms, Multiset.mem_add, Multiset.mem_singleton] at he
        rcases he with h1 | h1
        · cases h1
        · exact absurd h1 (atoms_masked p.mark.isSome b 0 _ e)
      · intro t
        exact ⟨.zero, by rw [phAtoms, Multiset.mem_add]; exact Or.inr (hole_zero _ b 0 _ t.2.2), trivial⟩
  map_fst f := by
    simp only [CKY.algo, Option.map_map]
    rfl
  map_id := map_id p

end CKYProofs
