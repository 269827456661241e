import Verif.Proofs.CKY
import Verif.Proofs.CKYCRF
import Verif.Proofs.DepTree
import Verif.Proofs.MatrixTree
import Verif.Proofs.Relabel
import Verif.Spec.Mirror

/-! The mirror images of labelled trees, of projective dependency trees and of derivations. -/

open Finset Spec Generic

noncomputable section
namespace Mirror

/-! ### Labelled trees -/

section tree
variable {NT : ℕ}

/-- The tree read from right to left. -/
def ltree : LTree NT → LTree NT
  | .leaf a => .leaf a
  | .node a l r => .node a (ltree r) (ltree l)

theorem ltree_ltree : ∀ t : LTree NT, ltree (ltree t) = t
  | .leaf _ => rfl
  | .node a l r => by rw [ltree, ltree, ltree_ltree l, ltree_ltree r]

theorem ltree_size : ∀ t : LTree NT, (ltree t).size = t.size
  | .leaf _ => rfl
  | .node a l r => by rw [ltree, LTree.size, LTree.size, ltree_size l, ltree_size r, add_comm]

theorem ltree_spans : ∀ (t : LTree NT) (s u : ℕ), ((ltree t).spans s : Multiset (ℕ × ℕ × Fin NT)) =
    ((t.spans u : Multiset (ℕ × ℕ × Fin NT)).map fun x => (s + u + t.size - 1 - x.2.1, s + u + t.size - 1 - x.1, x.2.2))
  | .leaf a, s, u => by
    simp only [ltree, LTree.spans, LTree.size, Multiset.coe_singleton, Multiset.map_singleton, Multiset.singleton_inj, Prod.mk.injEq, and_true]
    omega
  | .node a l r, s, u => by
    have h1 := ltree_spans r s (u + l.size)
    have h2 := ltree_spans l (s + r.size) u
    have e1 : s + (u + l.size) + r.size - 1 = s + u + (l.size + r.size) - 1 := by omega
    have e2 : s + r.size + u + l.size - 1 = s + u + (l.size + r.size) - 1 := by omega
    have hl := l.size_pos
    have hr := r.size_pos
    rw [e1] at h1
    rw [e2] at h2
    simp only [ltree, LTree.spans, LTree.size, ltree_size, ← Multiset.cons_coe, ← Multiset.coe_add, h1, h2, Multiset.map_cons, Multiset.map_add]
    refine congrArg₂ Multiset.cons ?_ (add_comm _ _)
    refine Prod.ext ?_ (Prod.ext ?_ rfl) <;> simp only <;> omega

/-- Mirroring is a bijection of the trees over `n` words. -/
def trees (NT n : ℕ) : Trees NT n ≃ Trees NT n where
  toFun t := ⟨ltree t.1, by rw [ltree_size]; exact t.2⟩
  invFun t := ⟨ltree t.1, by rw [ltree_size]; exact t.2⟩
  left_inv t := Subtype.ext (ltree_ltree t.1)
  right_inv t := Subtype.ext (ltree_ltree t.1)

/-- The entry of the mirrored span. -/
def spanEntry (L : ℕ) : List ℕ → List ℕ
  | [b, i, j, a] => [b, L - 1 - j, L - 1 - i, a]
  | e => e

theorem mirrorSpans_valid {γ : Type} {p : T4 γ} {lengths : Option (List ℕ)} (h : CKYCRFProofs.Valid p lengths) :
    CKYCRFProofs.Valid (mirrorSpans p lengths) lengths := ⟨h.square, h.words, h.labels, h.lens⟩

theorem tree_relabel {γ : Type} (p : T4 γ) (lengths : Option (List ℕ)) (b : ℕ) :
    Relabel (spanEntry (lenOf p.d1 lengths b)) (CKYCRFProofs.Entry p.d1 p.d3 lengths b) (CKYCRFProofs.Entry p.d1 p.d3 lengths b) (CKYCRFProofs.at4 p)
      (CKYCRFProofs.at4 (mirrorSpans p lengths)) (CKYCRFProofs.treeParts b : Trees p.d3 (lenOf p.d1 lengths b) → _) (CKYCRFProofs.treeParts b)
      (fun y : Empty => y.elim) (fun y : Empty => y.elim) (trees p.d3 (lenOf p.d1 lengths b)) (Equiv.refl Empty) where
  partsEq t := by
    have h := ltree_spans t.1 0 0
    rw [t.2] at h
    simp only [CKYCRFProofs.treeParts, trees, Equiv.coe_fn_mk]
    rw [← Multiset.map_coe, h, ← Multiset.map_coe, Multiset.map_map, Multiset.map_map]
    refine Multiset.map_congr rfl fun x _ => ?_
    simp only [Function.comp, spanEntry, zero_add]
  atomsEq y := y.elim
  unmasked y := y.elim
  valEq := by
    rintro x ⟨i, j, a, rfl, h1, h2, -⟩
    simp only [spanEntry, CKYCRFProofs.at4, mirrorSpans, List.getD_cons_zero, List.getD_cons_succ]
    congr 1 <;> omega
  inj := by
    rintro x y ⟨i, j, a, rfl, h1, h2, -⟩ ⟨i', j', a', rfl, h1', h2', -⟩ h
    simp only [spanEntry, List.cons.injEq, and_true, true_and] at h ⊢
    omega
  mem := by
    rintro x ⟨i, j, a, rfl, h1, h2, h3⟩
    exact ⟨_, _, a, rfl, by omega, by omega, h3⟩
  onto := by
    rintro x ⟨i, j, a, rfl, h1, h2, h3⟩
    refine ⟨[b, lenOf p.d1 lengths b - 1 - j, lenOf p.d1 lengths b - 1 - i, a], ⟨_, _, a, rfl, by omega, by omega, h3⟩, ?_⟩
    simp only [spanEntry, List.cons.injEq, and_true, true_and]
    omega

end tree

/-! ### Dependency trees -/

section dep
variable {n : ℕ}

/-- The node of the mirrored sentence that is node `c` of the given one: the root stays, word `k` becomes word `n + 1 - k`. -/
def node (c : Fin (n + 1)) : Fin (n + 1) := ⟨if (c : ℕ) = 0 then 0 else n + 1 - c, by split_ifs <;> omega⟩

theorem node_val (c : Fin (n + 1)) : (node c : ℕ) = if (c : ℕ) = 0 then 0 else n + 1 - c := rfl

theorem node_node (c : Fin (n + 1)) : node (node c) = c := by
  have := c.2
  refine Fin.ext ?_
  rw [node_val, node_val]
  split_ifs <;> omega

/-- The mirror image of a head vector. -/
def heads (t : Heads n) : Heads n := fun k => node (t k.rev)

theorem heads_heads (t : Heads n) : heads (heads t) = t := by
  funext k
  simp only [heads, node_node, Fin.rev_rev]

theorem node_eq_zero {c : Fin (n + 1)} : node c = 0 ↔ c = 0 := by
  have := c.2
  rw [Fin.ext_iff, Fin.ext_iff, node_val, Fin.val_zero]
  split_ifs <;> omega

theorem headOf_heads (t : Heads n) (c : Fin (n + 1)) : ∃ c' : Fin (n + 1), headOf t c = c' ∧ headOf (heads t) (node c) = node c' := by
  have hc := c.2
  by_cases h0 : (c : ℕ) = 0
  · refine ⟨0, ?_, ?_⟩
    · rw [h0]; exact MatrixTree.headOf_root t
    · rw [node_val, if_pos h0]
      exact (MatrixTree.headOf_root _).trans (by simp [node_val])
  · have hk : (c : ℕ) - 1 < n := by omega
    refine ⟨t ⟨c - 1, hk⟩, ?_, ?_⟩
    · have := MatrixTree.headOf_word t ⟨c - 1, hk⟩
      rwa [show ((⟨(c : ℕ) - 1, hk⟩ : Fin n) : ℕ) + 1 = c from by simp only; omega] at this
    · rw [node_val, if_neg h0]
      have h := MatrixTree.headOf_word (heads t) (Fin.rev ⟨c - 1, hk⟩)
      rw [heads, Fin.rev_rev, Fin.val_rev] at h
      rwa [show n - (((⟨(c : ℕ) - 1, hk⟩ : Fin n) : ℕ) + 1) + 1 = n + 1 - c from by simp only; omega] at h

theorem iterate_heads (t : Heads n) : ∀ (j : ℕ) (c : Fin (n + 1)),
    ∃ c' : Fin (n + 1), (headOf t)^[j] c = c' ∧ (headOf (heads t))^[j] (node c) = node c'
  | 0, c => ⟨c, rfl, rfl⟩
  | j + 1, c => by
    obtain ⟨c1, h1, h2⟩ := headOf_heads t c
    obtain ⟨c2, h3, h4⟩ := iterate_heads t j c1
    exact ⟨c2, by rw [Function.iterate_succ_apply, h1, h3], by rw [Function.iterate_succ_apply, h2, h4]⟩

theorem dominates_heads {t : Heads n} {x y : Fin (n + 1)} (h : Dominates t x y) : Dominates (heads t) (node x) (node y) := by
  obtain ⟨j, hj⟩ := h
  obtain ⟨c, h1, h2⟩ := iterate_heads t j y
  exact ⟨j, by rw [h2, show c = x from Fin.ext (h1.symm.trans hj)]⟩

theorem isDepTree_heads {t : Heads n} (h : IsDepTree t) : IsDepTree (heads t) := by
  intro k
  have hk := k.2
  have := dominates_heads (x := 0) (y := k.rev.succ) (h k.rev)
  rw [node_val, node_val, Fin.val_succ, Fin.val_rev, Fin.val_zero, if_pos rfl, if_neg (by omega)] at this
  rwa [show n + 1 - (n - ((k : ℕ) + 1) + 1) = k + 1 from by omega] at this

theorem isSingleRoot_heads {t : Heads n} (h : IsSingleRoot t) : IsSingleRoot (heads t) := by
  obtain ⟨k, hk, hu⟩ := h
  refine ⟨k.rev, ?_, fun m hm => ?_⟩
  · simp only [heads, Fin.rev_rev]
    exact node_eq_zero.2 hk
  · have := hu m.rev (node_eq_zero.1 hm)
    rw [← this, Fin.rev_rev]

theorem isProjective_heads {t : Heads n} (ht : IsDepTree t) (h : IsProjective t) : IsProjective (heads t) := by
  intro k y hy
  have hk := k.2
  have hh := (t k.rev).2
  have hv : ((heads t k : Fin (n + 1)) : ℕ) = if (t k.rev : ℕ) = 0 then 0 else n + 1 - t k.rev := rfl
  by_cases h0 : (t k.rev : ℕ) = 0
  · rw [if_pos h0] at hv
    rw [hv] at hy ⊢
    have hy' : 1 ≤ y ∧ y ≤ k := by rcases hy with hy | hy <;> omega
    have := isDepTree_heads ht ⟨y - 1, by omega⟩
    rwa [show ((⟨y - 1, by omega⟩ : Fin n) : ℕ) + 1 = y from by simp only; omega] at this
  · rw [if_neg h0] at hv
    have hy' : 1 ≤ y ∧ y ≤ n := by rw [hv] at hy; rcases hy with hy | hy <;> omega
    have hr : ((k.rev : Fin n) : ℕ) = n - (k + 1) := Fin.val_rev k
    have := dominates_heads (x := t k.rev) (y := ⟨n + 1 - y, by omega⟩) (h k.rev (n + 1 - y) (by
      rw [hv] at hy
      rw [hr]
      rcases hy with hy | hy
      · right; omega
      · left; omega))
    rw [node_val ⟨n + 1 - y, by omega⟩, if_neg (by simp only; omega)] at this
    simp only at this
    rwa [show n + 1 - (n + 1 - y) = y from by omega] at this

/-- Mirroring is a bijection of the projective trees over `n` words. -/
def projTrees (mr : Bool) (n : ℕ) : ProjTrees mr n ≃ ProjTrees mr n where
  toFun t := ⟨heads t.1, isDepTree_heads t.2.1, isProjective_heads t.2.1 t.2.2.1, fun h => isSingleRoot_heads (t.2.2.2 h)⟩
  invFun t := ⟨heads t.1, isDepTree_heads t.2.1, isProjective_heads t.2.1 t.2.2.1, fun h => isSingleRoot_heads (t.2.2.2 h)⟩
  left_inv t := Subtype.ext (heads_heads t.1)
  right_inv t := Subtype.ext (heads_heads t.1)

/-- ... and of the labelled ones. -/
def labTrees (mr : Bool) (n L : ℕ) : LabelledTrees mr n L ≃ LabelledTrees mr n L :=
  Equiv.prodCongr (projTrees mr n) (Equiv.arrowCongr Fin.revPerm (Equiv.refl _))

/-- The entry of the mirrored arc. -/
def arcEntry (n : ℕ) : List ℕ → List ℕ
  | b :: i :: j :: r => b :: (n - 1 - i) :: (n - 1 - j) :: r
  | e => e

theorem arcCell_node (c : Fin (n + 1)) (k : Fin n) (hc : (c : ℕ) ≠ k + 1) :
    arcCell (node c) k.rev = (n - 1 - (arcCell c k).1, n - 1 - (arcCell c k).2) := by
  have h1 := c.2
  have h2 := k.2
  have hr : ((k.rev : Fin n) : ℕ) = n - (k + 1) := Fin.val_rev k
  unfold arcCell
  rw [node_val, hr]
  by_cases h0 : (c : ℕ) = 0
  · rw [if_pos h0, if_pos rfl, if_pos h0]
    refine Prod.ext ?_ ?_ <;> simp only <;> omega
  · rw [if_neg h0, if_neg (by omega), if_neg h0]
    refine Prod.ext ?_ ?_ <;> simp only <;> omega

theorem mirrorArcs_valid {γ : Type} {mr : Bool} {q : DepTree.Arcs γ} {lengths : Option (List ℕ)} (h : DepTreeProofs.Valid mr q lengths) :
    DepTreeProofs.Valid mr (mirrorArcs q lengths) lengths := ⟨h.rank, h.square, h.labels, h.batch, h.words, h.lens⟩

theorem entry_cell {lab : Bool} {L b : ℕ} {e : List ℕ} (h : DepTreeProofs.Entry lab L n b e) :
    ∃ i j l, e = DepTreeProofs.cellTag lab b i j l ∧ i < n ∧ j < n ∧ l < L := by
  obtain ⟨h', k, l, rfl, h1, h2, h3, h4⟩ := h
  refine ⟨_, _, l, rfl, ?_, ?_, h4⟩ <;> unfold arcCell <;> split_ifs <;> simp only <;> omega

theorem cell_entry {lab : Bool} {L b i j l : ℕ} (hi : i < n) (hj : j < n) (hl : l < L) :
    DepTreeProofs.Entry lab L n b (DepTreeProofs.cellTag lab b i j l) := by
  by_cases h : i = j
  · subst h
    exact ⟨0, i, l, rfl, by omega, hi, by omega, hl⟩
  · exact ⟨i + 1, j, l, by simp [arcCell], by omega, hj, by omega, hl⟩

theorem arcEntry_cell (lab : Bool) (b i j l : ℕ) :
    arcEntry n (DepTreeProofs.cellTag lab b i j l) = DepTreeProofs.cellTag lab b (n - 1 - i) (n - 1 - j) l := rfl

theorem labParts_mirror (mr lab : Bool) (b n L : ℕ) (t : LabelledTrees mr n L) :
    DepTreeProofs.labParts lab b (labTrees mr n L t) = (DepTreeProofs.labParts lab b t).map (arcEntry n) := by
  unfold DepTreeProofs.labParts
  rw [Multiset.map_map]
  have h : (univ : Finset (Fin n)).val = (univ : Finset (Fin n)).val.map Fin.rev := by
    have := congrArg Finset.val (Finset.map_univ_equiv (Fin.revPerm : Equiv.Perm (Fin n)))
    rw [Finset.map_val] at this
    exact this.symm
  conv_lhs => rw [h]
  rw [Multiset.map_map]
  refine Multiset.map_congr rfl fun k _ => ?_
  have e := arcCell_node (t.1.1 k) k (DepTreeProofs.head_ne t.1.2.1 k)
  have e1 : ((labTrees mr n L t).1.1 k.rev : Fin (n + 1)) = node (t.1.1 k) := by
    show node (t.1.1 k.rev.rev) = _
    rw [Fin.rev_rev]
  have e2 : (labTrees mr n L t).2 k.rev = t.2 k := by
    show t.2 (Fin.rev k.rev) = _
    rw [Fin.rev_rev]
  simp only [Function.comp]
  rw [e1, e2, e, arcEntry_cell]

theorem lab_relabel {γ : Type} (mr : Bool) (neg : γ) (q : DepTree.Arcs γ) (lengths : Option (List ℕ)) (b : ℕ) :
    Relabel (arcEntry (lenOf q.d1 lengths b)) (DepTreeProofs.Entry (decide q.labeled) q.labels (lenOf q.d1 lengths b) b)
      (DepTreeProofs.Entry (decide q.labeled) q.labels (lenOf q.d1 lengths b) b) (DepTreeProofs.atQ neg q)
      (DepTreeProofs.atQ neg (mirrorArcs q lengths)) (DepTreeProofs.labParts (decide q.labeled) b : LabelledTrees mr (lenOf q.d1 lengths b) q.labels → _)
      (DepTreeProofs.labParts (decide q.labeled) b) (fun y : Empty => y.elim) (fun y : Empty => y.elim) (labTrees mr (lenOf q.d1 lengths b) q.labels)
      (Equiv.refl Empty) where
  partsEq t := labParts_mirror mr _ b _ _ t
  atomsEq y := y.elim
  unmasked y := y.elim
  valEq := by
    intro x hx
    obtain ⟨i, j, l, rfl, h1, h2, h3⟩ := entry_cell hx
    rw [arcEntry_cell]
    have hl : q.labeled ∨ l = 0 := by
      by_cases hq : q.labeled
      · exact Or.inl hq
      · right
        simp only [DepTree.Arcs.labels, if_neg hq] at h3
        omega
    rw [DepTreeProofs.atQ_cell neg q _ _ _ _ hl]
    refine (DepTreeProofs.atQ_cell neg (mirrorArcs q lengths) _ _ _ _ hl).trans ?_
    simp only [mirrorArcs]
    congr 1 <;> omega
  inj := by
    intro x y hx hy h
    obtain ⟨i, j, l, rfl, h1, h2, h3⟩ := entry_cell hx
    obtain ⟨i', j', l', rfl, h1', h2', h3'⟩ := entry_cell hy
    rw [arcEntry_cell, arcEntry_cell] at h
    simp only [DepTreeProofs.cellTag, List.cons_append, List.nil_append, List.cons.injEq, true_and] at h ⊢
    exact ⟨by omega, by omega, h.2.2⟩
  mem := by
    intro x hx
    obtain ⟨i, j, l, rfl, h1, h2, h3⟩ := entry_cell hx
    rw [arcEntry_cell]
    exact cell_entry (by omega) (by omega) h3
  onto := by
    intro x hx
    obtain ⟨i, j, l, rfl, h1, h2, h3⟩ := entry_cell hx
    refine ⟨_, cell_entry (i := lenOf q.d1 lengths b - 1 - i) (j := lenOf q.d1 lengths b - 1 - j) (by omega) (by omega) h3, ?_⟩
    rw [arcEntry_cell]
    congr 1 <;> omega

end dep

/-! ### Derivations -/

section grammar
open GrammarProofs CKYProofs
variable {NT T : ℕ}

/-- The tree read from right to left. -/
def gtree {A : Type} : GTree NT A → GTree NT A
  | .leaf a => .leaf a
  | .node X l r => .node X (gtree r) (gtree l)

theorem gtree_gtree {A : Type} : ∀ t : GTree NT A, gtree (gtree t) = t
  | .leaf _ => rfl
  | .node X l r => by rw [gtree, gtree, gtree_gtree l, gtree_gtree r]

theorem gtree_size {A : Type} : ∀ t : GTree NT A, (gtree t).size = t.size
  | .leaf _ => rfl
  | .node X l r => by rw [gtree, GTree.size, GTree.size, gtree_size l, gtree_size r, add_comm]

theorem gtree_isNode (d : Deriv NT T) : Deriv.isNode (gtree d) = d.isNode := by cases d <;> rfl

theorem gtree_dsym (d : Deriv NT T) : Deriv.sym (gtree d) = d.sym := by cases d <;> rfl

theorem gtree_sym : ∀ t : ETree NT T, sym (gtree t) = sym t
  | .leaf (.inl _) => rfl
  | .leaf (.inr _) => rfl
  | .node _ _ _ => rfl

theorem gtree_hole : ∀ t : ETree NT T, hole (gtree t) ↔ hole t
  | .leaf (.inl _) => Iff.rfl
  | .leaf (.inr _) => Iff.rfl
  | .node _ l r => by rw [gtree, hole, hole, gtree_hole l, gtree_hole r, or_comm]

theorem embed_gtree : ∀ d : Deriv NT T, embed (gtree d) = gtree (embed d)
  | .leaf _ => rfl
  | .node X l r => by rw [gtree, embed, embed, gtree, embed_gtree l, embed_gtree r]

/-- The entry of the mirrored part. -/
def partEntry (L : ℕ) : List ℕ → List ℕ
  | [b, 0, n, t] => [b, 0, L - 1 - n, t]
  | [b, 1, X, y, z] => [b, 1, X, z, y]
  | [b, 3, w, i, X] => [b, 3, w, L - 1 - (w + 1) - i, X]
  | e => e

theorem gtree_atoms (mk : Bool) (b : ℕ) : ∀ (t : ETree NT T) (s u L : ℕ), s + u + t.size = L →
    atoms mk b s (gtree t) = (atoms mk b u t).map (Atom.rename (partEntry L))
  | .leaf (.inl t), s, u, L, h => by
    simp only [GTree.size] at h
    simp only [gtree, atoms, Multiset.map_singleton, Atom.rename, partEntry]
    rw [show L - 1 - u = s from by omega]
  | .leaf (.inr X), s, u, L, h => by
    simp only [gtree, atoms, Multiset.map_singleton, Atom.rename]
  | .node X l r, s, u, L, h => by
    simp only [GTree.size] at h
    have hl := l.size_pos
    have hr := r.size_pos
    have h1 := gtree_atoms mk b r s (u + l.size) L (by omega)
    have h2 := gtree_atoms mk b l (s + r.size) u L (by omega)
    simp only [gtree, atoms, gtree_sym, gtree_size, h1, h2, Multiset.map_add, Multiset.map_singleton, Atom.rename, partEntry]
    cases mk
    · simp only [Bool.false_eq_true, if_false, Multiset.map_zero, add_zero]
      rw [add_assoc, add_assoc, add_comm (Multiset.map _ (atoms false b (u + l.size) r))]
    · simp only [if_true, Multiset.map_singleton, Atom.rename, partEntry]
      rw [show r.size + l.size - 2 = l.size + r.size - 2 from by omega, show L - 1 - (l.size + r.size - 2 + 1) - u = s from by omega,
        add_assoc, add_assoc (_ + _), add_comm (Multiset.map _ (atoms true b (u + l.size) r))]

/-- Mirroring is a bijection of the derivations ... -/
def derivs (NT T n : ℕ) : Derivs NT T n ≃ Derivs NT T n where
  toFun d := ⟨gtree d.1, by rw [gtree_size]; exact d.2.1, by rw [gtree_isNode]; exact d.2.2⟩
  invFun d := ⟨gtree d.1, by rw [gtree_size]; exact d.2.1, by rw [gtree_isNode]; exact d.2.2⟩
  left_inv d := Subtype.ext (gtree_gtree d.1)
  right_inv d := Subtype.ext (gtree_gtree d.1)

/-- ... and of the phantoms. -/
def phs (NT T n : ℕ) : Ph NT T n ≃ Ph NT T n where
  toFun d := ⟨⟨gtree d.1.1, by rw [gtree_size]; exact d.1.2⟩, by rw [gtree_sym]; exact d.2.1, (gtree_hole _).2 d.2.2⟩
  invFun d := ⟨⟨gtree d.1.1, by rw [gtree_size]; exact d.1.2⟩, by rw [gtree_sym]; exact d.2.1, (gtree_hole _).2 d.2.2⟩
  left_inv d := Subtype.ext (Subtype.ext (gtree_gtree d.1.1))
  right_inv d := Subtype.ext (Subtype.ext (gtree_gtree d.1.1))

theorem mirrorGrammar_valid {γ : Type} {p : CKY.Scores γ} {lengths : Option (List ℕ)} (h : CKYProofs.Valid p lengths) :
    CKYProofs.Valid (mirrorGrammar p lengths) lengths := ⟨h.symbols, h.nonterminals, h.preterminals, h.rows, h.words, h.lens⟩

theorem map_pot {s s' : Multiset (List ℕ)} {m : List ℕ → List ℕ} (h : s.map Atom.pot = (s'.map Atom.pot).map (Atom.rename m)) : s = s'.map m := by
  have : s.map Atom.pot = (s'.map m).map Atom.pot := by
    rw [h, Multiset.map_map, Multiset.map_map]
    rfl
  exact Multiset.map_injective (fun a b h => Atom.pot.inj h) this

theorem parts_mirror (mk : Bool) (b L : ℕ) (d : Derivs NT T L) :
    derivParts mk b (derivs NT T L d) = (derivParts mk b d).map (partEntry L) := by
  unfold derivParts
  rw [Multiset.map_add, Multiset.map_singleton]
  refine congrArg₂ (· + ·) ?_ (map_pot ?_)
  · show ({[b, 2, Deriv.sym (gtree d.1)]} : Multiset (List ℕ)) = _
    rw [gtree_dsym]
    rfl
  · rw [← atoms_embed mk b 0 d.1, ← atoms_embed mk b 0 (derivs NT T L d).1]
    show atoms mk b 0 (embed (gtree d.1)) = _
    rw [embed_gtree]
    exact gtree_atoms mk b _ 0 0 L (by rw [embed_size, d.2.1]; omega)

theorem atoms_unmasked (mk : Bool) (b : ℕ) : ∀ (t : ETree NT T) (i : ℕ) (e : List ℕ), Atom.masked e ∉ atoms mk b i t
  | .leaf (.inl t), i, e => by simp [atoms]
  | .leaf (.inr X), i, e => by simp [atoms]
  | .node X l r, i, e => by
    have h1 := atoms_unmasked mk b l i e
    have h2 := atoms_unmasked mk b r (i + l.size) e
    cases mk <;> simp [atoms, h1, h2]

theorem grammar_relabel {γ : Type} (p : CKY.Scores γ) (lengths : Option (List ℕ)) (b : ℕ) :
    Relabel (partEntry (lenOf p.N lengths b)) (Entry p.N p.NT p.T p.mark.isSome lengths b) (Entry p.N p.NT p.T p.mark.isSome lengths b) (atS p)
      (atS (mirrorGrammar p lengths)) (derivParts p.mark.isSome b : Derivs p.NT p.T (lenOf p.N lengths b) → _) (derivParts p.mark.isSome b)
      (phAtoms p.mark.isSome b : Ph p.NT p.T (lenOf p.N lengths b) → _) (phAtoms p.mark.isSome b) (derivs p.NT p.T (lenOf p.N lengths b))
      (phs p.NT p.T (lenOf p.N lengths b)) where
  partsEq d := parts_mirror _ b _ d
  atomsEq y := by
    unfold phAtoms
    rw [Multiset.map_add, Multiset.map_singleton]
    refine congrArg₂ (· + ·) ?_ (gtree_atoms _ b y.1.1 0 0 _ (by rw [y.1.2]; omega))
    show ({Atom.pot [b, 2, sym (gtree y.1.1)]} : Multiset Atom) = _
    rw [gtree_sym]
    rfl
  unmasked y e := by
    unfold phAtoms
    simp only [Multiset.mem_add, Multiset.mem_singleton, reduceCtorEq, false_or]
    exact atoms_unmasked _ b _ _ _
  valEq := by
    rintro x (⟨n, t, rfl, h1, h2⟩ | ⟨X, y, z, rfl, h1, h2, h3⟩ | ⟨X, rfl, h1⟩ | ⟨h0, w, i, X, rfl, h1, h2⟩)
    · simp only [partEntry, atS, mirrorGrammar]
      rw [show lenOf p.N lengths b - 1 - (lenOf p.N lengths b - 1 - n) = n from by omega]
    · rfl
    · rfl
    · simp only [partEntry, atS, mirrorGrammar, Option.map_map]
      rw [show ∀ (f : (ℕ → ℕ → ℕ → ℕ → γ) → γ) g, f = g → (Option.map f p.mark).getD (p.root b X) = (Option.map g p.mark).getD (p.root b X) from
        fun f g h => by rw [h]]
      funext m
      simp only [Function.comp]
      congr 1
      omega
  inj := by
    rintro x y (⟨n, t, rfl, h1, h2⟩ | ⟨X, y, z, rfl, h1, h2, h3⟩ | ⟨X, rfl, h1⟩ | ⟨h0, w, i, X, rfl, h1, h2⟩)
        (⟨n', t', rfl, h1', h2'⟩ | ⟨X', y', z', rfl, h1', h2', h3'⟩ | ⟨X', rfl, h1'⟩ | ⟨h0', w', i', X', rfl, h1', h2'⟩) h <;>
      first
      | (simp [partEntry] at h; done)
      | (simp only [partEntry, List.cons.injEq, and_true, true_and] at h ⊢; omega)
  mem := by
    rintro x (⟨n, t, rfl, h1, h2⟩ | ⟨X, y, z, rfl, h1, h2, h3⟩ | ⟨X, rfl, h1⟩ | ⟨h0, w, i, X, rfl, h1, h2⟩)
    · exact Or.inl ⟨_, t, rfl, by omega, h2⟩
    · exact Or.inr (Or.inl ⟨X, z, y, rfl, h1, h3, h2⟩)
    · exact Or.inr (Or.inr (Or.inl ⟨X, rfl, h1⟩))
    · exact Or.inr (Or.inr (Or.inr ⟨h0, w, _, X, rfl, by omega, h2⟩))
  onto := by
    rintro x (⟨n, t, rfl, h1, h2⟩ | ⟨X, y, z, rfl, h1, h2, h3⟩ | ⟨X, rfl, h1⟩ | ⟨h0, w, i, X, rfl, h1, h2⟩)
    · refine ⟨_, Or.inl ⟨lenOf p.N lengths b - 1 - n, t, rfl, by omega, h2⟩, ?_⟩
      simp only [partEntry, List.cons.injEq, and_true, true_and]
      omega
    · exact ⟨_, Or.inr (Or.inl ⟨X, z, y, rfl, h1, h3, h2⟩), rfl⟩
    · exact ⟨_, Or.inr (Or.inr (Or.inl ⟨X, rfl, h1⟩)), rfl⟩
    · refine ⟨_, Or.inr (Or.inr (Or.inr ⟨h0, w, lenOf p.N lengths b - 1 - (w + 1) - i, X, rfl, by omega, h2⟩)), ?_⟩
      simp only [partEntry, List.cons.injEq, and_true, true_and]
      omega

end grammar
end Mirror
