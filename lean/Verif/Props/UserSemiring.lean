import Verif.Proofs.UserSemiring
import Verif.Props.LinearChainValue
import Verif.Props.TreeCRF
import Verif.Props.Dependency
import Verif.Props.SemiMarkov
import Verif.Props.LabelledDependency
import Verif.Props.SentCFG

/-! C70: the dynamic programs work with every commutative semiring that a user writes (`Spec.UserSemiring`, Spec/UserSemiring.lean), also with values other
than numbers.  The value of a row is the semiring sum, over the structures of the row, of the semiring product of their potentials (`Spec.total`). -/

open Finset Spec

noncomputable section
namespace Props.UserSemiring
variable {α : Type} {S : SR α}

/-- **C70**, linear chain. -/
theorem chain_user (H : UserSemiring S) (p : T4 α) (lengths : Option (List ℕ)) (h : Props.LinearChain.Valid p lengths) :
    _root_.LinearChain.logpartition S p lengths = .ok ((List.range p.d0).map fun b =>
      total S fun y : Tags (Props.LinearChain.numEdges p lengths b) p.d2 => List.ofFn fun n => p.get b n (y n.succ) (y n.castSucc)) := by
  letI := H.commSemiring
  obtain ⟨vs, h1, h2, h3⟩ := LinearChainProofs.logpartition_plain H.rel ⟨H.detach, H.setData⟩ p lengths h.square h.edges h.classes h.lens (ζ := 0) rfl rfl
    (fun b n i j => p.get b n i j) fun _ _ _ _ _ _ => rfl
  rw [h1]
  congr 1
  refine List.ext_getElem (by simp [h2]) fun b hb hb' => ?_
  have : NeZero p.d2 := ⟨h.classes.ne'⟩
  rw [getElem_map_range, H.total_eq, h3 b hb]
  simp only [mul_zero, add_zero, one_pow, one_mul, List.prod_ofFn]
  rfl

/-- **C70**, labelled binary trees. -/
theorem tree_user (H : UserSemiring S) (p : T4 α) (lengths : Option (List ℕ)) (h : Props.TreeCRF.Valid p lengths) :
    CKYCRF.logpartition S p lengths = .ok ((List.range p.d0).map fun b =>
      total S fun t : Trees p.d3 (Props.TreeCRF.len p lengths b) => (t.1.spans 0).map fun s => p.get b s.1 s.2.1 s.2.2) := by
  letI := H.commSemiring
  refine ((CKYCRFProofs.batchDP p lengths h).user_std H).trans ?_
  refine (Props.TreeCRF.sum_any_semiring p lengths h).trans ?_
  congr 1
  refine List.map_congr_left fun b hb => ?_
  have : Nonempty (Trees p.d3 (Props.TreeCRF.len p lengths b)) :=
    CKYCRFProofs.nonempty_trees h.labels (CKYCRFProofs.len_in h.words h.lens b (List.mem_range.1 hb)).1
  rw [H.total_eq]
  rfl

/-- **C70**, segmentations. -/
theorem semimarkov_user (H : UserSemiring S) (p : T5 α) (lengths : Option (List ℕ)) (h : Props.SemiMarkov.Valid p lengths) :
    _root_.SemiMarkov.logpartition S p lengths = .ok ((List.range p.d0).map fun b =>
      total S fun y : Props.SemiMarkov.Seg p lengths b => (segEdges 0 y.1 y.2.1).map fun s => p.get b s.1 s.2.1 s.2.2.1 s.2.2.2) := by
  letI := H.commSemiring
  refine ((SemiMarkovProofs.batchDP p lengths h (Props.SemiMarkov.hK h)).user_std H).trans ?_
  refine (Props.SemiMarkov.sum_any_semiring p lengths h).trans ?_
  congr 1
  refine List.map_congr_left fun b _ => ?_
  have := Props.SemiMarkov.seg_nonempty h b
  rw [H.total_eq]
  rfl

/-- **C70**, projective dependency trees. -/
theorem dependency_user (H : UserSemiring S) (mr : Bool) (neg : α) (q : DepTree.Arcs α) (lengths : Option (List ℕ)) (h : Props.Dependency.Valid mr q lengths) :
    DepTree.sum mr S neg q lengths = .ok ((List.range q.d0).map fun b =>
      total S fun t : ProjTrees mr (Props.Dependency.len q lengths b) =>
        List.ofFn fun k => q.get b (arcCell (t.1 k) k).1 (arcCell (t.1 k) k).2 0) := by
  letI := H.commSemiring
  have e : DepTree.sum mr S neg q lengths = DepTree.sum mr (Semirings.std α) neg q lengths := by
    rw [DepTree.sum, DepTree.sum, Props.Dependency.conv_eq neg h]
    exact (DepTreeProofs.batchDP3 mr neg q lengths h.toValid h.rank).user_std H
  rw [e, Props.Dependency.sum_any_semiring mr neg q lengths h]
  congr 1
  refine List.map_congr_left fun b hb => ?_
  have := Props.Dependency.trees_nonempty h b (List.mem_range.1 hb)
  rw [H.total_eq]
  simp only [List.prod_ofFn]
  rfl

/-- **C70**, labelled dependency trees. -/
theorem labelled_user (H : UserSemiring S) (mr : Bool) (neg : α) (q : DepTree.Arcs α) (lengths : Option (List ℕ)) (h : Props.LabelledDependency.Valid mr q lengths) :
    DepTree.sum mr S neg q lengths = .ok ((List.range q.d0).map fun b =>
      total S fun t : LabelledTrees mr (Props.LabelledDependency.len q lengths b) q.d3 =>
        List.ofFn fun k => q.get b (arcCell (t.1.1 k) k).1 (arcCell (t.1.1 k) k).2 (t.2 k)) := by
  letI := H.commSemiring
  have e : DepTree.sum mr S neg q lengths = DepTree.sum mr (Semirings.std α) neg q lengths := by
    rw [DepTree.sum, DepTree.sum, Props.LabelledDependency.conv_eq neg h]
    exact (DepTreeProofs.batchDP4 mr neg q lengths h.toValid h.rank).user_std H
  rw [e, Props.LabelledDependency.sum_any_semiring mr neg q lengths h]
  congr 1
  refine List.map_congr_left fun b hb => ?_
  have := Props.LabelledDependency.trees_nonempty h b (List.mem_range.1 hb)
  rw [H.total_eq]
  simp only [List.prod_ofFn]
  rfl

/-- **C70**, derivations of a grammar (rows of at least two words; a row of one word has no derivations, C27). -/
theorem cfg_user (H : UserSemiring S) (p : CKY.Scores α) (lengths : Option (List ℕ)) (h : Props.SentCFG.Valid p lengths) (hl : Props.SentCFG.Long p lengths) :
    CKY.logpartition S p lengths = .ok ((List.range p.batch).map fun b =>
      total S fun d : Props.SentCFG.Der p lengths b => p.root b d.1.sym ::
        ((d.1.rules.map fun x => p.rule b x.1 x.2.1 x.2.2) ++ (d.1.words 0).map fun x => p.term b x.1 x.2)) := by
  letI := H.commSemiring
  refine ((CKYProofs.batchDP p lengths h.toProofs).user_std H).trans ?_
  refine (Props.SentCFG.sum_any_semiring p lengths h).trans ?_
  congr 1
  refine List.map_congr_left fun b hb => ?_
  have : Nonempty (Props.SentCFG.Der p lengths b) := Props.SentCFG.nonempty_derivs h.nonterminals h.preterminals (hl b (List.mem_range.1 hb))
  rw [H.total_eq]
  simp only [List.prod_cons, List.prod_append]
  rfl

/-! ### An instance: which rows have a structure that uses allowed parts only? -/

/-- The semiring of truth values: `or`, `and`. -/
def boolean : SR Bool where
  zero := false
  one := true
  mul := and
  sum xs := xs.any id
  raw0 := false
  detach x := x
  setData _ v := v

theorem boolean_user : UserSemiring boolean where
  laws :=
    { mul_mem := fun _ _ _ _ => trivial
      sum_mem := fun _ _ _ => trivial
      sum_perm := fun xs ys _ h => by
        show xs.any id = ys.any id
        rw [Bool.eq_iff_iff]
        simp only [List.any_eq_true, h.mem_iff]
      sum_group := fun xss _ _ => by
        show (xss.map fun xs => xs.any id).any id = xss.flatten.any id
        rw [List.any_flatten, List.any_map]
        rfl
      sum_single := fun a _ => by simp [boolean]
      mul_comm := fun a b _ _ => Bool.and_comm a b
      mul_assoc := fun a b c _ _ _ => Bool.and_assoc a b c
      mul_sum := fun a xs _ _ _ => by
        show (a && xs.any id) = (xs.map (a && ·)).any id
        cases a <;> simp [List.any_map, Function.comp_def] }
  one := fun a _ => ⟨Bool.and_true a, Bool.true_and a⟩
  zero_add := fun a => by simp [boolean]
  zero_mul := fun a => Bool.false_and a
  detach _ := rfl
  setData _ _ := rfl

theorem boolean_total {ι : Type} [Fintype ι] (entries : ι → List Bool) : total boolean entries = true ↔ ∃ y, ∀ e ∈ entries y, e = true := by
  have h : ∀ l : List Bool, l.foldr boolean.mul boolean.one = true ↔ ∀ e ∈ l, e = true := by
    intro l
    induction l with
    | nil => simp [boolean]
    | cons a l ih =>
      rw [List.foldr_cons]
      show (a && _) = true ↔ _
      rw [Bool.and_eq_true, ih, List.forall_mem_cons]
  show (univ.toList.map _).any id = true ↔ _
  simp only [List.any_map, List.any_eq_true, Finset.mem_toList, mem_univ, true_and, Function.comp, id, h]

/-- **C70** for the truth values: row `b` is `true` iff some tag sequence uses allowed transitions only. -/
theorem chain_feasible (p : T4 Bool) (lengths : Option (List ℕ)) (h : Props.LinearChain.Valid p lengths) :
    ∃ vs, _root_.LinearChain.logpartition boolean p lengths = .ok vs ∧ vs.length = p.d0 ∧ ∀ b (hb : b < vs.length),
      vs[b] = true ↔ ∃ y : Tags (Props.LinearChain.numEdges p lengths b) p.d2, ∀ n : Fin (Props.LinearChain.numEdges p lengths b), p.get b n (y n.succ) (y n.castSucc) = true := by
  refine ⟨_, chain_user boolean_user p lengths h, by simp, fun b hb => ?_⟩
  rw [getElem_map_range, boolean_total]
  simp only [List.forall_mem_ofFn_iff]

/-- A table that meets the hypotheses: two rows, the second one shorter, a transition is allowed if it goes up. -/
example : Props.LinearChain.Valid (⟨2, 2, 3, 3, fun _ _ i j => decide (j < i)⟩ : T4 Bool) (some [3, 2]) :=
  ⟨rfl, by decide, by decide, rfl, by decide, by decide⟩

end Props.UserSemiring
