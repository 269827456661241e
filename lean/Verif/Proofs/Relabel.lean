import Verif.Proofs.BatchDP
import Verif.Proofs.ExactDP
import Verif.Proofs.Gibbs

/-! Two tables of potentials whose structures correspond, such that corresponding structures use corresponding entries, have the same queries. -/

open Finset Spec ChainTop

noncomputable section
namespace Generic

/-- Rename the entries of a factor. -/
def Atom.rename (m : List ℕ → List ℕ) : Atom → Atom
  | .pot e => .pot (m e)
  | .masked e => .masked (m e)
  | .zero => .zero
  | .one => .one

/-- The structures of two rows correspond. -/
structure Relabel {γ ι π ι' π' : Type} (m : List ℕ → List ℕ) (E E' : List ℕ → Prop) (val val' : List ℕ → γ) (parts : ι → Multiset (List ℕ))
    (parts' : ι' → Multiset (List ℕ)) (atoms : π → Multiset Atom) (atoms' : π' → Multiset Atom) (f : ι ≃ ι') (g : π ≃ π') : Prop where
  partsEq : ∀ y, parts' (f y) = (parts y).map m
  atomsEq : ∀ y, atoms' (g y) = (atoms y).map (Atom.rename m)
  unmasked : ∀ y e, Atom.masked e ∉ atoms y
  valEq : ∀ x, E x → val' (m x) = val x
  inj : ∀ x y, E x → E y → m x = m y → x = y
  mem : ∀ x, E x → E' (m x)
  onto : ∀ x', E' x' → ∃ x, E x ∧ m x = x'

theorem _root_.Spec.Gibbs.Z_equiv {ι κ : Type} [Fintype ι] [Fintype κ] (e : ι ≃ κ) {s : ι → ℝ} {t : κ → ℝ} (h : ∀ y, t (e y) = s y) :
    Gibbs.Z t = Gibbs.Z s :=
  (Fintype.sum_equiv e _ _ fun y => by rw [h]).symm

theorem _root_.Spec.Gibbs.prob_equiv {ι κ : Type} [Fintype ι] [Fintype κ] (e : ι ≃ κ) {s : ι → ℝ} {t : κ → ℝ} (h : ∀ y, t (e y) = s y) (y : ι) :
    Gibbs.prob t (e y) = Gibbs.prob s y := by
  rw [Gibbs.prob, Gibbs.prob, h, Gibbs.Z_equiv e h]

theorem _root_.Spec.Gibbs.entropy_equiv {ι κ : Type} [Fintype ι] [Fintype κ] (e : ι ≃ κ) {s : ι → ℝ} {t : κ → ℝ} (h : ∀ y, t (e y) = s y) :
    Gibbs.entropy t = Gibbs.entropy s :=
  congrArg Neg.neg (Fintype.sum_equiv e _ _ fun y => by rw [Gibbs.prob_equiv e h]).symm

theorem _root_.Spec.Gibbs.expect_equiv {ι κ : Type} [Fintype ι] [Fintype κ] (e : ι ≃ κ) {s u : ι → ℝ} {t v : κ → ℝ} (h : ∀ y, t (e y) = s y)
    (h' : ∀ y, v (e y) = u y) : Gibbs.expect t v = Gibbs.expect s u :=
  (Fintype.sum_equiv e _ _ fun y => by rw [Gibbs.prob_equiv e h, h']).symm

theorem isKBest_equiv {ι κ : Type} (e : ι ≃ κ) {f : ι → ℝ} {g : κ → ℝ} (h : ∀ y, g (e y) = f y) {k : ℕ} {ys : List ι} (hb : IsKBest f k ys) :
    IsKBest g k (ys.map e) := by
  refine ⟨hb.distinct.map e.injective, by rw [List.length_map, hb.length], ?_, fun y' hy' z hz => ?_⟩
  · rw [List.pairwise_map]
    exact hb.sorted.imp fun {a b} hab => by rw [h, h]; exact hab
  · obtain ⟨y, hy, rfl⟩ := List.mem_map.1 hz
    rw [← e.apply_symm_apply y', h, h]
    refine hb.best _ (fun hin => hy' ?_) y hy
    rw [← e.apply_symm_apply y']
    exact List.mem_map_of_mem hin

section row
variable {ι π ι' π' : Type} {m : List ℕ → List ℕ} {E E' : List ℕ → Prop} {val val' : List ℕ → ℝ} {parts : ι → Multiset (List ℕ)}
    {parts' : ι' → Multiset (List ℕ)} {ones : ι → ℕ} {ones' : ι' → ℕ} {atoms : π → Multiset Atom} {atoms' : π' → Multiset Atom} {f : ι ≃ ι'} {g : π ≃ π'}
    (H : Relabel m E E' val val' parts parts' atoms atoms' f g)
    (hE : ∀ y, ∀ e ∈ parts y, E e) (hA : ∀ y, ∀ e, Atom.pot e ∈ atoms y → E e)
include H

include hE in
theorem Relabel.real (y : ι) : realScore parts' val' (f y) = realScore parts val y := by
  unfold realScore
  rw [H.partsEq, Multiset.map_map]
  exact congrArg Multiset.sum (Multiset.map_congr rfl fun e he => H.valEq e (hE y e he))

include hA in
theorem Relabel.ph (z : ℝ) (y : π) : phScore atoms' z val' (g y) = phScore atoms z val y := by
  unfold phScore
  rw [H.atomsEq, Multiset.map_map]
  refine congrArg Multiset.sum (Multiset.map_congr rfl fun a ha => ?_)
  cases a with
  | pot e => exact H.valEq e (hA y e ha)
  | masked e => exact absurd ha (H.unmasked y e)
  | zero => rfl
  | one => rfl

include hE hA in
theorem Relabel.tot (z : ℝ) (t : ι ⊕ π) : tot parts' atoms' z val' (Equiv.sumCongr f g t) = Generic.tot parts atoms z val t := by
  cases t with
  | inl y => exact H.real hE y
  | inr y => exact H.ph hA z y

theorem count_inj {s : Multiset (List ℕ)} {x : List ℕ} (hs : ∀ e ∈ s, E e) (hx : E x) : (s.map m).count (m x) = s.count x := by
  induction s using Multiset.induction_on with
  | empty => simp
  | cons a s ih =>
    rw [Multiset.map_cons, Multiset.count_cons, Multiset.count_cons, ih fun e he => hs e (Multiset.mem_cons_of_mem he)]
    congr 1
    exact if_congr ⟨fun h => H.inj _ _ hx (hs a (Multiset.mem_cons_self _ _)) h, fun h => by rw [h]⟩ rfl rfl

include hE hA in
theorem Relabel.links (t : ι ⊕ π) {x : List ℕ} (hx : E x) :
    ((allAtoms parts' ones' atoms' (Equiv.sumCongr f g t)).filterMap Atom.link).count (m x) =
      ((allAtoms parts ones atoms t).filterMap Atom.link).count x := by
  cases t with
  | inl y =>
    have key : ∀ {κ : Type} (pt : κ → Multiset (List ℕ)) (o : κ → ℕ) {κ' : Type} (at' : κ' → Multiset Atom) (z : κ),
        (allAtoms pt o at' (Sum.inl z)).filterMap Atom.link = pt z := by
      intro κ pt o κ' at' z
      have h1 : ∀ s : Multiset (List ℕ), (s.map Atom.pot).filterMap Atom.link = s := by
        intro s
        induction s using Multiset.induction_on with
        | empty => rfl
        | cons a s ih => rw [Multiset.map_cons, Multiset.filterMap_cons_some _ _ _ (show Atom.link (Atom.pot a) = some a from rfl), ih]
      have h2 : ∀ n : ℕ, (Multiset.replicate n Atom.one).filterMap Atom.link = 0 := by
        intro n
        induction n with
        | zero => rfl
        | succ n ih => rw [Multiset.replicate_succ, Multiset.filterMap_cons_none _ _ (show Atom.link .one = none from rfl), ih]
      show ((pt z).map Atom.pot + Multiset.replicate (o z) Atom.one).filterMap Atom.link = pt z
      rw [Multiset.filterMap_add, h1, h2, add_zero]
    show ((allAtoms parts' ones' atoms' (Sum.inl (f y))).filterMap Atom.link).count (m x) = _
    rw [key, key, H.partsEq]
    exact count_inj H (hE y) hx
  | inr y =>
    show ((atoms' (g y)).filterMap Atom.link).count (m x) = ((atoms y).filterMap Atom.link).count x
    rw [H.atomsEq]
    have key : ∀ s : Multiset Atom, (s.map (Atom.rename m)).filterMap Atom.link = (s.filterMap Atom.link).map m := by
      intro s
      induction s using Multiset.induction_on with
      | empty => rfl
      | cons a s ih =>
        rw [Multiset.map_cons]
        cases a with
        | pot e => rw [Multiset.filterMap_cons_some _ _ _ (show Atom.link (Atom.rename m (.pot e)) = some (m e) from rfl),
            Multiset.filterMap_cons_some _ _ _ (show Atom.link (.pot e) = some e from rfl), Multiset.map_cons, ih]
        | masked e => rw [Multiset.filterMap_cons_some _ _ _ (show Atom.link (Atom.rename m (.masked e)) = some (m e) from rfl),
            Multiset.filterMap_cons_some _ _ _ (show Atom.link (.masked e) = some e from rfl), Multiset.map_cons, ih]
        | zero => rw [Multiset.filterMap_cons_none _ _ (show Atom.link (Atom.rename m .zero) = none from rfl),
            Multiset.filterMap_cons_none _ _ (show Atom.link .zero = none from rfl), ih]
        | one => rw [Multiset.filterMap_cons_none _ _ (show Atom.link (Atom.rename m .one) = none from rfl),
            Multiset.filterMap_cons_none _ _ (show Atom.link .one = none from rfl), ih]
    rw [key]
    refine count_inj H (fun e he => ?_) hx
    obtain ⟨a, ha, hl⟩ := (Multiset.mem_filterMap _ _).1 he
    cases a with
    | pot e' => rw [← Option.some.inj hl]; exact hA y e' ha
    | masked e' => exact absurd ha (H.unmasked y e')
    | zero => exact absurd hl (by simp [Atom.link])
    | one => exact absurd hl (by simp [Atom.link])

end row

section batch
variable {A : Algo} {lengths : Option (List ℕ)} {B : ℕ} {m : ℕ → List ℕ → List ℕ} {E E' : ℕ → List ℕ → Prop}
  {ι π ι' π' : ℕ → Type} [∀ b, Fintype (ι b)] [∀ b, Fintype (π b)] [∀ b, Fintype (ι' b)] [∀ b, Fintype (π' b)]
  {parts : ∀ b, ι b → Multiset (List ℕ)} {ones : ∀ b, ι b → ℕ} {atoms : ∀ b, π b → Multiset Atom}
  {parts' : ∀ b, ι' b → Multiset (List ℕ)} {ones' : ∀ b, ι' b → ℕ} {atoms' : ∀ b, π' b → Multiset Atom}

section real
variable {p p' : A.T ℝ} {val val' : List ℕ → ℝ} (D : BatchDP A p lengths B val E parts ones atoms) (D' : BatchDP A p' lengths B val' E' parts' ones' atoms')
  {f : ∀ b, ι b ≃ ι' b} {g : ∀ b, π b ≃ π' b}
  (H : ∀ b < B, Relabel (m b) (E b) (E' b) val val' (parts b) (parts' b) (atoms b) (atoms' b) (f b) (g b))
include D D' H

theorem relabel_tot (b : ℕ) (hb : b < B) (t : ι b ⊕ π b) :
    tot (parts' b) (atoms' b) Semirings.negInf val' (Equiv.sumCongr (f b) (g b) t) = tot (parts b) (atoms b) Semirings.negInf val t := by
  obtain ⟨row, -, h2⟩ := D.rows
  exact (H b hb).tot (h2 b hb).partE (h2 b hb).potE _ t

theorem relabel_partition : Dist.partition A p' lengths = Dist.partition A p lengths := by
  rw [D.partition_eq, D'.partition_eq]
  refine congrArg Except.ok (List.map_congr_left fun b hb => congrArg Real.log ?_)
  exact Gibbs.Z_equiv _ (relabel_tot D D' H b (List.mem_range.1 hb))

theorem relabel_entropy : Dist.entropy A p' lengths = Dist.entropy A p lengths := by
  rw [D.entropy_eq, D'.entropy_eq]
  refine congrArg Except.ok (List.map_congr_left fun b hb => ?_)
  exact Gibbs.entropy_equiv _ (relabel_tot D D' H b (List.mem_range.1 hb))

theorem relabel_max : Dist.max A p' lengths = Dist.max A p lengths := by
  obtain ⟨vs, h1, h2, h3⟩ := D.max_eq
  obtain ⟨ws, h4, h5, h6⟩ := D'.max_eq
  rw [h1, h4]
  refine congrArg Except.ok (List.ext_getElem (h5.trans h2.symm) fun b hb hb' => ?_)
  obtain ⟨⟨t, ht⟩, hm⟩ := h3 b hb'
  obtain ⟨⟨t', ht'⟩, hm'⟩ := h6 b hb
  have hB : b < B := by omega
  refine le_antisymm ?_ ?_
  · obtain ⟨u, rfl⟩ := (Equiv.sumCongr (f b) (g b)).surjective t'
    rw [ht', relabel_tot D D' H b hB]
    exact hm u
  · rw [ht, ← relabel_tot D D' H b hB]
    exact hm' _

theorem relabel_marginals : ∃ μ μ', Dist.marginals A p lengths = .ok μ ∧ Dist.marginals A p' lengths = .ok μ' ∧
    ∀ b < B, ∀ x, E b x → μ' (m b x) = μ x := by
  obtain ⟨μ, h1, h2⟩ := D.marginals_eq
  obtain ⟨μ', h3, h4⟩ := D'.marginals_eq
  refine ⟨μ, μ', h1, h3, fun b hb x hx => ?_⟩
  obtain ⟨row, -, hr⟩ := D.rows
  obtain ⟨row', -, hr'⟩ := D'.rows
  rw [h2 b hb x ((hr b hb).head x hx), h4 b hb (m b x) ((hr' b hb).head _ ((H b hb).mem x hx))]
  exact Gibbs.expect_equiv _ (relabel_tot D D' H b hb) fun t => by rw [(H b hb).links (ones := ones b) (hr b hb).partE (hr b hb).potE t hx]

theorem relabel_small {b n : ℕ} (hb : b < B) {M : ℝ} (hs : BatchDP.Small val (E b) (parts b) (atoms b) n M) :
    BatchDP.Small val' (E' b) (parts' b) (atoms' b) n M where
  nonneg := hs.nonneg
  bound e he := by
    obtain ⟨x, hx, rfl⟩ := (H b hb).onto e he
    rw [(H b hb).valEq x hx]
    exact hs.bound x hx
  size y := by
    obtain ⟨y, rfl⟩ := (f b).surjective y
    rw [(H b hb).partsEq, Multiset.card_map]
    exact hs.size y
  sizeA y := by
    obtain ⟨y, rfl⟩ := (g b).surjective y
    rw [(H b hb).atomsEq, Multiset.map_map]
    refine le_of_eq_of_le (congrArg Multiset.sum (Multiset.map_congr rfl fun a _ => ?_)) (hs.sizeA y)
    cases a <;> rfl
  small := hs.small
  below := hs.below

theorem relabel_kmax {n : ℕ → ℕ} {M : ℕ → ℝ} (hs : ∀ b < B, BatchDP.Small val (E b) (parts b) (atoms b) (n b) (M b)) {k : ℕ} (hk : 0 < k)
    (hc : ∀ b < B, k ≤ Fintype.card (ι b)) : Dist.kmax A p' lengths k = Dist.kmax A p lengths k := by
  classical
  obtain ⟨vs, h1, h2, h3⟩ := D.kmax_eq hs hk hc
  obtain ⟨ws, h4, h5, h6⟩ := D'.kmax_eq (fun b hb => relabel_small D D' H hb (hs b hb)) hk fun b hb => by rw [← Fintype.card_congr (f b)]; exact hc b hb
  rw [h1, h4]
  refine congrArg Except.ok (List.ext_getElem (h5.trans h2.symm) fun b hb hb' => ?_)
  obtain ⟨ys, k1, e1⟩ := h3 b hb'
  obtain ⟨zs, k2, e2⟩ := h6 b hb
  obtain ⟨row, -, hr⟩ := D.rows
  have hB : b < B := by omega
  have hre := (H b hB).real (hr b hB).partE
  rw [e1, e2, IsKBest.unique k2 (isKBest_equiv (f b) hre k1), List.map_map]
  exact List.map_congr_left fun y _ => hre y

end real

theorem relabel_count {p p' : A.T EReal} {val val' : List ℕ → EReal} (D : BatchDP A p lengths B val E parts ones atoms)
    (D' : BatchDP A p' lengths B val' E' parts' ones' atoms') {f : ∀ b, ι b ≃ ι' b} {g : ∀ b, π b ≃ π' b}
    (H : ∀ b < B, Relabel (m b) (E b) (E' b) val val' (parts b) (parts' b) (atoms b) (atoms' b) (f b) (g b)) :
    Dist.count A lengths p' = Dist.count A lengths p := by
  classical
  rw [D.count_eq, D'.count_eq]
  refine congrArg Except.ok (List.map_congr_left fun b hb => ?_)
  have hB := List.mem_range.1 hb
  obtain ⟨row, -, hr⟩ := D.rows
  congr 1
  refine (card_equiv (f b) fun y => ?_).symm
  simp only [mem_filter, mem_univ, true_and]
  rw [(H b hB).partsEq, Multiset.forall_mem_map_iff]
  exact forall₂_congr fun e he => by rw [(H b hB).valEq e ((hr b hB).partE y e he)]

theorem relabel_any {R : Type} [CommSemiring R] {p p' : A.T R} {val val' : List ℕ → R} (D : BatchDP A p lengths B val E parts ones atoms)
    (D' : BatchDP A p' lengths B val' E' parts' ones' atoms') {f : ∀ b, ι b ≃ ι' b} {g : ∀ b, π b ≃ π' b}
    (H : ∀ b < B, Relabel (m b) (E b) (E' b) val val' (parts b) (parts' b) (atoms b) (atoms' b) (f b) (g b)) :
    A.run (Semirings.std R) p' lengths = A.run (Semirings.std R) p lengths := by
  rw [D.any_semiring, D'.any_semiring]
  refine congrArg Except.ok (List.map_congr_left fun b hb => ?_)
  have hB := List.mem_range.1 hb
  obtain ⟨row, -, hr⟩ := D.rows
  refine (Fintype.sum_equiv (f b) _ _ fun y => ?_).symm
  rw [(H b hB).partsEq, Multiset.map_map]
  exact congrArg Multiset.prod (Multiset.map_congr rfl fun e he => ((H b hB).valEq e ((hr b hB).partE y e he)).symm)

end batch
end Generic
