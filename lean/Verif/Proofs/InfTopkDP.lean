import Verif.Proofs.InfTopk
import Verif.Proofs.BatchDP
import Verif.Spec.Slots

/-! `kmax` and `topk` of dynamic programs of the form `BatchDP` whose potentials may be `-inf`. -/

open Finset Spec InfTopk

noncomputable section
namespace Generic

theorem sum_subtype_ite {ι A : Type} [Fintype ι] [AddCommMonoid A] (Q : ι → Prop) [DecidablePred Q] [Fintype {y // Q y}] (g : ι → A) :
    (∑ y, if Q y then g y else 0) = ∑ y : {y // Q y}, g y.1 := by
  rw [← sum_filter]
  exact Finset.sum_subtype _ (by simp) g

section kbest
variable {G : Type} [AddCommMonoid G] {score : G → EReal} {S : SR (List G)} {k : ℕ} {zz : G} {z : ℝ} (H : KSRE S score k zz z)
include H

theorem score_sumE (f : List ℕ → G) (r : List ℕ → ℝ) (m : Multiset (List ℕ)) (h : ∀ e ∈ m, score (f e) = r e) :
    score (m.map f).sum = ((m.map r).sum : ℝ) := by
  induction m using Multiset.induction_on with
  | empty => simp [H.score0]
  | cons e m ih =>
    simp only [Multiset.map_cons, Multiset.sum_cons, H.top.score_add]
    rw [ih fun e he => h e (Multiset.mem_cons_of_mem he), h e (Multiset.mem_cons_self e m), EReal.coe_add]

variable {row : (α : Type) → SR α → (List ℕ → α) → α} {b : ℕ} {E : List ℕ → Prop} {ι π : Type} [Fintype ι] [Fintype π]
  {parts : ι → Multiset (List ℕ)} {ones : ι → ℕ} {atoms : π → Multiset Atom} (D : RowDP row b E parts ones atoms)
include D

/-- The k best structures of a row without forbidden parts.  `F` holds the forbidden entries, `Q` the structures without them, `r` the other potentials. -/
theorem RowDP.kbestE (f : List ℕ → G) {x : List ℕ → List G} (hx : ∀ e, x e = ChainTop.headList k (f e) zz) {F : List ℕ → Prop} {r : List ℕ → ℝ}
    (hf : ∀ e, ¬ F e → score (f e) = r e) (hF : ∀ e, F e → score (f e) = ⊥) {Q : ι → Prop} [Fintype {y // Q y}] (hQ : ∀ y, Q y ↔ ∀ e ∈ parts y, ¬ F e)
    {n : ℕ} {B : ℝ} (hB : 0 ≤ B) (hr : ∀ e, E e → |r e| ≤ B) (hn : ∀ y, Multiset.card (parts y) ≤ n) (hn' : ∀ y, ((atoms y).map Atom.size).sum ≤ n)
    (hbig : 2 * n * B < -z) :
    ∃ ys : List {y // Q y}, ∃ l : List G, row _ S x = (ys.map fun y => ((parts y.1).map f).sum) ++ l ∧
      IsKBest (fun y : {y // Q y} => ((parts y.1).map r).sum) (min k (Fintype.card {y // Q y})) ys ∧ ∀ a ∈ l, score a ≤ ((z + n * B : ℝ) : EReal) := by
  classical
  have hadd := H.top.score_add
  have h0 := H.score0
  have hzl := H.zneg
  have hw : ∀ e, (S.setData (x e) S.zero).length = k ∧ ∀ a ∈ S.setData (x e) S.zero, score a = (z : ℝ) := by
    intro e
    have hl : (x e).length = k := by rw [hx]; simp [ChainTop.headList]
    exact ⟨H.set_len _ _ hl H.zero_len, H.mem_set hl⟩
  have ht := D.rel' (H.top.rel (z : ℝ)) H.tame (x := x) (wp := fun e => Bag.single (f e) + Bag.ofList (List.replicate (k - 1) zz))
    (wm := fun e => Bag.ofList (S.setData (x e) S.zero))
    (fun e _ => by
      rw [hx]
      exact headList_mostly H.top.pos _ zz H.scorez)
    (fun e => mostly_const _ _ (hw e).1 fun a ha => ((hw e).2 a ha).le)
  have le1 : ∀ {U : ℝ}, 0 ≤ U → ((z : ℝ) : EReal) ≤ ((z + U : ℝ) : EReal) := fun h => EReal.coe_le_coe_iff.2 (by linarith)
  have s1 : ∀ a : Atom, (∀ e, a = Atom.pot e → E e) → SplitE score z (a.size * B)
      (Atom.weight (fun e => if F e then 0 else Bag.single (f e)) (fun _ => 0) 0 1 a : Bag G)
      (Atom.weight (fun e => Bag.single (f e) + Bag.ofList (List.replicate (k - 1) zz)) (fun e => Bag.ofList (S.setData (x e) S.zero))
        (Bag.ofList (List.replicate k zz)) (1 + Bag.ofList (List.replicate (k - 1) zz)) a) := by
    intro a ha
    cases a with
    | pot e =>
      have he := ha e rfl
      by_cases hFe : F e
      · refine ⟨Bag.single (f e) + Bag.ofList (List.replicate (k - 1) zz), by simp [Atom.weight, hFe], by simp [Atom.weight, hFe], ?_⟩
        intro a ha
        rw [Bag.ms_add, Multiset.mem_add] at ha
        rcases ha with ha | ha
        · rw [Bag.ms_single, Multiset.mem_singleton] at ha
          rw [ha, hF e hFe]; exact bot_le
        · rw [H.mem_rep _ a ha]; exact le1 (mul_nonneg (Nat.cast_nonneg _) hB)
      · refine ⟨Bag.ofList (List.replicate (k - 1) zz), by simp [Atom.weight, hFe], ?_, ?_⟩
        · intro a ha
          simp only [Atom.weight, hFe, if_false, Bag.ms_single, Multiset.mem_singleton] at ha
          subst ha
          rw [hf e hFe]
          exact EReal.coe_le_coe_iff.2 (by simpa [Atom.size, Atom.weight] using (abs_le.1 (hr e he)).2)
        · intro a ha
          rw [H.mem_rep _ a ha]; exact le1 (mul_nonneg (Nat.cast_nonneg _) hB)
    | masked e =>
      refine ⟨Bag.ofList (S.setData (x e) S.zero), by simp [Atom.weight], by simp [Atom.weight], ?_⟩
      intro a ha
      rw [Bag.ms_ofList, Multiset.mem_coe] at ha
      rw [(hw e).2 a ha]; exact le1 (mul_nonneg (Nat.cast_nonneg _) hB)
    | zero =>
      refine ⟨Bag.ofList (List.replicate k zz), by simp [Atom.weight], by simp [Atom.weight], ?_⟩
      intro a ha
      rw [H.mem_rep _ a ha]; exact le1 (mul_nonneg (Nat.cast_nonneg _) hB)
    | one =>
      refine ⟨Bag.ofList (List.replicate (k - 1) zz), rfl, ?_, ?_⟩
      · intro a ha
        simp only [Atom.weight, Bag.ms_one, Multiset.mem_singleton] at ha
        subst ha; simp [h0, Atom.size, Atom.weight]
      · intro a ha
        rw [H.mem_rep _ a ha]; exact le1 (mul_nonneg (Nat.cast_nonneg _) hB)
  have hmem : ∀ t, ∀ a ∈ allAtoms parts ones atoms t, ∀ e, a = Atom.pot e → E e := by
    intro t a ha e hae
    subst hae
    cases t with
    | inl y =>
      simp only [allAtoms, Sum.elim_inl, Multiset.mem_add, Multiset.mem_map, Multiset.mem_replicate] at ha
      rcases ha with ⟨e', h1, h2⟩ | ⟨_, h2⟩
      · cases h2; exact D.partE y _ h1
      · cases h2
    | inr y => exact D.potE y e ha
  have s2 : ∀ t, SplitE score z (n * B)
      ((allAtoms parts ones atoms t).map (Atom.weight (fun e => if F e then 0 else Bag.single (f e)) (fun _ => 0) 0 1)).prod
      ((allAtoms parts ones atoms t).map (Atom.weight (fun e => Bag.single (f e) + Bag.ofList (List.replicate (k - 1) zz))
        (fun e => Bag.ofList (S.setData (x e) S.zero)) (Bag.ofList (List.replicate k zz))
        (1 + Bag.ofList (List.replicate (k - 1) zz)))).prod := by
    intro t
    refine SplitE.mono (SplitE.mprod hadd h0 hzl _ fun a ha => s1 a (hmem t a ha)) ?_
    have : ((allAtoms parts ones atoms t).map fun a : Atom => (a.size : ℝ) * B).sum =
        (((allAtoms parts ones atoms t).map Atom.size).sum : ℕ) * B := by
      induction (allAtoms parts ones atoms t) using Multiset.induction_on with
      | empty => simp
      | cons a m ih => simp only [Multiset.map_cons, Multiset.sum_cons, ih]; push_cast; ring
    rw [this]
    refine mul_le_mul_of_nonneg_right ?_ hB
    have : ((allAtoms parts ones atoms t).map Atom.size).sum ≤ n := by
      cases t with
      | inl y =>
        refine le_trans (le_of_eq ?_) (hn y)
        simp [allAtoms, Atom.size, Atom.weight, Function.comp_def]
      | inr y => exact hn' y
    exact_mod_cast this
  have s3 := SplitE.sum univ fun t _ => s2 t
  have e : ∑ t, ((allAtoms parts ones atoms t).map (Atom.weight (fun e => if F e then 0 else Bag.single (f e)) (fun _ => (0 : Bag G)) 0 1)).prod =
      ∑ y : {y // Q y}, Bag.single ((parts y.1).map f).sum := by
    rw [Fintype.sum_sum_type, sum_eq_zero (s := (univ : Finset π)), add_zero, ← sum_subtype_ite Q fun y => Bag.single ((parts y).map f).sum]
    · refine sum_congr rfl fun y _ => ?_
      rw [allAtoms_prod, one_pow, mul_one]
      by_cases hy : Q y
      · rw [if_pos hy, ← prod_single_bag]
        congr 1
        exact Multiset.map_congr rfl fun e he => if_neg ((hQ y).1 hy e he)
      · rw [if_neg hy]
        rw [hQ] at hy
        push Not at hy
        obtain ⟨e, he, hFe⟩ := hy
        exact Multiset.prod_eq_zero (Multiset.mem_map.2 ⟨e, he, if_pos hFe⟩)
    · intro y _
      obtain ⟨a, ha, hl⟩ := D.leak y
      refine Multiset.prod_eq_zero (Multiset.mem_map.2 ⟨a, ha, ?_⟩)
      cases a <;> first | rfl | exact hl.elim
  rw [e] at s3
  have hsc : ∀ y : {y // Q y}, score ((parts y.1).map f).sum = (((parts y.1).map r).sum : ℝ) :=
    fun y => score_sumE H f r _ fun e he => hf e ((hQ y.1).1 y.2 e he)
  have hsum : ∀ m : Multiset (List ℕ), (∀ e ∈ m, E e) → -(Multiset.card m * B) ≤ (m.map r).sum := by
    intro m hm
    induction m using Multiset.induction_on with
    | empty => simp
    | cons e m ih =>
      have h1 := ih fun e he => hm e (Multiset.mem_cons_of_mem he)
      have h2 := (abs_le.1 (hr e (hm e (Multiset.mem_cons_self e m)))).1
      simp only [Multiset.map_cons, Multiset.sum_cons, Multiset.card_cons]
      push_cast; linarith
  obtain ⟨l1, l2, h1, h2, h3⟩ := mostly_split H.top.pos ht s3 (by have := mul_nonneg (Nat.cast_nonneg (α := ℝ) n) hB; linarith) (by
    intro a ha
    obtain ⟨y, -, hy⟩ := Bag.mem_sum.1 ha
    rw [Bag.ms_single, Multiset.mem_singleton] at hy
    subst hy
    rw [hsc]
    have h1 := hsum (parts y.1) (D.partE y.1)
    have h2 : (Multiset.card (parts y.1) : ℝ) ≤ n := by exact_mod_cast hn y.1
    have h3 : (Multiset.card (parts y.1) : ℝ) * B ≤ n * B := mul_le_mul_of_nonneg_right h2 hB
    exact EReal.coe_lt_coe_iff.2 (by linarith))
  rw [ChainTop.card_family] at h2
  obtain ⟨ys, h4, h5⟩ := top_familyE hsc h2
  exact ⟨ys, l2, by rw [h1, h5], h4, h3⟩

omit [Fintype ι] [Fintype π] D H in
theorem mem_mprod {A : Type} (P : G → Prop) (hP : ∀ a b, P a → P b → P (a + b)) (hP0 : P 0) (m : Multiset A) (w : A → Bag G)
    (h : ∀ a ∈ m, ∀ g ∈ (w a).ms, P g) : ∀ g ∈ (m.map w).prod.ms, P g := by
  induction m using Multiset.induction_on with
  | empty => simpa using hP0
  | cons a m ih =>
    intro g hg
    rw [Multiset.map_cons, Multiset.prod_cons] at hg
    obtain ⟨u, hu, v, hv, rfl⟩ := Bag.mem_mul.1 hg
    exact hP _ _ (h a (Multiset.mem_cons_self a m) u hu) (ih (fun a ha => h a (Multiset.mem_cons_of_mem ha)) v hv)

/-- Every slot of a row is a sum of potentials of the row and of stand-ins. -/
theorem RowDP.memE (f : List ℕ → G) {x : List ℕ → List G} (hx : ∀ e, x e = ChainTop.headList k (f e) zz) (P : G → Prop)
    (hP : ∀ a b, P a → P b → P (a + b)) (hP0 : P 0) (hPz : P zz) (hPf : ∀ e, e.head? = some b → P (f e))
    (hPm : ∀ e, e.head? = some b → ∀ g ∈ S.setData (x e) S.zero, P g) : (row _ S x).length = k ∧ ∀ g ∈ row _ S x, P g := by
  have hw : ∀ e, (S.setData (x e) S.zero).length = k ∧ ∀ a ∈ S.setData (x e) S.zero, score a = (z : ℝ) := by
    intro e
    have hl : (x e).length = k := by rw [hx]; simp [ChainTop.headList]
    exact ⟨H.set_len _ _ hl H.zero_len, H.mem_set hl⟩
  obtain ⟨⟨rest, h1, h2, -⟩, -⟩ := D.rel' (H.top.rel (z : ℝ)) H.tame (x := x) (wp := fun e => Bag.single (f e) + Bag.ofList (List.replicate (k - 1) zz))
    (wm := fun e => Bag.ofList (S.setData (x e) S.zero))
    (fun e _ => by
      rw [hx]
      exact headList_mostly H.top.pos _ zz H.scorez)
    (fun e => mostly_const _ _ (hw e).1 fun a ha => ((hw e).2 a ha).le)
  refine ⟨h2, fun g hg => ?_⟩
  have hg' : g ∈ ((row (List G) S x : List G) : Multiset G) + rest := Multiset.mem_add.2 (Or.inl hg)
  rw [← h1] at hg'
  obtain ⟨t, -, ht⟩ := Bag.mem_sum.1 hg'
  have hrep : ∀ m, ∀ g ∈ (Bag.ofList (List.replicate m zz)).ms, P g := by
    intro m g hg
    rw [Bag.ms_ofList, Multiset.mem_coe] at hg
    rw [List.eq_of_mem_replicate hg]; exact hPz
  refine mem_mprod P hP hP0 _ _ (fun a ha => ?_) g ht
  have hpot : ∀ e, a = Atom.pot e → e.head? = some b := by
    rintro e rfl
    cases t with
    | inl y =>
      simp only [allAtoms, Sum.elim_inl, Multiset.mem_add, Multiset.mem_map, Multiset.mem_replicate] at ha
      rcases ha with ⟨e', h1, h2⟩ | ⟨_, h2⟩
      · cases h2; exact D.head _ (D.partE y _ h1)
      · cases h2
    | inr y => exact D.head _ (D.potE y e ha)
  have hmask : ∀ e, a = Atom.masked e → e.head? = some b := by
    rintro e rfl
    cases t with
    | inl y =>
      simp only [allAtoms, Sum.elim_inl, Multiset.mem_add, Multiset.mem_map, Multiset.mem_replicate] at ha
      rcases ha with ⟨e', h1, h2⟩ | ⟨_, h2⟩ <;> cases h2
    | inr y => exact D.headM y e ha
  intro g hg
  cases a with
  | pot e =>
    simp only [Atom.weight, Bag.ms_add, Multiset.mem_add, Bag.ms_single, Multiset.mem_singleton] at hg
    rcases hg with rfl | hg
    · exact hPf e (hpot e rfl)
    · exact hrep _ g hg
  | masked e => exact hPm e (hmask e rfl) g hg
  | zero => exact hrep _ g hg
  | one =>
    simp only [Atom.weight, Bag.ms_add, Multiset.mem_add, Bag.ms_one, Multiset.mem_singleton] at hg
    rcases hg with rfl | hg
    · exact hP0
    · exact hrep _ g hg

end kbest

/-- Gradients stay in their row. -/
theorem local_topk {k : ℕ} (hk : 0 < k) {sel : List (Autograd.GradE (List ℕ)) → List (Autograd.GradE (List ℕ))} (hsel : Autograd.IsTopkE Prod.fst k sel) (b : ℕ) :
    SRRel (Autograd.kmaxE k sel) fun (a : List (Autograd.GradE (List ℕ))) (_ : PUnit.{1}) =>
      a.length = k ∧ ∀ g ∈ a, ∀ e : List ℕ, e.head? ≠ some b → g.2 e = 0 where
  mul := by
    rintro a c _ _ ⟨la, ha⟩ ⟨lc, hc⟩
    obtain ⟨rest, h1, h2, -⟩ := hsel (a.flatMap fun x => c.map fun y => ((x.1 + y.1, x.2 + y.2) : Autograd.GradE (List ℕ))) (long_mul hk la lc)
    refine ⟨h2, fun g hg e he => ?_⟩
    have : g ∈ (a.flatMap fun x => c.map fun y => ((x.1 + y.1, x.2 + y.2) : Autograd.GradE (List ℕ)) : Multiset _) := by
      rw [h1]; exact Multiset.mem_add.2 (Or.inl hg)
    obtain ⟨x, hx, hg'⟩ := List.mem_flatMap.1 (Multiset.mem_coe.1 this)
    obtain ⟨y, hy, rfl⟩ := List.mem_map.1 hg'
    change x.2 e + y.2 e = 0
    rw [ha x hx e he, hc y hy e he, add_zero]
  sum := by
    intro as xs hne hf
    have hlen : ∀ a ∈ as, a.length = k := fun a ha => by
      obtain ⟨_, -, h⟩ := InfArgmax.forall₂_left hf a ha
      exact h.1
    obtain ⟨rest, h1, h2, -⟩ := hsel as.flatten (long_sum hne hlen)
    refine ⟨h2, fun g hg => ?_⟩
    have : g ∈ (as.flatten : Multiset _) := by
      rw [h1]; exact Multiset.mem_add.2 (Or.inl hg)
    obtain ⟨a, ha, hga⟩ := List.mem_flatten.1 (Multiset.mem_coe.1 this)
    obtain ⟨_, -, h⟩ := InfArgmax.forall₂_left hf a ha
    exact h.2 g hga

theorem zip_local {xs vs : List (Autograd.GradE (List ℕ))} {b : ℕ} (h : ∀ g ∈ xs, ∀ e : List ℕ, e.head? ≠ some b → g.2 e = 0) :
    ∀ g ∈ List.zipWith (fun x v : Autograd.GradE (List ℕ) => ((v.1, x.2) : Autograd.GradE (List ℕ))) xs vs, ∀ e : List ℕ, e.head? ≠ some b → g.2 e = 0 := by
  induction xs generalizing vs with
  | nil => simp
  | cons a l ih =>
    cases vs with
    | nil => simp
    | cons v vs =>
      intro g hg
      rw [List.zipWith_cons_cons, List.mem_cons] at hg
      rcases hg with rfl | hg
      · exact h a List.mem_cons_self
      · exact ih (fun g hg => h g (List.mem_cons_of_mem _ hg)) g hg

theorem detach_local (xs : List (Autograd.GradE (List ℕ))) (e : List ℕ) : ∀ g ∈ xs.map (fun x => ((x.1, 0) : Autograd.GradE (List ℕ))), g.2 e = 0 := by
  intro g hg
  obtain ⟨x, -, rfl⟩ := List.mem_map.1 hg
  rfl

theorem head_local {k : ℕ} {v : EReal} {e0 : List ℕ} {b : ℕ} (h : e0.head? = some b) :
    ∀ g ∈ Autograd.kmaxConvertE k v e0, ∀ e : List ℕ, e.head? ≠ some b → g.2 e = 0 := by
  intro g hg e he
  obtain ⟨i, -, rfl⟩ := List.mem_map.1 hg
  split_ifs
  · change (Pi.single e0 (1 : ℝ) : List ℕ → ℝ) e = 0
    rw [Pi.single_eq_of_ne]
    rintro rfl
    exact he h
  · rfl

theorem leafE_sum (v : List ℕ → EReal) (m : Multiset (List ℕ)) :
    (m.map fun e => (Autograd.leafE (v e) e : Autograd.GradE (List ℕ))).sum = ((m.map v).sum, fun e => (m.count e : ℝ)) := by
  induction m using Multiset.induction_on with
  | empty => simp; rfl
  | cons a m ih =>
    simp only [Multiset.map_cons, Multiset.sum_cons, ih]
    refine Prod.ext rfl ?_
    funext e
    change (Pi.single a (1 : ℝ) : List ℕ → ℝ) e + (m.count e : ℝ) = ((a ::ₘ m).count e : ℝ)
    rw [Multiset.count_cons, Pi.single_apply]
    push_cast
    rw [add_comm]

namespace BatchDP
variable {A : Algo} {lengths : Option (List ℕ)} {B : ℕ} {E : ℕ → List ℕ → Prop}
  {ι π : ℕ → Type} [∀ b, Fintype (ι b)] [∀ b, Fintype (π b)] {parts : ∀ b, ι b → Multiset (List ℕ)} {ones : ∀ b, ι b → ℕ}
  {atoms : ∀ b, π b → Multiset Atom} {p : A.T EReal} {val : List ℕ → EReal} (D : BatchDP A p lengths B val E parts ones atoms)
include D

/-- `kmax` and `topk` on potentials that may be `-inf`.  `F` holds the forbidden entries, `Q` the structures without them, `r` the other potentials. -/
theorem topkE_eq {F : List ℕ → Prop} {r : List ℕ → ℝ} (hv : ∀ e, ¬ F e → val e = r e) (hF : ∀ e, F e → val e = ⊥)
    {Q : ∀ b, ι b → Prop} [∀ b, Fintype {y // Q b y}] (hQ : ∀ b y, Q b y ↔ ∀ e ∈ parts b y, ¬ F e)
    {n : ℕ → ℕ} {M : ℕ → ℝ} (hs : ∀ b < B, Small r (E b) (parts b) (atoms b) (n b) (M b)) {k : ℕ} (hk : 0 < k)
    {sel : List (Autograd.GradE (List ℕ)) → List (Autograd.GradE (List ℕ))} (hsel : Autograd.IsTopkE Prod.fst k sel) :
    ∃ (vs : List (List EReal)) (μ : ℕ → List ℕ → ℝ), Dist.kmaxE A p lengths k = .ok vs ∧ vs.length = B ∧
      (∀ s < k, Dist.topkE A p lengths k sel s = .ok (μ s)) ∧
      ∀ b (hb : b < vs.length), ∃ ys : List {y // Q b y},
        Slots (fun y : {y // Q b y} => realScore (parts b) r y.1) k (-100000 + n b * M b) vs[b] ys ∧
        ∀ s (hs : s < ys.length), ∀ e : List ℕ, e.head? = some b → μ s e = (parts b ys[s].1).count e := by
  classical
  obtain ⟨row, h1, h2⟩ := D.rows
  have hval := h1 (Semirings.kmaxE k) fun v _ => Semirings.kmaxConvertE k v
  rw [D.map_fst (Semirings.kmaxConvertE k)] at hval
  have h := h1 (Autograd.kmaxE k sel) fun v e => Autograd.kmaxConvertE k v e
  refine ⟨_, _, hval, by simp, fun s _ => (congrArg (Except.map fun vs : List (List (Autograd.GradE (List ℕ))) => (vs.map fun row => (row.getD s (0, 0)).2).sum) h :), ?_⟩
  intro b hb
  have hb' : b < B := by simpa using hb
  have hsm := hs b hb'
  have hbig : 2 * (n b : ℝ) * M b < -(-100000) := by rw [neg_neg]; exact hsm.small
  obtain ⟨ys, l, a1, a2, a3⟩ := (h2 b hb').kbestE (ksrE_grad hk hsel) (fun e => Autograd.leafE (val e) e) (x := fun e => Autograd.kmaxConvertE k (val e) e)
    (fun _ => rfl) (F := F) (r := r) hv hF (hQ b) hsm.nonneg hsm.bound hsm.size hsm.sizeA hbig
  obtain ⟨ys', l', a1', a2', a3'⟩ := (h2 b hb').kbestE (ksrE_val hk) val (x := fun e => Semirings.kmaxConvertE k (val e))
    (fun _ => rfl) (F := F) (r := r) hv hF (hQ b) hsm.nonneg hsm.bound hsm.size hsm.sizeA hbig
  have hlen := ((h2 b hb').memE (ksrE_val hk) val (x := fun e => Semirings.kmaxConvertE k (val e)) (fun _ => rfl) (fun _ => True)
    (fun _ _ _ _ => trivial) trivial trivial (fun _ _ => trivial) (fun _ _ _ _ => trivial)).1
  have esc : ∀ y : {y // Q b y}, ((parts b y.1).map val).sum = (((parts b y.1).map r).sum : ℝ) :=
    fun y => score_sumE (ksrE_val hk) val r _ fun e he => hv e ((hQ b y.1).1 y.2 e he)
  simp only [leafE_sum] at a1
  have emap : (ys'.map fun y => ((parts b y.1).map val).sum) = ys.map fun y => ((realScore (parts b) r y.1 : ℝ) : EReal) := by
    have := a2'.unique a2
    simp only [esc]
    have h3 := congrArg (List.map fun x : ℝ => (x : EReal)) this
    rw [List.map_map, List.map_map] at h3
    exact h3
  have elen : ys'.length = ys.length := a2'.length.trans a2.length.symm
  refine ⟨ys, ⟨a2, ?_, ?_, ?_⟩, ?_⟩
  · simp only [List.getElem_map, List.getElem_range]
    exact hlen
  · intro i hi
    simp only [List.getElem_map, List.getElem_range]
    rw [a1', emap, List.getElem?_append_left (by simpa using hi)]
    simp [hi]
  · intro i hi x hx
    simp only [List.getElem_map, List.getElem_range] at hx
    rw [a1', List.getElem?_append_right (by simpa [elen] using hi)] at hx
    exact a3' x (List.mem_of_getElem? hx)
  · intro s hs' e he
    beta_reduce
    rw [List.map_map]
    have := gradE_head B (fun b => ((row b _ (Autograd.kmaxE k sel) (fun e => Autograd.kmaxConvertE k (val e) e)).getD s (0, 0))) b hb' e ?_
    · rw [List.map_map] at this
      refine this.trans ?_
      rw [a1, List.getD_eq_getElem _ _ (by rw [List.length_append, List.length_map]; omega), List.getElem_append_left (by simpa using hs'), List.getElem_map]
    · intro b' hb'' hne
      obtain ⟨-, hloc⟩ := (h2 b' hb'').memE (ksrE_grad hk hsel) (fun e => Autograd.leafE (val e) e) (x := fun e => Autograd.kmaxConvertE k (val e) e) (fun _ => rfl)
        (fun g => g.2 e = 0) (fun a c ha hc => by change a.2 e + c.2 e = 0; rw [ha, hc, add_zero]) rfl rfl
        (fun e0 h0 => by
          change (Pi.single e0 (1 : ℝ) : List ℕ → ℝ) e = 0
          rw [Pi.single_eq_of_ne]
          rintro rfl
          rw [he] at h0
          exact hne (Option.some.inj h0).symm)
        (fun e0 h0 g hg => zip_local (head_local h0) g hg e (by rw [he]; exact fun hc => hne (Option.some.inj hc).symm))
      by_cases hs'' : s < (row b' _ (Autograd.kmaxE k sel) (fun e => Autograd.kmaxConvertE k (val e) e)).length
      · rw [List.getD_eq_getElem _ _ hs'']
        exact hloc _ (List.getElem_mem hs'')
      · rw [List.getD_eq_default _ _ (by omega)]; rfl

end BatchDP
end Generic
