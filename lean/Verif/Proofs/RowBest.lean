import Verif.Proofs.RowValues

/-! The k best structures, and samples, of a dynamic program of the form `RowDP`. -/

open Finset Spec ChainTop

noncomputable section
namespace Generic

/-- A k-best semiring together with what it does to `.data`. -/
structure KSR' {G : Type} [AddCommMonoid G] (S : SR (List G)) (score : G → ℝ) (k : ℕ) (zz : G) (z : ℝ) : Prop extends KSR S score k zz z where
  raw : S.setData S.raw0 S.zero = S.zero
  dzz : S.detach (S.setData S.zero S.zero) = S.zero
  doz : S.detach (S.setData S.one S.zero) = S.zero

theorem ksr_kmax' {k : ℕ} (hk : 0 < k) : KSR' (Semirings.kmax k) id k Semirings.negInf (-100000) where
  toKSR := ksr_kmax hk
  raw := rfl
  dzz := rfl
  doz := rfl

theorem ksr_grad' {E : Type} {k : ℕ} (hk : 0 < k) {sel : List (Autograd.Grad E) → List (Autograd.Grad E)}
    (hsel : Autograd.IsTopk Prod.fst k sel) :
    KSR' (Autograd.kmax k sel) Prod.fst k ((Semirings.negInf, 0) : Autograd.Grad E) (-100000) where
  toKSR := ksr_grad hk hsel
  raw := by
    change List.zipWith Autograd.setData (List.replicate k _) (List.replicate k _) = List.replicate k _
    simp [Autograd.setData]
  dzz := by
    change (List.zipWith Autograd.setData (List.replicate k _) (List.replicate k _)).map Autograd.detach = List.replicate k _
    simp [Autograd.setData, Autograd.detach]
  doz := by
    change (List.zipWith Autograd.setData ((List.range k).map _) (List.replicate k _)).map Autograd.detach = List.replicate k _
    have : ∀ (l : List (Autograd.Grad E)) (v : Autograd.Grad E), (List.zipWith Autograd.setData l (List.replicate l.length v)).map
        Autograd.detach = List.replicate l.length (v.1, 0) := by
      intro l v
      induction l with
      | nil => rfl
      | cons a l ih => simp only [List.length_cons, List.replicate_succ, List.zipWith_cons_cons, List.map_cons, ih]; rfl
    have h := this ((List.range k).map fun i => if i = 0 then ((0, 0) : Autograd.Grad E) else (Semirings.negInf, 0)) (Semirings.negInf, 0)
    simp only [List.length_map, List.length_range] at h
    exact h

section kbest
variable {G : Type} [AddCommMonoid G] {score : G → ℝ} {S : SR (List G)} {k : ℕ} {zz : G} {z : ℝ} (H : KSR' S score k zz z)
include H

theorem KSR'.tame : Tame S (Bag.IsTop score k) (Bag.ofList (List.replicate k zz)) (1 + Bag.ofList (List.replicate (k - 1) zz)) := by
  have hz : Bag.IsTop score k S.zero (Bag.ofList (List.replicate k zz)) := by
    rw [H.zero]
    exact isTop_const score _ z k (by simp) fun a ha => by rw [List.eq_of_mem_replicate ha, H.scorez]
  have ho : Bag.IsTop score k S.one (1 + Bag.ofList (List.replicate (k - 1) zz)) := by
    rw [H.one]
    exact headList_top score k H.top.pos 0 zz (by rw [H.scorez, H.score0]; exact H.zneg)
  constructor
  case zero => exact hz
  case one => exact ho
  case keep => intro a x h; rw [H.set_self]; exact h
  case raw => rw [H.raw]; exact hz
  case dzz => rw [H.dzz]; exact hz
  case doz => rw [H.doz]; exact hz
  case dzk => rw [H.set_self, H.detach_zero]; exact hz
  case dok => rw [H.set_self, H.detach_one]; exact ho

omit H in
theorem Split.mono {U U' : ℝ} {r x : Bag G} (h : Split score z U r x) (hU : U ≤ U') : Split score z U' r x := by
  obtain ⟨p, h1, h2, h3⟩ := h
  exact ⟨p, h1, fun a ha => (h2 a ha).trans hU, fun a ha => (h3 a ha).trans (by linarith)⟩

omit H in
theorem Split.mprod (hadd : ∀ a b, score (a + b) = score a + score b) (h0 : score 0 = 0) (hz : z ≤ 0) {A : Type} (m : Multiset A)
    {U : A → ℝ} {r x : A → Bag G} (h : ∀ i ∈ m, Split score z (U i) (r i) (x i)) :
    Split score z (m.map U).sum (m.map r).prod (m.map x).prod := by
  induction m using Multiset.induction_on with
  | empty => simpa using Split.one h0
  | cons a m ih =>
    simp only [Multiset.map_cons, Multiset.prod_cons, Multiset.sum_cons]
    exact (h a (Multiset.mem_cons_self a m)).mul hadd hz (ih fun i hi => h i (Multiset.mem_cons_of_mem hi))

variable {row : (α : Type) → SR α → (List ℕ → α) → α} {b : ℕ} {E : List ℕ → Prop} {ι π : Type} [Fintype ι] [Fintype π]
  {parts : ι → Multiset (List ℕ)} {ones : ι → ℕ} {atoms : π → Multiset Atom} (D : RowDP row b E parts ones atoms)
include D

/-- The k best structures of a row. `n` bounds the number of potentials in a structure, `B` bounds the potentials. -/
theorem RowDP.kbest (f : List ℕ → G) {x : List ℕ → List G} (hx : ∀ e, x e = headList k (f e) zz) {n : ℕ} {B : ℝ} (hB : 0 ≤ B)
    (hf : ∀ e, E e → |score (f e)| ≤ B) (hn : ∀ y, Multiset.card (parts y) ≤ n) (hn' : ∀ y, ((atoms y).map Atom.size).sum ≤ n)
    (hbig : 2 * n * B < -z) (hzB : B ≤ -z) (hk : k ≤ Fintype.card ι) :
    Bag.IsTop score k (row _ S x) (∑ y, Bag.single ((parts y).map f).sum) := by
  have hadd := H.top.score_add
  have h0 := H.score0
  have hzl := H.zneg
  have hw : ∀ e, (S.setData (x e) S.zero).length = k ∧ ∀ a ∈ S.setData (x e) S.zero, score a = z := by
    intro e
    have hl : (x e).length = k := by rw [hx]; simp [headList]
    exact ⟨H.set_len _ _ hl H.zero_len, H.toKSR.mem_set hl⟩
  have ht := D.rel' H.top.rel H.tame (x := x) (wp := fun e => Bag.single (f e) + Bag.ofList (List.replicate (k - 1) zz))
    (wm := fun e => Bag.ofList (S.setData (x e) S.zero))
    (fun e he => by
      rw [hx]
      exact headList_top score k H.top.pos _ zz (by rw [H.scorez]; have := (abs_le.1 (hf e he)).1; linarith))
    (fun e => isTop_const score _ z k (hw e).1 (hw e).2)
  have hrep : ∀ m, ∀ a ∈ (Bag.ofList (List.replicate m zz)).ms, score a = z := by
    intro m a ha
    rw [Bag.ms_ofList, Multiset.mem_coe] at ha
    rw [List.eq_of_mem_replicate ha, H.scorez]
  have s1 : ∀ a : Atom, (∀ e, a = Atom.pot e → E e) → Split score z (a.size * B)
      (Atom.weight (fun e => Bag.single (f e)) (fun _ => 0) 0 1 a : Bag G)
      (Atom.weight (fun e => Bag.single (f e) + Bag.ofList (List.replicate (k - 1) zz)) (fun e => Bag.ofList (S.setData (x e) S.zero))
        (Bag.ofList (List.replicate k zz)) (1 + Bag.ofList (List.replicate (k - 1) zz)) a) := by
    intro a ha
    cases a with
    | pot e =>
      have he := ha e rfl
      refine ⟨Bag.ofList (List.replicate (k - 1) zz), rfl, ?_, ?_⟩
      · intro a ha
        simp only [Atom.weight, Bag.ms_single, Multiset.mem_singleton] at ha
        subst ha
        simpa [Atom.size, Atom.weight] using (abs_le.1 (hf e he)).2
      · intro a ha
        rw [hrep _ a ha]; simp [Atom.size, Atom.weight, hB]
    | masked e =>
      refine ⟨Bag.ofList (S.setData (x e) S.zero), by simp [Atom.weight], by simp [Atom.weight], ?_⟩
      intro a ha
      rw [Bag.ms_ofList, Multiset.mem_coe] at ha
      rw [(hw e).2 a ha]; simp [Atom.size, Atom.weight]
    | zero =>
      refine ⟨Bag.ofList (List.replicate k zz), by simp [Atom.weight], by simp [Atom.weight], ?_⟩
      intro a ha
      rw [hrep _ a ha]; simp [Atom.size, Atom.weight]
    | one =>
      refine ⟨Bag.ofList (List.replicate (k - 1) zz), rfl, ?_, ?_⟩
      · intro a ha
        simp only [Atom.weight, Bag.ms_one, Multiset.mem_singleton] at ha
        subst ha; simp [h0, Atom.size, Atom.weight]
      · intro a ha
        rw [hrep _ a ha]; simp [Atom.size, Atom.weight]
  have hmem : ∀ t, ∀ a ∈ allAtoms parts ones atoms t, ∀ e, a = Atom.pot e → E e := by
    intro t a ha e hae
    subst hae
    cases t with
    | inl y =>
      simp only [allAtoms, Sum.elim_inl, Multiset.mem_add, Multiset.mem_map, Multiset.mem_replicate] at ha
      rcases ha with ⟨e', h1, h2⟩ | ⟨_, h2⟩
      · cases h2; exact D.partE y _ h1
      · cases h2
    | inr y => exact D.potE y e ha
  have s2 : ∀ t, Split score z (n * B)
      ((allAtoms parts ones atoms t).map (Atom.weight (fun e => Bag.single (f e)) (fun _ => 0) 0 1)).prod
      ((allAtoms parts ones atoms t).map (Atom.weight (fun e => Bag.single (f e) + Bag.ofList (List.replicate (k - 1) zz))
        (fun e => Bag.ofList (S.setData (x e) S.zero)) (Bag.ofList (List.replicate k zz))
        (1 + Bag.ofList (List.replicate (k - 1) zz)))).prod := by
    intro t
    refine Split.mono (Split.mprod hadd h0 hzl _ fun a ha => s1 a (hmem t a ha)) ?_
    have : ((allAtoms parts ones atoms t).map fun a : Atom => (a.size : ℝ) * B).sum =
        (((allAtoms parts ones atoms t).map Atom.size).sum : ℕ) * B := by
      induction (allAtoms parts ones atoms t) using Multiset.induction_on with
      | empty => simp
      | cons a m ih => simp only [Multiset.map_cons, Multiset.sum_cons, ih]; push_cast; ring
    rw [this]
    refine mul_le_mul_of_nonneg_right ?_ hB
    have : ((allAtoms parts ones atoms t).map Atom.size).sum ≤ n := by
      cases t with
      | inl y =>
        refine le_trans (le_of_eq ?_) (hn y)
        simp [allAtoms, Atom.size, Atom.weight, Function.comp_def]
      | inr y => exact hn' y
    exact_mod_cast this
  have s3 := Split.sum univ fun t _ => s2 t
  have e : ∑ t, ((allAtoms parts ones atoms t).map (Atom.weight (fun e => Bag.single (f e)) (fun _ => (0 : Bag G)) 0 1)).prod =
      ∑ y, Bag.single ((parts y).map f).sum := by
    rw [Fintype.sum_sum_type, sum_eq_zero (s := (univ : Finset π)), add_zero]
    · refine sum_congr rfl fun y _ => ?_
      rw [allAtoms_prod, one_pow, mul_one, prod_single_bag]
    · intro y _
      obtain ⟨a, ha, hl⟩ := D.leak y
      refine Multiset.prod_eq_zero (Multiset.mem_map.2 ⟨a, ha, ?_⟩)
      cases a <;> first | rfl | exact hl.elim
  rw [e] at s3
  refine top_of_split ht s3 ?_ (by rw [card_family]; exact hk)
  intro a ha
  obtain ⟨y, -, hy⟩ := Bag.mem_sum.1 ha
  rw [Bag.ms_single, Multiset.mem_singleton] at hy
  subst hy
  have hsum : ∀ m : Multiset (List ℕ), (∀ e ∈ m, E e) → -(Multiset.card m * B) ≤ score (m.map f).sum := by
    intro m hm
    induction m using Multiset.induction_on with
    | empty => simp [h0]
    | cons e m ih =>
      have h1 := ih fun e he => hm e (Multiset.mem_cons_of_mem he)
      have h2 := (abs_le.1 (hf e (hm e (Multiset.mem_cons_self e m)))).1
      simp only [Multiset.map_cons, Multiset.sum_cons, hadd, Multiset.card_cons]
      push_cast; linarith
  have h1 := hsum (parts y) (D.partE y)
  have h2 : (Multiset.card (parts y) : ℝ) ≤ n := by exact_mod_cast hn y
  have h3 : (Multiset.card (parts y) : ℝ) * B ≤ n * B := mul_le_mul_of_nonneg_right h2 hB
  linarith

end kbest
end Generic
