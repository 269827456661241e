import Mathlib.Tactic.Linarith
import Verif.Proofs.ExactDP
import Verif.Proofs.Gibbs

/-! Dynamic programs of the form `BatchDP` some of whose parts are forbidden by potentials at or below the stand-in `zero`. -/

open Finset Spec ChainTop

noncomputable section
namespace Generic

/-- What the masks of one row satisfy: `A` holds the allowed entries, `M` bounds their potentials, forbidden ones are at or below the
stand-in, and `n` bounds the number of potentials in a structure.  `Q` holds the structures all of whose parts are allowed. -/
structure MaskRow (val : List ℕ → ℝ) (E A : List ℕ → Prop) {ι π : Type} (parts : ι → Multiset (List ℕ)) (atoms : π → Multiset Atom)
    (Q : ι → Prop) (n : ℕ) (M : ℝ) : Prop where
  nonneg : 0 ≤ M
  allowed : ∀ e, E e → A e → |val e| ≤ M
  forbidden : ∀ e, E e → ¬ A e → val e ≤ -100000
  size : ∀ y, Multiset.card (parts y) ≤ n
  sizeA : ∀ y, ((atoms y).map Atom.size).sum ≤ n
  small : 2 * n * M < 100000
  iff : ∀ y, Q y ↔ ∀ e ∈ parts y, A e

section row
variable {val : List ℕ → ℝ} {E A : List ℕ → Prop} {ι π : Type} {parts : ι → Multiset (List ℕ)} {ones : ι → ℕ} {atoms : π → Multiset Atom}
  {Q : ι → Prop} {n : ℕ} {M : ℝ} (h : MaskRow val E A parts atoms Q n M)
include h

theorem MaskRow.atom_le {a : Atom} (ha : ∀ e, a = Atom.pot e → E e) : a.score Semirings.negInf val ≤ a.size * M := by
  cases a with
  | pot e =>
    have he := ha e rfl
    have hM := h.nonneg
    simp only [Atom.score, Atom.size, Atom.weight, Nat.cast_one, one_mul]
    by_cases hA : A e
    · exact (abs_le.1 (h.allowed e he hA)).2
    · linarith [h.forbidden e he hA]
  | masked e => norm_num [Atom.score, Atom.size, Atom.weight, Semirings.negInf]
  | zero => norm_num [Atom.score, Atom.size, Atom.weight, Semirings.negInf]
  | one => norm_num [Atom.score, Atom.size, Atom.weight]

theorem MaskRow.sum_le (m : Multiset Atom) (hE : ∀ e, Atom.pot e ∈ m → E e) :
    (m.map (Atom.score Semirings.negInf val)).sum ≤ ((m.map Atom.size).sum : ℕ) * M := by
  induction m using Multiset.induction_on with
  | empty => simp
  | cons a m ih =>
    simp only [Multiset.map_cons, Multiset.sum_cons]
    push_cast
    have h1 := ih fun e he => hE e (Multiset.mem_cons_of_mem he)
    have h2 := h.atom_le (a := a) fun e he => hE e (he ▸ Multiset.mem_cons_self a m)
    push_cast at h1
    linarith

theorem MaskRow.low (m : Multiset Atom) (hE : ∀ e, Atom.pot e ∈ m → E e) (hn : (m.map Atom.size).sum ≤ n)
    (hbad : ∃ a ∈ m, a.score Semirings.negInf val ≤ -100000) : (m.map (Atom.score Semirings.negInf val)).sum ≤ -100000 + n * M := by
  obtain ⟨a, ha, hs⟩ := hbad
  obtain ⟨m, rfl⟩ := Multiset.exists_cons_of_mem ha
  simp only [Multiset.map_cons, Multiset.sum_cons] at hn ⊢
  have h1 := h.sum_le m fun e he => hE e (Multiset.mem_cons_of_mem he)
  have h2 : ((m.map Atom.size).sum : ℝ) ≤ n := by exact_mod_cast (by omega : (m.map Atom.size).sum ≤ n)
  have h3 := mul_le_mul_of_nonneg_right h2 h.nonneg
  linarith

theorem MaskRow.ph_low (hE : ∀ x, ∀ e, Atom.pot e ∈ atoms x → E e) (hl : ∀ x, ∃ a ∈ atoms x, a.leak) (x : π) :
    phScore atoms Semirings.negInf val x ≤ -100000 + n * M := by
  refine h.low _ (hE x) (h.sizeA x) ?_
  obtain ⟨a, ha, hl⟩ := hl x
  refine ⟨a, ha, ?_⟩
  cases a <;> first | exact hl.elim | norm_num [Atom.score, Atom.weight, Semirings.negInf]

theorem MaskRow.real_low (hE : ∀ y, ∀ e ∈ parts y, E e) (y : ι) (hy : ¬ Q y) : realScore parts val y ≤ -100000 + n * M := by
  have := h.low ((parts y).map Atom.pot) (fun e he => by
    obtain ⟨e', h1, h2⟩ := Multiset.mem_map.1 he
    cases h2; exact hE y _ h1) (by
      refine le_trans (le_of_eq ?_) (h.size y)
      simp [Atom.size, Atom.weight, Function.comp_def]) (by
      rw [h.iff] at hy
      push Not at hy
      obtain ⟨e, he, hA⟩ := hy
      exact ⟨Atom.pot e, Multiset.mem_map_of_mem _ he, h.forbidden e (hE y e he) hA⟩)
  rw [Multiset.map_map] at this
  exact this

theorem MaskRow.real_high (hE : ∀ y, ∀ e ∈ parts y, E e) (y : ι) (hy : Q y) : -(n * M) ≤ realScore parts val y := by
  have hsum : ∀ m : Multiset (List ℕ), (∀ e ∈ m, E e ∧ A e) → -(Multiset.card m * M) ≤ (m.map val).sum := by
    intro m hm
    induction m using Multiset.induction_on with
    | empty => simp
    | cons e m ih =>
      have h1 := ih fun e he => hm e (Multiset.mem_cons_of_mem he)
      have h2 := hm e (Multiset.mem_cons_self e m)
      have h3 := (abs_le.1 (h.allowed e h2.1 h2.2)).1
      simp only [Multiset.map_cons, Multiset.sum_cons, Multiset.card_cons]
      push_cast; linarith
  have h1 := hsum (parts y) fun e he => ⟨hE y e he, (h.iff y).1 hy e he⟩
  have h2 : (Multiset.card (parts y) : ℝ) ≤ n := by exact_mod_cast h.size y
  have h3 := mul_le_mul_of_nonneg_right h2 h.nonneg
  rw [realScore]
  linarith

end row

section gibbs
variable {ι π : Type} [Fintype ι] [Fintype π] (Q : ι → Prop) [DecidablePred Q]

/-- The other structures: the forbidden ones and the phantoms. -/
def splitEquiv : {y // Q y} ⊕ ({y // ¬ Q y} ⊕ π) ≃ ι ⊕ π :=
  (Equiv.sumAssoc _ _ _).symm.trans ((Equiv.sumCompl Q).sumCongr (Equiv.refl π))

theorem split_elim {X : Type} (s : ι → X) (ph : π → X) : Sum.elim s ph ∘ splitEquiv Q =
    Sum.elim (fun y : {y // Q y} => s y.1) (Sum.elim (fun y : {y // ¬ Q y} => s y.1) ph) := by
  funext t
  rcases t with y | y | x <;> simp [splitEquiv]

theorem Z_comp {ι ι' : Type} [Fintype ι] [Fintype ι'] (e : ι' ≃ ι) (s : ι → ℝ) : Gibbs.Z (s ∘ e) = Gibbs.Z s :=
  e.sum_comp fun y => Real.exp (s y)

theorem expect_comp {ι ι' : Type} [Fintype ι] [Fintype ι'] (e : ι' ≃ ι) (s f : ι → ℝ) : Gibbs.expect (s ∘ e) (f ∘ e) = Gibbs.expect s f := by
  have : Gibbs.expect (s ∘ e) (f ∘ e) = ∑ y, Gibbs.prob s (e y) * f (e y) := by
    simp only [Gibbs.expect, Gibbs.prob, Z_comp]; rfl
  rw [this]
  exact e.sum_comp fun y => Gibbs.prob s y * f y

theorem card_split : Fintype.card ({y // ¬ Q y} ⊕ π) ≤ Fintype.card ι + Fintype.card π := by
  rw [Fintype.card_sum]
  exact Nat.add_le_add_right (Fintype.card_subtype_le _) _

end gibbs

section kbest
variable {G : Type} [AddCommMonoid G] {score : G → ℝ} {S : SR (List G)} {k : ℕ} {zz : G} {z : ℝ} (H : KSR' S score k zz z)

/-- The best `k`, in order unless something is below the stand-in. -/
def NearTop (score : G → ℝ) (k : ℕ) (z : ℝ) (l : List G) (x : Bag G) : Prop :=
  Bag.IsTopU score k l x ∧ (l.Pairwise (fun a b => score b ≤ score a) ∨ ∃ a ∈ l, score a < z)

theorem NearTop.of_top {l : List G} {x : Bag G} (h : Bag.IsTop score k l x) : NearTop score k z l x :=
  ⟨h.unsorted, Or.inl (by obtain ⟨_, _, _, h, _⟩ := h; exact h)⟩

include H

theorem KSR'.nearRel : SRRel S (NearTop score k z) where
  mul hx hy := .of_top (H.top.mul_of hx.1 hy.1)
  sum hne hf := .of_top (H.top.sum_of hne (hf.imp fun _ _ h => h.1))

theorem KSR'.nearTame : Tame S (NearTop score k z) (Bag.ofList (List.replicate k zz)) (1 + Bag.ofList (List.replicate (k - 1) zz)) := by
  have T := H.tame
  constructor
  case zero => exact .of_top T.zero
  case one => exact .of_top T.one
  case keep => intro a x h; rw [H.set_self]; exact h
  case raw => exact .of_top T.raw
  case dzz => exact .of_top T.dzz
  case doz => exact .of_top T.doz
  case dzk => exact .of_top T.dzk
  case dok => exact .of_top T.dok

variable {row : (α : Type) → SR α → (List ℕ → α) → α} {b : ℕ} {E : List ℕ → Prop} {ι π : Type} [Fintype ι] [Fintype π]
  {parts : ι → Multiset (List ℕ)} {ones : ι → ℕ} {atoms : π → Multiset Atom} (D : RowDP row b E parts ones atoms)
include D

open Classical in
/-- The k best structures without forbidden parts of a row. -/
theorem RowDP.kbest_masked (f : List ℕ → G) {x : List ℕ → List G} (hx : ∀ e, x e = headList k (f e) zz) {A : List ℕ → Prop} {Q : ι → Prop}
    [DecidablePred Q] {n : ℕ} {M : ℝ} (hz : z = -100000) (hm : MaskRow (fun e => score (f e)) E A parts atoms Q n M)
    (hk : k ≤ Fintype.card {y // Q y}) :
    Bag.IsTop score k (row _ S x) (∑ y : {y // Q y}, Bag.single ((parts y.1).map f).sum) := by
  have hadd := H.top.score_add
  have h0 := H.score0
  have hzl := H.zneg
  have hB := hm.nonneg
  have hw : ∀ e, (S.setData (x e) S.zero).length = k ∧ ∀ a ∈ S.setData (x e) S.zero, score a = z := by
    intro e
    have hl : (x e).length = k := by rw [hx]; simp [headList]
    exact ⟨H.set_len _ _ hl H.zero_len, H.toKSR.mem_set hl⟩
  have hhead : ∀ e, headList k (f e) zz = f e :: List.replicate (k - 1) zz := fun e => by
    have := H.top.pos
    obtain ⟨m, rfl⟩ : ∃ m, k = m + 1 := ⟨k - 1, by omega⟩
    simp [headList, List.range_succ_eq_map, Function.comp_def, List.map_const']
  have ht := D.rel' H.nearRel H.nearTame (x := x) (wp := fun e => Bag.single (f e) + Bag.ofList (List.replicate (k - 1) zz))
    (wm := fun e => Bag.ofList (S.setData (x e) S.zero))
    (fun e he => by
      rw [hx]
      by_cases hlt : score (f e) < z
      · refine ⟨⟨0, ?_, by simp [headList], by simp⟩, Or.inr ⟨f e, by rw [hhead]; exact List.mem_cons_self, hlt⟩⟩
        rw [hhead, add_zero]; rfl
      · exact .of_top (headList_top score k H.top.pos _ zz (by rw [H.scorez]; linarith)))
    (fun e => .of_top (isTop_const score _ z k (hw e).1 (hw e).2))
  have hrep : ∀ m, ∀ a ∈ (Bag.ofList (List.replicate m zz)).ms, score a = z := by
    intro m a ha
    rw [Bag.ms_ofList, Multiset.mem_coe] at ha
    rw [List.eq_of_mem_replicate ha, H.scorez]
  have s1 : ∀ a : Atom, (∀ e, a = Atom.pot e → E e) → Split score z (a.size * M)
      (Atom.weight (fun e => if A e then Bag.single (f e) else 0) (fun _ => 0) 0 1 a : Bag G)
      (Atom.weight (fun e => Bag.single (f e) + Bag.ofList (List.replicate (k - 1) zz)) (fun e => Bag.ofList (S.setData (x e) S.zero))
        (Bag.ofList (List.replicate k zz)) (1 + Bag.ofList (List.replicate (k - 1) zz)) a) := by
    intro a ha
    cases a with
    | pot e =>
      have he := ha e rfl
      simp only [Atom.weight, Atom.size, Nat.cast_one, one_mul]
      by_cases hA : A e
      · rw [if_pos hA]
        refine ⟨Bag.ofList (List.replicate (k - 1) zz), rfl, ?_, ?_⟩
        · intro a ha
          rw [Bag.ms_single, Multiset.mem_singleton] at ha
          subst ha
          exact (abs_le.1 (hm.allowed e he hA)).2
        · intro a ha
          rw [hrep _ a ha]; linarith
      · rw [if_neg hA]
        refine ⟨_, (zero_add _).symm, by simp, ?_⟩
        intro a ha
        rw [Bag.ms_add, Multiset.mem_add, Bag.ms_single, Multiset.mem_singleton] at ha
        rcases ha with ha | ha
        · rw [ha]; have := hm.forbidden e he hA; rw [hz]; linarith
        · rw [hrep _ a ha]; linarith
    | masked e =>
      refine ⟨Bag.ofList (S.setData (x e) S.zero), by simp [Atom.weight], by simp [Atom.weight], ?_⟩
      intro a ha
      rw [Bag.ms_ofList, Multiset.mem_coe] at ha
      rw [(hw e).2 a ha]; simp [Atom.size, Atom.weight]
    | zero =>
      refine ⟨Bag.ofList (List.replicate k zz), by simp [Atom.weight], by simp [Atom.weight], ?_⟩
      intro a ha
      rw [hrep _ a ha]; simp [Atom.size, Atom.weight]
    | one =>
      refine ⟨Bag.ofList (List.replicate (k - 1) zz), rfl, ?_, ?_⟩
      · intro a ha
        simp only [Atom.weight, Bag.ms_one, Multiset.mem_singleton] at ha
        subst ha; simp [h0, Atom.size, Atom.weight]
      · intro a ha
        rw [hrep _ a ha]; simp [Atom.size, Atom.weight]
  have hmem : ∀ t, ∀ a ∈ allAtoms parts ones atoms t, ∀ e, a = Atom.pot e → E e := by
    intro t a ha e hae
    subst hae
    cases t with
    | inl y =>
      simp only [allAtoms, Sum.elim_inl, Multiset.mem_add, Multiset.mem_map, Multiset.mem_replicate] at ha
      rcases ha with ⟨e', h1, h2⟩ | ⟨_, h2⟩
      · cases h2; exact D.partE y _ h1
      · cases h2
    | inr y => exact D.potE y e ha
  have s2 : ∀ t, Split score z (n * M)
      ((allAtoms parts ones atoms t).map (Atom.weight (fun e => if A e then Bag.single (f e) else 0) (fun _ => 0) 0 1)).prod
      ((allAtoms parts ones atoms t).map (Atom.weight (fun e => Bag.single (f e) + Bag.ofList (List.replicate (k - 1) zz))
        (fun e => Bag.ofList (S.setData (x e) S.zero)) (Bag.ofList (List.replicate k zz))
        (1 + Bag.ofList (List.replicate (k - 1) zz)))).prod := by
    intro t
    refine Split.mono (Split.mprod hadd h0 hzl _ fun a ha => s1 a (hmem t a ha)) ?_
    have : ((allAtoms parts ones atoms t).map fun a : Atom => (a.size : ℝ) * M).sum =
        (((allAtoms parts ones atoms t).map Atom.size).sum : ℕ) * M := by
      induction (allAtoms parts ones atoms t) using Multiset.induction_on with
      | empty => simp
      | cons a m ih => simp only [Multiset.map_cons, Multiset.sum_cons, ih]; push_cast; ring
    rw [this]
    refine mul_le_mul_of_nonneg_right ?_ hB
    have : ((allAtoms parts ones atoms t).map Atom.size).sum ≤ n := by
      cases t with
      | inl y =>
        refine le_trans (le_of_eq ?_) (hm.size y)
        simp [allAtoms, Atom.size, Atom.weight, Function.comp_def]
      | inr y => exact hm.sizeA y
    exact_mod_cast this
  have s3 := Split.sum univ fun t _ => s2 t
  have hprod : ∀ m : Multiset (List ℕ), (m.map fun e => if A e then Bag.single (f e) else 0).prod =
      if ∀ e ∈ m, A e then Bag.single (m.map f).sum else 0 := by
    intro m
    induction m using Multiset.induction_on with
    | empty => simp [Bag.single_zero]
    | cons e m ih =>
      rw [Multiset.map_cons, Multiset.prod_cons, ih, Multiset.map_cons, Multiset.sum_cons]
      by_cases hA : A e <;> by_cases hA' : ∀ e ∈ m, A e
      · rw [if_pos hA, if_pos hA', if_pos (by simpa [hA] using hA'), Bag.single_mul]
      · rw [if_neg hA', mul_zero, if_neg (fun hc => hA' fun e he => hc e (Multiset.mem_cons_of_mem he))]
      · rw [if_neg hA, zero_mul, if_neg (fun hc => hA (hc e (Multiset.mem_cons_self e m)))]
      · rw [if_neg hA, zero_mul, if_neg (fun hc => hA (hc e (Multiset.mem_cons_self e m)))]
  have e : ∑ t, ((allAtoms parts ones atoms t).map (Atom.weight (fun e => if A e then Bag.single (f e) else 0) (fun _ => (0 : Bag G)) 0 1)).prod =
      ∑ y : {y // Q y}, Bag.single ((parts y.1).map f).sum := by
    rw [Fintype.sum_sum_type, sum_eq_zero (s := (univ : Finset π)), add_zero]
    · have : ∀ y, ((allAtoms parts ones atoms (Sum.inl y)).map
          (Atom.weight (fun e => if A e then Bag.single (f e) else 0) (fun _ => (0 : Bag G)) 0 1)).prod =
          if Q y then Bag.single ((parts y).map f).sum else 0 := by
        intro y
        rw [allAtoms_prod, one_pow, mul_one, hprod]
        simp only [← hm.iff]
      simp only [this]
      rw [← sum_filter]
      exact sum_subtype _ (fun y => by simp) _
    · intro y _
      obtain ⟨a, ha, hl⟩ := D.leak y
      refine Multiset.prod_eq_zero (Multiset.mem_map.2 ⟨a, ha, ?_⟩)
      cases a <;> first | rfl | exact hl.elim
  rw [e] at s3
  obtain ⟨⟨rest, h1, h2, h3⟩, h4⟩ := topU_of_split ht.1 s3 (by
    intro a ha
    obtain ⟨y, -, hy⟩ := Bag.mem_sum.1 ha
    rw [Bag.ms_single, Multiset.mem_singleton] at hy
    subst hy
    have h1 := hm.real_high D.partE y.1 y.2
    have h2 : score ((parts y.1).map f).sum = realScore parts (fun e => score (f e)) y.1 := by
      rw [realScore]
      have := map_multiset_sum (⟨⟨score, h0⟩, hadd⟩ : G →+ ℝ) ((parts y.1).map f)
      rw [Multiset.map_map] at this
      exact this
    rw [h2, hz]
    linarith [hm.small]) (by rw [card_family]; exact hk)
  refine ⟨rest, h1, h2, ?_, h3⟩
  rcases ht.2 with hs | ⟨a, ha, hlt⟩
  · exact hs
  · have := h4 a ha
    have : (0 : ℝ) ≤ n * M := by positivity
    linarith

end kbest

namespace BatchDP
variable {alg : Algo} {lengths : Option (List ℕ)} {B : ℕ} {E A : ℕ → List ℕ → Prop}
  {ι π : ℕ → Type} [∀ b, Fintype (ι b)] [∀ b, Fintype (π b)] {parts : ∀ b, ι b → Multiset (List ℕ)} {ones : ∀ b, ι b → ℕ}
  {atoms : ∀ b, π b → Multiset Atom} {p : alg.T ℝ} {val : List ℕ → ℝ} (D : BatchDP alg p lengths B val E parts ones atoms)
  {Q : ∀ b, ι b → Prop} [dq : ∀ b, DecidablePred (Q b)] {n : ℕ → ℕ} {M : ℕ → ℝ}
  (hm : ∀ b < B, MaskRow val (E b) (A b) (parts b) (atoms b) (Q b) (n b) (M b))
include D hm

theorem lows (b : ℕ) (hb : b < B) : (∀ x, phScore (atoms b) Semirings.negInf val x ≤ -100000 + n b * M b) ∧
    (∀ y, ¬ Q b y → realScore (parts b) val y ≤ -100000 + n b * M b) ∧ (∀ y, Q b y → -(n b * M b) ≤ realScore (parts b) val y) := by
  obtain ⟨row, -, h2⟩ := D.rows
  have R := h2 b hb
  exact ⟨(hm b hb).ph_low R.potE R.leak, (hm b hb).real_low R.partE, (hm b hb).real_high R.partE⟩

/-- A best structure is allowed. -/
theorem best_masked (b : ℕ) (hb : b < B) (hne : Nonempty {y // Q b y}) (t : ι b ⊕ π b)
    (ht : ∀ t', tot (parts b) (atoms b) Semirings.negInf val t' ≤ tot (parts b) (atoms b) Semirings.negInf val t) :
    ∃ y : {y // Q b y}, t = Sum.inl y.1 := by
  obtain ⟨h1, h2, h3⟩ := D.lows hm b hb
  obtain ⟨y⟩ := hne
  have h4 : realScore (parts b) val y.1 ≤ _ := ht (Sum.inl y.1)
  have h5 := h3 y.1 y.2
  have h6 := (hm b hb).small
  cases t with
  | inl y' =>
    by_cases hq : Q b y'
    · exact ⟨⟨y', hq⟩, rfl⟩
    · have := h2 y' hq
      change realScore (parts b) val y.1 ≤ realScore (parts b) val y' at h4
      linarith
  | inr x =>
    have := h1 x
    change realScore (parts b) val y.1 ≤ phScore (atoms b) Semirings.negInf val x at h4
    linarith

theorem argmax_masked (hne : ∀ b < B, Nonempty {y // Q b y}) {pick : List (Autograd.Grad (List ℕ)) → Autograd.Grad (List ℕ)}
    (hp : Autograd.IsArgmax Prod.fst pick) :
    ∃ μ vs, Dist.argmax alg p lengths pick = .ok μ ∧ Dist.max alg p lengths = .ok vs ∧ vs.length = B ∧ ∀ b (hb : b < vs.length),
      ∃ y : {y // Q b y}, vs[b] = realScore (parts b) val y.1 ∧ (∀ y' : {y // Q b y}, realScore (parts b) val y'.1 ≤ vs[b]) ∧
        ∀ e : List ℕ, e.head? = some b → μ e = (parts b y.1).count e := by
  obtain ⟨μ, h1, h2⟩ := D.argmax_eq hp
  obtain ⟨vs, h3, h4, h5⟩ := D.max_eq
  refine ⟨μ, vs, h1, h3, h4, fun b hb => ?_⟩
  have hb' : b < B := by omega
  obtain ⟨t, h6, h7⟩ := h2 b hb'
  obtain ⟨⟨t', h8⟩, h9⟩ := h5 b hb
  obtain ⟨y, rfl⟩ := D.best_masked hm b hb' (hne b hb') t h6
  have e : vs[b] = realScore (parts b) val y.1 := le_antisymm (by rw [h8]; exact h6 t') (h9 (Sum.inl y.1))
  refine ⟨y, e, fun y' => h9 (Sum.inl y'.1), fun e he => ?_⟩
  rw [h7 e he, RowDP.links_inl]

/-- How far forbidden parts and the stand-in can move the results of a row. -/
theorem excess_masked (b : ℕ) (hb : b < B) (hne : Nonempty {y // Q b y}) :
    Gibbs.excess (fun y : {y // Q b y} => realScore (parts b) val y.1)
      (Sum.elim (fun y : {y // ¬ Q b y} => realScore (parts b) val y.1) (phScore (atoms b) Semirings.negInf val)) ≤
      (Fintype.card (ι b) + Fintype.card (π b) : ℕ) * Real.exp (2 * n b * M b - 100000) := by
  obtain ⟨h1, h2, h3⟩ := D.lows hm b hb
  refine (Gibbs.excess_le _ _ (fun y : {y // Q b y} => h3 y.1 y.2) (U := -100000 + n b * M b) ?_).trans ?_
  · rintro (y | x)
    exacts [h2 y.1 y.2, h1 x]
  · have e : -100000 + n b * M b - -(n b * M b) = 2 * n b * M b - 100000 := by ring
    rw [e]
    exact mul_le_mul_of_nonneg_right (by exact_mod_cast card_split (Q b)) (Real.exp_nonneg _)

theorem partition_masked (hne : ∀ b < B, Nonempty {y // Q b y}) :
    ∃ vs, Dist.partition alg p lengths = .ok vs ∧ vs.length = B ∧ ∀ b (hb : b < vs.length),
      let truth := Real.log (∑ y : {y // Q b y}, Real.exp (realScore (parts b) val y.1))
      truth ≤ vs[b] ∧ vs[b] ≤ truth + (Fintype.card (ι b) + Fintype.card (π b) : ℕ) * Real.exp (2 * n b * M b - 100000) := by
  refine ⟨_, D.partition_eq, by simp, fun b hb => ?_⟩
  have hb' : b < B := by simpa using hb
  have := hne b hb'
  rw [getElem_map_range, tot, ← Z_comp (splitEquiv (Q b)), split_elim, Gibbs.log_Z_elim]
  have h1 := Gibbs.log_one_add_excess (fun y : {y // Q b y} => realScore (parts b) val y.1)
    (Sum.elim (fun y : {y // ¬ Q b y} => realScore (parts b) val y.1) (phScore (atoms b) Semirings.negInf val))
  exact ⟨le_add_of_nonneg_right h1.1, (add_le_add_iff_left _).2 (h1.2.trans (D.excess_masked hm b hb' this))⟩

theorem marginals_masked (hne : ∀ b < B, Nonempty {y // Q b y}) {c : ℕ} (h1 : ∀ b < B, ∀ e y, (parts b y).count e ≤ c)
    (h1' : ∀ b < B, ∀ e y, ((atoms b y).filterMap Atom.link).count e ≤ c) :
    ∃ μ, Dist.marginals alg p lengths = .ok μ ∧ ∀ b < B, ∀ e : List ℕ, e.head? = some b →
    |μ e - Gibbs.expect (fun y : {y // Q b y} => realScore (parts b) val y.1) fun y => (parts b y.1).count e| ≤
      (Fintype.card (ι b) + Fintype.card (π b) : ℕ) * Real.exp (2 * n b * M b - 100000) * c := by
  obtain ⟨μ, h2, h3⟩ := D.marginals_eq
  refine ⟨μ, h2, fun b hb e he => ?_⟩
  have := hne b hb
  rw [h3 b hb e he, tot, ← expect_comp (splitEquiv (Q b)), split_elim]
  have ef : (fun t => (((allAtoms (parts b) (ones b) (atoms b) t).filterMap Atom.link).count e : ℝ)) =
      Sum.elim (fun y => ((parts b y).count e : ℝ)) (fun y => (((atoms b y).filterMap Atom.link).count e : ℝ)) := by
    funext t
    cases t with
    | inl y => rw [RowDP.links_inl]; rfl
    | inr y => rfl
  rw [ef, split_elim]
  refine (Gibbs.expect_elim_sub_nonneg _ _ _ _ (D := c) (fun y => ⟨Nat.cast_nonneg _, by exact_mod_cast h1 b hb e y.1⟩) ?_).trans ?_
  · rintro (y | x)
    · exact ⟨Nat.cast_nonneg _, (by exact_mod_cast h1 b hb e y.1 : ((parts b y.1).count e : ℝ) ≤ c)⟩
    · exact ⟨Nat.cast_nonneg _, (by exact_mod_cast h1' b hb e x : (((atoms b x).filterMap Atom.link).count e : ℝ) ≤ c)⟩
  · exact mul_le_mul_of_nonneg_right (D.excess_masked hm b hb this) (Nat.cast_nonneg _)

theorem kmax_masked {k : ℕ} (hk : 0 < k) (hc : ∀ b < B, k ≤ Fintype.card {y // Q b y}) :
    ∃ vs : List (List ℝ), Dist.kmax alg p lengths k = .ok vs ∧ vs.length = B ∧
      ∀ b (hb : b < vs.length), ∃ ys : List {y // Q b y}, IsKBest (fun y : {y // Q b y} => realScore (parts b) val y.1) k ys ∧
        vs[b] = ys.map (fun y => realScore (parts b) val y.1) := by
  classical
  obtain ⟨row, h1, h2⟩ := D.rows
  have hv := h1 (Semirings.kmax k) fun v _ => Semirings.kmaxConvert k v
  rw [D.map_fst (Semirings.kmaxConvert k)] at hv
  refine ⟨_, hv, by simp, fun b hb => ?_⟩
  have hb' : b < B := by simpa using hb
  have := (h2 b hb').kbest_masked (ksr_kmax' hk) val (x := fun e => Semirings.kmaxConvert k (val e)) (fun _ => rfl) rfl (hm b hb') (hc b hb')
  obtain ⟨ys, a1, a2, a3, a4, a5⟩ := top_family this
  refine ⟨ys, ⟨a1, a2, a4, a5⟩, ?_⟩
  simp only [List.getElem_map, List.getElem_range]
  exact a3

theorem topk_masked {k : ℕ} (hk : 0 < k) (hc : ∀ b < B, k ≤ Fintype.card {y // Q b y})
    {sel : List (Autograd.Grad (List ℕ)) → List (Autograd.Grad (List ℕ))} (hsel : Autograd.IsTopk Prod.fst k sel) :
    ∃ (vs : List (List ℝ)) (μ : ℕ → List ℕ → ℝ), Dist.kmax alg p lengths k = .ok vs ∧ vs.length = B ∧
      (∀ s < k, Dist.topk alg p lengths k sel s = .ok (μ s)) ∧
      ∀ b (hb : b < vs.length), ∃ ys : List {y // Q b y}, IsKBest (fun y : {y // Q b y} => realScore (parts b) val y.1) k ys ∧
        vs[b] = ys.map (fun y => realScore (parts b) val y.1) ∧
        ∀ s (hs : s < ys.length), ∀ e : List ℕ, e.head? = some b → μ s e = (parts b ys[s].1).count e := by
  classical
  obtain ⟨row, h1, h2⟩ := D.rows
  have hv := h1 (Semirings.kmax k) fun v _ => Semirings.kmaxConvert k v
  rw [D.map_fst (Semirings.kmaxConvert k)] at hv
  have h := h1 (Autograd.kmax k sel) fun v e => Autograd.kmaxConvert k v e
  refine ⟨_, _, hv, by simp, fun s _ => (congrArg (Except.map fun vs => Dist.gradOfSum (vs.map fun row => row.getD s (0, 0))) h :), ?_⟩
  have hrowv : ∀ b < B, ∃ ys : List {y // Q b y}, IsKBest (fun y : {y // Q b y} => realScore (parts b) val y.1) k ys ∧
      row b _ (Semirings.kmax k) (fun e => Semirings.kmaxConvert k (val e)) = ys.map fun y => realScore (parts b) val y.1 := by
    intro b hb
    have := (h2 b hb).kbest_masked (ksr_kmax' hk) val (x := fun e => Semirings.kmaxConvert k (val e)) (fun _ => rfl) rfl (hm b hb) (hc b hb)
    obtain ⟨ys, a1, a2, a3, a4, a5⟩ := top_family this
    exact ⟨ys, ⟨a1, a2, a4, a5⟩, a3⟩
  have hrow : ∀ b < B, ∃ ys : List {y // Q b y}, IsKBest (fun y : {y // Q b y} => realScore (parts b) val y.1) k ys ∧
      row b _ (Autograd.kmax k sel) (fun e => Autograd.kmaxConvert k (val e) e) =
        ys.map fun y => (realScore (parts b) val y.1, fun e => ((parts b y.1).count e : ℝ)) := by
    intro b hb
    have := (h2 b hb).kbest_masked (ksr_grad' hk hsel) (fun e => Autograd.leaf (val e) e) (x := fun e => Autograd.kmaxConvert k (val e) e)
      (fun _ => rfl) rfl (hm b hb) (hc b hb)
    simp only [leaf_sum] at this
    obtain ⟨ys, a1, a2, a3, a4, a5⟩ := top_family this
    exact ⟨ys, ⟨a1, a2, a4, a5⟩, a3⟩
  intro b hb
  have hb' : b < B := by simpa using hb
  obtain ⟨ys, hys, hcore⟩ := hrow b hb'
  refine ⟨ys, hys, ?_, ?_⟩
  · obtain ⟨ys', hys', e⟩ := hrowv b hb'
    simp only [List.getElem_map, List.getElem_range]
    rw [← hys'.unique hys]
    exact e
  · intro s hs' e he
    beta_reduce
    rw [List.map_map]
    refine (gradOfSum_head B _ b hb' e ?_).trans ?_
    · intro b' hb'' hne
      obtain ⟨ys', hys', hcore'⟩ := hrow b' hb''
      simp only [Function.comp_apply, hcore']
      by_cases hs'' : s < ys'.length
      · rw [List.getD_eq_getElem _ _ (by simpa using hs''), List.getElem_map]
        have : e ∉ parts b' ys'[s].1 := by
          intro hc
          have := (h2 b' hb'').head _ ((h2 b' hb'').partE _ _ hc)
          rw [he] at this
          exact hne (Option.some.inj this).symm
        simp [Multiset.count_eq_zero_of_notMem this]
      · rw [List.getD_eq_default _ _ (by simpa using hs'')]; rfl
    · simp only [Function.comp_apply, hcore]
      rw [List.getD_eq_getElem _ _ (by simpa using hs'), List.getElem_map]

end BatchDP
end Generic
