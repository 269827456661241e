import Verif.Model.InfArgmax
import Verif.Proofs.ExactDP

/-! `max` and `argmax` of dynamic programs whose potentials may be `-inf`. -/

open Finset Spec

noncomputable section
namespace InfArgmax

/-- `g` is an element of largest score of the bag. -/
def IsMaxE {G : Type} [AddCommMonoid G] (score : G → EReal) (g : G) (x : Bag G) : Prop := g ∈ x.ms ∧ ∀ u ∈ x.ms, score u ≤ score g

/-- A raw semiring whose `mul` adds and whose `sum` returns an entry of largest score. -/
structure IsMaxSRE {G : Type} [AddCommMonoid G] (S : SR G) (score : G → EReal) : Prop where
  score_add : ∀ a b, score (a + b) = score a + score b
  mul : ∀ a b, S.mul a b = a + b
  sum : ∀ xs, xs ≠ [] → S.sum xs ∈ xs ∧ ∀ x ∈ xs, score x ≤ score (S.sum xs)

theorem forall₂_left {α β : Type} {ρ : α → β → Prop} {as : List α} {xs : List β} (h : List.Forall₂ ρ as xs) : ∀ a ∈ as, ∃ x ∈ xs, ρ a x := by
  induction h with
  | nil => simp
  | cons h _ ih =>
    intro a ha
    rcases List.mem_cons.1 ha with rfl | ha
    · exact ⟨_, List.mem_cons_self, h⟩
    · obtain ⟨x, hx, h'⟩ := ih a ha
      exact ⟨x, List.mem_cons_of_mem _ hx, h'⟩

theorem IsMaxSRE.rel {G : Type} [AddCommMonoid G] {S : SR G} {score : G → EReal} (M : IsMaxSRE S score) : SRRel S (IsMaxE score) where
  mul := by
    rintro a b x y ⟨ha, ha'⟩ ⟨hb, hb'⟩
    rw [M.mul]
    refine ⟨Bag.mem_mul.2 ⟨a, ha, b, hb, rfl⟩, ?_⟩
    intro u hu
    obtain ⟨a', h1, b', h2, rfl⟩ := Bag.mem_mul.1 hu
    rw [M.score_add, M.score_add]
    exact add_le_add (ha' _ h1) (hb' _ h2)
  sum := by
    intro as xs hne hf
    obtain ⟨h1, h2⟩ := M.sum as hne
    obtain ⟨x, hx, hm⟩ := forall₂_left hf _ h1
    refine ⟨Bag.mem_list_sum.2 ⟨x, hx, hm.1⟩, ?_⟩
    intro u hu
    obtain ⟨y, hy, huy⟩ := Bag.mem_list_sum.1 hu
    obtain ⟨a, ha, hay⟩ := forall₂_left hf.flip y hy
    exact (hay.2 u huy).trans (h2 a ha)

theorem le_foldl_max (xs : List EReal) (a : EReal) :
    (xs.foldl Max.max a = a ∨ xs.foldl Max.max a ∈ xs) ∧ a ≤ xs.foldl Max.max a ∧ ∀ x ∈ xs, x ≤ xs.foldl Max.max a := by
  induction xs generalizing a with
  | nil => simp
  | cons y ys ih =>
    simp only [List.foldl_cons]
    obtain ⟨h1, h2, h3⟩ := ih (Max.max a y)
    refine ⟨?_, le_trans (le_max_left _ _) h2, ?_⟩
    · rcases h1 with h1 | h1
      · rw [h1]
        rcases max_choice a y with h | h <;> rw [h] <;> simp
      · right; exact List.mem_cons_of_mem _ h1
    · intro x hx
      rcases List.mem_cons.1 hx with rfl | hx
      · exact le_trans (le_max_right _ _) h2
      · exact h3 x hx

theorem listMaxE_spec (xs : List EReal) (h : xs ≠ []) :
    Semirings.listMaxE xs ∈ xs ∧ ∀ x ∈ xs, x ≤ Semirings.listMaxE xs := by
  cases xs with
  | nil => exact absurd rfl h
  | cons a xs =>
    obtain ⟨h1, h2, h3⟩ := le_foldl_max xs a
    refine ⟨?_, ?_⟩
    · rcases h1 with h1 | h1
      · simp [Semirings.listMaxE, h1]
      · exact List.mem_cons_of_mem _ h1
    · intro x hx
      rcases List.mem_cons.1 hx with rfl | hx
      · exact h2
      · exact h3 x hx

theorem maxE_isMaxSR : IsMaxSRE Semirings.maxE (fun x : EReal => x) where
  score_add _ _ := rfl
  mul _ _ := rfl
  sum := listMaxE_spec

theorem gradMaxE_isMaxSR {E : Type} {pick : List (Autograd.GradE E) → Autograd.GradE E}
    (hp : Autograd.IsArgmaxE Prod.fst pick) : IsMaxSRE (Autograd.maxE pick) Prod.fst where
  score_add _ _ := rfl
  mul _ _ := rfl
  sum := hp

theorem isMaxE_single {G : Type} [AddCommMonoid G] (score : G → EReal) (g : G) : IsMaxE score g (Bag.single g) := by simp [IsMaxE]

end InfArgmax

namespace Generic
open InfArgmax

theorem tame_maxE : Tame Semirings.maxE (IsMaxE fun x : EReal => x) (Bag.single ((Semirings.negInf : ℝ) : EReal)) 1 := by
  constructor
  case keep => intro a x h; exact h
  all_goals exact isMaxE_single _ _

theorem tame_gradMaxE {E : Type} (pick : List (Autograd.GradE E) → Autograd.GradE E) :
    Tame (Autograd.maxE pick) (IsMaxE Prod.fst) (Bag.single (((Semirings.negInf : ℝ) : EReal), 0)) 1 := by
  constructor
  case keep => intro a x h; exact h
  all_goals exact isMaxE_single _ _

/-- The value of a factor. -/
def Atom.scoreE (v : List ℕ → EReal) : Atom → EReal :=
  Atom.weight v (fun _ => ((Semirings.negInf : ℝ) : EReal)) ((Semirings.negInf : ℝ) : EReal) 0

/-- The scores of all structures. -/
def totE {ι π : Type} (parts : ι → Multiset (List ℕ)) (atoms : π → Multiset Atom) (v : List ℕ → EReal) : ι ⊕ π → EReal :=
  Sum.elim (fun y => ((parts y).map v).sum) fun y => ((atoms y).map (Atom.scoreE v)).sum

theorem totE_eq {ι π : Type} {parts : ι → Multiset (List ℕ)} {ones : ι → ℕ} {atoms : π → Multiset Atom} (v : List ℕ → EReal) (t : ι ⊕ π) :
    totE parts atoms v t = ((allAtoms parts ones atoms t).map (Atom.scoreE v)).sum := by
  cases t with
  | inl y =>
    simp only [totE, allAtoms, Sum.elim_inl, Multiset.map_add, Multiset.map_map, Multiset.sum_add, Multiset.map_replicate,
      Multiset.sum_replicate]
    have : (Atom.scoreE v Atom.one) = 0 := rfl
    rw [this, smul_zero, add_zero]; rfl
  | inr y => rfl

/-- The score of a structure whose potentials are `-inf` where `Q` forbids them. -/
theorem sum_bot (m : Multiset (List ℕ)) (v : List ℕ → EReal) (r : List ℕ → ℝ) (Q : List ℕ → Prop) (h1 : ∀ e ∈ m, ¬ Q e → v e = r e) (h2 : ∀ e ∈ m, Q e → v e = ⊥) :
    ((∀ e ∈ m, ¬ Q e) → (m.map v).sum = ((m.map r).sum : ℝ)) ∧ ((∃ e ∈ m, Q e) → (m.map v).sum = ⊥) := by
  induction m using Multiset.induction_on with
  | empty => simp
  | cons a m ih =>
    obtain ⟨i1, i2⟩ := ih (fun e he => h1 e (Multiset.mem_cons_of_mem he)) fun e he => h2 e (Multiset.mem_cons_of_mem he)
    simp only [Multiset.map_cons, Multiset.sum_cons]
    constructor
    · intro h
      rw [h1 a (Multiset.mem_cons_self a m) (h a (Multiset.mem_cons_self a m)), i1 fun e he => h e (Multiset.mem_cons_of_mem he)]
      exact (EReal.coe_add _ _).symm
    · rintro ⟨e, he, hq⟩
      rcases Multiset.mem_cons.1 he with rfl | he
      · rw [h2 e (Multiset.mem_cons_self e m) hq, EReal.bot_add]
      · rw [i2 ⟨e, he, hq⟩, EReal.add_bot]

namespace RowDP
variable {row : (α : Type) → SR α → (List ℕ → α) → α} {b : ℕ} {E : List ℕ → Prop} {ι π : Type} [Fintype ι] [Fintype π]
  {parts : ι → Multiset (List ℕ)} {ones : ι → ℕ} {atoms : π → Multiset Atom} (D : RowDP row b E parts ones atoms)
include D

theorem maxE_top (v : List ℕ → EReal) :
    (∃ t, row EReal Semirings.maxE v = totE parts atoms v t) ∧ ∀ t, totE parts atoms v t ≤ row EReal Semirings.maxE v := by
  have h := D.rel' maxE_isMaxSR.rel tame_maxE (x := v) (wp := fun e => Bag.single (v e)) (wm := fun _ => Bag.single ((Semirings.negInf : ℝ) : EReal))
    (fun _ _ => isMaxE_single _ _) (fun _ => isMaxE_single _ _)
  have h2 : ∀ t, ((allAtoms parts ones atoms t).map (Atom.weight (fun e => Bag.single (v e)) (fun _ => Bag.single ((Semirings.negInf : ℝ) : EReal))
      (Bag.single ((Semirings.negInf : ℝ) : EReal)) 1)).prod = Bag.single (totE parts atoms v t) := by
    intro t
    rw [totE_eq (ones := ones), ← prod_single_bag]
    congr 1
    refine Multiset.map_congr rfl fun a _ => ?_
    cases a <;> simp [Atom.weight, Atom.scoreE, Bag.single_zero]
  simp only [h2] at h
  constructor
  · obtain ⟨t, -, ht⟩ := Bag.mem_sum.1 h.1
    exact ⟨t, by simpa using ht⟩
  · intro t
    exact h.2 _ (Bag.mem_sum.2 ⟨t, mem_univ t, by simp⟩)

theorem gradMaxE_top (v : List ℕ → EReal) {pick : List (Autograd.GradE (List ℕ)) → Autograd.GradE (List ℕ)} (hp : Autograd.IsArgmaxE Prod.fst pick) :
    ∃ t, row _ (Autograd.maxE pick) (fun e => Autograd.leafE (v e) e) =
        (totE parts atoms v t, fun e => ((allAtoms parts ones atoms t).map fun a => a.grad e).sum) ∧
      ∀ t', totE parts atoms v t' ≤ totE parts atoms v t := by
  have h := D.rel' (gradMaxE_isMaxSR hp).rel (tame_gradMaxE pick) (x := fun e => Autograd.leafE (v e) e)
    (wp := fun e => Bag.single (Autograd.leafE (v e) e)) (wm := fun e => Bag.single (((Semirings.negInf : ℝ) : EReal), Pi.single e 1))
    (fun _ _ => isMaxE_single _ _) (fun _ => isMaxE_single _ _)
  have h2 : ∀ t, ((allAtoms parts ones atoms t).map (Atom.weight (fun e => Bag.single (Autograd.leafE (v e) e))
      (fun e => Bag.single (((Semirings.negInf : ℝ) : EReal), Pi.single e 1)) (Bag.single (((Semirings.negInf : ℝ) : EReal), 0)) 1)).prod =
      Bag.single ((totE parts atoms v t, fun e => ((allAtoms parts ones atoms t).map fun a => a.grad e).sum) :
        Autograd.GradE (List ℕ)) := by
    intro t
    have e1 : ((totE parts atoms v t, fun e => ((allAtoms parts ones atoms t).map fun a => a.grad e).sum) :
        Autograd.GradE (List ℕ)) = ((allAtoms parts ones atoms t).map fun a => (a.scoreE v, a.grad)).sum := by
      rw [totE_eq (ones := ones)]
      induction (allAtoms parts ones atoms t) using Multiset.induction_on with
      | empty => simp; rfl
      | cons a m ih =>
        simp only [Multiset.map_cons, Multiset.sum_cons, ← ih]
        rfl
    rw [e1, ← prod_single_bag]
    congr 1
    refine Multiset.map_congr rfl fun a _ => ?_
    cases a <;> rfl
  simp only [h2] at h
  obtain ⟨t, -, ht⟩ := Bag.mem_sum.1 h.1
  have ht := Multiset.mem_singleton.1 ht
  refine ⟨t, ht, fun t' => ?_⟩
  have := h.2 _ (Bag.mem_sum.2 ⟨t', mem_univ t', by simp; rfl⟩)
  rw [ht] at this
  exact this

end RowDP

/-- Gradient of a batch: only row `b` contributes to the entries of row `b`. -/
theorem gradE_head (B : ℕ) (g : ℕ → Autograd.GradE (List ℕ)) (b : ℕ) (hb : b < B) (e : List ℕ)
    (hother : ∀ b' < B, b' ≠ b → (g b').2 e = 0) : (((List.range B).map g).map Prod.snd).sum e = (g b).2 e := by
  have := gradOfSum_head B (fun b => ((0 : ℝ), (g b).2)) b hb e hother
  rw [Dist.gradOfSum] at this
  rw [← this]
  simp [List.map_map, Function.comp_def]

namespace BatchDP
variable {A : Algo} {lengths : Option (List ℕ)} {B : ℕ} {E : ℕ → List ℕ → Prop}
  {ι π : ℕ → Type} [∀ b, Fintype (ι b)] [∀ b, Fintype (π b)] {parts : ∀ b, ι b → Multiset (List ℕ)} {ones : ∀ b, ι b → ℕ}
  {atoms : ∀ b, π b → Multiset Atom} {p : A.T EReal} {val : List ℕ → EReal} (D : BatchDP A p lengths B val E parts ones atoms)
include D

theorem maxE_eq : ∃ vs, Dist.maxE A p lengths = .ok vs ∧ vs.length = B ∧ ∀ b (hb : b < vs.length),
    (∃ t, vs[b] = totE (parts b) (atoms b) val t) ∧ ∀ t, totE (parts b) (atoms b) val t ≤ vs[b] := by
  obtain ⟨row, h1, h2⟩ := D.rows
  have h := h1 Semirings.maxE fun v _ => v
  rw [D.map_fst fun v => v] at h
  have e : A.map (fun v => v) p = p := D.map_id
  rw [e] at h
  refine ⟨_, h, by simp, fun b hb => ?_⟩
  simp only [List.getElem_map, List.getElem_range]
  exact (h2 b (by simpa using hb)).maxE_top val

theorem argmaxE_eq {pick : List (Autograd.GradE (List ℕ)) → Autograd.GradE (List ℕ)} (hp : Autograd.IsArgmaxE Prod.fst pick) :
    ∃ μ, Dist.argmaxE A p lengths pick = .ok μ ∧ ∀ b < B, ∃ t, (∀ t', totE (parts b) (atoms b) val t' ≤
      totE (parts b) (atoms b) val t) ∧ ∀ e : List ℕ, e.head? = some b →
      μ e = ((allAtoms (parts b) (ones b) (atoms b) t).filterMap Atom.link).count e := by
  obtain ⟨row, h1, h2⟩ := D.rows
  have h := h1 (Autograd.maxE pick) fun v e => Autograd.leafE v e
  refine ⟨_, congrArg (Except.map fun vs : List (Autograd.GradE (List ℕ)) => ((vs.map Prod.snd).sum : List ℕ → ℝ)) h, fun b hb => ?_⟩
  obtain ⟨t, ht, hmax⟩ := (h2 b hb).gradMaxE_top val hp
  refine ⟨t, hmax, fun e he => ?_⟩
  refine (gradE_head B _ b hb e ?_).trans ?_
  · intro b' hb' hne
    obtain ⟨t', ht', -⟩ := (h2 b' hb').gradMaxE_top val hp
    refine (congrFun (congrArg Prod.snd ht') e).trans ?_
    simp only [grad_sum]
    rw [Multiset.count_eq_zero_of_notMem]
    · simp
    · intro hc
      have := (h2 b' hb').link_head t' e hc
      rw [he] at this
      exact hne (Option.some.inj this).symm
  · refine (congrFun (congrArg Prod.snd ht) e).trans ?_
    simp only [grad_sum]

/-- With some allowed structure that beats every phantom, `max` and `argmax` are those of the allowed structures; `s` is the score of the allowed ones. -/
theorem argmaxE_allowed {Q : ∀ b, ι b → Prop} {s : ∀ b, ι b → ℝ} (hQ : ∀ b < B, ∀ y, Q b y → ((parts b y).map val).sum = s b y)
    (hN : ∀ b < B, ∀ y, ¬ Q b y → ((parts b y).map val).sum = ⊥)
    (hph : ∀ b < B, ∀ x y, Q b y → ((atoms b x).map (Atom.scoreE val)).sum < s b y)
    {pick : List (Autograd.GradE (List ℕ)) → Autograd.GradE (List ℕ)} (hp : Autograd.IsArgmaxE Prod.fst pick) :
    ∃ μ vs, Dist.argmaxE A p lengths pick = .ok μ ∧ Dist.maxE A p lengths = .ok vs ∧ vs.length = B ∧ ∀ b (hb : b < vs.length),
      (∃ y, Q b y) → ∃ y, Q b y ∧ vs[b] = s b y ∧ (∀ y', Q b y' → s b y' ≤ s b y) ∧ ∀ e : List ℕ, e.head? = some b → μ e = (parts b y).count e := by
  obtain ⟨μ, h1, h2⟩ := D.argmaxE_eq hp
  obtain ⟨vs, h3, h4, h5⟩ := D.maxE_eq
  refine ⟨μ, vs, h1, h3, h4, fun b hb ⟨y0, hy0⟩ => ?_⟩
  have hb' : b < B := by omega
  obtain ⟨t, h6, h7⟩ := h2 b hb'
  obtain ⟨⟨t', h8⟩, h9⟩ := h5 b hb
  have h0 := h6 (Sum.inl y0)
  have h0' : ((s b y0 : ℝ) : EReal) ≤ totE (parts b) (atoms b) val t := (hQ b hb' y0 hy0).symm.trans_le h0
  have key : ∃ y, t = Sum.inl y ∧ Q b y := by
    cases t with
    | inr x => exact absurd h0' (not_le.2 (hph b hb' x y0 hy0))
    | inl y =>
      refine ⟨y, rfl, ?_⟩
      by_contra hq
      rw [show totE (parts b) (atoms b) val (Sum.inl y) = ⊥ from hN b hb' y hq, le_bot_iff] at h0'
      exact EReal.coe_ne_bot _ h0'
  obtain ⟨y, rfl, hy⟩ := key
  have ey : totE (parts b) (atoms b) val (Sum.inl y) = s b y := hQ b hb' y hy
  refine ⟨y, hy, ?_, fun y' hy' => ?_, fun e he => ?_⟩
  · rw [← ey]
    exact le_antisymm (by rw [h8]; exact h6 t') (h9 (Sum.inl y))
  · have := h6 (Sum.inl y')
    rw [ey, show totE (parts b) (atoms b) val (Sum.inl y') = s b y' from hQ b hb' y' hy'] at this
    exact_mod_cast this
  · rw [h7 e he, RowDP.links_inl]

/-- Without phantoms `argmax` is a structure in any case, and if all are forbidden `max` is `-inf`. -/
theorem argmaxE_exact [∀ b, IsEmpty (π b)] {Q : ∀ b, ι b → Prop} {s : ∀ b, ι b → ℝ} (hQ : ∀ b < B, ∀ y, Q b y → ((parts b y).map val).sum = s b y)
    (hN : ∀ b < B, ∀ y, ¬ Q b y → ((parts b y).map val).sum = ⊥)
    {pick : List (Autograd.GradE (List ℕ)) → Autograd.GradE (List ℕ)} (hp : Autograd.IsArgmaxE Prod.fst pick) :
    ∃ μ vs, Dist.argmaxE A p lengths pick = .ok μ ∧ Dist.maxE A p lengths = .ok vs ∧ vs.length = B ∧ ∀ b (hb : b < vs.length),
      ∃ y, (∀ e : List ℕ, e.head? = some b → μ e = (parts b y).count e) ∧ (Q b y → vs[b] = s b y) ∧ (¬ Q b y → vs[b] = ⊥) ∧
        ∀ y', Q b y' → Q b y ∧ s b y' ≤ s b y := by
  classical
  obtain ⟨μ, h1, h2⟩ := D.argmaxE_eq hp
  obtain ⟨vs, h3, h4, h5⟩ := D.maxE_eq
  refine ⟨μ, vs, h1, h3, h4, fun b hb => ?_⟩
  have hb' : b < B := by omega
  obtain ⟨t, h6, h7⟩ := h2 b hb'
  obtain ⟨⟨t', h8⟩, h9⟩ := h5 b hb
  cases t with
  | inr x => exact isEmptyElim x
  | inl y =>
    have ev : vs[b] = ((parts b y).map val).sum := le_antisymm (by rw [h8]; exact h6 t') (h9 (Sum.inl y))
    refine ⟨y, fun e he => by rw [h7 e he, RowDP.links_inl], fun hy => by rw [ev, hQ b hb' y hy], fun hy => by rw [ev, hN b hb' y hy], fun y' hy' => ?_⟩
    · have := h6 (Sum.inl y')
      change ((parts b y').map val).sum ≤ ((parts b y).map val).sum at this
      rw [hQ b hb' y' hy'] at this
      by_cases hy : Q b y
      · rw [hQ b hb' y hy] at this
        exact ⟨hy, by exact_mod_cast this⟩
      · rw [hN b hb' y hy, le_bot_iff] at this
        exact absurd this (EReal.coe_ne_bot _)

end BatchDP
end Generic
