import Verif.Model.InfEntropy
import Verif.Proofs.InfArgmax

/-! `entropy`, `cross_entropy` and `kl` when potentials may be `-inf`: where NaN comes from and how it spreads. -/

open Finset Spec SemiringRel Semirings

noncomputable section
namespace InfEntropy

/-- `bad` elements spoil everything computed from them; sums with an element that is not `dead` are not `dead`. -/
structure Spoil {A : Type} (S : SR A) (bad dead : A → Prop) : Prop where
  bad_mul : ∀ a b, bad a ∨ bad b → bad (S.mul a b)
  bad_sum : ∀ xs, (∃ x ∈ xs, bad x) → bad (S.sum xs)
  live_mul : ∀ a b, ¬ dead a → ¬ dead b → ¬ dead (S.mul a b)
  live_sum : ∀ xs, (∃ x ∈ xs, ¬ dead x) → ¬ dead (S.sum xs)
  setData : ∀ a v, S.setData a v = v
  detach : ∀ v, S.detach v = v
  zero : ¬ dead S.zero
  one : ¬ dead S.one

/-- The structures of the bag hold `s.1` bad parts and `s.2` dead parts. -/
def Tracks {A : Type} (bad dead : A → Prop) (a : A) (x : Bag (ℕ × ℕ)) : Prop :=
  (∃ s, s ∈ x.ms) ∧ ((∃ s ∈ x.ms, s.1 ≠ 0) → bad a) ∧ ((∃ s ∈ x.ms, s.2 = 0) → ¬ dead a)

theorem forall₂_right {α β : Type} {ρ : α → β → Prop} {as : List α} {xs : List β} (h : List.Forall₂ ρ as xs) : ∀ x ∈ xs, ∃ a ∈ as, ρ a x :=
  InfArgmax.forall₂_left h.flip

variable {A : Type} {S : SR A} {bad dead : A → Prop}

theorem Spoil.rel (H : Spoil S bad dead) : SRRel S (Tracks bad dead) where
  mul := by
    rintro a b x y ⟨⟨s, hs⟩, ha, ha'⟩ ⟨⟨t, ht⟩, hb, hb'⟩
    refine ⟨⟨s + t, Bag.mem_mul.2 ⟨s, hs, t, ht, rfl⟩⟩, ?_, ?_⟩
    · rintro ⟨u, hu, hne⟩
      obtain ⟨s, hs, t, ht, rfl⟩ := Bag.mem_mul.1 hu
      refine H.bad_mul _ _ ?_
      by_cases h0 : s.1 = 0
      · exact Or.inr (hb ⟨t, ht, fun h => hne (by rw [Prod.fst_add, h0, h])⟩)
      · exact Or.inl (ha ⟨s, hs, h0⟩)
    · rintro ⟨u, hu, h0⟩
      obtain ⟨s, hs, t, ht, rfl⟩ := Bag.mem_mul.1 hu
      rw [Prod.snd_add] at h0
      exact H.live_mul _ _ (ha' ⟨s, hs, by omega⟩) (hb' ⟨t, ht, by omega⟩)
  sum := by
    intro as xs hne hf
    refine ⟨?_, ?_, ?_⟩
    · obtain ⟨a, ha⟩ := List.exists_mem_of_ne_nil _ hne
      obtain ⟨x, hx, ⟨s, hs⟩, -⟩ := InfArgmax.forall₂_left hf a ha
      exact ⟨s, Bag.mem_list_sum.2 ⟨x, hx, hs⟩⟩
    · rintro ⟨s, hs, h0⟩
      obtain ⟨x, hx, hs⟩ := Bag.mem_list_sum.1 hs
      obtain ⟨a, ha, -, h1, -⟩ := forall₂_right hf x hx
      exact H.bad_sum _ ⟨a, ha, h1 ⟨s, hs, h0⟩⟩
    · rintro ⟨s, hs, h0⟩
      obtain ⟨x, hx, hs⟩ := Bag.mem_list_sum.1 hs
      obtain ⟨a, ha, -, -, h1⟩ := forall₂_right hf x hx
      exact H.live_sum _ ⟨a, ha, h1 ⟨s, hs, h0⟩⟩

theorem tracks_clean {a : A} (h : ¬ dead a) : Tracks bad dead a (Bag.single 0) :=
  ⟨⟨0, by simp⟩, by simp, fun _ => h⟩

open Classical in
theorem tracks_leaf (a : A) : Tracks bad dead a (Bag.single (if bad a then 1 else 0, if dead a then 1 else 0)) := by
  refine ⟨⟨_, by simp; rfl⟩, ?_, ?_⟩
  · rintro ⟨s, hs, h0⟩
    rw [Bag.ms_single, Multiset.mem_singleton] at hs
    by_contra h
    exact h0 (by rw [hs]; exact if_neg h)
  · rintro ⟨s, hs, h0⟩ h
    rw [Bag.ms_single, Multiset.mem_singleton] at hs
    rw [hs] at h0
    exact one_ne_zero ((if_pos h).symm.trans h0)

theorem Spoil.tame (H : Spoil S bad dead) : Generic.Tame S (Tracks bad dead) (Bag.single 0) 1 := by
  have h1 : (1 : Bag (ℕ × ℕ)) = Bag.single 0 := Bag.single_zero.symm
  have hz := tracks_clean (bad := bad) H.zero
  have ho := tracks_clean (bad := bad) H.one
  rw [h1]
  constructor
  case keep => intro a x h; rw [H.setData, H.detach]; exact h
  all_goals try simp only [H.setData, H.detach]
  all_goals first | exact hz | exact ho

/-- Embedding of one semiring into another. -/
structure Hom {B : Type} (S : SR B) (T : SR A) (emb : B → A) : Prop where
  mul : ∀ a b, T.mul (emb a) (emb b) = emb (S.mul a b)
  sum : ∀ xs, xs ≠ [] → T.sum (xs.map emb) = emb (S.sum xs)
  zero : T.zero = emb S.zero
  one : T.one = emb S.one
  setData : ∀ a v, T.setData a v = v
  detach : ∀ v, T.detach v = v

variable {B R : Type} {S : SR B} {T : SR A} {emb : B → A}

theorem Hom.rel [CommSemiring R] (H : Hom S T emb) {ρ : B → R → Prop} (h : SRRel S ρ) : SRRel T fun a x => ∃ r, a = emb r ∧ ρ r x where
  mul := by
    rintro _ _ x y ⟨r, rfl, h1⟩ ⟨s, rfl, h2⟩
    exact ⟨_, H.mul r s, h.mul h1 h2⟩
  sum := by
    intro as xs hne hf
    obtain ⟨rs, h1, h2⟩ : ∃ rs : List B, as = rs.map emb ∧ List.Forall₂ ρ rs xs := by
      clear hne
      induction hf with
      | nil => exact ⟨[], rfl, .nil⟩
      | cons h _ ih =>
        obtain ⟨r, rfl, hr⟩ := h
        obtain ⟨rs, rfl, hrs⟩ := ih
        exact ⟨r :: rs, rfl, .cons hr hrs⟩
    subst h1
    have hr : rs ≠ [] := by rintro rfl; exact hne rfl
    exact ⟨_, H.sum rs hr, h.sum hr h2⟩

theorem Hom.tame [CommSemiring R] (H : Hom S T emb) {ρ : B → R → Prop} {ζ ω : R} (h : Generic.Tame S ρ ζ ω) :
    Generic.Tame T (fun a x => ∃ r, a = emb r ∧ ρ r x) ζ ω := by
  constructor
  case keep => rintro _ x ⟨r, rfl, hr⟩; exact ⟨r, by rw [H.setData, H.detach], hr⟩
  all_goals simp only [H.setData, H.detach, H.zero, H.one]
  all_goals first | exact ⟨_, rfl, h.zero⟩ | exact ⟨_, rfl, h.one⟩

/-! ### Floating point -/

theorem add_nan {x y : IEEE} (h : x = none ∨ y = none) : IEEE.add x y = none := by
  rcases h with rfl | rfl
  · rfl
  · cases x <;> rfl

theorem mul_nan {x y : IEEE} (h : x = none ∨ y = none) : IEEE.mul x y = none := by
  rcases h with rfl | rfl
  · rfl
  · cases x <;> rfl

theorem sub_nan {x y : IEEE} (h : x = none ∨ y = none) : IEEE.sub x y = none := by
  refine add_nan ?_
  rcases h with rfl | rfl
  · exact Or.inl rfl
  · exact Or.inr rfl

theorem addAll_nan {l : List IEEE} (h : none ∈ l) : ChainBackward.addAll l = none := by
  induction l with
  | nil => simp at h
  | cons a l ih =>
    rcases List.mem_cons.1 h with h | h
    · exact add_nan (Or.inl h.symm)
    · exact add_nan (Or.inr (ih h))

/-- The factor of an entry `-inf` is NaN (when the sum is `-inf`) or the entry times its factor is. -/
theorem logSm_bot (r : EReal) : (logSmE ⊥ r = none ∧ IEEE.exp (logSmE ⊥ r) = none) ∨ (logSmE ⊥ r = some ⊥ ∧ IEEE.exp (logSmE ⊥ r) = some 0) := by
  by_cases h : r = ⊥
  · left; subst h; constructor <;> simp [logSmE, IEEE.sub, IEEE.add, IEEE.exp]
  · right
    have : logSmE ⊥ r = some ⊥ := by
      simp only [logSmE, IEEE.sub, IEEE.add, Option.map_some]
      rw [if_neg]
      · rw [EReal.bot_add]
      · simp [h]
    exact ⟨this, by rw [this]; simp [IEEE.exp]⟩

theorem self_nan (r : EReal) : IEEE.mul (logSmE ⊥ r) (IEEE.exp (logSmE ⊥ r)) = none := by
  rcases logSm_bot r with ⟨h1, h2⟩ | ⟨h1, h2⟩
  · rw [h1]; rfl
  · rw [h1]; simp [IEEE.exp, IEEE.mul]

theorem other_nan (r s : EReal) : IEEE.mul (logSmE ⊥ s) (IEEE.exp (logSmE ⊥ r)) = none := by
  rcases logSm_bot r with ⟨h1, h2⟩ | ⟨h1, h2⟩
  · exact mul_nan (Or.inr h2)
  · rw [h2]
    rcases logSm_bot s with ⟨h3, -⟩ | ⟨h3, -⟩
    · exact mul_nan (Or.inl h3)
    · rw [h3]; simp [IEEE.mul]

theorem lseE_ne_bot {xs : List EReal} (h : ∃ x ∈ xs, x ≠ ⊥) : lseE xs ≠ ⊥ := by
  obtain ⟨x, hx, h0⟩ := h
  rw [lseE, Ne, ENNReal.log_eq_bot_iff, List.sum_eq_zero_iff]
  intro hc
  have := hc _ (List.mem_map_of_mem hx)
  rw [EReal.exp_eq_zero_iff] at this
  exact h0 this

theorem add_ne_bot {a b : EReal} (ha : a ≠ ⊥) (hb : b ≠ ⊥) : a + b ≠ ⊥ := by
  rw [Ne, EReal.add_eq_bot_iff]
  rintro (h | h)
  · exact ha h
  · exact hb h

theorem entropy_spoil : Spoil entropyE (fun a => a.1 = ⊥ ∨ a.2 = none) fun a => a.1 = ⊥ where
  bad_mul := by
    rintro a b ((h | h) | (h | h))
    · left; simp [entropyE, h]
    · right; exact add_nan (Or.inl h)
    · left; simp [entropyE, h]
    · right; exact add_nan (Or.inr h)
  bad_sum := by
    rintro xs ⟨x, hx, h⟩
    right
    refine addAll_nan (List.mem_map.2 ⟨x, hx, ?_⟩)
    rcases h with h | h
    · refine sub_nan (Or.inr ?_)
      rw [h]; exact self_nan _
    · exact sub_nan (Or.inl (mul_nan (Or.inl h)))
  live_mul a b := add_ne_bot
  live_sum := by
    rintro xs ⟨x, hx, h⟩
    exact lseE_ne_bot ⟨x.1, List.mem_map_of_mem hx, h⟩
  setData _ _ := rfl
  detach _ := rfl
  zero := EReal.coe_ne_bot _
  one := EReal.zero_ne_bot

theorem kl_spoil : Spoil klE (fun a => a.1 = ⊥ ∨ a.2.2 = none) fun a => a.1 = ⊥ where
  bad_mul := by
    rintro a b ((h | h) | (h | h))
    · left; simp [klE, h]
    · right; exact add_nan (Or.inl h)
    · left; simp [klE, h]
    · right; exact add_nan (Or.inr h)
  bad_sum := by
    rintro xs ⟨x, hx, h⟩
    right
    refine addAll_nan (List.mem_map.2 ⟨x, hx, ?_⟩)
    rcases h with h | h
    · refine add_nan (Or.inr ?_)
      rw [h]; exact self_nan _
    · exact add_nan (Or.inl (sub_nan (Or.inl (mul_nan (Or.inl h)))))
  live_mul a b := add_ne_bot
  live_sum := by
    rintro xs ⟨x, hx, h⟩
    exact lseE_ne_bot ⟨x.1, List.mem_map_of_mem (f := fun x : EReal × EReal × IEEE => x.1) hx, h⟩
  setData _ _ := rfl
  detach _ := rfl
  zero := EReal.coe_ne_bot _
  one := EReal.zero_ne_bot

theorem ce_spoil : Spoil crossEntropyE (fun a => (a.1 = ⊥ ∧ a.2.1 = ⊥) ∨ a.2.2 = none) fun a => a.1 = ⊥ where
  bad_mul := by
    rintro a b ((h | h) | (h | h))
    · left; simp [crossEntropyE, h]
    · right; exact add_nan (Or.inl h)
    · left; simp [crossEntropyE, h]
    · right; exact add_nan (Or.inr h)
  bad_sum := by
    rintro xs ⟨x, hx, h⟩
    right
    refine addAll_nan (List.mem_map.2 ⟨x, hx, ?_⟩)
    rcases h with h | h
    · refine sub_nan (Or.inr ?_)
      rw [h.1, h.2]; exact other_nan _ _
    · exact sub_nan (Or.inl (mul_nan (Or.inl h)))
  live_mul a b := add_ne_bot
  live_sum := by
    rintro xs ⟨x, hx, h⟩
    exact lseE_ne_bot ⟨x.1, List.mem_map_of_mem (f := fun x : EReal × EReal × IEEE => x.1) hx, h⟩
  setData _ _ := rfl
  detach _ := rfl
  zero := EReal.coe_ne_bot _
  one := EReal.zero_ne_bot

/-! ### Real numbers -/

theorem ieee_add (x y : ℝ) : IEEE.add (.ofReal x) (.ofReal y) = .ofReal (x + y) := by
  simp [IEEE.add, IEEE.ofReal]

theorem ieee_mul (x y : ℝ) : IEEE.mul (.ofReal x) (.ofReal y) = .ofReal (x * y) := by
  simp [IEEE.mul, IEEE.ofReal]

theorem ieee_sub (x y : ℝ) : IEEE.sub (.ofReal x) (.ofReal y) = .ofReal (x - y) := by
  rw [sub_eq_add_neg, ← ieee_add]; simp [IEEE.sub, IEEE.ofReal]

theorem ieee_exp (x : ℝ) : IEEE.exp (.ofReal x) = .ofReal (Real.exp x) := by
  simp [IEEE.exp, IEEE.ofReal, EReal.exp_coe, (Real.exp_pos x).le]

theorem ieee_all (l : List ℝ) : ChainBackward.addAll (l.map IEEE.ofReal) = .ofReal l.sum := by
  induction l with
  | nil => rfl
  | cons a l ih => rw [List.map_cons, List.sum_cons, ← ieee_add, ← ih]; rfl

theorem lseE_coe {X : Type} (f : X → ℝ) {xs : List X} (h : xs ≠ []) : lseE (xs.map fun x => ((f x : ℝ) : EReal)) = (lse (xs.map f) : ℝ) := by
  have hs : ∀ l : List X, ((l.map fun x => ((f x : ℝ) : EReal)).map EReal.exp).sum = ENNReal.ofReal ((l.map f).map Real.exp).sum ∧ 0 ≤ ((l.map f).map Real.exp).sum := by
    intro l
    induction l with
    | nil => simp
    | cons a l ih =>
      simp only [List.map_cons, List.sum_cons]
      exact ⟨by rw [ih.1, EReal.exp_coe, ENNReal.ofReal_add (Real.exp_pos _).le ih.2], add_nonneg (Real.exp_pos _).le ih.2⟩
  have hpos : 0 < ((xs.map f).map Real.exp).sum := by
    cases xs with
    | nil => exact absurd rfl h
    | cons a l =>
      simp only [List.map_cons, List.sum_cons]
      exact add_pos_of_pos_of_nonneg (Real.exp_pos _) (hs l).2
  rw [lseE, (hs xs).1, lse, ENNReal.log_ofReal_of_pos hpos]

/-- Real numbers as pairs of the floating-point semiring. -/
def embEnt (r : ℝ × ℝ) : EReal × IEEE := ((r.1 : EReal), .ofReal r.2)

/-- see `embEnt`. -/
def embPair (r : ℝ × ℝ × ℝ) : EReal × EReal × IEEE := ((r.1 : EReal), (r.2.1 : EReal), .ofReal r.2.2)

theorem entropy_hom : Hom entropy entropyE embEnt where
  mul a b := by simp only [entropyE, embEnt, entropy, entropyZ, ieee_add, EReal.coe_add]
  sum xs h := by
    have e : lseE ((xs.map embEnt).map Prod.fst) = (lse (xs.map Prod.fst) : ℝ) := by
      rw [← lseE_coe _ h, List.map_map]; rfl
    simp only [entropyE, e, embEnt, entropy, entropyZ]
    rw [← ieee_all, List.map_map, List.map_map]
    congr 2
    refine List.map_congr_left fun x _ => ?_
    simp only [Function.comp, embEnt, logSmE]
    change IEEE.sub (IEEE.mul (.ofReal x.2) (IEEE.exp (IEEE.sub (.ofReal x.1) (.ofReal _)))) (IEEE.mul (IEEE.sub (.ofReal x.1) (.ofReal _)) (IEEE.exp (IEEE.sub (.ofReal x.1) (.ofReal _)))) = _
    simp only [ieee_sub, ieee_mul, ieee_exp]
  zero := rfl
  one := rfl
  setData _ _ := rfl
  detach _ := rfl

theorem ce_hom : Hom crossEntropy crossEntropyE embPair where
  mul a b := by simp only [crossEntropyE, embPair, crossEntropy, crossEntropyZ, ieee_add, EReal.coe_add]
  sum xs h := by
    have e : lseE ((xs.map embPair).map fun x => x.1) = (lse (xs.map fun x => x.1) : ℝ) := by
      rw [← lseE_coe _ h, List.map_map]; rfl
    have e' : lseE ((xs.map embPair).map fun x => x.2.1) = (lse (xs.map fun x => x.2.1) : ℝ) := by
      rw [← lseE_coe _ h, List.map_map]; rfl
    simp only [crossEntropyE, e, e', embPair, crossEntropy, crossEntropyZ]
    rw [← ieee_all, List.map_map, List.map_map]
    congr 3
    refine List.map_congr_left fun x _ => ?_
    simp only [Function.comp, embPair, logSmE]
    change IEEE.sub (IEEE.mul (.ofReal x.2.2) (IEEE.exp (IEEE.sub (.ofReal x.1) (.ofReal _)))) (IEEE.mul (IEEE.sub (.ofReal x.2.1) (.ofReal _)) (IEEE.exp (IEEE.sub (.ofReal x.1) (.ofReal _)))) = _
    simp only [ieee_sub, ieee_mul, ieee_exp]
  zero := rfl
  one := rfl
  setData _ _ := rfl
  detach _ := rfl

theorem kl_hom : Hom kl klE embPair where
  mul a b := by simp only [klE, embPair, kl, klZ, ieee_add, EReal.coe_add]
  sum xs h := by
    have e : lseE ((xs.map embPair).map fun x => x.1) = (lse (xs.map fun x => x.1) : ℝ) := by
      rw [← lseE_coe _ h, List.map_map]; rfl
    have e' : lseE ((xs.map embPair).map fun x => x.2.1) = (lse (xs.map fun x => x.2.1) : ℝ) := by
      rw [← lseE_coe _ h, List.map_map]; rfl
    simp only [klE, e, e', embPair, kl, klZ]
    rw [← ieee_all, List.map_map, List.map_map]
    congr 3
    refine List.map_congr_left fun x _ => ?_
    simp only [Function.comp, embPair, logSmE]
    change IEEE.add (IEEE.sub (IEEE.mul (.ofReal x.2.2) (IEEE.exp (IEEE.sub (.ofReal x.1) (.ofReal _)))) (IEEE.mul (IEEE.sub (.ofReal x.2.1) (.ofReal _)) (IEEE.exp (IEEE.sub (.ofReal x.1) (.ofReal _)))))
      (IEEE.mul (IEEE.sub (.ofReal x.1) (.ofReal _)) (IEEE.exp (IEEE.sub (.ofReal x.1) (.ofReal _)))) = _
    simp only [ieee_sub, ieee_mul, ieee_exp, ieee_add]
  zero := rfl
  one := rfl
  setData _ _ := rfl
  detach _ := rfl

theorem fst_sum {X : Type} (m : Multiset X) (f : X → ℕ × ℕ) {a : X} (ha : a ∈ m) (h : (f a).1 ≠ 0) : (m.map f).sum.1 ≠ 0 := by
  obtain ⟨m', rfl⟩ := Multiset.exists_cons_of_mem ha
  rw [Multiset.map_cons, Multiset.sum_cons, Prod.fst_add]
  omega

theorem snd_sum {X : Type} (m : Multiset X) (f : X → ℕ × ℕ) (h : ∀ a ∈ m, (f a).2 = 0) : (m.map f).sum.2 = 0 := by
  induction m using Multiset.induction_on with
  | empty => rfl
  | cons a m ih =>
    rw [Multiset.map_cons, Multiset.sum_cons, Prod.snd_add, h a (Multiset.mem_cons_self a m), ih fun b hb => h b (Multiset.mem_cons_of_mem hb)]

end InfEntropy

namespace Generic
open InfEntropy

namespace RowDP
variable {row : (α : Type) → SR α → (List ℕ → α) → α} {b : ℕ} {E : List ℕ → Prop} {ι π : Type} [Fintype ι] [Fintype π]
  {parts : ι → Multiset (List ℕ)} {ones : ι → ℕ} {atoms : π → Multiset Atom} (D : RowDP row b E parts ones atoms)
include D

open Classical in
theorem spoil {A : Type} {S : SR A} {bad dead : A → Prop} (H : Spoil S bad dead) (x : List ℕ → A) :
    ((∃ t, ∃ e, Atom.pot e ∈ allAtoms parts ones atoms t ∧ bad (x e)) → bad (row A S x)) ∧
    ((∃ t, ∀ e, Atom.pot e ∈ allAtoms parts ones atoms t → ¬ dead (x e)) → ¬ dead (row A S x)) := by
  have h := D.rel' H.rel H.tame (x := x) (wp := fun e => Bag.single (if bad (x e) then 1 else 0, if dead (x e) then 1 else 0)) (wm := fun _ => Bag.single 0)
    (fun _ _ => tracks_leaf _) (fun _ => by rw [H.setData]; exact tracks_clean H.zero)
  set f : Atom → ℕ × ℕ := Atom.weight (fun e => (if bad (x e) then 1 else 0, if dead (x e) then 1 else 0)) (fun _ => 0) 0 0 with hf
  have h2 : ∀ t, ((allAtoms parts ones atoms t).map (Atom.weight (fun e => Bag.single (if bad (x e) then 1 else 0, if dead (x e) then 1 else 0))
      (fun _ => Bag.single 0) (Bag.single 0) 1)).prod = Bag.single (((allAtoms parts ones atoms t).map f).sum : ℕ × ℕ) := by
    intro t
    rw [← prod_single_bag]
    congr 1
    refine Multiset.map_congr rfl fun a _ => ?_
    cases a <;> simp [Atom.weight, hf, Bag.single_zero]
  simp only [h2] at h
  constructor
  · rintro ⟨t, e, he, hb⟩
    refine h.2.1 ⟨_, Bag.mem_sum.2 ⟨t, mem_univ t, by rw [Bag.ms_single]; exact Multiset.mem_singleton_self _⟩, ?_⟩
    exact fst_sum _ f he (by simp [hf, Atom.weight, hb])
  · rintro ⟨t, ht⟩
    refine h.2.2 ⟨_, Bag.mem_sum.2 ⟨t, mem_univ t, by rw [Bag.ms_single]; exact Multiset.mem_singleton_self _⟩, ?_⟩
    refine snd_sum _ f fun a ha => ?_
    cases a with
    | pot e => simp [hf, Atom.weight, ht e ha]
    | masked e => rfl
    | zero => rfl
    | one => rfl

/-- On real numbers the floating-point semirings compute what the real ones do. -/
theorem hom {A B R : Type} [CommSemiring R] {S : SR B} {T : SR A} {emb : B → A} (H : Hom S T emb) {dual : B → R} (hd : Function.Injective dual) {ζ ω : R}
    (h1 : SRRel S fun a x => dual a = x) (h2 : Tame S (fun a x => dual a = x) ζ ω) (x : List ℕ → A) (y : List ℕ → B) (hxy : ∀ e, E e → x e = emb (y e))
    (hset : ∀ e, dual (S.setData (y e) S.zero) = ζ) : row A T x = emb (row B S y) := by
  have k := D.rel' (H.rel h1) (H.tame h2) (x := x) (wp := fun e => dual (y e)) (wm := fun _ => ζ) (fun e he => ⟨y e, hxy e he, rfl⟩)
    (fun e => ⟨S.zero, by rw [H.setData, H.zero], h2.zero⟩)
  have k' := D.rel' h1 h2 (x := y) (wp := fun e => dual (y e)) (wm := fun _ => ζ) (fun e _ => rfl) hset
  obtain ⟨r, hr, hr'⟩ := k
  rw [hr, hd (hr'.trans k'.symm)]

end RowDP

theorem entDual_inj : Function.Injective SemiringRel.entDual := by
  rintro ⟨a, b⟩ ⟨c, d⟩ h
  have h1 := congrArg TrivSqZeroExt.fst h
  have h2 := congrArg TrivSqZeroExt.snd h
  simp only [entDual, dual_fst, dual_snd, smul_eq_mul] at h1 h2
  have e : a = c := Real.exp_injective h1
  subst e
  have := mul_left_cancel₀ (Real.exp_ne_zero a) h2
  rw [show b = d by linarith]

theorem klDual_inj : Function.Injective SemiringRel.klDual := by
  rintro ⟨a, b, b'⟩ ⟨c, d, d'⟩ h
  have h0 := congrArg Prod.snd h
  have h1 := congrArg (fun x => TrivSqZeroExt.fst x.1) h
  have h2 := congrArg (fun x => TrivSqZeroExt.snd x.1) h
  simp only [klDual, dual_fst, dual_snd, smul_eq_mul] at h0 h1 h2
  have e : a = c := Real.exp_injective h1
  have e' : b = d := Real.exp_injective h0
  subst e e'
  have := mul_left_cancel₀ (Real.exp_ne_zero a) h2
  rw [show b' = d' by linarith]

theorem ceDual_inj : Function.Injective SemiringRel.ceDual := by
  rintro ⟨a, b, b'⟩ ⟨c, d, d'⟩ h
  have h0 := congrArg Prod.snd h
  have h1 := congrArg (fun x => TrivSqZeroExt.fst x.1) h
  have h2 := congrArg (fun x => TrivSqZeroExt.snd x.1) h
  simp only [ceDual, dual_fst, dual_snd, smul_eq_mul] at h0 h1 h2
  have e : a = c := Real.exp_injective h1
  have e' : b = d := Real.exp_injective h0
  subst e e'
  have := mul_left_cancel₀ (Real.exp_ne_zero a) h2
  rw [show b' = d' by linarith]

namespace BatchDP
variable {A : Algo} {lengths : Option (List ℕ)} {B : ℕ} {E : ℕ → List ℕ → Prop} {ι π : ℕ → Type} [∀ b, Fintype (ι b)] [∀ b, Fintype (π b)]
  {parts : ∀ b, ι b → Multiset (List ℕ)} {ones : ∀ b, ι b → ℕ} {atoms : ∀ b, π b → Multiset Atom} {p : A.T EReal} {val : List ℕ → EReal}

theorem entropyE_spec (D : BatchDP A p lengths B val E parts ones atoms) :
    ∃ vs, Dist.entropyE A p lengths = .ok vs ∧ vs.length = B ∧ ∀ b (hb : b < vs.length),
      ((∃ t, ∃ e, Atom.pot e ∈ allAtoms (parts b) (ones b) (atoms b) t ∧ val e = ⊥) →
        (∃ t, ∀ e, Atom.pot e ∈ allAtoms (parts b) (ones b) (atoms b) t → val e ≠ ⊥) → vs[b] = IEEE.nan) ∧
      ∀ r : List ℕ → ℝ, (∀ e, E b e → val e = r e) → vs[b] = .ofReal (Gibbs.entropy (tot (parts b) (atoms b) Semirings.negInf r)) := by
  obtain ⟨row, h1, h2⟩ := D.rows
  have h := h1 Semirings.entropyE fun v _ => (v, IEEE.ofReal 0)
  rw [D.map_fst fun v => (v, IEEE.ofReal 0)] at h
  refine ⟨_, by rw [Dist.entropyE, h]; rfl, by simp, fun b hb => ?_⟩
  have hb' : b < B := by simpa using hb
  simp only [List.getElem_map, List.getElem_range]
  have D' := h2 b hb'
  obtain ⟨k1, k2⟩ := D'.spoil entropy_spoil fun e => (val e, IEEE.ofReal 0)
  constructor
  · rintro ⟨t, e, he, hv⟩ hl
    have k3 := k2 hl
    rcases k1 ⟨t, e, he, Or.inl hv⟩ with h | h
    · exact absurd h k3
    · exact h
  · intro r hr
    have := D'.hom entropy_hom entDual_inj (entropyZ_rel _) (tame_entropy _) (fun e => (val e, IEEE.ofReal 0)) (fun e => Semirings.entropyConvert (r e))
      (fun e he => by rw [hr e he]; rfl) (fun e => by simp [entDual, Semirings.entropyZ, Semirings.entropy])
    rw [this]
    exact congrArg IEEE.ofReal (D'.entropy_eq _ r)


theorem klE_spec {p : A.T (EReal × EReal)} {val : List ℕ → EReal × EReal} (D : BatchDP A p lengths B val E parts ones atoms) :
    ∃ vs, (A.run Semirings.klE (A.map (fun x => (x.1, x.2, IEEE.ofReal 0)) p) lengths).map (List.map fun a => a.2.2) = .ok vs ∧ vs.length = B ∧
      ∀ b (hb : b < vs.length),
      ((∃ t, ∃ e, Atom.pot e ∈ allAtoms (parts b) (ones b) (atoms b) t ∧ (val e).1 = ⊥) →
        (∃ t, ∀ e, Atom.pot e ∈ allAtoms (parts b) (ones b) (atoms b) t → (val e).1 ≠ ⊥) → vs[b] = IEEE.nan) ∧
      ∀ r u : List ℕ → ℝ, (∀ e, E b e → val e = ((r e : EReal), (u e : EReal))) →
        vs[b] = .ofReal (Gibbs.kl (tot (parts b) (atoms b) Semirings.negInf r) (tot (parts b) (atoms b) Semirings.negInf u)) := by
  obtain ⟨row, h1, h2⟩ := D.rows
  have h := h1 Semirings.klE fun v _ => (v.1, v.2, IEEE.ofReal 0)
  rw [D.map_fst fun v : EReal × EReal => (v.1, v.2, IEEE.ofReal 0)] at h
  refine ⟨_, by rw [h]; rfl, by simp, fun b hb => ?_⟩
  have hb' : b < B := by simpa using hb
  simp only [List.getElem_map, List.getElem_range]
  have D' := h2 b hb'
  obtain ⟨k1, k2⟩ := D'.spoil kl_spoil fun e => ((val e).1, (val e).2, IEEE.ofReal 0)
  constructor
  · rintro ⟨t, e, he, hv⟩ hl
    have k3 := k2 hl
    rcases k1 ⟨t, e, he, Or.inl hv⟩ with h | h
    · exact absurd h k3
    · exact h
  · intro r u hr
    have := D'.hom kl_hom klDual_inj (klZ_rel _) (tame_kl _) (fun e => ((val e).1, (val e).2, IEEE.ofReal 0)) (fun e => Semirings.pairConvert (r e, u e))
      (fun e he => by rw [hr e he]; rfl) (fun e => by simp [klDual, Semirings.klZ, Semirings.kl])
    rw [this]
    exact congrArg IEEE.ofReal (D'.kl_eq _ r u)

theorem ceE_spec {p : A.T (EReal × EReal)} {val : List ℕ → EReal × EReal} (D : BatchDP A p lengths B val E parts ones atoms) :
    ∃ vs, (A.run Semirings.crossEntropyE (A.map (fun x => (x.1, x.2, IEEE.ofReal 0)) p) lengths).map (List.map fun a => a.2.2) = .ok vs ∧ vs.length = B ∧
      ∀ b (hb : b < vs.length),
      ((∃ t, ∃ e, Atom.pot e ∈ allAtoms (parts b) (ones b) (atoms b) t ∧ (val e).1 = ⊥ ∧ (val e).2 = ⊥) →
        (∃ t, ∀ e, Atom.pot e ∈ allAtoms (parts b) (ones b) (atoms b) t → (val e).1 ≠ ⊥) → vs[b] = IEEE.nan) ∧
      ∀ r u : List ℕ → ℝ, (∀ e, E b e → val e = ((r e : EReal), (u e : EReal))) →
        vs[b] = .ofReal (Gibbs.crossEntropy (tot (parts b) (atoms b) Semirings.negInf r) (tot (parts b) (atoms b) Semirings.negInf u)) := by
  obtain ⟨row, h1, h2⟩ := D.rows
  have h := h1 Semirings.crossEntropyE fun v _ => (v.1, v.2, IEEE.ofReal 0)
  rw [D.map_fst fun v : EReal × EReal => (v.1, v.2, IEEE.ofReal 0)] at h
  refine ⟨_, by rw [h]; rfl, by simp, fun b hb => ?_⟩
  have hb' : b < B := by simpa using hb
  simp only [List.getElem_map, List.getElem_range]
  have D' := h2 b hb'
  obtain ⟨k1, k2⟩ := D'.spoil ce_spoil fun e => ((val e).1, (val e).2, IEEE.ofReal 0)
  constructor
  · rintro ⟨t, e, he, hv⟩ hl
    have k3 := k2 hl
    rcases k1 ⟨t, e, he, Or.inl hv⟩ with h | h
    · exact absurd h.1 k3
    · exact h
  · intro r u hr
    have := D'.hom ce_hom ceDual_inj (crossEntropyZ_rel _) (tame_ce _) (fun e => ((val e).1, (val e).2, IEEE.ofReal 0)) (fun e => Semirings.pairConvert (r e, u e))
      (fun e he => by rw [hr e he]; rfl) (fun e => by simp [ceDual, Semirings.crossEntropyZ, Semirings.crossEntropy])
    rw [this]
    exact congrArg IEEE.ofReal (D'.ce_eq _ r u)

theorem pot_mem {ι π : Type} {parts : ι → Multiset (List ℕ)} {ones : ι → ℕ} {atoms : π → Multiset Atom} (t : ι) (e : List ℕ) :
    Atom.pot e ∈ allAtoms parts ones atoms (Sum.inl t) ↔ e ∈ parts t := by
  simp [allAtoms, Multiset.mem_replicate]

theorem entropy_both (D : BatchDP A p lengths B val E parts ones atoms) {p0 : A.T ℝ} {val0 : List ℕ → ℝ} (D0 : BatchDP A p0 lengths B val0 E parts ones atoms) :
    ∃ vs us, Dist.entropyE A p lengths = .ok vs ∧ Dist.entropy A p0 lengths = .ok us ∧ vs.length = B ∧ us.length = B ∧ ∀ b < B,
      ((∃ t, ∃ e ∈ parts b t, val e = ⊥) → (∃ t, ∀ e ∈ parts b t, val e ≠ ⊥) → vs[b]? = some IEEE.nan) ∧
      ((∀ e, E b e → val e = val0 e) → vs[b]? = us[b]?.map IEEE.ofReal) := by
  obtain ⟨vs, h1, h2, h3⟩ := D.entropyE_spec
  refine ⟨vs, _, h1, D0.entropy_eq, h2, by simp, fun b hb => ?_⟩
  have hb' : b < vs.length := by rw [h2]; exact hb
  obtain ⟨k1, k2⟩ := h3 b hb'
  rw [List.getElem?_eq_getElem hb']
  constructor
  · rintro ⟨t, e, he, hv⟩ ⟨t', ht'⟩
    rw [k1 ⟨.inl t, e, (pot_mem t e).2 he, hv⟩ ⟨.inl t', fun e he => ht' e ((pot_mem t' e).1 he)⟩]
  · intro hr
    rw [k2 val0 hr, List.getElem?_map, List.getElem?_range hb]
    rfl

theorem kl_both {p : A.T (EReal × EReal)} {val : List ℕ → EReal × EReal} (D : BatchDP A p lengths B val E parts ones atoms) {p0 : A.T (ℝ × ℝ)}
    {val0 : List ℕ → ℝ × ℝ} (D0 : BatchDP A p0 lengths B val0 E parts ones atoms) :
    ∃ vs us, (A.run Semirings.klE (A.map (fun x => (x.1, x.2, IEEE.ofReal 0)) p) lengths).map (List.map fun a => a.2.2) = .ok vs ∧
      (A.run Semirings.kl (A.map Semirings.pairConvert p0) lengths).map (List.map fun a => a.2.2) = .ok us ∧ vs.length = B ∧ us.length = B ∧ ∀ b < B,
      ((∃ t, ∃ e ∈ parts b t, (val e).1 = ⊥) → (∃ t, ∀ e ∈ parts b t, (val e).1 ≠ ⊥) → vs[b]? = some IEEE.nan) ∧
      ((∀ e, E b e → val e = (((val0 e).1 : EReal), ((val0 e).2 : EReal))) → vs[b]? = us[b]?.map IEEE.ofReal) := by
  obtain ⟨vs, h1, h2, h3⟩ := D.klE_spec
  refine ⟨vs, _, h1, D0.kl_eq, h2, by simp, fun b hb => ?_⟩
  have hb' : b < vs.length := by rw [h2]; exact hb
  obtain ⟨k1, k2⟩ := h3 b hb'
  rw [List.getElem?_eq_getElem hb']
  constructor
  · rintro ⟨t, e, he, hv⟩ ⟨t', ht'⟩
    rw [k1 ⟨.inl t, e, (pot_mem t e).2 he, hv⟩ ⟨.inl t', fun e he => ht' e ((pot_mem t' e).1 he)⟩]
  · intro hr
    rw [k2 _ _ hr, List.getElem?_map, List.getElem?_range hb]
    rfl

theorem ce_both {p : A.T (EReal × EReal)} {val : List ℕ → EReal × EReal} (D : BatchDP A p lengths B val E parts ones atoms) {p0 : A.T (ℝ × ℝ)}
    {val0 : List ℕ → ℝ × ℝ} (D0 : BatchDP A p0 lengths B val0 E parts ones atoms) :
    ∃ vs us, (A.run Semirings.crossEntropyE (A.map (fun x => (x.1, x.2, IEEE.ofReal 0)) p) lengths).map (List.map fun a => a.2.2) = .ok vs ∧
      (A.run Semirings.crossEntropy (A.map Semirings.pairConvert p0) lengths).map (List.map fun a => a.2.2) = .ok us ∧ vs.length = B ∧ us.length = B ∧ ∀ b < B,
      ((∃ t, ∃ e ∈ parts b t, (val e).1 = ⊥ ∧ (val e).2 = ⊥) → (∃ t, ∀ e ∈ parts b t, (val e).1 ≠ ⊥) → vs[b]? = some IEEE.nan) ∧
      ((∀ e, E b e → val e = (((val0 e).1 : EReal), ((val0 e).2 : EReal))) → vs[b]? = us[b]?.map IEEE.ofReal) := by
  obtain ⟨vs, h1, h2, h3⟩ := D.ceE_spec
  refine ⟨vs, _, h1, D0.ce_eq, h2, by simp, fun b hb => ?_⟩
  have hb' : b < vs.length := by rw [h2]; exact hb
  obtain ⟨k1, k2⟩ := h3 b hb'
  rw [List.getElem?_eq_getElem hb']
  constructor
  · rintro ⟨t, e, he, hv⟩ ⟨t', ht'⟩
    rw [k1 ⟨.inl t, e, (pot_mem t e).2 he, hv⟩ ⟨.inl t', fun e he => ht' e ((pot_mem t' e).1 he)⟩]
  · intro hr
    rw [k2 _ _ hr, List.getElem?_map, List.getElem?_range hb]
    rfl

end BatchDP
end Generic

/-! ### Chains -/

namespace InfEntropy
open LinearChainProofs

variable {A B : Type} {C : ℕ}

open Classical in
/-- In a chain the stand-in `-1e5` keeps the partition finite, so that one spoiled transition spoils the row. -/
theorem chain_spoil {S : SR A} {bad dead : A → Prop} (H : Spoil S bad dead) (hC : 0 < C) {N logN : ℕ} (lens : ℕ → ℕ) (lp : ℕ → ℕ → Fin C → Fin C → A) (b : ℕ)
    (hlen : lens b ≤ N) (hlog : N - 1 ≤ 2 ^ logN) :
    ¬ dead (LinearChain.core S N logN lens lp b) ∧
    ((∃ n < lens b - 1, ∃ i j, bad (lp b n i j)) → bad (LinearChain.core S N logN lens lp b)) := by
  set f : A → ℕ × ℕ := fun a => (if bad a then 1 else 0, if dead a then 1 else 0) with hf
  have hcl : ∀ n (i j : Fin C), ¬ dead (maskedC S (lens b) n i j) := by
    intro n i j
    simp only [maskedC, SR.fill, H.setData, H.detach]
    split_ifs
    exacts [H.zero, H.one, H.zero]
  have k := core_rel H.rel hC N logN lens lp b
    (fun n i j => Bag.single (f (maskedC S (lens b) n i j)) + Bag.single (f (maskedL S N (lens b) (lp b) n i j)))
    (fun n _ i j => H.rel.sum2 (tracks_leaf _) (tracks_leaf _))
  have hmem : ∀ (y : Tags (2 ^ logN) C) (c : Fin (2 ^ logN) → ℕ × ℕ), (∀ n : Fin (2 ^ logN), c n = f (maskedC S (lens b) n (y n.succ) (y n.castSucc)) ∨
      c n = f (maskedL S N (lens b) (lp b) n (y n.succ) (y n.castSucc))) → ∑ n, c n ∈ (chainSum (2 ^ logN)
        (fun n i j => Bag.single (f (maskedC S (lens b) n i j)) + Bag.single (f (maskedL S N (lens b) (lp b) n i j)))).ms := by
    intro y c hc
    refine Bag.mem_sum.2 ⟨y, mem_univ y, Bag.mem_prod.2 ⟨c, fun n _ => ?_, rfl⟩⟩
    rw [Bag.ms_add, Multiset.mem_add, Bag.ms_single, Bag.ms_single, Multiset.mem_singleton, Multiset.mem_singleton]
    exact hc n
  constructor
  · refine k.2.2 ⟨_, hmem (fun _ => ⟨0, hC⟩) _ fun n => Or.inl rfl, ?_⟩
    rw [Prod.snd_sum]
    exact sum_eq_zero fun n _ => if_neg (hcl _ _ _)
  · rintro ⟨n, hn, i, j, hb⟩
    have hn' : n < 2 ^ logN := by omega
    refine k.2.1 ⟨_, hmem (fun m => if (m : ℕ) = n + 1 then i else j) (fun m => f (maskedL S N (lens b) (lp b) m _ _)) fun n => Or.inr rfl, ?_⟩
    rw [Prod.fst_sum]
    refine ne_of_gt (lt_of_lt_of_le zero_lt_one (le_trans (le_of_eq ?_) (single_le_sum (fun _ _ => Nat.zero_le _) (mem_univ (⟨n, hn'⟩ : Fin (2 ^ logN))))))
    refine (if_pos ?_).symm
    have h1 : n < N - 1 := by omega
    have h2 : ¬ lens b - 1 ≤ n := by omega
    simp only [maskedL, H.setData, H.detach, SR.fill, ge_iff_le, h2, decide_false, h1, if_true, Fin.val_succ, Fin.val_castSucc, Bool.false_eq_true, if_false,
      show ¬ n = n + 1 by omega]
    exact hb

theorem chain_hom {R : Type} [CommSemiring R] {S : SR B} {T : SR A} {emb : B → A} (H : Hom S T emb) {dual : B → R} (hd : Function.Injective dual)
    (h1 : SRRel S fun a x => dual a = x) (hp : ∀ a v, S.setData a v = v) (hp' : ∀ v, S.detach v = v) (hC : 0 < C) {N logN : ℕ} (lens : ℕ → ℕ)
    (lp : ℕ → ℕ → Fin C → Fin C → A) (lq : ℕ → ℕ → Fin C → Fin C → B) (b : ℕ) (hlen : lens b ≤ N)
    (hl : ∀ n < lens b - 1, ∀ i j, lp b n i j = emb (lq b n i j)) : LinearChain.core T N logN lens lp b = emb (LinearChain.core S N logN lens lq b) := by
  have hc : ∀ n (i j : Fin C), maskedC T (lens b) n i j = emb (maskedC S (lens b) n i j) := by
    intro n i j
    simp only [maskedC, SR.fill, H.setData, H.detach, hp, hp']
    split_ifs
    exacts [H.zero, H.one, H.zero]
  have hL : ∀ n (i j : Fin C), maskedL T N (lens b) (lp b) n i j = emb (maskedL S N (lens b) (lq b) n i j) := by
    intro n i j
    simp only [maskedL, SR.fill, H.setData, H.detach, hp, hp', ge_iff_le]
    by_cases h2 : lens b - 1 ≤ n
    · simp only [h2, decide_true, if_true]
      exact H.zero
    · have h3 : n < N - 1 := by omega
      simp only [h2, h3, decide_false, if_true, Bool.false_eq_true, if_false]
      exact hl n (by omega) i j
  have k := core_rel h1 hC N logN lens lq b
    (fun n i j => dual (maskedC S (lens b) n i j) + dual (maskedL S N (lens b) (lq b) n i j)) (fun n _ i j => h1.sum2 rfl rfl)
  have k' := core_rel (H.rel h1) hC N logN lens lp b
    (fun n i j => dual (maskedC S (lens b) n i j) + dual (maskedL S N (lens b) (lq b) n i j))
    (fun n _ i j => (H.rel h1).sum2 ⟨_, hc n i j, rfl⟩ ⟨_, hL n i j, rfl⟩)
  obtain ⟨r, hr, hr'⟩ := k'
  rw [hr, hd (hr'.trans k.symm)]

end InfEntropy
