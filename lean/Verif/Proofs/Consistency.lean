import Verif.Proofs.Param
import Verif.Proofs.Bag
import Verif.Proofs.SemiringRel
import Verif.Props.SemiringLaws

/-! Relations between the semirings of the library. -/

open Finset Semirings

noncomputable section
namespace Consistency

/-- Two semirings side by side. -/
def prod {α β : Type} (S : SR α) (S' : SR β) : SR (α × β) where
  zero := (S.zero, S'.zero)
  one := (S.one, S'.one)
  mul a b := (S.mul a.1 b.1, S'.mul a.2 b.2)
  sum xs := (S.sum (xs.map Prod.fst), S'.sum (xs.map Prod.snd))
  raw0 := (S.raw0, S'.raw0)
  detach a := (S.detach a.1, S'.detach a.2)
  setData a b := (S.setData a.1 b.1, S'.setData a.2 b.2)

theorem forall₂_map {α β : Type} {f : α → β} {as : List α} {bs : List β} (h : List.Forall₂ (fun a b => f a = b) as bs) : as.map f = bs := by
  induction h with
  | nil => rfl
  | cons h _ ih => rw [List.map_cons, h, ih]

theorem prod_fst {α β : Type} (S : SR α) (S' : SR β) : SRP (prod S S') S fun a b => a.1 = b where
  zero := rfl
  one := rfl
  raw0 := rfl
  mul := by rintro a b _ _ rfl rfl; rfl
  sum := by intro as xs _ h; rw [← forall₂_map h]; rfl
  detach := by rintro a _ rfl; rfl
  setData := by rintro a b _ _ rfl rfl; rfl

theorem prod_snd {α β : Type} (S : SR α) (S' : SR β) : SRP (prod S S') S' fun a b => a.2 = b where
  zero := rfl
  one := rfl
  raw0 := rfl
  mul := by rintro a b _ _ rfl rfl; rfl
  sum := by intro as xs _ h; rw [← forall₂_map h]; rfl
  detach := by rintro a _ rfl; rfl
  setData := by rintro a b _ _ rfl rfl; rfl

theorem forall₂_pull {α β γ : Type} {ρ : α → β → Prop} {as : List α} {bs : List β} (h : List.Forall₂ ρ as bs) {f : α → γ} {g : β → γ} (hfg : ∀ a b, ρ a b → f a = g b) :
    as.map f = bs.map g := by
  induction h with
  | nil => rfl
  | cons h _ ih => rw [List.map_cons, List.map_cons, hfg _ _ h, ih]

theorem map_congr_rel {α β γ : Type} {ρ : α → β → Prop} {x : Except PyErr (List α)} {y : Except PyErr (List β)} (H : RelE ρ x y) {f : α → γ} {g : β → γ}
    (hfg : ∀ a b, ρ a b → f a = g b) : x.map (List.map f) = y.map (List.map g) := by
  rcases x with e | as <;> rcases y with e' | bs
  · exact congrArg _ (show e = e' from H)
  · exact H.elim
  · exact H.elim
  · exact congrArg Except.ok (forall₂_pull H hfg)

/-- KL divergence = cross entropy - entropy. -/
theorem kl_sub (z : ℝ) : SRP (klZ z) (prod (crossEntropyZ z) (entropyZ z))
    fun k x => x.1.1 = k.1 ∧ x.1.2.1 = k.2.1 ∧ x.2.1 = k.1 ∧ k.2.2 = x.1.2.2 - x.2.2 where
  zero := by simp [klZ, prod, crossEntropyZ, entropyZ]
  one := by simp [klZ, prod, crossEntropyZ, entropyZ]
  raw0 := by simp [klZ, prod, crossEntropyZ, entropyZ]
  mul := by
    rintro a b x y ⟨h1, h2, h3, h4⟩ ⟨g1, g2, g3, g4⟩
    refine ⟨?_, ?_, ?_, ?_⟩ <;> simp only [klZ, prod, crossEntropyZ, entropyZ] <;> linarith
  sum := by
    intro as xs hne h
    clear hne
    have e1 : as.map (fun x => x.1) = xs.map fun x => x.1.1 := forall₂_pull h fun a b h => h.1.symm
    have e2 : as.map (fun x => x.2.1) = xs.map fun x => x.1.2.1 := forall₂_pull h fun a b h => h.2.1.symm
    have e3 : as.map (fun x => x.1) = xs.map fun x => x.2.1 := forall₂_pull h fun a b h => h.2.2.1.symm
    refine ⟨?_, ?_, ?_, ?_⟩
    · simp only [klZ, prod, crossEntropyZ, List.map_map]; rw [e1]; rfl
    · simp only [klZ, prod, crossEntropyZ, List.map_map]; rw [e2]; rfl
    · simp only [klZ, prod, entropyZ, List.map_map]; rw [e3]; rfl
    · simp only [klZ, prod, crossEntropyZ, entropyZ, List.map_map]
      have f1 : ((fun x : ℝ × ℝ × ℝ => x.1) ∘ Prod.fst) = fun x : (ℝ × ℝ × ℝ) × ℝ × ℝ => x.1.1 := rfl
      have f2 : ((fun x : ℝ × ℝ × ℝ => x.2.1) ∘ Prod.fst) = fun x : (ℝ × ℝ × ℝ) × ℝ × ℝ => x.1.2.1 := rfl
      have f3 : ((Prod.fst : ℝ × ℝ → ℝ) ∘ Prod.snd) = fun x : (ℝ × ℝ × ℝ) × ℝ × ℝ => x.2.1 := rfl
      rw [f1, f2, f3, ← e1, ← e2, ← e3]
      generalize lse (as.map fun x => x.1) = P
      generalize lse (as.map fun x => x.2.1) = Q
      clear e1 e2 e3
      induction h with
      | nil => simp
      | cons h _ ih =>
        obtain ⟨h1, h2, h3, h4⟩ := h
        simp only [List.map_cons, List.sum_cons, Function.comp_apply, ih, h1, h2, h3, h4]
        ring
  detach := fun h => h
  setData := fun _ h => h

/-- Cross entropy with itself = entropy. -/
theorem ce_self (z : ℝ) : SRP (crossEntropyZ z) (entropyZ z) fun c x => c.1 = x.1 ∧ c.2.1 = x.1 ∧ c.2.2 = x.2 where
  zero := by simp [crossEntropyZ, entropyZ]
  one := by simp [crossEntropyZ, entropyZ]
  raw0 := by simp [crossEntropyZ, entropyZ]
  mul := by
    rintro a b x y ⟨h1, h2, h3⟩ ⟨g1, g2, g3⟩
    refine ⟨?_, ?_, ?_⟩ <;> simp only [crossEntropyZ, entropyZ] <;> linarith
  sum := by
    intro as xs _ h
    have e1 : as.map (fun x => x.1) = xs.map Prod.fst := forall₂_pull h fun a b h => h.1
    have e2 : as.map (fun x => x.2.1) = xs.map Prod.fst := forall₂_pull h fun a b h => h.2.1
    simp only [crossEntropyZ, entropyZ]
    rw [e1, e2]
    refine ⟨rfl, rfl, congrArg _ (forall₂_pull h fun a b h => ?_)⟩
    rw [h.1, h.2.1, h.2.2]
  detach := fun h => h
  setData := fun _ h => h

/-- The divergence from itself is 0. -/
theorem kl_self (z : ℝ) : SRP (klZ z) (logZ z) fun c x => c.1 = x ∧ c.2.1 = x ∧ c.2.2 = 0 where
  zero := by simp [klZ, logZ]
  one := by simp [klZ, logZ]
  raw0 := by simp [klZ, logZ]
  mul := by
    rintro a b x y ⟨h1, h2, h3⟩ ⟨g1, g2, g3⟩
    refine ⟨?_, ?_, ?_⟩ <;> simp only [klZ, logZ] <;> linarith
  sum := by
    intro as xs _ h
    have e1 : as.map (fun x => x.1) = xs := by
      have := forall₂_pull h (f := fun x => x.1) (g := fun x => x) fun a b h => h.1
      rwa [List.map_id'] at this
    have e2 : as.map (fun x => x.2.1) = xs := by
      have := forall₂_pull h (f := fun x => x.2.1) (g := fun x => x) fun a b h => h.2.1
      rwa [List.map_id'] at this
    simp only [klZ, logZ]
    rw [e1, e2]
    refine ⟨rfl, rfl, ?_⟩
    rw [forall₂_pull h (g := fun _ => (0 : ℝ)) fun a b h => by rw [h.1, h.2.1, h.2.2]; ring]
    simp
  detach := fun h => h
  setData := fun _ h => h

/-! ### Order -/

theorem exists_rel {α β : Type} {ρ : α → β → Prop} {as : List α} {bs : List β} (h : List.Forall₂ ρ as bs) {a : α} (ha : a ∈ as) : ∃ b ∈ bs, ρ a b := by
  induction h with
  | nil => simp at ha
  | cons h _ ih =>
    rcases List.mem_cons.1 ha with rfl | ha
    · exact ⟨_, by simp, h⟩
    · obtain ⟨b, hb, hr⟩ := ih ha
      exact ⟨b, by simp [hb], hr⟩

theorem forall₂_ne {α β : Type} {ρ : α → β → Prop} {as : List α} {bs : List β} (h : List.Forall₂ ρ as bs) (hne : as ≠ []) : bs ≠ [] := by
  cases h with
  | nil => exact absurd rfl hne
  | cons => simp

theorem le_lse {xs : List ℝ} {x : ℝ} (h : x ∈ xs) : x ≤ lse xs := by
  have hne : xs ≠ [] := List.ne_nil_of_mem h
  rw [← Real.exp_le_exp, SemiringRel.exp_lse hne]
  exact List.single_le_sum (by intro y hy; obtain ⟨z, _, rfl⟩ := List.mem_map.1 hy; exact (Real.exp_pos z).le) _ (List.mem_map.2 ⟨x, h, rfl⟩)

theorem lse_mono {as bs : List ℝ} (hne : as ≠ []) (h : List.Forall₂ (· ≤ ·) as bs) : lse as ≤ lse bs := by
  rw [← Real.exp_le_exp, SemiringRel.exp_lse hne, SemiringRel.exp_lse (forall₂_ne h hne)]
  refine List.Forall₂.sum_le_sum ?_
  rw [List.forall₂_map_left_iff, List.forall₂_map_right_iff]
  exact h.imp fun a b h => Real.exp_le_exp.2 h

theorem listMax_mono {as bs : List ℝ} (hne : as ≠ []) (h : List.Forall₂ (· ≤ ·) as bs) : listMax as ≤ listMax bs := by
  obtain ⟨b, hb, hab⟩ := exists_rel h (Bag.listMax_spec as hne).1
  exact hab.trans ((Bag.listMax_spec bs (forall₂_ne h hne)).2 b hb)

/-- The best score is at most the log of the sum. -/
theorem max_le : SRP Semirings.max log (· ≤ ·) where
  zero := le_refl negInf
  one := le_refl (0 : ℝ)
  raw0 := le_refl (0 : ℝ)
  mul := fun h g => add_le_add h g
  sum := by
    intro as xs hne h
    obtain ⟨b, hb, hab⟩ := exists_rel h (Bag.listMax_spec as hne).1
    exact hab.trans (le_lse hb)
  detach := fun h => h
  setData := fun _ h => h

/-- `LogSemiring` is monotone. -/
theorem log_mono : SRP log log (· ≤ ·) where
  zero := le_refl negInf
  one := le_refl (0 : ℝ)
  raw0 := le_refl (0 : ℝ)
  mul := fun h g => add_le_add h g
  sum := fun hne h => lse_mono hne h
  detach := fun h => h
  setData := fun _ h => h

/-- `MaxSemiring` is monotone. -/
theorem max_mono : SRP Semirings.max Semirings.max (· ≤ ·) where
  zero := le_refl negInf
  one := le_refl (0 : ℝ)
  raw0 := le_refl (0 : ℝ)
  mul := fun h g => add_le_add h g
  sum := fun hne h => listMax_mono hne h
  detach := fun h => h
  setData := fun _ h => h

/-! ### The first slots of `KMaxSemiring` -/

theorem topk_take {k k' : ℕ} (h : k ≤ k') (xs : List ℝ) : (topk k' xs).take k = topk k xs := by
  rw [topk, topk, List.take_take, min_eq_left h]

theorem topk_slots {k : ℕ} {xs : List ℝ} (h : k ≤ xs.length) : (topk k xs).length = k ∧ (topk k xs).Pairwise (· ≥ ·) := by
  obtain ⟨rest, -, h1, h2, -⟩ := Bag.topk_spec k xs h
  exact ⟨h1, h2.imp fun h => h⟩

theorem isTop_take {k k' : ℕ} (hkk : k ≤ k') {a : List ℝ} (h1 : a.length = k') (h2 : a.Pairwise (· ≥ ·)) :
    Bag.IsTop (fun x : ℝ => x) k (a.take k) (Bag.ofList a) := by
  rw [← List.take_append_drop k a, List.pairwise_append] at h2
  refine ⟨(a.drop k : List ℝ), ?_, by simp [h1, hkk], h2.1.imp fun h => h, fun x hx y hy => h2.2.2 x hx y (by simpa using hy)⟩
  rw [Bag.ms_ofList, Multiset.coe_add, List.take_append_drop]

theorem replicate_slots {k k' : ℕ} (hkk : k ≤ k') (x : ℝ) :
    (List.replicate k' x).take k = List.replicate k x ∧ (List.replicate k' x).length = k' ∧ (List.replicate k' x).Pairwise (· ≥ ·) :=
  ⟨by simp [hkk], by simp, List.pairwise_replicate.2 (Or.inr (le_refl x))⟩

theorem convert_slots {k k' : ℕ} (hkk : k ≤ k') {x : ℝ} (hx : negInf ≤ x) :
    (kmaxConvert k' x).take k = kmaxConvert k x ∧ (kmaxConvert k' x).length = k' ∧ (kmaxConvert k' x).Pairwise (· ≥ ·) := by
  refine ⟨?_, by simp [kmaxConvert], ?_⟩
  · rw [kmaxConvert, kmaxConvert, ← List.map_take, List.take_range, min_eq_left hkk]
  · rw [kmaxConvert, List.pairwise_map]
    refine List.Pairwise.imp ?_ List.pairwise_lt_range
    intro i j hij
    rw [if_neg (show j ≠ 0 by omega)]
    split_ifs
    · exact hx
    · exact le_refl _

/-- `KMaxSemiring(k)` computes the first `k` slots of `KMaxSemiring(k')`. -/
theorem kmax_prefix {k k' : ℕ} (hk : 0 < k) (hkk : k ≤ k') : SRP (kmax k') (kmax k) fun a b => a.take k = b ∧ a.length = k' ∧ a.Pairwise (· ≥ ·) where
  zero := replicate_slots hkk _
  one := convert_slots hkk (by norm_num [negInf])
  raw0 := replicate_slots hkk _
  mul := by
    rintro a b _ _ ⟨rfl, h1, h2⟩ ⟨rfl, g1, g2⟩
    have hlen : k' ≤ (a.flatMap fun x => b.map fun y => x + y).length := by
      simp only [List.length_flatMap, List.length_map, List.map_const', List.sum_replicate, h1, g1, smul_eq_mul]
      exact Nat.le_mul_of_pos_left k' (by omega)
    refine ⟨?_, topk_slots hlen⟩
    refine (topk_take hkk _).trans (Props.SemiringLaws.isTop_unique (k := k) (x := Bag.ofList a * Bag.ofList b) ?_ ?_)
    · rw [Bag.ofList_mul]; exact Bag.topk_spec k _ (hkk.trans hlen)
    · exact (Bag.kmax_isTopSR hk).rel.mul (isTop_take hkk h1 h2) (isTop_take hkk g1 g2)
  sum := by
    intro as xs hne h
    have hlen : k' ≤ as.flatten.length := by
      cases h with
      | nil => exact absurd rfl hne
      | cons h _ => rw [List.flatten_cons, List.length_append, h.2.1]; omega
    refine ⟨?_, topk_slots hlen⟩
    refine (topk_take hkk _).trans (Props.SemiringLaws.isTop_unique (k := k) (x := (as.map Bag.ofList).sum) ?_ ?_)
    · have : (as.map Bag.ofList).sum = Bag.ofList as.flatten := by
        clear hne h hlen
        induction as with
        | nil => rfl
        | cons a as ih => rw [List.map_cons, List.sum_cons, ih, List.flatten_cons]; rfl
      rw [this]; exact Bag.topk_spec k _ (hkk.trans hlen)
    · refine (Bag.kmax_isTopSR hk).rel.sum (forall₂_ne h hne) ?_
      clear hne hlen
      induction h with
      | nil => exact .nil
      | cons h _ ih => exact .cons (h.1 ▸ isTop_take hkk h.2.1 h.2.2) ih
  detach := fun h => h
  setData := fun _ h => h

theorem topk_one {xs : List ℝ} (h : xs ≠ []) : topk 1 xs = [listMax xs] := by
  refine Props.SemiringLaws.isTop_unique (Bag.topk_spec 1 xs (List.length_pos_iff.2 h)) ?_
  obtain ⟨h1, h2⟩ := Bag.listMax_spec xs h
  classical
  refine ⟨(xs : Multiset ℝ).erase (listMax xs), ?_, rfl, List.pairwise_singleton _ _, ?_⟩
  · rw [Bag.ms_ofList, Multiset.coe_singleton, Multiset.singleton_add, Multiset.cons_erase (by simpa using h1)]
  · intro a ha b hb
    rw [List.mem_singleton.1 ha]
    exact h2 b (by simpa using Multiset.mem_of_mem_erase hb)

/-- `KMaxSemiring(1)` is `MaxSemiring`. -/
theorem kmax_one : SRP (kmax 1) Semirings.max fun a m => a = [m] where
  zero := rfl
  one := rfl
  raw0 := rfl
  mul := by
    rintro _ _ x y rfl rfl
    show topk 1 [x + y] = [x + y]
    rw [topk_one (by simp)]; rfl
  sum := by
    intro as xs hne h
    have e : as.flatten = xs := by
      clear hne
      induction h with
      | nil => rfl
      | cons h _ ih => rw [List.flatten_cons, h, ih]; rfl
    show topk 1 as.flatten = [listMax xs]
    rw [e, topk_one (forall₂_ne h hne)]
  detach := fun h => h
  setData := fun _ h => h

end Consistency
