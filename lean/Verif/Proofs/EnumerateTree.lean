import Verif.Proofs.Enumerate
import Verif.Proofs.Bag
import Verif.Proofs.CKYCRF
import Verif.Proofs.Grammar

/-! `CKY_CRFTest.enumerate` and `CKYTest.enumerate` (tests/extensions.py) list every tree exactly once. -/

open Finset Spec

namespace EnumerateProofs
open Enumerate

theorem list_sum_range {B : Type} [CommSemiring B] (n : ℕ) (g : ℕ → B) : ((List.range n).map g).sum = ∑ a ∈ range n, g a := rfl

theorem list_sum_finRange {B : Type} [CommSemiring B] (n : ℕ) (g : Fin n → B) : ((List.finRange n).map g).sum = ∑ a, g a := (Fin.sum_univ_def g).symm

section bag
variable {α R : Type} [CommSemiring R] {S : SR α} {f : α → R}

/-- The weights of row `b`, as a bag. -/
def bag (f : α → R) (b : ℕ) (L : List (ℕ → α)) : Bag (Additive R) := ((L.map fun s => Additive.ofMul (f (s b)) : List (Additive R)) : Multiset (Additive R))

theorem bag_nil (b : ℕ) : bag f b [] = 0 := rfl

theorem bag_append (b : ℕ) (L L' : List (ℕ → α)) : bag f b (L ++ L') = bag f b L + bag f b L' := by
  apply Bag.ext
  rw [Bag.ms_add]
  show ((List.map _ (L ++ L') : List (Additive R)) : Multiset (Additive R)) = _
  rw [List.map_append, ← Multiset.coe_add]
  rfl

theorem bag_single (b : ℕ) (s : ℕ → α) : bag f b [s] = Bag.single (Additive.ofMul (f (s b))) := rfl

theorem bag_flatMap {ι : Type} (b : ℕ) (l : List ι) (g : ι → List (ℕ → α)) : bag f b (l.flatMap g) = (l.map fun a => bag f b (g a)).sum := by
  induction l with
  | nil => rfl
  | cons a l ih => rw [List.flatMap_cons, bag_append, ih, List.map_cons, List.sum_cons]

theorem bag_map (b : ℕ) (B : List (ℕ → α)) (h : (ℕ → α) → ℕ → α) (c : R) (hh : ∀ m, f (h m b) = f (m b) * c) :
    bag f b (B.map h) = bag f b B * Bag.single (Additive.ofMul c) := by
  induction B with
  | nil => exact (zero_mul (Bag.single (Additive.ofMul c))).symm
  | cons m B ih =>
    have e1 : bag f b ((m :: B).map h) = bag f b [h m] + bag f b (B.map h) := bag_append b [h m] (B.map h)
    have e2 : bag f b (m :: B) = bag f b [m] + bag f b B := bag_append b [m] B
    rw [e1, e2, add_mul, ih, bag_single, bag_single, Bag.single_mul, hh]
    rfl

theorem bag_pair (b : ℕ) (A B : List (ℕ → α)) (h : (ℕ → α) → (ℕ → α) → ℕ → α) (c : R) (hh : ∀ m1 m2, f (h m1 m2 b) = f (m1 b) * f (m2 b) * c) :
    bag f b (A.flatMap fun m1 => B.map fun m2 => h m1 m2) = bag f b A * bag f b B * Bag.single (Additive.ofMul c) := by
  rw [bag_flatMap]
  induction A with
  | nil => rw [bag_nil, zero_mul, zero_mul]; rfl
  | cons m A ih =>
    have e2 : bag f b (m :: A) = bag f b [m] + bag f b A := bag_append b [m] A
    rw [List.map_cons, List.sum_cons, ih, e2, add_mul, add_mul, bag_single]
    congr 1
    rw [bag_map (h := h m) (c := f (m b) * c) (hh := fun m2 => by rw [hh]; ring), mul_comm (Bag.single _) (bag f b B), mul_assoc, Bag.single_mul]
    rfl

end bag

/-! ### Labelled trees -/

section tree
variable {α R : Type} [CommSemiring R] {S : SR α} {f : α → R}

theorem times_two (H : Reads S f) (a b c : α) : f (S.times a [b, c]) = f a * f b * f c := by
  simp only [SR.times, List.foldl_cons, List.foldl_nil, H.mul]

theorem times_one (H : Reads S f) (a b : α) : f (S.times a [b]) = f a * f b := by
  simp only [SR.times, List.foldl_cons, List.foldl_nil, H.mul]

theorem treeScores_bag (H : Reads S f) (NT : ℕ) (scores : ℕ → ℕ → ℕ → ℕ → α) (b : ℕ) (w : ℕ) : ∀ i,
    ((List.range NT).map fun x => bag f b (treeScores S NT scores x i w)).sum =
      CKYCRFProofs.inside NT (fun i j a => Bag.single (Additive.ofMul (f (scores b i j a)))) i w := by
  induction w using Nat.strong_induction_on with
  | _ w ih =>
    intro i
    cases w with
    | zero =>
      rw [CKYCRFProofs.inside_zero]
      simp only [treeScores, bag_single]
      rfl
    | succ w =>
      rw [CKYCRFProofs.inside_succ, sum_range, sum_mul_sum, sum_comm]
      rw [list_sum_range]
      refine sum_congr rfl fun x _ => ?_
      rw [treeScores, bag_flatMap, list_sum_finRange]
      refine sum_congr rfl fun k _ => ?_
      rw [← ih k (by have := k.2; omega) i, ← ih (w - k) (by omega) (i + k + 1), bag_flatMap]
      simp only [bag_flatMap (l := List.range NT), list_sum_range]
      rw [sum_mul_sum, sum_mul]
      refine sum_congr rfl fun y _ => ?_
      rw [sum_mul]
      refine sum_congr rfl fun z _ => ?_
      rw [bag_pair (h := fun m1 m2 b => S.times (m1 b) [m2 b, scores b i (i + w + 1) x]) (hh := fun m1 m2 => times_two H _ _ _)]
      rfl

theorem prod_singles (l : List R) : (l.map fun r => Bag.single (Additive.ofMul r)).prod = Bag.single (Additive.ofMul l.prod) := by
  induction l with
  | nil => rfl
  | cons a l ih => rw [List.map_cons, List.prod_cons, ih, Bag.single_mul, List.prod_cons]; rfl

/-- From bags back to lists. -/
theorem multiset_of_bag {Y : Type} [Fintype Y] {b : ℕ} {L : List (ℕ → α)} {wt : Y → R}
    (h : bag f b L = ∑ y, Bag.single (Additive.ofMul (wt y))) : ((L.map fun s => f (s b) : List R) : Multiset R) = (univ : Finset Y).val.map wt := by
  have h1 : (bag f b L).ms = (univ : Finset Y).val.map fun y => Additive.ofMul (wt y) := by
    rw [h]
    have : ∀ s : Finset Y, (∑ y ∈ s, Bag.single (Additive.ofMul (wt y))).ms = s.val.map fun y => Additive.ofMul (wt y) := by
      classical
      intro s
      induction s using Finset.induction_on with
      | empty => rfl
      | insert a s ha ih => rw [sum_insert ha, insert_val_of_notMem ha, Multiset.map_cons, Bag.ms_add, ih]; rfl
    exact this univ
  have h2 := congrArg (Multiset.map Additive.toMul) h1
  have e : (bag f b L).ms = ((L.map fun s => Additive.ofMul (f (s b)) : List (Additive R)) : Multiset (Additive R)) := rfl
  rw [e, Multiset.map_coe, List.map_map, Multiset.map_map] at h2
  exact h2

/-- Every labelled tree is enumerated exactly once, with the product of its spans. -/
theorem treeScores_enum (H : Reads S f) (NT : ℕ) (scores : ℕ → ℕ → ℕ → ℕ → α) (b w : ℕ) :
    ((((List.range NT).flatMap fun nt => treeScores S NT scores nt 0 w).map fun s => f (s b) : List R) : Multiset R) =
      (univ : Finset (Trees NT (w + 1))).val.map fun t => treeProd (fun i j a => f (scores b i j a)) t := by
  apply multiset_of_bag
  rw [bag_flatMap, treeScores_bag H, CKYCRFProofs.inside]
  refine sum_congr rfl fun t _ => ?_
  rw [treeProd, ← prod_singles, List.map_map]
  rfl

end tree

/-! ### Derivations -/

section cfg
variable {α R : Type} [CommSemiring R] {S : SR α} {f : α → R}

/-- The weight of a derivation whose first word is word `i`, without the root. -/
def dweight {NT T : ℕ} (term : ℕ → ℕ → R) (rule : ℕ → ℕ → ℕ → R) (i : ℕ) (d : Deriv NT T) : R :=
  (d.rules.map fun x => rule x.1 x.2.1 x.2.2).prod * ((d.words i).map fun x => term x.1 x.2).prod

theorem dweight_node {NT T : ℕ} (term : ℕ → ℕ → R) (rule : ℕ → ℕ → ℕ → R) (i : ℕ) (X : Fin NT) (l r : Deriv NT T) :
    dweight term rule i (.node X l r) = dweight term rule i l * dweight term rule (i + l.size) r * rule X l.sym r.sym := by
  simp only [dweight, Deriv.rules, Deriv.words, List.map_cons, List.prod_cons, List.map_append, List.prod_append]
  ring

/-- The symbols that the enumeration tries for a span of `k + 1` words. -/
def syms (NT T k : ℕ) : List ℕ := if k ≠ 0 then List.range NT else List.range' NT T

theorem syms_nodup (NT T k : ℕ) : (syms NT T k).Nodup := by
  rw [syms]; split_ifs
  · exact List.nodup_range
  · exact List.nodup_range'

theorem sym_mem {NT T k : ℕ} (t : GTrees NT (Fin T) (k + 1)) : Deriv.sym t.1 ∈ syms NT T k := by
  obtain ⟨t, ht⟩ := t
  cases t with
  | leaf a =>
    have : k = 0 := by simp only [GTree.size] at ht; omega
    subst this
    rw [syms, if_neg (by simp), List.mem_range'_1]
    simp only [Deriv.sym]
    omega
  | node X l r =>
    have h1 := l.size_pos
    have h2 := r.size_pos
    have : k ≠ 0 := by simp only [GTree.size] at ht; omega
    rw [syms, if_pos this, List.mem_range]
    exact X.2

theorem list_sum_pick {B : Type} [CommSemiring B] {l : List ℕ} (hl : l.Nodup) {a : ℕ} (ha : a ∈ l) (g : ℕ → B) :
    (l.map fun y => if a = y then g y else 0).sum = g a := by
  rw [← List.sum_toFinset _ hl, sum_ite_eq, if_pos (List.mem_toFinset.2 ha)]

theorem list_sum_comm {B Y : Type} [CommSemiring B] [Fintype Y] (l : List ℕ) (g : ℕ → Y → B) :
    (l.map fun y => ∑ t, g y t).sum = ∑ t, (l.map fun y => g y t).sum := by
  induction l with
  | nil => simp
  | cons a l ih => simp only [List.map_cons, List.sum_cons, ih, sum_add_distrib]

/-- The sums over the symbols of the two children pick the symbols at their roots. -/
theorem pick_children {B Y Z : Type} [CommSemiring B] [Fintype Y] [Fintype Z] {ly lz : List ℕ} (hy : ly.Nodup) (hz : lz.Nodup) (sy : Y → ℕ) (sz : Z → ℕ)
    (hsy : ∀ t, sy t ∈ ly) (hsz : ∀ t, sz t ∈ lz) (A : Y → B) (C : Z → B) (ρ : ℕ → ℕ → B) :
    (ly.map fun y => (lz.map fun z => (∑ t, if sy t = y then A t else 0) * (∑ t, if sz t = z then C t else 0) * ρ y z).sum).sum =
      ∑ t, ∑ u, A t * C u * ρ (sy t) (sz u) := by
  have h1 : ∀ y z, (∑ t, if sy t = y then A t else 0) * (∑ t, if sz t = z then C t else 0) * ρ y z =
      ∑ t, ∑ u, if sy t = y then (if sz u = z then A t * C u * ρ y z else 0) else 0 := by
    intro y z
    rw [sum_mul_sum, sum_mul]
    refine sum_congr rfl fun t _ => ?_
    rw [sum_mul]
    refine sum_congr rfl fun u _ => ?_
    split_ifs <;> simp
  simp only [h1, list_sum_comm]
  refine sum_congr rfl fun t _ => sum_congr rfl fun u _ => ?_
  have h2 : ∀ y, (lz.map fun z => if sy t = y then (if sz u = z then A t * C u * ρ y z else 0) else 0).sum = if sy t = y then A t * C u * ρ y (sz u) else 0 := by
    intro y
    by_cases h : sy t = y
    · simp only [if_pos h]
      exact list_sum_pick hz (hsz u) fun z => A t * C u * ρ y z
    · simp [h]
  simp only [h2]
  exact list_sum_pick hy (hsy t) fun y => A t * C u * ρ y (sz u)

theorem pick_root {B Y : Type} [CommSemiring B] [Fintype Y] {l : List ℕ} (hl : l.Nodup) (s : Y → ℕ) (hs : ∀ t, s t ∈ l) (A : Y → B) (ρ : ℕ → B) :
    (l.map fun y => (∑ t, if s t = y then A t else 0) * ρ y).sum = ∑ t, A t * ρ (s t) := by
  have h1 : ∀ y, (∑ t, if s t = y then A t else 0) * ρ y = ∑ t, if s t = y then A t * ρ y else 0 := by
    intro y
    rw [sum_mul]
    refine sum_congr rfl fun t _ => ?_
    split_ifs <;> simp
  simp only [h1, list_sum_comm]
  exact sum_congr rfl fun t _ => list_sum_pick hl (hs t) fun y => A t * ρ y

theorem cfgScores_bag (H : Reads S f) (NT T : ℕ) (term : ℕ → ℕ → ℕ → α) (rule : ℕ → ℕ → ℕ → ℕ → α) (b : ℕ) (w : ℕ) : ∀ i x, x ∈ syms NT T w →
    bag f b (cfgScores S NT T term rule x i w) = ∑ t : GTrees NT (Fin T) (w + 1), if Deriv.sym t.1 = x then
      Bag.single (Additive.ofMul (dweight (fun i t => f (term b i t)) (fun a c d => f (rule b a c d)) i t.1)) else 0 := by
  induction w using Nat.strong_induction_on with
  | _ w ih =>
    intro i x hx
    cases w with
    | zero =>
      rw [GrammarProofs.sum_one fun t : Deriv NT T => if t.sym = x then
        Bag.single (Additive.ofMul (dweight (fun i t => f (term b i t)) (fun a c d => f (rule b a c d)) i t)) else 0]
      rw [syms, if_neg (by simp), List.mem_range'_1] at hx
      rw [cfgScores, bag_single, sum_eq_single (⟨x - NT, by omega⟩ : Fin T)]
      · rw [if_pos (by simp only [Deriv.sym]; omega)]
        simp [dweight, Deriv.rules, Deriv.words]
      · intro a _ hne
        rw [if_neg]
        intro hc
        simp only [Deriv.sym] at hc
        exact hne (Fin.ext (by simp only; omega))
      · intro h; exact absurd (mem_univ _) h
    | succ w =>
      rw [GrammarProofs.sum_node w fun t : Deriv NT T => if t.sym = x then
        Bag.single (Additive.ofMul (dweight (fun i t => f (term b i t)) (fun a c d => f (rule b a c d)) i t)) else 0]
      rw [syms, if_pos (by simp), List.mem_range] at hx
      rw [sum_eq_single (⟨x, hx⟩ : Fin NT)]
      · rw [cfgScores, bag_flatMap, list_sum_finRange]
        refine sum_congr rfl fun k _ => ?_
        have hk := k.2
        have e1 : (if (k : ℕ) ≠ 0 then List.range NT else List.range' NT T) = syms NT T k := rfl
        have e2 : (if (k : ℕ) ≠ w then List.range NT else List.range' NT T) = syms NT T (w - k) := by
          rw [syms]
          by_cases h : (k : ℕ) = w
          · rw [if_neg (by simpa using h), if_neg (by omega)]
          · rw [if_pos h, if_pos (by omega)]
        rw [e1, e2, bag_flatMap]
        simp only [bag_flatMap (l := syms NT T (w - k))]
        rw [show (fun y => ((syms NT T (w - k)).map fun z => bag f b ((cfgScores S NT T term rule y i k).flatMap fun m1 =>
            (cfgScores S NT T term rule z (i + k + 1) (w - k)).map fun m2 => fun b => S.times (S.times (m1 b) [m2 b]) [rule b x y z])).sum) =
          fun y => ((syms NT T (w - k)).map fun z => bag f b (cfgScores S NT T term rule y i k) * bag f b (cfgScores S NT T term rule z (i + k + 1) (w - k)) *
            Bag.single (Additive.ofMul (f (rule b x y z)))).sum from ?_]
        · have : (syms NT T k).map (fun y => ((syms NT T (w - k)).map fun z => bag f b (cfgScores S NT T term rule y i k) *
              bag f b (cfgScores S NT T term rule z (i + k + 1) (w - k)) * Bag.single (Additive.ofMul (f (rule b x y z)))).sum) =
            (syms NT T k).map (fun y => ((syms NT T (w - k)).map fun z =>
              (∑ t : GTrees NT (Fin T) (k + 1), if Deriv.sym t.1 = y then
                Bag.single (Additive.ofMul (dweight (fun i t => f (term b i t)) (fun a c d => f (rule b a c d)) i t.1)) else 0) *
              (∑ t : GTrees NT (Fin T) (w - k + 1), if Deriv.sym t.1 = z then
                Bag.single (Additive.ofMul (dweight (fun i t => f (term b i t)) (fun a c d => f (rule b a c d)) (i + k + 1) t.1)) else 0) *
              Bag.single (Additive.ofMul (f (rule b x y z)))).sum) := by
            refine List.map_congr_left fun y hy => ?_
            congr 1
            refine List.map_congr_left fun z hz => ?_
            rw [ih k (by omega) i y hy, ih (w - k) (by omega) (i + k + 1) z hz]
          rw [this]
          refine (pick_children (syms_nodup NT T k) (syms_nodup NT T (w - k)) (fun t : GTrees NT (Fin T) (k + 1) => Deriv.sym t.1)
            (fun t : GTrees NT (Fin T) (w - k + 1) => Deriv.sym t.1) sym_mem sym_mem
            (fun t => Bag.single (Additive.ofMul (dweight (fun i t => f (term b i t)) (fun a c d => f (rule b a c d)) i t.1)))
            (fun t => Bag.single (Additive.ofMul (dweight (fun i t => f (term b i t)) (fun a c d => f (rule b a c d)) (i + k + 1) t.1)))
            fun y z => Bag.single (Additive.ofMul (f (rule b x y z)))).trans ?_
          refine sum_congr rfl fun l _ => sum_congr rfl fun r _ => ?_
          rw [if_pos (show Deriv.sym (.node ⟨x, hx⟩ l.1 r.1 : Deriv NT T) = x from rfl), dweight_node, l.2, Bag.single_mul, Bag.single_mul, ← add_assoc i]
          rfl
        · funext y
          congr 1
          refine List.map_congr_left fun z _ => ?_
          exact bag_pair b _ _ (fun m1 m2 b => S.times (S.times (m1 b) [m2 b]) [rule b x y z]) _ fun m1 m2 => by rw [times_one H, times_one H]
      · intro X _ hne
        refine sum_eq_zero fun k _ => sum_eq_zero fun l _ => sum_eq_zero fun r _ => if_neg ?_
        intro hc
        exact hne (Fin.ext hc)
      · intro h; exact absurd (mem_univ _) h

/-- Every derivation of at least two words is enumerated exactly once, with the product of its rules, preterminals and root. -/
theorem cfgScores_enum (H : Reads S f) (NT T : ℕ) (term : ℕ → ℕ → ℕ → α) (rule : ℕ → ℕ → ℕ → ℕ → α) (root : ℕ → ℕ → α) (b w : ℕ) (hw : 1 ≤ w) :
    ((((List.range NT).flatMap fun nt => (cfgScores S NT T term rule nt 0 w).map fun s b => S.times (s b) [root b nt]).map fun s => f (s b) : List R) : Multiset R) =
      (univ : Finset (Derivs NT T (w + 1))).val.map fun d => derivWeight (fun i t => f (term b i t)) (fun a c d => f (rule b a c d)) (fun a => f (root b a)) d := by
  apply multiset_of_bag
  rw [bag_flatMap]
  have hmem : ∀ t : GTrees NT (Fin T) (w + 1), Deriv.sym t.1 ∈ List.range NT := fun t => by
    have := sym_mem t
    rwa [syms, if_pos (by omega)] at this
  have h1 : (List.range NT).map (fun nt => bag f b ((cfgScores S NT T term rule nt 0 w).map fun s b => S.times (s b) [root b nt])) =
      (List.range NT).map fun nt => (∑ t : GTrees NT (Fin T) (w + 1), if Deriv.sym t.1 = nt then
        Bag.single (Additive.ofMul (dweight (fun i t => f (term b i t)) (fun a c d => f (rule b a c d)) 0 t.1)) else 0) * Bag.single (Additive.ofMul (f (root b nt))) := by
    refine List.map_congr_left fun nt hnt => ?_
    rw [bag_map b _ (fun s b => S.times (s b) [root b nt]) (f (root b nt)) (fun m => times_one H _ _),
      cfgScores_bag H NT T term rule b w 0 nt (by rw [syms, if_pos (by omega)]; exact hnt)]
  rw [h1]
  refine (pick_root List.nodup_range (fun t : GTrees NT (Fin T) (w + 1) => Deriv.sym t.1) hmem
    (fun t => Bag.single (Additive.ofMul (dweight (fun i t => f (term b i t)) (fun a c d => f (rule b a c d)) 0 t.1)))
    fun nt => Bag.single (Additive.ofMul (f (root b nt)))).trans ?_
  symm
  have hnode : ∀ t : GTrees NT (Fin T) (w + 1), Deriv.isNode t.1 = true := by
    rintro ⟨t, ht⟩
    cases t with
    | leaf a => simp only [GTree.size] at ht; omega
    | node X l r => rfl
  refine Fintype.sum_bijective (fun d : Derivs NT T (w + 1) => (⟨d.1, d.2.1⟩ : GTrees NT (Fin T) (w + 1))) ⟨?_, ?_⟩ _ _ fun d => ?_
  · intro d d' h
    exact Subtype.ext (Subtype.mk.inj h)
  · intro t
    exact ⟨⟨t.1, t.2, hnode t⟩, rfl⟩
  · rw [Bag.single_mul, derivWeight, mul_comm]
    rfl

end cfg
end EnumerateProofs
