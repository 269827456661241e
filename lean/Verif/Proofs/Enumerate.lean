import Verif.Model.Enumerate
import Verif.Spec.Chain
import Verif.Spec.Segmentation
import Verif.Proofs.Rel
import Mathlib.Data.List.GetD
import Mathlib.Data.Multiset.Bind
import Mathlib.Algebra.BigOperators.Group.Multiset.Basic

/-! The lists that the enumerations of tests/extensions.py build contain every structure exactly once, with its score. -/

open Finset Spec

namespace EnumerateProofs
open Enumerate

/-- `f` reads the scores of a semiring multiplicatively. -/
structure Reads {α R : Type} [CommSemiring R] (S : SR α) (f : α → R) : Prop where
  one : f S.one = 1
  mul : ∀ a b, f (S.mul a b) = f a * f b

section generic
variable {α R Y κ : Type} [Fintype Y]

/-- A list without repetitions that covers the codes of all structures, with the right weights, is the list of all structures. -/
theorem enum_multiset {L : List (κ × α)} {code : Y → κ} (hc : Function.Injective code) (f : α → R) (wt : Y → R)
    (hn : (L.map Prod.fst).Nodup) (complete : ∀ y, code y ∈ L.map Prod.fst) (sound : ∀ x ∈ L, ∃ y, x.1 = code y ∧ f x.2 = wt y) :
    ((L.map fun x => (x.1, f x.2) : List (κ × R)) : Multiset (κ × R)) = (univ : Finset Y).val.map fun y => (code y, wt y) := by
  have h1 : ((L.map fun x => (x.1, f x.2) : List (κ × R)) : Multiset (κ × R)).Nodup := by
    rw [Multiset.coe_nodup]
    refine List.Nodup.of_map Prod.fst ?_
    rw [List.map_map]
    exact hn
  have h2 : ((univ : Finset Y).val.map fun y => (code y, wt y)).Nodup :=
    Multiset.Nodup.map (fun a b h => hc (congrArg Prod.fst h)) univ.nodup
  rw [Multiset.Nodup.ext h1 h2]
  rintro ⟨c, v⟩
  simp only [Multiset.mem_coe, List.mem_map, Multiset.mem_map, mem_val, mem_univ, true_and, Prod.mk.injEq]
  constructor
  · rintro ⟨x, hx, rfl, rfl⟩
    obtain ⟨y, h3, h4⟩ := sound x hx
    exact ⟨y, h3.symm, h4.symm⟩
  · rintro ⟨y, rfl, rfl⟩
    obtain ⟨x, hx, h3⟩ := List.mem_map.1 (complete y)
    obtain ⟨y', h4, h5⟩ := sound x hx
    refine ⟨x, hx, h3, ?_⟩
    rw [h5, hc (h4.symm.trans h3)]

end generic

/-! ### Chains -/

section chain
variable {α R : Type} [CommSemiring R] {S : SR α} {f : α → R}

/-- The classes of a sequence, as the enumeration lists them. -/
def tagCode {n C : ℕ} (y : Tags n C) : List ℕ := List.ofFn fun i => (y i : ℕ)

theorem tagCode_injective {n C : ℕ} : Function.Injective (tagCode (n := n) (C := C)) := by
  intro y y' h
  have := List.ofFn_injective h
  funext i
  exact Fin.ext (congrFun this i)

theorem chains_fst (S : SR α) (C : ℕ) (edge : ℕ → ℕ → ℕ → ℕ → α) (n : ℕ) : (chains S C edge (n + 1)).map Prod.fst =
    ((chains S C edge n).map Prod.fst).flatMap fun l => (List.range C).map fun c => l ++ [c] := by
  rw [chains, List.map_flatMap, List.flatMap_map]
  congr 1
  funext x
  rw [List.map_map]
  rfl

theorem chains_nodup (S : SR α) (C : ℕ) (edge : ℕ → ℕ → ℕ → ℕ → α) (n : ℕ) : ((chains S C edge n).map Prod.fst).Nodup := by
  induction n with
  | zero =>
    rw [chains, List.map_map]
    exact List.nodup_range.map fun a b h => (List.cons.inj h).1
  | succ n ih =>
    rw [chains_fst, List.nodup_flatMap]
    refine ⟨fun l _ => List.nodup_range.map fun a b h => ?_, ?_⟩
    · exact (List.cons.inj (List.append_cancel_left h)).1
    · refine ih.imp fun {l l'} hne => ?_
      rw [Function.onFun, List.disjoint_left]
      intro x hx hx'
      obtain ⟨c, _, rfl⟩ := List.mem_map.1 hx
      obtain ⟨c', _, h⟩ := List.mem_map.1 hx'
      exact hne (List.append_inj_left' h rfl).symm

theorem tagCode_snoc {n C : ℕ} (y : Tags (n + 1) C) : tagCode y = tagCode (fun i : Fin (n + 1) => y i.castSucc) ++ [(y (Fin.last _) : ℕ)] := by
  rw [tagCode, List.ofFn_succ']
  rw [List.concat_eq_append]
  rfl

theorem tagCode_last {n C : ℕ} (y : Tags n C) : (tagCode y).getLastD 0 = y (Fin.last _) := by
  cases n with
  | zero => rfl
  | succ n => rw [tagCode_snoc]; simp

theorem seqProd_snoc {n C : ℕ} (w : ℕ → Fin C → Fin C → R) (y : Tags (n + 1) C) :
    seqProd w y = seqProd w (fun i : Fin (n + 1) => y i.castSucc) * w n (y (Fin.last _)) (y (Fin.last n).castSucc) := by
  rw [seqProd, Fin.prod_univ_castSucc]
  rfl

theorem chains_sound (H : Reads S f) (C : ℕ) (edge : ℕ → ℕ → ℕ → ℕ → α) (n : ℕ) : ∀ x ∈ chains S C edge n,
    ∃ y : Tags n C, x.1 = tagCode y ∧ ∀ b, f (x.2 b) = seqProd (fun n (i j : Fin C) => f (edge b n i j)) y := by
  induction n with
  | zero =>
    intro x hx
    rw [chains] at hx
    obtain ⟨c, hc, rfl⟩ := List.mem_map.1 hx
    refine ⟨fun _ => ⟨c, List.mem_range.1 hc⟩, rfl, fun b => ?_⟩
    rw [SR.fill, if_pos rfl, H.one]
    rfl
  | succ n ih =>
    intro x hx
    rw [chains] at hx
    obtain ⟨x', hx', h1⟩ := List.mem_flatMap.1 hx
    obtain ⟨c, hc, rfl⟩ := List.mem_map.1 h1
    obtain ⟨y, h2, h3⟩ := ih x' hx'
    let y' : Tags (n + 1) C := Fin.snoc (α := fun _ => Fin C) y ⟨c, List.mem_range.1 hc⟩
    have e1 : (fun i : Fin (n + 1) => y' i.castSucc) = y := by
      funext i; exact Fin.snoc_castSucc (α := fun _ => Fin C) _ _ _
    have e2 : y' (Fin.last _) = ⟨c, List.mem_range.1 hc⟩ := Fin.snoc_last (α := fun _ => Fin C) _ _
    refine ⟨y', ?_, fun b => ?_⟩
    · rw [tagCode_snoc, e1, e2, h2]
    · have e3 : y' (Fin.last n).castSucc = y (Fin.last n) := congrFun e1 _
      rw [seqProd_snoc, e1, e2, e3, H.mul, h3, h2, tagCode_last]

theorem chains_complete (S : SR α) (C : ℕ) (edge : ℕ → ℕ → ℕ → ℕ → α) (n : ℕ) (y : Tags n C) : tagCode y ∈ (chains S C edge n).map Prod.fst := by
  induction n with
  | zero =>
    rw [chains, List.map_map]
    exact List.mem_map.2 ⟨y 0, List.mem_range.2 (y 0).2, rfl⟩
  | succ n ih =>
    rw [chains_fst, tagCode_snoc]
    exact List.mem_flatMap.2 ⟨_, ih _, List.mem_map.2 ⟨_, List.mem_range.2 (y (Fin.last _)).2, rfl⟩⟩

/-- Every tag sequence is enumerated exactly once, with the product of its edges. -/
theorem chains_enum (H : Reads S f) (C : ℕ) (edge : ℕ → ℕ → ℕ → ℕ → α) (n b : ℕ) :
    (((chains S C edge n).map fun x => (x.1, f (x.2 b)) : List (List ℕ × R)) : Multiset (List ℕ × R)) =
      (univ : Finset (Tags n C)).val.map fun y => (tagCode y, seqProd (fun n (i j : Fin C) => f (edge b n i j)) y) :=
  enum_multiset (L := chains S C edge n) tagCode_injective (fun s => f (s b)) _ (chains_nodup S C edge n) (chains_complete S C edge n) fun x hx => by
    obtain ⟨y, h1, h2⟩ := chains_sound H C edge n x hx
    exact ⟨y, h1, h2 b⟩

theorem chains_scores (H : Reads S f) (C : ℕ) (edge : ℕ → ℕ → ℕ → ℕ → α) (n b : ℕ) :
    ((((chains S C edge n).map Prod.snd).map fun s => f (s b) : List R) : Multiset R) =
      (univ : Finset (Tags n C)).val.map fun y => seqProd (fun n (i j : Fin C) => f (edge b n i j)) y := by
  have := congrArg (Multiset.map Prod.snd) (chains_enum H C edge n b)
  rw [Multiset.map_coe, List.map_map, Multiset.map_map] at this
  rw [List.map_map]
  exact this

end chain

/-! ### Segmentations -/

section semi
variable {α R : Type} [CommSemiring R] {S : SR α} {f : α → R}

/-- A segmentation as the enumeration lists it: (class, length) pairs, first the initial class with length 0. -/
def segCode {K C L : ℕ} (y : Segmentation K C L) : List (ℕ × ℕ) := ((y.1 : ℕ), 0) :: y.2.1.map fun s => ((s.2 : ℕ), s.1)

theorem segCode_injective {K C L : ℕ} : Function.Injective (segCode (K := K) (C := C) (L := L)) := by
  rintro ⟨c, l, hl⟩ ⟨c', l', hl'⟩ h
  obtain ⟨h1, h2⟩ := List.cons.inj h
  have h3 : c = c' := Fin.ext (Prod.mk.inj h1).1
  have h4 : l = l' := by
    refine List.map_injective_iff.2 ?_ h2
    rintro ⟨k, a⟩ ⟨k', a'⟩ h
    obtain ⟨h5, h6⟩ := Prod.mk.inj h
    exact Prod.ext h6 (Fin.ext h5)
  subst h3 h4
  rfl

/-- The entry of end point `n`, in terms of the entries before. -/
def semiNew (S : SR α) (K C : ℕ) (edge : ℕ → ℕ → ℕ → ℕ → ℕ → α) (L : ℕ → List (List (ℕ × ℕ) × (ℕ → α))) (n : ℕ) : List (List (ℕ × ℕ) × (ℕ → α)) :=
  (List.range' 1 (K - 1)).flatMap fun k => if n < k then [] else (L (n - k)).flatMap fun x => (List.range C).map fun c =>
    (x.1 ++ [(c, k)], fun b => S.mul (x.2 b) (edge b (n - k) k c (x.1.getLastD (0, 0)).1))

theorem semiChains_succ (S : SR α) (K C : ℕ) (edge : ℕ → ℕ → ℕ → ℕ → ℕ → α) (N : ℕ) :
    semiChains S K C edge (N + 1) = semiStep S K C edge (semiChains S K C edge N) (N + 1) := by
  rw [semiChains, List.range'_concat, List.foldl_append]
  simp only [List.foldl_cons, List.foldl_nil, one_mul]
  rw [← semiChains, add_comm 1 N]

/-- The list of end point `n`. -/
def segList (S : SR α) (K C : ℕ) (edge : ℕ → ℕ → ℕ → ℕ → ℕ → α) (n : ℕ) : List (List (ℕ × ℕ) × (ℕ → α)) := (semiChains S K C edge n n).getD []

theorem semiChains_some (S : SR α) (K C : ℕ) (edge : ℕ → ℕ → ℕ → ℕ → ℕ → α) (N : ℕ) :
    ∀ m, semiChains S K C edge N m = if m ≤ N then some (segList S K C edge m) else none := by
  induction N with
  | zero =>
    intro m
    rcases Nat.eq_zero_or_pos m with rfl | hm
    · rw [if_pos le_rfl, segList]; rfl
    · rw [if_neg (by omega)]
      show (if m = 0 then _ else none) = none
      rw [if_neg (by omega)]
  | succ N ih =>
    intro m
    rcases Nat.lt_trichotomy m (N + 1) with hm | rfl | hm
    · rw [if_pos (by omega), semiChains_succ, semiStep]
      simp only
      rw [if_neg (by omega), ih, if_pos (by omega)]
    · rw [if_pos le_rfl, segList, semiChains_succ, semiStep]
      simp
    · rw [if_neg (by omega), semiChains_succ, semiStep]
      simp only
      rw [if_neg (by omega), ih, if_neg (by omega)]

theorem segList_zero (S : SR α) (K C : ℕ) (edge : ℕ → ℕ → ℕ → ℕ → ℕ → α) :
    segList S K C edge 0 = (List.range C).map fun c => ([(c, 0)], fun _ => SR.fill S.raw0 true S.one) := rfl

theorem segList_succ (S : SR α) (K C : ℕ) (edge : ℕ → ℕ → ℕ → ℕ → ℕ → α) (n : ℕ) :
    segList S K C edge (n + 1) = semiNew S K C edge (segList S K C edge) (n + 1) := by
  rw [segList, semiChains_succ, semiStep]
  simp only [if_true, Option.getD_some, semiNew]
  refine List.flatMap_congr fun k hk => ?_
  have hk1 : 1 ≤ k := by simp at hk; omega
  by_cases h : n + 1 < k
  · rw [if_pos h, if_pos h]
  · rw [if_neg h, if_neg h, semiChains_some, if_pos (by omega)]

theorem segEdges_snoc {C : ℕ} (l : List (ℕ × Fin C)) : ∀ (n : ℕ) (c : Fin C) (k : ℕ) (c' : Fin C),
    segEdges n c (l ++ [(k, c')]) = segEdges n c l ++ [(n + (l.map Prod.fst).sum, k, c', ((l.map Prod.snd).getLastD c))] := by
  induction l with
  | nil => intro n c k c'; rfl
  | cons a l ih =>
    intro n c k c'
    obtain ⟨k0, c0⟩ := a
    simp only [List.cons_append, segEdges, ih, List.map_cons, List.sum_cons, List.getLastD_cons]
    rw [add_assoc]

theorem segCode_last {K C L : ℕ} (y : Segmentation K C L) : ((segCode y).getLastD (0, 0)).1 = ((y.2.1.map Prod.snd).getLastD y.1 : Fin C) := by
  obtain ⟨c, l, hl⟩ := y
  rw [segCode]
  simp only [List.getLastD_cons]
  clear hl
  rcases List.eq_nil_or_concat l with rfl | ⟨l', a, rfl⟩
  · rfl
  · simp

theorem segList_sound (H : Reads S f) (K C : ℕ) (edge : ℕ → ℕ → ℕ → ℕ → ℕ → α) (n : ℕ) : ∀ x ∈ segList S K C edge n,
    ∃ y : Segmentation K C n, x.1 = segCode y ∧ ∀ b, f (x.2 b) = segWeight (fun n k c c' => f (edge b n k c c')) y := by
  induction n using Nat.strong_induction_on with
  | _ n ih =>
    intro x hx
    cases n with
    | zero =>
      rw [segList_zero] at hx
      obtain ⟨c, hc, rfl⟩ := List.mem_map.1 hx
      refine ⟨⟨⟨c, List.mem_range.1 hc⟩, [], by simp, rfl⟩, rfl, fun b => ?_⟩
      rw [SR.fill, if_pos rfl, H.one]
      rfl
    | succ n =>
      rw [segList_succ, semiNew] at hx
      obtain ⟨k, hk, hx⟩ := List.mem_flatMap.1 hx
      have hk' : 1 ≤ k ∧ k < K := by simp at hk; omega
      by_cases h : n + 1 < k
      · rw [if_pos h] at hx; simp at hx
      rw [if_neg h] at hx
      obtain ⟨x', hx', h1⟩ := List.mem_flatMap.1 hx
      obtain ⟨c, hc, rfl⟩ := List.mem_map.1 h1
      obtain ⟨y, h2, h3⟩ := ih _ (by omega) x' hx'
      have h4 := y.2.2.2
      refine ⟨⟨y.1, y.2.1 ++ [(k, ⟨c, List.mem_range.1 hc⟩)], fun s hs => ?_, ?_⟩, ?_, fun b => ?_⟩
      · rcases List.mem_append.1 hs with hs | hs
        · exact y.2.2.1 s hs
        · simp only [List.mem_singleton] at hs; subst hs; exact hk'
      · simp only [List.map_append, List.sum_append, List.map_cons, List.map_nil, List.sum_cons, List.sum_nil]
        omega
      · rw [h2]; simp [segCode]
      · rw [H.mul, h3, h2, segCode_last, segWeight, segWeight]
        simp only [segEdges_snoc, List.map_append, List.prod_append, List.map_cons, List.map_nil, List.prod_cons, List.prod_nil, mul_one]
        rw [h4]

theorem segList_complete (S : SR α) (K C : ℕ) (edge : ℕ → ℕ → ℕ → ℕ → ℕ → α) (n : ℕ) : ∀ y : Segmentation K C n,
    segCode y ∈ (segList S K C edge n).map Prod.fst := by
  induction n using Nat.strong_induction_on with
  | _ n ih =>
    rintro ⟨c, l, hl, hs⟩
    rcases List.eq_nil_or_concat l with rfl | ⟨l', ⟨k, c'⟩, rfl⟩
    · simp only [List.map_nil, List.sum_nil, add_zero] at hs
      subst hs
      rw [segList_zero, List.map_map]
      exact List.mem_map.2 ⟨c, List.mem_range.2 c.2, rfl⟩
    · rw [List.concat_eq_append] at hl hs
      have hk := hl (k, c') (by simp)
      simp only [List.map_append, List.sum_append, List.map_cons, List.map_nil, List.sum_cons, List.sum_nil] at hs
      obtain ⟨m, rfl⟩ : ∃ m, n = m + 1 := ⟨n - 1, by omega⟩
      have h1 := ih (m + 1 - k) (by omega) ⟨c, l', fun s hs => hl s (List.mem_append_left _ hs), by omega⟩
      obtain ⟨x, hx, h2⟩ := List.mem_map.1 h1
      rw [segList_succ, semiNew]
      refine List.mem_map.2 ⟨(x.1 ++ [((c' : ℕ), k)], fun b => S.mul (x.2 b) (edge b (m + 1 - k) k c' (x.1.getLastD (0, 0)).1)), List.mem_flatMap.2 ⟨k, by simp; omega, ?_⟩, ?_⟩
      · rw [if_neg (by omega)]
        exact List.mem_flatMap.2 ⟨x, hx, List.mem_map.2 ⟨c', List.mem_range.2 c'.2, rfl⟩⟩
      · simp only [h2, segCode, List.concat_eq_append]; simp

theorem segList_nodup (S : SR α) (K C : ℕ) (edge : ℕ → ℕ → ℕ → ℕ → ℕ → α) (n : ℕ) : ((segList S K C edge n).map Prod.fst).Nodup := by
  induction n using Nat.strong_induction_on with
  | _ n ih =>
    cases n with
    | zero =>
      rw [segList_zero, List.map_map]
      exact List.nodup_range.map fun a b h => (Prod.mk.inj (List.cons.inj h).1).1
    | succ n =>
      rw [segList_succ, semiNew, List.map_flatMap, List.nodup_flatMap]
      refine ⟨fun k hk => ?_, ?_⟩
      · by_cases h : n + 1 < k
        · rw [if_pos h]; exact List.nodup_nil
        rw [if_neg h]
        have hk1 : 1 ≤ k := by simp at hk; omega
        rw [List.map_flatMap]
        have : (segList S K C edge (n + 1 - k)).flatMap (fun x => ((List.range C).map fun c =>
            ((x.1 ++ [(c, k)], fun b => S.mul (x.2 b) (edge b (n + 1 - k) k c (x.1.getLastD (0, 0)).1)) : List (ℕ × ℕ) × (ℕ → α))).map Prod.fst) =
            ((segList S K C edge (n + 1 - k)).map Prod.fst).flatMap fun l => (List.range C).map fun c => l ++ [(c, k)] := by
          rw [List.flatMap_map]
          congr 1
          funext x
          rw [List.map_map]; rfl
        rw [this, List.nodup_flatMap]
        refine ⟨fun l _ => List.nodup_range.map fun a b h => ?_, ?_⟩
        · exact (Prod.mk.inj (List.cons.inj (List.append_cancel_left h)).1).1
        · refine (ih _ (by omega)).imp fun {l l'} hne => ?_
          rw [Function.onFun, List.disjoint_left]
          intro x hx hx'
          obtain ⟨c, _, rfl⟩ := List.mem_map.1 hx
          obtain ⟨c', _, h⟩ := List.mem_map.1 hx'
          exact hne (List.append_inj_left' h rfl).symm
      · refine (List.nodup_range' (s := 1) (n := K - 1)).imp fun {k k'} hne => ?_
        rw [Function.onFun, List.disjoint_left]
        intro x hx hx'
        obtain ⟨a, ha, rfl⟩ := List.mem_map.1 hx
        obtain ⟨a', ha', h⟩ := List.mem_map.1 hx'
        by_cases h1 : n + 1 < k
        · rw [if_pos h1] at ha; simp at ha
        by_cases h2 : n + 1 < k'
        · rw [if_pos h2] at ha'; simp at ha'
        rw [if_neg h1] at ha
        rw [if_neg h2] at ha'
        obtain ⟨y, _, hy⟩ := List.mem_flatMap.1 ha
        obtain ⟨c, _, rfl⟩ := List.mem_map.1 hy
        obtain ⟨y', _, hy'⟩ := List.mem_flatMap.1 ha'
        obtain ⟨c', _, rfl⟩ := List.mem_map.1 hy'
        have := (List.append_inj_right' h rfl)
        exact hne (Prod.mk.inj (List.cons.inj this).1).2.symm

/-- Every segmentation is enumerated exactly once, with the product of its segments. -/
theorem segList_enum (H : Reads S f) (K C : ℕ) (edge : ℕ → ℕ → ℕ → ℕ → ℕ → α) (n b : ℕ) :
    (((segList S K C edge n).map fun x => (x.1, f (x.2 b)) : List (List (ℕ × ℕ) × R)) : Multiset (List (ℕ × ℕ) × R)) =
      (univ : Finset (Segmentation K C n)).val.map fun y => (segCode y, segWeight (fun n k c c' => f (edge b n k c c')) y) :=
  enum_multiset (L := segList S K C edge n) segCode_injective (fun s => f (s b)) _ (segList_nodup S K C edge n) (segList_complete S K C edge n) fun x hx => by
    obtain ⟨y, h1, h2⟩ := segList_sound H K C edge n x hx
    exact ⟨y, h1, h2 b⟩

theorem segList_scores (H : Reads S f) (K C : ℕ) (edge : ℕ → ℕ → ℕ → ℕ → ℕ → α) (n b : ℕ) :
    ((((segList S K C edge n).map Prod.snd).map fun s => f (s b) : List R) : Multiset R) =
      (univ : Finset (Segmentation K C n)).val.map fun y => segWeight (fun n k c c' => f (edge b n k c c')) y := by
  have := congrArg (Multiset.map Prod.snd) (segList_enum H K C edge n b)
  rw [Multiset.map_coe, List.map_map, Multiset.map_map] at this
  rw [List.map_map]
  exact this

end semi

/-! ### Hidden semi-Markov models -/

section hsmm
variable {α R : Type} [CommSemiring R] {S : SR α} {f : α → R}

theorem hsmmChains_succ (K C N : ℕ) : hsmmChains K C (N + 1) = hsmmStep K C (hsmmChains K C N) (N + 1) := by
  rw [hsmmChains, List.range'_concat, List.foldl_append]
  simp only [List.foldl_cons, List.foldl_nil, one_mul]
  rw [← hsmmChains, add_comm 1 N]

/-- Both enumerations list the same segmentations in the same order. -/
theorem hsmmChains_eq (S : SR α) (K C : ℕ) (edge : ℕ → ℕ → ℕ → ℕ → ℕ → α) (N : ℕ) : ∀ m,
    hsmmChains K C N m = (semiChains S K C edge N m).map fun l => l.map Prod.fst := by
  induction N with
  | zero =>
    intro m
    show (if m = 0 then _ else none) = Option.map _ (if m = 0 then _ else none)
    split_ifs
    · simp [Function.comp_def]
    · rfl
  | succ N ih =>
    intro m
    rw [hsmmChains_succ, semiChains_succ, hsmmStep, semiStep]
    simp only
    by_cases hm : m = N + 1
    · rw [if_pos hm, if_pos hm, Option.map_some, List.map_flatMap]
      congr 1
      refine List.flatMap_congr fun k _ => ?_
      by_cases hk : N + 1 < k
      · rw [if_pos hk, if_pos hk]; rfl
      · rw [if_neg hk, if_neg hk, ih]
        cases semiChains S K C edge N (N + 1 - k) with
        | none => rfl
        | some l =>
          simp only [Option.map_some]
          rw [List.map_flatMap, List.flatMap_map]
          congr 1
          funext x
          rw [List.map_map]; rfl
    · rw [if_neg hm, if_neg hm, ih]

theorem hsmmChains_list (S : SR α) (K C N : ℕ) (edge : ℕ → ℕ → ℕ → ℕ → ℕ → α) :
    (hsmmChains K C N N).getD [] = (segList S K C edge N).map Prod.fst := by
  rw [hsmmChains_eq S K C edge, segList, semiChains_some, if_pos le_rfl]
  rfl

theorem hsmmScore_read (H : Reads S f) (trans : ℕ → ℕ → α) (dur : ℕ → ℕ → α) (emit : ℕ → ℕ → ℕ → α) {C : ℕ} (l : List (ℕ × Fin C)) : ∀ (s : α) (prev : Fin C) (n : ℕ),
    f (hsmmScore S trans dur emit s prev n (l.map fun s => ((s.2 : ℕ), s.1))) = f s *
      ((segEdges n prev l).map fun s => f (trans s.2.2.2 s.2.2.1) * f (dur s.2.2.1 s.2.1) * f (emit s.1 s.2.1 s.2.2.1)).prod := by
  induction l with
  | nil => intro s prev n; simp [hsmmScore, segEdges]
  | cons a l ih =>
    intro s prev n
    obtain ⟨k, c⟩ := a
    simp only [List.map_cons, hsmmScore, segEdges, List.prod_cons]
    rw [ih, H.mul, H.mul, H.mul]
    ring

/-- The score of a segmentation of a hidden semi-Markov model: initial class, and for every segment transition, duration and emission. -/
theorem scoreChain_read (H : Reads S f) (init : ℕ → α) (trans : ℕ → ℕ → α) (dur : ℕ → ℕ → α) (emit : ℕ → ℕ → ℕ → α) {K C L : ℕ} (y : Segmentation K C L) :
    f (scoreChain S init trans dur emit (segCode y)) = f (init y.1) *
      ((segEdges 0 y.1 y.2.1).map fun s => f (trans s.2.2.2 s.2.2.1) * f (dur s.2.2.1 s.2.1) * f (emit s.1 s.2.1 s.2.2.1)).prod := by
  rw [segCode, scoreChain, hsmmScore_read H, H.mul, SR.fill, if_pos rfl, H.one, one_mul]

theorem segEdges_pos {C : ℕ} (l : List (ℕ × Fin C)) : ∀ (n : ℕ) (c : Fin C), ∀ s ∈ segEdges n c l, n ≤ s.1 := by
  induction l with
  | nil => intro n c s hs; simp [segEdges] at hs
  | cons a l ih =>
    intro n c s hs
    obtain ⟨k, c'⟩ := a
    rw [segEdges] at hs
    rcases List.mem_cons.1 hs with rfl | hs
    · exact le_rfl
    · have := ih _ _ s hs; omega

/-- The edges of `SemiMarkov.hsmm` give a segmentation of at least one step the same score. -/
theorem segWeight_hsmm (init : ℕ → R) (trans : ℕ → ℕ → R) (dur : ℕ → ℕ → R) (emit : ℕ → ℕ → ℕ → R) {K C L : ℕ} (hL : 1 ≤ L) (y : Segmentation K C L) :
    segWeight (fun n k c c' => (if n = 0 then init c' else 1) * trans c' c * dur c k * emit n k c) y = init y.1 *
      ((segEdges 0 y.1 y.2.1).map fun s => trans s.2.2.2 s.2.2.1 * dur s.2.2.1 s.2.1 * emit s.1 s.2.1 s.2.2.1).prod := by
  obtain ⟨c, l, hl, hs⟩ := y
  cases l with
  | nil => simp at hs; omega
  | cons a l =>
    obtain ⟨k, c'⟩ := a
    have hk := (hl (k, c') (by simp)).1
    rw [segWeight]
    simp only [segEdges, List.map_cons, List.prod_cons, if_true]
    have : ((segEdges (0 + k) c' l).map fun s => (if s.1 = 0 then init s.2.2.2 else 1) * trans s.2.2.2 s.2.2.1 * dur s.2.2.1 s.2.1 * emit s.1 s.2.1 s.2.2.1) =
        (segEdges (0 + k) c' l).map fun s => trans s.2.2.2 s.2.2.1 * dur s.2.2.1 s.2.1 * emit s.1 s.2.1 s.2.2.1 := by
      refine List.map_congr_left fun s hs => ?_
      have := segEdges_pos l _ _ s hs
      rw [if_neg (by simp only at hk; omega), one_mul]
    rw [this]
    ring

end hsmm
end EnumerateProofs
