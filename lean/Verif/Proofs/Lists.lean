import Mathlib.Algebra.BigOperators.Group.List.Basic
import Mathlib.Algebra.BigOperators.Group.Finset.Basic
import Mathlib.Algebra.Ring.Basic
import Mathlib.Data.Real.Basic
import Mathlib.Data.Fintype.Basic

/-! Facts about lists that several models need. -/

open Finset

/-- The sum of the entries that an indicator selects. -/
theorem sum_indicator {X : Type} (idx l : List X) (hidx : idx.Nodup) (hl : l.Nodup) (hsub : ∀ x ∈ l, x ∈ idx) (f g : X → ℝ)
    (h1 : ∀ x ∈ l, g x = 1) (h0 : ∀ x ∉ l, g x = 0) : (idx.map fun x => f x * g x).sum = (l.map f).sum := by
  classical
  rw [← List.sum_toFinset _ hidx, ← List.sum_toFinset _ hl]
  symm
  refine sum_subset_zero_on_sdiff ?_ ?_ ?_
  · intro x hx
    rw [List.mem_toFinset] at hx ⊢
    exact hsub x hx
  · intro x hx
    rw [mem_sdiff, List.mem_toFinset, List.mem_toFinset] at hx
    rw [h0 x hx.2, mul_zero]
  · intro x hx
    rw [List.mem_toFinset] at hx
    rw [h1 x hx, mul_one]

theorem flatMap_nodup {X Y : Type} (l : List X) (f : X → List Y) (hl : l.Nodup) (hf : ∀ x ∈ l, (f x).Nodup)
    (hd : ∀ x ∈ l, ∀ x' ∈ l, x ≠ x' → ∀ y ∈ f x, y ∉ f x') : (l.flatMap f).Nodup := by
  rw [List.nodup_flatMap]
  refine ⟨hf, ?_⟩
  refine hl.imp_of_mem fun {x x'} hx hx' hne => ?_
  intro y hy hy'
  exact hd x hx x' hx' hne y hy hy'

/-- The indices of a table: `f` does not repeat, and different `a` give different entries. -/
theorem flatMap_range_nodup {Y : Type} (n : ℕ) (f : ℕ → List Y) (key : Y → ℕ) (hf : ∀ x, (f x).Nodup) (hk : ∀ x, ∀ y ∈ f x, key y = x) :
    ((List.range n).flatMap f).Nodup :=
  flatMap_nodup _ _ List.nodup_range (fun x _ => hf x) fun x _ x' _ hne y hy hy' => hne ((hk x y hy).symm.trans (hk x' y hy'))

open Classical in
/-- Every entry of a batch event is 0 or 1. -/
theorem sum_count_event {B : ℕ} {ι : Fin B → Type} (parts : ∀ b, ι b → Multiset (List ℕ)) (hnd : ∀ b y, (parts b y).Nodup)
    (hhead : ∀ b y, ∀ e ∈ parts b y, e.head? = some (b : ℕ)) (Y : ∀ b, ι b) (id : List ℕ) :
    ∑ b, (parts b (Y b)).count id = if ∃ b, id ∈ parts b (Y b) then 1 else 0 := by
  split_ifs with h
  · obtain ⟨b, hb⟩ := h
    rw [sum_eq_single b]
    · convert Multiset.count_eq_one_of_mem (hnd b (Y b)) hb
    · intro b' _ hne
      refine Multiset.count_eq_zero_of_notMem fun hc => hne ?_
      have h1 := hhead b (Y b) id hb
      rw [hhead b' (Y b') id hc] at h1
      exact Fin.ext (Option.some.inj h1)
    · simp
  · refine sum_eq_zero fun b _ => Multiset.count_eq_zero_of_notMem fun hc => h ⟨b, hc⟩

/-- All indices of a table with three dimensions, row by row. -/
def idx3 (a b c : ℕ) : List (ℕ × ℕ × ℕ) :=
  (List.range a).flatMap fun i => (List.range b).flatMap fun j => (List.range c).map fun l => (i, j, l)

theorem mem_idx3 {a b c : ℕ} (x : ℕ × ℕ × ℕ) : x ∈ idx3 a b c ↔ x.1 < a ∧ x.2.1 < b ∧ x.2.2 < c := by
  obtain ⟨i, j, l⟩ := x
  simp only [idx3, List.mem_flatMap, List.mem_map, List.mem_range, Prod.mk.injEq]
  constructor
  · rintro ⟨i', hi, j', hj, a', ha, rfl, rfl, rfl⟩; exact ⟨hi, hj, ha⟩
  · rintro ⟨hi, hj, ha⟩; exact ⟨i, hi, j, hj, l, ha, rfl, rfl, rfl⟩

theorem idx3_nodup (a b c : ℕ) : (idx3 a b c).Nodup := by
  refine flatMap_nodup _ _ List.nodup_range (fun i _ => ?_) ?_
  · refine flatMap_nodup _ _ List.nodup_range (fun j _ => ?_) ?_
    · exact List.Nodup.map (fun a a' h => by simpa using h) List.nodup_range
    · rintro j - j' - hne y hy hy'
      simp only [List.mem_map] at hy hy'
      obtain ⟨a, -, rfl⟩ := hy
      obtain ⟨a', -, he⟩ := hy'
      exact hne (by simp at he; exact he.1.symm)
  · rintro i - i' - hne y hy hy'
    simp only [List.mem_flatMap, List.mem_map] at hy hy'
    obtain ⟨j, -, a, -, rfl⟩ := hy
    obtain ⟨j', -, a', -, he⟩ := hy'
    exact hne (by simp at he; exact he.1.symm)

/-- `score` of the indicator of a list of cells. -/
theorem score_indicator {a b c : ℕ} (l : List (ℕ × ℕ × ℕ)) (hl : l.Nodup) (hsub : ∀ x ∈ l, x.1 < a ∧ x.2.1 < b ∧ x.2.2 < c) (f g : ℕ × ℕ × ℕ → ℝ)
    (h1 : ∀ x ∈ l, g x = 1) (h0 : ∀ x, x.1 < a → x.2.1 < b → x.2.2 < c → x ∉ l → g x = 0) :
    ((idx3 a b c).map fun x => f x * g x).sum = (l.map f).sum := by
  classical
  rw [← sum_indicator (idx3 a b c) l (idx3_nodup a b c) hl (fun x hx => (mem_idx3 x).2 (hsub x hx)) f (fun x => if x ∈ l then 1 else 0)
    (fun x hx => if_pos hx) fun x hx => if_neg hx]
  refine congrArg List.sum (List.map_congr_left fun x hx => ?_)
  rw [mem_idx3] at hx
  split_ifs with h
  · rw [h1 x h]
  · rw [h0 x hx.1 hx.2.1 hx.2.2 h]
