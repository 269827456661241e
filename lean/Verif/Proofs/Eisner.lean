import Mathlib.Algebra.BigOperators.Fin
import Mathlib.Algebra.BigOperators.Intervals
import Mathlib.Algebra.BigOperators.Ring.Finset
import Mathlib.Data.Finite.Prod
import Mathlib.Data.Finite.Sigma
import Mathlib.Data.Finite.Sum
import Mathlib.Data.Fintype.EquivFin
import Mathlib.Data.Set.Finite.Range
import Verif.Spec.Dep

/-! Projective dependency trees correspond one to one to the derivations of Eisner's algorithm. -/

open Finset Spec

namespace Eisner

/-- A derivation of a span whose head is at one end.  `node a b c`: the head's farthest child has the span `b` towards the head and the span `c`
away from it; `a` is the rest of the head's span. -/
inductive Deriv where
  | leaf
  | node (a b c : Deriv)
  deriving DecidableEq

namespace Deriv

/-- The number of words besides the head. -/
def width : Deriv → ℕ
  | leaf => 0
  | node a b c => a.width + b.width + c.width + 1

/-- The head of the word at distance `k` from the head of the span, as a distance. -/
def head : Deriv → ℕ → ℕ
  | leaf, _ => 0
  | node a b c, k =>
    let m := a.width + b.width + 1
    if k ≤ a.width then a.head k else if k < m then m - b.head (m - k) else if k = m then 0 else m + c.head (k - m)

end Deriv

open Deriv

/-- Derivations of width `n`. -/
abbrev Derivs (n : ℕ) : Type := {t : Deriv // t.width = n}

theorem finite_derivs (n : ℕ) : Finite (Derivs n) := by
  induction n using Nat.strong_induction_on with
  | _ n ih =>
    have h1 : ∀ k : Fin n, Finite (Derivs k) := fun k => ih k k.2
    let f : Unit ⊕ (Σ k : Fin n × Fin n × Fin n, Derivs k.1 × Derivs k.2.1 × Derivs k.2.2) → Deriv := fun x =>
      match x with
      | .inl _ => .leaf
      | .inr ⟨_, a, b, c⟩ => .node a.1 b.1 c.1
    have h2 : ∀ k : Fin n × Fin n × Fin n, Finite (Derivs k.1 × Derivs k.2.1 × Derivs k.2.2) := fun k => by
      have := h1 k.1
      have := h1 k.2.1
      have := h1 k.2.2
      infer_instance
    refine Set.Finite.subset (Set.finite_range f) ?_
    intro t ht
    have ht : t.width = n := ht
    cases t with
    | leaf => exact ⟨.inl (), rfl⟩
    | node a b c =>
      have h5 : a.width + b.width + c.width + 1 = n := ht
      exact ⟨.inr ⟨(⟨a.width, by omega⟩, ⟨b.width, by omega⟩, ⟨c.width, by omega⟩), ⟨a, rfl⟩, ⟨b, rfl⟩, ⟨c, rfl⟩⟩, rfl⟩

noncomputable instance (n : ℕ) : Fintype (Derivs n) := have := finite_derivs n; Fintype.ofFinite _

/-! ### Sums over derivations -/

theorem sum_derivs_zero {R : Type} [AddCommMonoid R] (f : Deriv → R) : ∑ t : Derivs 0, f t.1 = f .leaf := by
  have h : ∑ t : Derivs 0, f t.1 = ∑ _u : Unit, f .leaf := by
    symm
    refine Fintype.sum_bijective (fun _ : Unit => (⟨.leaf, rfl⟩ : Derivs 0)) ⟨?_, ?_⟩ _ _ fun _ => rfl
    · intro a a' _; rfl
    · rintro ⟨t, ht⟩
      cases t with
      | leaf => exact ⟨(), rfl⟩
      | node a b c => simp [width] at ht
  rw [h, univ_unique, sum_singleton]

theorem sum_derivs_succ {R : Type} [AddCommMonoid R] (n : ℕ) (f : Deriv → R) : ∑ t : Derivs (n + 1), f t.1 =
    ∑ v ∈ range (n + 1), ∑ u ∈ range (v + 1), ∑ a : Derivs u, ∑ b : Derivs (v - u), ∑ c : Derivs (n - v), f (.node a.1 b.1 c.1) := by
  let T := Σ v : Fin (n + 1), Σ u : Fin (v + 1), Σ _ : Derivs u, Σ _ : Derivs (v - u), Derivs (n - v)
  have h : ∑ v ∈ range (n + 1), ∑ u ∈ range (v + 1), ∑ a : Derivs u, ∑ b : Derivs (v - u), ∑ c : Derivs (n - v), f (.node a.1 b.1 c.1) =
      ∑ x : T, f (.node x.2.2.1.1 x.2.2.2.1.1 x.2.2.2.2.1) := by
    simp only [T, Fintype.sum_sigma, Finset.sum_range]
  rw [h]
  symm
  refine Fintype.sum_bijective (fun x : T => (⟨.node x.2.2.1.1 x.2.2.2.1.1 x.2.2.2.2.1, ?_⟩ : Derivs (n + 1))) ⟨?_, ?_⟩ _ _ fun _ => rfl
  · have h1 := x.2.2.1.2
    have h2 := x.2.2.2.1.2
    have h3 := x.2.2.2.2.2
    have h4 := x.1.2
    have h5 := x.2.1.2
    simp only [width, h1, h2, h3]; omega
  · rintro ⟨⟨v, hv⟩, ⟨u, hu⟩, ⟨a, ha⟩, ⟨b, hb⟩, ⟨c, hc⟩⟩ ⟨⟨v', hv'⟩, ⟨u', hu'⟩, ⟨a', ha'⟩, ⟨b', hb'⟩, ⟨c', hc'⟩⟩ h
    simp only [Subtype.mk.injEq, Deriv.node.injEq] at h
    obtain ⟨rfl, rfl, rfl⟩ := h
    simp only at ha hb hc ha' hb' hc' hu hu' hv hv'
    obtain rfl : u = u' := by omega
    obtain rfl : v = v' := by omega
    rfl
  · rintro ⟨t, ht⟩
    cases t with
    | leaf => simp [width] at ht
    | node a b c =>
      simp only [width] at ht
      refine ⟨⟨⟨a.width + b.width, by omega⟩, ⟨a.width, by simp only; omega⟩, ⟨a, rfl⟩, ⟨b, ?_⟩, ⟨c, ?_⟩⟩, rfl⟩
      · simp only; omega
      · simp only; omega

/-! ### Head functions of derivations are projective trees -/

/-- `h` leads from `y` to `x`. -/
def Leads (h : ℕ → ℕ) (y x : ℕ) : Prop := ∃ t : ℕ, h^[t] y = x

theorem Leads.refl (h : ℕ → ℕ) (x : ℕ) : Leads h x x := ⟨0, rfl⟩

theorem Leads.step {h : ℕ → ℕ} {y x : ℕ} (H : Leads h (h y) x) : Leads h y x := by
  obtain ⟨t, ht⟩ := H
  exact ⟨t + 1, by rw [Function.iterate_succ_apply]; exact ht⟩

theorem Leads.trans {h : ℕ → ℕ} {z y x : ℕ} (H : Leads h z y) (H' : Leads h y x) : Leads h z x := by
  obtain ⟨t, rfl⟩ := H
  obtain ⟨s, rfl⟩ := H'
  exact ⟨s + t, by rw [Function.iterate_add_apply]⟩

/-- Transport along a map: `D` is closed under `g`. -/
theorem Leads.map {g h : ℕ → ℕ} {D : ℕ → Prop} (φ : ℕ → ℕ) (hD : ∀ k, D k → D (g k)) (hs : ∀ k, D k → φ (g k) = φ k ∨ h (φ k) = φ (g k)) {y x : ℕ} (hy : D y)
    (H : Leads g y x) : Leads h (φ y) (φ x) := by
  obtain ⟨t, ht⟩ := H
  induction t generalizing y with
  | zero => rw [← ht]; exact Leads.refl _ _
  | succ t ih =>
    rw [Function.iterate_succ_apply] at ht
    have := ih (hD y hy) ht
    rcases hs y hy with h1 | h1
    · rwa [h1] at this
    · rw [← h1] at this; exact this.step

theorem Leads.closed {h : ℕ → ℕ} {D : ℕ → Prop} (hD : ∀ k, D k → D (h k)) {y x : ℕ} (hy : D y) (H : Leads h y x) : D x := by
  obtain ⟨t, rfl⟩ := H
  induction t generalizing y with
  | zero => exact hy
  | succ t ih => rw [Function.iterate_succ_apply]; exact ih (hD y hy)

/-- `h` on `0 .. n` is a projective tree with root 0. -/
structure Proj (n : ℕ) (h : ℕ → ℕ) : Prop where
  root : h 0 = 0
  le : ∀ k ≤ n, h k ≤ n
  tree : ∀ k ≤ n, Leads h k 0
  proj : ∀ k, 1 ≤ k → k ≤ n → ∀ y, Between k y (h k) → Leads h y (h k)

theorem head_zero (t : Deriv) : t.head 0 = 0 := by
  induction t with
  | leaf => rfl
  | node a b c iha _ _ => simp [head, iha]

section node
variable {a b c : Deriv}

theorem head_a {k : ℕ} (h : k ≤ a.width) : (node a b c).head k = a.head k := by simp only [head]; rw [if_pos h]

theorem head_b {k : ℕ} (h1 : a.width < k) (h2 : k < a.width + b.width + 1) :
    (node a b c).head k = a.width + b.width + 1 - b.head (a.width + b.width + 1 - k) := by
  simp only [head]; rw [if_neg (by omega), if_pos h2]

theorem head_m : (node a b c).head (a.width + b.width + 1) = 0 := by
  simp only [head]; rw [if_neg (by omega), if_neg (by omega), if_pos trivial]

theorem head_c {k : ℕ} (h : a.width + b.width + 1 < k) :
    (node a b c).head k = a.width + b.width + 1 + c.head (k - (a.width + b.width + 1)) := by
  simp only [head]; rw [if_neg (by omega), if_neg (by omega), if_neg (by omega)]

end node

theorem head_proj (t : Deriv) : Proj t.width t.head := by
  induction t with
  | leaf =>
    refine ⟨rfl, fun k _ => Nat.zero_le _, fun k hk => ?_, fun k h1 h2 => ?_⟩
    · obtain rfl : k = 0 := by simpa [width] using hk
      exact Leads.refl _ _
    · simp [width] at h2; omega
  | node a b c iha ihb ihc =>
    set m := a.width + b.width + 1 with hm
    have la : ∀ {y x}, y ≤ a.width → Leads a.head y x → Leads (node a b c).head y x := fun hy H =>
      Leads.map (D := fun k => k ≤ a.width) id iha.le (fun k hk => Or.inr (head_a hk)) hy H
    have lb : ∀ {y x}, y ≤ b.width → Leads b.head y x → Leads (node a b c).head (m - y) (m - x) := fun hy H =>
      Leads.map (D := fun k => k ≤ b.width) (fun k => m - k) ihb.le (fun k hk => by
        rcases Nat.eq_zero_or_pos k with rfl | h0
        · left; rw [head_zero]
        · right
          rw [head_b (by omega) (by omega), ← hm]
          congr 2; omega) hy H
    have lc : ∀ {y x}, y ≤ c.width → Leads c.head y x → Leads (node a b c).head (m + y) (m + x) := fun hy H =>
      Leads.map (D := fun k => k ≤ c.width) (fun k => m + k) ihc.le (fun k hk => by
        rcases Nat.eq_zero_or_pos k with rfl | h0
        · left; rw [head_zero]
        · right
          rw [head_c (by omega), ← hm]
          congr 2; omega) hy H
    have lm : Leads (node a b c).head m 0 := Leads.step (by rw [hm, head_m]; exact Leads.refl _ _)
    have htree : ∀ k ≤ (node a b c).width, Leads (node a b c).head k 0 := by
      intro k hk
      simp only [width] at hk
      rcases Nat.lt_or_ge a.width k with h1 | h1
      · refine Leads.trans ?_ lm
        rcases Nat.lt_or_ge m k with h2 | h2
        · have := lc (y := k - m) (by omega) (ihc.tree _ (by omega))
          rwa [Nat.add_sub_cancel' h2.le, add_zero] at this
        · have := lb (y := m - k) (by omega) (ihb.tree _ (by omega))
          rwa [Nat.sub_sub_self h2, Nat.sub_zero] at this
      · exact la h1 (iha.tree k h1)
    refine ⟨head_zero _, ?_, htree, ?_⟩
    · intro k hk
      simp only [width] at hk ⊢
      rcases Nat.lt_or_ge a.width k with h1 | h1
      · rcases Nat.lt_trichotomy k m with h2 | h2 | h2
        · rw [head_b h1 h2]; omega
        · rw [h2, hm, head_m]; omega
        · rw [head_c h2, ← hm]
          have := ihc.le (k - m) (by omega)
          omega
      · rw [head_a h1]; have := iha.le k h1; omega
    · intro k h0 hk y hy
      simp only [width] at hk
      rcases Nat.lt_or_ge a.width k with h1 | h1
      · rcases Nat.lt_trichotomy k m with h2 | h2 | h2
        · rw [head_b h1 h2, ← hm] at hy ⊢
          have hb := ihb.le (m - k) (by omega)
          have hy' : Between (m - k) (m - y) (b.head (m - k)) ∧ y ≤ m ∧ m - y ≤ b.width := by
            unfold Between at hy ⊢; omega
          have := lb hy'.2.2 (ihb.proj (m - k) (by omega) (by omega) (m - y) hy'.1)
          rwa [Nat.sub_sub_self hy'.2.1] at this
        · rw [h2, hm, head_m] at hy ⊢
          refine htree y ?_
          simp only [width]
          unfold Between at hy; omega
        · rw [head_c h2, ← hm] at hy ⊢
          have hc := ihc.le (k - m) (by omega)
          have hy' : Between (k - m) (y - m) (c.head (k - m)) ∧ m ≤ y ∧ y - m ≤ c.width := by
            unfold Between at hy ⊢; omega
          have := lc hy'.2.2 (ihc.proj (k - m) (by omega) (by omega) (y - m) hy'.1)
          rwa [Nat.add_sub_cancel' hy'.2.1] at this
      · rw [head_a h1] at hy ⊢
        have := iha.le k h1
        refine la ?_ (iha.proj k h0 h1 y hy)
        unfold Between at hy; omega

/-! ### The decomposition is unique -/

/-- `m` is the farthest child of the root and `u` the last node before `m` that is not a descendant of `m`. -/
structure Split (n : ℕ) (h : ℕ → ℕ) (u m : ℕ) : Prop where
  um : u < m
  mn : m ≤ n
  hm : h m = 0
  far : ∀ k, m < k → k ≤ n → m ≤ h k
  low : ∀ k ≤ u, h k ≤ u
  mid : ∀ k, u < k → k < m → u < h k ∧ h k ≤ m

theorem Split.unique {n : ℕ} {h : ℕ → ℕ} (hp : Proj n h) {u m u' m' : ℕ} (H : Split n h u m) (H' : Split n h u' m') : u = u' ∧ m = m' := by
  have hmm : m = m' := by
    rcases Nat.lt_trichotomy m m' with h1 | h1 | h1
    · have := H.far m' h1 H'.mn
      have := H'.hm
      have := H.um
      omega
    · exact h1
    · have := H'.far m h1 H.mn
      have := H.hm
      have := H'.um
      omega
  subst hmm
  refine ⟨?_, rfl⟩
  have key : ∀ {u u'}, Split n h u m → Split n h u' m → ¬ u < u' := by
    intro u u' K K' hlt
    have hD : ∀ k, (u < k ∧ k ≤ u') → (u < h k ∧ h k ≤ u') := by
      rintro k ⟨h1, h2⟩
      exact ⟨(K.mid k h1 (by have := K'.um; omega)).1, K'.low k h2⟩
    have := Leads.closed hD (y := u') ⟨hlt, le_rfl⟩ (hp.tree u' (by have := K'.um; have := K'.mn; omega))
    omega
  rcases Nat.lt_trichotomy u u' with h1 | h1 | h1
  · exact absurd h1 (key H H')
  · exact h1
  · exact absurd h1 (key H' H)

theorem node_split (a b c : Deriv) : Split (node a b c).width (node a b c).head a.width (a.width + b.width + 1) where
  um := by omega
  mn := by simp only [width]; omega
  hm := head_m
  far k h1 _ := by rw [head_c h1]; omega
  low k hk := by rw [head_a hk]; exact (head_proj a).le k hk
  mid k h1 h2 := by
    rw [head_b h1 h2]
    have := (head_proj b).le (a.width + b.width + 1 - k) (by omega)
    omega

theorem head_injective : ∀ (t t' : Deriv), t.width = t'.width → (∀ k ≤ t.width, t.head k = t'.head k) → t = t'
  | leaf, leaf, _, _ => rfl
  | leaf, node a b c, h, _ => by simp [width] at h
  | node a b c, leaf, h, _ => by simp [width] at h
  | node a b c, node a' b' c', hw, h => by
    have hs : Split (node a b c).width (node a b c).head a'.width (a'.width + b'.width + 1) := by
      have K := node_split a' b' c'
      have k1 := K.um
      have k2 := K.mn
      rw [← hw] at K k2
      exact ⟨K.um, K.mn, by rw [h _ k2]; exact K.hm,
        fun k h1 h2 => by rw [h k h2]; exact K.far k h1 h2,
        fun k h1 => by rw [h k (by omega)]; exact K.low k h1,
        fun k h1 h2 => by rw [h k (by omega)]; exact K.mid k h1 h2⟩
    obtain ⟨e1, e2⟩ := Split.unique (head_proj _) (node_split a b c) hs
    have e3 : b.width = b'.width := by omega
    simp only [width] at hw h
    have e4 : c.width = c'.width := by omega
    have ha : a = a' := head_injective a a' e1 fun k hk => by
      have := h k (by omega)
      rwa [head_a hk, head_a (by omega)] at this
    have hb : b = b' := head_injective b b' e3 fun k hk => by
      rcases Nat.eq_zero_or_pos k with rfl | h0
      · rw [head_zero, head_zero]
      · have := h (a.width + b.width + 1 - k) (by omega)
        rw [head_b (by omega) (by omega), head_b (by omega) (by omega), e2, Nat.sub_sub_self (by omega)] at this
        have h1 := (head_proj b).le k hk
        have h2 := (head_proj b').le k (by omega)
        omega
    have hc : c = c' := head_injective c c' e4 fun k hk => by
      rcases Nat.eq_zero_or_pos k with rfl | h0
      · rw [head_zero, head_zero]
      · have := h (a.width + b.width + 1 + k) (by omega)
        rw [head_c (by omega), head_c (by omega), e2, Nat.add_sub_cancel_left] at this
        omega
    rw [ha, hb, hc]

/-! ### Every projective tree has a derivation -/

theorem exists_split {n : ℕ} {h : ℕ → ℕ} (hp : Proj (n + 1) h) : ∃ u m, Split (n + 1) h u m := by
  classical
  -- a child of the root exists
  have hex : ∃ k, 1 ≤ k ∧ k ≤ n + 1 ∧ h k = 0 := by
    by_contra hc
    push Not at hc
    have hD : ∀ k, (1 ≤ k ∧ k ≤ n + 1) → (1 ≤ h k ∧ h k ≤ n + 1) := fun k hk =>
      ⟨Nat.one_le_iff_ne_zero.2 (hc k hk.1 hk.2), hp.le k hk.2⟩
    have := Leads.closed hD (y := n + 1) ⟨by omega, le_rfl⟩ (hp.tree _ le_rfl)
    omega
  -- the farthest one
  have hne : ((range (n + 2)).filter fun k => 1 ≤ k ∧ h k = 0).Nonempty := by
    obtain ⟨k, h1, h2, h3⟩ := hex
    exact ⟨k, mem_filter.2 ⟨mem_range.2 (by omega), h1, h3⟩⟩
  set m := ((range (n + 2)).filter fun k => 1 ≤ k ∧ h k = 0).max' hne with hmdef
  have hm := max'_mem _ hne
  rw [← hmdef, mem_filter, mem_range] at hm
  obtain ⟨hm1, hm2, hm3⟩ := hm
  have hmax : ∀ k, m < k → k ≤ n + 1 → h k ≠ 0 := fun k h1 h2 h3 => by
    have := le_max' _ k (mem_filter.2 ⟨mem_range.2 (by omega), by omega, h3⟩ : k ∈ (range (n + 2)).filter fun k => 1 ≤ k ∧ h k = 0)
    omega
  -- what `m` leads to
  have lm : ∀ {x}, Leads h m x → x = m ∨ x = 0 := by
    intro x H
    exact Leads.closed (D := fun k => k = m ∨ k = 0) (fun k hk => by
      rcases hk with rfl | rfl
      · exact Or.inr hm3
      · exact Or.inr hp.root) (Or.inl rfl) H
  have hfar : ∀ k, m < k → k ≤ n + 1 → m ≤ h k := by
    intro k h1 h2
    by_contra hc
    have := lm (hp.proj k (by omega) h2 m (by unfold Between; omega))
    have := hmax k h1 h2
    omega
  have hmid : ∀ k, k ≤ m → h k ≤ m := by
    intro k h1
    by_contra hc
    rcases Nat.eq_zero_or_pos k with rfl | h0
    · have := hp.root; omega
    rcases Nat.lt_or_ge k m with h3 | h3
    · have := lm (hp.proj k h0 (by omega) m (by unfold Between; omega))
      omega
    · have h4 : k = m := by omega
      rw [h4] at hc; omega
  -- the last node before `m` that does not lead to `m`
  have hne2 : ((range m).filter fun k => ¬ Leads h k m).Nonempty := by
    refine ⟨0, mem_filter.2 ⟨mem_range.2 (by omega), fun H => ?_⟩⟩
    have := Leads.closed (D := fun k => k = 0) (fun k hk => by rw [hk]; exact hp.root) rfl H
    omega
  set u := ((range m).filter fun k => ¬ Leads h k m).max' hne2 with hudef
  have hu := max'_mem _ hne2
  rw [← hudef, mem_filter, mem_range] at hu
  obtain ⟨hu1, hu2⟩ := hu
  have humax : ∀ k, u < k → k ≤ m → Leads h k m := fun k h1 h2 => by
    rcases Nat.lt_or_ge k m with h3 | h3
    · by_contra hc
      have := le_max' _ k (mem_filter.2 ⟨mem_range.2 h3, hc⟩ : k ∈ (range m).filter fun k => ¬ Leads h k m)
      omega
    · obtain rfl : k = m := by omega
      exact Leads.refl _ _
  refine ⟨u, m, hu1, by omega, hm3, hfar, ?_, ?_⟩
  · intro k hk
    by_contra hc
    have h1 := hmid k (by omega)
    rcases Nat.eq_zero_or_pos k with rfl | h0
    · have := hp.root; omega
    rcases Nat.lt_or_ge k u with h3 | h3
    · exact hu2 ((hp.proj k h0 (by omega) u (by unfold Between; omega)).trans (humax (h k) (by omega) h1))
    · have h4 : k = u := by omega
      rw [h4] at hc h1
      exact hu2 (Leads.step (humax (h u) (by omega) h1))
  · intro k h1 h2
    refine ⟨?_, hmid k h2.le⟩
    have hk : Leads h (h k) m := by
      obtain ⟨t, ht⟩ := humax k h1 h2.le
      cases t with
      | zero => simp only [Function.iterate_zero, id_eq] at ht; omega
      | succ t => exact ⟨t, by rw [← Function.iterate_succ_apply]; exact ht⟩
    by_contra hc
    rcases Nat.lt_or_ge (h k) u with h3 | h3
    · exact hu2 ((hp.proj k (by omega) (by omega) u (by unfold Between; omega)).trans hk)
    · have : h k = u := by omega
      rw [this] at hk
      exact hu2 hk

theorem Split.low_proj {n : ℕ} {h : ℕ → ℕ} (hp : Proj n h) {u m : ℕ} (H : Split n h u m) : Proj u h where
  root := hp.root
  le := H.low
  tree k hk := hp.tree k (by have := H.um; have := H.mn; omega)
  proj k h1 h2 y hy := hp.proj k h1 (by have := H.um; have := H.mn; omega) y hy

/-- The part between `u` and `m`, seen from `m`. -/
theorem Split.mid_proj {n : ℕ} {h : ℕ → ℕ} (hp : Proj n h) {u m : ℕ} (H : Split n h u m) :
    Proj (m - u - 1) fun k => if k = 0 then 0 else m - h (m - k) := by
  have hum := H.um
  have hmn := H.mn
  set g : ℕ → ℕ := fun k => if k = 0 then 0 else m - h (m - k) with hg
  have hgs : ∀ k, 1 ≤ k → g k = m - h (m - k) := fun k hk => by simp only [hg]; rw [if_neg (by omega)]
  have key : ∀ t : ℕ, ∀ y x, u < y → y ≤ m → u < x → h^[t] y = x → Leads g (m - y) (m - x) := by
    intro t
    induction t with
    | zero => intro y x _ _ _ he; rw [← he]; exact Leads.refl _ _
    | succ t ih =>
      intro y x h1 h2 h3 he
      rcases Nat.lt_or_ge y m with h4 | h4
      · rw [Function.iterate_succ_apply] at he
        have h5 := H.mid y h1 h4
        have := ih (h y) x h5.1 h5.2 h3 he
        refine Leads.step ?_
        rw [hgs _ (by omega), Nat.sub_sub_self h2]
        exact this
      · obtain rfl : y = m := by omega
        have : x = y ∨ x = 0 := Leads.closed (h := h) (D := fun k => k = y ∨ k = 0) (fun k hk => by
          rcases hk with rfl | rfl
          · exact Or.inr H.hm
          · exact Or.inr hp.root) (Or.inl rfl) ⟨t + 1, he⟩
        obtain rfl : x = y := by omega
        exact Leads.refl _ _
  refine ⟨by simp [hg], ?_, ?_, ?_⟩
  · intro k hk
    rcases Nat.eq_zero_or_pos k with rfl | h0
    · simp [hg]
    · rw [hgs k h0]
      have := H.mid (m - k) (by omega) (by omega)
      omega
  · intro k hk
    -- `m - k` leads to `m`
    have hl : ∀ t : ℕ, ∀ y, u < y → y ≤ m → h^[t] y = 0 → Leads h y m := by
      intro t
      induction t with
      | zero => intro y h1 _ he; simp only [Function.iterate_zero, id_eq] at he; omega
      | succ t ih =>
        intro y h1 h2 he
        rcases Nat.lt_or_ge y m with h4 | h4
        · rw [Function.iterate_succ_apply] at he
          have h5 := H.mid y h1 h4
          exact Leads.step (ih (h y) h5.1 h5.2 he)
        · obtain rfl : y = m := by omega
          exact Leads.refl _ _
    obtain ⟨t, ht⟩ := hp.tree (m - k) (by omega)
    obtain ⟨s, hs⟩ := hl t (m - k) (by omega) (by omega) ht
    have := key s (m - k) m (by omega) (by omega) hum hs
    rwa [Nat.sub_sub_self (by omega), Nat.sub_self] at this
  · intro k h1 h2 y hy
    rw [hgs k h1] at hy ⊢
    have h3 := H.mid (m - k) (by omega) (by omega)
    have hy' : Between (m - k) (m - y) (h (m - k)) ∧ y ≤ m := by unfold Between at hy ⊢; omega
    obtain ⟨t, ht⟩ := hp.proj (m - k) (by omega) (by omega) (m - y) hy'.1
    have := key t (m - y) (h (m - k)) (by unfold Between at hy; omega) (by omega) h3.1 ht
    rwa [Nat.sub_sub_self hy'.2] at this

/-- The part after `m`, seen from `m`. -/
theorem Split.far_proj {n : ℕ} {h : ℕ → ℕ} (hp : Proj n h) {u m : ℕ} (H : Split n h u m) :
    Proj (n - m) fun k => if k = 0 then 0 else h (m + k) - m := by
  have hum := H.um
  have hmn := H.mn
  set g : ℕ → ℕ := fun k => if k = 0 then 0 else h (m + k) - m with hg
  have hgs : ∀ k, 1 ≤ k → g k = h (m + k) - m := fun k hk => by simp only [hg]; rw [if_neg (by omega)]
  have key : ∀ t : ℕ, ∀ y x, m ≤ y → y ≤ n → m ≤ x → h^[t] y = x → Leads g (y - m) (x - m) := by
    intro t
    induction t with
    | zero => intro y x _ _ _ he; rw [← he]; exact Leads.refl _ _
    | succ t ih =>
      intro y x h1 h2 h3 he
      rcases Nat.lt_or_ge m y with h4 | h4
      · rw [Function.iterate_succ_apply] at he
        have := ih (h y) x (H.far y h4 h2) (hp.le y h2) h3 he
        refine Leads.step ?_
        rw [hgs _ (by omega), Nat.add_sub_cancel' h1]
        exact this
      · obtain rfl : y = m := by omega
        have : x = y ∨ x = 0 := Leads.closed (h := h) (D := fun k => k = y ∨ k = 0) (fun k hk => by
          rcases hk with rfl | rfl
          · exact Or.inr H.hm
          · exact Or.inr hp.root) (Or.inl rfl) ⟨t + 1, he⟩
        obtain rfl : x = y := by omega
        exact Leads.refl _ _
  refine ⟨by simp [hg], ?_, ?_, ?_⟩
  · intro k hk
    rcases Nat.eq_zero_or_pos k with rfl | h0
    · simp [hg]
    · rw [hgs k h0]
      have := hp.le (m + k) (by omega)
      omega
  · intro k hk
    have hl : ∀ t : ℕ, ∀ y, m ≤ y → y ≤ n → h^[t] y = 0 → Leads h y m := by
      intro t
      induction t with
      | zero => intro y h1 _ he; simp only [Function.iterate_zero, id_eq] at he; omega
      | succ t ih =>
        intro y h1 h2 he
        rcases Nat.lt_or_ge m y with h4 | h4
        · rw [Function.iterate_succ_apply] at he
          exact Leads.step (ih (h y) (H.far y h4 h2) (hp.le y h2) he)
        · obtain rfl : y = m := by omega
          exact Leads.refl _ _
    obtain ⟨t, ht⟩ := hp.tree (m + k) (by omega)
    obtain ⟨s, hs⟩ := hl t (m + k) (by omega) (by omega) ht
    have := key s (m + k) m (by omega) (by omega) le_rfl hs
    rwa [Nat.add_sub_cancel_left, Nat.sub_self] at this
  · intro k h1 h2 y hy
    rw [hgs k h1] at hy ⊢
    have h3 := H.far (m + k) (by omega) (by omega)
    have h4 := hp.le (m + k) (by omega)
    have hy' : Between (m + k) (m + y) (h (m + k)) := by unfold Between at hy ⊢; omega
    obtain ⟨t, ht⟩ := hp.proj (m + k) (by omega) (by omega) (m + y) hy'
    have := key t (m + y) (h (m + k)) (by omega) (by unfold Between at hy'; omega) h3 ht
    rwa [Nat.add_sub_cancel_left] at this

theorem head_surjective : ∀ (n : ℕ) (h : ℕ → ℕ), Proj n h → ∃ t : Deriv, t.width = n ∧ ∀ k ≤ n, t.head k = h k := by
  intro n
  induction n using Nat.strong_induction_on with
  | _ n ih =>
    intro h hp
    cases n with
    | zero =>
      refine ⟨leaf, rfl, fun k hk => ?_⟩
      obtain rfl : k = 0 := by omega
      rw [hp.root]; rfl
    | succ n =>
      obtain ⟨u, m, H⟩ := exists_split hp
      have hum := H.um
      have hmn := H.mn
      obtain ⟨a, a1, a2⟩ := ih u (by omega) h (H.low_proj hp)
      obtain ⟨b, b1, b2⟩ := ih (m - u - 1) (by omega) _ (H.mid_proj hp)
      obtain ⟨c, c1, c2⟩ := ih (n + 1 - m) (by omega) _ (H.far_proj hp)
      have hm : a.width + b.width + 1 = m := by omega
      refine ⟨node a b c, by simp only [width]; omega, fun k hk => ?_⟩
      rcases Nat.lt_or_ge u k with h1 | h1
      · rcases Nat.lt_trichotomy k m with h2 | h2 | h2
        · rw [head_b (by omega) (by omega), hm, b2 _ (by omega)]
          rw [if_neg (by omega), Nat.sub_sub_self h2.le]
          have := H.mid k h1 h2
          omega
        · rw [h2, ← hm, head_m, hm, H.hm]
        · rw [head_c (by omega), hm, c2 _ (by omega)]
          rw [if_neg (by omega), Nat.add_sub_cancel' h2.le]
          have := H.far k h2 hk
          omega
      · rw [head_a (by omega)]; exact a2 k h1

end Eisner
