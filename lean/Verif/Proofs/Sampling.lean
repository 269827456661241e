import Mathlib.Algebra.MvPolynomial.Basic
import Mathlib.Algebra.MvPolynomial.Eval
import Mathlib.Probability.Independence.Basic
import Mathlib.Tactic.Linarith
import Mathlib.Tactic.FieldSimp
import Verif.Model.Sampling
import Verif.Proofs.Rel

/-! Backward sampling through a recorded expression draws the monomials of a polynomial, in proportion to their coefficients. -/

open Finset MvPolynomial Semirings

noncomputable section
namespace Sampling

/-- Event multiplicities: how often each entry of the potentials is used. -/
abbrev Ev := List ℕ →₀ ℕ

namespace Expr

/-- No `sum` of the expression is empty. -/
def NoEmpty : Expr → Prop
  | leaf _ _ => True
  | const _ => True
  | mul a b => a.NoEmpty ∧ b.NoEmpty
  | sum n f => 0 < n ∧ ∀ i, (f i).NoEmpty
  | setData x _ => x.NoEmpty

/-- Entries of the potentials that occur in the expression. -/
def leaves : Expr → Set (List ℕ)
  | leaf _ id => {id}
  | const _ => ∅
  | mul a b => a.leaves ∪ b.leaves
  | sum _ f => ⋃ i, (f i).leaves
  | setData x _ => x.leaves

/-- The polynomial of the expression: its monomials are the events that can be drawn. -/
def poly : Expr → MvPolynomial (List ℕ) ℝ
  | leaf v id => C (Real.exp v) * X id
  | const v => C (Real.exp v)
  | mul a b => a.poly * b.poly
  | sum _ f => ∑ i, (f i).poly
  | setData x v => C (Real.exp (v - x.value)) * x.poly

/-- The events that can be drawn. -/
def supp : Expr → Set Ev
  | leaf _ id => {Finsupp.single id 1}
  | const _ => {0}
  | mul a b => {m | ∃ u ∈ a.supp, ∃ v ∈ b.supp, m = u + v}
  | sum _ f => ⋃ i, (f i).supp
  | setData x _ => x.supp

/-- Factors of a product use different entries of the potentials. -/
def Lin : Expr → Prop
  | leaf _ _ => True
  | const _ => True
  | mul a b => Disjoint a.leaves b.leaves ∧ a.Lin ∧ b.Lin
  | sum _ f => ∀ i, (f i).Lin
  | setData x _ => x.Lin

def size : Expr → ℕ
  | leaf _ _ => 1
  | const _ => 1
  | mul a b => a.size + b.size + 1
  | sum _ f => (∑ i, (f i).size) + 1
  | setData x _ => x.size + 1

theorem supp_nonempty : ∀ (e : Expr), e.NoEmpty → e.supp.Nonempty
  | leaf _ _, _ => ⟨_, rfl⟩
  | const _, _ => ⟨_, rfl⟩
  | mul a b, h => by
    obtain ⟨u, hu⟩ := supp_nonempty a h.1
    obtain ⟨v, hv⟩ := supp_nonempty b h.2
    exact ⟨u + v, u, hu, v, hv, rfl⟩
  | sum n f, h => by
    obtain ⟨u, hu⟩ := supp_nonempty (f ⟨0, h.1⟩) (h.2 _)
    exact ⟨u, Set.mem_iUnion.2 ⟨_, hu⟩⟩
  | setData x _, h => supp_nonempty x h

theorem leaf_in_supp : ∀ (e : Expr), e.NoEmpty → ∀ id ∈ e.leaves, ∃ m ∈ e.supp, 1 ≤ m id
  | leaf _ i, _, id, h => ⟨_, rfl, by
      rw [Set.mem_singleton_iff.1 h]; simp⟩
  | const _, _, _, h => absurd h (Set.notMem_empty _)
  | mul a b, h, id, hid => by
    rcases hid with hid | hid
    · obtain ⟨u, hu, h1⟩ := leaf_in_supp a h.1 id hid
      obtain ⟨v, hv⟩ := supp_nonempty b h.2
      exact ⟨u + v, ⟨u, hu, v, hv, rfl⟩, by rw [Finsupp.add_apply]; omega⟩
    · obtain ⟨u, hu, h1⟩ := leaf_in_supp b h.2 id hid
      obtain ⟨v, hv⟩ := supp_nonempty a h.1
      exact ⟨v + u, ⟨v, hv, u, hu, rfl⟩, by rw [Finsupp.add_apply]; omega⟩
  | sum n f, h, id, hid => by
    obtain ⟨i, hi⟩ := Set.mem_iUnion.1 hid
    obtain ⟨u, hu, h1⟩ := leaf_in_supp (f i) (h.2 i) id hi
    exact ⟨u, Set.mem_iUnion.2 ⟨i, hu⟩, h1⟩
  | setData x _, h, id, hid => leaf_in_supp x h id hid

theorem lin_of_supp : ∀ (e : Expr), e.NoEmpty → (∀ m ∈ e.supp, ∀ id, m id ≤ 1) → e.Lin
  | leaf _ _, _, _ => trivial
  | const _, _, _ => trivial
  | mul a b, h, hm => by
    obtain ⟨u0, hu0⟩ := supp_nonempty a h.1
    obtain ⟨v0, hv0⟩ := supp_nonempty b h.2
    refine ⟨Set.disjoint_left.2 fun id ha hb => ?_, lin_of_supp a h.1 fun m hma id => ?_, lin_of_supp b h.2 fun m hmb id => ?_⟩
    · obtain ⟨u, hu, h1⟩ := leaf_in_supp a h.1 id ha
      obtain ⟨v, hv, h2⟩ := leaf_in_supp b h.2 id hb
      have := hm (u + v) ⟨u, hu, v, hv, rfl⟩ id
      rw [Finsupp.add_apply] at this; omega
    · have := hm (m + v0) ⟨m, hma, v0, hv0, rfl⟩ id
      rw [Finsupp.add_apply] at this; omega
    · have := hm (u0 + m) ⟨u0, hu0, m, hmb, rfl⟩ id
      rw [Finsupp.add_apply] at this; omega
  | sum n f, h, hm => fun i => lin_of_supp (f i) (h.2 i) fun m hmi => hm m (Set.mem_iUnion.2 ⟨i, hmi⟩)
  | setData x _, h, hm => lin_of_supp x h hm

theorem poly_nonneg : ∀ (e : Expr) (m : Ev), 0 ≤ coeff m e.poly
  | leaf v id, m => by
    rw [poly, coeff_C_mul, coeff_X]
    split_ifs <;> simp [(Real.exp_pos v).le]
  | const v, m => by
    rw [poly, coeff_C]
    split_ifs <;> simp [(Real.exp_pos v).le]
  | mul a b, m => by
    rw [poly, coeff_mul]
    exact sum_nonneg fun x _ => mul_nonneg (poly_nonneg a _) (poly_nonneg b _)
  | sum n f, m => by
    rw [poly, coeff_sum]
    exact sum_nonneg fun i _ => poly_nonneg (f i) m
  | setData x v, m => by
    rw [poly, coeff_C_mul]
    exact mul_nonneg (Real.exp_pos _).le (poly_nonneg x m)

theorem poly_pos : ∀ (e : Expr) (m : Ev), m ∈ e.supp → 0 < coeff m e.poly
  | leaf v id, m, h => by
    rw [Set.mem_singleton_iff.1 h, poly, coeff_C_mul, coeff_X, if_pos rfl, mul_one]; exact Real.exp_pos v
  | const v, m, h => by
    rw [Set.mem_singleton_iff.1 h, poly, coeff_C, if_pos rfl]; exact Real.exp_pos v
  | mul a b, m, h => by
    obtain ⟨u, hu, v, hv, rfl⟩ := h
    rw [poly, coeff_mul]
    refine lt_of_lt_of_le (mul_pos (poly_pos a u hu) (poly_pos b v hv)) ?_
    exact single_le_sum (f := fun x : Ev × Ev => coeff x.1 a.poly * coeff x.2 b.poly)
      (fun x _ => mul_nonneg (poly_nonneg a _) (poly_nonneg b _)) (Finset.mem_antidiagonal.2 rfl : (u, v) ∈ _)
  | sum n f, m, h => by
    obtain ⟨i, hi⟩ := Set.mem_iUnion.1 h
    rw [poly, coeff_sum]
    exact lt_of_lt_of_le (poly_pos (f i) m hi)
      (single_le_sum (f := fun i => coeff m (f i).poly) (fun i _ => poly_nonneg (f i) m) (mem_univ i))
  | setData x v, m, h => by
    rw [poly, coeff_C_mul]
    exact mul_pos (Real.exp_pos _) (poly_pos x m h)

/-- A recorded expression whose polynomial is multilinear never uses an entry twice. -/
theorem lin_of_poly (e : Expr) (h : e.NoEmpty) (hm : ∀ m, coeff m e.poly ≠ 0 → ∀ id, m id ≤ 1) : e.Lin :=
  lin_of_supp e h fun m hms => hm m (poly_pos e m hms).ne'

theorem exp_lse {l : List ℝ} (h : l ≠ []) : Real.exp (lse l) = (l.map Real.exp).sum := by
  rw [lse, Real.exp_log]
  cases l with
  | nil => exact absurd rfl h
  | cons a l =>
    rw [List.map_cons, List.sum_cons]
    have : 0 ≤ (l.map Real.exp).sum := List.sum_nonneg (by simp; intro a _; exact (Real.exp_pos a).le)
    have := Real.exp_pos a; linarith

theorem exp_lse_ofFn {n : ℕ} (hn : 0 < n) (f : Fin n → ℝ) : Real.exp (lse (List.ofFn f)) = ∑ i, Real.exp (f i) := by
  rw [exp_lse, List.map_ofFn, List.sum_ofFn]; rfl
  intro h
  have := congrArg List.length h
  simp at this; omega

theorem eval_poly : ∀ (e : Expr), e.NoEmpty → eval (fun _ => 1) e.poly = Real.exp e.value
  | leaf v id, _ => by simp [poly, value]
  | const v, _ => by simp [poly, value]
  | mul a b, h => by rw [poly, map_mul, eval_poly a h.1, eval_poly b h.2, value, Real.exp_add]
  | sum n f, h => by
    rw [poly, map_sum, value, exp_lse_ofFn h.1]
    exact sum_congr rfl fun i _ => eval_poly (f i) (h.2 i)
  | setData x v, h => by
    rw [poly, map_mul, eval_poly x h, value, eval_C, ← Real.exp_add, sub_add_cancel]

theorem poly_leafless : ∀ (e : Expr), e.NoEmpty → e.leaves = ∅ → e.poly = C (Real.exp e.value)
  | leaf v id, _, h => absurd h (Set.singleton_ne_empty id)
  | const v, _, _ => rfl
  | mul a b, h, hl => by
    have hl' := Set.union_empty_iff.1 hl
    rw [poly, poly_leafless a h.1 hl'.1, poly_leafless b h.2 hl'.2, ← C_mul, value, Real.exp_add]
  | sum n f, h, hl => by
    have hl' := Set.iUnion_eq_empty.1 hl
    rw [poly, value, exp_lse_ofFn h.1, map_sum]
    exact sum_congr rfl fun i _ => poly_leafless (f i) (h.2 i) (hl' i)
  | setData x v, h, hl => by
    rw [poly, poly_leafless x h hl, ← C_mul, ← Real.exp_add, sub_add_cancel, value]

end Expr

variable {K : Type} (T : Tape K)

/-- One sampled event, by recursion on the expression. -/
def grad (draw : K → ℕ) : Expr → K → Ev
  | .leaf _ id, _ => Finsupp.single id 1
  | .const _, _ => 0
  | .mul a b, k => match T.op k with
    | .add ka kb => grad draw a ka + grad draw b kb
    | _ => 0
  | .sum n f, k => match T.op k with
    | .lse m c => if h : m = n ∧ draw k < n then grad draw (f ⟨draw k, h.2⟩) (c ⟨draw k, h.1 ▸ h.2⟩) else 0
    | _ => 0
  | .setData x _, k => match T.op k with
    | .data kx _ => grad draw x kx
    | _ => 0

variable {T}

theorem repr_unique : ∀ (e e' : Expr) (k : K), Repr T e k → Repr T e' k → e = e'
  | .leaf v id, e', k, h, h' => by
    cases e' <;> simp only [Repr] at h h' <;> aesop
  | .const v, e', k, h, h' => by
    cases e' <;> simp only [Repr] at h h' <;> aesop
  | .mul a b, e', k, h, h' => by
    obtain ⟨ka, kb, h1, h2, h3, h4⟩ := h
    cases e' with
    | mul a' b' =>
      obtain ⟨ka', kb', h1', h2', h3', h4'⟩ := h'
      rw [h1] at h1'; cases h1'
      rw [repr_unique a a' ka h2 h2', repr_unique b b' kb h3 h3']
    | leaf => rw [Repr, h1] at h'; simp at h'
    | const => rw [Repr, h1] at h'; simp at h'
    | sum => obtain ⟨c, h1', _⟩ := h'; rw [h1] at h1'; cases h1'
    | setData => obtain ⟨c, h1', _⟩ := h'; rw [h1] at h1'; cases h1'
  | .sum n f, e', k, h, h' => by
    obtain ⟨c, h1, h2, h3⟩ := h
    cases e' with
    | sum n' f' =>
      obtain ⟨c', h1', h2', h3'⟩ := h'
      rw [h1] at h1'; cases h1'
      congr 1
      funext i
      exact repr_unique (f i) (f' i) (c i) (h2 i) (h2' i)
    | leaf => rw [Repr, h1] at h'; simp at h'
    | const => rw [Repr, h1] at h'; simp at h'
    | mul => obtain ⟨c, d, h1', _⟩ := h'; rw [h1] at h1'; cases h1'
    | setData => obtain ⟨c, h1', _⟩ := h'; rw [h1] at h1'; cases h1'
  | .setData x v, e', k, h, h' => by
    obtain ⟨kx, h1, h2, h3⟩ := h
    cases e' with
    | setData x' v' =>
      obtain ⟨kx', h1', h2', h3'⟩ := h'
      rw [h1] at h1'; cases h1'
      rw [repr_unique x x' kx h2 h2']
    | leaf => rw [Repr, h1] at h'; simp at h'
    | const => rw [Repr, h1] at h'; simp at h'
    | mul => obtain ⟨c, d, h1', _⟩ := h'; rw [h1] at h1'; cases h1'
    | sum => obtain ⟨c, h1', _⟩ := h'; rw [h1] at h1'; cases h1'

theorem repr_val : ∀ (e : Expr) (k : K), Repr T e k → T.val k = e.value
  | .leaf v id, k, h => h.2
  | .const v, k, h => h.2
  | .mul a b, k, h => by
    obtain ⟨ka, kb, h1, h2, h3, h4⟩ := h
    rw [h4, repr_val a ka h2, repr_val b kb h3, Expr.value]
  | .sum n f, k, h => by
    obtain ⟨c, h1, h2, h3⟩ := h
    rw [h3, Expr.value]
    congr 2
    funext i
    exact repr_val (f i) (c i) (h2 i)
  | .setData x v, k, h => by
    obtain ⟨kx, h1, h2, h3⟩ := h
    exact h3

theorem grad_mul (draw : K → ℕ) {a b : Expr} {k ka kb : K} (h : T.op k = .add ka kb) :
    grad T draw (.mul a b) k = grad T draw a ka + grad T draw b kb := by
  rw [grad, h]

theorem grad_sum (draw : K → ℕ) {n : ℕ} {f : Fin n → Expr} {k : K} {c : Fin n → K} (h : T.op k = .lse n c) (hd : draw k < n) :
    grad T draw (.sum n f) k = grad T draw (f ⟨draw k, hd⟩) (c ⟨draw k, hd⟩) := by
  rw [grad, h]; simp [hd]

theorem grad_setData (draw : K → ℕ) {x : Expr} {v w : ℝ} {k kx : K} (h : T.op k = .data kx w) :
    grad T draw (.setData x v) k = grad T draw x kx := by
  rw [grad, h]

theorem grad_leafless (draw : K → ℕ) : ∀ (e : Expr) (k : K), Repr T e k → e.leaves = ∅ → grad T draw e k = 0
  | .leaf v id, k, h, hl => absurd hl (Set.singleton_ne_empty id)
  | .const v, k, h, hl => rfl
  | .mul a b, k, h, hl => by
    obtain ⟨ka, kb, h1, h2, h3, h4⟩ := h
    have hl' := Set.union_empty_iff.1 hl
    rw [grad_mul _ h1, grad_leafless draw a ka h2 hl'.1, grad_leafless draw b kb h3 hl'.2, add_zero]
  | .sum n f, k, h, hl => by
    obtain ⟨c, h1, h2, h3⟩ := h
    have hl' := Set.iUnion_eq_empty.1 hl
    by_cases hd : draw k < n
    · rw [grad_sum _ h1 hd]; exact grad_leafless draw _ _ (h2 _) (hl' _)
    · rw [grad, h1]; simp [hd]
  | .setData x v, k, h, hl => by
    obtain ⟨kx, h1, h2, h3⟩ := h
    rw [grad_setData _ h1]; exact grad_leafless draw x kx h2 hl

variable (T) [DecidableEq K]

open Classical in
/-- The nodes whose draws matter. -/
def keys : Expr → K → Finset K
  | .leaf _ _, _ => ∅
  | .const _, _ => ∅
  | .mul a b, k => match T.op k with
    | .add ka kb => keys a ka ∪ keys b kb
    | _ => ∅
  | .sum n f, k => match T.op k with
    | .lse m c => if h : m = n ∧ (Expr.sum n f).leaves ≠ ∅ then insert k (univ.biUnion fun i : Fin n => keys (f i) (c (Fin.cast h.1.symm i)))
        else ∅
    | _ => ∅
  | .setData x _, k => match T.op k with
    | .data kx _ => keys x kx
    | _ => ∅

variable {T}

theorem keys_mul {a b : Expr} {k ka kb : K} (h : T.op k = .add ka kb) :
    keys T (.mul a b) k = keys T a ka ∪ keys T b kb := by
  rw [keys, h]

theorem keys_sum {n : ℕ} {f : Fin n → Expr} {k : K} {c : Fin n → K} (h : T.op k = .lse n c) (hl : (Expr.sum n f).leaves ≠ ∅) :
    keys T (.sum n f) k = insert k (univ.biUnion fun i : Fin n => keys T (f i) (c i)) := by
  rw [keys, h]; simp [hl]

theorem keys_sum_leafless {n : ℕ} {f : Fin n → Expr} {k : K} (hl : (Expr.sum n f).leaves = ∅) : keys T (.sum n f) k = ∅ := by
  rw [keys]; cases T.op k <;> simp [hl]

theorem keys_setData {x : Expr} {v w : ℝ} {k kx : K} (h : T.op k = .data kx w) : keys T (.setData x v) k = keys T x kx := by
  rw [keys, h]

/-- A node whose draw matters holds a sub-expression that has leaves. -/
theorem keys_spec : ∀ (e : Expr) (k : K), Repr T e k → ∀ κ ∈ keys T e k,
    ∃ e', Repr T e' κ ∧ e'.leaves ≠ ∅ ∧ e'.leaves ⊆ e.leaves ∧ e'.size ≤ e.size
  | .leaf v id, k, h, κ, hκ => absurd hκ (notMem_empty _)
  | .const v, k, h, κ, hκ => absurd hκ (notMem_empty _)
  | .mul a b, k, h, κ, hκ => by
    obtain ⟨ka, kb, h1, h2, h3, h4⟩ := h
    rw [keys_mul h1, Finset.mem_union] at hκ
    rcases hκ with hκ | hκ
    · obtain ⟨e', a1, a2, a3, a4⟩ := keys_spec a ka h2 κ hκ
      exact ⟨e', a1, a2, a3.trans Set.subset_union_left, by rw [Expr.size]; omega⟩
    · obtain ⟨e', a1, a2, a3, a4⟩ := keys_spec b kb h3 κ hκ
      exact ⟨e', a1, a2, a3.trans Set.subset_union_right, by rw [Expr.size]; omega⟩
  | .sum n f, k, h, κ, hκ => by
    obtain ⟨c, h1, h2, h3⟩ := h
    by_cases hl : (Expr.sum n f).leaves = ∅
    · rw [keys_sum_leafless hl] at hκ; exact absurd hκ (notMem_empty _)
    · rw [keys_sum h1 hl, Finset.mem_insert] at hκ
      rcases hκ with rfl | hκ
      · exact ⟨.sum n f, ⟨c, h1, h2, h3⟩, hl, le_rfl, le_rfl⟩
      · obtain ⟨i, -, hi⟩ := Finset.mem_biUnion.1 hκ
        obtain ⟨e', a1, a2, a3, a4⟩ := keys_spec (f i) (c i) (h2 i) κ hi
        refine ⟨e', a1, a2, a3.trans (Set.subset_iUnion (fun i => (f i).leaves) i), ?_⟩
        rw [Expr.size]
        have := single_le_sum (f := fun i => (f i).size) (fun _ _ => Nat.zero_le _) (mem_univ i)
        omega
  | .setData x v, k, h, κ, hκ => by
    obtain ⟨kx, h1, h2, h3⟩ := h
    rw [keys_setData h1] at hκ
    obtain ⟨e', a1, a2, a3, a4⟩ := keys_spec x kx h2 κ hκ
    exact ⟨e', a1, a2, a3, by rw [Expr.size]; omega⟩

theorem keys_disjoint {a b : Expr} {ka kb : K} (ha : Repr T a ka) (hb : Repr T b kb) (h : Disjoint a.leaves b.leaves) :
    Disjoint (keys T a ka) (keys T b kb) := by
  rw [Finset.disjoint_left]
  intro κ h1 h2
  obtain ⟨e1, r1, l1, s1, -⟩ := keys_spec a ka ha κ h1
  obtain ⟨e2, r2, l2, s2, -⟩ := keys_spec b kb hb κ h2
  obtain rfl := repr_unique e1 e2 κ r1 r2
  obtain ⟨id, hid⟩ := Set.nonempty_iff_ne_empty.2 l1
  exact Set.disjoint_left.1 h (s1 hid) (s2 hid)

theorem key_not_child {n : ℕ} {f : Fin n → Expr} {k : K} {c : Fin n → K} (h : Repr T (.sum n f) k) (h1 : T.op k = .lse n c) (i : Fin n) :
    k ∉ keys T (f i) (c i) := by
  intro hk
  obtain ⟨c', h1', h2, h3⟩ := id h
  rw [h1] at h1'; cases h1'
  obtain ⟨e', r, -, -, hs⟩ := keys_spec (f i) (c i) (h2 i) k hk
  obtain rfl := repr_unique _ _ _ h r
  rw [Expr.size] at hs
  have := single_le_sum (f := fun i => (f i).size) (fun _ _ => Nat.zero_le _) (mem_univ i)
  omega

theorem grad_congr {draw draw' : K → ℕ} : ∀ (e : Expr) (k : K), Repr T e k → (∀ κ ∈ keys T e k, draw κ = draw' κ) →
    grad T draw e k = grad T draw' e k
  | .leaf v id, k, h, hd => rfl
  | .const v, k, h, hd => rfl
  | .mul a b, k, h, hd => by
    obtain ⟨ka, kb, h1, h2, h3, h4⟩ := h
    rw [keys_mul h1] at hd
    rw [grad_mul _ h1, grad_mul _ h1, grad_congr a ka h2 fun κ hκ => hd κ (Finset.mem_union_left _ hκ),
      grad_congr b kb h3 fun κ hκ => hd κ (Finset.mem_union_right _ hκ)]
  | .sum n f, k, h, hd => by
    by_cases hl : (Expr.sum n f).leaves = ∅
    · rw [grad_leafless _ _ _ h hl, grad_leafless _ _ _ h hl]
    · obtain ⟨c, h1, h2, h3⟩ := h
      rw [keys_sum h1 hl] at hd
      have hk := hd k (Finset.mem_insert_self _ _)
      by_cases hlt : draw k < n
      · have hlt' : draw' k < n := hk ▸ hlt
        rw [grad_sum _ h1 hlt, grad_sum _ h1 hlt']
        have : (⟨draw k, hlt⟩ : Fin n) = ⟨draw' k, hlt'⟩ := Fin.ext hk
        rw [this]
        exact grad_congr _ _ (h2 _) fun κ hκ =>
          hd κ (Finset.mem_insert_of_mem (Finset.mem_biUnion.2 ⟨_, mem_univ _, hκ⟩))
      · rw [grad, grad, h1]; simp [hlt, ← hk]
  | .setData x v, k, h, hd => by
    obtain ⟨kx, h1, h2, h3⟩ := h
    rw [keys_setData h1] at hd
    rw [grad_setData _ h1, grad_setData _ h1]; exact grad_congr x kx h2 hd

end Sampling
