import Mathlib.Tactic.Ring
import Mathlib.Data.List.GetD
import Mathlib.Data.List.Forall2
import Verif.Model.LogProb

/-! `log_prob` on stacks of events: the entries of the result. -/

namespace Tensor
variable {R : Type}

theorem mem_indices : ∀ {s ix : List ℕ}, ix ∈ indices s ↔ List.Forall₂ (· < ·) ix s
  | [], ix => by simp [indices]
  | n :: ns, ix => by
    simp only [indices, List.mem_flatMap, List.mem_range, List.mem_map]
    constructor
    · rintro ⟨i, hi, r, hr, rfl⟩
      exact .cons hi (mem_indices.1 hr)
    · rintro (_ | ⟨hi, hr⟩)
      exact ⟨_, hi, _, mem_indices.2 hr, rfl⟩

theorem indices_append {s t ix jx : List ℕ} (h1 : ix ∈ indices s) (h2 : jx ∈ indices t) : ix ++ jx ∈ indices (s ++ t) := by
  rw [mem_indices] at *
  exact List.rel_append h1 h2

theorem length_of_mem {s ix : List ℕ} (h : ix ∈ indices s) : ix.length = s.length := (mem_indices.1 h).length_eq

theorem dims_prefix : ∀ (l t : List ℕ), dims l (l ++ t) = .ok (l ++ t)
  | [], t => by simp [dims]
  | n :: l, t => by simp [dims, dim, dims_prefix l t, bind, Except.bind]

theorem dims_prefix' : ∀ (l t : List ℕ), dims (l ++ t) l = .ok (l ++ t)
  | [], [] => by simp [dims]
  | [], a :: t => by simp [dims]
  | n :: l, t => by simp [dims, dim, dims_prefix' l t, bind, Except.bind]

theorem zipWith_self : ∀ {s ix : List ℕ}, List.Forall₂ (· < ·) ix s → List.zipWith (fun n i => if n = 1 then 0 else i) s ix = ix
  | [], _, .nil => rfl
  | n :: ns, i :: ix, .cons h1 h2 => by
    rw [List.zipWith_cons_cons, zipWith_self h2]
    split_ifs with h
    · rw [h] at h1; congr 1; omega
    · rfl

/-- Reading a tensor in a result with more leading dimensions drops the leading indices. -/
theorem readAt_drop {s ix jx : List ℕ} (h : jx ∈ indices s) : readAt s (ix ++ jx) = jx := by
  have hl := length_of_mem h
  rw [readAt, List.length_append, ← hl, Nat.add_sub_cancel, List.drop_left, zipWith_self (mem_indices.1 h)]

theorem readAt_self {s ix : List ℕ} (h : ix ∈ indices s) : readAt s ix = ix := readAt_drop (ix := []) h

end Tensor

namespace StructDistribution
open Tensor
variable {R : Type}

/-- `log_prob` of a stack of events of shape `ss x B x ev`. -/
theorem logProb_stack (A : Arith R) (pot Z value : Tensor R) (ss ev : List ℕ) (B : ℕ) (hp : pot.shape = B :: ev) (hv : value.shape = ss ++ B :: ev)
    (hz : Z.shape = [B]) (hs : 0 ∉ ss) (hB : B ≠ 0) :
    ∃ t, logProb A pot (.ok Z) value = .ok t ∧ t.shape = ss ++ [B] ∧ ∀ s ∈ indices ss, ∀ b < B,
      t.get (s ++ [b]) = A.sub (A.sum ((indices ev).map fun r => A.mul (pot.get (b :: r)) (value.get (s ++ b :: r)))) (Z.get [b]) := by
  have h1 : dims pot.shape.reverse value.shape.reverse = .ok value.shape.reverse := by
    rw [hp, hv, List.reverse_append]; exact dims_prefix _ _
  have hk : value.shape.length - pot.shape.tail.length = ss.length + 1 := by
    rw [hp, hv, List.tail_cons, List.length_append, List.length_cons]; omega
  have hv' : value.shape = (ss ++ [B]) ++ ev := by rw [hv]; simp
  have htake : value.shape.take (ss.length + 1) = ss ++ [B] := by
    rw [hv', List.take_append_of_le_length (by simp), List.take_of_length_le (by simp)]
  have hdrop : value.shape.drop (ss.length + 1) = ev := by
    rw [hv']; exact List.drop_left' (by simp)
  have h2 : dims (ss ++ [B]).reverse Z.shape.reverse = .ok (ss ++ [B]).reverse := by
    rw [hz]; simpa using dims_prefix' [B] ss.reverse
  refine ⟨_, by
    rw [logProb, Tensor.score, Tensor.zip, h1, hk]
    simp only [bind, Except.bind, List.reverse_reverse]
    rw [if_pos (by rw [hv]; simp), if_neg (by rw [htake]; simp [hs, hB.symm])]
    simp only [Tensor.zip, bind, Except.bind]
    rw [htake, h2], List.reverse_reverse _, fun s hs b hb => ?_⟩
  simp only
  have m1 : [b] ∈ indices [B] := by rw [mem_indices]; exact .cons hb .nil
  rw [hz, readAt_drop m1, readAt_self (indices_append hs m1), hdrop]
  congr 2
  refine List.map_congr_left fun r hr => ?_
  have m2 : b :: r ∈ indices (B :: ev) := by rw [mem_indices]; exact .cons hb (mem_indices.1 hr)
  have e : s ++ [b] ++ r = s ++ b :: r := by simp
  rw [e, hp, readAt_drop m2, hv, readAt_self (indices_append hs m2)]

/-- When the partition fails, `log_prob` fails with the same error. -/
theorem logProb_fail (A : Arith R) (pot value : Tensor R) (e : PyErr) (ss ev : List ℕ) (B : ℕ) (hp : pot.shape = B :: ev) (hv : value.shape = ss ++ B :: ev)
    (hs : 0 ∉ ss) (hB : B ≠ 0) : logProb A pot (.error e) value = .error e := by
  have h1 : dims pot.shape.reverse value.shape.reverse = .ok value.shape.reverse := by
    rw [hp, hv, List.reverse_append]; exact dims_prefix _ _
  have hk : value.shape.length - pot.shape.tail.length = ss.length + 1 := by
    rw [hp, hv, List.tail_cons, List.length_append, List.length_cons]; omega
  have hv' : value.shape = (ss ++ [B]) ++ ev := by rw [hv]; simp
  have htake : value.shape.take (ss.length + 1) = ss ++ [B] := by
    rw [hv', List.take_append_of_le_length (by simp), List.take_of_length_le (by simp)]
  rw [logProb, Tensor.score, Tensor.zip, h1, hk]
  simp only [bind, Except.bind, List.reverse_reverse]
  rw [if_pos (by rw [hv]; simp), if_neg (by rw [htake]; simp [hs, hB.symm])]

end StructDistribution

/-! ### Infinities and NaN -/

namespace IEEE

theorem add_none_left (x : IEEE) : add none x = none := by cases x <;> rfl
theorem add_none_right (x : IEEE) : add x none = none := by cases x <;> rfl

/-- A sum with a NaN is NaN. -/
theorem sum_nan : ∀ (l : List IEEE), none ∈ l → Arith.ieee.sum l = none
  | [], h => absurd h List.not_mem_nil
  | x :: l, h => by
    change add x (Arith.ieee.sum l) = none
    rcases List.mem_cons.1 h with h | h
    · rw [← h, add_none_left]
    · rw [sum_nan l h, add_none_right]

theorem mul_bot_zero : mul (some ⊥) (ofReal 0) = none := by simp [mul, ofReal]

theorem mul_real (x y : ℝ) : mul (ofReal x) (ofReal y) = ofReal (x * y) := by
  simp [mul, ofReal]

theorem add_real (x y : ℝ) : add (ofReal x) (ofReal y) = ofReal (x + y) := by
  simp [add, ofReal]

theorem sub_real (x y : ℝ) : sub (ofReal x) (ofReal y) = ofReal (x - y) := by
  have : (ofReal y).map (fun v => -v) = ofReal (-y) := by simp [ofReal]
  rw [sub, this, add_real, sub_eq_add_neg]

theorem sum_real : ∀ (l : List ℝ), Arith.ieee.sum (l.map ofReal) = ofReal l.sum
  | [] => rfl
  | x :: l => by
    change add (ofReal x) (Arith.ieee.sum (l.map ofReal)) = _
    rw [sum_real l, add_real, List.sum_cons]

end IEEE
