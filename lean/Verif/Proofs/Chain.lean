import Verif.Proofs.Rel
import Verif.Spec.Chain

/-! The logarithmic scan computes the sum over tag sequences. -/

open Finset Spec LinearChain

namespace ChainProofs
variable {R : Type} [CommSemiring R] {C : ℕ}

/-- Product of the matrices `w (a+l-1) * ... * w a`. -/
def segProd (w : ℕ → Fin C → Fin C → R) (a : ℕ) : ℕ → Matrix (Fin C) (Fin C) R
  | 0 => 1
  | l + 1 => Matrix.of (w (a + l)) * segProd w a l

theorem segProd_add (w : ℕ → Fin C → Fin C → R) (a l l' : ℕ) :
    segProd w a (l + l') = segProd w (a + l) l' * segProd w a l := by
  induction l' with
  | zero => simp [segProd]
  | succ l' ih => rw [← Nat.add_assoc]; simp only [segProd]; rw [ih, Matrix.mul_assoc, Nat.add_assoc]

/-- Scan over a raw semiring is related to matrix products. -/
theorem scan_rel {α : Type} {S : SR α} {ρ : α → R → Prop} (H : SRRel S ρ) (hC : 0 < C) (k : ℕ) :
    ∀ (chart : ℕ → Fin C → Fin C → α) (w : ℕ → Fin C → Fin C → R) (l M : ℕ),
      (∀ n < M * 2 ^ k, ∀ i j, ρ (chart n i j) (segProd w (n * l) l i j)) →
      ∀ n < M, ∀ i j, ρ (scan S k chart n i j) (segProd w (n * (l * 2 ^ k)) (l * 2 ^ k) i j) := by
  induction k with
  | zero => intro chart w l M h n hn i j; simpa [scan] using h n (by simpa using hn) i j
  | succ k ih =>
    intro chart w l M h n hn i j
    have := ih (scanStep S chart) w (2 * l) M (fun n hn i j => by
      have e : segProd w (n * (2 * l)) (2 * l) =
          segProd w ((2 * n + 1) * l) l * segProd w (2 * n * l) l := by
        rw [show 2 * l = l + l by ring, segProd_add]; congr 2 <;> ring
      rw [e]
      have hb : 2 * n + 1 < M * 2 ^ (k + 1) := by rw [pow_succ, ← mul_assoc]; omega
      exact H.matmul hC (fun i k => h _ hb i k) (fun k j => h _ (by omega) k j) i j) n hn i j
    rw [show l * 2 ^ (k + 1) = 2 * l * 2 ^ k by ring]
    exact this

/-- The sum of all entries of a product of matrices is the sum over tag sequences. -/
theorem sum_segProd_last (w : ℕ → Fin C → Fin C → R) (m : ℕ) (i : Fin C) :
    ∑ j, segProd w 0 m i j = ∑ y : Tags m C, if y (Fin.last m) = i then seqProd w y else 0 := by
  induction m generalizing i with
  | zero =>
    simp only [segProd, Matrix.one_apply, seqProd, univ_eq_empty, prod_empty]
    rw [← (Equiv.funUnique (Fin 1) (Fin C)).symm.sum_comp]
    simp [eq_comm]
  | succ m ih =>
    simp only [segProd, Matrix.mul_apply, Nat.zero_add, Matrix.of_apply]
    rw [sum_comm]
    simp_rw [← mul_sum, ih]
    rw [← (Fin.snocEquiv (fun _ : Fin (m + 1 + 1) => Fin C)).sum_comp, Fintype.sum_prod_type]
    simp only [Fin.snocEquiv, Equiv.coe_fn_mk, Fin.snoc_last]
    simp_rw [mul_sum]
    rw [sum_comm]
    have key : ∀ (y : Tags m C) (c : Fin C), seqProd w (Fin.snoc (α := fun _ => Fin C) y c : Tags (m + 1) C) =
        w m c (y (Fin.last m)) * seqProd w y := by
      intro y c
      simp only [seqProd, Fin.prod_univ_castSucc, Fin.succ_castSucc, Fin.snoc_castSucc, Fin.val_castSucc, Fin.succ_last,
        Fin.snoc_last, Fin.val_last]
      rw [mul_comm]
    simp_rw [key]
    rw [sum_comm (s := univ) (t := univ)]
    rw [Finset.sum_comm]
    simp

theorem sum_segProd (w : ℕ → Fin C → Fin C → R) (m : ℕ) :
    ∑ i, ∑ j, segProd w 0 m i j = chainSum m w := by
  simp_rw [sum_segProd_last]
  rw [sum_comm]
  simp [chainSum]

/-- The final `sum(sum(..))` after the scan. -/
theorem total_scan_rel {α : Type} {S : SR α} {ρ : α → R → Prop} (H : SRRel S ρ) (hC : 0 < C) (k : ℕ)
    (chart : ℕ → Fin C → Fin C → α) (w : ℕ → Fin C → Fin C → R)
    (h : ∀ n < 2 ^ k, ∀ i j, ρ (chart n i j) (w n i j)) :
    ρ (total S (scan S k chart 0)) (chainSum (2 ^ k) w) := by
  rw [← sum_segProd]
  have := scan_rel H hC k chart w 1 1 (fun n hn i j => by
    have hn' : n < 2 ^ k := by omega
    simpa [segProd] using h n hn' i j) 0 (by omega)
  simp only [one_mul, Nat.zero_mul] at this
  exact H.sum_ofFn hC fun i => H.sum_ofFn hC fun j => this i j

theorem chainSum_congr {m : ℕ} {w w' : ℕ → Fin C → Fin C → R} (h : ∀ n < m, ∀ i j, w n i j = w' n i j) :
    chainSum m w = chainSum m w' := by
  unfold chainSum seqProd
  exact sum_congr rfl fun y _ => prod_congr rfl fun n _ => h n n.2 _ _

/-- Positions whose columns all sum to `s` contribute a factor `s`. -/
theorem chainSum_pad {m : ℕ} (w : ℕ → Fin C → Fin C → R) (s : R) (p : ℕ)
    (h : ∀ n, m ≤ n → n < m + p → ∀ j, ∑ i, w n i j = s) :
    chainSum (m + p) w = s ^ p * chainSum m w := by
  induction p with
  | zero => simp
  | succ p ih =>
    rw [← Nat.add_assoc, ← sum_segProd, pow_succ, mul_comm (s ^ p) s, mul_assoc,
      ← ih (fun n h1 h2 => h n h1 (by omega)), ← sum_segProd]
    simp only [segProd, Matrix.mul_apply, Nat.zero_add, Matrix.of_apply]
    calc ∑ i, ∑ j, ∑ k, w (m + p) i k * segProd w 0 (m + p) k j
        = ∑ k, (∑ i, w (m + p) i k) * ∑ j, segProd w 0 (m + p) k j := by
          simp_rw [sum_mul_sum]
          rw [eq_comm, sum_comm]
          refine sum_congr rfl fun i _ => ?_
          exact sum_comm
      _ = _ := by
          rw [mul_sum]
          exact sum_congr rfl fun k _ => by rw [h _ (by omega) (by omega)]

end ChainProofs
