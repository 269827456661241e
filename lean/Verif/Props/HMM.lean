import Mathlib.Data.Fintype.BigOperators
import Mathlib.Algebra.BigOperators.Ring.Finset
import Mathlib.Logic.Equiv.Fin.Basic
import Verif.Spec.HMM
import Verif.Model.LinearChainParts
import Verif.Props.LinearChainMarginals

/-! Property theorems about the `HMM` distribution: C14. -/

open Finset Spec

noncomputable section
namespace Props.HMM
open _root_.LinearChain

/-- The observations are symbols of the vocabulary. -/
def Symbols (x : T2 ℕ) (V : ℕ) : Prop := ∀ b < x.d0, ∀ n < x.d1, x.get b n < V

/-- Row `b` of the batch of observations is `x'`. -/
def IsObs {N V : ℕ} (x : T2 ℕ) (b : ℕ) (x' : Fin N → Fin V) : Prop := ∀ n : Fin N, x.get b n = x' n

theorem hmm_ok (V C : ℕ) (tr : ℕ → ℕ → ℝ) (em : ℕ → ℕ → ℝ) (ini : ℕ → ℝ) (x : T2 ℕ) (hN : 2 ≤ x.d1) (hx : Symbols x V) :
    ∃ p, hmm V C tr em ini x = .ok p ∧ p.d0 = x.d0 ∧ p.d1 = x.d1 - 1 ∧ p.d2 = C ∧ p.d3 = C ∧
      ∀ b n i j, n < x.d1 - 1 → p.get b n i j = tr i j + (if n = 0 then ini j else 0) + em (x.get b (n + 1)) i +
        (if n = 0 then em (x.get b 0) j else 0) := by
  have hs : ¬ ∃ b ∈ List.range x.d0, ∃ n ∈ List.range x.d1, V ≤ x.get b n := by
    rintro ⟨b, hb, n, hn, h⟩
    have := hx b (List.mem_range.1 hb) n (List.mem_range.1 hn); omega
  refine ⟨_, by unfold hmm; simp only []; rw [if_neg (by omega), if_neg (by omega), if_neg hs], rfl, rfl, rfl, rfl, ?_⟩
  intro b n i j hn
  have hr : ∀ k < x.d1, Struct.unflat x.d1 (fun r => em (Struct.flat x.d1 x.get r)) b k = em (x.get b k) := by
    intro k hk
    unfold Struct.unflat Struct.flat
    beta_reduce
    rw [Nat.mul_comm, Nat.mul_add_div (by omega), Nat.div_eq_of_lt hk, Nat.mul_add_mod, Nat.mod_eq_of_lt hk, add_zero]
  simp only [hr (n + 1) (by omega), hr 0 (by omega)]
  split_ifs <;> ring

/-- **C14.** The potentials built by `HMM` score every state sequence with its joint log-probability with the observations. -/
theorem hmm_score (V C : ℕ) (tr : ℕ → ℕ → ℝ) (em : ℕ → ℕ → ℝ) (ini : ℕ → ℝ) (x : T2 ℕ) (m : ℕ) (hN : x.d1 = m + 2) (hx : Symbols x V) :
    ∃ p, hmm V C tr em ini x = .ok p ∧ p.d0 = x.d0 ∧ p.d1 = m + 1 ∧ p.d2 = C ∧ p.d3 = C ∧
      ∀ b (x' : Fin (m + 2) → Fin V), IsObs x b x' → ∀ z : Tags (m + 1) C,
        seqScore (fun n i j => p.get b n i j) z = hmmJoint (fun i j => tr i j) (fun v c => em v c) (fun c => ini c) x' z := by
  obtain ⟨p, h1, h2, h3, h4, h5, h6⟩ := hmm_ok V C tr em ini x (by omega) hx
  refine ⟨p, h1, h2, by omega, h4, h5, fun b x' hb z => ?_⟩
  unfold seqScore hmmJoint
  have e : ∀ n : Fin (m + 1), p.get b n (z n.succ) (z n.castSucc) = tr (z n.succ) (z n.castSucc) + em (x' n.succ) (z n.succ) +
      ((if n = 0 then ini (z 0) else 0) + (if n = 0 then em (x' 0) (z 0) else 0)) := by
    intro n
    rw [h6 b n _ _ (by omega), show x.get b (n + 1) = x' n.succ from hb n.succ, show x.get b 0 = x' 0 from hb 0]
    by_cases hn : n = 0
    · subst hn; simp; ring
    · have : (n : ℕ) ≠ 0 := fun h => hn (Fin.ext h)
      simp [hn, this]
  simp only [e, sum_add_distrib, sum_ite_eq', mem_univ, if_true]
  rw [Fin.sum_univ_succ (fun n : Fin (m + 2) => em (x' n) (z n))]
  ring

theorem sum_markov (C m : ℕ) (f : Fin C → ℝ) (T : Fin C → Fin C → ℝ) (hT : ∀ j, ∑ i, T i j = 1) :
    ∑ z : Tags m C, f (z 0) * ∏ n : Fin m, T (z n.succ) (z n.castSucc) = ∑ c, f c := by
  induction m with
  | zero =>
    rw [← (Equiv.funUnique (Fin 1) (Fin C)).symm.sum_comp]
    simp [Equiv.funUnique]
  | succ m ih =>
    rw [← (Fin.snocEquiv fun _ : Fin (m + 2) => Fin C).sum_comp, Fintype.sum_prod_type_right, ← ih]
    refine sum_congr rfl fun z _ => ?_
    have e : ∀ c : Fin C, f ((Fin.snocEquiv fun _ : Fin (m + 2) => Fin C) (c, z) 0) *
        ∏ n : Fin (m + 1), T ((Fin.snocEquiv fun _ : Fin (m + 2) => Fin C) (c, z) n.succ)
          ((Fin.snocEquiv fun _ : Fin (m + 2) => Fin C) (c, z) n.castSucc) =
        (f (z 0) * ∏ n : Fin m, T (z n.succ) (z n.castSucc)) * T c (z (Fin.last m)) := by
      intro c
      rw [Fin.prod_univ_castSucc]
      simp only [Fin.snocEquiv, Equiv.coe_fn_mk]
      have h0 : Fin.snoc (α := fun _ => Fin C) z c 0 = z 0 := Fin.snoc_castSucc (α := fun _ => Fin C) c z 0
      have hc : ∀ n : Fin (m + 1), Fin.snoc (α := fun _ => Fin C) z c n.castSucc = z n :=
        fun n => Fin.snoc_castSucc (α := fun _ => Fin C) c z n
      have hs : ∀ n : Fin m, Fin.snoc (α := fun _ => Fin C) z c n.castSucc.succ = z n.succ := by
        intro n; rw [Fin.succ_castSucc]; exact hc n.succ
      have hl : Fin.snoc (α := fun _ => Fin C) z c (Fin.last m).succ = c := Fin.snoc_last (α := fun _ => Fin C) c z
      simp only [h0, hc, hs, hl, mul_assoc]
    simp only [e]
    rw [← mul_sum, hT, mul_one]

/-- With normalised tables, the joint probabilities of all observation sequences and all state sequences sum to 1. -/
theorem joint_normalised (V C m : ℕ) (tr : Fin C → Fin C → ℝ) (em : Fin V → Fin C → ℝ) (ini : Fin C → ℝ) (h : HMMNormalised tr em ini) :
    ∑ x : Fin (m + 1) → Fin V, ∑ z : Tags m C, Real.exp (hmmJoint tr em ini x z) = 1 := by
  rw [sum_comm]
  have e : ∀ z : Tags m C, ∑ x : Fin (m + 1) → Fin V, Real.exp (hmmJoint tr em ini x z) =
      Real.exp (ini (z 0)) * ∏ n : Fin m, Real.exp (tr (z n.succ) (z n.castSucc)) := by
    intro z
    simp only [hmmJoint, Real.exp_add, Real.exp_sum]
    rw [← mul_sum, ← Fintype.piFinset_univ, ← prod_univ_sum (fun _ => univ) fun n v => Real.exp (em v (z n))]
    simp [h.emission]
  rw [sum_congr rfl fun z _ => e z, sum_markov C m (fun c => Real.exp (ini c)) (fun i j => Real.exp (tr i j)) h.transition, h.init]

/-- **C14.** With normalised tables, summing the exponentiated partition of `HMM` over all observation sequences (here as one-row batches)
gives 1, up to the error caused by the stand-in `zero = -1e5`: at least 1 and at most `exp((N-1) e^(-1e5-μ) + pad (2C-1) e^-1e5)`, where `μ` is any lower
bound of the potentials. -/
theorem hmm_normalised (V C m : ℕ) (tr : ℕ → ℕ → ℝ) (em : ℕ → ℕ → ℝ) (ini : ℕ → ℝ) (hC : 0 < C)
    (h : HMMNormalised (fun i j : Fin C => tr i j) (fun (v : Fin V) (c : Fin C) => em v c) (fun c : Fin C => ini c)) (μ : ℝ)
    (hμ : ∀ x : Fin (m + 2) → Fin V, ∀ p, hmm V C tr em ini ⟨1, m + 2, fun _ n => if h : n < m + 2 then x ⟨n, h⟩ else 0⟩ = .ok p →
      Props.LinearChain.LowerBound p none μ) :
    ∃ vs : (Fin (m + 2) → Fin V) → ℝ,
      (∀ x : Fin (m + 2) → Fin V, ∃ p, hmm V C tr em ini ⟨1, m + 2, fun _ n => if h : n < m + 2 then x ⟨n, h⟩ else 0⟩ = .ok p ∧
        Dist.partition algo p none = .ok [vs x]) ∧
      1 ≤ ∑ x, Real.exp (vs x) ∧
      ∑ x, Real.exp (vs x) ≤ Real.exp ((m + 1 : ℕ) * Real.exp (-100000 - μ) +
        ((2 ^ Nat.clog 2 (m + 1) - (m + 1) : ℕ) : ℝ) * ((2 * C - 1 : ℕ) * Real.exp (-100000))) := by
  have key : ∀ x : Fin (m + 2) → Fin V, ∃ v : ℝ, (∃ p,
      hmm V C tr em ini ⟨1, m + 2, fun _ n => if h : n < m + 2 then x ⟨n, h⟩ else 0⟩ = .ok p ∧ Dist.partition algo p none = .ok [v]) ∧
      ∑ z : Tags (m + 1) C, Real.exp (hmmJoint (fun i j => tr i j) (fun v c => em v c) (fun c => ini c) x z) ≤ Real.exp v ∧
      Real.exp v ≤ (∑ z : Tags (m + 1) C, Real.exp (hmmJoint (fun i j => tr i j) (fun v c => em v c) (fun c => ini c) x z)) *
        Real.exp ((m + 1 : ℕ) * Real.exp (-100000 - μ) +
          ((2 ^ Nat.clog 2 (m + 1) - (m + 1) : ℕ) : ℝ) * ((2 * C - 1 : ℕ) * Real.exp (-100000))) := by
    intro x
    obtain ⟨p, h1, h2, h3, h4, h5, h6⟩ := hmm_score V C tr em ini
      ⟨1, m + 2, fun _ n => if h : n < m + 2 then x ⟨n, h⟩ else 0⟩ m rfl (by
        intro b _ n (hn : n < m + 2); simp [hn])
    have hv : Props.LinearChain.Valid p none := ⟨by omega, by omega, by omega, trivial⟩
    obtain ⟨vs, g1, g2, g3⟩ := Props.LinearChain.partition_bounds p none hv μ (hμ x p h1)
    have hlen : vs.length = 1 := by rw [g2, h2]
    obtain ⟨v, rfl⟩ := List.length_eq_one_iff.1 hlen
    have g3 := g3 0 (by simp)
    obtain ⟨d0, d1, d2, d3, g⟩ := p
    simp only at h2 h3 h4 h5 h6
    subst h2 h3 h4 h5
    have h6 := h6 0 x (by intro n; simp)
    have hne : Props.LinearChain.numEdges (⟨1, m + 1, d3, d3, g⟩ : T4 ℝ) none 0 = m + 1 := rfl
    simp only [hne] at g3
    have : Nonempty (Fin d3) := ⟨⟨0, hC⟩⟩
    have hs : ∀ z : Tags (m + 1) d3, seqScore (Props.LinearChain.row (⟨1, m + 1, d3, d3, g⟩ : T4 ℝ) 0) z =
      hmmJoint (fun i j => tr i j) (fun v c => em v c) (fun c => ini c) x z := h6
    have hs' : ∑ z : Tags (m + 1) d3, Real.exp (seqScore (Props.LinearChain.row (⟨1, m + 1, d3, d3, g⟩ : T4 ℝ) 0) z) =
        ∑ z : Tags (m + 1) d3, Real.exp (hmmJoint (fun i j => tr i j) (fun v c => em v c) (fun c => ini c) x z) :=
      sum_congr rfl fun z _ => by rw [hs z]
    have g3' : Real.log (∑ z : Tags (m + 1) d3, Real.exp (hmmJoint (fun i j => tr i j) (fun v c => em v c) (fun c => ini c) x z)) ≤ v ∧
        v ≤ Real.log (∑ z : Tags (m + 1) d3, Real.exp (hmmJoint (fun i j => tr i j) (fun v c => em v c) (fun c => ini c) x z)) +
        ((m + 1 : ℕ) * Real.exp (-100000 - μ) +
          ((2 ^ Nat.clog 2 (m + 1) - (m + 1) : ℕ) : ℝ) * ((2 * d3 - 1 : ℕ) * Real.exp (-100000))) := by
      rw [← hs']; exact g3
    have hz : 0 < ∑ z : Tags (m + 1) d3, Real.exp (hmmJoint (fun i j => tr i j) (fun v c => em v c) (fun c => ini c) x z) :=
      sum_pos (fun y _ => Real.exp_pos _) univ_nonempty
    refine ⟨v, ⟨_, h1, g1⟩, ?_, ?_⟩
    · rw [← Real.exp_log hz]; exact Real.exp_le_exp.2 g3'.1
    · conv_rhs => rw [← Real.exp_log hz, ← Real.exp_add]
      exact Real.exp_le_exp.2 g3'.2
  choose vs a1 a2 a3 using key
  have hJ := joint_normalised V C (m + 1) (fun i j : Fin C => tr i j) (fun (v : Fin V) (c : Fin C) => em v c) (fun c : Fin C => ini c) h
  refine ⟨vs, a1, ?_, ?_⟩
  · rw [← hJ]; exact sum_le_sum fun x _ => a2 x
  · refine (sum_le_sum fun x _ => a3 x).trans ?_
    rw [← sum_mul, hJ, one_mul]

/-- Non-vacuity: two states and two symbols, all equally likely, three observations. -/
example : HMMNormalised (fun _ _ : Fin 2 => Real.log (1 / 2)) (fun (_ : Fin 2) (_ : Fin 2) => Real.log (1 / 2)) (fun _ : Fin 2 => Real.log (1 / 2)) := by
  constructor <;> intros <;> rw [Fin.sum_univ_two, Real.exp_log (by norm_num)] <;> norm_num

example : ∃ μ : ℝ, ∀ x : Fin 3 → Fin 2, ∀ p, hmm 2 2 (fun _ _ => Real.log (1 / 2)) (fun _ _ => Real.log (1 / 2)) (fun _ => Real.log (1 / 2))
    ⟨1, 3, fun _ n => if h : n < 3 then x ⟨n, h⟩ else 0⟩ = .ok p → Props.LinearChain.LowerBound p none μ := by
  refine ⟨4 * Real.log (1 / 2), fun x p hp => ?_⟩
  obtain ⟨p', h1, h2, h3, h4, h5, h6⟩ := hmm_ok 2 2 (fun _ _ => Real.log (1 / 2)) (fun _ _ => Real.log (1 / 2)) (fun _ => Real.log (1 / 2))
    ⟨1, 3, fun _ n => if h : n < 3 then x ⟨n, h⟩ else 0⟩ (by norm_num) (by intro b _ n (hn : n < 3); simp only [dif_pos hn]; exact (x _).2)
  obtain rfl : p' = p := by rw [h1] at hp; exact Except.ok.inj hp
  intro b hb n hn i j
  have hn' : n < 2 := by
    have : Props.LinearChain.numEdges p' none b = 2 := by simp [Props.LinearChain.numEdges, lenOf, h3]
    omega
  have hneg : Real.log (1 / 2) ≤ 0 := Real.log_nonpos (by norm_num) (by norm_num)
  simp only [Props.LinearChain.row]
  rw [h6 b n i j hn']
  split_ifs <;> linarith

end Props.HMM
