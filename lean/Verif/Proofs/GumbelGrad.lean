import Mathlib.Analysis.SpecialFunctions.ExpDeriv
import Mathlib.Analysis.Calculus.Deriv.Inv
import Mathlib.Algebra.BigOperators.Field
import Mathlib.Tactic.FieldSimp
import Mathlib.Tactic.Linarith
import Mathlib.Tactic.Ring
import Verif.Proofs.Backward
import Verif.Proofs.SampleExists
import Verif.Spec.GumbelGrad

/-! The backward pass through the backward pass of `gumbel_crf`. -/

noncomputable section
namespace Sampling
open Finset

/-! ### Softmax -/

section softmax
variable {n : ℕ}

theorem total_pos (x : Fin n → ℝ) (k : Fin n) : 0 < ∑ j, Real.exp (x j) := sum_pos (fun _ _ => Real.exp_pos _) ⟨k, mem_univ k⟩

theorem softmax_pos (x : Fin n → ℝ) (k : Fin n) : 0 < softmax x k := div_pos (Real.exp_pos _) (total_pos x k)

theorem softmax_sum (x : Fin n → ℝ) (k : Fin n) : ∑ i, softmax x i = 1 := by
  simp only [softmax]
  rw [← sum_div, div_self (total_pos x k).ne']

/-- `softmaxGrad` is the gradient of `v · softmax`. -/
theorem softmax_deriv (x v : Fin n → ℝ) (j : Fin n) :
    HasDerivAt (fun t => ∑ i, v i * softmax (Function.update x j (x j + t)) i) (softmaxGrad x v j) 0 := by
  have hx : ∀ i, HasDerivAt (fun t => Real.exp (Function.update x j (x j + t) i)) (if i = j then Real.exp (x j) else 0) 0 := by
    intro i
    by_cases h : i = j
    · subst h
      simp only [Function.update_self, if_true]
      have := (hasDerivAt_const (0 : ℝ) (x i)).add (hasDerivAt_id (0 : ℝ))
      simpa using this.exp
    · simp only [Function.update_of_ne h, if_neg h]
      exact hasDerivAt_const _ _
  have hZ : HasDerivAt (fun t => ∑ i, Real.exp (Function.update x j (x j + t) i)) (Real.exp (x j)) 0 := by
    have := HasDerivAt.fun_sum (u := univ) fun i _ => hx i
    simpa using this
  have h0 : Function.update x j (x j + 0) = x := by simp
  have hpos := total_pos x j
  have hi : ∀ i, HasDerivAt (fun t => v i * softmax (Function.update x j (x j + t)) i)
      (v i * (((if i = j then Real.exp (x j) else 0) * (∑ i, Real.exp (x i)) - Real.exp (x i) * Real.exp (x j)) / (∑ i, Real.exp (x i)) ^ 2)) 0 := by
    intro i
    have := (hx i).div hZ (by rw [h0]; exact hpos.ne')
    rw [h0] at this
    exact this.const_mul (v i)
  have := HasDerivAt.fun_sum (u := univ) fun i _ => hi i
  refine this.congr_deriv ?_
  simp only [softmaxGrad, softmax]
  have e : ∀ i, v i * (((if i = j then Real.exp (x j) else 0) * (∑ i, Real.exp (x i)) - Real.exp (x i) * Real.exp (x j)) / (∑ i, Real.exp (x i)) ^ 2) =
      (if i = j then v j * Real.exp (x j) / (∑ i, Real.exp (x i)) else 0) -
        Real.exp (x j) / (∑ i, Real.exp (x i)) * (Real.exp (x i) / (∑ i, Real.exp (x i)) * v i) := by
    intro i
    split_ifs with h
    · subst h; field_simp
    · field_simp; ring
  rw [sum_congr rfl fun i _ => e i, sum_sub_distrib, ← mul_sum]
  simp only [sum_ite_eq', mem_univ, if_true]
  field_simp

/-- `ST.backward` in closed form: only the gradient of the drawn entry is used. -/
theorem st_closed (x g : Fin n → ℝ) (k j : Fin n) :
    stBackward x (fun i => stForward k i) g j = g k * (softmax x k * ((if j = k then 1 else 0) - softmax x j)) := by
  have h : ∀ i, softmax x i * (stForward (k : ℕ) i * g i) = if i = k then softmax x k * g k else 0 := by
    intro i
    simp only [stForward, Fin.val_inj]
    by_cases h : i = k
    · subst h; simp
    · rw [if_neg (Ne.symm h), if_neg h]; ring
  rw [stBackward, softmaxGrad, sum_congr rfl fun i _ => h i]
  simp only [sum_ite_eq', mem_univ, if_true, stForward, Fin.val_inj]
  by_cases h : j = k
  · subst h; simp only [if_true]; ring
  · rw [if_neg (Ne.symm h), if_neg h]; ring

end softmax

/-! ### Uniqueness and existence -/

variable {es : List Expr} {pick : List ℝ → ℕ} {temp : ℝ} (R : GumbelRun es pick temp)

/-- A real-valued backward pass has exactly one solution. -/
theorem flow_unique {K : Type} [Fintype K] [DecidableEq K] {T : Tape K} {send send' : K → ℝ → K → ℝ} (hs : ∀ k v c, ¬ (T.op k).IsChild c → send k v c = 0)
    (he : send = send') {V V' : K → ℝ} (h : ∀ c, V c = ∑ k, send k (V k) c) (h' : ∀ c, V' c = ∑ k, send' k (V' k) c) : V = V' := by
  subst he
  funext c
  induction c using tape_induction T with
  | h c ih =>
    rw [h c, h' c]
    refine sum_congr rfl fun k _ => ?_
    by_cases hk : (T.op k).IsChild c
    · rw [ih k hk]
    · rw [hs k _ c hk, hs k _ c hk]

theorem flow_exists {K : Type} [Fintype K] [DecidableEq K] {T : Tape K} {send : K → ℝ → K → ℝ} (hs : ∀ k v c, ¬ (T.op k).IsChild c → send k v c = 0) :
    ∃ V : K → ℝ, ∀ c, V c = ∑ k, send k (V k) c := by
  obtain ⟨R, hR⟩ := exists_rank_bound T
  let G : ℕ → K → ℝ := fun n => Nat.rec (fun _ => 0) (fun _ g c => ∑ k, send k (g k) c) n
  have hG : ∀ n c, G (n + 1) c = ∑ k, send k (G n k) c := fun n c => rfl
  have stable : ∀ n c, R - T.rank c ≤ n → G n c = G (n + 1) c := by
    intro n
    induction n with
    | zero => intro c hc; have := hR c; omega
    | succ n ih =>
      intro c hc
      rw [hG n, hG (n + 1)]
      refine sum_congr rfl fun k _ => ?_
      by_cases hk : (T.op k).IsChild c
      · have h1 := T.lt k c hk
        have h2 := hR k
        rw [ih k (by omega)]
      · rw [hs k _ c hk, hs k _ c hk]
  exact ⟨G R, fun c => by rw [stable R c (by omega), hG]⟩

namespace GumbelRun

theorem sendLoss_local (rule : Rule) (A : R.K → ℝ) (k : R.K) (v : ℝ) (c : R.K) (h : ¬ (R.T.op k).IsChild c) : R.sendLoss rule A k v c = 0 := by
  unfold sendLoss
  cases hk : R.T.op k <;> simp only [hk, Op.IsChild] at h ⊢
  · push Not at h; simp [h]
  · push Not at h; simp [h]
  · simp [h]

theorem outer_unique {U : List ℕ → ℝ} {A A' : R.K → ℝ} (h : R.IsOuter U A) (h' : R.IsOuter U A') : A = A' := by
  have : ∀ d, ∀ k, R.T.rank k ≤ d → A k = A' k := by
    intro d
    induction d with
    | zero =>
      intro k hk
      rw [h k, h' k]
      have hlt := R.T.lt k
      cases ho : R.T.op k with
      | leaf | const => rfl
      | add a b => have := hlt a (by rw [ho]; exact .inl rfl); omega
      | lse n c => exact sum_congr rfl fun i _ => by have := hlt (c i) (by rw [ho]; exact ⟨i, rfl⟩); omega
      | data x v => have := hlt x (by rw [ho]; exact rfl); omega
    | succ d ih =>
      intro k hk
      rw [h k, h' k]
      have hlt := R.T.lt k
      cases ho : R.T.op k with
      | leaf | const => rfl
      | add a b =>
        have h1 := hlt a (by rw [ho]; exact .inl rfl)
        have h2 := hlt b (by rw [ho]; exact .inr rfl)
        simp only [ih a (by omega), ih b (by omega)]
      | lse n c =>
        refine sum_congr rfl fun i _ => ?_
        have := hlt (c i) (by rw [ho]; exact ⟨i, rfl⟩)
        rw [ih (c i) (by omega)]
      | data x v =>
        have := hlt x (by rw [ho]; exact rfl)
        exact ih x (by omega)
  exact funext fun k => this _ k le_rfl

theorem outer_exists (U : List ℕ → ℝ) : ∃ A, R.IsOuter U A := by
  let step : (R.K → ℝ) → R.K → ℝ := fun A k => match R.T.op k with
    | .leaf _ id => U id
    | .const _ => 0
    | .add a b => A a + A b
    | .lse _ c => ∑ i, stForward (R.draw k) i * A (c i)
    | .data x _ => A x
  let A : ℕ → R.K → ℝ := fun n => Nat.rec (fun _ => 0) (fun _ a => step a) n
  have hstep : ∀ (B B' : R.K → ℝ) (k : R.K), (∀ c, (R.T.op k).IsChild c → B c = B' c) → step B k = step B' k := by
    intro B B' k h
    simp only [step]
    cases ho : R.T.op k <;> rw [ho] at h <;> simp only [Op.IsChild] at h
    · exact congrArg₂ (· + ·) (h _ (.inl rfl)) (h _ (.inr rfl))
    · exact sum_congr rfl fun i _ => by rw [h _ ⟨i, rfl⟩]
    · exact h _ rfl
  have stable : ∀ n k, R.T.rank k < n → A n k = A (n + 1) k := by
    intro n
    induction n with
    | zero => intro k hk; omega
    | succ n ih =>
      intro k hk
      exact hstep _ _ k fun c hc => ih c (by have := R.T.lt k c hc; omega)
  obtain ⟨M, hM⟩ := exists_rank_bound R.T
  exact ⟨A M, fun k => stable M k (hM k)⟩

/-- Every loss has exactly one gradient. -/
theorem grad_unique {rule : Rule} {U : List ℕ → ℝ} {g g' : List ℕ → ℝ} (h : R.IsLossGrad rule U g) (h' : R.IsLossGrad rule U g') : g = g' := by
  obtain ⟨A, V, h1, h2, rfl⟩ := h
  obtain ⟨A', V', h1', h2', rfl⟩ := h'
  obtain rfl := R.outer_unique h1 h1'
  obtain rfl := flow_unique (T := R.T) (fun k v c => R.sendLoss_local rule A k v c) rfl h2 h2'
  rfl

theorem grad_exists (rule : Rule) (U : List ℕ → ℝ) : ∃ g, R.IsLossGrad rule U g := by
  obtain ⟨A, hA⟩ := R.outer_exists U
  obtain ⟨V, hV⟩ := flow_exists (T := R.T) (fun k v c => R.sendLoss_local rule A k v c)
  exact ⟨_, A, V, hA, hV, rfl⟩

/-! ### What is not selected does not matter -/

theorem send_le (k c : R.K) : sendOne R.T R.draw k (R.G k) c ≤ R.G c := by
  rw [R.back c]
  exact (single_le_sum (f := fun κ => sendOne R.T R.draw κ (R.G κ) c) (fun _ _ => Nat.zero_le _) (mem_univ k)).trans (Nat.le_add_left _ _)

theorem send_lse {k : R.K} {n : ℕ} {c : Fin n → R.K} (h : R.T.op k = .lse n c) (i : Fin n) (hi : R.draw k = i) (hG : R.G k ≠ 0) : R.G (c i) ≠ 0 := by
  have h1 := R.send_le k (c i)
  rw [sendOne, h] at h1
  have h2 := single_le_sum (f := fun j : Fin n => if c i = c j then R.G k * (if R.draw k = j then 1 else 0) else 0) (fun _ _ => Nat.zero_le _) (mem_univ i)
  simp only [if_true, hi] at h2
  simp only [hi] at h1
  omega

theorem outer_agree {U U' : List ℕ → ℝ} (hU : ∀ id, R.result id ≠ 0 → U id = U' id) {A A' : R.K → ℝ} (h : R.IsOuter U A) (h' : R.IsOuter U' A') :
    ∀ k, R.G k ≠ 0 → A k = A' k := by
  have : ∀ d, ∀ k, R.T.rank k < d → R.G k ≠ 0 → A k = A' k := by
    intro d
    induction d with
    | zero => intro k hk; omega
    | succ d ih =>
      intro k hk hG
      rw [h k, h' k]
      have hlt := R.T.lt k
      cases ho : R.T.op k with
      | leaf v id =>
        refine hU id ?_
        classical
        have h2 := single_le_sum (f := fun κ => if ∃ v, R.T.op κ = .leaf v id then R.G κ else 0) (fun _ _ => Nat.zero_le _) (mem_univ k)
        simp only [if_pos (show ∃ w, R.T.op k = .leaf w id from ⟨v, ho⟩)] at h2
        have : R.result id = ∑ κ, if ∃ v, R.T.op κ = .leaf v id then R.G κ else 0 := by
          rw [result, gradAt]
        omega
      | const => rfl
      | add a b =>
        have h1 := hlt a (by rw [ho]; exact .inl rfl)
        have h2 := hlt b (by rw [ho]; exact .inr rfl)
        have s1 := R.send_le k a
        have s2 := R.send_le k b
        rw [sendOne, ho] at s1 s2
        simp only [if_true] at s1 s2
        simp only [ih a (by omega) (by omega), ih b (by omega) (by omega)]
      | lse n c =>
        refine sum_congr rfl fun i _ => ?_
        have := hlt (c i) (by rw [ho]; exact ⟨i, rfl⟩)
        by_cases hi : R.draw k = i
        · rw [ih (c i) (by omega) (R.send_lse ho i hi hG)]
        · simp [stForward, hi]
      | data x v =>
        have h1 := hlt x (by rw [ho]; exact rfl)
        have s1 := R.send_le k x
        rw [sendOne, ho] at s1
        simp only [if_true] at s1
        exact ih x (by omega) (by omega)
  exact fun k => this _ k (Nat.lt_succ_self _)

theorem grad_agree {U U' : List ℕ → ℝ} (hU : ∀ id, R.result id ≠ 0 → U id = U' id) {g g' : List ℕ → ℝ} (h : R.IsGrad U g) (h' : R.IsGrad U' g') : g = g' := by
  obtain ⟨A, V, h1, h2, rfl⟩ := h
  obtain ⟨A', V', h1', h2', rfl⟩ := h'
  have hA := R.outer_agree hU h1 h1'
  have hs : R.sendLoss (fun x out g => stBackward x out g) A = R.sendLoss (fun x out g => stBackward x out g) A' := by
    funext k v c
    simp only [sendLoss]
    cases ho : R.T.op k with
    | lse n ch =>
      refine sum_congr rfl fun i _ => ?_
      have : R.ofDraw (fun x out g => stBackward x out g) A k ch i = R.ofDraw (fun x out g => stBackward x out g) A' k ch i := by
        simp only [ofDraw, stBackward]
        congr 2
        funext j
        by_cases hj : R.draw k = j
        · by_cases hG : R.G k = 0
          · simp [hG]
          · rw [hA _ (R.send_lse ho j hj hG)]
        · simp [stForward, hj]
      rw [this]
    | _ => rfl
  obtain rfl := flow_unique (T := R.T) (fun k v c => R.sendLoss_local _ A k v c) hs h2 h2'
  rfl

end GumbelRun
end Sampling
