import Verif.Proofs.GumbelGrad
import Verif.Props.Gumbel
import Verif.Model.CKYCRF

/-! Property theorems about the gradient of a loss on the result of `gumbel_crf`: C88. -/

noncomputable section
namespace Props.GumbelGrad
open Sampling Finset
open _root_.Autoregressive (IsArgmaxIdx)

/-! ### One draw -/

/-- `ST.backward` gives the gradient of `g k * softmax(x) k`, where `k` is the drawn index and `g` the gradient with respect to the draw: it is an ascent direction
for the softmax probability of the drawn index if `g k > 0`, and 0 if `g k = 0`. -/
theorem st_deriv {n : ℕ} (x g : Fin n → ℝ) (k j : Fin n) :
    HasDerivAt (fun t => g k * softmax (Function.update x j (x j + t)) k) (stBackward x (fun i => stForward k i) g j) 0 := by
  have h := softmax_deriv x (fun i => stForward k i * g i) j
  refine h.congr_of_eventuallyEq (Filter.Eventually.of_forall fun t => ?_)
  simp only [stForward, Fin.val_inj]
  rw [sum_eq_single k (fun i _ hi => by rw [if_neg (Ne.symm hi)]; ring) (fun h => absurd (mem_univ k) h)]
  simp

/-- **C88**, one draw, exactly when it holds: the gradient of the code is the gradient of the softmax relaxation if and only if the loss does not depend on the
entries that were not drawn. -/
theorem st_exact_iff {n : ℕ} (x g : Fin n → ℝ) (k : Fin n) :
    (∀ j, stBackward x (fun i => stForward k i) g j = softmaxGrad x g j) ↔ ∀ i, i ≠ k → g i = 0 := by
  have hs := softmax_sum x k
  have split : ∑ i, softmax x i * g i = softmax x k * g k + ∑ i ∈ univ.erase k, softmax x i * g i := (add_sum_erase _ _ (mem_univ k)).symm
  constructor
  · intro h
    have hc : ∀ j, j ≠ k → g j = ∑ i ∈ univ.erase k, softmax x i * g i := by
      intro j hj
      have h1 := h j
      rw [st_closed, softmaxGrad, split, if_neg hj] at h1
      have h2 := softmax_pos x j
      have h3 : softmax x j * (g j - ∑ i ∈ univ.erase k, softmax x i * g i) = 0 := by linear_combination -h1
      rcases mul_eq_zero.1 h3 with h4 | h4
      · exact absurd h4 h2.ne'
      · linarith
    intro i hi
    set c := ∑ i ∈ univ.erase k, softmax x i * g i with hcdef
    have h1 : c = (∑ i ∈ univ.erase k, softmax x i) * c := by
      conv_lhs => rw [hcdef]
      rw [sum_mul]
      exact sum_congr rfl fun j hj => by rw [hc j (ne_of_mem_erase hj)]
    have h2 : softmax x k + ∑ i ∈ univ.erase k, softmax x i = 1 := by rw [add_sum_erase _ _ (mem_univ k)]; exact hs
    have h3 : softmax x k * c = 0 := by linear_combination (c) * h2 + h1
    rw [hc i hi]
    exact (mul_eq_zero.1 h3).resolve_left (softmax_pos x k).ne'
  · intro h j
    rw [st_closed, softmaxGrad, split, sum_eq_zero (s := univ.erase k) fun i hi => by rw [h i (ne_of_mem_erase hi), mul_zero]]
    by_cases hj : j = k
    · subst hj; simp only [if_true]; ring
    · rw [if_neg hj, h j hj]; ring

/-! ### Every structure -/

variable {es : List Expr} {pick : List ℝ → ℕ} {temp : ℝ}

/-- Every loss on the result of `gumbel_crf` has exactly one gradient with respect to the potentials. -/
theorem gradient_exists (R : GumbelRun es pick temp) (U : List ℕ → ℝ) : ∃! g, R.IsGrad U g := by
  obtain ⟨g, h⟩ := R.grad_exists _ U
  exact ⟨g, h, fun g' h' => R.grad_unique h' h⟩

/-- **C88 (what fails).** For every distribution, all potentials, noise and temperature: how the loss depends on the parts that are not in the returned structure has no
influence on the gradient. -/
theorem unselected_ignored (R : GumbelRun es pick temp) {U U' : List ℕ → ℝ} (hU : ∀ id, R.result id ≠ 0 → U id = U' id) {g g' : List ℕ → ℝ}
    (h : R.IsGrad U g) (h' : R.IsGrad U' g') : g = g' := R.grad_agree hU h h'

theorem ofDraw_zero (R : GumbelRun es pick temp) (rule : GumbelRun.Rule) (hr : ∀ {n : ℕ} (x out : Fin n → ℝ) j, rule x out (fun _ => 0) j = 0) {A : R.K → ℝ} {k : R.K} {n : ℕ}
    (c : Fin n → R.K) (h : ∀ i, R.G k * A (c i) = 0) (i : Fin n) : R.ofDraw rule A k c i = 0 := by
  rw [GumbelRun.ofDraw, show (fun i => (R.G k : ℝ) * A (c i)) = fun _ => 0 from funext h, hr, zero_div]

theorem softmaxGrad_zero {n : ℕ} (x : Fin n → ℝ) (j : Fin n) : softmaxGrad x (fun _ => 0) j = 0 := by simp [softmaxGrad]

theorem stBackward_zero {n : ℕ} (x out : Fin n → ℝ) (j : Fin n) : stBackward x out (fun _ => 0) j = 0 := by simp [stBackward, softmaxGrad]

/-- The gradient of a loss that only depends on parts that are not in the returned structure is 0. -/
theorem unselected_zero (R : GumbelRun es pick temp) {U : List ℕ → ℝ} (hU : ∀ id, R.result id ≠ 0 → U id = 0) {g : List ℕ → ℝ} (h : R.IsGrad U g) : g = fun _ => 0 := by
  refine R.grad_agree (U' := fun _ => 0) hU h ⟨fun _ => 0, fun _ => 0, fun k => ?_, fun c => ?_, ?_⟩
  · cases R.T.op k <;> simp
  · refine (sum_eq_zero fun k _ => ?_).symm
    unfold GumbelRun.sendLoss
    cases R.T.op k with
    | lse n ch =>
      refine sum_eq_zero fun i _ => ?_
      rw [ofDraw_zero R _ (fun x out j => stBackward_zero x out j) ch (fun _ => mul_zero _)]
      simp
    | _ => simp
  · funext id
    simp

/-! ### A word with labels -/

/-- A `TreeCRF` over one word with `L` labels. -/
def oneWord (L : ℕ) (φ : Fin L → ℝ) : T4 ℝ := ⟨1, 1, 1, L, fun _ _ _ a => if h : a < L then φ ⟨a, h⟩ else 0⟩

/-- What it records. -/
def wordExpr (L : ℕ) (φ : Fin L → ℝ) : Expr := .sum L fun a => .leaf (φ a) [0, 0, 0, a]

theorem record_oneWord (z : ℝ) (L : ℕ) (φ : Fin L → ℝ) : record CKYCRF.algo z (oneWord L φ) none = .ok [wordExpr L φ] := by
  have h : (sr z).sum ((List.range L).map fun a => Expr.leaf (if h : a < L then φ ⟨a, h⟩ else 0) [0, 0, 0, a]) = wordExpr L φ := by
    refine sr_sum z ?_
    refine List.ext_getElem (by simp) fun i h1 h2 => ?_
    have : i < L := by simpa using h1
    simp [this]
  rw [← h]
  rfl

/-- The gradient of a loss on the result of `gumbel_crf` for one word: `x` are the perturbed scores, `k` the returned label. -/
theorem word_gradient {L : ℕ} (hL : 0 < L) (hp : IsArgmaxIdx pick) (φ : Fin L → ℝ) (R : GumbelRun [wordExpr L φ] pick temp) :
    ∃ (noise x : Fin L → ℝ) (k : Fin L), (∀ i, x i = (φ i + noise i) / temp) ∧ (∀ i, x i ≤ x k) ∧ (∀ id, R.result id = if id = [0, 0, 0, (k : ℕ)] then 1 else 0) ∧
      ∀ (rule : GumbelRun.Rule), (∀ {n : ℕ} (x out : Fin n → ℝ) j, rule x out (fun _ => 0) j = 0) → ∀ U g, R.IsLossGrad rule U g →
        ∀ j : Fin L, g [0, 0, 0, j] = rule x (fun i => stForward k i) (fun i => U [0, 0, 0, i]) j / temp := by
  obtain ⟨κ, kb, ho, ⟨c, hκ, hc, hv⟩, ⟨hb, -⟩, -⟩ := R.repr
  have hval : ∀ i, R.T.op (c i) = .leaf (φ i) [0, 0, 0, i] ∧ R.T.val (c i) = φ i := fun i => hc i
  have hdraw := R.drawn κ L c hκ
  set xs := List.ofFn fun i : Fin L => (R.T.val (c i) + R.noise κ i) / temp with hxs
  have hne : xs ≠ [] := by rw [hxs]; simp; omega
  obtain ⟨h1, h2⟩ := hp xs hne
  have hlen : xs.length = L := by simp [hxs]
  have hlt : R.draw κ < L := by rw [hdraw]; omega
  refine ⟨fun i => R.noise κ i, fun i => (φ i + R.noise κ i) / temp, ⟨R.draw κ, hlt⟩, fun _ => rfl, fun i => ?_, fun id => ?_, fun rule hr U g hg j => ?_⟩
  · have := h2 ((R.T.val (c i) + R.noise κ i) / temp) (by rw [hxs]; exact List.mem_ofFn.2 ⟨i, rfl⟩)
    rw [← hdraw, List.getD_eq_getElem _ _ (by omega)] at this
    simp only [hxs, List.getElem_ofFn] at this
    rw [(hval i).2, (hval ⟨R.draw κ, hlt⟩).2] at this
    exact this
  · have := backward_one R.draw R.repr R.back id
    rw [GumbelRun.result, this]
    show grad R.T R.draw (.mul (.sum L fun a => .leaf (φ a) [0, 0, 0, a]) (.const 0)) R.obj id = _
    rw [grad_mul R.draw ho, grad_sum R.draw hκ hlt]
    simp [grad, Finsupp.single_apply, eq_comm]
  · classical
    obtain ⟨A, V, hA, hV, rfl⟩ := hg
    have hG : R.G = visits R.T R.draw (.mul (.sum L fun a => .leaf (φ a) [0, 0, 0, a]) (.const 0)) R.obj := backward_unique (sendOne_local R.draw) R.back (visits_backward R.draw _ R.obj R.repr)
    have hGκ : ∀ k n ch, R.T.op k = .lse n ch → R.G k = if k = κ then 1 else 0 := by
      intro k n ch hk
      have n1 : k ≠ R.obj := by rintro rfl; rw [ho] at hk; cases hk
      have n2 : k ≠ kb := by rintro rfl; rw [hb] at hk; cases hk
      have n3 : ∀ i, k ≠ c i := by rintro i rfl; rw [(hval i).1] at hk; cases hk
      rw [hG, visits_mul R.draw ho, visits_sum R.draw hκ hlt]
      simp [visits, Pi.single_apply, n1, n2, n3]
    have hleaf : ∀ i, A (c i) = U [0, 0, 0, i] := fun i => by rw [hA (c i), (hval i).1]
    let V0 : R.K → ℝ := fun q => ∑ i, if q = c i then R.ofDraw rule A κ c i else 0
    have hV0 : ∀ q, V0 q = ∑ k, R.sendLoss rule A k (V0 k) q := by
      intro q
      have zero : ∀ k, (∀ v id, R.T.op k ≠ .leaf v id) → V0 k = 0 := by
        intro k hk
        refine sum_eq_zero fun i _ => ?_
        rw [if_neg]
        rintro rfl
        exact hk _ _ (hval i).1
      rw [sum_eq_single κ]
      · rw [GumbelRun.sendLoss, hκ, zero κ (by rw [hκ]; simp)]
        simp [V0]
      · intro k _ hk
        unfold GumbelRun.sendLoss
        cases hk' : R.T.op k with
        | leaf | const => rfl
        | add a b => rw [zero k (by rw [hk']; simp)]; simp
        | lse n ch =>
          refine sum_eq_zero fun i _ => ?_
          rw [zero k (by rw [hk']; simp), ofDraw_zero R rule hr ch fun i => by rw [hGκ k n ch hk', if_neg hk]; simp]
          simp
        | data => rw [zero k (by rw [hk']; simp)]; simp
      · exact fun h => absurd (mem_univ κ) h
    obtain rfl := flow_unique (T := R.T) (fun k v c => R.sendLoss_local rule A k v c) rfl hV hV0
    have hswap : (∑ k, if ∃ v, R.T.op k = .leaf v [0, 0, 0, (j : ℕ)] then V0 k else 0) = R.ofDraw rule A κ c j := by
      have e : ∀ k, (if ∃ v, R.T.op k = .leaf v [0, 0, 0, (j : ℕ)] then V0 k else 0) =
          ∑ i, if k = c i then (if i = j then R.ofDraw rule A κ c i else 0) else 0 := by
        intro k
        simp only [V0]
        by_cases hk : ∃ v, R.T.op k = .leaf v [0, 0, 0, (j : ℕ)]
        · rw [if_pos hk]
          refine sum_congr rfl fun i _ => ?_
          by_cases hki : k = c i
          · obtain ⟨v, hk⟩ := hk
            rw [hki, (hval i).1] at hk
            injection hk with _ hk
            have : i = j := by
              simp only [List.cons.injEq, true_and, and_true] at hk
              exact Fin.ext hk
            rw [if_pos hki, if_pos hki, if_pos this]
          · rw [if_neg hki, if_neg hki]
        · rw [if_neg hk]
          refine (sum_eq_zero fun i _ => ?_).symm
          by_cases hki : k = c i
          · rw [if_pos hki, if_neg]
            rintro rfl
            exact hk ⟨φ i, by rw [hki, (hval i).1]⟩
          · rw [if_neg hki]
      rw [sum_congr rfl fun k _ => e k, sum_comm]
      simp
    have hgoal : R.ofDraw rule A κ c j = rule (fun i => (φ i + R.noise κ i) / temp) (fun i => stForward (R.draw κ) i) (fun i => U [0, 0, 0, (i : ℕ)]) j / temp := by
      rw [GumbelRun.ofDraw, hGκ κ L c hκ, if_pos rfl]
      congr 2
      · funext i
        rw [GumbelRun.update, (hval i).2]
      · funext i
        rw [hleaf]; simp
    rw [← hgoal, ← hswap]

/-- What the code computes for one word: the gradient of `U k` times the softmax probability of the returned label `k`. -/
theorem word_code {L : ℕ} (hL : 0 < L) (hp : IsArgmaxIdx pick) (φ : Fin L → ℝ) (R : GumbelRun [wordExpr L φ] pick temp) :
    ∃ (noise x : Fin L → ℝ) (k : Fin L), (∀ i, x i = (φ i + noise i) / temp) ∧ (∀ i, x i ≤ x k) ∧ (∀ id, R.result id = if id = [0, 0, 0, (k : ℕ)] then 1 else 0) ∧
      ∀ U g, R.IsGrad U g → ∀ j : Fin L, g [0, 0, 0, j] = U [0, 0, 0, k] * (softmax x k * ((if j = k then 1 else 0) - softmax x j)) / temp := by
  obtain ⟨noise, x, k, h1, h2, h3, H⟩ := word_gradient hL hp φ R
  exact ⟨noise, x, k, h1, h2, h3, fun U g hg j => by rw [H (fun x out g => stBackward x out g) (fun x out j => stBackward_zero x out j) U g hg j, st_closed]⟩

/-- **C88 is false of the code.** One word, at least two labels, positive temperature: whatever the scores and the noise are, there is a loss, with gradient `U` (1 for
the labels that were not drawn), for which the code gives the gradient 0 and the straight-through gradient is not 0 for any label. -/
theorem relaxed_differs {L : ℕ} (hL : 2 ≤ L) (hp : IsArgmaxIdx pick) (ht : 0 < temp) (φ : Fin L → ℝ) (R : GumbelRun [wordExpr L φ] pick temp) :
    ∃ U : List ℕ → ℝ, (∀ g, R.IsGrad U g → g = fun _ => 0) ∧ ∀ g, R.IsRelaxedGrad U g → ∀ j : Fin L, g [0, 0, 0, j] ≠ 0 := by
  obtain ⟨noise, x, k, -, -, hres, H⟩ := word_gradient (by omega) hp φ R
  refine ⟨fun id => if id = [0, 0, 0, (k : ℕ)] then 0 else 1, fun g hg => unselected_zero R (fun id hid => ?_) hg, fun g hg j => ?_⟩
  · rw [hres id] at hid
    by_contra hne
    exact hid (if_neg fun h => hne (if_pos h))
  · rw [H (fun x _ g => softmaxGrad x g) (fun x _ j => softmaxGrad_zero x j) _ g hg j]
    refine div_ne_zero ?_ ht.ne'
    have hU : (fun i : Fin L => if [0, 0, 0, (i : ℕ)] = [0, 0, 0, (k : ℕ)] then (0 : ℝ) else 1) = fun i => 1 - if i = k then 1 else 0 := by
      funext i
      by_cases h : i = k
      · simp [h]
      · rw [if_neg, if_neg h, sub_zero]
        simp only [List.cons.injEq, true_and, and_true, Fin.val_inj]
        exact h
    rw [hU, softmaxGrad]
    have hs : ∑ i, softmax x i * (1 - if i = k then 1 else 0) = 1 - softmax x k := by
      simp only [mul_sub, mul_one, sum_sub_distrib, softmax_sum x k]
      simp
    rw [hs]
    refine mul_ne_zero (softmax_pos x j).ne' ?_
    have hk := softmax_pos x k
    by_cases h : j = k
    · rw [if_pos h]
      obtain ⟨i, hi⟩ : ∃ i : Fin L, i ≠ k := by
        by_contra hn
        push Not at hn
        have := (hn ⟨0, by omega⟩).trans (hn ⟨1, by omega⟩).symm
        simp at this
      have h1 := single_le_sum (f := softmax x) (fun i _ => (softmax_pos x i).le) (mem_univ k)
      have h2 : softmax x k < 1 := by
        rw [← softmax_sum x k]
        exact single_lt_sum hi (mem_univ k) (mem_univ i) (softmax_pos x i) fun i _ _ => (softmax_pos x i).le
      intro h0
      linarith
    · rw [if_neg h]
      intro h0
      linarith

/-- A run exists for all recorded rows, all noise and every temperature. -/
theorem run_exists (es : List Expr) (pick : List ℝ → ℕ) (temp : ℝ) (noise : ℕ → ℝ) : Nonempty (GumbelRun es pick temp) := by
  classical
  obtain ⟨K, fK, T, k, h⟩ := tape_exists (batchSum es)
  let draw : K → ℕ := fun κ => match T.op κ with
    | .lse n c => pick (List.ofFn fun i : Fin n => (T.val (c i) + noise i) / temp)
    | _ => 0
  obtain ⟨G, hG⟩ := backward_exists (T := T) (sendOne_local draw) k
  have hd : ∀ k n c, T.op k = .lse n c → draw k = pick (List.ofFn fun i : Fin n => (T.val (c i) + noise i) / temp) := by
    intro k n c hk
    simp only [draw, hk]
  exact ⟨⟨K, fK, inferInstance, T, k, fun _ => noise, draw, fun _ => noise, draw, G, h, hd, hd, hG⟩⟩

/-- The hypotheses of `relaxed_differs` can be met: two labels with scores 0 and 1, noise 3 for the first one. -/
example : ∃ pick : List ℝ → ℕ, IsArgmaxIdx pick ∧ record CKYCRF.algo (-100000) (oneWord 2 fun i => (i : ℕ)) none = .ok [wordExpr 2 fun i => (i : ℕ)] ∧
    ∃ R : GumbelRun [wordExpr 2 fun i => ((i : ℕ) : ℝ)] pick 1, ∃ U g g', R.IsGrad U g ∧ R.IsRelaxedGrad U g' ∧ g ≠ g' := by
  obtain ⟨pick, hp⟩ := Props.Gumbel.pick_exists
  obtain ⟨R⟩ := run_exists [wordExpr 2 fun i => ((i : ℕ) : ℝ)] pick 1 fun i => if i = 0 then 3 else 0
  obtain ⟨U, h1, h2⟩ := relaxed_differs le_rfl hp one_pos _ R
  obtain ⟨g, hg⟩ := R.grad_exists (fun x out g => stBackward x out g) U
  obtain ⟨g', hg'⟩ := R.grad_exists (fun x _ g => softmaxGrad x g) U
  refine ⟨pick, hp, record_oneWord _ _ _, R, U, g, g', hg, hg', fun he => h2 g' hg' 0 ?_⟩
  rw [← he, h1 g hg]

end Props.GumbelGrad
