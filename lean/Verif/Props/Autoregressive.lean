import Verif.Spec.Autoregressive
import Mathlib.Data.List.GetD
import Mathlib.Algebra.BigOperators.Fin
import Mathlib.Algebra.BigOperators.Ring.Finset
import Mathlib.Algebra.BigOperators.Field
import Mathlib.Logic.Equiv.Fin.Basic
import Mathlib.Tactic.Linarith
import Mathlib.Tactic.Ring

/-! Property theorems about `Autoregressive.log_prob`: C34. -/

open Spec

noncomputable section
namespace Props.Autoregressive
open _root_.Autoregressive Semirings

variable {St : Type}

/-! ### `log_softmax` -/

theorem sum_exp (xs : List ℝ) : (xs.map Real.exp).sum = ∑ i ∈ Finset.range xs.length, Real.exp (xs.getD i 0) := by
  induction xs with
  | nil => rfl
  | cons x xs ih => rw [List.map_cons, List.sum_cons, ih, List.length_cons, Finset.sum_range_succ']; simp [add_comm]

theorem norm_getD (D : AR St) (xs : List ℝ) {c : ℕ} (hc : c < xs.length) : (D.norm xs).getD c 0 = arNorm D.normalize xs c := by
  rw [AR.norm, arNorm]
  split_ifs
  · rw [logSoftmax, List.getD_eq_getElem _ _ (by simpa using hc), List.getElem_map, lse, sum_exp, List.getD_eq_getElem _ _ hc]
  · rfl

theorem norm_length (D : AR St) (xs : List ℝ) : (D.norm xs).length = xs.length := by
  rw [AR.norm]; split_ifs <;> simp [logSoftmax]

/-- The probabilities of the classes add up to 1. -/
theorem sum_exp_norm (xs : List ℝ) (h : xs ≠ []) : ∑ c ∈ Finset.range xs.length, Real.exp (arNorm true xs c) = 1 := by
  simp only [arNorm, if_true]
  have hpos : 0 < ∑ i ∈ Finset.range xs.length, Real.exp (xs.getD i 0) :=
    Finset.sum_pos (fun i _ => Real.exp_pos _) (Finset.nonempty_range_iff.2 (by simpa using h))
  simp only [Real.exp_sub, Real.exp_log hpos]
  rw [← Finset.sum_div, div_self hpos.ne']

theorem norm_nonpos (xs : List ℝ) {c : ℕ} (hc : c < xs.length) : arNorm true xs c ≤ 0 := by
  have h := sum_exp_norm xs (by rintro rfl; simp at hc)
  have h2 := Finset.single_le_sum (f := fun c => Real.exp (arNorm true xs c)) (fun i _ => (Real.exp_pos _).le) (Finset.mem_range.2 hc)
  rw [h] at h2
  exact Real.exp_le_one_iff.1 h2

/-! ### The network -/

theorem run_length (step : ARStep St) : ∀ (s : St) (xs : List Tok), (runStep step s xs).1.length = xs.length
  | _, [] => rfl
  | s, x :: xs => by rw [runStep, List.length_cons, run_length step _ xs, List.length_cons]

theorem run_classes {C : ℕ} {step : ARStep St} (h : ∀ s x, (step s x).1.length = C) : ∀ (s : St) (xs : List Tok), ∀ l ∈ (runStep step s xs).1, l.length = C
  | _, [], l, hl => by simp [runStep] at hl
  | s, x :: xs, l, hl => by
    rw [runStep, List.mem_cons] at hl
    rcases hl with rfl | hl
    · exact h s x
    · exact run_classes h _ xs l hl

theorem rowScore_run (D : AR St) {step : ARStep St} (h : ∀ s x, (step s x).1.length = D.nClasses) : ∀ (y : List ℕ) (s : St) (x : ℕ), (∀ c ∈ y, c < D.nClasses) →
    rowScore ((runStep step s (((x :: y)).map .hard)).1.map D.norm) (x :: y) = arScore D.normalize step s (.hard x) y
  | [], s, x, _ => by simp [rowScore, runStep, arScore]
  | c :: y, s, x, hy => by
    have ih := rowScore_run D h y (step s (.hard x)).2 c fun d hd => hy d (List.mem_cons_of_mem _ hd)
    rw [arScore, ← ih, ← norm_getD D _ (by rw [h]; exact hy c List.mem_cons_self)]
    simp only [rowScore, List.map_cons, runStep, List.tail_cons]
    rw [List.dropLast_cons_of_ne_nil (by simp), List.zipWith_cons_cons, List.sum_cons]

/-! ### `log_prob` -/

theorem flat_index {α : Type} (n B : ℕ) (f : ℕ → ℕ → α) (d : α) {k b : ℕ} (hk : k < n) (hb : b < B) :
    ((List.range n).flatMap fun k => (List.range B).map (f k)).getD (k * B + b) d = f k b := by
  induction n with
  | zero => omega
  | succ n ih =>
    have hlen : ((List.range n).flatMap fun k => (List.range B).map (f k)).length = n * B := by
      rw [List.length_flatMap]; simp
    rw [List.range_succ, List.flatMap_append]
    by_cases h : k < n
    · have : k * B + b < n * B := by
        have := Nat.mul_le_mul_right B (show k + 1 ≤ n from h)
        rw [Nat.add_mul, one_mul] at this
        omega
      rw [List.getD_append _ _ _ _ (by rw [hlen]; exact this)]
      exact ih h
    · have : k = n := by omega
      subst this
      rw [List.getD_append_right _ _ _ _ (by rw [hlen]; omega), hlen, Nat.add_sub_cancel_left]
      simp [hb]

theorem flat_length {α : Type} (n B : ℕ) (f : ℕ → ℕ → α) : ((List.range n).flatMap fun k => (List.range B).map (f k)).length = n * B := by
  rw [List.length_flatMap]; simp

theorem wrap_flat {α : Type} [Inhabited α] (n B : ℕ) (f : ℕ → ℕ → α) :
    wrap ((List.range n).flatMap fun k => (List.range B).map (f k)) n = (List.range n).map fun k => (List.range B).map (f k) := by
  rw [wrap, flat_length]
  refine List.map_congr_left fun k hk => ?_
  have hn : 0 < n := by have := List.mem_range.1 hk; omega
  rw [Nat.mul_div_cancel_left _ hn]
  exact List.map_congr_left fun b hb => flat_index n B f default (List.mem_range.1 hk) (List.mem_range.1 hb)

theorem replicate_flatten {α : Type} (l : List α) (d : α) (n : ℕ) :
    (List.replicate n l).flatten = (List.range n).flatMap fun _ => (List.range l.length).map fun b => l.getD b d := by
  have : (List.range l.length).map (fun b => l.getD b d) = l := by
    refine List.ext_getElem (by simp) fun i h1 h2 => ?_
    rw [List.getElem_map, List.getElem_range, List.getD_eq_getElem _ _ h2]
  simp only [this]
  induction n with
  | zero => rfl
  | succ n ih => rw [List.replicate_succ', List.flatten_append, ih, List.range_succ, List.flatMap_append]; simp

theorem zipWith_flat {α β γ : Type} (n B : ℕ) (g : α → β → γ) (f : ℕ → ℕ → α) (f' : ℕ → ℕ → β) :
    List.zipWith g ((List.range n).flatMap fun k => (List.range B).map (f k)) ((List.range n).flatMap fun k => (List.range B).map (f' k)) =
      (List.range n).flatMap fun k => (List.range B).map fun b => g (f k b) (f' k b) := by
  induction n with
  | zero => rfl
  | succ n ih =>
    simp only [List.range_succ, List.flatMap_append]
    rw [List.zipWith_append (by rw [flat_length, flat_length]), ih]
    congr 1
    simp [List.zipWith_map, List.zipWith_self]

theorem map_flat {α β : Type} (n B : ℕ) (g : α → β) (f : ℕ → ℕ → α) :
    ((List.range n).flatMap fun k => (List.range B).map (f k)).map g = (List.range n).flatMap fun k => (List.range B).map fun b => g (f k b) := by
  rw [List.map_flatMap]; simp [Function.comp_def]

theorem mem_flat {α : Type} {n B : ℕ} {f : ℕ → ℕ → α} {x : α} (h : x ∈ (List.range n).flatMap fun k => (List.range B).map (f k)) :
    ∃ k < n, ∃ b < B, f k b = x := by
  obtain ⟨k, hk, hx⟩ := List.mem_flatMap.1 h
  obtain ⟨b, hb, hx⟩ := List.mem_map.1 hx
  exact ⟨k, List.mem_range.1 hk, b, List.mem_range.1 hb, hx⟩

/-- Row `(s, b)` of the argument. -/
def rowOf (v : Classes) (s b : ℕ) : List ℕ := (List.range v.len).map fun t => v.get s b t

/-- **C34.**  For every causal network, `log_prob(value, sparse=True)` is the chain-rule score of every row. -/
theorem logProb_sparse_spec (D : AR St) {step : ARStep St} (hD : IsCausal D step) (v : Classes) (h1 : 1 ≤ v.sample) (hb : v.batch = D.init.length)
    (hv : ∀ s < v.sample, ∀ b < v.batch, ∀ t < v.len, v.get s b t < D.nClasses) (d : St) :
    D.logProbSparse v = .ok ((List.range v.sample).map fun s => (List.range v.batch).map fun b =>
      arScore D.normalize step (D.init.getD b d) (.hard D.startClass) (rowOf v s b)) := by
  have hrow : ∀ s < v.sample, ∀ b < v.batch, ∀ c ∈ rowOf v s b, c < D.nClasses := by
    intro s hs b hb c hc
    obtain ⟨t, ht, rfl⟩ := List.mem_map.1 hc
    exact hv s hs b hb t (List.mem_range.1 ht)
  have hin : inputRows D.startClass v = (List.range v.sample).flatMap fun s => (List.range v.batch).map fun b => D.startClass :: rowOf v s b := rfl
  have hst : D.expand v.sample = (List.range v.sample).flatMap fun _ => (List.range v.batch).map fun b => D.init.getD b d := by
    rw [AR.expand, replicate_flatten _ d, hb]
  have hmodel : (D.model ((inputRows D.startClass v).map fun row => row.map .hard) (D.expand v.sample)).1 =
      (List.range v.sample).flatMap fun s => (List.range v.batch).map fun b =>
        (runStep step (D.init.getD b d) ((D.startClass :: rowOf v s b).map .hard)).1 := by
    rw [hin, hst, map_flat, hD.run _ _ (by rw [flat_length, flat_length])]
    exact zipWith_flat v.sample v.batch _ (fun s b => (D.startClass :: rowOf v s b).map Tok.hard) _
  rw [AR.logProbSparse]
  simp only [hmodel]
  rw [if_neg, if_neg, if_neg (by omega)]
  · congr 1
    rw [hin, zipWith_flat, wrap_flat]
    refine List.map_congr_left fun s hs => List.map_congr_left fun b hb => ?_
    exact rowScore_run D hD.classes _ _ _ (hrow s (List.mem_range.1 hs) b (List.mem_range.1 hb))
  · rintro ⟨row, hr, y, hy, hc⟩
    rw [hin] at hr
    obtain ⟨s, hs, b, hb, rfl⟩ := mem_flat hr
    rw [List.tail_cons] at hy
    have := hrow s hs b hb y hy
    omega
  · rw [not_not, hmodel]
    refine ⟨flat_length _ _ _, fun row hr => ?_⟩
    obtain ⟨s, hs, b, hb, rfl⟩ := mem_flat hr
    exact ⟨by rw [run_length]; simp [rowOf], fun l hl => run_classes hD.classes _ _ l hl⟩

/-- **C43** for `log_prob`: for every causal network a call with the batch size of the distribution is accepted exactly if there is a sample and all classes are
in range. -/
theorem logProb_sparse_accepts (D : AR St) {step : ARStep St} (hD : IsCausal D step) (v : Classes) (hb : v.batch = D.init.length) :
    (∃ r, D.logProbSparse v = .ok r) ↔ 1 ≤ v.sample ∧ ∀ s < v.sample, ∀ b < v.batch, ∀ t < v.len, v.get s b t < D.nClasses := by
  constructor
  · rintro ⟨r, hr⟩
    unfold AR.logProbSparse at hr
    dsimp only at hr
    split_ifs at hr with h1 h2 h3
    refine ⟨by omega, fun s hs b hb t ht => ?_⟩
    by_contra hn
    refine h2 ⟨D.startClass :: (List.range v.len).map fun t => v.get s b t, ?_, v.get s b t, ?_, by omega⟩
    · exact List.mem_flatMap.2 ⟨s, List.mem_range.2 hs, List.mem_map.2 ⟨b, List.mem_range.2 hb, rfl⟩⟩
    · exact List.mem_map.2 ⟨t, List.mem_range.2 ht, rfl⟩
  · rintro ⟨h1, hv⟩
    rcases hi : D.init with _ | ⟨d, l⟩
    · have h0 : D.expand v.sample = [] := by simp [AR.expand, hi]
      have hin : inputRows D.startClass v = [] := by
        rw [hi] at hb
        simp [inputRows, show v.batch = 0 from hb]
      have hm : (D.model ([] : List (List Tok)) []).1 = [] := by rw [hD.run [] [] rfl]; rfl
      unfold AR.logProbSparse
      simp only [h0, hin, List.map_nil, hm]
      rw [if_neg, if_neg, if_neg (by omega)]
      · exact ⟨_, rfl⟩
      · simp
      · rw [not_not, hin, h0, List.map_nil, hm]
        refine ⟨?_, by simp⟩
        rw [hi] at hb
        simp [show v.batch = 0 from hb]
    · exact ⟨_, logProb_sparse_spec D hD v h1 hb hv d⟩

/-- A one-hot tensor: exactly one 1 per position. -/
def IsOneHot (v : OneHot) (c : ℕ → ℕ → ℕ → ℕ) : Prop :=
  ∀ s < v.sample, ∀ b < v.batch, ∀ t < v.len, c s b t < v.classes ∧ ∀ i < v.classes, v.get s b t i = if c s b t = i then 1 else 0

theorem toClasses_get (v : OneHot) {c : ℕ → ℕ → ℕ → ℕ} (h : IsOneHot v c) {s b t : ℕ} (hs : s < v.sample) (hb : b < v.batch) (ht : t < v.len) :
    v.toClasses.get s b t = c s b t := by
  obtain ⟨h1, h2⟩ := h s hs b hb t ht
  change (∑ i ∈ Finset.range v.classes, v.get s b t i * i) = _
  rw [Finset.sum_eq_single (c s b t), h2 _ h1, if_pos rfl, one_mul]
  · intro i hi hne
    rw [h2 i (Finset.mem_range.1 hi), if_neg (Ne.symm hne), zero_mul]
  · intro hn; exact absurd (Finset.mem_range.2 h1) hn

/-- **C34**, dense encoding: `log_prob(value)` of a one-hot tensor is the chain-rule score of the classes it encodes. -/
theorem logProb_spec (D : AR St) {step : ARStep St} (hD : IsCausal D step) (v : OneHot) (c : ℕ → ℕ → ℕ → ℕ) (hc : IsOneHot v c) (h1 : 1 ≤ v.sample)
    (hb : v.batch = D.init.length) (hC : v.classes = D.nClasses) (d : St) :
    D.logProb v = .ok ((List.range v.sample).map fun s => (List.range v.batch).map fun b =>
      arScore D.normalize step (D.init.getD b d) (.hard D.startClass) ((List.range v.len).map (c s b))) := by
  have h := logProb_sparse_spec D hD v.toClasses h1 hb (fun s hs b hb t ht => by
    rw [toClasses_get v hc hs hb ht, ← hC]; exact (hc s hs b hb t ht).1) d
  rw [AR.logProb, h]
  congr 1
  refine List.map_congr_left fun s hs => List.map_congr_left fun b hb => ?_
  congr 1
  exact List.map_congr_left fun t ht => toClasses_get v hc (List.mem_range.1 hs) (List.mem_range.1 hb) (List.mem_range.1 ht)

/-- **C34**, the two encodings agree (for any network). -/
theorem logProb_dense_sparse (D : AR St) (v : OneHot) (c : ℕ → ℕ → ℕ → ℕ) (hc : IsOneHot v c) :
    D.logProb v = D.logProbSparse ⟨v.sample, v.batch, v.len, c⟩ := by
  have : inputRows D.startClass v.toClasses = inputRows D.startClass ⟨v.sample, v.batch, v.len, c⟩ := by
    refine List.flatMap_congr fun s hs => List.map_congr_left fun b hb => ?_
    congr 1
    exact List.map_congr_left fun t ht => toClasses_get v hc (List.mem_range.1 hs) (List.mem_range.1 hb) (List.mem_range.1 ht)
  rw [AR.logProb, AR.logProbSparse, AR.logProbSparse, this]
  rfl

/-- **C34**, normalisation: the probabilities of all sequences of `N` classes add up to 1. -/
theorem logProb_normalised {C : ℕ} (hC : 1 ≤ C) {step : ARStep St} (hstep : ∀ s x, (step s x).1.length = C) : ∀ (N : ℕ) (s : St) (x : Tok),
    ∑ y : Fin N → Fin C, Real.exp (arScore true step s x (List.ofFn fun t => (y t : ℕ))) = 1
  | 0, s, x => by simp [arScore]
  | N + 1, s, x => by
    rw [← (Fin.consEquiv fun _ : Fin (N + 1) => Fin C).sum_comp, Fintype.sum_prod_type]
    have h : ∀ (c : Fin C) (y : Fin N → Fin C), Real.exp (arScore true step s x (List.ofFn fun t => ((Fin.consEquiv fun _ : Fin (N + 1) => Fin C) (c, y) t : ℕ))) =
        Real.exp (arNorm true (step s x).1 c) * Real.exp (arScore true step (step s x).2 (.hard c) (List.ofFn fun t => (y t : ℕ))) := by
      intro c y
      rw [← Real.exp_add, List.ofFn_succ]
      rfl
    simp only [h]
    simp only [← Finset.mul_sum, logProb_normalised hC hstep N, mul_one]
    have h2 := sum_exp_norm (step s x).1 (by intro h0; have := hstep s x; rw [h0] at this; simp at this; omega)
    rw [hstep, Finset.sum_range] at h2
    exact h2

/-! A network: the state counts the steps, the logit of class `c` after token `x` in state `s` is `s * c + x`. -/

/-- Its step. -/
def exampleStep : ARStep ℕ := fun s x => ([(s : ℝ) * 0 + (match x with | .hard c => c | .soft _ => 0), s, 2 * s], s + 1)

/-- The distribution: two batch rows, three classes, length 4. -/
def exampleAR : AR ℕ :=
  ⟨fun rows states => (List.zipWith (fun row s => (runStep exampleStep s row).1) rows states, List.zipWith (fun row s => (runStep exampleStep s row).2) rows states),
    [0, 5], 3, 4, true, 1⟩

theorem example_causal : IsCausal exampleAR exampleStep := ⟨fun _ _ _ => rfl, fun _ _ => rfl⟩

/-- The hypotheses of the theorems hold for it. -/
example : IsOneHot ⟨1, 2, 4, 3, fun _ b t c => if (b + t) % 3 = c then 1 else 0⟩ (fun _ b t => (b + t) % 3) :=
  fun _ _ _ _ _ _ => ⟨Nat.mod_lt _ (by decide), fun _ _ => rfl⟩

end Props.Autoregressive
