import Mathlib.Probability.Independence.InfinitePi
import Mathlib.Probability.ProbabilityMassFunction.Constructions
import Verif.Spec.SampleLaw
import Verif.Proofs.Backward

/-! The hypotheses of the sampling theorems can always be met: every recorded expression has a tape, a source of draws and a backward pass. -/

open Finset MeasureTheory ProbabilityTheory Spec Semirings

noncomputable section
namespace Sampling

/-- Renaming the nodes of an operation. -/
def Op.rename {K K' : Type} (φ : K → K') : Op K → Op K'
  | leaf v id => leaf v id
  | const v => const v
  | add a b => add (φ a) (φ b)
  | lse n c => lse n fun i => φ (c i)
  | data x v => data (φ x) v

theorem repr_rename {K K' : Type} {T : Tape K} {T' : Tape K'} (φ : K → K') (hop : ∀ k, T'.op (φ k) = (T.op k).rename φ)
    (hval : ∀ k, T'.val (φ k) = T.val k) : ∀ (e : Expr) (k : K), Repr T e k → Repr T' e (φ k)
  | .leaf v id, k, h => ⟨by rw [hop, h.1]; rfl, by rw [hval, h.2]⟩
  | .const v, k, h => ⟨by rw [hop, h.1]; rfl, by rw [hval, h.2]⟩
  | .mul a b, k, ⟨ka, kb, h1, h2, h3, h4⟩ =>
    ⟨φ ka, φ kb, by rw [hop, h1]; rfl, repr_rename φ hop hval a ka h2, repr_rename φ hop hval b kb h3, by rw [hval, hval, hval, h4]⟩
  | .sum n f, k, ⟨c, h1, h2, h3⟩ =>
    ⟨fun i => φ (c i), by rw [hop, h1]; rfl, fun i => repr_rename φ hop hval (f i) (c i) (h2 i), by rw [hval, h3]; simp only [hval]⟩
  | .setData x v, k, ⟨kx, h1, h2, h3⟩ => ⟨φ kx, by rw [hop, h1]; rfl, repr_rename φ hop hval x kx h2, by rw [hval, h3]⟩

theorem isChild_rename {K K' : Type} (φ : K → K') (o : Op K) (c : K') (h : (o.rename φ).IsChild c) : ∃ c0, o.IsChild c0 ∧ c = φ c0 := by
  cases o with
  | leaf => exact h.elim
  | const => exact h.elim
  | add a b => rcases h with rfl | rfl
               · exact ⟨a, .inl rfl, rfl⟩
               · exact ⟨b, .inr rfl, rfl⟩
  | lse n ch => obtain ⟨i, rfl⟩ := h; exact ⟨ch i, ⟨i, rfl⟩, rfl⟩
  | data x v => obtain rfl := h; exact ⟨x, rfl, rfl⟩

/-- A family of tapes with one new node on top. -/
def joinTape {ι : Type} [Fintype ι] {K : ι → Type} [∀ i, Fintype (K i)] (T : ∀ i, Tape (K i)) (top : Op (Option (Σ i, K i))) (v : ℝ)
    (htop : ¬ top.IsChild none) : Tape (Option (Σ i, K i)) where
  op k := match k with
    | none => top
    | some ⟨i, k⟩ => ((T i).op k).rename fun k => some ⟨i, k⟩
  rank k := match k with
    | none => (univ.sup fun x : Σ i, K i => (T x.1).rank x.2) + 1
    | some ⟨i, k⟩ => (T i).rank k
  lt k c h := by
    cases k with
    | none =>
      cases c with
      | none => exact absurd h htop
      | some x => exact Nat.lt_succ_of_le (le_sup (f := fun x : Σ i, K i => (T x.1).rank x.2) (mem_univ x))
    | some x =>
      obtain ⟨i, k⟩ := x
      obtain ⟨c0, h0, rfl⟩ := isChild_rename _ _ _ h
      exact (T i).lt k c0 h0
  val k := match k with
    | none => v
    | some ⟨i, k⟩ => (T i).val k

theorem repr_join {ι : Type} [Fintype ι] {K : ι → Type} [∀ i, Fintype (K i)] (T : ∀ i, Tape (K i)) (top : Op (Option (Σ i, K i))) (v : ℝ)
    (htop : ¬ top.IsChild none) (i : ι) {e : Expr} {k : K i} (h : Repr (T i) e k) : Repr (joinTape T top v htop) e (some ⟨i, k⟩) :=
  repr_rename (T' := joinTape T top v htop) (fun k : K i => some (⟨i, k⟩ : Σ i, K i)) (fun _ => rfl) (fun _ => rfl) e k h

/-- Every expression is represented by some tape. -/
theorem tape_exists : ∀ e : Expr, ∃ (K : Type) (_ : Fintype K) (T : Tape K) (k : K), Repr T e k
  | .leaf v id => ⟨Unit, inferInstance, ⟨fun _ => .leaf v id, fun _ => 0, fun _ _ h => h.elim, fun _ => v⟩, (), rfl, rfl⟩
  | .const v => ⟨Unit, inferInstance, ⟨fun _ => .const v, fun _ => 0, fun _ _ h => h.elim, fun _ => v⟩, (), rfl, rfl⟩
  | .mul a b => by
    obtain ⟨Ka, fa, Ta, ka, ha⟩ := tape_exists a
    obtain ⟨Kb, fb, Tb, kb, hb⟩ := tape_exists b
    let K : Bool → Type := fun i => bif i then Ka else Kb
    have : ∀ i, Fintype (K i) := fun i => by cases i <;> assumption
    let T : ∀ i, Tape (K i) := fun i => match i with | true => Ta | false => Tb
    refine ⟨_, inferInstance, joinTape T (.add (some ⟨true, ka⟩) (some ⟨false, kb⟩)) (Ta.val ka + Tb.val kb) (by simp [Op.IsChild]), none, ?_⟩
    exact ⟨_, _, rfl, repr_join T _ _ _ true ha, repr_join T _ _ _ false hb, rfl⟩
  | .sum n f => by
    choose K fK T k h using fun i => tape_exists (f i)
    refine ⟨_, inferInstance, joinTape T (.lse n fun i => some ⟨i, k i⟩) (lse (List.ofFn fun i => (T i).val (k i))) (by simp [Op.IsChild]), none, ?_⟩
    exact ⟨_, rfl, fun i => repr_join T _ _ _ i (h i), rfl⟩
  | .setData x v => by
    obtain ⟨Kx, fx, Tx, kx, hx⟩ := tape_exists x
    refine ⟨_, inferInstance, joinTape (fun _ : Unit => Tx) (.data (some ⟨(), kx⟩) v) v (by simp [Op.IsChild]), none, ?_⟩
    exact ⟨_, rfl, repr_join (fun _ : Unit => Tx) _ _ _ () hx, rfl⟩

/-- The number of outcomes of a draw at a node. -/
def arity {K : Type} : Op K → ℕ
  | .lse (n + 1) _ => n + 1
  | _ => 1

theorem arity_pos {K : Type} (o : Op K) : 0 < arity o := by
  unfold arity; split <;> omega

/-- Logits at a node. -/
def logit {K : Type} (val : K → ℝ) : (o : Op K) → Fin (arity o) → ℝ
  | .lse (n + 1) c, i => val (c i)
  | .lse 0 _, _ => 0
  | .leaf _ _, _ => 0
  | .const _, _ => 0
  | .add _ _, _ => 0
  | .data _ _, _ => 0

/-- The softmax distribution. -/
def softmaxPMF {n : ℕ} (hn : 0 < n) (v : Fin n → ℝ) : PMF (Fin n) :=
  PMF.ofFintype (fun i => ENNReal.ofReal (Real.exp (v i) / ∑ j, Real.exp (v j))) (by
    have : Nonempty (Fin n) := ⟨⟨0, hn⟩⟩
    have hpos : 0 < ∑ j, Real.exp (v j) := sum_pos (fun j _ => Real.exp_pos _) univ_nonempty
    rw [← ENNReal.ofReal_sum_of_nonneg fun i _ => by positivity, ← Finset.sum_div, div_self hpos.ne', ENNReal.ofReal_one])

/-- Draws exist for all nodes of all tapes. -/
theorem draws_exist {K : Type} (T : ℕ → Tape K) : ∃ (Ω : Type) (_ : MeasurableSpace Ω) (P : Measure Ω) (_ : IsProbabilityMeasure P)
    (X : ℕ → ℕ → K → Ω → ℕ), MultiDraws T P X := by
  let A : ℕ × ℕ × K → Type := fun i => Fin (arity ((T i.1).op i.2.2))
  let μ : ∀ i, Measure (A i) := fun i => (softmaxPMF (arity_pos _) (logit (T i.1).val ((T i.1).op i.2.2))).toMeasure
  have hμ : ∀ i, IsProbabilityMeasure (μ i) := fun i => PMF.toMeasure.isProbabilityMeasure _
  refine ⟨∀ i, A i, inferInstance, Measure.infinitePi μ, inferInstance, fun r j k ω => (ω (r, j, k) : ℕ), ?_, ?_, ?_, ?_⟩
  · intro r j k
    exact (measurable_of_countable _).comp (measurable_pi_apply (r, j, k))
  · exact iIndepFun_infinitePi (P := μ) (X := fun i (a : A i) => ((a : Fin _) : ℕ)) fun i => measurable_of_countable _
  · intro r j k n c h hn ω
    have := (ω (r, j, k) : Fin (arity ((T r).op k))).2
    obtain ⟨m, rfl⟩ : ∃ m, n = m + 1 := ⟨n - 1, by omega⟩
    have e : arity ((T r).op k) = m + 1 := by rw [h]; rfl
    exact this.trans_eq e
  · intro r j k n c h i
    obtain ⟨m, rfl⟩ : ∃ m, n = m + 1 := ⟨n - 1, by have := i.2; omega⟩
    have e : arity ((T r).op k) = m + 1 := by rw [h]; rfl
    have e1 : {ω : ∀ i, A i | (ω (r, j, k) : ℕ) = i} = (Function.eval (r, j, k)) ⁻¹' ({Fin.cast e.symm i} : Set (A (r, j, k))) := by
      ext ω
      simp only [Set.mem_ofPred_eq, Set.mem_preimage, Set.mem_singleton_iff, Function.eval]
      exact ⟨fun h => Fin.ext h, fun h => by rw [h]; rfl⟩
    rw [e1, Measure.real, ← Measure.map_apply (measurable_pi_apply _) (measurableSet_singleton _), Measure.infinitePi_map_eval]
    rw [show μ (r, j, k) = (softmaxPMF (arity_pos _) (logit (T r).val ((T r).op k))).toMeasure from rfl,
      PMF.toMeasure_apply_singleton _ _ (measurableSet_singleton _)]
    have key : ∀ (o : Op K) (ho : o = .lse (m + 1) c) (a : Fin (arity o)), (a : ℕ) = i →
        (softmaxPMF (arity_pos o) (logit (T r).val o) a).toReal = Real.exp ((T r).val (c i)) / ∑ j, Real.exp ((T r).val (c j)) := by
      rintro o rfl a ha
      obtain rfl : a = i := Fin.ext ha
      rw [softmaxPMF, PMF.ofFintype_apply, ENNReal.toReal_ofReal (by positivity)]
      rfl
    exact key _ h _ rfl

/-- The hypotheses of `SamplesFrom` and `MultiSamplesFrom` can be met for every list of recorded rows. -/
theorem passes_exist (es : List Expr) : ∃ (K : Type) (_ : Fintype K) (_ : DecidableEq K) (T : ℕ → Tape K) (obj : ℕ → K)
    (Ω : Type) (_ : MeasurableSpace Ω) (P : Measure Ω) (_ : IsProbabilityMeasure P) (X : ℕ → ℕ → K → Ω → ℕ) (G G' : ℕ → Ω → K → ℕ),
    (∀ r, Repr (T r) (batchSum es) (obj r)) ∧ MultiDraws T P X ∧
    (∀ r ω, IsBackward (sendMulti (T r) fun j k => X r j k ω) (obj r) (G r ω)) ∧
    (∀ j ω, IsBackward (sendOne (T 0) fun k => X 0 j k ω) (obj 0) (G' j ω)) := by
  classical
  obtain ⟨K, fK, T, k, h⟩ := tape_exists (batchSum es)
  obtain ⟨Ω, mΩ, P, hP, X, H⟩ := draws_exist fun _ => T
  choose G hG using fun (r : ℕ) ω => backward_exists (T := T) (sendMulti_local fun j k => X r j k ω) k
  choose G' hG' using fun (j : ℕ) ω => backward_exists (T := T) (sendOne_local fun k => X 0 j k ω) k
  exact ⟨K, fK, _, fun _ => T, fun _ => k, Ω, mΩ, P, hP, X, G, G', fun _ => h, H, hG, hG'⟩

end Sampling
