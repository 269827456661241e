import Mathlib.Data.List.GetD
import Verif.Spec.SampleLaw
import Verif.Proofs.SampleGeneric

/-! The joint law of a sampled batch. -/

open Finset MvPolynomial Semirings MeasureTheory ProbabilityTheory Spec

noncomputable section
namespace Sampling

/-- What has to be known about the expression recorded for one row: it uses only entries of row `b`, each at most once, its polynomial
contains the weighted events, and its value exceeds the log of the total weight by at most `δ`. -/
structure RowLaw (e : Expr) (b : ℕ) {ι : Type} [Fintype ι] (ev : ι → Ev) (wt : ι → ℝ) (δ : ℝ) : Prop where
  noEmpty : e.NoEmpty
  degree : ∀ id, degreeOf id e.poly ≤ if id.head? = some b then 1 else 0
  cle : CLE (∑ y, monomial (ev y) (wt y)) e.poly
  value : Real.exp e.value ≤ (∑ y, wt y) * Real.exp δ
  nonneg : 0 ≤ δ
  pos : ∀ y, 0 < wt y

variable {B : ℕ} {f : ℕ → Expr} {ι : Fin B → Type} [∀ b, Fintype (ι b)] {ev : ∀ b, ι b → Ev} {wt : ∀ b, ι b → ℝ} {δ : Fin B → ℝ}

theorem batch_noEmpty (h : ∀ b : Fin B, RowLaw (f b) b (ev b) (wt b) (δ b)) : (batchSum ((List.range B).map f)).NoEmpty := by
  refine batchSum_noEmpty _ fun e he => ?_
  obtain ⟨b, hb, rfl⟩ := List.mem_map.1 he
  exact (h ⟨b, List.mem_range.1 hb⟩).noEmpty

theorem batch_poly : (batchSum ((List.range B).map f)).poly = ∏ b : Fin B, (f b).poly := by
  rw [batchSum_poly, List.map_map, prod_map_range]; rfl

theorem batch_lin (h : ∀ b : Fin B, RowLaw (f b) b (ev b) (wt b) (δ b)) : (batchSum ((List.range B).map f)).Lin := by
  refine lin_of_degree (batch_noEmpty h) fun id => ?_
  rw [batch_poly]
  refine (degreeOf_prod_le id _ _).trans ((sum_le_sum fun b _ => (h b).degree id).trans ?_)
  by_cases hb : ∃ b : Fin B, id.head? = some (b : ℕ)
  · obtain ⟨b, hb⟩ := hb
    rw [sum_eq_single b]
    · split_ifs <;> simp
    · intro b' _ hne
      rw [if_neg]; intro hc
      rw [hb] at hc
      exact hne (Fin.ext (Option.some.inj hc).symm)
    · simp
  · push Not at hb
    rw [sum_eq_zero fun b _ => if_neg (hb b)]; simp

theorem batch_cle [∀ b, DecidableEq (ι b)] (h : ∀ b : Fin B, RowLaw (f b) b (ev b) (wt b) (δ b)) :
    CLE (∑ Y : ∀ b, ι b, monomial (∑ b, ev b (Y b)) (∏ b, wt b (Y b))) (batchSum ((List.range B).map f)).poly := by
  rw [batch_poly]
  have : ∑ Y : ∀ b, ι b, monomial (∑ b, ev b (Y b)) (∏ b, wt b (Y b)) = ∏ b : Fin B, ∑ y, monomial (ev b y) (wt b y) := by
    rw [Finset.prod_univ_sum, ← Fintype.piFinset_univ]
    refine sum_congr rfl fun Y _ => ?_
    exact monomial_sum_prod _ _ _
  rw [this]
  exact CLE.prod _ fun b _ => (h b).cle

theorem batch_value [∀ b, DecidableEq (ι b)] (h : ∀ b : Fin B, RowLaw (f b) b (ev b) (wt b) (δ b)) :
    Real.exp (batchSum ((List.range B).map f)).value ≤ (∑ Y : ∀ b, ι b, ∏ b, wt b (Y b)) * Real.exp (∑ b, δ b) := by
  have e1 : ∑ Y : ∀ b, ι b, ∏ b, wt b (Y b) = ∏ b : Fin B, ∑ y, wt b y := by
    rw [Finset.prod_univ_sum, ← Fintype.piFinset_univ]
  rw [batchSum_value, List.map_map, sum_map_range', Real.exp_sum, Real.exp_sum, e1, ← prod_mul_distrib]
  exact prod_le_prod (fun _ _ => (Real.exp_pos _).le) fun b _ => (h b).value

open Classical in
/-- The joint law of the batch. -/
theorem batch_law (h : ∀ b : Fin B, RowLaw (f b) b (ev b) (wt b) (δ b)) {K Ω : Type} [MeasurableSpace Ω] {T : Tape K} {P : Measure Ω}
    {X : K → Ω → ℕ} [IsProbabilityMeasure P] (H : Draws T P X) {k : K} (hr : Repr T (batchSum ((List.range B).map f)) k) (A : Set Ev) :
    |P.real {ω | grad T (fun κ => X κ ω) (batchSum ((List.range B).map f)) k ∈ A} -
      ∑ Y : ∀ b, ι b, if ∑ b, ev b (Y b) ∈ A then ∏ b, (wt b (Y b) / ∑ y, wt b y) else 0| ≤ 1 - Real.exp (-∑ b, δ b) := by
  have := sample_law_generic H hr (batch_noEmpty h) (batch_lin h) (fun Y : ∀ b, ι b => ∑ b, ev b (Y b)) (fun Y => ∏ b, wt b (Y b))
    (fun Y => prod_pos fun b _ => (h b).pos _) (batch_cle h) (sum_nonneg fun b _ => (h b).nonneg) (batch_value h) A
  have e1 : ∑ Y : ∀ b, ι b, ∏ b, wt b (Y b) = ∏ b : Fin B, ∑ y, wt b y := by
    rw [Finset.prod_univ_sum, ← Fintype.piFinset_univ]
  simp only [e1, ← prod_div_distrib] at this
  exact this

open Classical in
/-- `SampledSemiring`. -/
theorem samplesFrom (h : ∀ b : Fin B, RowLaw (f b) b (ev b) (wt b) (δ b)) (event : (∀ b, ι b) → List ℕ → ℕ)
    (he : ∀ Y id, (∑ b, ev b (Y b)) id = event Y id) :
    SamplesFrom ((List.range B).map f) (fun Y : ∀ b, ι b => ∏ b, (wt b (Y b) / ∑ y, wt b y)) event (1 - Real.exp (-∑ b, δ b)) := by
  intro K _ dK T obj hr Ω _ P _ X H G hG A
  obtain rfl : dK = Classical.decEq K := Subsingleton.elim _ _
  have := batch_law h H hr {g : Ev | (g : List ℕ → ℕ) ∈ A}
  have e1 : {ω | gradAt T (G ω) ∈ A} = {ω | grad T (fun κ => X κ ω) (batchSum ((List.range B).map f)) obj ∈ {g : Ev | (g : List ℕ → ℕ) ∈ A}} := by
    ext ω
    simp only [Set.mem_ofPred_eq]
    have : gradAt T (G ω) = grad T (fun κ => X κ ω) (batchSum ((List.range B).map f)) obj := funext fun id => backward_one _ hr (hG ω) id
    rw [this]
  rw [e1]
  refine le_trans (le_of_eq ?_) this
  congr 3
  funext Y
  have : event Y = ((∑ b, ev b (Y b) : Ev) : List ℕ → ℕ) := funext fun id => (he Y id).symm
  simp only [Set.mem_ofPred_eq, this]

/-! ### Many samples -/

theorem sample_eq (pass : ℕ → List ℕ → ℕ) (n : ℕ) (hn : 0 < n) :
    sample pass [n] = .ok ((List.range n).map fun s id => toDiscrete (pass (s / 10) id) (s % 10 + 1)) := by
  have key : ∀ n, (List.range n).foldl (fun (st : ℕ × List (List ℕ → ℕ)) k =>
        let passes := if k % 10 = 0 then st.1 + 1 else st.1
        (passes, st.2 ++ [fun id => toDiscrete (pass (passes - 1) id) (k % 10 + 1)])) (0, []) =
      ((n + 9) / 10, (List.range n).map fun s id => toDiscrete (pass (s / 10) id) (s % 10 + 1)) := by
    intro n
    induction n with
    | zero => simp
    | succ n ih =>
      rw [List.range_succ, List.foldl_append, ih]
      simp only [List.foldl_cons, List.foldl_nil, List.map_append, List.map_cons, List.map_nil]
      by_cases h : n % 10 = 0
      · simp only [h, if_true]
        have e1 : (n + 9) / 10 + 1 = (n + 1 + 9) / 10 := by omega
        have e2 : (n + 9) / 10 + 1 - 1 = n / 10 := by omega
        rw [e2, e1]
      · simp only [h, if_false]
        have e1 : (n + 9) / 10 = (n + 1 + 9) / 10 := by omega
        have e2 : (n + 9) / 10 - 1 = n / 10 := by omega
        rw [e2, e1]
  simp only [sample, key]
  rw [if_neg]
  intro hc
  have := congrArg List.length hc
  simp at this; omega

theorem MultiDraws.one {K Ω : Type} [MeasurableSpace Ω] {T : ℕ → Tape K} {P : Measure Ω} {X : ℕ → ℕ → K → Ω → ℕ} (H : MultiDraws T P X)
    (r j : ℕ) : Draws (T r) P (X r j) where
  meas := H.meas r j
  indep := H.indep.precomp (g := fun k : K => (r, j, k)) fun k k' hk => by simpa using hk
  range := H.range r j
  law := H.law r j

/-- Functions of disjoint blocks of draws are independent. -/
theorem indep_blocks {I Ω : Type} [MeasurableSpace Ω] {P : Measure Ω} [IsProbabilityMeasure P] {X : I → Ω → ℕ} (hm : ∀ i, Measurable (X i))
    (hi : iIndepFun X P) (S : ℕ → Finset I) (hS : ∀ s s', s ≠ s' → Disjoint (S s) (S s')) (A : ∀ s, Set (S s → ℕ)) (n : ℕ) :
    P.real {ω | ∀ s < n, (fun κ : S s => X κ ω) ∈ A s} = ∏ s ∈ range n, P.real {ω | (fun κ : S s => X κ ω) ∈ A s} := by
  classical
  induction n with
  | zero => simp
  | succ n ih =>
    rw [prod_range_succ, ← ih]
    let S' := (range n).biUnion S
    have hd : Disjoint S' (S n) := by
      rw [Finset.disjoint_biUnion_left]
      intro s hs; exact hS s n (by have := mem_range.1 hs; omega)
    have hsub : ∀ s < n, S s ⊆ S' := fun s hs => subset_biUnion_of_mem S (mem_range.2 hs)
    let A' : Set (S' → ℕ) := {t | ∀ s (hs : s < n), (fun κ : S s => t ⟨κ, hsub s hs κ.2⟩) ∈ A s}
    have e1 : {ω | ∀ s < n, (fun κ : S s => X κ ω) ∈ A s} = {ω | (fun κ : S' => X κ ω) ∈ A'} := rfl
    have e2 : {ω | ∀ s < n + 1, (fun κ : S s => X κ ω) ∈ A s} =
        {ω | (fun κ : S' => X κ ω) ∈ A'} ∩ {ω | (fun κ : S n => X κ ω) ∈ A n} := by
      rw [← e1]
      ext ω
      simp only [Set.mem_ofPred_eq, Set.mem_inter_iff]
      constructor
      · intro h; exact ⟨fun s hs => h s (by omega), h n (by omega)⟩
      · rintro ⟨h1, h2⟩ s hs
        rcases Nat.lt_succ_iff_lt_or_eq.1 hs with h | rfl
        · exact h1 s h
        · exact h2
    rw [e2, e1]
    have := hi.indepFun_finset S' (S n) hd hm
    have := this.measure_inter_preimage_eq_mul A' (A n) (Set.to_countable A').measurableSet (Set.to_countable (A n)).measurableSet
    simp only [Measure.real]
    rw [← ENNReal.toReal_mul]
    congr 1

open Classical in
/-- `MultiSampledSemiring` and `StructDistribution.sample`. -/
theorem multiSamplesFrom (h : ∀ b : Fin B, RowLaw (f b) b (ev b) (wt b) (δ b)) (event : (∀ b, ι b) → List ℕ → ℕ)
    (he : ∀ Y id, (∑ b, ev b (Y b)) id = event Y id) :
    MultiSamplesFrom ((List.range B).map f) (fun Y : ∀ b, ι b => ∏ b, (wt b (Y b) / ∑ y, wt b y)) event (1 - Real.exp (-∑ b, δ b)) := by
  intro K fK dK T obj hr Ω _ P _ X H G hG n hn
  obtain rfl : dK = Classical.decEq K := Subsingleton.elim _ _
  set es := (List.range B).map f
  let one := fun (s : ℕ) (ω : Ω) => (grad (T (s / 10)) (fun κ => X (s / 10) (s % 10 + 1) κ ω) (batchSum es) (obj (s / 10)))
  have hone : ∀ s ω, (fun id => toDiscrete (gradAt (T (s / 10)) (G (s / 10) ω) id) (s % 10 + 1)) = (one s ω : List ℕ → ℕ) := by
    intro s ω
    funext id
    exact backward_multi (T := T (s / 10)) (fun j k => X (s / 10) j k ω) (hr _) (batch_lin h) (hG _ ω) id (s % 10 + 1) (by omega)
  have hget : ∀ s < n, ∀ ω, ((List.range n).map fun s id => toDiscrete (gradAt (T (s / 10)) (G (s / 10) ω) id) (s % 10 + 1)).getD s 0 =
      (one s ω : List ℕ → ℕ) := by
    intro s hs ω
    rw [List.getD_eq_getElem _ _ (by simpa using hs), List.getElem_map, List.getElem_range, ← hone s ω]
  refine ⟨_, fun ω => sample_eq _ n hn, fun ω => by simp, fun A => ?_, fun s hs A => ?_⟩
  · let S : ℕ → Finset (ℕ × ℕ × K) := fun s => univ.image fun k => (s / 10, s % 10 + 1, k)
    have hS : ∀ s s', s ≠ s' → Disjoint (S s) (S s') := by
      intro s s' hne
      refine Finset.disjoint_left.2 fun x hx hx' => hne ?_
      obtain ⟨k, -, rfl⟩ := mem_image.1 hx
      obtain ⟨k', -, h'⟩ := mem_image.1 hx'
      simp only [Prod.mk.injEq] at h'
      omega
    let A' : ∀ s, Set (S s → ℕ) := fun s => {t | ((grad (T (s / 10)) (fun κ => t ⟨(s / 10, s % 10 + 1, κ), mem_image_of_mem _ (mem_univ κ)⟩)
      (batchSum es) (obj (s / 10)) : Ev) : List ℕ → ℕ) ∈ A s}
    have hA : ∀ s ω, (fun κ : S s => X κ.1.1 κ.1.2.1 κ.1.2.2 ω) ∈ A' s ↔ (one s ω : List ℕ → ℕ) ∈ A s := fun s ω => Iff.rfl
    have key := indep_blocks (fun i : ℕ × ℕ × K => H.meas i.1 i.2.1 i.2.2) H.indep S hS A' n
    have e1 : {ω | ∀ s < n, ((List.range n).map fun s id => toDiscrete (gradAt (T (s / 10)) (G (s / 10) ω) id) (s % 10 + 1)).getD s 0 ∈ A s} =
        {ω | ∀ s < n, (fun κ : S s => X κ.1.1 κ.1.2.1 κ.1.2.2 ω) ∈ A' s} := by
      ext ω
      simp only [Set.mem_ofPred_eq]
      exact forall₂_congr fun s hs => by rw [hget s hs ω]; exact (hA s ω).symm
    rw [e1, key]
    refine prod_congr rfl fun s hs => ?_
    congr 1
    ext ω
    simp only [Set.mem_ofPred_eq]
    rw [hget s (mem_range.1 hs) ω]; exact hA s ω
  · have := batch_law h (MultiDraws.one H (s / 10) (s % 10 + 1)) (hr (s / 10)) {g : Ev | (g : List ℕ → ℕ) ∈ A}
    have e1 : {ω | ((List.range n).map fun s id => toDiscrete (gradAt (T (s / 10)) (G (s / 10) ω) id) (s % 10 + 1)).getD s 0 ∈ A} =
        {ω | one s ω ∈ {g : Ev | (g : List ℕ → ℕ) ∈ A}} := by
      ext ω
      simp only [Set.mem_ofPred_eq]
      rw [hget s hs ω]
    rw [e1]
    refine le_trans (le_of_eq ?_) this
    congr 3
    funext Y
    have : event Y = ((∑ b, ev b (Y b) : Ev) : List ℕ → ℕ) := funext fun id => (he Y id).symm
    simp only [Set.mem_ofPred_eq, this]

end Sampling
