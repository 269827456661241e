import Verif.Proofs.BatchDP

/-! Dynamic programs whose rows are exactly the sum over the structures (no stand-in reaches the result), and those with phantoms. -/

open Finset Spec

noncomputable section
namespace Spec.Gibbs
variable {ι π : Type} [Fintype ι] [Fintype π] [IsEmpty π]

theorem Z_exact (s : ι → ℝ) (ph : π → ℝ) : Z (Sum.elim s ph) = Z s := by simp [Z, Fintype.sum_sum_type]

theorem expect_exact (s : ι → ℝ) (ph : π → ℝ) (f : ι ⊕ π → ℝ) : expect (Sum.elim s ph) f = expect s fun y => f (Sum.inl y) := by
  simp [expect, prob, Z_exact, Fintype.sum_sum_type]

theorem entropy_exact (s : ι → ℝ) (ph : π → ℝ) : entropy (Sum.elim s ph) = entropy s := by
  simp [entropy, prob, Z_exact, Fintype.sum_sum_type]

theorem crossEntropy_exact (s t : ι → ℝ) (ph qh : π → ℝ) : crossEntropy (Sum.elim s ph) (Sum.elim t qh) = crossEntropy s t := by
  simp [crossEntropy, prob, Z_exact, Fintype.sum_sum_type]

theorem kl_exact (s t : ι → ℝ) (ph qh : π → ℝ) : kl (Sum.elim s ph) (Sum.elim t qh) = kl s t := by
  simp [kl, prob, Z_exact, Fintype.sum_sum_type]

end Spec.Gibbs

/-- Element `b` of a list that is given by a formula. -/
theorem getElem_map_range {β : Type} (B : ℕ) (f : ℕ → β) (b : ℕ) (hb : b < ((List.range B).map f).length) :
    ((List.range B).map f)[b] = f b := by
  rw [List.getElem_map]
  exact congrArg f (List.getElem_range ..)

theorem Spec.SamplesFrom.mono {es : List Sampling.Expr} {ι : Type} [Fintype ι] {law : ι → ℝ} {event : ι → List ℕ → ℕ} {ε ε' : ℝ}
    (h : SamplesFrom es law event ε) (hε : ε ≤ ε') : SamplesFrom es law event ε' := by
  intro K _ dK T obj hr Ω _ P _ X H G hG A
  exact (h K T obj hr Ω P X H G hG A).trans hε

theorem Spec.MultiSamplesFrom.mono {es : List Sampling.Expr} {ι : Type} [Fintype ι] {law : ι → ℝ} {event : ι → List ℕ → ℕ} {ε ε' : ℝ}
    (h : MultiSamplesFrom es law event ε) (hε : ε ≤ ε') : MultiSamplesFrom es law event ε' := by
  intro K _ dK T obj hr Ω _ P _ X H G hG n hn
  obtain ⟨smp, h1, h2, h3, h4⟩ := h K T obj hr Ω P X H G hG n hn
  exact ⟨smp, h1, h2, h3, fun s hs A => (h4 s hs A).trans hε⟩

namespace Generic.BatchDP
variable {A : Algo} {lengths : Option (List ℕ)} {B : ℕ} {E : ℕ → List ℕ → Prop}
  {ι π : ℕ → Type} [∀ b, Fintype (ι b)] [∀ b, Fintype (π b)] {parts : ∀ b, ι b → Multiset (List ℕ)} {ones : ∀ b, ι b → ℕ}
  {atoms : ∀ b, π b → Multiset Atom}

section exact
variable [∀ b, IsEmpty (π b)] {p : A.T ℝ} {val : List ℕ → ℝ} (D : BatchDP A p lengths B val E parts ones atoms)
include D

theorem partition_exact : Dist.partition A p lengths = .ok ((List.range B).map fun b => Real.log (Gibbs.Z (realScore (parts b) val))) := by
  rw [D.partition_eq]
  congr 1
  refine List.map_congr_left fun b _ => ?_
  rw [tot, Gibbs.Z_exact]

theorem max_exact : ∃ vs, Dist.max A p lengths = .ok vs ∧ vs.length = B ∧ ∀ b (hb : b < vs.length),
    (∃ y, vs[b] = realScore (parts b) val y) ∧ ∀ y, realScore (parts b) val y ≤ vs[b] := by
  obtain ⟨vs, h1, h2, h3⟩ := D.max_eq
  refine ⟨vs, h1, h2, fun b hb => ?_⟩
  obtain ⟨⟨t, ht⟩, h4⟩ := h3 b hb
  refine ⟨?_, fun y => h4 (Sum.inl y)⟩
  cases t with
  | inl y => exact ⟨y, ht⟩
  | inr y => exact isEmptyElim y

theorem entropy_exact : Dist.entropy A p lengths = .ok ((List.range B).map fun b => Gibbs.entropy (realScore (parts b) val)) := by
  rw [D.entropy_eq]
  congr 1
  refine List.map_congr_left fun b _ => ?_
  rw [tot, Gibbs.entropy_exact]

theorem marginals_exact : ∃ μ, Dist.marginals A p lengths = .ok μ ∧ ∀ b < B, ∀ e : List ℕ, e.head? = some b →
    μ e = Gibbs.expect (realScore (parts b) val) fun y => (parts b y).count e := by
  obtain ⟨μ, h1, h2⟩ := D.marginals_eq
  refine ⟨μ, h1, fun b hb e he => ?_⟩
  rw [h2 b hb e he, tot, Gibbs.expect_exact]
  simp only [RowDP.links_inl]

theorem argmax_exact {pick : List (Autograd.Grad (List ℕ)) → Autograd.Grad (List ℕ)} (hp : Autograd.IsArgmax Prod.fst pick) :
    ∃ μ, Dist.argmax A p lengths pick = .ok μ ∧ ∀ b < B, ∃ y, (∀ y', realScore (parts b) val y' ≤ realScore (parts b) val y) ∧
      ∀ e : List ℕ, e.head? = some b → μ e = (parts b y).count e := by
  obtain ⟨μ, h1, h2⟩ := D.argmax_eq hp
  refine ⟨μ, h1, fun b hb => ?_⟩
  obtain ⟨t, h3, h4⟩ := h2 b hb
  cases t with
  | inl y =>
    refine ⟨y, fun y' => h3 (Sum.inl y'), fun e he => ?_⟩
    rw [h4 e he, RowDP.links_inl]
  | inr y => exact isEmptyElim y

/-- The rows recorded by the sampling semirings. -/
theorem record_exact (hne : ∀ b < B, Nonempty (ι b)) (hnd : ∀ b < B, ∀ y, (parts b y).Nodup) (z : ℝ) :
    ∃ f : ℕ → Sampling.Expr, Sampling.record A z p lengths = .ok ((List.range B).map f) ∧
      ∀ b : Fin B, Sampling.RowLaw (f b) b (ev (parts b)) (fun y => Real.exp (realScore (parts b) val y)) 0 := by
  obtain ⟨f, h1, h2⟩ := D.record_eq hne hnd (fun b _ y => isEmptyElim y) z
  refine ⟨f, h1, fun b => ?_⟩
  have := h2 b
  rwa [Gibbs.excess_empty, add_zero, Real.log_one] at this

/-- Sampling with the one-sample semiring. -/
theorem sampled_exact (hne : ∀ b < B, Nonempty (ι b)) (hnd : ∀ b < B, ∀ y, (parts b y).Nodup) (z : ℝ)
    (event : (∀ b : Fin B, ι b) → List ℕ → ℕ) (he : ∀ Y id, ∑ b : Fin B, (parts b (Y b)).count id = event Y id) :
    ∃ es, Sampling.record A z p lengths = .ok es ∧ es.length = B ∧
      SamplesFrom es (fun Y : ∀ b : Fin B, ι b => ∏ b : Fin B, Gibbs.prob (realScore (parts b) val) (Y b)) event 0 := by
  obtain ⟨f, h1, h2⟩ := D.record_exact hne hnd z
  refine ⟨_, h1, by simp, ?_⟩
  have := Sampling.samplesFrom h2 event fun Y id => by rw [Finsupp.finsetSum_apply, ← he]; exact sum_congr rfl fun b _ => ev_apply _ _ _
  simp only [sum_const_zero, neg_zero, Real.exp_zero, sub_self] at this
  exact this

/-- `sample`. -/
theorem sample_exact (hne : ∀ b < B, Nonempty (ι b)) (hnd : ∀ b < B, ∀ y, (parts b y).Nodup) (z : ℝ)
    (event : (∀ b : Fin B, ι b) → List ℕ → ℕ) (he : ∀ Y id, ∑ b : Fin B, (parts b (Y b)).count id = event Y id) :
    ∃ es, Sampling.record A z p lengths = .ok es ∧ es.length = B ∧
      MultiSamplesFrom es (fun Y : ∀ b : Fin B, ι b => ∏ b : Fin B, Gibbs.prob (realScore (parts b) val) (Y b)) event 0 := by
  obtain ⟨f, h1, h2⟩ := D.record_exact hne hnd z
  refine ⟨_, h1, by simp, ?_⟩
  have := Sampling.multiSamplesFrom h2 event fun Y id => by
    rw [Finsupp.finsetSum_apply, ← he]; exact sum_congr rfl fun b _ => ev_apply _ _ _
  simp only [sum_const_zero, neg_zero, Real.exp_zero, sub_self] at this
  exact this

end exact

section pair
variable {p : A.T (ℝ × ℝ)} {val : List ℕ → ℝ × ℝ} (D : BatchDP A p lengths B val E parts ones atoms)
include D

theorem ce_eq : (A.run Semirings.crossEntropy (A.map Semirings.pairConvert p) lengths).map (List.map fun a => a.2.2) =
    .ok ((List.range B).map fun b => Gibbs.crossEntropy (tot (parts b) (atoms b) Semirings.negInf fun e => (val e).1)
      (tot (parts b) (atoms b) Semirings.negInf fun e => (val e).2)) := by
  obtain ⟨row, h1, h2⟩ := D.rows
  have h := h1 Semirings.crossEntropy fun v _ => Semirings.pairConvert v
  rw [D.map_fst Semirings.pairConvert] at h
  rw [h]
  change Except.ok _ = _
  congr 1
  rw [List.map_map]
  exact List.map_congr_left fun b hb => (h2 b (List.mem_range.1 hb)).ce_eq Semirings.negInf (fun e => (val e).1) fun e => (val e).2

theorem kl_eq : (A.run Semirings.kl (A.map Semirings.pairConvert p) lengths).map (List.map fun a => a.2.2) =
    .ok ((List.range B).map fun b => Gibbs.kl (tot (parts b) (atoms b) Semirings.negInf fun e => (val e).1)
      (tot (parts b) (atoms b) Semirings.negInf fun e => (val e).2)) := by
  obtain ⟨row, h1, h2⟩ := D.rows
  have h := h1 Semirings.kl fun v _ => Semirings.pairConvert v
  rw [D.map_fst Semirings.pairConvert] at h
  rw [h]
  change Except.ok _ = _
  congr 1
  rw [List.map_map]
  exact List.map_congr_left fun b hb => (h2 b (List.mem_range.1 hb)).kl_eq Semirings.negInf (fun e => (val e).1) fun e => (val e).2

theorem ce_exact [∀ b, IsEmpty (π b)] :
    (A.run Semirings.crossEntropy (A.map Semirings.pairConvert p) lengths).map (List.map fun a => a.2.2) =
    .ok ((List.range B).map fun b => Gibbs.crossEntropy (realScore (parts b) fun e => (val e).1) (realScore (parts b) fun e => (val e).2)) := by
  rw [D.ce_eq]
  congr 1
  refine List.map_congr_left fun b _ => ?_
  rw [tot, tot, Gibbs.crossEntropy_exact]

theorem kl_exact [∀ b, IsEmpty (π b)] :
    (A.run Semirings.kl (A.map Semirings.pairConvert p) lengths).map (List.map fun a => a.2.2) =
    .ok ((List.range B).map fun b => Gibbs.kl (realScore (parts b) fun e => (val e).1) (realScore (parts b) fun e => (val e).2)) := by
  rw [D.kl_eq]
  congr 1
  refine List.map_congr_left fun b _ => ?_
  rw [tot, tot, Gibbs.kl_exact]

end pair

/-- Any commutative semiring. -/
theorem any_semiring {R : Type} [CommSemiring R] {p : A.T R} {val : List ℕ → R} (D : BatchDP A p lengths B val E parts ones atoms) :
    A.run (Semirings.std R) p lengths = .ok ((List.range B).map fun b => ∑ y, ((parts b y).map val).prod) := by
  obtain ⟨row, h1, h2⟩ := D.rows
  have h := h1 (Semirings.std R) fun v _ => v
  rw [D.map_fst fun v => v] at h
  have e : A.map (fun v => v) p = p := D.map_id
  rw [e] at h
  refine h.trans ?_
  congr 1
  exact List.map_congr_left fun b hb => (h2 b (List.mem_range.1 hb)).std_eq _

/-- `LogSemiring`, for potentials that may be `-∞`. -/
theorem logE_eq (z : EReal) (hz : z = ⊥ ∨ ∀ b, IsEmpty (π b)) {p : A.T EReal} {val : List ℕ → EReal} (D : BatchDP A p lengths B val E parts ones atoms) :
    A.run (Semirings.logE z) p lengths = .ok ((List.range B).map fun b => ENNReal.log (∑ y, EReal.exp ((parts b y).map val).sum)) := by
  obtain ⟨row, h1, h2⟩ := D.rows
  have h := h1 (Semirings.logE z) fun v _ => v
  rw [D.map_fst fun v => v] at h
  have e : A.map (fun v => v) p = p := D.map_id
  rw [e] at h
  refine h.trans ?_
  congr 1
  refine List.map_congr_left fun b hb => ?_
  rw [← (h2 b (List.mem_range.1 hb)).logE_eq z (hz.imp id fun h => h b), EReal.log_exp]

/-- `partition` for potentials that may be `-∞`. -/
theorem partitionE_exact [hπ : ∀ b, IsEmpty (π b)] {p : A.T EReal} {val : List ℕ → EReal} (D : BatchDP A p lengths B val E parts ones atoms) :
    Dist.partitionE A lengths p = .ok ((List.range B).map fun b => ENNReal.log (∑ y, EReal.exp ((parts b y).map val).sum)) :=
  D.logE_eq _ (Or.inr hπ)

section leaky
variable {p : A.T ℝ} {val : List ℕ → ℝ} (D : BatchDP A p lengths B val E parts ones atoms)
include D

/-- The weight of the phantoms of a row relative to that of its structures. -/
def ex (parts : ∀ b, ι b → Multiset (List ℕ)) (atoms : ∀ b, π b → Multiset Atom) (val : List ℕ → ℝ) (b : ℕ) : ℝ :=
  Gibbs.excess (realScore (parts b) val) (phScore (atoms b) Semirings.negInf val)

theorem partition_leaky (hne : ∀ b < B, Nonempty (ι b)) : Dist.partition A p lengths = .ok ((List.range B).map fun b =>
    Real.log (Gibbs.Z (realScore (parts b) val)) + Real.log (1 + ex parts atoms val b)) := by
  rw [D.partition_eq]
  congr 1
  refine List.map_congr_left fun b hb => ?_
  have := hne b (List.mem_range.1 hb)
  rw [tot, Gibbs.log_Z_elim]; rfl

theorem marginals_leaky (hne : ∀ b < B, Nonempty (ι b)) {M : ℝ} (hM : ∀ b < B, ∀ e y, ((parts b y).count e : ℝ) ≤ M)
    (hM' : ∀ b < B, ∀ e y, (((atoms b y).filterMap Atom.link).count e : ℝ) ≤ M) :
    ∃ μ, Dist.marginals A p lengths = .ok μ ∧ ∀ b < B, ∀ e : List ℕ, e.head? = some b →
    |μ e - Gibbs.expect (realScore (parts b) val) fun y => (parts b y).count e| ≤ ex parts atoms val b * M := by
  obtain ⟨μ, h1, h2⟩ := D.marginals_eq
  refine ⟨μ, h1, fun b hb e he => ?_⟩
  have := hne b hb
  rw [h2 b hb e he, tot]
  have : (fun t => (((allAtoms (parts b) (ones b) (atoms b) t).filterMap Atom.link).count e : ℝ)) =
      Sum.elim (fun y => ((parts b y).count e : ℝ)) (fun y => (((atoms b y).filterMap Atom.link).count e : ℝ)) := by
    funext t
    cases t with
    | inl y => rw [RowDP.links_inl]; rfl
    | inr y => rfl
  rw [this]
  exact Gibbs.expect_elim_sub_nonneg _ _ _ _ (fun y => ⟨Nat.cast_nonneg _, hM b hb e y⟩) fun y => ⟨Nat.cast_nonneg _, hM' b hb e y⟩

theorem argmax_leaky (hbeat : ∀ b < B, ∀ t, ∃ y, phScore (atoms b) Semirings.negInf val t < realScore (parts b) val y)
    {pick : List (Autograd.Grad (List ℕ)) → Autograd.Grad (List ℕ)} (hp : Autograd.IsArgmax Prod.fst pick) :
    ∃ μ, Dist.argmax A p lengths pick = .ok μ ∧ ∀ b < B, ∃ y, (∀ y', realScore (parts b) val y' ≤ realScore (parts b) val y) ∧
      ∀ e : List ℕ, e.head? = some b → μ e = (parts b y).count e := by
  obtain ⟨μ, h1, h2⟩ := D.argmax_eq hp
  refine ⟨μ, h1, fun b hb => ?_⟩
  obtain ⟨t, h3, h4⟩ := h2 b hb
  cases t with
  | inl y =>
    refine ⟨y, fun y' => h3 (Sum.inl y'), fun e he => ?_⟩
    rw [h4 e he, RowDP.links_inl]
  | inr t =>
    obtain ⟨y, hy⟩ := hbeat b hb t
    exact absurd (h3 (Sum.inl y)) (not_le.2 hy)

theorem max_leaky (hbeat : ∀ b < B, ∀ t, ∃ y, phScore (atoms b) Semirings.negInf val t ≤ realScore (parts b) val y) :
    ∃ vs, Dist.max A p lengths = .ok vs ∧ vs.length = B ∧ ∀ b (hb : b < vs.length),
    (∃ y, vs[b] = realScore (parts b) val y) ∧ ∀ y, realScore (parts b) val y ≤ vs[b] := by
  obtain ⟨vs, h1, h2, h3⟩ := D.max_eq
  refine ⟨vs, h1, h2, fun b hb => ?_⟩
  obtain ⟨⟨t, ht⟩, h4⟩ := h3 b hb
  refine ⟨?_, fun y => h4 (Sum.inl y)⟩
  cases t with
  | inl y => exact ⟨y, ht⟩
  | inr t =>
    obtain ⟨y, hy⟩ := hbeat b (by omega) t
    refine ⟨y, le_antisymm ?_ (h4 (Sum.inl y))⟩
    rw [ht]; exact hy

theorem entropy_leaky (hne : ∀ b < B, Nonempty (ι b)) {F : ℕ → ℝ} (hF : ∀ b < B, ∀ y, |realScore (parts b) val y| ≤ F b)
    {G : ℕ → ℝ} (hG : ∀ b < B, ∀ y, |phScore (atoms b) Semirings.negInf val y| ≤ G b) :
    ∃ vs, Dist.entropy A p lengths = .ok vs ∧ vs.length = B ∧ ∀ b (hb : b < vs.length),
      |vs[b] - Gibbs.entropy (realScore (parts b) val)| ≤ ex parts atoms val b * (1 + F b + G b) := by
  refine ⟨_, D.entropy_eq, by simp, fun b hb => ?_⟩
  rw [getElem_map_range]
  have hb' : b < B := by simpa using hb
  have := hne b hb'
  exact Gibbs.entropy_elim _ _ (hF b hb') (hG b hb')

/-- Only the entries in `E` matter. -/
theorem tot_congr {val' : List ℕ → ℝ} (hv : ∀ b < B, ∀ e, E b e → val e = val' e) (z : ℝ) (b : ℕ) (hb : b < B) :
    tot (parts b) (atoms b) z val = tot (parts b) (atoms b) z val' := by
  obtain ⟨row, -, h2⟩ := D.rows
  funext t
  cases t with
  | inl y => exact congrArg Multiset.sum (Multiset.map_congr rfl fun e he => hv b hb e ((h2 b hb).partE y e he))
  | inr y =>
    refine congrArg Multiset.sum (Multiset.map_congr rfl fun a ha => ?_)
    cases a with
    | pot e => exact hv b hb e ((h2 b hb).potE y e ha)
    | masked e => rfl
    | zero => rfl
    | one => rfl

/-- Sampling with phantoms. -/
theorem samples_leaky (hne : ∀ b < B, Nonempty (ι b)) (hnd : ∀ b < B, ∀ y, (parts b y).Nodup)
    (hnd' : ∀ b < B, ∀ y, ((atoms b y).filterMap Atom.link).Nodup)
    (event : (∀ b : Fin B, ι b) → List ℕ → ℕ) (he : ∀ Y id, ∑ b : Fin B, (parts b (Y b)).count id = event Y id) {ε : ℝ}
    (hε : ∑ b : Fin B, ex parts atoms val b ≤ ε) :
    ∃ es, Sampling.record A (-100000) p lengths = .ok es ∧ es.length = B ∧
      SamplesFrom es (fun Y : ∀ b : Fin B, ι b => ∏ b : Fin B, Gibbs.prob (realScore (parts b) val) (Y b)) event ε ∧
      MultiSamplesFrom es (fun Y : ∀ b : Fin B, ι b => ∏ b : Fin B, Gibbs.prob (realScore (parts b) val) (Y b)) event ε := by
  obtain ⟨f, h1, h2⟩ := D.record_eq hne hnd hnd' (-100000)
  have hle : 1 - Real.exp (-∑ b : Fin B, Real.log (1 + Gibbs.excess (realScore (parts b) val) (phScore (atoms b) (-100000) val))) ≤ ε := by
    have h3 : ∑ b : Fin B, Real.log (1 + Gibbs.excess (realScore (parts b) val) (phScore (atoms b) (-100000) val)) ≤
        ∑ b : Fin B, ex parts atoms val b := sum_le_sum fun b _ => (Gibbs.log_one_add_excess _ _).2
    have h4 := Real.add_one_le_exp (-∑ b : Fin B, Real.log (1 + Gibbs.excess (realScore (parts b) val) (phScore (atoms b) (-100000) val)))
    linarith
  have hev : ∀ (Y : ∀ b : Fin B, ι b) id, (∑ b : Fin B, ev (parts b) (Y b)) id = event Y id := fun Y id => by
    rw [Finsupp.finsetSum_apply, ← he]; exact sum_congr rfl fun b _ => ev_apply _ _ _
  exact ⟨_, h1, by simp, (Sampling.samplesFrom h2 event hev).mono hle, (Sampling.multiSamplesFrom h2 event hev).mono hle⟩

end leaky
end Generic.BatchDP
