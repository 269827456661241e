import Verif.Model.Alignment
import Mathlib.Tactic.NormNum

/-! `AlignmentCRF` does not honour its options and never returns a value (C33 is false of the code). -/

namespace Props.AlignmentCRF
open Alignment

/-- The option `local` does not arrive: the program always runs with `local = False`, and the option is read as the number of sparse rounds. -/
theorem local_ignored (d : CRF) : d.struct.loc = false ∧ d.struct.sparseRounds = .inr d.loc ∧ d.struct.maxGap = d.maxGap := ⟨rfl, rfl, rfl⟩

/-- Two distributions that differ only in `local` are indistinguishable by `partition`. -/
theorem local_same (d : CRF) (loc : Bool) : ({ d with loc := loc } : CRF).partition = d.partition := rfl

/-- `partition` raises for all arguments. -/
theorem partition_raises (d : CRF) : ∃ e, d.partition = .error e := by
  unfold CRF.partition logpartition
  split
  · exact ⟨_, rfl⟩
  · split_ifs
    · exact ⟨_, rfl⟩
    · split <;> exact ⟨_, rfl⟩
    · split <;> exact ⟨_, rfl⟩

/-- For every table of the documented shape `batch × N × M × 3` with `1 ≤ N ≤ M` and no lengths, it raises `AttributeError`. -/
theorem partition_attribute_error (d : CRF) (h3 : d.potentials.d3 = 3) (hb : 1 ≤ d.potentials.d0) (hN : 1 ≤ d.potentials.d1)
    (hM : d.potentials.d1 ≤ d.potentials.d2) (hl : d.lengths = none) : d.partition = .error .attribute := by
  have hmax : (List.replicate d.potentials.d0 d.potentials.d1).max? = some d.potentials.d1 := by
    rw [List.max?_eq_some_iff]
    exact ⟨List.mem_replicate.2 ⟨by omega, rfl⟩, fun x hx => (List.eq_of_mem_replicate hx).le⟩
  have hloc : d.struct.loc = false := rfl
  have hc : checkPotentials d.struct d.potentials d.lengths = .ok (List.replicate d.potentials.d0 d.potentials.d1) := by
    unfold checkPotentials
    rw [if_neg (by omega), if_neg (by simp [hloc]), if_neg (by omega), hl]
    simp only [Option.getD_none, hmax, if_true]
  obtain ⟨n, hn⟩ : ∃ n, d.potentials.d0 = n + 1 := ⟨d.potentials.d0 - 1, by omega⟩
  unfold CRF.partition logpartition
  rw [hc]
  simp only [hn, List.replicate_succ]
  rw [if_neg (by omega), if_neg (by omega)]

/-- For every table `batch × N × M × 3` with `N ≤ M` and `M ≥ 1`, a nonempty batch, and lengths of which the largest is `N`, it raises `AttributeError`: there is
no accepted call. -/
theorem partition_attribute_error_lengths (d : CRF) (l : List ℕ) (h3 : d.potentials.d3 = 3) (hb : 1 ≤ d.potentials.d0) (hM : d.potentials.d1 ≤ d.potentials.d2)
    (h1 : 1 ≤ d.potentials.d2) (hl : d.lengths = some l) (hmem : d.potentials.d1 ∈ l) (hle : ∀ x ∈ l, x ≤ d.potentials.d1) :
    d.partition = .error .attribute := by
  have hmax : l.max? = some d.potentials.d1 := by
    rw [List.max?_eq_some_iff]
    exact ⟨hmem, hle⟩
  have hloc : d.struct.loc = false := rfl
  have hc : checkPotentials d.struct d.potentials d.lengths = .ok l := by
    unfold checkPotentials
    rw [if_neg (by omega), if_neg (by simp [hloc]), if_neg (by omega), hl]
    simp only [Option.getD_some, hmax, if_true]
  unfold CRF.partition logpartition
  rw [hc]
  cases l with
  | nil => simp at hmem
  | cons x l =>
    simp only
    rw [if_neg (by omega), if_neg (by omega)]

/-- A table without cells raises `ValueError` (the logarithm of 0). -/
theorem partition_empty_table (d : CRF) (h3 : d.potentials.d3 = 3) (h1 : d.potentials.d1 = 0) (h2 : d.potentials.d2 = 0) (hb : 1 ≤ d.potentials.d0)
    (hl : d.lengths = none) : d.partition = .error .value := by
  have hmax : (List.replicate d.potentials.d0 d.potentials.d1).max? = some d.potentials.d1 := by
    rw [List.max?_eq_some_iff]
    exact ⟨List.mem_replicate.2 ⟨by omega, rfl⟩, fun x hx => (List.eq_of_mem_replicate hx).le⟩
  have hloc : d.struct.loc = false := rfl
  have hc : checkPotentials d.struct d.potentials d.lengths = .ok (List.replicate d.potentials.d0 d.potentials.d1) := by
    unfold checkPotentials
    rw [if_neg (by omega), if_neg (by simp [hloc]), if_neg (by omega), hl]
    simp only [Option.getD_none, hmax, if_true]
  unfold CRF.partition logpartition
  rw [hc]
  simp only
  rw [if_pos (by omega)]

/-- **C33 is false of the code**: there are valid tables (skips negative, alignments positive) for which `AlignmentCRF(local=True).partition` returns no value. -/
theorem alignment_fails : ∃ d : CRF, d.loc = true ∧ d.potentials.d3 = 3 ∧ (∀ b i j, d.potentials.get b i j 0 ≤ 0 ∧ 0 ≤ d.potentials.get b i j 1 ∧
    d.potentials.get b i j 2 ≤ 0) ∧ ¬ ∃ v, d.partition = .ok v := by
  refine ⟨⟨⟨2, 3, 4, 3, fun _ _ _ o => if o = 1 then 1 else -1⟩, true, none, none⟩, rfl, rfl, fun _ _ _ => by norm_num, ?_⟩
  rintro ⟨v, hv⟩
  rw [partition_attribute_error _ rfl (by norm_num) (by norm_num) (by norm_num) rfl] at hv
  simp at hv

end Props.AlignmentCRF
