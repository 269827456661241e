import Verif.Proofs.SemiMarkov
import Verif.Proofs.CKYCRF
import Verif.Proofs.ExactDP
import Verif.Proofs.Gibbs
import Verif.Proofs.Lists
import Verif.Proofs.SampleExists

/-! Property theorems about `SemiMarkovCRF`: C15, C16, C47, C48 and sampling, `log_prob`.

A segmentation of the `L = length - 1` steps of a row is an element of `Spec.Segmentation K C L`: an initial class and a list of segments
(length between 1 and `K - 1`, class) of total length `L`.  Its segments with start, previous class are `Spec.segEdges`. -/

open Finset Spec Generic SemiMarkovProofs

noncomputable section
namespace Props.SemiMarkov
open _root_.SemiMarkov

/-- What the theorems assume: square classes, at least one class, one step, segments of length 1 allowed, lengths with maximum `N`. -/
abbrev Valid {γ : Type} (p : T5 γ) (lengths : Option (List ℕ)) : Prop := SemiMarkovProofs.Valid p lengths

/-- The number of steps of row `b`: its length minus 1. -/
def steps {γ : Type} (p : T5 γ) (lengths : Option (List ℕ)) (b : ℕ) : ℕ := lenOf (p.d1 + 1) lengths b - 1

/-- The segmentations of row `b`. -/
abbrev Seg {γ : Type} (p : T5 γ) (lengths : Option (List ℕ)) (b : ℕ) : Type := Segmentation p.d2 p.d3 (steps p lengths b)

/-- The potentials of row `b`: start, length, class, previous class. -/
def row {γ : Type} (p : T5 γ) (b : ℕ) : ℕ → ℕ → ℕ → ℕ → γ := fun n k c c' => p.get b n k c c'

/-- A concrete input that meets the hypotheses: two rows of 3 and 2 steps, segments of length 1 and 2, two classes. -/
def sample : T5 ℝ := ⟨2, 3, 3, 2, 2, fun b n k c c' => (b : ℝ) + n - 2 * k + c - c'⟩

theorem sample_valid : Valid sample (some [4, 3]) := ⟨by decide, rfl, by decide, by decide, by decide, rfl, by decide, by decide⟩

variable {p : T5 ℝ} {lengths : Option (List ℕ)}

theorem hK {γ : Type} {p : T5 γ} {lengths : Option (List ℕ)} (h : Valid p lengths) : 0 < p.d2 - 1 := by have := h.segs; omega

theorem realScore_eq (p : T5 ℝ) (b : ℕ) {K C L : ℕ} : realScore (segParts b : Segmentation K C L → _) (at5 p) = segScore (row p b) := by
  funext t
  rw [realScore, segParts, segScore, Multiset.map_coe, Multiset.sum_coe, List.map_map]
  rfl

theorem mem_parts (b : ℕ) {K C L : ℕ} (y : Segmentation K C L) (n k : ℕ) (c c' : Fin C) :
    [b, n, k, (c : ℕ), (c' : ℕ)] ∈ segParts b y ↔ (n, k, c, c') ∈ segEdges 0 y.1 y.2.1 := by
  rw [segParts, Multiset.mem_coe]
  change entry b (n, k, c, c') ∈ _ ↔ _
  rw [List.mem_map_of_injective (entry_injective b)]

theorem count_parts (b : ℕ) {K C L : ℕ} (y : Segmentation K C L) (n k : ℕ) (c c' : Fin C) :
    (segParts b y).count [b, n, k, (c : ℕ), (c' : ℕ)] = if (n, k, c, c') ∈ segEdges 0 y.1 y.2.1 then 1 else 0 := by
  rw [Multiset.count_eq_of_nodup (segParts_nodup b y)]
  congr 1
  rw [mem_parts]

theorem seg_nonempty {γ : Type} {p : T5 γ} {lengths : Option (List ℕ)} (h : Valid p lengths) (b : ℕ) : Nonempty (Seg p lengths b) :=
  nonempty_segments h.segs h.classes _

/-- **C15** in any commutative semiring: the value of a row is the sum over the segmentations of its steps, each once, of the product of the
potentials of the segments. -/
theorem sum_any_semiring {R : Type} [CommSemiring R] (p : T5 R) (lengths : Option (List ℕ)) (h : Valid p lengths) :
    logpartition (Semirings.std R) p lengths =
      .ok ((List.range p.d0).map fun b => ∑ y : Seg p lengths b, segWeight (row p b) y) := by
  refine (batchDP p lengths h (hK h)).any_semiring.trans ?_
  congr 1
  refine List.map_congr_left fun b _ => sum_congr rfl fun t _ => ?_
  rw [segParts, Multiset.map_coe, Multiset.prod_coe, List.map_map]
  rfl

/-- **C15** for the log semiring with a true zero (`zero = -∞`) and potentials that may be `-∞`. -/
theorem partition_limit (p : T5 EReal) (lengths : Option (List ℕ)) (h : Valid p lengths) : logpartition (Semirings.logE ⊥) p lengths =
    .ok ((List.range p.d0).map fun b => ENNReal.log (∑ y : Seg p lengths b,
      EReal.exp ((segEdges 0 y.1 y.2.1).map fun s => row p b s.1 s.2.1 s.2.2.1 s.2.2.2).sum)) := by
  refine ((batchDP p lengths h (hK h)).logE_eq ⊥ (Or.inl rfl)).trans ?_
  congr 1
  refine List.map_congr_left fun b _ => congrArg _ (sum_congr rfl fun t _ => ?_)
  rw [segParts, Multiset.map_coe, Multiset.sum_coe, List.map_map]
  rfl

/-- The potentials of the segments that start inside a row are at most `B` in absolute value. -/
structure Bounded (p : T5 ℝ) (lengths : Option (List ℕ)) (B : ℝ) : Prop where
  nonneg : 0 ≤ B
  bound : ∀ b < p.d0, ∀ n k c c', n < steps p lengths b → 1 ≤ k → k < p.d2 → c < p.d3 → c' < p.d3 → |p.get b n k c c'| ≤ B

/-- The number of matrices that the scan multiplies: the number of steps rounded up to a power of 2. -/
def binN (p : T5 ℝ) : ℕ := 2 ^ Nat.clog 2 p.d1

/-- The error that the stand-in `zero = -1e5` causes in row `b`: (number of paths through the scan) · exp(2 · steps · B - 1e5). -/
def err (p : T5 ℝ) (lengths : Option (List ℕ)) (B : ℝ) (b : ℕ) : ℝ :=
  (p.d3 ^ 2 * (((p.d2 - 1) * p.d3) ^ (binN p + 1) * 2 ^ binN p) : ℕ) * Real.exp (2 * steps p lengths b * B - 100000)

theorem ph_le (h : Valid p lengths) {B : ℝ} (hB : Bounded p lengths B) (b : ℕ) (hb : b < p.d0) (x : Ph p lengths (hK h) b) :
    phScore AtomChain.Phantom.atoms Semirings.negInf (at5 p) x ≤ -100000 + steps p lengths b * B ∧
    |phScore AtomChain.Phantom.atoms Semirings.negInf (at5 p) x| ≤ binN p * (100000 + B) := by
  have := AtomChain.phScore_le (st := finals p (hK h)) (cell := cells p lengths b) (M := 2 ^ Nat.clog 2 p.d1) (L := steps p lengths b)
    (E := Entry p lengths b) (v := at5 p) (B := B) (z := Semirings.negInf)
    (fun n i j e hn hc => by have := (potE b n i j e hc).1; change steps p lengths b ≤ n at hn; change n < steps p lengths b at this; omega)
    (fun n i j e _ hc => (potE b n i j e hc).2) hB.nonneg (by norm_num [Semirings.negInf])
    (by rintro e ⟨n, k, c, c', rfl, h1, h2, h3⟩; exact hB.bound b hb n k c c' h1 h2 h3 c.2 c'.2) x
  refine ⟨this.1, this.2.trans_eq ?_⟩
  norm_num [Semirings.negInf, binN]

theorem real_le {B : ℝ} (hB : Bounded p lengths B) (b : ℕ) (hb : b < p.d0) (y : Seg p lengths b) :
    |segScore (row p b) y| ≤ steps p lengths b * B := by
  have h1 : |segScore (row p b) y| ≤ ((segEdges 0 y.1 y.2.1).length : ℝ) * B := by
    rw [segScore]
    have : ∀ l : List (ℕ × ℕ × Fin p.d3 × Fin p.d3), (∀ s ∈ l, |row p b s.1 s.2.1 s.2.2.1 s.2.2.2| ≤ B) →
        |(l.map fun s => row p b s.1 s.2.1 s.2.2.1 s.2.2.2).sum| ≤ (l.length : ℝ) * B := by
      intro l hl
      induction l with
      | nil => simp
      | cons a l ih =>
        rw [List.map_cons, List.sum_cons, List.length_cons]
        push_cast
        have h1 := hl a List.mem_cons_self
        have h2 := ih fun s hs => hl s (List.mem_cons_of_mem _ hs)
        have h3 := abs_add_le (row p b a.1 a.2.1 a.2.2.1 a.2.2.2) (l.map fun s => row p b s.1 s.2.1 s.2.2.1 s.2.2.2).sum
        linarith
    refine this _ fun s hs => ?_
    have h1 := segEdges_mem y.2.1 0 y.1 y.2.2.1 s hs
    have h2 := y.2.2.2
    exact hB.bound b hb _ _ _ _ (by omega) h1.2.1 h1.2.2.1 s.2.2.1.2 s.2.2.2.2
  refine h1.trans (mul_le_mul_of_nonneg_right ?_ hB.nonneg)
  have := segments_length y.2
  rw [segEdges_length]
  exact_mod_cast (by omega : y.2.1.length ≤ steps p lengths b)

theorem ex_le (h : Valid p lengths) {B : ℝ} (hB : Bounded p lengths B) (b : ℕ) (hb : b < p.d0) :
    BatchDP.ex (fun b => (segParts b : Seg p lengths b → _)) (fun b => (AtomChain.Phantom.atoms : Ph p lengths (hK h) b → _)) (at5 p) b ≤
      err p lengths B b := by
  have hne := seg_nonempty h b
  refine (Gibbs.excess_le (ι := Seg p lengths b) _ _ (L := -(steps p lengths b * B)) (U := -100000 + steps p lengths b * B) ?_ ?_).trans ?_
  · intro y
    rw [realScore_eq]
    exact (abs_le.1 (real_le hB b hb y)).1
  · intro x
    exact (ph_le h hB b hb x).1
  · rw [err]
    have e : -100000 + steps p lengths b * B - -(steps p lengths b * B) = 2 * steps p lengths b * B - 100000 := by ring
    rw [e]
    refine mul_le_mul_of_nonneg_right ?_ (Real.exp_nonneg _)
    exact_mod_cast AtomChain.card_phantom_le (st := finals p (hK h)) (cell := cells p lengths b) (M := 2 ^ Nat.clog 2 p.d1)
      (fun n i j => cell_length _ _ _ _ _ _ i j)

/-- The true log-partition of row `b`. -/
def truth (p : T5 ℝ) (lengths : Option (List ℕ)) (b : ℕ) : ℝ := Real.log (∑ y : Seg p lengths b, Real.exp (segScore (row p b) y))

/-- **C15.** `SemiMarkovCRF.partition` is the log of the sum over the segmentations of the exponentiated score; the stand-in `zero = -1e5`
only adds, and at most `err`. -/
theorem partition_spec (p : T5 ℝ) (lengths : Option (List ℕ)) (h : Valid p lengths) {B : ℝ} (hB : Bounded p lengths B) :
    ∃ vs, Dist.partition algo p lengths = .ok vs ∧ vs.length = p.d0 ∧ ∀ b (hb : b < vs.length),
      truth p lengths b ≤ vs[b] ∧ vs[b] ≤ truth p lengths b + err p lengths B b := by
  refine ⟨_, (batchDP p lengths h (hK h)).partition_leaky fun b _ => seg_nonempty h b, by simp, fun b hb => ?_⟩
  have hb' : b < p.d0 := by simpa using hb
  rw [getElem_map_range]
  have e : Real.log (Gibbs.Z (realScore (segParts b : Seg p lengths b → _) (at5 p))) = truth p lengths b := by rw [realScore_eq]; rfl
  have h1 := Gibbs.log_one_add_excess (realScore (segParts b : Seg p lengths b → _) (at5 p))
    (phScore (AtomChain.Phantom.atoms : Ph p lengths (hK h) b → _) Semirings.negInf (at5 p))
  have h2 := ex_le h hB b hb'
  unfold BatchDP.ex at h2 ⊢
  rw [← e]
  constructor
  · exact le_add_of_nonneg_right h1.1
  · refine add_le_add_right (h1.2.trans h2) _

/-- The stand-in `zero = -1e5` only adds, whatever the potentials are. -/
theorem truth_le (p : T5 ℝ) (lengths : Option (List ℕ)) (h : Valid p lengths) :
    ∃ vs, Dist.partition algo p lengths = .ok vs ∧ vs.length = p.d0 ∧ ∀ b (hb : b < vs.length), truth p lengths b ≤ vs[b] := by
  refine ⟨_, (batchDP p lengths h (hK h)).partition_leaky fun b _ => seg_nonempty h b, by simp, fun b hb => ?_⟩
  rw [getElem_map_range]
  have e : Real.log (Gibbs.Z (realScore (segParts b : Seg p lengths b → _) (at5 p))) = truth p lengths b := by rw [realScore_eq]; rfl
  have h1 := Gibbs.log_one_add_excess (realScore (segParts b : Seg p lengths b → _) (at5 p))
    (phScore (AtomChain.Phantom.atoms : Ph p lengths (hK h) b → _) Semirings.negInf (at5 p))
  unfold BatchDP.ex
  rw [← e]
  exact le_add_of_nonneg_right h1.1

/-- The bound on the error is tiny for `sample`. -/
theorem sample_bounded : Bounded sample (some [4, 3]) 10 ∧ err sample (some [4, 3]) 10 0 ≤ Real.exp (-99000) := by
  constructor
  · refine ⟨by norm_num, ?_⟩
    intro b hb n k c c' hn hk1 hk hc hc'
    have hb : b < 2 := hb
    have hk : k < 3 := hk
    have hc : c < 2 := hc
    have hc' : c' < 2 := hc'
    have hn' : n < 3 := by
      interval_cases b <;> simp [steps, lenOf] at hn <;> omega
    interval_cases b <;> interval_cases n <;> interval_cases k <;> interval_cases c <;> interval_cases c' <;> norm_num [sample, abs_le]
  · have e1 : binN sample = 4 := by
      have : Nat.clog 2 3 = 2 := by decide
      simp [binN, sample, this]
    have e2 : steps sample (some [4, 3]) 0 = 3 := rfl
    rw [err, e1, e2]
    have h1 : ((sample.d3 ^ 2 * (((sample.d2 - 1) * sample.d3) ^ (4 + 1) * 2 ^ 4) : ℕ) : ℝ) = 65536 := by norm_num [sample]
    rw [h1]
    have h2 : (65536 : ℝ) ≤ Real.exp 940 := by
      have h3 : (2 : ℝ) ≤ Real.exp 1 := by have := Real.add_one_le_exp (1 : ℝ); linarith
      have h4 : Real.exp 940 = Real.exp 1 ^ 940 := by rw [← Real.exp_nat_mul]; norm_num
      rw [h4]
      have h5 : (2 : ℝ) ^ 16 ≤ Real.exp 1 ^ 940 := by
        calc (2 : ℝ) ^ 16 ≤ 2 ^ 940 := pow_le_pow_right₀ (by norm_num) (by norm_num)
          _ ≤ _ := pow_le_pow_left₀ (by norm_num) h3 _
      norm_num at h5 ⊢
      exact h5
    calc (65536 : ℝ) * Real.exp (2 * (3 : ℕ) * 10 - 100000) ≤ Real.exp 940 * Real.exp (2 * (3 : ℕ) * 10 - 100000) :=
          mul_le_mul_of_nonneg_right h2 (Real.exp_nonneg _)
      _ = Real.exp (-99000) := by rw [← Real.exp_add]; norm_num

/-! ### C16: lengths -/

/-- The table with the same shape and other entries. -/
def withGet {γ : Type} (p : T5 γ) (g : ℕ → ℕ → ℕ → ℕ → ℕ → γ) : T5 γ := ⟨p.d0, p.d1, p.d2, p.d3, p.d4, g⟩

/-- `g` agrees with `p` on the segments that lie inside the rows. -/
def AgreeInside {γ : Type} (p : T5 γ) (lengths : Option (List ℕ)) (g : ℕ → ℕ → ℕ → ℕ → ℕ → γ) : Prop :=
  ∀ b < p.d0, ∀ n k c c', n + k ≤ steps p lengths b → 1 ≤ k → k < p.d2 → c < p.d3 → c' < p.d3 → p.get b n k c c' = g b n k c c'

/-- `g` agrees with `p` on the segments that start inside the rows. -/
def AgreeStart {γ : Type} (p : T5 γ) (lengths : Option (List ℕ)) (g : ℕ → ℕ → ℕ → ℕ → ℕ → γ) : Prop :=
  ∀ b < p.d0, ∀ n k c c', n < steps p lengths b → 1 ≤ k → k < p.d2 → c < p.d3 → c' < p.d3 → p.get b n k c c' = g b n k c c'

theorem edges_congr {γ δ : Type} {p : T5 γ} {lengths : Option (List ℕ)} {g : ℕ → ℕ → ℕ → ℕ → ℕ → γ} (hg : AgreeInside p lengths g) (b : ℕ) (hb : b < p.d0)
    (y : Seg p lengths b) (F : List γ → δ) :
    F ((segEdges 0 y.1 y.2.1).map fun s => row p b s.1 s.2.1 s.2.2.1 s.2.2.2) =
      F ((segEdges 0 y.1 y.2.1).map fun s => row (withGet p g) b s.1 s.2.1 s.2.2.1 s.2.2.2) := by
  congr 1
  refine List.map_congr_left fun s hs => ?_
  have h1 := segEdges_mem y.2.1 0 y.1 y.2.2.1 s hs
  have h2 := y.2.2.2
  exact hg b hb _ _ _ _ (by omega) h1.2.1 h1.2.2.1 s.2.2.1.2 s.2.2.2.2

/-- **C16** in any commutative semiring: only the potentials of segments inside the row matter. -/
theorem inside_only {R : Type} [CommSemiring R] (p : T5 R) (lengths : Option (List ℕ)) (h : Valid p lengths) (g : ℕ → ℕ → ℕ → ℕ → ℕ → R)
    (hg : AgreeInside p lengths g) :
    logpartition (Semirings.std R) (withGet p g) lengths = logpartition (Semirings.std R) p lengths := by
  rw [sum_any_semiring p lengths h, sum_any_semiring (withGet p g) lengths ⟨h.rows, h.square, h.classes, h.positions, h.segs, h.lens⟩]
  congr 1
  refine List.map_congr_left fun b hb => sum_congr rfl fun y _ => ?_
  exact (edges_congr hg b (List.mem_range.1 hb) y List.prod).symm

/-- **C16** for `partition` exactly: potentials of segments that start at or after the row's last position do not matter. -/
theorem partition_start_only (p : T5 ℝ) (lengths : Option (List ℕ)) (h : Valid p lengths) (g : ℕ → ℕ → ℕ → ℕ → ℕ → ℝ) (hg : AgreeStart p lengths g) :
    Dist.partition algo (withGet p g) lengths = Dist.partition algo p lengths := by
  have D := batchDP p lengths h (hK h)
  have D' := batchDP (withGet p g) lengths ⟨h.rows, h.square, h.classes, h.positions, h.segs, h.lens⟩ (hK (p := p) h)
  refine D'.partition_eq.trans (Eq.trans ?_ D.partition_eq.symm)
  congr 1
  refine List.map_congr_left fun b hb => ?_
  have := D.tot_congr (val' := at5 (withGet p g)) (fun b hb e he => ?_) Semirings.negInf b (List.mem_range.1 hb)
  · rw [this]; rfl
  · obtain ⟨n, k, c, c', rfl, h1, h2, h3⟩ := he
    exact hg b hb n k c c' h1 h2 h3 c.2 c'.2

theorem truth_congr {p : T5 ℝ} {lengths : Option (List ℕ)} {g : ℕ → ℕ → ℕ → ℕ → ℕ → ℝ} (hg : AgreeInside p lengths g) (b : ℕ) (hb : b < p.d0) :
    truth (withGet p g) lengths b = truth p lengths b :=
  congrArg Real.log (sum_congr rfl fun y _ => congrArg Real.exp (edges_congr hg b hb y List.sum).symm)

/-- **C16** for `partition`: potentials of segments that reach past the row's last position change the value by at most `err`. -/
theorem partition_inside_only (p : T5 ℝ) (lengths : Option (List ℕ)) (h : Valid p lengths) (g : ℕ → ℕ → ℕ → ℕ → ℕ → ℝ) (hg : AgreeInside p lengths g)
    {B : ℝ} (hB : Bounded p lengths B) (hB' : Bounded (withGet p g) lengths B) :
    ∃ vs ws, Dist.partition algo p lengths = .ok vs ∧ Dist.partition algo (withGet p g) lengths = .ok ws ∧ vs.length = p.d0 ∧
      ws.length = p.d0 ∧ ∀ b (hv : b < vs.length) (hw : b < ws.length), |vs[b] - ws[b]| ≤ err p lengths B b := by
  obtain ⟨vs, h1, h2, h3⟩ := partition_spec p lengths h hB
  obtain ⟨ws, h4, h5, h6⟩ := partition_spec (withGet p g) lengths ⟨h.rows, h.square, h.classes, h.positions, h.segs, h.lens⟩ hB'
  refine ⟨vs, ws, h1, h4, h2, h5, fun b hv hw => ?_⟩
  have a1 := h3 b hv
  have a2 := h6 b hw
  rw [truth_congr hg b (by omega)] at a2
  have e : err (withGet p g) lengths B b = err p lengths B b := rfl
  rw [e] at a2
  rw [abs_le]
  constructor <;> linarith

/-- The unpadded problem of row `b`: only its first `L` steps. -/
def block {γ : Type} (p : T5 γ) (b L : ℕ) : T5 γ := ⟨1, L, p.d2, p.d3, p.d4, fun _ n k c c' => p.get b n k c c'⟩

/-- **C16** in any commutative semiring: the value of a row with at least one step is the value of the unpadded problem. -/
theorem truncation {R : Type} [CommSemiring R] (p : T5 R) (lengths : Option (List ℕ)) (h : Valid p lengths) :
    ∃ vs, logpartition (Semirings.std R) p lengths = .ok vs ∧ vs.length = p.d0 ∧ ∀ b (hb : b < vs.length), 1 ≤ steps p lengths b →
      logpartition (Semirings.std R) (block p b (steps p lengths b)) none = .ok [vs[b]] := by
  refine ⟨_, sum_any_semiring p lengths h, by simp, fun b hb hs => ?_⟩
  rw [sum_any_semiring (block p b (steps p lengths b)) none ⟨le_rfl, h.square, h.classes, hs, h.segs, trivial⟩]
  rw [getElem_map_range]
  rfl

/-- **C16.** A row without steps has one segmentation for every class, without segments. -/
theorem empty_row {R : Type} [CommSemiring R] (p : T5 R) (lengths : Option (List ℕ)) (h : Valid p lengths) :
    ∃ vs, logpartition (Semirings.std R) p lengths = .ok vs ∧ vs.length = p.d0 ∧ ∀ b (hb : b < vs.length), steps p lengths b = 0 →
      vs[b] = (p.d3 : R) := by
  refine ⟨_, sum_any_semiring p lengths h, by simp, fun b hb hs => ?_⟩
  rw [getElem_map_range]
  have key : ∀ L, L = 0 → ∑ y : Segmentation p.d2 p.d3 L, segWeight (row p b) y = (p.d3 : R) := by
    rintro L rfl
    rw [Fintype.sum_prod_type]
    simp only [segWeight]
    have : ∀ x : Fin p.d3, ∑ l : Segments p.d2 p.d3 0 0, ((segEdges 0 x l.1).map fun s => row p b s.1 s.2.1 s.2.2.1 s.2.2.2).prod = 1 := fun x =>
      (sum_segments_self p.d2 fun l => ((segEdges 0 x l).map fun s => row p b s.1 s.2.1 s.2.2.1 s.2.2.2).prod).trans (by simp [segEdges])
    simp only [this]
    simp
  exact key _ hs

/-- **C16** for `partition`: the value of a row differs from that of the unpadded problem by at most the sum of the two errors. -/
theorem partition_truncation (p : T5 ℝ) (lengths : Option (List ℕ)) (h : Valid p lengths) {B : ℝ} (hB : Bounded p lengths B) :
    ∃ vs, Dist.partition algo p lengths = .ok vs ∧ vs.length = p.d0 ∧ ∀ b (hb : b < vs.length), 1 ≤ steps p lengths b →
      ∃ w, Dist.partition algo (block p b (steps p lengths b)) none = .ok [w] ∧
        |vs[b] - w| ≤ err p lengths B b + err (block p b (steps p lengths b)) none B 0 := by
  obtain ⟨vs, h1, h2, h3⟩ := partition_spec p lengths h hB
  refine ⟨vs, h1, h2, fun b hb hs => ?_⟩
  obtain ⟨ws, h4, h5, h6⟩ := partition_spec (block p b (steps p lengths b)) none ⟨le_rfl, h.square, h.classes, hs, h.segs, trivial⟩ (B := B)
    ⟨hB.nonneg, fun b' _ n k c c' hn => hB.bound b (by omega) n k c c' hn⟩
  have h5 : ws.length = 1 := h5
  obtain ⟨w, rfl⟩ := List.length_eq_one_iff.1 h5
  refine ⟨w, h4, ?_⟩
  have a1 := h3 b hb
  have a2 : truth p lengths b ≤ w ∧ w ≤ truth p lengths b + err (block p b (steps p lengths b)) none B 0 := h6 0 (by simp)
  have e1 : 0 ≤ err p lengths B b := mul_nonneg (Nat.cast_nonneg _) (Real.exp_nonneg _)
  have e2 : 0 ≤ err (block p b (steps p lengths b)) none B 0 := mul_nonneg (Nat.cast_nonneg _) (Real.exp_nonneg _)
  rw [abs_le]
  constructor <;> linarith

/-! ### `count`, `max`, `argmax` -/

/-- `count` is the number of segmentations that use no potential equal to `-∞`. -/
theorem count_spec (p : T5 EReal) (lengths : Option (List ℕ)) (h : Valid p lengths) : Dist.count algo lengths p =
    .ok ((List.range p.d0).map fun b => (((univ : Finset (Seg p lengths b)).filter fun y : Seg p lengths b =>
      ∀ s ∈ segEdges 0 y.1 y.2.1, row p b s.1 s.2.1 s.2.2.1 s.2.2.2 ≠ ⊥).card : ℝ)) := by
  classical
  refine (batchDP p lengths h (hK h)).count_eq.trans ?_
  congr 1
  refine List.map_congr_left fun b _ => ?_
  congr 2
  refine filter_congr fun t _ => ?_
  rw [segParts]
  simp only [Multiset.mem_coe, List.forall_mem_map]
  rfl

theorem beat (h : Valid p lengths) {B : ℝ} (hB : Bounded p lengths B) (hsmall : 2 * p.d1 * B < 100000) (b : ℕ) (hb : b < p.d0)
    (x : Ph p lengths (hK h) b) : ∃ y : Seg p lengths b, phScore AtomChain.Phantom.atoms Semirings.negInf (at5 p) x < realScore (segParts b) (at5 p) y := by
  obtain ⟨y⟩ := seg_nonempty h b
  refine ⟨y, ?_⟩
  rw [realScore_eq]
  have h1 := (ph_le h hB b hb x).1
  have h2 := (abs_le.1 (real_le hB b hb y)).1
  have h3 : (steps p lengths b : ℝ) * B ≤ p.d1 * B :=
    mul_le_mul_of_nonneg_right (by exact_mod_cast (steps_le h b).1) hB.nonneg
  linarith

/-- **C47.** `max` is the score of the best segmentation of each row. -/
theorem max_spec (p : T5 ℝ) (lengths : Option (List ℕ)) (h : Valid p lengths) {B : ℝ} (hB : Bounded p lengths B) (hsmall : 2 * p.d1 * B < 100000) :
    ∃ vs, Dist.max algo p lengths = .ok vs ∧ vs.length = p.d0 ∧
    ∀ b (hb : b < vs.length), (∃ y : Seg p lengths b, vs[b] = segScore (row p b) y) ∧ ∀ y : Seg p lengths b, segScore (row p b) y ≤ vs[b] := by
  have := (batchDP p lengths h (hK h)).max_leaky fun b hb x => (beat h hB hsmall b hb x).imp fun _ hy => hy.le
  simp only [realScore_eq] at this
  exact this

/-- **C47.** `argmax` is, for every row, the 0/1 indicator of the segments of one segmentation, and that one has the highest score, however
ties are broken. -/
theorem argmax_spec (p : T5 ℝ) (lengths : Option (List ℕ)) (h : Valid p lengths) {B : ℝ} (hB : Bounded p lengths B) (hsmall : 2 * p.d1 * B < 100000)
    {pick : List (Autograd.Grad (List ℕ)) → Autograd.Grad (List ℕ)} (hp : Autograd.IsArgmax Prod.fst pick) :
    ∃ μ, Dist.argmax algo p lengths pick = .ok μ ∧ ∀ b < p.d0, ∃ y : Seg p lengths b,
      (∀ y' : Seg p lengths b, segScore (row p b) y' ≤ segScore (row p b) y) ∧
      ∀ n k (c c' : Fin p.d3), μ [b, n, k, (c : ℕ), (c' : ℕ)] = if (n, k, c, c') ∈ segEdges 0 y.1 y.2.1 then 1 else 0 := by
  obtain ⟨μ, h1, h2⟩ := (batchDP p lengths h (hK h)).argmax_leaky (beat h hB hsmall) hp
  refine ⟨μ, h1, fun b hb => ?_⟩
  obtain ⟨t, h3, h4⟩ := h2 b hb
  simp only [realScore_eq] at h3
  refine ⟨t, h3, fun n k c c' => ?_⟩
  rw [h4 _ rfl, count_parts]
  push_cast; rfl

example : 2 * (sample.d1 : ℝ) * 10 < 100000 := by norm_num [sample]

/-! ### Marginals -/

/-- The posterior probability of a segment. -/
def segProb {K C : ℕ} (φ : ℕ → ℕ → ℕ → ℕ → ℝ) (L n k : ℕ) (c c' : Fin C) : ℝ :=
  ∑ y : Segmentation K C L, if (n, k, c, c') ∈ segEdges 0 y.1 y.2.1 then Gibbs.prob (segScore φ) y else 0

theorem links_nodup (p : T5 ℝ) (lengths : Option (List ℕ)) (h : Valid p lengths) (b : ℕ) (x : Ph p lengths (hK h) b) :
    (x.atoms.filterMap Atom.link).Nodup :=
  AtomChain.links_nodup (fun n i j a ha e he => by rw [cell_link ha he]; rfl) x

/-- `marginals` are the posterior probabilities of the segments, up to `err`. -/
theorem marginals_spec (p : T5 ℝ) (lengths : Option (List ℕ)) (h : Valid p lengths) {B : ℝ} (hB : Bounded p lengths B) :
    ∃ μ, Dist.marginals algo p lengths = .ok μ ∧ ∀ b < p.d0, ∀ n k (c c' : Fin p.d3),
      |μ [b, n, k, (c : ℕ), (c' : ℕ)] - segProb (K := p.d2) (row p b) (steps p lengths b) n k c c'| ≤ err p lengths B b := by
  obtain ⟨μ, h1, h2⟩ := (batchDP p lengths h (hK h)).marginals_leaky (fun b _ => seg_nonempty h b) (M := 1)
    (fun b _ e y => by exact_mod_cast Multiset.nodup_iff_count_le_one.1 (segParts_nodup b y) e)
    (fun b _ e y => by exact_mod_cast Multiset.nodup_iff_count_le_one.1 (links_nodup p lengths h b y) e)
  refine ⟨μ, h1, fun b hb n k c c' => ?_⟩
  have h3 := h2 b hb [b, n, k, (c : ℕ), (c' : ℕ)] rfl
  rw [mul_one] at h3
  have e : Gibbs.expect (realScore (segParts b : Seg p lengths b → _) (at5 p)) (fun y => (segParts b y).count [b, n, k, (c : ℕ), (c' : ℕ)]) =
      segProb (K := p.d2) (row p b) (steps p lengths b) n k c c' := by
    rw [Gibbs.expect, segProb]
    refine sum_congr rfl fun t _ => ?_
    rw [count_parts, realScore_eq]
    split_ifs
    · rw [Nat.cast_one, mul_one]
    · rw [Nat.cast_zero, mul_zero]
  rw [← e]
  exact h3.trans (ex_le h hB b hb)

/-- Every step of a segmentation is covered by exactly one segment. -/
theorem cover_unique {C : ℕ} : ∀ (l : List (ℕ × Fin C)) (n : ℕ) (c : Fin C) (m : ℕ), n ≤ m → m < n + (l.map Prod.fst).sum →
    ((segEdges n c l).filter fun s => s.1 ≤ m ∧ m < s.1 + s.2.1).length = 1
  | [], n, c, m, h1, h2 => by simp at h2; omega
  | (k, c') :: l, n, c, m, h1, h2 => by
    simp only [List.map_cons, List.sum_cons] at h2
    simp only [segEdges, List.filter_cons]
    have hlow : ∀ (l : List (ℕ × Fin C)) (n : ℕ) (c : Fin C) (s : ℕ × ℕ × Fin C × Fin C), s ∈ segEdges n c l → n ≤ s.1 := by
      intro l
      induction l with
      | nil => intro n c s hs; simp [segEdges] at hs
      | cons a l ih =>
        intro n c s hs
        simp only [segEdges, List.mem_cons] at hs
        rcases hs with rfl | hs
        · exact le_rfl
        · have := ih _ _ _ hs; omega
    by_cases hm : m < n + k
    · rw [if_pos (by simp; omega)]
      rw [List.length_cons, List.filter_eq_nil_iff.2, List.length_nil]
      intro s hs
      have := hlow _ _ _ _ hs
      simp; omega
    · rw [if_neg (by simp; omega)]
      exact cover_unique l (n + k) c' m (by omega) (by omega)

/-- The possible segments `(start, length, class, previous class)` that cover the step from position `m` to position `m + 1`. -/
def covering (K C m : ℕ) : Finset (ℕ × ℕ × Fin C × Fin C) :=
  (range (m + 1) ×ˢ range K ×ˢ univ ×ˢ univ).filter fun s => m < s.1 + s.2.1

/-- The segments that cover a step have total probability 1. -/
theorem cover_sum {K C : ℕ} (hK : 2 ≤ K) (hC : 1 ≤ C) (φ : ℕ → ℕ → ℕ → ℕ → ℝ) (L m : ℕ) (hm : m < L) :
    ∑ s ∈ covering K C m, segProb (K := K) φ L s.1 s.2.1 s.2.2.1 s.2.2.2 = 1 := by
  classical
  have := nonempty_segments hK hC L
  simp only [segProb]
  rw [sum_comm, ← Gibbs.sum_prob (segScore φ : Segmentation K C L → ℝ)]
  refine sum_congr rfl fun y _ => ?_
  rw [← sum_filter, sum_const, nsmul_eq_mul]
  have hnd : (segEdges 0 y.1 y.2.1).Nodup := by
    have := segParts_nodup 0 y
    rw [segParts, Multiset.coe_nodup] at this
    exact this.of_map
  have e : (covering K C m).filter (fun s => (s.1, s.2.1, s.2.2.1, s.2.2.2) ∈ segEdges 0 y.1 y.2.1) =
      ((segEdges 0 y.1 y.2.1).filter fun s => s.1 ≤ m ∧ m < s.1 + s.2.1).toFinset := by
    ext s
    simp only [covering, mem_filter, mem_product, mem_range, mem_univ, and_true, List.mem_toFinset, List.mem_filter, decide_eq_true_eq]
    constructor
    · rintro ⟨⟨⟨h1, h2⟩, h3⟩, h4⟩; exact ⟨h4, by omega, h3⟩
    · rintro ⟨h1, h2, h3⟩
      have := segEdges_mem y.2.1 0 y.1 y.2.2.1 s h1
      exact ⟨⟨⟨by omega, this.2.2.1⟩, h3⟩, h1⟩
  rw [e, List.toFinset_card_of_nodup (hnd.filter _), cover_unique _ _ _ _ (Nat.zero_le _) (by rw [y.2.2.2]; exact hm)]
  simp

/-- Segments that reach past the row's last position, or have length 0 or at least `K`, have probability 0. -/
theorem outside_prob {K C : ℕ} (φ : ℕ → ℕ → ℕ → ℕ → ℝ) (L n k : ℕ) (c c' : Fin C) (h : L < n + k ∨ k = 0 ∨ K ≤ k) :
    segProb (K := K) φ L n k c c' = 0 := by
  refine sum_eq_zero fun y _ => if_neg fun hc => ?_
  have := segEdges_mem y.2.1 0 y.1 y.2.2.1 _ hc
  have h2 := y.2.2.2
  simp only at this
  omega

/-! ### Entropy, `kmax`, `topk` -/

/-- **C48.** `entropy` is the Shannon entropy of the distribution over the segmentations, up to an explicit error from `zero = -1e5`. -/
theorem entropy_spec (p : T5 ℝ) (lengths : Option (List ℕ)) (h : Valid p lengths) {B : ℝ} (hB : Bounded p lengths B) :
    ∃ vs, Dist.entropy algo p lengths = .ok vs ∧ vs.length = p.d0 ∧ ∀ b (hb : b < vs.length),
      |vs[b] - Gibbs.entropy (segScore (row p b) : Seg p lengths b → ℝ)| ≤
        err p lengths B b * (1 + steps p lengths b * B + binN p * (100000 + B)) := by
  obtain ⟨vs, h1, h2, h3⟩ := (batchDP p lengths h (hK h)).entropy_leaky (fun b _ => seg_nonempty h b)
    (F := fun b => steps p lengths b * B) (fun b hb y => by rw [realScore_eq]; exact real_le hB b hb y)
    (G := fun _ => binN p * (100000 + B)) (fun b hb y => (ph_le h hB b hb y).2)
  refine ⟨vs, h1, h2, fun b hb => ?_⟩
  have h4 := h3 b hb
  rw [realScore_eq] at h4
  refine h4.trans (mul_le_mul_of_nonneg_right (ex_le h hB b (by omega)) ?_)
  have := hB.nonneg
  positivity

theorem small (h : Valid p lengths) {B : ℝ} (hB : Bounded p lengths B) (hsmall : 2 * p.d1 * B < 100000) (b : ℕ) (hb : b < p.d0) :
    BatchDP.Small (at5 p) (Entry p lengths b) (segParts b : Seg p lengths b → _) (AtomChain.Phantom.atoms : Ph p lengths (hK h) b → _) p.d1 B where
  nonneg := hB.nonneg
  bound := by rintro e ⟨n, k, c, c', rfl, h1, h2, h3⟩; exact hB.bound b hb n k c c' h1 h2 h3 c.2 c'.2
  size t := (segParts_card b t).trans (steps_le h b).1
  sizeA y := (AtomChain.size_le (L := steps p lengths b)
    (fun n i j e hn hc => by have := (potE b n i j e hc).1; change steps p lengths b ≤ n at hn; change n < steps p lengths b at this; omega) y.1).trans
    (steps_le h b).1
  small := hsmall
  below := by
    have h2 : (1 : ℝ) ≤ p.d1 := by exact_mod_cast h.positions
    have h3 := hB.nonneg
    nlinarith

/-- **C48.** `kmax(k)` returns the scores of the `k` best segmentations of every row, in decreasing order. -/
theorem kmax_spec (p : T5 ℝ) (lengths : Option (List ℕ)) (h : Valid p lengths) {B : ℝ} (hB : Bounded p lengths B) (hsmall : 2 * p.d1 * B < 100000)
    {k : ℕ} (hk : 0 < k) (hc : ∀ b < p.d0, k ≤ Fintype.card (Seg p lengths b)) :
    ∃ vs, Dist.kmax algo p lengths k = .ok vs ∧ vs.length = p.d0 ∧ ∀ b (hb : b < vs.length), ∃ ys : List (Seg p lengths b),
      IsKBest (segScore (row p b)) k ys ∧ vs[b] = ys.map (segScore (row p b)) := by
  have := (batchDP p lengths h (hK h)).kmax_eq (fun b hb => small h hB hsmall b hb) hk hc
  simp only [realScore_eq] at this
  exact this

/-- **C48.** `topk(k)` returns the indicators of the `k` best segmentations. -/
theorem topk_spec (p : T5 ℝ) (lengths : Option (List ℕ)) (h : Valid p lengths) {B : ℝ} (hB : Bounded p lengths B) (hsmall : 2 * p.d1 * B < 100000)
    {k : ℕ} (hk : 0 < k) (hc : ∀ b < p.d0, k ≤ Fintype.card (Seg p lengths b))
    {sel : List (Autograd.Grad (List ℕ)) → List (Autograd.Grad (List ℕ))} (hsel : Autograd.IsTopk Prod.fst k sel) :
    ∃ μ : ℕ → List ℕ → ℝ, (∀ s < k, Dist.topk algo p lengths k sel s = .ok (μ s)) ∧
      ∀ b < p.d0, ∃ ys : List (Seg p lengths b), IsKBest (segScore (row p b)) k ys ∧
        ∀ s (hs : s < ys.length), ∀ n l (c c' : Fin p.d3), μ s [b, n, l, (c : ℕ), (c' : ℕ)] =
          if (n, l, c, c') ∈ segEdges 0 ys[s].1 ys[s].2.1 then 1 else 0 := by
  obtain ⟨vs, μ, -, h2, h3, h4⟩ := (batchDP p lengths h (hK h)).topk_eq (fun b hb => small h hB hsmall b hb) hk hc hsel
  refine ⟨μ, h3, fun b hb => ?_⟩
  obtain ⟨ts, a1, -, a3⟩ := h4 b (by omega)
  rw [realScore_eq] at a1
  refine ⟨ts, a1, fun s hs n l c c' => ?_⟩
  rw [a3 s hs _ rfl, count_parts]
  push_cast; rfl

/-- `sample` has enough segmentations for `k = 2`. -/
example : ∀ b < sample.d0, 2 ≤ Fintype.card (Seg sample (some [4, 3]) b) := by
  intro b hb
  have := nonempty_segments (K := 3) (C := 2) (by decide) (by decide) (steps sample (some [4, 3]) b)
  obtain ⟨y⟩ := this
  have h1 : Fintype.card (Fin 2) ≤ Fintype.card (Segmentation 3 2 (steps sample (some [4, 3]) b)) :=
    Fintype.card_le_of_injective (fun c => (c, y.2)) fun c c' he => (Prod.mk.inj he).1
  exact h1

/-! ### `log_prob` -/

/-- The event of a segmentation, one row. -/
def event {K C L : ℕ} (y : Segmentation K C L) (n k c c' : ℕ) : ℝ :=
  if (n, k, c, c') ∈ (segEdges 0 y.1 y.2.1).map fun s => (s.1, s.2.1, (s.2.2.1 : ℕ), (s.2.2.2 : ℕ)) then 1 else 0

theorem indices_nodup (a b c d : ℕ) : ((List.range a).flatMap fun n => (List.range b).flatMap fun k => (List.range c).flatMap fun i =>
    (List.range d).map fun j => (n, k, i, j)).Nodup := by
  refine flatMap_range_nodup _ _ (fun x => x.1) (fun n => ?_) fun n y hy => ?_
  · refine flatMap_range_nodup _ _ (fun x => x.2.1) (fun k => ?_) fun k y hy => ?_
    · refine flatMap_range_nodup _ _ (fun x => x.2.2.1) (fun i => ?_) fun i y hy => ?_
      · exact List.Nodup.map (fun j j' hj => by simpa using hj) List.nodup_range
      · simp only [List.mem_map] at hy
        obtain ⟨j, -, rfl⟩ := hy; rfl
    · simp only [List.mem_flatMap, List.mem_map] at hy
      obtain ⟨i, -, j, -, rfl⟩ := hy; rfl
  · simp only [List.mem_flatMap, List.mem_map] at hy
    obtain ⟨k, -, i, -, j, -, rfl⟩ := hy; rfl

theorem mem_indices (a b c d : ℕ) (x : ℕ × ℕ × ℕ × ℕ) : x ∈ ((List.range a).flatMap fun n => (List.range b).flatMap fun k =>
    (List.range c).flatMap fun i => (List.range d).map fun j => (n, k, i, j)) ↔ x.1 < a ∧ x.2.1 < b ∧ x.2.2.1 < c ∧ x.2.2.2 < d := by
  obtain ⟨n, k, i, j⟩ := x
  simp only [List.mem_flatMap, List.mem_map, List.mem_range, Prod.mk.injEq]
  constructor
  · rintro ⟨n', hn, k', hk, i', hi, j', hj, rfl, rfl, rfl, rfl⟩; exact ⟨hn, hk, hi, hj⟩
  · rintro ⟨hn, hk, hi, hj⟩; exact ⟨n, hn, k, hk, i, hi, j, hj, rfl, rfl, rfl, rfl⟩

theorem zipWith_map {X : Type} (l : List X) (f g : X → ℝ) : Struct.score (l.map f) (l.map g) = (l.map fun x => f x * g x).sum := by
  rw [Struct.score, CKYCRFProofs.zipWith_map]

/-- **C08 for `SemiMarkovCRF`.** `log_prob` of the event of a segmentation is its score minus the partition value. -/
theorem logProb_spec (p : T5 ℝ) (lengths : Option (List ℕ)) (h : Valid p lengths) (b : ℕ) (y : Seg p lengths b)
    {vs : List ℝ} (hv : Dist.partition algo p lengths = .ok vs) :
    logProb p lengths b (event y) = .ok (segScore (row p b) y - vs.getD b 0) := by
  simp only [logProb]
  rw [hv]
  change Except.ok _ = _
  congr 2
  rw [zipWith_map]
  refine (sum_indicator _ ((segEdges 0 y.1 y.2.1).map fun s => (s.1, s.2.1, (s.2.2.1 : ℕ), (s.2.2.2 : ℕ))) (indices_nodup _ _ _ _) ?_ ?_
    (fun x : ℕ × ℕ × ℕ × ℕ => p.get b x.1 x.2.1 x.2.2.1 x.2.2.2) _ (fun x hx => if_pos hx) fun x hx => if_neg hx).trans ?_
  · have hnd : (segEdges 0 y.1 y.2.1).Nodup := by
      have := segParts_nodup 0 y
      rw [segParts, Multiset.coe_nodup] at this
      exact this.of_map
    refine List.Nodup.map ?_ hnd
    rintro ⟨n, k, c, c'⟩ ⟨n', k', d, d'⟩ h
    simp only [Prod.mk.injEq] at h
    obtain ⟨rfl, rfl, h, h'⟩ := h
    rw [Fin.ext h, Fin.ext h']
  · intro x hx
    rw [List.mem_map] at hx
    obtain ⟨s, hs, rfl⟩ := hx
    rw [mem_indices]
    have h1 := segEdges_mem y.2.1 0 y.1 y.2.2.1 s hs
    have h2 := y.2.2.2
    have h3 := (steps_le h b).1
    have h4 := h.square
    change steps p lengths b ≤ p.d1 at h3
    refine ⟨by simp only; omega, h1.2.2.1, s.2.2.1.2, ?_⟩
    rw [← h4]; exact s.2.2.2.2
  · rw [List.map_map]; rfl

/-- **C08 for `SemiMarkovCRF`.** The probabilities that `log_prob` gives to the segmentations of a row add up to 1, up to `err`. -/
theorem logProb_normalised (p : T5 ℝ) (lengths : Option (List ℕ)) (h : Valid p lengths) {B : ℝ} (hB : Bounded p lengths B) (b : ℕ) (hb : b < p.d0) :
    ∃ lp : Seg p lengths b → ℝ, (∀ y, logProb p lengths b (event y) = .ok (lp y)) ∧
      ∑ y, Real.exp (lp y) ≤ 1 ∧ 1 - err p lengths B b ≤ ∑ y, Real.exp (lp y) := by
  obtain ⟨vs, h1, h2, h3⟩ := partition_spec p lengths h hB
  refine ⟨_, fun y => logProb_spec p lengths h b y h1, ?_⟩
  have h4 := h3 b (by omega)
  rw [List.getD_eq_getElem _ _ (by omega)]
  have hne := seg_nonempty h b
  have e : ∑ y : Seg p lengths b, Real.exp (segScore (row p b) y - vs[b]) = Real.exp (truth p lengths b - vs[b]) := by
    simp only [Real.exp_sub]
    rw [← sum_div, truth, Real.exp_log]
    exact sum_pos (fun y _ => Real.exp_pos _) univ_nonempty
  rw [e]
  constructor
  · rw [Real.exp_le_one_iff]; linarith
  · have := Real.add_one_le_exp (truth p lengths b - vs[b])
    linarith

/-! ### Sampling -/

open Classical in
/-- The batch of events of a batch of segmentations. -/
def batchEvent {B K C : ℕ} {L : Fin B → ℕ} (Y : ∀ b, Segmentation K C (L b)) (id : List ℕ) : ℕ :=
  if ∃ (b : Fin B) (n k : ℕ) (c c' : Fin C), id = [(b : ℕ), n, k, (c : ℕ), (c' : ℕ)] ∧ (n, k, c, c') ∈ segEdges 0 (Y b).1 (Y b).2.1 then 1 else 0

theorem sum_event {B K C : ℕ} {L : Fin B → ℕ} (Y : ∀ b, Segmentation K C (L b)) (id : List ℕ) :
    ∑ b : Fin B, (segParts b (Y b)).count id = batchEvent Y id := by
  classical
  rw [sum_count_event (fun b : Fin B => (segParts b : Segmentation K C (L b) → _)) (fun b y => segParts_nodup b y) ?_ Y, batchEvent]
  · congr 1
    rw [eq_iff_iff]
    refine exists_congr fun b => ?_
    rw [segParts, Multiset.mem_coe, List.mem_map]
    constructor
    · rintro ⟨⟨n, k, c, c'⟩, hs, rfl⟩; exact ⟨n, k, c, c', rfl, hs⟩
    · rintro ⟨n, k, c, c', rfl, hs⟩; exact ⟨_, hs, rfl⟩
  · intro b y e he
    rw [segParts, Multiset.mem_coe, List.mem_map] at he
    obtain ⟨s, -, rfl⟩ := he; rfl

/-- **C12, C50 for `SemiMarkovCRF`.** One backward pass of `SampledSemiring` draws, for every row independently, a segmentation from the
row's distribution and returns its event; `sample((n,))` returns `n` independent batches of such events.  The deviation from the exact law is
at most the sum of the errors of the rows. -/
theorem sample_law (p : T5 ℝ) (lengths : Option (List ℕ)) (h : Valid p lengths) {B : ℝ} (hB : Bounded p lengths B) :
    ∃ es, Sampling.record algo (-100000) p lengths = .ok es ∧ es.length = p.d0 ∧
      SamplesFrom es (fun Y : ∀ b : Fin p.d0, Seg p lengths b => ∏ b : Fin p.d0, Gibbs.prob (segScore (row p b)) (Y b)) batchEvent
        (∑ b : Fin p.d0, err p lengths B b) ∧
      MultiSamplesFrom es (fun Y : ∀ b : Fin p.d0, Seg p lengths b => ∏ b : Fin p.d0, Gibbs.prob (segScore (row p b)) (Y b)) batchEvent
        (∑ b : Fin p.d0, err p lengths B b) := by
  have := (batchDP p lengths h (hK h)).samples_leaky (fun b _ => seg_nonempty h b) (fun b _ t => segParts_nodup b t)
    (fun b _ x => links_nodup p lengths h b x) batchEvent sum_event
    (sum_le_sum fun (b : Fin p.d0) _ => ex_le h hB b b.2)
  simp only [realScore_eq] at this
  exact this

/-- The hypotheses of `SamplesFrom` and `MultiSamplesFrom` can be met. -/
example (es : List Sampling.Expr) : ∃ (K : Type) (_ : Fintype K) (_ : DecidableEq K)
    (T : ℕ → Sampling.Tape K) (obj : ℕ → K) (Ω : Type) (_ : MeasurableSpace Ω) (P : MeasureTheory.Measure Ω)
    (_ : MeasureTheory.IsProbabilityMeasure P) (X : ℕ → ℕ → K → Ω → ℕ) (G G' : ℕ → Ω → K → ℕ),
    (∀ r, Sampling.Repr (T r) (Sampling.batchSum es) (obj r)) ∧ MultiDraws T P X ∧
    (∀ r ω, Sampling.IsBackward (Sampling.sendMulti (T r) fun j k => X r j k ω) (obj r) (G r ω)) ∧
    (∀ j ω, Sampling.IsBackward (Sampling.sendOne (T 0) fun k => X 0 j k ω) (obj 0) (G' j ω)) :=
  Sampling.passes_exist _

/-- `cross_entropy` and `kl` raise `AttributeError` for this model. -/
theorem crossEntropy_kl_fail (p q : T5 ℝ) (lengths : Option (List ℕ)) :
    crossEntropy p q lengths = .error .attribute ∧ kl p q lengths = .error .attribute := ⟨rfl, rfl⟩

end Props.SemiMarkov
