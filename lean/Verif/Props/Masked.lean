import Mathlib.Tactic.IntervalCases
import Mathlib.Tactic.FinCases
import Verif.Proofs.Masked
import Verif.Spec.Masked
import Verif.Props.SemiMarkov
import Verif.Props.TreeCRF
import Verif.Props.Dependency
import Verif.Props.SentCFG

/-! Property theorems, C104: forbidden segments, spans, arcs and grammar rules are never used.

Users forbid a part of a structure by giving it a very negative potential (`log_potentials[:, :, :3] = -1e9` in the documentation forbids short
segments).  `A` says which parts are allowed; allowed potentials are bounded by `B`, all others are at most `-1e5`. -/

open Finset Spec Generic

noncomputable section

/-! ### Segmentations -/

namespace Props.MaskedSegments
open SemiMarkovProofs hiding Valid steps
open Props.SemiMarkov hiding sample
open _root_.SemiMarkov (algo)

/-- `A b start length class previous` says which segments of row `b` are allowed. -/
structure Masked (p : T5 ℝ) (lengths : Option (List ℕ)) (A : ℕ → ℕ → ℕ → ℕ → ℕ → Prop) (B : ℝ) : Prop where
  nonneg : 0 ≤ B
  allowed : ∀ b < p.d0, ∀ n k c c', n < steps p lengths b → 1 ≤ k → k < p.d2 → c < p.d3 → c' < p.d3 → A b n k c c' → |p.get b n k c c'| ≤ B
  forbidden : ∀ b < p.d0, ∀ n k c c', n < steps p lengths b → 1 ≤ k → k < p.d2 → c < p.d3 → c' < p.d3 → ¬ A b n k c c' → p.get b n k c c' ≤ -100000
  small : 2 * p.d1 * B < 100000

/-- The segmentations of row `b` with allowed segments only. -/
abbrev Allowed (p : T5 ℝ) (lengths : Option (List ℕ)) (A : ℕ → ℕ → ℕ → ℕ → ℕ → Prop) (b : ℕ) : Type := {y : Seg p lengths b // SegAllowed (A b) y}

/-- The score of an allowed segmentation. -/
def score (p : T5 ℝ) (lengths : Option (List ℕ)) (A : ℕ → ℕ → ℕ → ℕ → ℕ → Prop) (b : ℕ) (y : Allowed p lengths A b) : ℝ := segScore (row p b) y.1

/-- How much the forbidden segments and the stand-in can change in row `b`: (number of segmentations and of paths through the scan) ·
exp(2 · steps · B - 1e5). -/
def err (p : T5 ℝ) (lengths : Option (List ℕ)) (B : ℝ) (b : ℕ) : ℝ :=
  (Fintype.card (Seg p lengths b) + p.d3 ^ 2 * (((p.d2 - 1) * p.d3) ^ (binN p + 1) * 2 ^ binN p) : ℕ) *
    Real.exp (2 * steps p lengths b * B - 100000)

variable {p : T5 ℝ} {lengths : Option (List ℕ)} {A : ℕ → ℕ → ℕ → ℕ → ℕ → Prop} {B : ℝ}

theorem maskRow (h : Valid p lengths) (hm : Masked p lengths A B) (b : ℕ) (hb : b < p.d0) :
    MaskRow (at5 p) (Entry p lengths b) (fun e => ∀ n k c c', e = [b, n, k, c, c'] → A b n k c c') (segParts b : Seg p lengths b → _)
      (AtomChain.Phantom.atoms : Ph p lengths (hK h) b → _) (SegAllowed (A b)) (steps p lengths b) B where
  nonneg := hm.nonneg
  allowed := by
    rintro e ⟨n, k, c, c', rfl, h1, h2, h3⟩ hA
    exact hm.allowed b hb n k c c' h1 h2 h3 c.2 c'.2 (hA _ _ _ _ rfl)
  forbidden := by
    rintro e ⟨n, k, c, c', rfl, h1, h2, h3⟩ hA
    refine hm.forbidden b hb n k c c' h1 h2 h3 c.2 c'.2 fun hc => hA fun n' k' d d' he => ?_
    simp only [entry, List.cons.injEq, and_true, true_and] at he
    obtain ⟨rfl, rfl, rfl, rfl⟩ := he
    exact hc
  size := segParts_card b
  sizeA y := AtomChain.size_le (L := steps p lengths b)
    (fun n i j e hn hc => by have := (potE b n i j e hc).1; change steps p lengths b ≤ n at hn; change n < steps p lengths b at this; omega) y.1
  small := by
    have h3 : (steps p lengths b : ℝ) * B ≤ p.d1 * B := mul_le_mul_of_nonneg_right (by exact_mod_cast (steps_le h b).1) hm.nonneg
    have := hm.small
    linarith
  iff y := by
    rw [segParts]
    simp only [Multiset.mem_coe, List.forall_mem_map, SegAllowed]
    refine forall₂_congr fun s _ => ⟨fun hA n k c c' he => ?_, fun hA => hA _ _ _ _ rfl⟩
    simp only [entry, List.cons.injEq, and_true, true_and] at he
    obtain ⟨rfl, rfl, rfl, rfl⟩ := he
    exact hA

theorem score_eq (b : ℕ) : (fun y : Allowed p lengths A b => realScore (segParts b) (at5 p) y.1) = score p lengths A b := by
  funext y; rw [realScore_eq]; rfl

/-- **C104.** `max` and `argmax` are those of the allowed segmentations: the best of them, whatever the forbidden potentials are. -/
theorem argmax_spec (p : T5 ℝ) (lengths : Option (List ℕ)) (h : Valid p lengths) {A : ℕ → ℕ → ℕ → ℕ → ℕ → Prop} {B : ℝ}
    (hm : Masked p lengths A B) (hne : ∀ b < p.d0, Nonempty (Allowed p lengths A b))
    {pick : List (Autograd.Grad (List ℕ)) → Autograd.Grad (List ℕ)} (hp : Autograd.IsArgmax Prod.fst pick) :
    ∃ μ vs, Dist.argmax algo p lengths pick = .ok μ ∧ Dist.max algo p lengths = .ok vs ∧ vs.length = p.d0 ∧ ∀ b (hb : b < vs.length),
      ∃ y : Allowed p lengths A b, vs[b] = score p lengths A b y ∧ (∀ y', score p lengths A b y' ≤ vs[b]) ∧
        ∀ n k (c c' : Fin p.d3), μ [b, n, k, (c : ℕ), (c' : ℕ)] = if (n, k, c, c') ∈ segEdges 0 y.1.1 y.1.2.1 then 1 else 0 := by
  obtain ⟨μ, vs, h1, h2, h3, h4⟩ := (batchDP p lengths h (hK h)).argmax_masked (dq := fun b => (inferInstance : DecidablePred (SegAllowed (A b) : Seg p lengths b → Prop)))
      (fun b hb => maskRow h hm b hb) hne hp
  refine ⟨μ, vs, h1, h2, h3, fun b hb => ?_⟩
  obtain ⟨y, a1, a2, a3⟩ := h4 b hb
  refine ⟨y, a1.trans (congrFun (score_eq b) y), fun y' => (congrFun (score_eq b) y').symm.trans_le (a2 y'), fun n k c c' => ?_⟩
  rw [a3 _ rfl]
  refine (congrArg Nat.cast (count_parts b y.1 n k c c')).trans ?_
  push_cast; rfl

/-- **C104.** `kmax` and `topk` return the `k` best allowed segmentations, if there are that many. -/
theorem topk_spec (p : T5 ℝ) (lengths : Option (List ℕ)) (h : Valid p lengths) {A : ℕ → ℕ → ℕ → ℕ → ℕ → Prop} {B : ℝ}
    (hm : Masked p lengths A B) {k : ℕ} (hk : 0 < k) (hc : ∀ b < p.d0, k ≤ Fintype.card (Allowed p lengths A b))
    {sel : List (Autograd.Grad (List ℕ)) → List (Autograd.Grad (List ℕ))} (hsel : Autograd.IsTopk Prod.fst k sel) :
    ∃ (vs : List (List ℝ)) (μ : ℕ → List ℕ → ℝ), Dist.kmax algo p lengths k = .ok vs ∧ vs.length = p.d0 ∧
      (∀ s < k, Dist.topk algo p lengths k sel s = .ok (μ s)) ∧ ∀ b (hb : b < vs.length), ∃ ys : List (Allowed p lengths A b),
        IsKBest (score p lengths A b) k ys ∧ vs[b] = ys.map (score p lengths A b) ∧
        ∀ s (hs : s < ys.length), ∀ n l (c c' : Fin p.d3), μ s [b, n, l, (c : ℕ), (c' : ℕ)] =
          if (n, l, c, c') ∈ segEdges 0 ys[s].1.1 ys[s].1.2.1 then 1 else 0 := by
  obtain ⟨vs, μ, h1, h2, h3, h4⟩ := (batchDP p lengths h (hK h)).topk_masked (dq := fun b => (inferInstance : DecidablePred (SegAllowed (A b) : Seg p lengths b → Prop)))
      (fun b hb => maskRow h hm b hb) hk hc hsel
  refine ⟨vs, μ, h1, h2, h3, fun b hb => ?_⟩
  obtain ⟨ys, a1, a2, a3⟩ := h4 b hb
  have e := score_eq (p := p) (lengths := lengths) (A := A) b
  refine ⟨ys, e ▸ a1, e ▸ a2, fun s hs n l c c' => ?_⟩
  rw [a3 s hs _ rfl]
  refine (congrArg Nat.cast (count_parts b ys[s].1 n l c c')).trans ?_
  push_cast; rfl

theorem err_ge (h : Valid p lengths) (b : ℕ) :
    (Fintype.card (Seg p lengths b) + Fintype.card (Ph p lengths (hK h) b) : ℕ) * Real.exp (2 * steps p lengths b * B - 100000) ≤ err p lengths B b := by
  rw [err]
  refine mul_le_mul_of_nonneg_right ?_ (Real.exp_nonneg _)
  exact_mod_cast Nat.add_le_add_left (AtomChain.card_phantom_le (st := finals p (hK h)) (cell := cells p lengths b) (M := 2 ^ Nat.clog 2 p.d1)
      (fun n i j => cell_length _ _ _ _ _ _ i j)) _

/-- **C104.** `partition` is the log of the sum over the allowed segmentations, up to `err`. -/
theorem partition_spec (p : T5 ℝ) (lengths : Option (List ℕ)) (h : Valid p lengths) {A : ℕ → ℕ → ℕ → ℕ → ℕ → Prop} {B : ℝ}
    (hm : Masked p lengths A B) (hne : ∀ b < p.d0, Nonempty (Allowed p lengths A b)) :
    ∃ vs, Dist.partition algo p lengths = .ok vs ∧ vs.length = p.d0 ∧ ∀ b (hb : b < vs.length),
      Real.log (∑ y : Allowed p lengths A b, Real.exp (score p lengths A b y)) ≤ vs[b] ∧
      vs[b] ≤ Real.log (∑ y : Allowed p lengths A b, Real.exp (score p lengths A b y)) + err p lengths B b := by
  obtain ⟨vs, h1, h2, h3⟩ := (batchDP p lengths h (hK h)).partition_masked (dq := fun b => (inferInstance : DecidablePred (SegAllowed (A b) : Seg p lengths b → Prop)))
      (fun b hb => maskRow h hm b hb) hne
  refine ⟨vs, h1, h2, fun b hb => ?_⟩
  have := h3 b hb
  rw [realScore_eq] at this
  exact ⟨this.1, this.2.trans (add_le_add_right (err_ge h b) _)⟩

/-- **C104.** `marginals` are the posterior probabilities among the allowed segmentations, up to `err`; those of forbidden segments are at
most `err`. -/
theorem marginals_spec (p : T5 ℝ) (lengths : Option (List ℕ)) (h : Valid p lengths) {A : ℕ → ℕ → ℕ → ℕ → ℕ → Prop} {B : ℝ}
    (hm : Masked p lengths A B) (hne : ∀ b < p.d0, Nonempty (Allowed p lengths A b)) :
    ∃ μ, Dist.marginals algo p lengths = .ok μ ∧ ∀ b < p.d0, ∀ n k (c c' : Fin p.d3),
      |μ [b, n, k, (c : ℕ), (c' : ℕ)] - Gibbs.expect (score p lengths A b) fun y => if (n, k, c, c') ∈ segEdges 0 y.1.1 y.1.2.1 then 1 else 0|
        ≤ err p lengths B b ∧ (¬ A b n k c c' → |μ [b, n, k, (c : ℕ), (c' : ℕ)]| ≤ err p lengths B b) := by
  obtain ⟨μ, h1, h2⟩ := (batchDP p lengths h (hK h)).marginals_masked (dq := fun b => (inferInstance : DecidablePred (SegAllowed (A b) : Seg p lengths b → Prop)))
      (fun b hb => maskRow h hm b hb) hne (c := 1)
    (fun b _ e y => Multiset.nodup_iff_count_le_one.1 (segParts_nodup b y) e)
    (fun b _ e y => Multiset.nodup_iff_count_le_one.1 (links_nodup p lengths h b y) e)
  refine ⟨μ, h1, fun b hb n k c c' => ?_⟩
  have h3 := h2 b hb [b, n, k, (c : ℕ), (c' : ℕ)] rfl
  rw [Nat.cast_one, mul_one] at h3
  have e : (fun y : Allowed p lengths A b => ((segParts b y.1).count [b, n, k, (c : ℕ), (c' : ℕ)] : ℝ)) =
      fun y => if (n, k, c, c') ∈ segEdges 0 y.1.1 y.1.2.1 then 1 else 0 := by
    funext y
    refine (congrArg Nat.cast (count_parts b y.1 n k c c')).trans ?_
    push_cast; rfl
  have key : |μ [b, n, k, (c : ℕ), (c' : ℕ)] - Gibbs.expect (score p lengths A b)
      fun y => if (n, k, c, c') ∈ segEdges 0 y.1.1 y.1.2.1 then 1 else 0| ≤ err p lengths B b := by
    rw [← e, ← score_eq]
    exact h3.trans (err_ge h b)
  refine ⟨key, fun hA => ?_⟩
  have : (fun y : Allowed p lengths A b => if (n, k, c, c') ∈ segEdges 0 y.1.1 y.1.2.1 then (1 : ℝ) else 0) = fun _ => 0 := by
    funext y
    exact if_neg fun hc => hA (y.2 _ hc)
  rw [this, Gibbs.expect] at key
  simpa using key

/-- Concrete potentials, as in the documentation: segments of length 1 are forbidden with `-1e9`. -/
def sample : T5 ℝ := ⟨1, 4, 4, 2, 2, fun _ n k c c' => if k < 2 then -1000000000 else (n : ℝ) - k + c - 2 * c'⟩

/-- Segments have at least two steps. -/
def longOnly (_ _ k _ _ : ℕ) : Prop := 2 ≤ k

/-- The hypotheses are met, and there are two allowed segmentations at least. -/
example : Valid sample none ∧ Masked sample none longOnly 10 ∧ (∀ b < sample.d0, Nonempty (Allowed sample none longOnly b)) ∧
    ∀ b < sample.d0, 2 ≤ Fintype.card (Allowed sample none longOnly b) := by
  have mk : ∀ c : Fin 2, ∀ b, ∃ y : Allowed sample none longOnly b, y.1.1 = c := by
    intro c b
    refine ⟨⟨(c, ⟨[(2, (0 : Fin 2)), (2, (1 : Fin 2))], ?_, ?_⟩), ?_⟩, rfl⟩
    · intro s hs
      simp only [List.mem_cons, List.not_mem_nil, or_false] at hs
      rcases hs with rfl | rfl <;> decide
    · rfl
    · intro s hs
      simp only [segEdges, List.mem_cons, List.not_mem_nil, or_false] at hs
      rcases hs with rfl | rfl <;> exact (show 2 ≤ 2 from le_rfl)
  refine ⟨⟨by decide, rfl, by decide, by decide, by decide, trivial⟩, ⟨by norm_num, ?_, ?_, by norm_num [sample]⟩, fun b _ => (mk 0 b).nonempty, ?_⟩
  · intro b hb n k c c' hn _ hk hc hc' hA
    have hk : k < 4 := hk
    have hc : c < 2 := hc
    have hc' : c' < 2 := hc'
    have hA : 2 ≤ k := hA
    have hn : n < 4 := hn
    simp only [sample]
    rw [if_neg (by omega)]
    interval_cases n <;> interval_cases k <;> interval_cases c <;> interval_cases c' <;> norm_num [abs_le]
  · intro b hb n k c c' hn _ hk hc hc' hA
    have hA : ¬ 2 ≤ k := hA
    simp only [sample]
    rw [if_pos (by omega)]; norm_num
  · intro b _
    choose f hf using fun c => mk c b
    have : Fintype.card (Fin 2) ≤ Fintype.card (Allowed sample none longOnly b) :=
      Fintype.card_le_of_injective f fun c c' he => by rw [← hf c, ← hf c', he]
    exact this

end Props.MaskedSegments

/-! ### Binary trees -/

namespace Props.MaskedSpans
open CKYCRFProofs hiding Valid
open Props.TreeCRF hiding sample
open CKYCRF (algo)

/-- `A b first last label` says which spans of row `b` are allowed. -/
structure Masked (p : T4 ℝ) (lengths : Option (List ℕ)) (A : ℕ → ℕ → ℕ → ℕ → Prop) (B : ℝ) : Prop where
  nonneg : 0 ≤ B
  allowed : ∀ b < p.d0, ∀ i j a, i ≤ j → j < len p lengths b → a < p.d3 → A b i j a → |p.get b i j a| ≤ B
  forbidden : ∀ b < p.d0, ∀ i j a, i ≤ j → j < len p lengths b → a < p.d3 → ¬ A b i j a → p.get b i j a ≤ -100000
  small : 2 * (2 * p.d1 - 1 : ℕ) * B < 100000

/-- The trees of row `b` with allowed spans only. -/
abbrev Allowed (p : T4 ℝ) (lengths : Option (List ℕ)) (A : ℕ → ℕ → ℕ → ℕ → Prop) (b : ℕ) : Type :=
  {t : Trees p.d3 (len p lengths b) // TreeAllowed (A b) t}

/-- The score of an allowed tree. -/
def score (p : T4 ℝ) (lengths : Option (List ℕ)) (A : ℕ → ℕ → ℕ → ℕ → Prop) (b : ℕ) (t : Allowed p lengths A b) : ℝ := treeScore (row p b) t.1

/-- How much the forbidden spans can change in row `b`: (number of trees) · exp(2 · spans · B - 1e5). -/
def err (p : T4 ℝ) (lengths : Option (List ℕ)) (B : ℝ) (b : ℕ) : ℝ :=
  Fintype.card (Trees p.d3 (len p lengths b)) * Real.exp (2 * (2 * p.d1 - 1 : ℕ) * B - 100000)

variable {p : T4 ℝ} {lengths : Option (List ℕ)} {A : ℕ → ℕ → ℕ → ℕ → Prop} {B : ℝ}

theorem maskRow (h : Valid p lengths) (hm : Masked p lengths A B) (b : ℕ) (hb : b < p.d0) :
    MaskRow (at4 p) (Entry p.d1 p.d3 lengths b) (fun e => ∀ i j a, e = [b, i, j, a] → A b i j a) (treeParts b : Trees p.d3 (len p lengths b) → _)
      (fun y : Empty => y.elim) (TreeAllowed (A b)) (2 * p.d1 - 1) B where
  nonneg := hm.nonneg
  allowed := by
    rintro e ⟨i, j, a, rfl, h1, h2, h3⟩ hA
    exact hm.allowed b hb i j a h1 h2 h3 (hA _ _ _ rfl)
  forbidden := by
    rintro e ⟨i, j, a, rfl, h1, h2, h3⟩ hA
    refine hm.forbidden b hb i j a h1 h2 h3 fun hc => hA fun i' j' a' he => ?_
    simp only [List.cons.injEq, and_true, true_and] at he
    obtain ⟨rfl, rfl, rfl⟩ := he
    exact hc
  size t := by
    rw [treeParts_card]
    have := (len_in h.words h.lens b hb).2
    simp only [len]; omega
  sizeA y := y.elim
  small := hm.small
  iff t := by
    rw [treeParts]
    simp only [Multiset.mem_coe, List.forall_mem_map, TreeAllowed]
    refine forall₂_congr fun s _ => ⟨fun hA i j a he => ?_, fun hA => hA _ _ _ rfl⟩
    simp only [List.cons.injEq, and_true, true_and] at he
    obtain ⟨rfl, rfl, rfl⟩ := he
    exact hA

theorem score_eq (b : ℕ) : (fun t : Allowed p lengths A b => realScore (treeParts b) (at4 p) t.1) = score p lengths A b := by
  funext y; rw [realScore_eq]; rfl

/-- **C104.** `max` and `argmax` of `TreeCRF` are those of the trees without forbidden spans. -/
theorem argmax_spec (p : T4 ℝ) (lengths : Option (List ℕ)) (h : Valid p lengths) {A : ℕ → ℕ → ℕ → ℕ → Prop} {B : ℝ}
    (hm : Masked p lengths A B) (hne : ∀ b < p.d0, Nonempty (Allowed p lengths A b))
    {pick : List (Autograd.Grad (List ℕ)) → Autograd.Grad (List ℕ)} (hp : Autograd.IsArgmax Prod.fst pick) :
    ∃ μ vs, Dist.argmax algo p lengths pick = .ok μ ∧ Dist.max algo p lengths = .ok vs ∧ vs.length = p.d0 ∧ ∀ b (hb : b < vs.length),
      ∃ t : Allowed p lengths A b, vs[b] = score p lengths A b t ∧ (∀ t', score p lengths A b t' ≤ vs[b]) ∧
        ∀ i j (a : Fin p.d3), μ [b, i, j, (a : ℕ)] = if (i, j, a) ∈ t.1.1.spans 0 then 1 else 0 := by
  obtain ⟨μ, vs, h1, h2, h3, h4⟩ := (batchDP p lengths h).argmax_masked (dq := fun b => (inferInstance : DecidablePred (TreeAllowed (A b) : Trees p.d3 (len p lengths b) → Prop)))
      (fun b hb => maskRow h hm b hb) hne hp
  refine ⟨μ, vs, h1, h2, h3, fun b hb => ?_⟩
  obtain ⟨y, a1, a2, a3⟩ := h4 b hb
  refine ⟨y, a1.trans (congrFun (score_eq b) y), fun y' => (congrFun (score_eq b) y').symm.trans_le (a2 y'), fun i j a => ?_⟩
  rw [a3 _ rfl]
  refine (congrArg Nat.cast (count_parts b y.1 i j a)).trans ?_
  push_cast; rfl

/-- **C104.** `kmax` and `topk` return the `k` best trees without forbidden spans, if there are that many. -/
theorem topk_spec (p : T4 ℝ) (lengths : Option (List ℕ)) (h : Valid p lengths) {A : ℕ → ℕ → ℕ → ℕ → Prop} {B : ℝ}
    (hm : Masked p lengths A B) {k : ℕ} (hk : 0 < k) (hc : ∀ b < p.d0, k ≤ Fintype.card (Allowed p lengths A b))
    {sel : List (Autograd.Grad (List ℕ)) → List (Autograd.Grad (List ℕ))} (hsel : Autograd.IsTopk Prod.fst k sel) :
    ∃ (vs : List (List ℝ)) (μ : ℕ → List ℕ → ℝ), Dist.kmax algo p lengths k = .ok vs ∧ vs.length = p.d0 ∧
      (∀ s < k, Dist.topk algo p lengths k sel s = .ok (μ s)) ∧ ∀ b (hb : b < vs.length), ∃ ts : List (Allowed p lengths A b),
        IsKBest (score p lengths A b) k ts ∧ vs[b] = ts.map (score p lengths A b) ∧
        ∀ s (hs : s < ts.length), ∀ i j (a : Fin p.d3), μ s [b, i, j, (a : ℕ)] = if (i, j, a) ∈ ts[s].1.1.spans 0 then 1 else 0 := by
  obtain ⟨vs, μ, h1, h2, h3, h4⟩ := (batchDP p lengths h).topk_masked (dq := fun b => (inferInstance : DecidablePred (TreeAllowed (A b) : Trees p.d3 (len p lengths b) → Prop)))
      (fun b hb => maskRow h hm b hb) hk hc hsel
  refine ⟨vs, μ, h1, h2, h3, fun b hb => ?_⟩
  obtain ⟨ys, a1, a2, a3⟩ := h4 b hb
  have e := score_eq (p := p) (lengths := lengths) (A := A) b
  refine ⟨ys, e ▸ a1, e ▸ a2, fun s hs i j a => ?_⟩
  rw [a3 s hs _ rfl]
  refine (congrArg Nat.cast (count_parts b ys[s].1 i j a)).trans ?_
  push_cast; rfl

theorem err_eq (b : ℕ) : (Fintype.card (Trees p.d3 (len p lengths b)) + Fintype.card Empty : ℕ) * Real.exp (2 * (2 * p.d1 - 1 : ℕ) * B - 100000) =
    err p lengths B b := by simp [err]

/-- **C104.** `partition` is the log of the sum over the trees without forbidden spans, up to `err`. -/
theorem partition_spec (p : T4 ℝ) (lengths : Option (List ℕ)) (h : Valid p lengths) {A : ℕ → ℕ → ℕ → ℕ → Prop} {B : ℝ}
    (hm : Masked p lengths A B) (hne : ∀ b < p.d0, Nonempty (Allowed p lengths A b)) :
    ∃ vs, Dist.partition algo p lengths = .ok vs ∧ vs.length = p.d0 ∧ ∀ b (hb : b < vs.length),
      Real.log (∑ t : Allowed p lengths A b, Real.exp (score p lengths A b t)) ≤ vs[b] ∧
      vs[b] ≤ Real.log (∑ t : Allowed p lengths A b, Real.exp (score p lengths A b t)) + err p lengths B b := by
  obtain ⟨vs, h1, h2, h3⟩ := (batchDP p lengths h).partition_masked (dq := fun b => (inferInstance : DecidablePred (TreeAllowed (A b) : Trees p.d3 (len p lengths b) → Prop)))
      (fun b hb => maskRow h hm b hb) hne
  refine ⟨vs, h1, h2, fun b hb => ?_⟩
  have := h3 b hb
  rw [realScore_eq] at this
  exact ⟨this.1, this.2.trans_eq (congrArg _ (err_eq b))⟩

/-- **C104.** `marginals` are the posterior probabilities among the trees without forbidden spans, up to `err`; those of forbidden spans are at
most `err`. -/
theorem marginals_spec (p : T4 ℝ) (lengths : Option (List ℕ)) (h : Valid p lengths) {A : ℕ → ℕ → ℕ → ℕ → Prop} {B : ℝ}
    (hm : Masked p lengths A B) (hne : ∀ b < p.d0, Nonempty (Allowed p lengths A b)) :
    ∃ μ, Dist.marginals algo p lengths = .ok μ ∧ ∀ b < p.d0, ∀ i j (a : Fin p.d3),
      |μ [b, i, j, (a : ℕ)] - Gibbs.expect (score p lengths A b) fun t => if (i, j, a) ∈ t.1.1.spans 0 then 1 else 0| ≤ err p lengths B b ∧
      (¬ A b i j a → |μ [b, i, j, (a : ℕ)]| ≤ err p lengths B b) := by
  obtain ⟨μ, h1, h2⟩ := (batchDP p lengths h).marginals_masked (dq := fun b => (inferInstance : DecidablePred (TreeAllowed (A b) : Trees p.d3 (len p lengths b) → Prop)))
      (fun b hb => maskRow h hm b hb) hne (c := 1)
    (fun b _ e y => Multiset.nodup_iff_count_le_one.1 (treeParts_nodup b y) e) (fun b _ e y => y.elim)
  refine ⟨μ, h1, fun b hb i j a => ?_⟩
  have h3 := h2 b hb [b, i, j, (a : ℕ)] rfl
  rw [Nat.cast_one, mul_one] at h3
  have e : (fun y : Allowed p lengths A b => ((treeParts b y.1).count [b, i, j, (a : ℕ)] : ℝ)) =
      fun y => if (i, j, a) ∈ y.1.1.spans 0 then 1 else 0 := by
    funext y
    refine (congrArg Nat.cast (count_parts b y.1 i j a)).trans ?_
    push_cast; rfl
  have key : |μ [b, i, j, (a : ℕ)] - Gibbs.expect (score p lengths A b) fun y => if (i, j, a) ∈ y.1.1.spans 0 then 1 else 0| ≤
      err p lengths B b := by
    rw [← e, ← score_eq]
    exact h3.trans_eq (err_eq b)
  refine ⟨key, fun hA => ?_⟩
  have : (fun y : Allowed p lengths A b => if (i, j, a) ∈ y.1.1.spans 0 then (1 : ℝ) else 0) = fun _ => 0 := by
    funext y
    exact if_neg fun hc => hA (y.2 _ hc)
  rw [this, Gibbs.expect] at key
  simpa using key

/-- Concrete potentials: in a sentence of three words the first two are not a constituent. -/
def sample : T4 ℝ := ⟨1, 3, 3, 2, fun _ i j a => if i = 0 ∧ j = 1 then -1000000 else (i : ℝ) - j + a⟩

/-- Words 0 and 1 are not a constituent. -/
def apart (_ i j _ : ℕ) : Prop := ¬ (i = 0 ∧ j = 1)

/-- The hypotheses are met, and there are two allowed trees at least. -/
example : Valid sample none ∧ Masked sample none apart 10 ∧ (∀ b < sample.d0, Nonempty (Allowed sample none apart b)) ∧
    ∀ b < sample.d0, 2 ≤ Fintype.card (Allowed sample none apart b) := by
  have mk : ∀ c : Fin 2, ∀ b, ∃ y : Allowed sample none apart b, (0, 0, c) ∈ y.1.1.spans 0 := by
    intro c b
    refine ⟨⟨⟨.node (0 : Fin 2) (.leaf c) (.node (1 : Fin 2) (.leaf (0 : Fin 2)) (.leaf (1 : Fin 2))), rfl⟩, ?_⟩, List.mem_cons_of_mem _ (List.mem_cons_self)⟩
    intro s hs
    simp only [LTree.spans, LTree.size, List.mem_cons, List.not_mem_nil, or_false, List.mem_append, List.cons_append, List.nil_append] at hs
    rcases hs with rfl | rfl | rfl | rfl | rfl <;> simp [apart]
  refine ⟨⟨rfl, by decide, by decide, trivial⟩, ⟨by norm_num, ?_, ?_, by norm_num [sample]⟩, fun b _ => (mk 0 b).nonempty, ?_⟩
  · intro b hb i j a hij hj ha hA
    have ha : a < 2 := ha
    have hj : j < 3 := hj
    simp only [sample]
    rw [if_neg hA]
    interval_cases j <;> interval_cases i <;> interval_cases a <;> norm_num [abs_le]
  · intro b hb i j a hij hj ha hA
    simp only [sample]
    rw [if_pos (not_not.1 hA)]; norm_num
  · intro b _
    choose f hf using fun c => mk c b
    have : Fintype.card (Fin 2) ≤ Fintype.card (Allowed sample none apart b) :=
      Fintype.card_le_of_injective f fun c c' he => label_unique (hf c) (by rw [he]; exact hf c')
    exact this

end Props.MaskedSpans

/-! ### Dependency trees -/

namespace Props.MaskedArcs
open DepTreeProofs hiding Valid
open Props.Dependency hiding sample
open DepTree (Arcs partition max argmax marginals kmax topk negBig)

/-- `A b i j` says which arcs of row `b` are allowed: entry `(i, j)` of its table, root arcs on the diagonal. -/
structure Masked (q : Arcs ℝ) (lengths : Option (List ℕ)) (A : ℕ → ℕ → ℕ → Prop) (B : ℝ) : Prop where
  nonneg : 0 ≤ B
  allowed : ∀ b < q.d0, ∀ i j, i < len q lengths b → j < len q lengths b → A b i j → |q.get b i j 0| ≤ B
  forbidden : ∀ b < q.d0, ∀ i j, i < len q lengths b → j < len q lengths b → ¬ A b i j → q.get b i j 0 ≤ -100000
  small : 2 * q.d1 * B < 100000

/-- The trees of row `b` with allowed arcs only. -/
abbrev Allowed (mr : Bool) (q : Arcs ℝ) (lengths : Option (List ℕ)) (A : ℕ → ℕ → ℕ → Prop) (b : ℕ) : Type :=
  {t : ProjTrees mr (len q lengths b) // DepAllowed (A b) t}

/-- The score of an allowed tree. -/
def score (mr : Bool) (q : Arcs ℝ) (lengths : Option (List ℕ)) (A : ℕ → ℕ → ℕ → Prop) (b : ℕ) (t : Allowed mr q lengths A b) : ℝ :=
  depScore (row q b) t.1.1

/-- How much the forbidden arcs can change in row `b`: (number of trees) · exp(2 · words · B - 1e5). -/
def err (mr : Bool) (q : Arcs ℝ) (lengths : Option (List ℕ)) (B : ℝ) (b : ℕ) : ℝ :=
  Fintype.card (ProjTrees mr (len q lengths b)) * Real.exp (2 * q.d1 * B - 100000)

variable {mr : Bool} {q : Arcs ℝ} {lengths : Option (List ℕ)} {A : ℕ → ℕ → ℕ → Prop} {B : ℝ}

theorem maskRow (h : Valid mr q lengths) (hm : Masked q lengths A B) (b : ℕ) (hb : b < q.d0) :
    MaskRow (atQ negBig q) (Entry (decide q.labeled) q.labels (lenOf q.d1 lengths b) b) (fun e => ∀ i j, e = [b, i, j] → A b i j)
      (depParts b : ProjTrees mr (len q lengths b) → _) (fun y : Empty => y.elim) (DepAllowed (A b)) q.d1 B where
  nonneg := hm.nonneg
  allowed := by
    rintro e ⟨h', k, l, rfl, h1, h2, h3, h4⟩ hA
    rw [labels_one h.rank] at h4
    have hlt := arcCell_lt h1 h2
    obtain rfl : l = 0 := by omega
    rw [atQ_cell negBig q _ _ _ _ (Or.inr rfl)]
    exact hm.allowed b hb _ _ hlt.1 hlt.2 (hA _ _ (by rw [not_labeled h.rank]; rfl))
  forbidden := by
    rintro e ⟨h', k, l, rfl, h1, h2, h3, h4⟩ hA
    rw [labels_one h.rank] at h4
    have hlt := arcCell_lt h1 h2
    obtain rfl : l = 0 := by omega
    rw [atQ_cell negBig q _ _ _ _ (Or.inr rfl)]
    refine hm.forbidden b hb _ _ hlt.1 hlt.2 fun hc => hA fun i j he => ?_
    rw [not_labeled h.rank] at he
    change [b, (arcCell h' k).1, (arcCell h' k).2] = _ at he
    simp only [List.cons.injEq, and_true, true_and] at he
    rw [← he.1, ← he.2]
    exact hc
  size t := by
    rw [depParts_card]
    exact (len_le h.toValid hb).1
  sizeA y := y.elim
  small := hm.small
  iff t := by
    constructor
    · intro hA e he i j hij
      obtain ⟨i', j', rfl, ha⟩ := (mem_depParts b t e).1 he
      simp only [List.cons.injEq, and_true, true_and] at hij
      rw [← hij.1, ← hij.2]
      exact hA i' j' ha
    · intro hA i j ha
      exact hA [b, i, j] ((mem_depParts b t _).2 ⟨i, j, rfl, ha⟩) i j rfl

theorem score_eq (b : ℕ) : (fun t : Allowed mr q lengths A b => realScore (depParts b) (atQ negBig q) t.1) = score mr q lengths A b := by
  funext y; rw [realScore_eq]; rfl

open Classical in
theorem count_eq (b : ℕ) (t : Allowed mr q lengths A b) (i j : ℕ) :
    ((depParts b t.1).count [b, i, j] : ℝ) = if HasArc t.1.1 i j then 1 else 0 := by
  refine (congrArg Nat.cast (count_parts b t.1 i j)).trans ?_
  push_cast; rfl

open Classical in
/-- **C104.** `max` and `argmax` of `DependencyCRF` are those of the trees without forbidden arcs. -/
theorem argmax_spec (mr : Bool) (q : Arcs ℝ) (lengths : Option (List ℕ)) (h : Valid mr q lengths) {A : ℕ → ℕ → ℕ → Prop} {B : ℝ}
    (hm : Masked q lengths A B) (hne : ∀ b < q.d0, Nonempty (Allowed mr q lengths A b))
    {pick : List (Autograd.Grad (List ℕ)) → Autograd.Grad (List ℕ)} (hp : Autograd.IsArgmax Prod.fst pick) :
    ∃ μ vs, argmax mr q lengths pick = .ok μ ∧ max mr q lengths = .ok vs ∧ vs.length = q.d0 ∧ ∀ b (hb : b < vs.length),
      ∃ t : Allowed mr q lengths A b, vs[b] = score mr q lengths A b t ∧ (∀ t', score mr q lengths A b t' ≤ vs[b]) ∧
        ∀ i j, μ [b, i, j] = if HasArc t.1.1 i j then 1 else 0 := by
  rw [argmax, _root_.DepTree.max, conv_eq negBig h]
  obtain ⟨μ, vs, h1, h2, h3, h4⟩ := (batchDP3 mr negBig q lengths h.toValid h.rank).argmax_masked (dq := fun b => (inferInstance : DecidablePred (DepAllowed (A b) : ProjTrees mr (len q lengths b) → Prop)))
      (fun b hb => maskRow h hm b hb) hne hp
  refine ⟨μ, vs, h1, h2, h3, fun b hb => ?_⟩
  obtain ⟨y, a1, a2, a3⟩ := h4 b hb
  refine ⟨y, a1.trans (congrFun (score_eq b) y), fun y' => (congrFun (score_eq b) y').symm.trans_le (a2 y'), fun i j => ?_⟩
  rw [a3 _ rfl]
  exact count_eq b y i j

open Classical in
/-- **C104.** `kmax` and `topk` return the `k` best trees without forbidden arcs, if there are that many. -/
theorem topk_spec (mr : Bool) (q : Arcs ℝ) (lengths : Option (List ℕ)) (h : Valid mr q lengths) {A : ℕ → ℕ → ℕ → Prop} {B : ℝ}
    (hm : Masked q lengths A B) {k : ℕ} (hk : 0 < k) (hc : ∀ b < q.d0, k ≤ Fintype.card (Allowed mr q lengths A b))
    {sel : List (Autograd.Grad (List ℕ)) → List (Autograd.Grad (List ℕ))} (hsel : Autograd.IsTopk Prod.fst k sel) :
    ∃ (vs : List (List ℝ)) (μ : ℕ → List ℕ → ℝ), kmax mr q lengths k = .ok vs ∧ vs.length = q.d0 ∧
      (∀ s < k, topk mr q lengths k sel s = .ok (μ s)) ∧ ∀ b (hb : b < vs.length), ∃ ts : List (Allowed mr q lengths A b),
        IsKBest (score mr q lengths A b) k ts ∧ vs[b] = ts.map (score mr q lengths A b) ∧
        ∀ s (hs : s < ts.length), ∀ i j, μ s [b, i, j] = if HasArc ts[s].1.1 i j then 1 else 0 := by
  obtain ⟨vs, μ, h1, h2, h3, h4⟩ := (batchDP3 mr negBig q lengths h.toValid h.rank).topk_masked (dq := fun b => (inferInstance : DecidablePred (DepAllowed (A b) : ProjTrees mr (len q lengths b) → Prop)))
      (fun b hb => maskRow h hm b hb) hk hc hsel
  refine ⟨vs, μ, ?_, h2, fun s hs => ?_, fun b hb => ?_⟩
  · rw [kmax, conv_eq negBig h]; exact h1
  · rw [topk, conv_eq negBig h]; exact h3 s hs
  obtain ⟨ys, a1, a2, a3⟩ := h4 b hb
  have e := score_eq (mr := mr) (q := q) (lengths := lengths) (A := A) b
  refine ⟨ys, e ▸ a1, e ▸ a2, fun s hs i j => ?_⟩
  rw [a3 s hs _ rfl]
  exact count_eq b ys[s] i j

theorem err_eq (b : ℕ) : (Fintype.card (ProjTrees mr (len q lengths b)) + Fintype.card Empty : ℕ) * Real.exp (2 * q.d1 * B - 100000) =
    err mr q lengths B b := by simp [err]

/-- **C104.** `partition` is the log of the sum over the trees without forbidden arcs, up to `err`. -/
theorem partition_spec (mr : Bool) (q : Arcs ℝ) (lengths : Option (List ℕ)) (h : Valid mr q lengths) {A : ℕ → ℕ → ℕ → Prop} {B : ℝ}
    (hm : Masked q lengths A B) (hne : ∀ b < q.d0, Nonempty (Allowed mr q lengths A b)) :
    ∃ vs, partition mr q lengths = .ok vs ∧ vs.length = q.d0 ∧ ∀ b (hb : b < vs.length),
      Real.log (∑ t : Allowed mr q lengths A b, Real.exp (score mr q lengths A b t)) ≤ vs[b] ∧
      vs[b] ≤ Real.log (∑ t : Allowed mr q lengths A b, Real.exp (score mr q lengths A b t)) + err mr q lengths B b := by
  rw [partition, conv_eq negBig h]
  obtain ⟨vs, h1, h2, h3⟩ := (batchDP3 mr negBig q lengths h.toValid h.rank).partition_masked (dq := fun b => (inferInstance : DecidablePred (DepAllowed (A b) : ProjTrees mr (len q lengths b) → Prop)))
      (fun b hb => maskRow h hm b hb) hne
  refine ⟨vs, h1, h2, fun b hb => ?_⟩
  have := h3 b hb
  rw [realScore_eq] at this
  exact ⟨this.1, this.2.trans_eq (congrArg _ (err_eq b))⟩

open Classical in
/-- **C104.** `marginals` are the posterior probabilities among the trees without forbidden arcs, up to `err`; those of forbidden arcs are at
most `err`. -/
theorem marginals_spec (mr : Bool) (q : Arcs ℝ) (lengths : Option (List ℕ)) (h : Valid mr q lengths) {A : ℕ → ℕ → ℕ → Prop} {B : ℝ}
    (hm : Masked q lengths A B) (hne : ∀ b < q.d0, Nonempty (Allowed mr q lengths A b)) :
    ∃ μ, marginals mr q lengths = .ok μ ∧ ∀ b < q.d0, ∀ i j,
      |μ [b, i, j] - Gibbs.expect (score mr q lengths A b) fun t => if HasArc t.1.1 i j then 1 else 0| ≤ err mr q lengths B b ∧
      (¬ A b i j → |μ [b, i, j]| ≤ err mr q lengths B b) := by
  rw [marginals, conv_eq negBig h]
  obtain ⟨μ, h1, h2⟩ := (batchDP3 mr negBig q lengths h.toValid h.rank).marginals_masked (dq := fun b => (inferInstance : DecidablePred (DepAllowed (A b) : ProjTrees mr (len q lengths b) → Prop)))
      (fun b hb => maskRow h hm b hb) hne (c := 1)
    (fun b _ e y => Multiset.nodup_iff_count_le_one.1 (depParts_nodup b y) e) (fun b _ e y => y.elim)
  refine ⟨μ, h1, fun b hb i j => ?_⟩
  have h3 := h2 b hb [b, i, j] rfl
  rw [Nat.cast_one, mul_one] at h3
  have e : (fun y : Allowed mr q lengths A b => ((depParts b y.1).count [b, i, j] : ℝ)) = fun y => if HasArc y.1.1 i j then 1 else 0 :=
    funext fun y => count_eq b y i j
  have key : |μ [b, i, j] - Gibbs.expect (score mr q lengths A b) fun y => if HasArc y.1.1 i j then 1 else 0| ≤ err mr q lengths B b := by
    rw [← e, ← score_eq]
    exact h3.trans_eq (err_eq b)
  refine ⟨key, fun hA => ?_⟩
  have : (fun y : Allowed mr q lengths A b => if HasArc y.1.1 i j then (1 : ℝ) else 0) = fun _ => 0 := by
    funext y
    exact if_neg fun hc => hA (y.2 _ _ hc)
  rw [this, Gibbs.expect] at key
  simpa using key

/-- Concrete potentials: in a sentence of three words heads come first (arcs to earlier words are forbidden). -/
def sample : Arcs ℝ := ⟨3, 1, 3, 3, 0, fun _ i j _ => if j < i then -1000000 else (i : ℝ) - j⟩

/-- The head comes first. -/
def headFirst (_ i j : ℕ) : Prop := i ≤ j

/-- Every word is attached to the word before it. -/
def chainHeads : Heads 3 := fun k => k.castSucc

theorem chain_dominates (x y : ℕ) (hxy : x ≤ y) (hy : y ≤ 3) : Dominates chainHeads x y := by
  have hs : ∀ k, 1 ≤ k → k ≤ 3 → headOf chainHeads k = k - 1 := by
    intro k h1 h3
    rw [headOf, dif_pos ⟨h1, h3⟩]; rfl
  refine ⟨y - x, ?_⟩
  interval_cases y <;> interval_cases x <;> simp [hs]

/-- The hypotheses are met, for both kinds of trees. -/
example (mr : Bool) : Valid mr sample none ∧ Masked sample none headFirst 10 ∧ (∀ b < sample.d0, Nonempty (Allowed mr sample none headFirst b)) ∧
    ∀ b < sample.d0, 1 ≤ Fintype.card (Allowed mr sample none headFirst b) := by
  have mk : ∀ b, Nonempty (Allowed mr sample none headFirst b) := by
    intro b
    refine ⟨⟨⟨chainHeads, fun k => chain_dominates _ _ (Nat.zero_le _) k.2, ?_, fun _ => ?_⟩, ?_⟩⟩
    · intro k y hb
      have hk := k.2
      have e : (chainHeads k : ℕ) = k := rfl
      simp only [Between, e] at hb
      omega
    · refine ⟨(0 : Fin 3), rfl, fun k hk => ?_⟩
      have : (chainHeads k : ℕ) = 0 := congrArg Fin.val hk
      exact Fin.ext this
    · rintro i j ⟨k, hk, hc⟩
      have e : ((show Heads 3 from chainHeads) k : ℕ) = k := rfl
      change i ≤ j
      split_ifs at hc with hij
      · exact hij.le
      · change (chainHeads k : ℕ) = i + 1 at hc
        change (k : ℕ) = i + 1 at hc
        omega
  refine ⟨⟨rfl, rfl, le_rfl, fun _ => by decide, by simp⟩, ⟨by norm_num, ?_, ?_, by norm_num [sample]⟩, fun b _ => mk b, fun b _ => ?_⟩
  · intro b hb i j hi hj hA
    have hi : i < 3 := hi
    have hj : j < 3 := hj
    have hA : i ≤ j := hA
    simp only [sample]
    rw [if_neg (by omega)]
    interval_cases j <;> interval_cases i <;> norm_num [abs_le]
  · intro b hb i j hi hj hA
    have hA : ¬ i ≤ j := hA
    simp only [sample]
    rw [if_pos (by omega)]; norm_num
  · have := mk b
    exact Fintype.card_pos

end Props.MaskedArcs

/-! ### Grammars -/

namespace Props.MaskedGrammar
open GrammarProofs
open CKYProofs hiding Valid
open Props.SentCFG hiding sample
open _root_.CKY (algo Scores marked arrange)

/-- Which preterminals `(b, position, preterminal)`, rules `(b, parent, left, right)` and roots `(b, nonterminal)` are allowed. -/
structure Mask where
  term : ℕ → ℕ → ℕ → Prop
  rule : ℕ → ℕ → ℕ → ℕ → Prop
  root : ℕ → ℕ → Prop

/-- Allowed potentials are bounded by `B`, the others are at most `-1e5`. -/
structure Masked (p : Scores ℝ) (lengths : Option (List ℕ)) (A : Mask) (B : ℝ) : Prop where
  nonneg : 0 ≤ B
  term : ∀ b < p.batch, ∀ n < len p lengths b, ∀ t < p.T, (A.term b n t → |p.term b n t| ≤ B) ∧ (¬ A.term b n t → p.term b n t ≤ -100000)
  rule : ∀ b < p.batch, ∀ X < p.NT, ∀ y < p.NT + p.T, ∀ z < p.NT + p.T,
    (A.rule b X y z → |p.rule b X y z| ≤ B) ∧ (¬ A.rule b X y z → p.rule b X y z ≤ -100000)
  root : ∀ b < p.batch, ∀ X < p.NT, (A.root b X → |p.root b X| ≤ B) ∧ (¬ A.root b X → p.root b X ≤ -100000)
  small : 6 * p.N * B < 100000

/-- The derivations of row `b` that use allowed preterminals, rules and roots only. -/
abbrev Allowed (p : Scores ℝ) (lengths : Option (List ℕ)) (A : Mask) (b : ℕ) : Type :=
  {d : Der p lengths b // DerivAllowed (A.term b) (A.rule b) (A.root b) d}

/-- The score of an allowed derivation. -/
def score (p : Scores ℝ) (lengths : Option (List ℕ)) (A : Mask) (b : ℕ) (d : Allowed p lengths A b) : ℝ := dscore p b d.1

/-- How much the forbidden parts and the stand-in can change in row `b`: (bound on the number of trees) · exp(6 · N · B - 1e5). -/
def err (p : Scores ℝ) (lengths : Option (List ℕ)) (B : ℝ) (b : ℕ) : ℝ :=
  (Fintype.card (Der p lengths b) + (2 * p.NT + p.T) ^ (2 * len p lengths b) : ℕ) * Real.exp (6 * p.N * B - 100000)

/-- The allowed entries. -/
def entryOk (A : Mask) (b : ℕ) (e : List ℕ) : Prop :=
  (∀ n t, e = [b, 0, n, t] → A.term b n t) ∧ (∀ X y z, e = [b, 1, X, y, z] → A.rule b X y z) ∧ ∀ X, e = [b, 2, X] → A.root b X

variable {p : Scores ℝ} {lengths : Option (List ℕ)} {A : Mask} {B : ℝ}

theorem entryOk_term (b n t : ℕ) : entryOk A b [b, 0, n, t] ↔ A.term b n t := by
  constructor
  · exact fun h => h.1 n t rfl
  · intro h
    refine ⟨fun n' t' he => ?_, fun X y z he => by simp at he, fun X he => by simp at he⟩
    simp only [List.cons.injEq, and_true, true_and] at he
    rw [← he.1, ← he.2]; exact h

theorem entryOk_rule (b X y z : ℕ) : entryOk A b [b, 1, X, y, z] ↔ A.rule b X y z := by
  constructor
  · exact fun h => h.2.1 X y z rfl
  · intro h
    refine ⟨fun n' t' he => by simp at he, fun X y z he => ?_, fun X he => by simp at he⟩
    simp only [List.cons.injEq, and_true, true_and] at he
    rw [← he.1, ← he.2.1, ← he.2.2]; exact h

theorem entryOk_root (b X : ℕ) : entryOk A b [b, 2, X] ↔ A.root b X := by
  constructor
  · exact fun h => h.2.2 X rfl
  · intro h
    refine ⟨fun n' t' he => by simp at he, fun X y z he => by simp at he, fun X he => ?_⟩
    simp only [List.cons.injEq, and_true, true_and] at he
    rw [← he]; exact h

theorem entryOk_mark (b w i X : ℕ) : entryOk A b [b, 3, w, i, X] :=
  ⟨fun n' t' he => by simp at he, fun X y z he => by simp at he, fun X he => by simp at he⟩

theorem allowed_iff (mk : Bool) (b : ℕ) (d : Der p lengths b) :
    DerivAllowed (A.term b) (A.rule b) (A.root b) d ↔ ∀ e ∈ derivParts mk b d, entryOk A b e := by
  constructor
  · rintro ⟨h1, h2, h3⟩ e he
    simp only [derivParts, Multiset.mem_add, Multiset.mem_singleton] at he
    rcases he with rfl | ((he | he) | he)
    all_goals try (exact (entryOk_root b _).2 h3)
    · obtain ⟨x, hx, rfl⟩ := List.mem_map.1 (Multiset.mem_coe.1 he)
      exact (entryOk_rule b _ _ _).2 (h2 x hx)
    · obtain ⟨x, hx, rfl⟩ := List.mem_map.1 (Multiset.mem_coe.1 he)
      exact (entryOk_term b _ _).2 (h1 x hx)
    · cases mk
      · simp at he
      · obtain ⟨x, hx, rfl⟩ := List.mem_map.1 (Multiset.mem_coe.1 he)
        exact entryOk_mark b _ _ _
  · intro h
    have mem : ∀ e, (derivParts mk b d).count e ≠ 0 → entryOk A b e := fun e he => h e (Multiset.count_ne_zero.1 he)
    refine ⟨fun x hx => (entryOk_term b _ _).1 (mem _ ?_), fun x hx => (entryOk_rule b _ _ _).1 (mem _ ?_), (entryOk_root b _).1 (mem _ ?_)⟩
    · rw [count_term]; exact (List.count_pos_iff.2 hx).ne'
    · rw [count_rule]; exact (List.count_pos_iff.2 hx).ne'
    · rw [count_root, if_pos rfl]; exact one_ne_zero

theorem maskRow_marked (h : Valid p lengths) (hm : Masked p lengths A B) (b : ℕ) (hb : b < p.batch) :
    MaskRow (atS (marked p)) (Entry p.N p.NT p.T true lengths b) (entryOk A b) (derivParts true b : Der p lengths b → _)
      (phAtoms true b : Ph p.NT p.T (len p lengths b) → _) (DerivAllowed (A.term b) (A.rule b) (A.root b)) (3 * p.N) B where
  nonneg := hm.nonneg
  allowed := by
    rintro e (⟨n, t, rfl, h1, h2⟩ | ⟨X, y, z, rfl, h1, h2, h3⟩ | ⟨X, rfl, h1⟩ | ⟨-, w, i, X, rfl, -⟩) hA
    · exact (hm.term b hb n h1 t h2).1 ((entryOk_term b _ _).1 hA)
    · exact (hm.rule b hb X h1 y h2 z h3).1 ((entryOk_rule b _ _ _).1 hA)
    · exact (hm.root b hb X h1).1 ((entryOk_root b _).1 hA)
    · change |(0 : ℝ)| ≤ B
      rw [abs_zero]; exact hm.nonneg
  forbidden := by
    rintro e (⟨n, t, rfl, h1, h2⟩ | ⟨X, y, z, rfl, h1, h2, h3⟩ | ⟨X, rfl, h1⟩ | ⟨-, w, i, X, rfl, -⟩) hA
    · exact (hm.term b hb n h1 t h2).2 fun hc => hA ((entryOk_term b _ _).2 hc)
    · exact (hm.rule b hb X h1 y h2 z h3).2 fun hc => hA ((entryOk_rule b _ _ _).2 hc)
    · exact (hm.root b hb X h1).2 fun hc => hA ((entryOk_root b _).2 hc)
    · exact absurd (entryOk_mark b w i X) hA
  size d := by rw [parts_card]; have := len_le h b hb; simp only [if_true]; omega
  sizeA x := (size_le_card _).trans (by rw [phAtoms_card]; have := len_le h b hb; simp only [if_true]; omega)
  small := by have := hm.small; push_cast; linarith
  iff d := allowed_iff true b d

theorem maskRow_plain (h : Valid p lengths) (hm : Masked p lengths A B) (b : ℕ) (hb : b < p.batch) :
    MaskRow (atS p) (Entry p.N p.NT p.T p.mark.isSome lengths b) (entryOk A b) (derivParts p.mark.isSome b : Der p lengths b → _)
      (phAtoms p.mark.isSome b : Ph p.NT p.T (len p lengths b) → _) (DerivAllowed (A.term b) (A.rule b) (A.root b)) (3 * p.N) B where
  nonneg := hm.nonneg
  allowed := by
    rw [h.plain]
    rintro e (⟨n, t, rfl, h1, h2⟩ | ⟨X, y, z, rfl, h1, h2, h3⟩ | ⟨X, rfl, h1⟩ | ⟨h0, -⟩) hA
    · exact (hm.term b hb n h1 t h2).1 ((entryOk_term b _ _).1 hA)
    · exact (hm.rule b hb X h1 y h2 z h3).1 ((entryOk_rule b _ _ _).1 hA)
    · exact (hm.root b hb X h1).1 ((entryOk_root b _).1 hA)
    · exact absurd h0 (by simp)
  forbidden := by
    rw [h.plain]
    rintro e (⟨n, t, rfl, h1, h2⟩ | ⟨X, y, z, rfl, h1, h2, h3⟩ | ⟨X, rfl, h1⟩ | ⟨h0, -⟩) hA
    · exact (hm.term b hb n h1 t h2).2 fun hc => hA ((entryOk_term b _ _).2 hc)
    · exact (hm.rule b hb X h1 y h2 z h3).2 fun hc => hA ((entryOk_rule b _ _ _).2 hc)
    · exact (hm.root b hb X h1).2 fun hc => hA ((entryOk_root b _).2 hc)
    · exact absurd h0 (by simp)
  size d := by rw [parts_card, h.plain]; have := len_le h b hb; simp; omega
  sizeA x := (size_le_card _).trans (by rw [phAtoms_card, h.plain]; have := len_le h b hb; simp; omega)
  small := by have := hm.small; push_cast; linarith
  iff d := allowed_iff _ b d

theorem score_plain (h : Valid p lengths) (b : ℕ) :
    (fun d : Allowed p lengths A b => realScore (derivParts p.mark.isSome b) (atS p) d.1) = score p lengths A b := by
  funext d
  rw [h.plain]
  exact congrFun (realScore_plain p b) d.1

theorem err_ge (b : ℕ) :
    (Fintype.card (Der p lengths b) + Fintype.card (Ph p.NT p.T (len p lengths b)) : ℕ) * Real.exp (2 * (3 * p.N : ℕ) * B - 100000) ≤
      err p lengths B b := by
  have e : 2 * ((3 * p.N : ℕ) : ℝ) * B - 100000 = 6 * p.N * B - 100000 := by push_cast; ring
  rw [err, e]
  refine mul_le_mul_of_nonneg_right ?_ (Real.exp_nonneg _)
  exact_mod_cast Nat.add_le_add_left (card_ph p.NT p.T (len p lengths b)) _

/-- **C104.** `partition` is the log of the sum over the allowed derivations, up to `err`. -/
theorem partition_spec (p : Scores ℝ) (lengths : Option (List ℕ)) (h : Valid p lengths) {A : Mask} {B : ℝ}
    (hm : Masked p lengths A B) (hne : ∀ b < p.batch, Nonempty (Allowed p lengths A b)) :
    ∃ vs, Dist.partition algo p lengths = .ok vs ∧ vs.length = p.batch ∧ ∀ b (hb : b < vs.length),
      Real.log (∑ d : Allowed p lengths A b, Real.exp (score p lengths A b d)) ≤ vs[b] ∧
      vs[b] ≤ Real.log (∑ d : Allowed p lengths A b, Real.exp (score p lengths A b d)) + err p lengths B b := by
  obtain ⟨vs, h1, h2, h3⟩ := (batchDP p lengths h.toProofs).partition_masked (dq := fun b => (inferInstance : DecidablePred (DerivAllowed (A.term b) (A.rule b) (A.root b) : Der p lengths b → Prop)))
      (fun b hb => maskRow_plain h hm b hb) hne
  refine ⟨vs, h1, h2, fun b hb => ?_⟩
  have := h3 b hb
  have e : Real.log (∑ d : Allowed p lengths A b, Real.exp (realScore (derivParts p.mark.isSome b) (atS p) d.1)) =
      Real.log (∑ d : Allowed p lengths A b, Real.exp (score p lengths A b d)) :=
    congrArg Real.log (sum_congr rfl fun d _ => congrArg Real.exp (congrFun (score_plain h b) d))
  refine ⟨e.symm.trans_le this.1, this.2.trans ?_⟩
  refine (add_le_add_right (err_ge b) _).trans_eq (congrArg (· + _) e)

/-- **C104.** `max` is the score of the best allowed derivation, and `argmax` returns the parts of one. -/
theorem argmax_spec (p : Scores ℝ) (lengths : Option (List ℕ)) (h : Valid p lengths) (hl : Long p lengths) {A : Mask} {B : ℝ}
    (hm : Masked p lengths A B) (hne : ∀ b < p.batch, Nonempty (Allowed p lengths A b))
    {pick : List (Autograd.Grad (List ℕ)) → Autograd.Grad (List ℕ)} (hp : Autograd.IsArgmax Prod.fst pick) :
    ∃ μ vs, _root_.CKY.argmax p lengths pick = .ok μ ∧ Dist.max algo p lengths = .ok vs ∧ vs.length = p.batch ∧ ∀ b (hb : b < vs.length),
      ∃ d : Allowed p lengths A b, vs[b] = score p lengths A b d ∧ (∀ d', score p lengths A b d' ≤ vs[b]) ∧ IsParts μ b d.1 := by
  obtain ⟨μ, ws, h1, h2, h3, h4⟩ := (batchDP (marked p) lengths h.marked).argmax_masked (dq := fun b => (inferInstance : DecidablePred (DerivAllowed (A.term b) (A.rule b) (A.root b) : Der p lengths b → Prop)))
      (fun b hb => maskRow_marked h hm b hb) hne hp
  obtain ⟨μ', vs, g1, g2, g3, g4⟩ := (batchDP p lengths h.toProofs).argmax_masked (dq := fun b => (inferInstance : DecidablePred (DerivAllowed (A.term b) (A.rule b) (A.root b) : Der p lengths b → Prop)))
      (fun b hb => maskRow_plain h hm b hb) hne hp
  refine ⟨arrange p.N μ, vs, (if_neg (N_ne h hl)).trans (congrArg (Except.map (arrange p.N)) h1 :), g2, g3, fun b hb => ?_⟩
  have hb' : b < p.batch := by omega
  obtain ⟨d, a1, a2, a3⟩ := h4 b (lt_of_lt_of_eq hb' h3.symm)
  obtain ⟨d0, c1, c2, -⟩ := g4 b hb
  have e : ∀ d : Allowed p lengths A b, realScore (derivParts p.mark.isSome b) (atS p) d.1 = score p lengths A b d := congrFun (score_plain h b)
  have e' : ∀ d : Allowed p lengths A b, realScore (derivParts true b) (atS (marked p)) d.1 = score p lengths A b d :=
    fun d => congrFun (realScore_marked p b) d.1
  have hle : ∀ d' : Allowed p lengths A b, score p lengths A b d' ≤ vs[b] := fun d' => (e d').symm.trans_le (c2 d')
  refine ⟨d, le_antisymm ?_ (hle d), hle, arrange_isParts μ b (len_le h b hb') d.1 a3⟩
  have := a2 d0
  rw [a1] at this
  exact (c1.trans (e d0)).trans_le ((e' d0).symm.trans_le (this.trans_eq (e' d)))

/-- **C104.** `kmax` returns the scores of the `k` best allowed derivations, if there are that many. -/
theorem kmax_spec (p : Scores ℝ) (lengths : Option (List ℕ)) (h : Valid p lengths) {A : Mask} {B : ℝ}
    (hm : Masked p lengths A B) {k : ℕ} (hk : 0 < k) (hc : ∀ b < p.batch, k ≤ Fintype.card (Allowed p lengths A b)) :
    ∃ vs, Dist.kmax algo p lengths k = .ok vs ∧ vs.length = p.batch ∧ ∀ b (hb : b < vs.length), ∃ ds : List (Allowed p lengths A b),
      IsKBest (score p lengths A b) k ds ∧ vs[b] = ds.map (score p lengths A b) := by
  obtain ⟨vs, h1, h2, h3⟩ := (batchDP p lengths h.toProofs).kmax_masked (dq := fun b => (inferInstance : DecidablePred (DerivAllowed (A.term b) (A.rule b) (A.root b) : Der p lengths b → Prop)))
      (fun b hb => maskRow_plain h hm b hb) hk hc
  refine ⟨vs, h1, h2, fun b hb => ?_⟩
  obtain ⟨ds, a1, a2⟩ := h3 b hb
  have e := score_plain (A := A) h b
  exact ⟨ds, e ▸ a1, e ▸ a2⟩

/-- **C104.** `marginals` are the expected numbers of uses under the distribution over the allowed derivations, up to `3 N err`. -/
theorem marginals_spec (p : Scores ℝ) (lengths : Option (List ℕ)) (h : Valid p lengths) (hl : Long p lengths) {A : Mask} {B : ℝ}
    (hm : Masked p lengths A B) (hne : ∀ b < p.batch, Nonempty (Allowed p lengths A b)) :
    ∃ μ, _root_.CKY.marginals p lengths = .ok μ ∧ ∀ b < p.batch,
      (∀ n t, |μ.term b n t - Gibbs.expect (score p lengths A b) fun d => (d.1.1.words 0).count (n, t)| ≤ err p lengths B b * (3 * p.N)) ∧
      (∀ X y z, |μ.rule b X y z - Gibbs.expect (score p lengths A b) fun d => d.1.1.rules.count (X, y, z)| ≤ err p lengths B b * (3 * p.N)) ∧
      (∀ X, |μ.root b X - Gibbs.expect (score p lengths A b) fun d => if d.1.1.sym = X then 1 else 0| ≤ err p lengths B b * (3 * p.N)) ∧
      (∀ X y z, ¬ A.rule b X y z → |μ.rule b X y z| ≤ err p lengths B b * (3 * p.N)) := by
  have hcard : ∀ b < p.batch, 2 * len p lengths b + (len p lengths b - 1) ≤ 3 * p.N := fun b hb => by have := len_le h b hb; omega
  obtain ⟨μ, h1, h2⟩ := (batchDP (marked p) lengths h.marked).marginals_masked (dq := fun b => (inferInstance : DecidablePred (DerivAllowed (A.term b) (A.rule b) (A.root b) : Der p lengths b → Prop)))
      (fun b hb => maskRow_marked h hm b hb) hne (c := 3 * p.N)
    (fun b hb e d => by
      have a1 := Multiset.count_le_card e (derivParts true b d)
      rw [parts_card] at a1
      exact a1.trans (hcard b hb))
    (fun b hb e x => by
      have a1 := (Multiset.count_le_card e ((phAtoms true b x).filterMap Atom.link)).trans (card_filterMap_le _ _)
      rw [phAtoms_card] at a1
      exact a1.trans (hcard b hb))
  refine ⟨arrange p.N μ, (if_neg (N_ne h hl)).trans (congrArg (Except.map (arrange p.N)) h1 :), fun b hb => ?_⟩
  have key : ∀ e : List ℕ, e.head? = some b → ∀ f : Allowed p lengths A b → ℝ, (∀ d, ((derivParts true b d.1).count e : ℝ) = f d) →
      |μ e - Gibbs.expect (score p lengths A b) f| ≤ err p lengths B b * (3 * p.N) := by
    intro e he f hf
    have h3 := h2 b hb e he
    have e1 : (fun d : Allowed p lengths A b => realScore (derivParts true b) (atS (marked p)) d.1) = score p lengths A b :=
      funext fun d => congrFun (realScore_marked p b) d.1
    have e2 : (fun d : Allowed p lengths A b => ((derivParts true b d.1).count e : ℝ)) = f := funext hf
    rw [← e1, ← e2]
    refine h3.trans ?_
    push_cast
    refine mul_le_mul_of_nonneg_right ?_ (by positivity)
    have := err_ge (p := p) (lengths := lengths) (B := B) b
    push_cast at this
    exact this
  have hr : ∀ X y z, |μ [b, 1, X, y, z] - Gibbs.expect (score p lengths A b) fun d => (d.1.1.rules.count (X, y, z) : ℝ)| ≤
      err p lengths B b * (3 * p.N) := fun X y z => key [b, 1, X, y, z] rfl _ fun d => by rw [count_rule]
  refine ⟨fun n t => key [b, 0, n, t] rfl _ fun d => by rw [count_term], hr,
    fun X => key [b, 2, X] rfl _ fun d => by rw [count_root]; push_cast; rfl, fun X y z hA => ?_⟩
  have h3 := hr X y z
  have : (fun d : Allowed p lengths A b => (d.1.1.rules.count (X, y, z) : ℝ)) = fun _ => 0 := by
    funext d
    rw [Nat.cast_eq_zero, List.count_eq_zero]
    exact fun hc => hA (d.2.2.1 _ hc)
  rw [this, Gibbs.expect] at h3
  change |μ [b, 1, X, y, z]| ≤ _
  simpa using h3

/-- Concrete potentials: nonterminal 1 may not be the left child. -/
def sample : Scores ℝ :=
  ⟨1, 3, 1, 2, 3, fun b n t => (b : ℝ) + n - t, fun _ x y z => if y = 1 then -1000000 else (x : ℝ) + y - z, fun _ x => (x : ℝ), none⟩

/-- No rule has nonterminal 1 on the left. -/
def mask : Mask := ⟨fun _ _ _ => True, fun _ _ y _ => y ≠ 1, fun _ _ => True⟩

/-- The hypotheses are met. -/
example : Valid sample none ∧ Long sample none ∧ Masked sample none mask 10 ∧ (∀ b < sample.batch, Nonempty (Allowed sample none mask b)) ∧
    ∀ b < sample.batch, 1 ≤ Fintype.card (Allowed sample none mask b) := by
  have mk : ∀ b, Nonempty (Allowed sample none mask b) := by
    intro b
    refine ⟨⟨⟨.node (0 : Fin 2) (.leaf (0 : Fin 1)) (.node (1 : Fin 2) (.leaf (0 : Fin 1)) (.leaf (0 : Fin 1))), rfl, rfl⟩, fun _ _ => trivial, ?_, trivial⟩⟩
    intro x hx
    simp only [Deriv.rules, List.mem_cons, List.not_mem_nil, or_false, List.append_nil, List.nil_append, Deriv.sym] at hx
    rcases hx with rfl | rfl
    · exact (by decide : 2 + 0 ≠ 1)
    · exact (by decide : 2 + 0 ≠ 1)
  refine ⟨⟨rfl, by decide, by decide, by decide, by decide, trivial, rfl⟩, fun b _ => (by decide : 2 ≤ 3), ⟨by norm_num, ?_, ?_, ?_, by norm_num [sample]⟩,
    fun b _ => mk b, fun b _ => ?_⟩
  · intro b hb n hn t ht
    have hb : b < 1 := hb
    have hn : n < 3 := hn
    have ht : t < 1 := ht
    refine ⟨fun _ => ?_, fun hc => absurd trivial hc⟩
    interval_cases b <;> interval_cases n <;> interval_cases t <;> norm_num [sample, abs_le]
  · intro b hb X hX y hy z hz
    have hX : X < 2 := hX
    have hy : y < 3 := hy
    have hz : z < 3 := hz
    constructor
    · intro hA
      have hA : y ≠ 1 := hA
      simp only [sample]
      rw [if_neg hA]
      interval_cases X <;> interval_cases y <;> interval_cases z <;> norm_num [abs_le]
    · intro hA
      have hA : ¬ y ≠ 1 := hA
      simp only [sample]
      rw [if_pos (not_not.1 hA)]; norm_num
  · intro b hb X hX
    have hX : X < 2 := hX
    refine ⟨fun _ => ?_, fun hc => absurd trivial hc⟩
    interval_cases X <;> norm_num [sample, abs_le]
  · have := mk b
    exact Fintype.card_pos

end Props.MaskedGrammar
