import Verif.Spec.HMMZero
import Verif.Spec.PCFGZero
import Verif.Props.PCFG
import Verif.Props.CFGInfinity
import Verif.Props.InfArgmax
import Verif.Props.InfEntropy

/-! C129: `SentCFG` over a probabilistic grammar some of whose probabilities are 0.

The tables given to `SentCFG` hold log-probabilities, so that a zero is `-inf`. -/

open Finset Spec
open CKY (Scores)
open Props.SentCFG (len Der dscore Long)
open Props.PCFG (Holds num joint row_weight mul_id sentence_derivs)
open Props.Conditional (Banned DerivAvoids)
open Props.CFGInfinity (forbidCfg weight prod_weight ph_weight)
open Props.InfArgmax (Pick)
open Autograd (IsArgmaxE)

noncomputable section
namespace Props.PCFGZero
variable {NT T V : ℕ}

/-! ### The tables -/

/-- The symbol with a number: first the nonterminals, then the preterminals (cky.py:18-31). -/
def symbol (NT T : ℕ) (y : ℕ) : Option (Fin NT ⊕ Fin T) :=
  if h : y < NT then some (.inl ⟨y, h⟩) else if h : y - NT < T then some (.inr ⟨y - NT, h⟩) else none

/-- The tables of probabilities of the grammar `G` for a batch of rows of `N` words, word `n` of row `b` being `x b n`. -/
def probs (G : PCFG NT T V) (batch N : ℕ) (x : ℕ → ℕ → Fin V) : Scores ℝ :=
  ⟨batch, N, T, NT, NT + T, fun b n t => if h : t < T then G.emit ⟨t, h⟩ (x b n) else 0,
    fun _ X y z => match symbol NT T X, symbol NT T y, symbol NT T z with
      | some (.inl X), some y, some z => G.rule X y z
      | _, _, _ => 0,
    fun _ X => if h : X < NT then G.root ⟨X, h⟩ else 0, none⟩

/-- The tables of log-probabilities, `-inf` for probability 0. -/
def tables (G : PCFG NT T V) (batch N : ℕ) (x : ℕ → ℕ → Fin V) : Scores EReal :=
  ⟨batch, N, T, NT, NT + T, fun b n t => logOrBot ((probs G batch N x).term b n t), fun b X y z => logOrBot ((probs G batch N x).rule b X y z),
    fun b X => logOrBot ((probs G batch N x).root b X), none⟩

/-- The words of row `b` that belong to the sentence. -/
def sent (N : ℕ) (lengths : Option (List ℕ)) (x : ℕ → ℕ → Fin V) (b : ℕ) : List (Fin V) := (List.range (lenOf N lengths b)).map (x b)

/-- The shapes are as `SentCFG` wants them, and every row has at least two words. -/
structure Shapes (NT T batch N : ℕ) (lengths : Option (List ℕ)) : Prop where
  nonterminals : 1 ≤ NT
  preterminals : 1 ≤ T
  rows : 1 ≤ batch
  words : 1 ≤ N
  lens : LengthsIn batch N lengths
  long : ∀ b < batch, 2 ≤ lenOf N lengths b

def pot (G : PCFG NT T V) (batch N : ℕ) (x : ℕ → ℕ → Fin V) : Scores ℝ :=
  ⟨batch, N, T, NT, NT + T, fun b n t => Real.log ((probs G batch N x).term b n t), fun b X y z => Real.log ((probs G batch N x).rule b X y z),
    fun b X => Real.log ((probs G batch N x).root b X), none⟩

def zeros (G : PCFG NT T V) (batch N : ℕ) (x : ℕ → ℕ → Fin V) : Banned :=
  ⟨fun b n t => (probs G batch N x).term b n t = 0, fun b X y z => (probs G batch N x).rule b X y z = 0, fun b X => (probs G batch N x).root b X = 0⟩

variable {G : PCFG NT T V} {batch N : ℕ} {x : ℕ → ℕ → Fin V} {lengths : Option (List ℕ)} {B : ℝ}

theorem tables_eq : tables G batch N x = forbidCfg (pot G batch N x) (zeros G batch N x) := by
  have key : ∀ {a : ℝ} [Decidable (a = 0)], logOrBot a = if a = 0 then ⊥ else (Real.log a : EReal) := fun {a} _ => by unfold logOrBot; split_ifs <;> rfl
  unfold tables forbidCfg pot zeros
  congr 1

theorem symbol_num (y : Fin NT ⊕ Fin T) : symbol NT T (num y) = some y := by
  cases y with
  | inl X => simp [symbol, num]
  | inr t => simp [symbol, num]

theorem rule_num (b : ℕ) (X : Fin NT) (y z : Fin NT ⊕ Fin T) : (probs G batch N x).rule b X (num y) (num z) = G.rule X y z := by
  have e : symbol NT T X = some (.inl X) := symbol_num (T := T) (.inl X)
  simp only [probs, e, symbol_num]

theorem term_fin (b n : ℕ) (t : Fin T) : (probs G batch N x).term b n t = G.emit t (x b n) := by simp [probs]

theorem root_fin (b : ℕ) (X : Fin NT) : (probs G batch N x).root b X = G.root X := by simp [probs]

theorem valid (h : Shapes NT T batch N lengths) : SentCFG.Valid (pot G batch N x) lengths :=
  ⟨rfl, h.nonterminals, h.preterminals, h.rows, h.words, h.lens, rfl⟩

theorem sent_length (b : ℕ) : (sent N lengths x b).length = lenOf N lengths b := by simp [sent]

theorem holds (b : ℕ) : Holds (fun a => a) (fun a => a) (probs G batch N x) G b (sent N lengths x b) where
  term := fun n hn t => by
    refine (term_fin b n t).trans ?_
    change G.emit t (x b n) = G.emit t (sent N lengths x b)[n]
    simp [sent]
  rule := fun X y z => rule_num b X y z
  root := fun X => root_fin b X

theorem expand_eq : ∀ (d : Deriv NT T) (w : List (Fin V)), G.expand d w = PCFGProofs.weight G d w
  | .leaf t, w => by
    unfold PCFG.expand PCFGProofs.weight
    rfl
  | .node X l r, w => by
    have e : ∀ d : Deriv NT T, PCFG.head d = PCFGProofs.top d := fun d => by cases d <;> rfl
    rw [PCFG.expand, PCFGProofs.weight, expand_eq l, expand_eq r, e, e]

theorem prob_eq (w : List (Fin V)) (d : Deriv NT T) : G.derivProb w d = joint G w d := by
  cases d with
  | leaf t => rfl
  | node X l r => rw [PCFG.derivProb, joint, expand_eq]

theorem row_prob (b : ℕ) (d : Derivs NT T (lenOf N lengths b)) :
    (probs G batch N x).root b d.1.sym * ((d.1.rules.map fun q => (probs G batch N x).rule b q.1 q.2.1 q.2.2).prod *
      ((d.1.words 0).map fun q => (probs G batch N x).term b q.1 q.2).prod) = G.derivProb (sent N lengths x b) d.1 := by
  rw [prob_eq]
  exact row_weight (p := probs G batch N x) mul_id (holds b) (sent_length b) d

theorem avoids_iff (b : ℕ) (d : Derivs NT T (lenOf N lengths b)) :
    DerivAvoids (zeros G batch N x) b d.1 ↔ G.derivProb (sent N lengths x b) d.1 ≠ 0 := by
  rw [← row_prob (batch := batch), DerivAvoids, mul_ne_zero_iff, mul_ne_zero_iff, Ne, Ne, Ne, List.prod_eq_zero_iff, List.prod_eq_zero_iff, List.mem_map, List.mem_map]
  push Not
  rfl

theorem prob_nonneg (w : List (Fin V)) (d : Deriv NT T) : 0 ≤ G.derivProb w d := by
  rw [prob_eq]
  cases d with
  | leaf t => exact le_rfl
  | node X l r => exact mul_nonneg (G.root_nonneg X) (PCFGProofs.weight_nonneg G _ _)

theorem log_list {α : Type} (l : List α) (f : α → ℝ) (h : (l.map f).prod ≠ 0) : (l.map fun q => Real.log (f q)).sum = Real.log (l.map f).prod := by
  induction l with
  | nil => simp
  | cons a l ih =>
    rw [List.map_cons, List.prod_cons] at h
    obtain ⟨h1, h2⟩ := mul_ne_zero_iff.1 h
    rw [List.map_cons, List.sum_cons, List.map_cons, List.prod_cons, Real.log_mul h1 h2, ih h2]

theorem score_eq (b : ℕ) (d : Derivs NT T (lenOf N lengths b)) (h : G.derivProb (sent N lengths x b) d.1 ≠ 0) :
    dscore (pot G batch N x) b d = Real.log (G.derivProb (sent N lengths x b) d.1) := by
  rw [← row_prob (batch := batch)] at h ⊢
  obtain ⟨h1, h23⟩ := mul_ne_zero_iff.1 h
  obtain ⟨h2, h3⟩ := mul_ne_zero_iff.1 h23
  rw [Real.log_mul h1 h23, Real.log_mul h2 h3, ← log_list _ _ h2, ← log_list _ _ h3]
  rfl

theorem exp_score (b : ℕ) (d : Derivs NT T (lenOf N lengths b)) [Decidable (DerivAvoids (zeros G batch N x) b d.1)] :
    (if DerivAvoids (zeros G batch N x) b d.1 then Real.exp (dscore (pot G batch N x) b d) else 0) = G.derivProb (sent N lengths x b) d.1 := by
  split_ifs with h
  · rw [avoids_iff] at h
    rw [score_eq b d h, Real.exp_log (lt_of_le_of_ne (prob_nonneg _ _) (Ne.symm h))]
  · rw [avoids_iff, not_not] at h
    exact h.symm

theorem sentence_sum (b : ℕ) : G.sentence (sent N lengths x b) = ∑ d : Derivs NT T (lenOf N lengths b), G.derivProb (sent N lengths x b) d.1 :=
  sentence_derivs G _ (G.derivProb (sent N lengths x b)) (fun X l r => by rw [PCFG.derivProb, expand_eq]) (sent_length b)

theorem possible_iff (b : ℕ) : 0 < G.sentence (sent N lengths x b) ↔ ∃ d : Der (pot G batch N x) lengths b, DerivAvoids (zeros G batch N x) b d.1 := by
  rw [sentence_sum]
  constructor
  · intro h
    by_contra hno
    push Not at hno
    refine h.ne' (sum_eq_zero fun d _ => ?_)
    by_contra h0
    exact hno d ((avoids_iff b d).2 h0)
  · rintro ⟨d, hd⟩
    exact sum_pos' (fun d _ => prob_nonneg _ _) ⟨d, mem_univ _, lt_of_le_of_ne (prob_nonneg _ _) (Ne.symm ((avoids_iff b d).1 hd))⟩

theorem le_one_of_sum {ι : Type} [Fintype ι] {f : ι → ℝ} (h0 : ∀ i, 0 ≤ f i) (h1 : ∑ i, f i = 1) (i : ι) : f i ≤ 1 :=
  h1 ▸ single_le_sum (fun i _ => h0 i) (mem_univ i)

theorem bounded (hB0 : 0 ≤ B) (hB : G.AtLeast (Real.exp (-B))) : SentCFG.Bounded (pot G batch N x) lengths B := by
  have key : ∀ a : ℝ, a = 0 ∨ Real.exp (-B) ≤ a → a ≤ 1 → |Real.log a| ≤ B := by
    rintro a (rfl | h) h1
    · simpa using hB0
    · have ha := (Real.exp_pos (-B)).trans_le h
      rw [abs_of_nonpos (Real.log_nonpos ha.le h1)]
      linarith [(Real.le_log_iff_exp_le ha).2 h]
  refine ⟨hB0, fun b _ n _ t ht => ?_, fun b _ X hX y hy z hz => ?_, fun b _ X hX => ?_⟩
  · refine key _ ?_ ?_
    · rw [show t = ((⟨t, ht⟩ : Fin T) : ℕ) from rfl, term_fin]
      exact hB.emit _ _
    · rw [show t = ((⟨t, ht⟩ : Fin T) : ℕ) from rfl, term_fin]
      exact le_one_of_sum (G.emit_nonneg _) (G.emit_sum _) _
  · have num_of : ∀ y < NT + T, ∃ s : Fin NT ⊕ Fin T, y = num s := fun y hy => by
      by_cases h : y < NT
      · exact ⟨.inl ⟨y, h⟩, rfl⟩
      · exact ⟨.inr ⟨y - NT, by omega⟩, by simp only [num]; omega⟩
    obtain ⟨s, rfl⟩ := num_of y hy
    obtain ⟨u, rfl⟩ := num_of z hz
    refine key _ ?_ ?_
    · rw [show X = ((⟨X, hX⟩ : Fin NT) : ℕ) from rfl, rule_num]
      exact hB.rule _ _ _
    · rw [show X = ((⟨X, hX⟩ : Fin NT) : ℕ) from rfl, rule_num]
      have h1 := le_one_of_sum (fun y => sum_nonneg fun z _ => G.rule_nonneg ⟨X, hX⟩ y z) (G.rule_sum ⟨X, hX⟩) s
      exact (single_le_sum (f := fun z => G.rule ⟨X, hX⟩ s z) (fun z _ => G.rule_nonneg _ _ _) (mem_univ u)).trans h1
  · refine key _ ?_ ?_
    · rw [show X = ((⟨X, hX⟩ : Fin NT) : ℕ) from rfl, root_fin]
      exact hB.root _
    · rw [show X = ((⟨X, hX⟩ : Fin NT) : ℕ) from rfl, root_fin]
      exact le_one_of_sum G.root_nonneg G.root_sum _

/-! ### The sentence probability -/

/-- How far the stand-in `-1e5` for `log 0` can move the results: `L` words in the row, positive probabilities at least `exp (-B)`. -/
def gap (NT T L : ℕ) (B : ℝ) : ℝ := ((2 * NT + T) ^ (2 * L) : ℕ) * Real.exp (4 * L * B - 100000)

/-- The largest value of `partition` for a sentence of probability 0. -/
def floor (NT T L : ℕ) (B : ℝ) : ℝ := Real.log ((2 * NT + T) ^ (2 * L) : ℕ) + (2 * L * B - 100000)

theorem log_of {e : EReal} {y : ℝ} (h : TreeBackwardProofs.LogOf e y) (hy : 0 < y) : e = (Real.log y : ℝ) := by
  refine EReal.exp_strictMono.injective ?_
  rw [h.2, EReal.exp_coe, Real.exp_log hy]

theorem log_le {e : EReal} {y c : ℝ} (h : TreeBackwardProofs.LogOf e y) (hy : y ≤ Real.exp c) : e ≤ (c : ℝ) := by
  rw [← EReal.exp_strictMono.le_iff_le, h.2, EReal.exp_coe]
  exact ENNReal.ofReal_le_ofReal hy

/-- The value of a row is the logarithm of the sentence probability plus a rest. -/
theorem row_value (h : Shapes NT T batch N lengths) (hB0 : 0 ≤ B) (hB : G.AtLeast (Real.exp (-B))) (b : ℕ) (hb : b < batch) :
    ∃ Y : ℝ, 0 ≤ Y ∧ Y ≤ ((2 * NT + T) ^ (2 * lenOf N lengths b) : ℕ) * Real.exp (-100000 + 2 * lenOf N lengths b * B) ∧
      TreeBackwardProofs.LogOf (CKY.logZ CFGBackward.sr (forbidCfg (pot G batch N x) (zeros G batch N x)) (CKYCRF.lensOr batch N lengths) b b)
        (G.sentence (sent N lengths x b) + Y) := by
  classical
  have hv := valid (G := G) (x := x) h
  have hbd := bounded (batch := batch) (N := N) (x := x) (lengths := lengths) hB0 hB
  have hL : 1 ≤ lenOf N lengths b := (CKYCRFProofs.len_in h.words h.lens b hb).1
  have hN : lenOf N lengths b ≤ N := SentCFG.len_le hv b hb
  have k := (CFGInfinity.row hv (zeros G batch N x) b).all (CFGInfinity.last_eq hv b hb) (show lenOf N lengths b - 1 < N by omega)
  refine ⟨∑ t : CKYProofs.Ph NT T (lenOf N lengths b), ((CKYProofs.phAtoms false b t).map (weight (pot G batch N x) (zeros G batch N x) b)).prod,
    sum_nonneg fun t _ => (ph_weight hbd b hb t).1, ?_, ?_⟩
  · have k1 : ∀ t : CKYProofs.Ph NT T (lenOf N lengths b), ((CKYProofs.phAtoms false b t).map (weight (pot G batch N x) (zeros G batch N x) b)).prod ≤
        Real.exp (-100000 + 2 * lenOf N lengths b * B) := fun t => (ph_weight hbd b hb t).2
    refine (sum_le_sum fun t _ => k1 t).trans ?_
    rw [sum_const, nsmul_eq_mul, card_univ]
    exact mul_le_mul_of_nonneg_right (by exact_mod_cast SentCFG.card_ph NT T (lenOf N lengths b)) (Real.exp_pos _).le
  · refine (congrArg (TreeBackwardProofs.LogOf _) (Eq.trans ?_ (CFGBackwardProofs.rowTotal_eq (lenOf N lengths b) hL).symm)).mpr k
    rw [sentence_sum]
    congr 1
    refine sum_congr rfl fun d _ => ?_
    exact (exp_score b d).symm.trans (CFGInfinity.deriv_weight (p := pot G batch N x) b d).symm

/-- **C129.** `partition` of a row is the logarithm of the probability that the grammar generates its sentence, up to `gap`; for a sentence that the grammar cannot
generate it is `-inf` or at most `floor`. -/
theorem likelihood (h : Shapes NT T batch N lengths) (hB0 : 0 ≤ B) (hB : G.AtLeast (Real.exp (-B))) :
    ∃ vs, Dist.partitionE CKY.algo lengths (tables G batch N x) = .ok vs ∧ vs.length = batch ∧ ∀ b (hb : b < vs.length),
      (0 < G.sentence (sent N lengths x b) → ∃ v : ℝ, vs[b] = v ∧ Real.log (G.sentence (sent N lengths x b)) ≤ v ∧
        v ≤ Real.log (G.sentence (sent N lengths x b)) + gap NT T (lenOf N lengths b) B) ∧
      (G.sentence (sent N lengths x b) = 0 → vs[b] ≤ (floor NT T (lenOf N lengths b) B : ℝ)) := by
  have hv := valid (G := G) (x := x) h
  have hbd := bounded (batch := batch) (N := N) (x := x) (lengths := lengths) hB0 hB
  have e : Dist.partitionE CKY.algo lengths (tables G batch N x) = .ok ((List.range batch).map fun b =>
      CKY.logZ CFGBackward.sr (forbidCfg (pot G batch N x) (zeros G batch N x)) (CKYCRF.lensOr batch N lengths) b b) := by
    rw [tables_eq]
    refine (CKYProofs.logpartition_ok CFGBackward.sr _ lengths (CFGInfinity.forbid_valid hv _)).trans ?_
    congr 1
    refine List.map_congr_left fun b hb => ?_
    have k := CFGInfinity.last_eq hv b (List.mem_range.1 hb)
    simp only [CKY.logZ, CKY.top]
    change CKYCRF.lastIndex N ((CKYCRF.lensOr batch N lengths).getD b 0) = lenOf N lengths b - 1 at k
    change _ = CFGBackward.sr.dot ((List.range NT).map fun X => (CKY.charts CFGBackward.sr _).1 b 0 (CKYCRF.lastIndex N _) X) _
    rw [k]
    rfl
  refine ⟨_, e, by simp, fun b hb => ?_⟩
  have hb' : b < batch := by simpa using hb
  rw [List.getElem_map, List.getElem_range]
  obtain ⟨Y, y0, y1, hl⟩ := row_value (x := x) h hB0 hB b hb'
  generalize CKY.logZ CFGBackward.sr _ _ b b = r at hl
  constructor
  · intro hpos
    refine ⟨_, log_of hl (by linarith), Real.log_le_log hpos (by linarith), ?_⟩
    obtain ⟨d, hd⟩ : ∃ d : Derivs NT T (lenOf N lengths b), DerivAvoids (zeros G batch N x) b d.1 := (possible_iff (batch := batch) b).1 hpos
    have hS : Real.exp (-(2 * lenOf N lengths b * B)) ≤ G.sentence (sent N lengths x b) := by
      rw [sentence_sum]
      refine le_trans ?_ (single_le_sum (f := fun d : Derivs NT T (lenOf N lengths b) => G.derivProb (sent N lengths x b) d.1) (fun d _ => prob_nonneg _ _) (mem_univ d))
      have h0 := (avoids_iff b d).1 hd
      change _ ≤ G.derivProb (sent N lengths x b) d.1
      rw [← Real.exp_log (lt_of_le_of_ne (prob_nonneg _ _) (Ne.symm h0)), ← score_eq (batch := batch) b d h0]
      exact Real.exp_le_exp.2 (abs_le.1 (SentCFG.real_le hv hbd b hb' d)).1
    have hg : Y ≤ gap NT T (lenOf N lengths b) B * G.sentence (sent N lengths x b) := by
      refine le_trans (y1.trans_eq ?_) (mul_le_mul_of_nonneg_left hS (mul_nonneg (Nat.cast_nonneg _) (Real.exp_nonneg _)))
      rw [gap, mul_assoc (((2 * NT + T) ^ (2 * lenOf N lengths b) : ℕ) : ℝ) (Real.exp _) (Real.exp _), ← Real.exp_add]
      congr 2
      ring
    have e2 : G.sentence (sent N lengths x b) + Y = G.sentence (sent N lengths x b) * (1 + Y / G.sentence (sent N lengths x b)) := by
      field_simp
    have hq : 0 ≤ Y / G.sentence (sent N lengths x b) := div_nonneg y0 hpos.le
    rw [e2, Real.log_mul hpos.ne' (by linarith)]
    have := Real.log_le_sub_one_of_pos (show 0 < 1 + Y / G.sentence (sent N lengths x b) by linarith)
    have h3 : Y / G.sentence (sent N lengths x b) ≤ gap NT T (lenOf N lengths b) B := (div_le_iff₀ hpos).2 hg
    linarith
  · intro hS
    refine log_le hl ?_
    rw [hS, zero_add]
    have hc : (0 : ℝ) < ((2 * NT + T) ^ (2 * lenOf N lengths b) : ℕ) := by
      have := h.nonterminals
      exact_mod_cast Nat.pow_pos (by omega)
    rw [floor, Real.exp_add, Real.exp_log hc]
    refine y1.trans_eq ?_
    congr 2
    ring

/-! ### Marginals -/

/-- The marginals of row `b` are the expected numbers of uses given the sentence, up to `ε`.  `val m v` says what the entry `m` has to do with the number `v`. -/
structure Posterior (val : IEEE → ℝ → Prop) (G : PCFG NT T V) (N : ℕ) (w : List (Fin V)) (μ : CFGBackward.Marginals) (b : ℕ) (ε : ℝ) : Prop where
  term : ∀ n < N, ∀ t : Fin T, ∃ v : ℝ, val (μ.term b n t) v ∧ |v - G.posterior w fun d => ((d.words 0).count (n, (t : ℕ)) : ℝ)| ≤ ε
  rule : ∀ (X : Fin NT) (y z : Fin NT ⊕ Fin T), ∃ v : ℝ, val (μ.rule b X (num y) (num z)) v ∧ |v - G.posterior w fun d => (d.rules.count ((X : ℕ), num y, num z) : ℝ)| ≤ ε
  root : ∀ X : Fin NT, ∃ v : ℝ, val (μ.root b X) v ∧ |v - G.posterior w fun d => if d.sym = X then 1 else 0| ≤ ε
  spans : ∀ k i, i + (k + 1) < N → ∀ X : Fin NT, ∃ v : ℝ, val (μ.spans b k i X) v ∧ |v - G.posterior w fun d => ((d.spans 0).count (i, i + k + 1, (X : ℕ)) : ℝ)| ≤ ε

theorem posterior_eq (b : ℕ) (f : Deriv NT T → ℝ) (hpos : 0 < G.sentence (sent N lengths x b)) :
    Gibbs.condExpect (dscore (pot G batch N x) b) (fun d : Der (pot G batch N x) lengths b => DerivAvoids (zeros G batch N x) b d.1) (fun d => f d.1) =
      G.posterior (sent N lengths x b) f := by
  classical
  obtain ⟨d0, -⟩ := (possible_iff (batch := batch) b).1 hpos
  have : Nonempty (Der (pot G batch N x) lengths b) := ⟨d0⟩
  rw [CFGInfinity.condExpect_eq]
  have e : ∀ d : Der (pot G batch N x) lengths b, (if DerivAvoids (zeros G batch N x) b d.1 then Real.exp (dscore (pot G batch N x) b d) else 0) =
    G.derivProb (sent N lengths x b) d.1 := fun d => exp_score b d
  simp only [e]
  rw [PCFG.posterior, sentence_sum, sent_length]
  rfl

theorem close {val : IEEE → ℝ → Prop} {μ : CFGBackward.Marginals} {b : ℕ} {ε : ℝ} (hpos : 0 < G.sentence (sent N lengths x b))
    (c : CFGInfinity.Close val (pot G batch N x) lengths (zeros G batch N x) μ b ε) : Posterior val G N (sent N lengths x b) μ b ε := by
  have num_lt : ∀ s : Fin NT ⊕ Fin T, num s < NT + T := fun s => by
    cases s with
    | inl X => have := X.2; simp only [num]; omega
    | inr t => have := t.2; simp only [num]; omega
  refine ⟨fun n hn t => ?_, fun X y z => ?_, fun X => ?_, fun k i hi X => ?_⟩
  · obtain ⟨v, h1, h2⟩ := c.term n hn t t.2
    exact ⟨v, h1, le_of_eq_of_le (congrArg (fun a => |v - a|) (posterior_eq b (fun d => ((d.words 0).count (n, (t : ℕ)) : ℝ)) hpos).symm) h2⟩
  · obtain ⟨v, h1, h2⟩ := c.rule X X.2 _ (num_lt y) _ (num_lt z)
    exact ⟨v, h1, le_of_eq_of_le (congrArg (fun a => |v - a|) (posterior_eq b (fun d => (d.rules.count ((X : ℕ), num y, num z) : ℝ)) hpos).symm) h2⟩
  · obtain ⟨v, h1, h2⟩ := c.root X X.2
    exact ⟨v, h1, le_of_eq_of_le (congrArg (fun a => |v - a|) (posterior_eq b (fun d => if d.sym = X then 1 else 0) hpos).symm) h2⟩
  · obtain ⟨v, h1, h2⟩ := c.spans k i hi X X.2
    exact ⟨v, h1, le_of_eq_of_le (congrArg (fun a => |v - a|) (posterior_eq b (fun d => ((d.spans 0).count (i, i + k + 1, (X : ℕ)) : ℝ)) hpos).symm) h2⟩

/-- **C129.** Every marginal of a sentence that the grammar can generate is NaN or the expected number of uses given the sentence. -/
theorem posterior_or_nan (h : Shapes NT T batch N lengths) (hB0 : 0 ≤ B) (hB : G.AtLeast (Real.exp (-B))) :
    ∃ μ, CFGBackward.marginals Slope.plain (tables G batch N x) lengths = .ok μ ∧ ∀ b < batch, 0 < G.sentence (sent N lengths x b) →
      Posterior (fun m v => m = IEEE.nan ∨ m = IEEE.ofReal v) G N (sent N lengths x b) μ b (gap NT T (lenOf N lengths b) B * (3 * N)) := by
  obtain ⟨μ, h1, h2⟩ := CFGInfinity.plain_spec (pot G batch N x) lengths (valid h) h.long (bounded hB0 hB) (zeros G batch N x)
  exact ⟨μ, tables_eq ▸ h1, fun b hb hpos => close hpos (h2 b hb ((possible_iff b).1 hpos))⟩

theorem open_iff (b : ℕ) : CFGInfinity.Open (zeros G batch N x) b N NT T ↔ G.Everywhere N (x b) := by
  have hr : ∀ (X : Fin NT) (y z : Fin NT ⊕ Fin T), (zeros G batch N x).rule b X (num y) (num z) ↔ G.rule X y z = 0 := fun X y z => by
    rw [← rule_num (batch := batch) (N := N) (x := x) b X y z]; rfl
  have ht : ∀ n (t : Fin T), (zeros G batch N x).term b n t ↔ G.emit t (x b n) = 0 := fun n t => by
    rw [← term_fin (batch := batch) (N := N)]; rfl
  constructor
  · intro o
    refine ⟨fun X => ?_, fun X n hn => ?_, fun X n hn => ?_, fun X n hn => ?_⟩
    · obtain ⟨y, hy, z, hz, h1⟩ := o.both X X.2
      exact ⟨⟨y, hy⟩, ⟨z, hz⟩, fun h0 => h1 ((hr X (.inl ⟨y, hy⟩) (.inl ⟨z, hz⟩)).2 h0)⟩
    · obtain ⟨y, hy, t, ht', h1, h2⟩ := o.right X X.2 n hn
      exact ⟨⟨y, hy⟩, ⟨t, ht'⟩, fun h0 => h1 ((hr X (.inl ⟨y, hy⟩) (.inr ⟨t, ht'⟩)).2 h0), fun h0 => h2 ((ht _ ⟨t, ht'⟩).2 h0)⟩
    · obtain ⟨t, ht', z, hz, h1, h2⟩ := o.left X X.2 n hn
      exact ⟨⟨t, ht'⟩, ⟨z, hz⟩, fun h0 => h1 ((hr X (.inr ⟨t, ht'⟩) (.inl ⟨z, hz⟩)).2 h0), fun h0 => h2 ((ht _ ⟨t, ht'⟩).2 h0)⟩
    · obtain ⟨t, ht', u, hu, h1, h2, h3⟩ := o.words X X.2 n hn
      exact ⟨⟨t, ht'⟩, ⟨u, hu⟩, fun h0 => h1 ((hr X (.inr ⟨t, ht'⟩) (.inr ⟨u, hu⟩)).2 h0), fun h0 => h2 ((ht _ ⟨t, ht'⟩).2 h0), fun h0 => h3 ((ht _ ⟨u, hu⟩).2 h0)⟩
  · intro o
    refine ⟨fun X hX => ?_, fun X hX n hn => ?_, fun X hX n hn => ?_, fun X hX n hn => ?_, ?_⟩
    · obtain ⟨y, z, h1⟩ := o.both ⟨X, hX⟩
      exact ⟨y, y.2, z, z.2, fun h0 => h1 ((hr ⟨X, hX⟩ (.inl y) (.inl z)).1 h0)⟩
    · obtain ⟨y, t, h1, h2⟩ := o.right ⟨X, hX⟩ n hn
      exact ⟨y, y.2, t, t.2, fun h0 => h1 ((hr ⟨X, hX⟩ (.inl y) (.inr t)).1 h0), fun h0 => h2 ((ht _ t).1 h0)⟩
    · obtain ⟨t, z, h1, h2⟩ := o.left ⟨X, hX⟩ n hn
      exact ⟨t, t.2, z, z.2, fun h0 => h1 ((hr ⟨X, hX⟩ (.inr t) (.inl z)).1 h0), fun h0 => h2 ((ht _ t).1 h0)⟩
    · obtain ⟨t, u, h1, h2, h3⟩ := o.words ⟨X, hX⟩ n hn
      exact ⟨t, t.2, u, u.2, fun h0 => h1 ((hr ⟨X, hX⟩ (.inr t) (.inr u)).1 h0), fun h0 => h2 ((ht _ t).1 h0), fun h0 => h3 ((ht _ u).1 h0)⟩
    · by_contra hno
      push Not at hno
      have : ∑ X, G.root X = 0 := sum_eq_zero fun X _ => by
        rw [← root_fin (batch := batch) (N := N) (x := x) b X]; exact hno X X.2
      rw [G.root_sum] at this
      exact one_ne_zero this

/-- **C129.** No marginal of a row is NaN exactly if every nonterminal has, for every place in the table, a rule of positive probability of every kind.  Then the marginals
are the posteriors. -/
theorem nan_iff (h : Shapes NT T batch N lengths) (hB0 : 0 ≤ B) (hB : G.AtLeast (Real.exp (-B))) :
    ∃ μ, CFGBackward.marginals Slope.plain (tables G batch N x) lengths = .ok μ ∧ ∀ b < batch,
      (CFGInfinity.NoNan μ b N NT T ↔ G.Everywhere N (x b)) ∧
      (G.Everywhere N (x b) → 0 < G.sentence (sent N lengths x b) →
        Posterior (fun m v => m = IEEE.ofReal v) G N (sent N lengths x b) μ b (gap NT T (lenOf N lengths b) B * (3 * N))) := by
  have hN : 2 ≤ N := (h.long 0 h.rows).trans (SentCFG.len_le (valid (G := G) (x := x) h) 0 h.rows)
  obtain ⟨μ, h1, h2⟩ := CFGInfinity.plain_iff (pot G batch N x) lengths (valid h) hN (zeros G batch N x)
  obtain ⟨μ', h1', h3⟩ := CFGInfinity.open_spec (pot G batch N x) lengths (valid h) h.long (bounded hB0 hB) (zeros G batch N x)
  obtain rfl : μ = μ' := Except.ok.inj (h1.symm.trans h1')
  exact ⟨μ, tables_eq ▸ h1, fun b hb => ⟨(h2 b hb).trans (open_iff b), fun ho hpos => close hpos (h3 b hb ((open_iff b).2 ho) ((possible_iff b).1 hpos))⟩⟩

/-- **C129.** If the grammar has a nonterminal without a rule with two nonterminals, or without one with a nonterminal and a preterminal, or without one with a preterminal and
a nonterminal, then all marginals of rules and preterminals are NaN, for every sentence in a table of at least three words. -/
theorem always_nan (h : Shapes NT T batch N lengths) (h3 : 3 ≤ N) (X : Fin NT)
    (hX : (∀ y z, G.rule X (.inl y) (.inl z) = 0) ∨ (∀ y t, G.rule X (.inl y) (.inr t) = 0) ∨ ∀ t z, G.rule X (.inr t) (.inl z) = 0) :
    ∃ μ, CFGBackward.marginals Slope.plain (tables G batch N x) lengths = .ok μ ∧ ∀ b < batch,
      (∀ n < N, ∀ t < T, μ.term b n t = IEEE.nan) ∧ ∀ Y < NT, ∀ y < NT + T, ∀ z < NT + T, μ.rule b Y y z = IEEE.nan := by
  obtain ⟨μ, h1, h2⟩ := CFGInfinity.stuck_nan (pot G batch N x) lengths (valid h) h3 (zeros G batch N x)
  refine ⟨μ, tables_eq ▸ h1, fun b hb => h2 b hb ⟨X, X.2, ?_⟩⟩
  rcases hX with hX | hX | hX
  · exact Or.inl fun y hy z hz => (rule_num b X (.inl ⟨y, hy⟩) (.inl ⟨z, hz⟩)).trans (hX _ _)
  · exact Or.inr (Or.inl fun y hy t ht => (rule_num b X (.inl ⟨y, hy⟩) (.inr ⟨t, ht⟩)).trans (hX _ _))
  · exact Or.inr (Or.inr fun t ht z hz => (rule_num b X (.inr ⟨t, ht⟩) (.inl ⟨z, hz⟩)).trans (hX _ _))

/-! ### The best derivation -/

/-- **C129.** `argmax` is a derivation of the largest posterior probability and `max` the logarithm of its joint probability with the sentence, if the grammar can generate the
sentence and `4 N B < 1e5`, where `exp (-B)` is at most the smallest positive probability. -/
theorem viterbi (h : Shapes NT T batch N lengths) (hB0 : 0 ≤ B) (hB : G.AtLeast (Real.exp (-B))) (hsmall : 4 * N * B < 100000) {pick : Pick} (hp : IsArgmaxE Prod.fst pick) :
    ∃ μ vs, CKY.argmaxE (tables G batch N x) lengths pick = .ok μ ∧ Dist.maxE CKY.algo (tables G batch N x) lengths = .ok vs ∧ vs.length = batch ∧
      ∀ b (hb : b < vs.length), 0 < G.sentence (sent N lengths x b) → ∃ d : Derivs NT T (lenOf N lengths b), 0 < G.derivProb (sent N lengths x b) d.1 ∧
        vs[b] = (Real.log (G.derivProb (sent N lengths x b) d.1) : ℝ) ∧
        (∀ d' : Derivs NT T (lenOf N lengths b), G.derivProb (sent N lengths x b) d'.1 ≤ G.derivProb (sent N lengths x b) d.1) ∧ SentCFG.IsParts μ b d := by
  obtain ⟨μ, vs, h1, h2, h3, h4⟩ := InfArgmax.grammar_spec (pot G batch N x) lengths (valid h) h.long (bounded hB0 hB) hsmall (zeros G batch N x) hp
  refine ⟨μ, vs, tables_eq ▸ h1, tables_eq ▸ h2, h3, fun b hb hpos => ?_⟩
  obtain ⟨d, a1, a2, a3, a4⟩ := h4 b hb ((possible_iff b).1 hpos)
  have d0 := (avoids_iff b d).1 a1
  have dpos := lt_of_le_of_ne (prob_nonneg _ _) (Ne.symm d0)
  refine ⟨d, dpos, a2.trans (congrArg _ (score_eq b d d0)), fun d' => ?_, a4⟩
  by_cases h0 : G.derivProb (sent N lengths x b) d'.1 = 0
  · rw [h0]; exact dpos.le
  · have := a3 d' ((avoids_iff b d').2 h0)
    exact (Real.log_le_log_iff (lt_of_le_of_ne (prob_nonneg _ _) (Ne.symm h0)) dpos).1
      ((score_eq (batch := batch) b d' h0).symm.trans_le (this.trans_eq (score_eq b d d0)))

/-- **C129.** `entropy` of a row is NaN if its sentence has a derivation of probability 0 and one of positive probability. -/
theorem entropy_nan (h : Shapes NT T batch N lengths) :
    ∃ vs, Dist.entropyE CKY.algo (tables G batch N x) lengths = .ok vs ∧ ∀ b < batch, 0 < G.sentence (sent N lengths x b) →
      (∃ d : Derivs NT T (lenOf N lengths b), G.derivProb (sent N lengths x b) d.1 = 0) → vs[b]? = some IEEE.nan := by
  obtain ⟨vs, us, h1, h2, h3⟩ := InfEntropy.grammar_entropy (pot G batch N x) lengths (valid h) (zeros G batch N x)
  refine ⟨vs, tables_eq ▸ h1, fun b hb hpos => ?_⟩
  rintro ⟨d, hd⟩
  exact (h3.2.2 b hb).1 ⟨⟨d, fun ha => (avoids_iff b d).1 ha hd⟩, (possible_iff b).1 hpos⟩

/-! ### Examples -/

/-- A sentence with a derivation of positive probability has positive probability. -/
theorem pos_of (b : ℕ) (d : Derivs NT T (lenOf N lengths b)) (hd : 0 < G.derivProb (sent N lengths x b) d.1) : 0 < G.sentence (sent N lengths x b) := by
  rw [sentence_sum]
  exact sum_pos' (fun d _ => prob_nonneg _ _) ⟨d, mem_univ _, hd⟩

/-- A left-branching grammar: the only nonterminal is rewritten as itself and a preterminal, or as two preterminals.  The preterminal becomes word 0, never word 1. -/
def leftward : PCFG 1 1 2 where
  root _ := 1
  rule _ y z := match y, z with
    | _, .inl _ => 0
    | _, .inr _ => 1 / 2
  emit _ v := if v = 0 then 1 else 0
  root_nonneg _ := zero_le_one
  rule_nonneg _ y z := by cases z <;> norm_num
  emit_nonneg _ v := by split_ifs <;> norm_num
  root_sum := by simp
  rule_sum _ := by simp
  emit_sum _ := by simp

theorem leftward_least : leftward.AtLeast (Real.exp (-1)) := by
  have e1 : Real.exp (-1) ≤ 1 / 2 := by
    rw [Real.exp_neg, one_div]
    refine inv_anti₀ (by norm_num) ?_
    have := Real.add_one_le_exp (1 : ℝ)
    linarith
  refine ⟨fun _ => Or.inr (e1.trans (by norm_num [leftward])), fun _ y z => ?_, fun _ v => ?_⟩
  · cases z with
    | inl z => exact Or.inl rfl
    | inr z => exact Or.inr e1
  · by_cases h : v = 0
    · exact Or.inr (e1.trans (by simp [leftward, h]; norm_num))
    · exact Or.inl (by simp [leftward, h])

/-- Two rows of three words: the second one contains word 1 at its end, past its length. -/
def text : ℕ → ℕ → Fin 2 := fun b n => if b = 1 ∧ n = 2 then 1 else 0

theorem text_shapes : Shapes 1 1 2 3 (some [3, 2]) where
  nonterminals := le_rfl
  preterminals := le_rfl
  rows := by decide
  words := by decide
  lens := ⟨rfl, by decide⟩
  long := fun b hb => by
    interval_cases b <;> decide

/-- The derivation of the three words of row 0. -/
def tree₀ : Derivs 1 1 (lenOf 3 (some [3, 2]) 0) := ⟨.node 0 (.node 0 (.leaf 0) (.leaf 0)) (.leaf 0), rfl, rfl⟩

/-- A derivation that the grammar does not have. -/
def tree₁ : Derivs 1 1 (lenOf 3 (some [3, 2]) 0) := ⟨.node 0 (.leaf 0) (.node 0 (.leaf 0) (.leaf 0)), rfl, rfl⟩

theorem tree₀_prob : 0 < leftward.derivProb (sent 3 (some [3, 2]) text 0) tree₀.1 := by
  have e : sent 3 (some [3, 2]) text 0 = [0, 0, 0] := rfl
  rw [e]
  simp [tree₀, PCFG.derivProb, PCFG.expand, PCFG.head, GTree.size, leftward]

theorem tree₁_prob : leftward.derivProb (sent 3 (some [3, 2]) text 0) tree₁.1 = 0 := by
  have e : sent 3 (some [3, 2]) text 0 = [0, 0, 0] := rfl
  rw [e]
  simp [tree₁, PCFG.derivProb, PCFG.expand, PCFG.head, GTree.size, leftward]

/-- The hypotheses are met: the sentence has positive probability, and `partition` and `argmax` are right, but all marginals of rules and preterminals are NaN, and so is
the entropy. -/
example : 0 < leftward.sentence (sent 3 (some [3, 2]) text 0) ∧
    (∃ μ, CFGBackward.marginals Slope.plain (tables leftward 2 3 text) (some [3, 2]) = .ok μ ∧ μ.term 0 0 0 = IEEE.nan ∧ μ.rule 0 0 1 1 = IEEE.nan) ∧
    (∃ vs, Dist.entropyE CKY.algo (tables leftward 2 3 text) (some [3, 2]) = .ok vs ∧ vs[0]? = some IEEE.nan) ∧ 4 * ((3 : ℕ) : ℝ) * 1 < 100000 := by
  have hpos := pos_of 0 tree₀ tree₀_prob
  refine ⟨hpos, ?_, ?_, by norm_num⟩
  · obtain ⟨μ, h1, h2⟩ := always_nan (x := text) text_shapes le_rfl (G := leftward) 0 (Or.inl fun _ _ => rfl)
    exact ⟨μ, h1, (h2 0 (by decide)).1 0 (by decide) 0 (by decide), (h2 0 (by decide)).2 0 (by decide) 1 (by decide) 1 (by decide)⟩
  · obtain ⟨vs, h1, h2⟩ := entropy_nan (G := leftward) (x := text) text_shapes
    exact ⟨vs, h1, h2 0 (by decide) hpos ⟨tree₁, tree₁_prob⟩⟩

/-- A grammar with zeros only in the words: the preterminals can be just one word each. -/
def tagged : PCFG 1 2 2 where
  root _ := 1
  rule _ _ _ := 1 / 9
  emit t v := if t = v then 1 else 0
  root_nonneg _ := zero_le_one
  rule_nonneg _ _ _ := by norm_num
  emit_nonneg t v := by split_ifs <;> norm_num
  root_sum := by simp
  rule_sum _ := by simp; norm_num
  emit_sum t := by simp

/-- Its marginals are never NaN. -/
example (N : ℕ) (x : ℕ → Fin 2) : tagged.Everywhere N x where
  both _ := ⟨0, 0, by norm_num [tagged]⟩
  right _ n _ := ⟨0, x (n + 1), by norm_num [tagged], by simp [tagged]⟩
  left _ n _ := ⟨x n, 0, by norm_num [tagged], by simp [tagged]⟩
  words _ n _ := ⟨x n, x (n + 1), by norm_num [tagged], by simp [tagged], by simp [tagged]⟩

end Props.PCFGZero
