import Mathlib.Analysis.SpecialFunctions.Log.ENNRealLogExp
import Verif.Proofs.PCFG
import Verif.Props.SentCFG

/-! Property theorems about `SentCFG` over a probabilistic grammar: C89. -/

open Finset Spec

noncomputable section
namespace Props.PCFG
open _root_.CKY hiding top
open Props.SentCFG PCFGProofs

/-- The number of a symbol in the table of rules: first the nonterminals, then the preterminals (cky.py:18-31). -/
def num {NT T : ℕ} : Fin NT ⊕ Fin T → ℕ
  | .inl X => X
  | .inr t => NT + t

/-- Row `b` of the tables holds the probabilities of the grammar `G` for the sentence `w`.  `f` says how a table entry is read. -/
structure Holds {γ R : Type} {V : ℕ} (f : γ → R) (φ : ℝ → R) (p : Scores γ) (G : Spec.PCFG p.NT p.T V) (b : ℕ) (w : List (Fin V)) : Prop where
  term : ∀ (n : ℕ) (hn : n < w.length) (t : Fin p.T), f (p.term b n t) = φ (G.emit t w[n])
  rule : ∀ X y z, f (p.rule b (X : Fin p.NT) (num y) (num z)) = φ (G.rule X y z)
  root : ∀ X : Fin p.NT, f (p.root b X) = φ (G.root X)

/-- The words of row `b`: as many as its length says. -/
def Words {γ : Type} {V : ℕ} (p : Scores γ) (lengths : Option (List ℕ)) (w : ℕ → List (Fin V)) : Prop :=
  ∀ b < p.batch, (w b).length = len p lengths b

theorem num_top {NT T : ℕ} (d : Deriv NT T) : d.sym = num (top d) := by cases d <;> rfl

/-- `φ` multiplies. -/
structure Mul {R : Type} [CommSemiring R] (φ : ℝ → R) : Prop where
  one : φ 1 = 1
  mul : ∀ x y, 0 ≤ x → 0 ≤ y → φ (x * y) = φ x * φ y

theorem deriv_weight {R : Type} [CommSemiring R] {φ : ℝ → R} (hφ : Mul φ) {NT T V : ℕ} (G : Spec.PCFG NT T V) (term : ℕ → ℕ → R)
    (rule : ℕ → ℕ → ℕ → R) (hr : ∀ (X : Fin NT) y z, rule X (num y) (num z) = φ (G.rule X y z)) : ∀ (d : Deriv NT T) (i : ℕ) (w : List (Fin V)),
    w.length = d.size → (∀ (n : ℕ) (hn : n < w.length) (t : Fin T), term (i + n) t = φ (G.emit t w[n])) →
      (d.rules.map fun x => rule x.1 x.2.1 x.2.2).prod * ((d.words i).map fun x => term x.1 x.2).prod = φ (weight G d w)
  | .leaf t, i, w, hw, ht => by
    obtain ⟨v, rfl⟩ := List.length_eq_one_iff.1 (show w.length = 1 from hw)
    have := ht 0 (by simp) t
    simp only [Deriv.rules, Deriv.words, List.map_nil, List.prod_nil, List.map_cons, List.prod_cons, mul_one, one_mul, weight]
    simpa using this
  | .node X l r, i, w, hw, ht => by
    have hs : w.length = l.size + r.size := hw
    have h1 := deriv_weight hφ G term rule hr l i (w.take l.size) (by rw [List.length_take]; omega) fun n hn t => by
      rw [List.getElem_take]
      exact ht n _ t
    have h2 := deriv_weight hφ G term rule hr r (i + l.size) (w.drop l.size) (by rw [List.length_drop]; omega) fun n hn t => by
      rw [List.getElem_drop, add_assoc]
      exact ht (l.size + n) _ t
    rw [weight, hφ.mul _ _ (G.rule_nonneg _ _ _) (mul_nonneg (weight_nonneg G _ _) (weight_nonneg G _ _)),
      hφ.mul _ _ (weight_nonneg G _ _) (weight_nonneg G _ _), ← h1, ← h2, ← hr X (top l) (top r), ← num_top, ← num_top]
    simp only [Deriv.rules, Deriv.words, List.map_cons, List.map_append, List.prod_cons, List.prod_append]
    ring

/-- The sentence probability, as a sum over the derivations. -/
theorem sentence_derivs {NT T V : ℕ} (G : Spec.PCFG NT T V) (w : List (Fin V)) (prob : Deriv NT T → ℝ)
    (hp : ∀ X l r, prob (.node X l r) = G.root X * weight G (.node X l r) w) {n : ℕ} (hn : w.length = n) :
    G.sentence w = ∑ d : Derivs NT T n, prob d.1 := by
  subst hn
  rw [sentence_eq]
  have e : ∑ X, G.root X * total G (.inl X) w =
      ∑ d : GTrees NT (Fin T) w.length, if Deriv.isNode d.1 = true then prob d.1 else 0 := by
    simp only [total, mul_sum]
    rw [sum_comm]
    refine sum_congr rfl fun d _ => ?_
    cases hd : d.1 with
    | leaf t =>
      rw [if_neg (by simp [Deriv.isNode])]
      exact sum_eq_zero fun X _ => by rw [if_neg (by simp [PCFGProofs.top]), mul_zero]
    | node X l r =>
      rw [if_pos (show Deriv.isNode (.node X l r : Deriv NT T) = true from rfl), hp, sum_eq_single X]
      · rw [if_pos (show top (.node X l r : Deriv NT T) = .inl X from rfl)]
      · intro Y _ hY
        rw [if_neg, mul_zero]
        intro h
        exact hY (Sum.inl.inj h).symm
      · intro h; exact absurd (mem_univ _) h
  rw [e]
  symm
  refine Fintype.sum_of_injective (fun d : Derivs NT T w.length => (⟨d.1, d.2.1⟩ : GTrees NT (Fin T) w.length)) ?_ _ _ ?_ ?_
  · intro d d' h
    exact Subtype.ext (Subtype.mk.inj h)
  · intro d hd
    rw [if_neg]
    intro h
    exact hd ⟨⟨d.1, d.2, h⟩, rfl⟩
  · intro d
    simp only [d.2.2, if_true]

/-- The probability of one derivation together with the sentence. -/
def joint {NT T V : ℕ} (G : Spec.PCFG NT T V) (w : List (Fin V)) : Deriv NT T → ℝ
  | .leaf _ => 0
  | .node X l r => G.root X * weight G (.node X l r) w

theorem row_weight {γ R : Type} [CommSemiring R] {V : ℕ} {f : γ → R} {φ : ℝ → R} (hφ : Mul φ) {p : Scores γ} {G : Spec.PCFG p.NT p.T V} {b : ℕ}
    {w : List (Fin V)} (h : Holds f φ p G b w) {n : ℕ} (hn : w.length = n) (d : Derivs p.NT p.T n) :
    derivWeight (fun n t => f (p.term b n t)) (fun X y z => f (p.rule b X y z)) (fun X => f (p.root b X)) d = φ (joint G w d.1) := by
  obtain ⟨d, hd, hnode⟩ := d
  cases d with
  | leaf t => simp [Deriv.isNode] at hnode
  | node X l r =>
    rw [derivWeight, joint, hφ.mul _ _ (G.root_nonneg X) (weight_nonneg G _ _), ← h.root X]
    congr 1
    exact deriv_weight hφ G (fun n t => f (p.term b n t)) (fun X y z => f (p.rule b X y z)) h.rule (.node X l r) 0 w (by omega) fun n hn t => by rw [zero_add]; exact h.term n hn t

theorem mul_id : Mul (fun x : ℝ => x) := ⟨rfl, fun _ _ _ _ => rfl⟩

theorem mul_ofReal : Mul ENNReal.ofReal := ⟨ENNReal.ofReal_one, fun _ _ hx _ => ENNReal.ofReal_mul hx⟩

/-- **C89**, in the semiring of real numbers: if the tables hold the probabilities of a grammar, the value of a row is the probability that the
grammar generates its sentence. -/
theorem likelihood {V : ℕ} (p : Scores ℝ) (lengths : Option (List ℕ)) (h : Valid p lengths) (G : Spec.PCFG p.NT p.T V) (w : ℕ → List (Fin V))
    (hw : Words p lengths w) (hG : ∀ b < p.batch, Holds (fun x => x) (fun x => x) p G b (w b)) :
    logpartition (Semirings.std ℝ) p lengths = .ok ((List.range p.batch).map fun b => G.sentence (w b)) := by
  rw [sum_any_semiring p lengths h]
  congr 1
  refine List.map_congr_left fun b hb => ?_
  have hb := List.mem_range.1 hb
  rw [sentence_derivs G (w b) (joint G (w b)) (fun _ _ _ => rfl) (hw b hb)]
  exact sum_congr rfl fun d _ => row_weight mul_id (hG b hb) (hw b hb) d

theorem exp_list (l : List EReal) : EReal.exp l.sum = (l.map EReal.exp).prod := by
  induction l with
  | nil => simp
  | cons a l ih => rw [List.sum_cons, List.map_cons, List.prod_cons, EReal.exp_add, ih]

/-- **C89** with a true `-∞`: the tables hold logarithms of probabilities, forbidden rules are `-∞`. -/
theorem likelihood_limit {V : ℕ} (p : Scores EReal) (lengths : Option (List ℕ)) (h : Valid p lengths) (G : Spec.PCFG p.NT p.T V)
    (w : ℕ → List (Fin V)) (hw : Words p lengths w) (hG : ∀ b < p.batch, Holds EReal.exp ENNReal.ofReal p G b (w b)) :
    logpartition (Semirings.logE ⊥) p lengths = .ok ((List.range p.batch).map fun b => ENNReal.log (ENNReal.ofReal (G.sentence (w b)))) := by
  rw [partition_limit p lengths h]
  congr 1
  refine List.map_congr_left fun b hb => congrArg _ ?_
  have hb := List.mem_range.1 hb
  rw [sentence_derivs G (w b) (joint G (w b)) (fun _ _ _ => rfl) (hw b hb), ENNReal.ofReal_sum_of_nonneg]
  · refine sum_congr rfl fun d _ => ?_
    rw [← row_weight mul_ofReal (hG b hb) (hw b hb) d, EReal.exp_add, EReal.exp_add, exp_list, exp_list, List.map_map, List.map_map]
    rfl
  · rintro ⟨d, _⟩ _
    cases d with
    | leaf t => exact le_rfl
    | node X l r => exact mul_nonneg (G.root_nonneg X) (weight_nonneg G _ _)

section real
variable {V : ℕ} (p : Scores ℝ) (lengths : Option (List ℕ)) (h : Valid p lengths) (hl : Long p lengths) {B : ℝ} (hB : Bounded p lengths B)
  (G : Spec.PCFG p.NT p.T V) (w : ℕ → List (Fin V)) (hw : Words p lengths w)
  (hG : ∀ b < p.batch, Holds Real.exp (fun x => x) p G b (w b))

include hw hG in
theorem truth_eq (b : ℕ) (hb : b < p.batch) : truth p lengths b = Real.log (G.sentence (w b)) := by
  rw [truth, sentence_derivs G (w b) (joint G (w b)) (fun _ _ _ => rfl) (hw b hb)]
  congr 1
  refine sum_congr rfl fun d _ => ?_
  rw [← row_weight mul_id (hG b hb) (hw b hb) d, dscore, derivScore, derivWeight, Real.exp_add, Real.exp_add, Real.exp_list_sum, Real.exp_list_sum,
    List.map_map, List.map_map]
  rfl

include h hl hw hG in
theorem sentence_pos (b : ℕ) (hb : b < p.batch) : 0 < G.sentence (w b) := by
  rw [sentence_derivs G (w b) (joint G (w b)) (fun _ _ _ => rfl) (hw b hb)]
  have := der_nonempty h hl b hb
  refine sum_pos (fun d _ => ?_) univ_nonempty
  have e := row_weight mul_id (hG b hb) (hw b hb) d
  rw [← show _ = joint G (w b) d.1 from e, derivWeight]
  refine mul_pos (Real.exp_pos _) (mul_pos (List.prod_pos ?_) (List.prod_pos ?_))
  · rintro _ hx
    obtain ⟨_, _, rfl⟩ := List.mem_map.1 hx
    exact Real.exp_pos _
  · rintro _ hx
    obtain ⟨_, _, rfl⟩ := List.mem_map.1 hx
    exact Real.exp_pos _

include h hl hB hw hG

/-- **C89.** If the potentials are the logarithms of the probabilities of a grammar, `partition` is the log-likelihood of the sentence, up to
the error of the stand-in `zero = -1e5`. -/
theorem partition_likelihood : ∃ vs, Dist.partition algo p lengths = .ok vs ∧ vs.length = p.batch ∧ ∀ b (hb : b < vs.length),
    0 < G.sentence (w b) ∧ Real.log (G.sentence (w b)) ≤ vs[b] ∧ vs[b] ≤ Real.log (G.sentence (w b)) + err p lengths B b := by
  obtain ⟨vs, h1, h2, h3⟩ := partition_spec p lengths h hl hB
  refine ⟨vs, h1, h2, fun b hb => ?_⟩
  have hb' : b < p.batch := by omega
  have := h3 b hb
  rw [truth_eq p lengths G w hw hG b hb'] at this
  exact ⟨sentence_pos p lengths h hl G w hw hG b hb', this⟩

/-- **C89.** The likelihoods that `partition` gives to different sentences add up to at most one, up to the error of the stand-in; none is above
one. -/
theorem likelihoods_sum (hdiff : ∀ b < p.batch, ∀ b' < p.batch, w b = w b' → b = b') : ∃ vs, Dist.partition algo p lengths = .ok vs ∧
    ∃ hv : vs.length = p.batch, (∑ b : Fin p.batch, Real.exp (vs[b] - err p lengths B b)) ≤ 1 ∧ ∀ b (hb : b < vs.length), vs[b] ≤ err p lengths B b := by
  obtain ⟨vs, h1, h2, h3⟩ := partition_likelihood p lengths h hl hB G w hw hG
  refine ⟨vs, h1, h2, ?_, fun b hb => ?_⟩
  · have e : ∀ b : Fin p.batch, Real.exp (vs[b] - err p lengths B b) ≤ G.sentence (w b) := by
      intro b
      obtain ⟨k1, _, k3⟩ := h3 b (by omega)
      rw [← Real.log_le_log_iff (Real.exp_pos _) k1, Real.log_exp]
      simp only [Fin.getElem_fin]
      linarith
    refine (sum_le_sum fun b _ => e b).trans ?_
    rw [← sum_image (f := fun u => G.sentence u) (g := fun b : Fin p.batch => w b)]
    · exact sentence_mass G _
    · intro b _ b' _ hbb
      exact Fin.ext (hdiff b b.2 b' b'.2 hbb)
  · obtain ⟨k1, _, k3⟩ := h3 b hb
    have := sentence_mass G {w b}
    rw [sum_singleton] at this
    have := Real.log_nonpos k1.le this
    linarith

end real

/-! ### An example -/

/-- One nonterminal, one preterminal, two words; the four rules and the two words are equally likely. -/
def fair : Spec.PCFG 1 1 2 where
  root _ := 1
  rule _ _ _ := 1 / 4
  emit _ _ := 1 / 2
  root_nonneg _ := zero_le_one
  rule_nonneg _ _ _ := by norm_num
  emit_nonneg _ _ := by norm_num
  root_sum := by simp
  rule_sum _ := by simp; norm_num
  emit_sum _ := by simp

/-- Two sentences, of three and of two words. -/
def sentences : ℕ → List (Fin 2)
  | 0 => [0, 1, 1]
  | _ => [1, 0]

/-- The tables of `fair` for a batch of two rows. -/
def fairScores : Scores ℝ := ⟨2, 3, 1, 1, 2, fun _ _ _ => Real.log (1 / 2), fun _ _ _ _ => Real.log (1 / 4), fun _ _ => 0, none⟩

/-- The hypotheses can be met: two different sentences of different lengths. -/
theorem fair_holds : Valid fairScores (some [3, 2]) ∧ Long fairScores (some [3, 2]) ∧ Words fairScores (some [3, 2]) sentences ∧
    Bounded fairScores (some [3, 2]) 2 ∧ (∀ b < fairScores.batch, Holds Real.exp (fun x => x) fairScores fair b (sentences b)) ∧
    ∀ b < fairScores.batch, ∀ b' < fairScores.batch, sentences b = sentences b' → b = b' := by
  have l2 : |Real.log (1 / 2)| ≤ 2 := by
    rw [abs_of_nonpos (Real.log_nonpos (by norm_num) (by norm_num)), one_div, Real.log_inv, neg_neg]
    have := Real.log_le_sub_one_of_pos (show (0 : ℝ) < 2 by norm_num)
    linarith
  have l4 : |Real.log (1 / 4)| ≤ 2 := by
    rw [abs_of_nonpos (Real.log_nonpos (by norm_num) (by norm_num)), one_div, Real.log_inv, neg_neg, show (4 : ℝ) = 2 * 2 by norm_num,
      Real.log_mul (by norm_num) (by norm_num)]
    have := Real.log_le_sub_one_of_pos (show (0 : ℝ) < 2 by norm_num)
    linarith
  refine ⟨⟨rfl, by decide, by decide, by decide, by decide, ⟨rfl, by decide⟩, rfl⟩, ?_, ?_, ⟨by norm_num, fun _ _ _ _ _ _ => l2, fun _ _ _ _ _ _ _ _ => l4,
    fun _ _ _ _ => by simp [fairScores]⟩, ?_, ?_⟩
  · intro b hb
    have hb : b < 2 := hb
    interval_cases b <;> decide
  · intro b hb
    have hb : b < 2 := hb
    interval_cases b <;> decide
  · intro b hb
    exact ⟨fun _ _ _ => Real.exp_log (by norm_num), fun _ _ _ => Real.exp_log (by norm_num), fun _ => Real.exp_zero⟩
  · intro b hb b' hb' e
    have hb : b < 2 := hb
    have hb' : b' < 2 := hb'
    interval_cases b <;> interval_cases b' <;> simp [sentences] at e ⊢

/-- A sentence of two words: root, rule, word, word. -/
theorem fair_two (u v : Fin 2) : fair.sentence [u, v] = 1 * (1 / 4 * (1 / 2 * (1 / 2))) := by
  rw [sentence_eq, Fin.sum_univ_one, total_long fair _ _ (show [u, v].length = 0 + 2 from rfl)]
  simp only [Fintype.sum_sum_type, Fin.sum_univ_one, List.length_cons, List.length_nil, zero_add, sum_range_succ, range_zero, sum_empty,
    List.take_zero, List.drop_zero, List.take_succ_cons, List.drop_succ_cons, total_nil, total_leaf]
  simp [fair, total_nil]

end Props.PCFG
