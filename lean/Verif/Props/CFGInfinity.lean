import Verif.Proofs.CFGBackwardNan
import Verif.Proofs.ChainBackward
import Verif.Props.Conditional

/-! C118: `SentCFG.marginals` with potentials `-inf`.

Forbidden preterminals, rules and roots have potential `-inf` (`forbidCfg`).  With a backward pass that treats rows of `-inf` as torch's `logsumexp` does not, the
marginals would be the conditional expectations given that nothing forbidden is used.  With torch's they are so, or NaN; a single nonterminal without an allowed rule
of some kind is enough for NaN. -/

open Finset Spec Generic GrammarProofs CKYProofs CFGBackwardProofs
open TreeBackwardProofs (LogOf fl)
open Props.Conditional (Banned DerivAvoids)
open Props.SentCFG (Long len Der dscore Bounded err EntryBound)
open CKY (Scores marked)
open CFGBackward (Adj Factors backLoop off)

noncomputable section
namespace Props.CFGInfinity

/-! ### Specification -/

open Classical in
/-- The potentials of what is forbidden are `-inf`. -/
def forbidCfg (p : Scores ℝ) (F : Banned) : Scores EReal :=
  ⟨p.batch, p.N, p.T, p.NT, p.S, fun b n t => if F.term b n t then ⊥ else (p.term b n t : EReal),
    fun b x y z => if F.rule b x y z then ⊥ else (p.rule b x y z : EReal), fun b x => if F.root b x then ⊥ else (p.root b x : EReal), none⟩

/-- Every nonterminal of row `b` has, for every place in the table of `N` words (sentence or padding), an allowed rule of every kind: with two nonterminals as
children; with a nonterminal and an allowed preterminal of word `n`; with an allowed preterminal of word `n` and a nonterminal; with allowed preterminals of the words
`n` and `n + 1`.  Some root is allowed. -/
structure Open (F : Banned) (b N NT T : ℕ) : Prop where
  both : ∀ X < NT, ∃ y < NT, ∃ z < NT, ¬ F.rule b X y z
  right : ∀ X < NT, ∀ n, n + 1 < N → ∃ y < NT, ∃ t < T, ¬ F.rule b X y (NT + t) ∧ ¬ F.term b (n + 1) t
  left : ∀ X < NT, ∀ n, n + 1 < N → ∃ t < T, ∃ z < NT, ¬ F.rule b X (NT + t) z ∧ ¬ F.term b n t
  words : ∀ X < NT, ∀ n, n + 1 < N → ∃ t < T, ∃ u < T, ¬ F.rule b X (NT + t) (NT + u) ∧ ¬ F.term b n t ∧ ¬ F.term b (n + 1) u
  root : ∃ X < NT, ¬ F.root b X

/-- No entry of row `b` is NaN. -/
structure NoNan (μ : CFGBackward.Marginals) (b N NT T : ℕ) : Prop where
  term : ∀ n < N, ∀ t < T, μ.term b n t ≠ IEEE.nan
  rule : ∀ X < NT, ∀ y < NT + T, ∀ z < NT + T, μ.rule b X y z ≠ IEEE.nan
  root : ∀ X < NT, μ.root b X ≠ IEEE.nan
  spans : ∀ w i, ∀ X < NT, μ.spans b w i X ≠ IEEE.nan

/-! ### Weights -/

variable {p : Scores ℝ} {lengths : Option (List ℕ)} {F : Banned}

/-- The entry is forbidden. -/
def Bans (F : Banned) (b : ℕ) (e : List ℕ) : Prop :=
  (∃ n t, e = [b, 0, n, t] ∧ F.term b n t) ∨ (∃ X y z, e = [b, 1, X, y, z] ∧ F.rule b X y z) ∨ ∃ X, e = [b, 2, X] ∧ F.root b X

theorem bans_term {b n t : ℕ} : Bans F b [b, 0, n, t] ↔ F.term b n t := by
  constructor
  · rintro (⟨_, _, e, h⟩ | ⟨_, _, _, e, -⟩ | ⟨_, e, -⟩)
    · simp only [List.cons.injEq, true_and, and_true] at e
      rwa [e.1, e.2]
    all_goals simp at e
  · exact fun h => Or.inl ⟨_, _, rfl, h⟩

theorem bans_rule {b X y z : ℕ} : Bans F b [b, 1, X, y, z] ↔ F.rule b X y z := by
  constructor
  · rintro (⟨_, _, e, -⟩ | ⟨_, _, _, e, h⟩ | ⟨_, e, -⟩)
    · simp at e
    · simp only [List.cons.injEq, true_and, and_true] at e
      rwa [e.1, e.2.1, e.2.2]
    · simp at e
  · exact fun h => Or.inr (Or.inl ⟨_, _, _, rfl, h⟩)

theorem bans_root {b X : ℕ} : Bans F b [b, 2, X] ↔ F.root b X := by
  constructor
  · rintro (⟨_, _, e, -⟩ | ⟨_, _, _, e, -⟩ | ⟨_, e, h⟩)
    · simp at e
    · simp at e
    · simp only [List.cons.injEq, true_and, and_true] at e
      rwa [e]
  · exact fun h => Or.inr (Or.inr ⟨_, rfl, h⟩)

theorem bans_mark {b w i X : ℕ} : ¬ Bans F b [b, 3, w, i, X] := by
  rintro (⟨_, _, e, -⟩ | ⟨_, _, _, e, -⟩ | ⟨_, e, -⟩) <;> simp at e

/-- The factor is forbidden. -/
def Out (F : Banned) (b : ℕ) (a : Atom) : Prop := ∃ e, a = .pot e ∧ Bans F b e

theorem out_pot {b : ℕ} {e : List ℕ} : Out F b (.pot e) ↔ Bans F b e :=
  ⟨fun ⟨_, h, k⟩ => by cases h; exact k, fun h => ⟨e, rfl, h⟩⟩

theorem out_zero {b : ℕ} : ¬ Out F b .zero := fun ⟨_, h, _⟩ => by cases h

/-- The score of a factor. -/
abbrev sc (p : Scores ℝ) : Atom → ℝ := Atom.score Semirings.negInf (atS (marked p))

open Classical in
/-- The weight of a factor. -/
def weight (p : Scores ℝ) (F : Banned) (b : ℕ) (a : Atom) : ℝ := if Out F b a then 0 else Real.exp (sc p a)

theorem weight_nonneg (b : ℕ) (a : Atom) : 0 ≤ weight p F b a := by
  rw [weight]; split_ifs
  · exact le_rfl
  · exact (Real.exp_pos _).le

theorem weight_ne {b : ℕ} {a : Atom} (h : ¬ Out F b a) : weight p F b a ≠ 0 := by
  rw [weight, if_neg h]; exact Real.exp_ne_zero _

theorem weight_pos {b : ℕ} {a : Atom} (h : ¬ Out F b a) : 0 < weight p F b a := lt_of_le_of_ne (weight_nonneg b a) (weight_ne h).symm

theorem weight_out {b : ℕ} {e : List ℕ} (h : Bans F b e) : weight p F b (.pot e) = 0 := by rw [weight, if_pos (out_pot.2 h)]

theorem weight_mark (b w i X : ℕ) : weight p F b (.pot [b, 3, w, i, X]) = 1 := by
  rw [weight, if_neg fun h => bans_mark (out_pot.1 h)]
  exact Real.exp_zero

theorem weight_log {b : ℕ} {P : Prop} [Decidable P] {e : List ℕ} {x : ℝ} (h : Bans F b e ↔ P) (hx : sc p (.pot e) = x) :
    LogOf (if P then ⊥ else (x : EReal)) (weight p F b (.pot e)) := by
  by_cases hP : P
  · rw [if_pos hP, weight_out (h.2 hP)]
    exact ⟨le_rfl, by simp⟩
  · rw [if_neg hP, weight, if_neg fun k => hP (h.1 (out_pot.1 k)), hx]
    exact ChainBackwardProofs.logOf_exp x

open Classical in
theorem row (h : SentCFG.Valid p lengths) (F : Banned) (b : ℕ) : Row (forbidCfg p F) b (weight p F b) where
  plain := rfl
  nonterminals := h.nonterminals
  preterminals := h.preterminals
  nonneg := weight_nonneg b
  zero := by
    rw [weight, if_neg out_zero]
    exact ChainBackwardProofs.logOf_exp Semirings.negInf
  term _ _ _ _ := weight_log bans_term rfl
  rule _ _ _ _ _ _ := weight_log bans_rule rfl
  root _ _ := weight_log bans_root rfl

/-! ### Sums -/

open Classical in
theorem prod_weight (b : ℕ) (m : Multiset Atom) : (m.map (weight p F b)).prod = if ∀ a ∈ m, ¬ Out F b a then Real.exp (m.map (sc p)).sum else 0 := by
  induction m using Multiset.induction_on with
  | empty => simp
  | cons a m ih =>
    rw [Multiset.map_cons, Multiset.prod_cons, ih, Multiset.map_cons, Multiset.sum_cons, Real.exp_add, weight]
    by_cases h1 : Out F b a
    · rw [if_pos h1, zero_mul, if_neg fun h => h a (Multiset.mem_cons_self _ _) h1]
    · rw [if_neg h1]
      by_cases h2 : ∀ a ∈ m, ¬ Out F b a
      · rw [if_pos h2, if_pos fun x hx => (Multiset.mem_cons.1 hx).elim (fun e => e ▸ h1) (h2 x)]
      · rw [if_neg h2, mul_zero, if_neg fun h => h2 fun x hx => h x (Multiset.mem_cons_of_mem hx)]

theorem avoids_iff (b : ℕ) {NT T L : ℕ} (d : Derivs NT T L) : (∀ a ∈ (derivParts false b d).map Atom.pot, ¬ Out F b a) ↔ DerivAvoids F b d.1 := by
  constructor
  · intro h
    have mem : ∀ e, (derivParts false b d).count e ≠ 0 → ¬ Bans F b e := fun e he k =>
      h _ (Multiset.mem_map.2 ⟨e, Multiset.count_ne_zero.1 he, rfl⟩) (out_pot.2 k)
    refine ⟨fun k => mem _ ?_ (bans_root.2 k), fun x hx k => mem _ ?_ (bans_rule.2 k), fun x hx k => mem _ ?_ (bans_term.2 k)⟩
    · rw [SentCFG.count_root, if_pos rfl]; exact one_ne_zero
    · rw [SentCFG.count_rule]; exact (List.count_pos_iff.2 hx).ne'
    · rw [SentCFG.count_term]; exact (List.count_pos_iff.2 hx).ne'
  · rintro ⟨h1, h2, h3⟩ a ha k
    obtain ⟨e, he, rfl⟩ := Multiset.mem_map.1 ha
    replace k := out_pot.1 k
    simp only [derivParts, Multiset.mem_add, Multiset.mem_singleton] at he
    rcases he with rfl | ((he | he) | he)
    · exact h1 (bans_root.1 k)
    · obtain ⟨x, hx, rfl⟩ := List.mem_map.1 (Multiset.mem_coe.1 he)
      exact h2 x hx (bans_rule.1 k)
    · obtain ⟨x, hx, rfl⟩ := List.mem_map.1 (Multiset.mem_coe.1 he)
      exact h3 x hx (bans_term.1 k)
    · simp at he

theorem score_eq (b : ℕ) {L : ℕ} (d : Derivs p.NT p.T L) : ((derivParts false b d).map (atS (marked p))).sum = dscore p b d := by
  simp only [derivParts, Bool.false_eq_true, if_false, add_zero, Multiset.map_add, Multiset.sum_add, Multiset.map_singleton,
    Multiset.sum_singleton, ruleIds, wordIds, Multiset.map_coe, Multiset.sum_coe, List.map_map]
  rfl

open Classical in
/-- The weight of a derivation. -/
theorem deriv_weight (b : ℕ) {L : ℕ} (d : Derivs p.NT p.T L) :
    (({.pot [b, 2, d.1.sym]} + atoms false b 0 (embed d.1) : Multiset Atom).map (weight p F b)).prod =
      if DerivAvoids F b d.1 then Real.exp (dscore p b d) else 0 := by
  rw [← parts_pot, prod_weight, Multiset.map_map]
  have e : (Multiset.map (sc p ∘ Atom.pot) (derivParts false b d)).sum = dscore p b d := score_eq b d
  rw [e]
  exact if_congr (avoids_iff b d) rfl rfl

theorem bound_some {B : ℝ} (hB : Bounded p lengths B) (b : ℕ) (hb : b < p.batch) : EntryBound false p.N p.NT p.T lengths b (atS (marked p)) B := by
  refine ⟨hB.nonneg, ?_, fun _ _ _ => Or.inr rfl⟩
  rintro e (⟨n, t, rfl, h1, h2⟩ | ⟨X, y, z, rfl, h1, h2, h3⟩ | ⟨X, rfl, h1⟩ | ⟨h0, -⟩)
  · exact hB.term b hb n h1 t h2
  · exact hB.rule b hb X h1 y h2 z h3
  · exact hB.root b hb X h1
  · exact absurd h0 (by simp)

/-- The weight of a tree with the stand-in. -/
theorem ph_weight {B : ℝ} (hB : Bounded p lengths B) (b : ℕ) (hb : b < p.batch) (x : Ph p.NT p.T (len p lengths b)) :
    0 ≤ ((phAtoms false b x).map (weight p F b)).prod ∧
      ((phAtoms false b x).map (weight p F b)).prod ≤ Real.exp (-100000 + 2 * len p lengths b * B) := by
  classical
  rw [prod_weight]
  split_ifs
  · refine ⟨(Real.exp_pos _).le, Real.exp_le_exp.2 ?_⟩
    exact SentCFG.ph_le (bound_some hB b hb) x
  · exact ⟨le_rfl, (Real.exp_pos _).le⟩

theorem ratio_le {A a Z Y M : ℝ} (hZ : 0 < Z) (hY : 0 ≤ Y) (hA : 0 ≤ A) (hA' : A ≤ M * Z) (ha : 0 ≤ a) (ha' : a ≤ M * Y) :
    |(A + a) / (Z + Y) - A / Z| ≤ Y / Z * M := by
  have h1 : 0 < Z + Y := by linarith
  have e : (A + a) / (Z + Y) - A / Z = (a * Z - A * Y) / (Z * (Z + Y)) := by field_simp; ring
  have hM : 0 ≤ M := by
    by_contra hc
    have : M * Z < 0 := mul_neg_of_neg_of_pos (not_le.1 hc) hZ
    linarith
  rw [e, abs_div, abs_of_pos (mul_pos hZ h1), div_le_iff₀ (mul_pos hZ h1)]
  have e2 : Y / Z * M * (Z * (Z + Y)) = M * Y * (Z + Y) := by field_simp
  rw [e2, abs_le]
  have k1 : a * Z ≤ M * Y * Z := mul_le_mul_of_nonneg_right ha' hZ.le
  have k2 : A * Y ≤ M * Z * Y := mul_le_mul_of_nonneg_right hA' hY
  have k3 : 0 ≤ a * Z := mul_nonneg ha hZ.le
  have k4 : 0 ≤ A * Y := mul_nonneg hA hY
  have k5 : 0 ≤ M * Y * Y := mul_nonneg (mul_nonneg hM hY) hY
  constructor <;> nlinarith

/-- Expected values given an event, from weights. -/
theorem condExpect_eq {ι : Type} [Fintype ι] [Nonempty ι] (s : ι → ℝ) (A : ι → Prop) [DecidablePred A] (f : ι → ℝ) :
    Gibbs.condExpect s A f = (∑ y, (if A y then Real.exp (s y) else 0) * f y) / ∑ y, if A y then Real.exp (s y) else 0 := by
  rw [Gibbs.condExpect, Gibbs.probOf]
  have hZ : Gibbs.Z s ≠ 0 := (sum_pos (fun _ _ => Real.exp_pos _) univ_nonempty).ne'
  have e1 : (∑ y, if A y then Gibbs.prob s y * f y else 0) = (∑ y, (if A y then Real.exp (s y) else 0) * f y) / Gibbs.Z s := by
    rw [sum_div]
    refine sum_congr rfl fun y _ => ?_
    by_cases h : A y
    · simp only [h, if_true, Gibbs.prob]; ring
    · simp [h]
  have e2 : (∑ y, if A y then Gibbs.prob s y else 0) = (∑ y, if A y then Real.exp (s y) else 0) / Gibbs.Z s := by
    rw [sum_div]
    refine sum_congr rfl fun y _ => ?_
    by_cases h : A y
    · simp only [h, if_true, Gibbs.prob]
    · simp [h]
  have e1' : (∑ y, if A y then Gibbs.prob s y * f y else 0) = ∑ y, @ite _ (A y) (Classical.propDecidable _) (Gibbs.prob s y * f y) 0 :=
    sum_congr rfl fun y _ => by congr
  have e2' : (∑ y, if A y then Gibbs.prob s y else 0) = ∑ y, @ite _ (A y) (Classical.propDecidable _) (Gibbs.prob s y) 0 :=
    sum_congr rfl fun y _ => by congr
  rw [← e1', ← e2', e1, e2, div_div_div_cancel_right₀ hZ]

open Classical in
/-- The weighted mean of a count over all trees. -/
theorem weighted_le (h : SentCFG.Valid p lengths) {B : ℝ} (hB : Bounded p lengths B) (b : ℕ) (hb : b < p.batch)
    (hA : ∃ d : Der p lengths b, DerivAvoids F b d.1) (θ : Atom → ℝ) (hθ : ∀ a, 0 ≤ θ a ∧ θ a ≤ 1) :
    |weighted p.NT p.T b (weight p F b) θ (len p lengths b) / rowTotal p.NT p.T b (weight p F b) (len p lengths b - 1) -
      Gibbs.condExpect (dscore p b) (fun d : Der p lengths b => DerivAvoids F b d.1) fun d => (((derivParts true b d).map Atom.pot).map θ).sum| ≤
      err p lengths B b * (3 * p.N) := by
  have hL := (CKYCRFProofs.len_in h.words h.lens b hb).1
  have hN := SentCFG.len_le h b hb
  obtain ⟨d0, hd0⟩ := hA
  have : Nonempty (Der p lengths b) := ⟨d0⟩
  have sums : ∀ m : Multiset Atom, 0 ≤ (m.map θ).sum ∧ (m.map θ).sum ≤ Multiset.card m := by
    intro m
    induction m using Multiset.induction_on with
    | empty => simp
    | cons a m ih =>
      rw [Multiset.map_cons, Multiset.sum_cons, Multiset.card_cons]
      have := hθ a
      push_cast
      constructor <;> linarith [ih.1, ih.2]
  have card_le : ∀ n : ℕ, n ≤ 2 * len p lengths b + (len p lengths b - 1) → (n : ℝ) ≤ 3 * p.N := fun n hn => by
    have : n ≤ 3 * p.N := by omega
    exact_mod_cast this
  rw [rowTotal_eq (len p lengths b) hL, weighted, condExpect_eq]
  simp only [deriv_weight]
  have hw0 : ∀ d : Der p lengths b, 0 ≤ (if DerivAvoids F b d.1 then Real.exp (dscore p b d) else 0) := fun d => by
    split_ifs
    · exact (Real.exp_pos _).le
    · exact le_rfl
  have hZ' : Real.exp (-(2 * len p lengths b * B)) ≤ ∑ d : Der p lengths b, if DerivAvoids F b d.1 then Real.exp (dscore p b d) else 0 := by
    refine le_trans ?_ (single_le_sum (fun d _ => hw0 d) (mem_univ d0))
    rw [if_pos hd0]
    exact Real.exp_le_exp.2 (abs_le.1 (SentCFG.real_le h hB b hb d0)).1
  have hZ := (Real.exp_pos _).trans_le hZ'
  have hY : 0 ≤ ∑ t : Ph p.NT p.T (len p lengths b), ((phAtoms false b t).map (weight p F b)).prod := sum_nonneg fun t _ => (ph_weight hB b hb t).1
  have main := ratio_le (M := 3 * p.N) hZ hY
    (sum_nonneg fun d _ => mul_nonneg (hw0 d) (sums _).1 :
      0 ≤ ∑ d : Der p lengths b, (if DerivAvoids F b d.1 then Real.exp (dscore p b d) else 0) * (((derivParts true b d).map Atom.pot).map θ).sum)
    (by
      rw [mul_sum]
      refine sum_le_sum fun d _ => ?_
      rw [mul_comm]
      refine mul_le_mul_of_nonneg_right ((sums _).2.trans (card_le _ ?_)) (hw0 d)
      rw [Multiset.card_map, SentCFG.parts_card]
      simp)
    (sum_nonneg fun t _ => mul_nonneg (ph_weight hB b hb t).1 (sums _).1 :
      0 ≤ ∑ t : Ph p.NT p.T (len p lengths b), ((phAtoms false b t).map (weight p F b)).prod * ((phAtoms true b t).map θ).sum)
    (by
      rw [mul_sum]
      refine sum_le_sum fun t _ => ?_
      rw [mul_comm]
      refine mul_le_mul_of_nonneg_right ((sums _).2.trans (card_le _ ?_)) (ph_weight hB b hb t).1
      rw [SentCFG.phAtoms_card]
      simp)
  refine main.trans (mul_le_mul_of_nonneg_right ?_ (by positivity))
  rw [div_le_iff₀ hZ]
  have k1 : ∑ t : Ph p.NT p.T (len p lengths b), ((phAtoms false b t).map (weight p F b)).prod ≤
      ((2 * p.NT + p.T) ^ (2 * len p lengths b) : ℕ) * Real.exp (-100000 + 2 * len p lengths b * B) := by
    refine (sum_le_sum fun t _ => (ph_weight hB b hb t).2).trans ?_
    rw [sum_const, nsmul_eq_mul, card_univ]
    exact mul_le_mul_of_nonneg_right (by exact_mod_cast SentCFG.card_ph p.NT p.T (len p lengths b)) (Real.exp_pos _).le
  refine k1.trans ?_
  have e : ((2 * p.NT + p.T) ^ (2 * len p lengths b) : ℕ) * Real.exp (-100000 + 2 * len p lengths b * B) =
      err p lengths B b * Real.exp (-(2 * len p lengths b * B)) := by
    rw [err, mul_assoc (((2 * p.NT + p.T) ^ (2 * len p lengths b) : ℕ) : ℝ) (Real.exp _) (Real.exp _), ← Real.exp_add]
    congr 2
    ring
  rw [e]
  exact mul_le_mul_of_nonneg_left hZ' (SentCFG.err_nonneg p lengths B b)

/-! ### Single entries -/

/-- The indicator of an entry. -/
def ind (e : List ℕ) (a : Atom) : ℝ := if a = .pot e then 1 else 0

theorem ind_bounds (e : List ℕ) (a : Atom) : 0 ≤ ind e a ∧ ind e a ≤ 1 := by
  rw [ind]; split_ifs <;> norm_num

theorem ind_count (e : List ℕ) (m : Multiset (List ℕ)) : ((m.map Atom.pot).map (ind e)).sum = m.count e := by
  induction m using Multiset.induction_on with
  | empty => simp
  | cons a m ih =>
    rw [Multiset.map_cons, Multiset.map_cons, Multiset.sum_cons, ih, Multiset.count_cons, ind]
    by_cases h : e = a
    · subst h; simp; ring
    · rw [if_neg (by simpa using Ne.symm h), if_neg h]; simp

/-- The gradients of one entry each. -/
theorem entries (N NT T : ℕ) {b : ℕ} {W : Atom → ℝ} (hW : ∀ a, 0 ≤ W a) (hm : ∀ w i X, W (.pot [b, 3, w, i, X]) = 1) {L : ℕ} (hL : 1 ≤ L) (hN : L ≤ N)
    (h0 : W .zero ≠ 0) :
    let g := backLoop real (shares NT T b W (L - 1)) N NT T (L - 1)
    (∀ n < N, ∀ t < T, g.term n t = weighted NT T b W (ind [b, 0, n, t]) L / rowTotal NT T b W (L - 1)) ∧
    (∀ X < NT, ∀ y < NT + T, ∀ z < NT + T, g.rule X y z = weighted NT T b W (ind [b, 1, X, y, z]) L / rowTotal NT T b W (L - 1)) ∧
    (∀ X < NT, g.root X = weighted NT T b W (ind [b, 2, X]) L / rowTotal NT T b W (L - 1)) ∧
    (∀ w i, i + (w + 1) < N → ∀ X < NT, g.span (w + 1) i X = weighted NT T b W (ind [b, 3, w, i, X]) L / rowTotal NT T b W (L - 1)) := by
  intro g
  have key := fun e => value (NT := NT) (T := T) (θ := ind e) hW hm hL hN h0 (by simp [ind])
  refine ⟨fun n hn t ht => ?_, fun X hX y hy z hz => ?_, fun X hX => ?_, fun w i hi X hX => ?_⟩
  · rw [← key [b, 0, n, t]]
    simp only [ind, Atom.pot.injEq, List.cons.injEq, true_and, and_true, zero_ne_one, one_ne_zero, OfNat.ofNat_ne_zero, false_and, if_false, mul_zero, sum_const_zero, add_zero,
      reduceCtorEq, and_false]
    rw [sum_eq_single n, sum_eq_single t]
    · simp [g]
    · intro u _ hu; simp [hu]
    · intro hc; exact absurd (mem_range.2 ht) hc
    · intro m _ hm; exact sum_eq_zero fun u _ => by simp [hm]
    · intro hc; exact absurd (mem_range.2 hn) hc
  · rw [← key [b, 1, X, y, z]]
    simp only [ind, Atom.pot.injEq, List.cons.injEq, true_and, and_true, zero_ne_one, one_ne_zero, OfNat.ofNat_ne_one, false_and, if_false, mul_zero, sum_const_zero, add_zero,
      zero_add, reduceCtorEq, and_false]
    rw [sum_eq_single X, sum_eq_single y, sum_eq_single z]
    · simp [g]
    · intro u _ hu; simp [hu]
    · intro hc; exact absurd (mem_range.2 hz) hc
    · intro m _ hm; exact sum_eq_zero fun u _ => by simp [hm]
    · intro hc; exact absurd (mem_range.2 hy) hc
    · intro m _ hm; exact sum_eq_zero fun u _ => sum_eq_zero fun v _ => by simp [hm]
    · intro hc; exact absurd (mem_range.2 hX) hc
  · rw [← key [b, 2, X]]
    simp only [ind, Atom.pot.injEq, List.cons.injEq, true_and, and_true, false_and, if_false, mul_zero, sum_const_zero, add_zero,
      zero_add, reduceCtorEq, and_false]
    rw [sum_eq_single X]
    · simp [g]
    · intro u _ hu; simp [hu]
    · intro hc; exact absurd (mem_range.2 hX) hc
  · rw [← key [b, 3, w, i, X]]
    simp only [ind, Atom.pot.injEq, List.cons.injEq, true_and, and_true, false_and, if_false, mul_zero, sum_const_zero, add_zero,
      zero_add, reduceCtorEq, and_false, Nat.reduceEqDiff, OfNat.one_ne_ofNat, OfNat.zero_ne_ofNat]
    rw [sum_eq_single (w + 1), sum_eq_single i, sum_eq_single X]
    · simp [g]
    · intro u _ hu; simp [hu]
    · intro hc; exact absurd (mem_range.2 hX) hc
    · intro m _ hm; exact sum_eq_zero fun u _ => by simp [hm]
    · intro hc; exact absurd (mem_range.2 (by omega)) hc
    · intro m hm1 hm
      have : 1 ≤ m := (mem_Ico.1 hm1).1
      exact sum_eq_zero fun u _ => sum_eq_zero fun v _ => by rw [if_neg (by omega), mul_zero]
    · intro hc; exact absurd (mem_Ico.2 ⟨by omega, by omega⟩) hc

/-! ### The call -/

theorem forbid_valid (h : SentCFG.Valid p lengths) (F : Banned) : CKYProofs.Valid (forbidCfg p F) lengths :=
  ⟨h.symbols, h.nonterminals, h.preterminals, h.rows, h.words, h.lens⟩

theorem last_eq (h : SentCFG.Valid p lengths) (b : ℕ) (hb : b < p.batch) :
    CKYCRF.lastIndex p.N ((CKYCRF.lensOr p.batch p.N lengths).getD b 0) = len p lengths b - 1 := by
  have e : (CKYCRF.lensOr p.batch p.N lengths).getD b 0 = lenOf p.N lengths b := by
    cases lengths with
    | none => simp [CKYCRF.lensOr, lenOf, hb]
    | some l => rfl
  have hL := (CKYCRFProofs.len_in h.words h.lens b hb).1
  rw [e, CKYCRF.lastIndex, if_neg (by omega)]
  rfl

/-- The gradients of row `b`. -/
def grads (σ : Slope) (p : Scores ℝ) (lengths : Option (List ℕ)) (F : Banned) (b : ℕ) : Adj IEEE :=
  backLoop CFGBackward.ieee (CFGBackward.factors σ (forbidCfg p F) (CKYCRF.lensOr p.batch p.N lengths) b) p.N p.NT p.T (len p lengths b - 1)

theorem call (h : SentCFG.Valid p lengths) (h2 : 2 ≤ p.N) (σ : Slope) (F : Banned) : ∃ μ, CFGBackward.marginals σ (forbidCfg p F) lengths = .ok μ ∧ ∀ b < p.batch,
    (∀ n t, μ.term b n t = (grads σ p lengths F b).term n t) ∧ (∀ X y z, μ.rule b X y z = (grads σ p lengths F b).rule X y z) ∧
    (∀ X, μ.root b X = (grads σ p lengths F b).root X) ∧
    ∀ w i X, μ.spans b w i X = if w < p.N - 1 ∧ i < p.N - w - 1 then (grads σ p lengths F b).span (w + 1) i X else .ofReal 0 := by
  have h1 : (forbidCfg p F).N ≠ 1 := by change p.N ≠ 1; omega
  rw [CFGBackward.marginals, if_neg h1, logpartition_ok CFGBackward.sr _ _ (forbid_valid h F)]
  refine ⟨_, rfl, fun b hb => ?_⟩
  have e := last_eq h b hb
  simp only [grads, ← e]
  exact ⟨fun _ _ => rfl, fun _ _ _ => rfl, fun _ => rfl, fun _ _ _ => rfl⟩

/-! ### The conditional expectations -/

/-- The marginals of row `b` are the conditional expectations of the numbers of uses, given that nothing forbidden is used, up to `ε`. -/
structure Close (val : IEEE → ℝ → Prop) (p : Scores ℝ) (lengths : Option (List ℕ)) (F : Banned) (μ : CFGBackward.Marginals) (b : ℕ) (ε : ℝ) : Prop where
  term : ∀ n < p.N, ∀ t < p.T, ∃ v : ℝ, val (μ.term b n t) v ∧
    |v - Gibbs.condExpect (dscore p b) (fun d : Der p lengths b => DerivAvoids F b d.1) fun d => ((d.1.words 0).count (n, t) : ℝ)| ≤ ε
  rule : ∀ X < p.NT, ∀ y < p.NT + p.T, ∀ z < p.NT + p.T, ∃ v : ℝ, val (μ.rule b X y z) v ∧
    |v - Gibbs.condExpect (dscore p b) (fun d : Der p lengths b => DerivAvoids F b d.1) fun d => (d.1.rules.count (X, y, z) : ℝ)| ≤ ε
  root : ∀ X < p.NT, ∃ v : ℝ, val (μ.root b X) v ∧
    |v - Gibbs.condExpect (dscore p b) (fun d : Der p lengths b => DerivAvoids F b d.1) fun d => if d.1.sym = X then 1 else 0| ≤ ε
  spans : ∀ w i, i + (w + 1) < p.N → ∀ X < p.NT, ∃ v : ℝ, val (μ.spans b w i X) v ∧
    |v - Gibbs.condExpect (dscore p b) (fun d : Der p lengths b => DerivAvoids F b d.1) fun d => ((d.1.spans 0).count (i, i + w + 1, X) : ℝ)| ≤ ε

theorem close_aux {val : IEEE → ℝ → Prop} {σ : Slope} (R : OpsRel CFGBackward.ieee real val)
    (hσ : ∀ {q : Scores EReal} {b : ℕ} {W : Atom → ℝ}, Row q b W → ∀ {lens : List ℕ} {last : ℕ}, CKYCRF.lastIndex q.N (lens.getD b 0) = last → last < q.N →
      FactorsRel val q.N q.NT q.T (CFGBackward.factors σ q lens b) (shares q.NT q.T b W last))
    (h : SentCFG.Valid p lengths) (hl : Long p lengths) {B : ℝ} (hB : Bounded p lengths B) (F : Banned) :
    ∃ μ, CFGBackward.marginals σ (forbidCfg p F) lengths = .ok μ ∧ ∀ b < p.batch, (∃ d : Der p lengths b, DerivAvoids F b d.1) →
      Close val p lengths F μ b (err p lengths B b * (3 * p.N)) := by
  have hN2 : 2 ≤ p.N := (hl 0 h.rows).trans (SentCFG.len_le h 0 h.rows)
  obtain ⟨μ, e, hμ⟩ := call h hN2 σ F
  refine ⟨μ, e, fun b hb hA => ?_⟩
  obtain ⟨m1, m2, m3, m4⟩ := hμ b hb
  have hL : 1 ≤ len p lengths b := (CKYCRFProofs.len_in h.words h.lens b hb).1
  have hN := SentCFG.len_le h b hb
  have hlast : len p lengths b - 1 < p.N := by omega
  have k := backLoop_rel R (hσ (row h F b) (last_eq h b hb) hlast) (len p lengths b - 1)
  obtain ⟨v1, v2, v3, v4⟩ := entries p.N p.NT p.T (weight_nonneg (p := p) (F := F) b) (weight_mark b) hL hN (weight_ne out_zero)
  have est := fun e => weighted_le h hB b hb hA (ind e) (ind_bounds e)
  refine ⟨fun n hn t ht => ⟨_, (m1 n t) ▸ k.term n t ht, ?_⟩, fun X hX y hy z hz => ⟨_, (m2 X y z) ▸ k.rule X hX y hy z hz, ?_⟩,
    fun X hX => ⟨_, (m3 X) ▸ k.root X hX, ?_⟩, fun w i hi X hX =>
      ⟨(backLoop real (shares p.NT p.T b (weight p F b) (len p lengths b - 1)) p.N p.NT p.T (len p lengths b - 1)).span (w + 1) i X, ?_, ?_⟩⟩
  · have := est [b, 0, n, t]
    simp only [ind_count, SentCFG.count_term] at this
    rw [← v1 n hn t ht] at this
    exact this
  · have := est [b, 1, X, y, z]
    simp only [ind_count, SentCFG.count_rule] at this
    rw [← v2 X hX y hy z hz] at this
    exact this
  · have := est [b, 2, X]
    simp only [ind_count, SentCFG.count_root] at this
    rw [← v3 X hX] at this
    push_cast at this
    exact this
  · rw [m4, if_pos ⟨by omega, by omega⟩]
    exact k.span (w + 1) i X hX
  · have := est [b, 3, w, i, X]
    simp only [ind_count, SentCFG.count_span] at this
    rw [← v4 w i hi X hX] at this
    exact this

/-- **C118, with rows of `-inf` treated as rows without entries.** If the backward pass gave the gradient 0 for rows of `-inf` (`Slope.guarded`), all marginals would be
the conditional expectations of the numbers of uses given that nothing forbidden is used, up to the error of the stand-in `-1e5`. -/
theorem guarded_spec (p : Scores ℝ) (lengths : Option (List ℕ)) (h : SentCFG.Valid p lengths) (hl : Long p lengths) {B : ℝ} (hB : Bounded p lengths B) (F : Banned) :
    ∃ μ, CFGBackward.marginals Slope.guarded (forbidCfg p F) lengths = .ok μ ∧ ∀ b < p.batch, (∃ d : Der p lengths b, DerivAvoids F b d.1) →
      Close (fun x v => x = IEEE.ofReal v) p lengths F μ b (err p lengths B b * (3 * p.N)) :=
  close_aux real_rel (fun r _ _ hlast hN => shares_guarded_rel r hlast hN) h hl hB F

/-- **C118, no wrong numbers.** With torch's backward pass (`Slope.plain`) every marginal is NaN or the conditional expectation. -/
theorem plain_spec (p : Scores ℝ) (lengths : Option (List ℕ)) (h : SentCFG.Valid p lengths) (hl : Long p lengths) {B : ℝ} (hB : Bounded p lengths B) (F : Banned) :
    ∃ μ, CFGBackward.marginals Slope.plain (forbidCfg p F) lengths = .ok μ ∧ ∀ b < p.batch, (∃ d : Der p lengths b, DerivAvoids F b d.1) →
      Close (fun x v => x = IEEE.nan ∨ x = IEEE.ofReal v) p lengths F μ b (err p lengths B b * (3 * p.N)) :=
  close_aux nanOr_rel (fun r _ _ hlast hN => shares_plain_rel r hlast hN) h hl hB F

/-! ### NaN -/

/-- Where the gradients of row `b` are NaN. -/
abbrev bad (p : Scores ℝ) (lengths : Option (List ℕ)) (F : Banned) (b : ℕ) : Factors Prop := zeros p.NT p.T b (weight p F b) (len p lengths b - 1)

theorem nan_rel (h : SentCFG.Valid p lengths) (F : Banned) (b : ℕ) (hb : b < p.batch) :
    AdjRel NanIff p.NT p.T (grads Slope.plain p lengths F b) (backLoop truth (bad p lengths F b) p.N p.NT p.T (len p lengths b - 1)) := by
  have hL : 1 ≤ len p lengths b := (CKYCRFProofs.len_in h.words h.lens b hb).1
  have hN := SentCFG.len_le h b hb
  have hlast : len p lengths b - 1 < p.N := by omega
  exact backLoop_rel truth_rel (zeros_rel (row h F b) (last_eq h b hb) hlast) (len p lengths b - 1)

/-- A block without an allowed entry. -/
theorem block_empty {NT T b : ℕ} {l r : Bool} {w i X : ℕ} (hk : ∀ y < size NT T l, ∀ z < size NT T r,
    F.rule b X (off NT l + y) (off NT r + z) ∨ pairW NT T false b (weight p F b) l r w i y z = 0) :
    partW NT T false b (weight p F b) l r w i X = 0 := by
  refine sum_eq_zero fun y hy => sum_eq_zero fun z hz => ?_
  rcases hk y (mem_range.1 hy) z (mem_range.1 hz) with hF | h0
  · rw [weight_out (bans_rule.2 hF), mul_zero]
  · rw [h0, zero_mul]

theorem partW_pos {NT T b : ℕ} {l r : Bool} {w i X y z : ℕ} (hy : y < size NT T l) (hz : z < size NT T r)
    (hF : ¬ F.rule b X (off NT l + y) (off NT r + z)) (h : 0 < pairW NT T false b (weight p F b) l r w i y z) :
    0 < partW NT T false b (weight p F b) l r w i X := by
  have h1 : ¬ partW NT T false b (weight p F b) l r w i X = 0 := fun h0 => by
    have := entry_zero (weight_nonneg b) hy hz h0
    exact (mul_pos h (weight_pos fun k => hF (bans_rule.1 (out_pot.1 k)))).ne' this
  exact lt_of_le_of_ne (partW_nonneg (weight_nonneg b) _ _ _ _ _ _) (Ne.symm h1)

theorem term_pos {b n t : ℕ} (h : ¬ F.term b n t) : 0 < weight p F b (.pot [b, 0, n, t]) := weight_pos fun k => h (bans_term.1 (out_pot.1 k))

theorem inside_pos {NT T b : ℕ} (hNT : 0 < NT) (ho : ∀ X < NT, ∃ y < NT, ∃ z < NT, ¬ F.rule b X y z) :
    ∀ w i, ∀ X < NT, 0 < inside NT T false b (weight p F b) i w X := by
  intro w
  induction w using Nat.strong_induction_on with
  | _ w ih =>
    intro i X hX
    rcases Nat.eq_zero_or_pos w with rfl | hw
    · rw [inside_zero_nt _ b _ i X hX]
      exact weight_pos out_zero
    · obtain ⟨y, hy, z, hz, hF⟩ := ho X hX
      have h1 : 0 < pairW NT T false b (weight p F b) false false w i y z :=
        lt_of_lt_of_le (mul_pos (ih 0 hw i y hy) (ih (w - 1 - 0) (by omega) (i + 0 + 1) z hz))
          (single_le_sum (f := fun u => inside NT T false b (weight p F b) i u y * inside NT T false b (weight p F b) (i + u + 1) (w - 1 - u) z)
            (fun u _ => mul_nonneg (inside_nonneg (weight_nonneg b) _ _ _ _) (inside_nonneg (weight_nonneg b) _ _ _ _)) (mem_range.2 hw))
      have h2 := partW_pos (p := p) (F := F) (NT := NT) (T := T) (l := false) (r := false) (w := w) (i := i) (X := X) hy hz (by simpa [off] using hF) h1
      refine lt_of_le_of_ne (inside_nonneg (weight_nonneg b) _ _ _ _) fun h0 => h2.ne' ?_
      exact part_zero (weight_nonneg b) (present_ff w) hw hX h0.symm

theorem pair_pos {NT T b : ℕ} (hNT : 0 < NT) (ho : ∀ X < NT, ∃ y < NT, ∃ z < NT, ¬ F.rule b X y z) {w i y z : ℕ} (hw : 1 ≤ w) (hy : y < NT) (hz : z < NT) :
    0 < pairW NT T false b (weight p F b) false false w i y z :=
  lt_of_lt_of_le (mul_pos (inside_pos hNT ho 0 i y hy) (inside_pos hNT ho (w - 1 - 0) (i + 0 + 1) z hz))
    (single_le_sum (f := fun u => inside NT T false b (weight p F b) i u y * inside NT T false b (weight p F b) (i + u + 1) (w - 1 - u) z)
      (fun u _ => mul_nonneg (inside_nonneg (weight_nonneg b) _ _ _ _) (inside_nonneg (weight_nonneg b) _ _ _ _)) (mem_range.2 hw))

theorem open_factors {b : ℕ} (hNT : 0 < p.NT) (ho : Open F b p.N p.NT p.T) :
    (∀ l r w i X, Present l r w → 1 ≤ w → i + w < p.N → X < p.NT → ¬ (bad p lengths F b).part l r w i X) ∧
    (∀ l r w i X y z, Present l r w → 1 ≤ w → i + w < p.N → X < p.NT → y < size p.NT p.T l → z < size p.NT p.T r → ¬ (bad p lengths F b).entry l r w i X y z) ∧
    (∀ w i u y z, 1 ≤ w → i + w < p.N → u < w → y < p.NT → z < p.NT → ¬ (bad p lengths F b).split w i u y z) ∧ ∀ X < p.NT, ¬ (bad p lengths F b).top X := by
  refine ⟨fun l r w i X _ _ _ hX => (inside_pos hNT ho.both w i X hX).ne', fun l r w i X y z hp hw hi hX _ _ => ne_of_gt ?_,
    fun w i u y z hw _ _ hy hz => (pair_pos hNT ho.both hw hy hz).ne', fun X _ h0 => ?_⟩
  · cases l <;> cases r
    · obtain ⟨y, hy, z, hz, hF⟩ := ho.both X hX
      exact partW_pos (l := false) (r := false) hy hz (by simpa [off] using hF) (pair_pos hNT ho.both hw hy hz)
    · obtain ⟨y, hy, t, ht, hF, hterm⟩ := ho.right X hX (i + w - 1) (by omega)
      have e : i + w - 1 + 1 = i + w := by omega
      rw [e] at hterm
      exact partW_pos (l := false) (r := true) hy ht (by simpa [off] using hF) (mul_pos (inside_pos hNT ho.both _ _ _ hy) (term_pos hterm))
    · obtain ⟨t, ht, z, hz, hF, hterm⟩ := ho.left X hX i (by omega)
      exact partW_pos (l := true) (r := false) ht hz (by simpa [off] using hF) (mul_pos (term_pos hterm) (inside_pos hNT ho.both _ _ _ hz))
    · obtain rfl := hp rfl rfl
      obtain ⟨t, ht, u, hu, hF, h1, h2⟩ := ho.words X hX i hi
      exact partW_pos (l := true) (r := true) ht hu (by simpa [off] using hF) (mul_pos (term_pos h1) (term_pos h2))
  · obtain ⟨X, hX, hF⟩ := ho.root
    have h1 := top_zero (weight_nonneg b) hX h0
    exact (mul_pos (inside_pos hNT ho.both _ 0 X hX) (weight_pos fun k => hF (bans_root.1 (out_pot.1 k)))).ne' h1

/-- The gradient of a rule is NaN if the block of its kind has no allowed entry at some place. -/
theorem rule_nan (h : SentCFG.Valid p lengths) {b : ℕ} (hb : b < p.batch) {l r : Bool} {w i X y z : ℕ} (hp : Present l r w) (hw : 1 ≤ w) (hi : i + w < p.N) (hX : X < p.NT)
    (hy : y < size p.NT p.T l) (hz : z < size p.NT p.T r) (h0 : partW p.NT p.T false b (weight p F b) l r w i X = 0) :
    (grads Slope.plain p lengths F b).rule X (off p.NT l + y) (off p.NT r + z) = IEEE.nan :=
  ((nan_rel h F b hb).rule X hX _ (off_lt hy) _ (off_lt hz)).iff.2 (rule_hit hp hw hi hy hz (Or.inr (Or.inr h0)))

theorem open_of (h : SentCFG.Valid p lengths) (h2 : 2 ≤ p.N) {b : ℕ} (hb : b < p.batch)
    (hr : ∀ X < p.NT, ∀ y < p.NT + p.T, ∀ z < p.NT + p.T, (grads Slope.plain p lengths F b).rule X y z ≠ IEEE.nan)
    (hroot : ∀ X < p.NT, (grads Slope.plain p lengths F b).root X ≠ IEEE.nan) : Open F b p.N p.NT p.T := by
  have hNT : 0 < p.NT := h.nonterminals
  have hs : ∀ l, 0 < size p.NT p.T l := fun l => by
    have := h.preterminals
    cases l <;> simp only [size, if_true, if_false, Bool.false_eq_true] <;> omega
  have key : ∀ {l r w i X}, Present l r w → 1 ≤ w → i + w < p.N → X < p.NT →
      ∃ y < size p.NT p.T l, ∃ z < size p.NT p.T r, ¬ F.rule b X (off p.NT l + y) (off p.NT r + z) ∧ pairW p.NT p.T false b (weight p F b) l r w i y z ≠ 0 := by
    intro l r w i X hp hw hi hX
    by_contra hc
    push Not at hc
    exact hr X hX _ (off_lt (hs l)) _ (off_lt (hs r)) (rule_nan h hb hp hw hi hX (hs l) (hs r) (block_empty fun y hy z hz => by
      by_cases hF : F.rule b X (off p.NT l + y) (off p.NT r + z)
      · exact Or.inl hF
      · exact Or.inr (hc y hy z hz hF)))
  have ne_term : ∀ {n t x}, weight p F b (.pot [b, 0, n, t]) * x ≠ 0 → ¬ F.term b n t := fun hx hF => hx (by rw [weight_out (bans_term.2 hF), zero_mul])
  have ne_term' : ∀ {n t x}, x * weight p F b (.pot [b, 0, n, t]) ≠ 0 → ¬ F.term b n t := fun hx hF => hx (by rw [weight_out (bans_term.2 hF), mul_zero])
  refine ⟨fun X hX => ?_, fun X hX n hn => ?_, fun X hX n hn => ?_, fun X hX n hn => ?_, ?_⟩
  · obtain ⟨y, hy, z, hz, hF, -⟩ := key (l := false) (r := false) (w := 1) (i := 0) (present_ff 1) le_rfl (by omega) hX
    exact ⟨y, hy, z, hz, by simpa [off] using hF⟩
  · obtain ⟨y, hy, z, hz, hF, h1⟩ := key (l := false) (r := true) (w := 1) (i := n) (present_ft 1) le_rfl hn hX
    exact ⟨y, hy, z, hz, by simpa [off] using hF, ne_term' h1⟩
  · obtain ⟨y, hy, z, hz, hF, h1⟩ := key (l := true) (r := false) (w := 1) (i := n) (present_tf 1) le_rfl hn hX
    exact ⟨y, hy, z, hz, by simpa [off] using hF, ne_term h1⟩
  · obtain ⟨y, hy, z, hz, hF, h1⟩ := key (l := true) (r := true) (w := 1) (i := n) present_tt le_rfl hn hX
    exact ⟨y, hy, z, hz, by simpa [off] using hF, ne_term h1, ne_term' h1⟩
  · by_contra hc
    push Not at hc
    refine hroot 0 hNT (((nan_rel h F b hb).root 0 hNT).iff.2 ?_)
    rw [← stage_zero, root_hit]
    exact sum_eq_zero fun X hX => by rw [weight_out (bans_root.2 (hc X (mem_range.1 hX))), mul_zero]

/-- **C118, when no marginal is NaN.** With torch's backward pass no marginal of a row is NaN if and only if every nonterminal has an allowed rule of every kind at
every place of the table, words past the end of the sentence included, and some root is allowed. -/
theorem plain_iff (p : Scores ℝ) (lengths : Option (List ℕ)) (h : SentCFG.Valid p lengths) (h2 : 2 ≤ p.N) (F : Banned) :
    ∃ μ, CFGBackward.marginals Slope.plain (forbidCfg p F) lengths = .ok μ ∧ ∀ b < p.batch, (NoNan μ b p.N p.NT p.T ↔ Open F b p.N p.NT p.T) := by
  obtain ⟨μ, e, hμ⟩ := call h h2 Slope.plain F
  refine ⟨μ, e, fun b hb => ?_⟩
  obtain ⟨m1, m2, m3, m4⟩ := hμ b hb
  have k := nan_rel h F b hb
  constructor
  · intro hn
    exact open_of h h2 hb (fun X hX y hy z hz => m2 X y z ▸ hn.rule X hX y hy z hz) fun X hX => m3 X ▸ hn.root X hX
  · intro ho
    obtain ⟨f1, f2, f3, f4⟩ := open_factors (lengths := lengths) h.nonterminals ho
    obtain ⟨g1, g2, g3, g4⟩ := none_hit (last := len p lengths b - 1) f1 f2 f3 f4
    refine ⟨fun n _ t ht hc => g1 n t ht ?_, fun X hX y hy z hz hc => g2 X hX y hy z hz ?_, fun X hX hc => g3 X hX ?_, fun w i X hX hc => ?_⟩
    · exact (k.term n t ht).iff.1 (m1 n t ▸ hc)
    · exact (k.rule X hX y hy z hz).iff.1 (m2 X y z ▸ hc)
    · exact (k.root X hX).iff.1 (m3 X ▸ hc)
    · rw [m4] at hc
      split_ifs at hc with hw
      · exact g4 (w + 1) i X hX ((k.span (w + 1) i X hX).iff.1 hc)
      · cases hc

/-- Some nonterminal has no allowed rule of one kind: with two nonterminals as children, or one nonterminal on the left, or one on the right. -/
def Stuck (F : Banned) (b NT T : ℕ) : Prop := ∃ X < NT,
  (∀ y < NT, ∀ z < NT, F.rule b X y z) ∨ (∀ y < NT, ∀ t < T, F.rule b X y (NT + t)) ∨ ∀ t < T, ∀ z < NT, F.rule b X (NT + t) z

/-- All gradients of rules and preterminals are NaN. -/
theorem spread {N NT T last : ℕ} {f : Factors Prop} (hNT : 0 < NT) (hT : 0 < T) (h3 : 3 ≤ N) {X : ℕ} (hX : X < NT)
    (h : (∀ w i y z, f.entry false false w i X y z) ∨ (∀ w i y z, f.entry false true w i X y z) ∨ ∀ w i y z, f.entry true false w i X y z) :
    (∀ n < N, ∀ t, (backLoop truth f N NT T last).term n t) ∧ ∀ Y < NT, ∀ y < NT + T, ∀ z < NT + T, (backLoop truth f N NT T last).rule Y y z := by
  have hit : (∀ i, i + 2 < N → ∀ Y, Hit f N NT T last 1 i Y) ∨ (∀ i, i + 2 < N → ∀ Y, Hit f N NT T last 1 (i + 1) Y) := by
    rcases h with h | h | h
    · exact Or.inl fun i hi Y => hit_left hNT hT le_rfl hi hX (Or.inl fun z => h _ _ _ _)
    · exact Or.inl fun i hi Y => hit_left hNT hT le_rfl hi hX (Or.inr fun z => h _ _ _ _)
    · exact Or.inr fun i hi Y => hit_right hNT hT le_rfl hi hX (Or.inr fun z => h _ _ _ _)
  constructor
  · intro n hn t
    have hl : ∀ {i Y}, Y < NT → i + 1 < N → Hit f N NT T last 1 i Y → (backLoop truth f N NT T last).term i t := fun hY hi hh => left_hit hNT le_rfl hi hY (Or.inl hh)
    have hr : ∀ {i Y}, Y < NT → i + 1 < N → Hit f N NT T last 1 i Y → (backLoop truth f N NT T last).term (i + 1) t := fun hY hi hh => right_hit hNT le_rfl hi hY (Or.inl hh)
    rcases h with h | h | h
    · have a := fun i (hi : i + 2 < N) Y => hit_left (last := last) (X := Y) hNT hT le_rfl hi hX (Or.inl fun z => h _ _ _ _)
      have c := fun i (hi : i + 2 < N) Y => hit_right (last := last) (X := Y) hNT hT le_rfl hi hX (Or.inl fun z => h _ _ _ _)
      by_cases h1 : n + 2 < N
      · exact hl hX (by omega) (a n h1 X)
      · by_cases h4 : n + 1 < N
        · obtain ⟨m, rfl⟩ : ∃ m, n = m + 1 := ⟨n - 1, by omega⟩
          exact hr hX (by omega) (a m (by omega) X)
        · obtain ⟨m, rfl⟩ : ∃ m, n = m + 1 + 1 := ⟨n - 2, by omega⟩
          exact hr hX (by omega) (c m (by omega) X)
    · have a := fun i (hi : i + 2 < N) Y => hit_left (last := last) (X := Y) hNT hT le_rfl hi hX (Or.inr fun z => h _ _ _ _)
      by_cases h1 : n + 2 < N
      · exact hl hX (by omega) (a n h1 X)
      · obtain ⟨m, rfl⟩ : ∃ m, n = m + 1 := ⟨n - 1, by omega⟩
        exact right_hit hNT le_rfl hn hX (Or.inr ⟨0, hNT, Or.inr (h _ _ _ _)⟩)
    · have c := fun i (hi : i + 2 < N) Y => hit_right (last := last) (X := Y) hNT hT le_rfl hi hX (Or.inr fun z => h _ _ _ _)
      by_cases h4 : n + 1 < N
      · exact left_hit hNT le_rfl h4 hX (Or.inr ⟨0, hNT, Or.inr (h _ _ _ _)⟩)
      · obtain ⟨m, rfl⟩ : ∃ m, n = m + 1 + 1 := ⟨n - 2, by omega⟩
        exact hr hX (by omega) (c m (by omega) X)
  · intro Y hY y hy z hz
    obtain ⟨i, hi, hh⟩ : ∃ i, i + 1 < N ∧ Hit f N NT T last 1 i Y := by
      rcases hit with hit | hit
      · exact ⟨0, by omega, hit 0 (by omega) Y⟩
      · exact ⟨1, by omega, hit 0 (by omega) Y⟩
    have part : ∀ x < NT + T, ∃ (l : Bool) (x' : ℕ), x' < size NT T l ∧ x = off NT l + x' := fun x hx => by
      by_cases h : x < NT
      · exact ⟨false, x, by simpa [size] using h, by simp [off]⟩
      · exact ⟨true, x - NT, by simp only [size, if_true]; omega, by simp only [off, if_true]; omega⟩
    obtain ⟨l, y', hy', rfl⟩ := part y hy
    obtain ⟨r, z', hz', rfl⟩ := part z hz
    exact rule_hit (fun _ _ => rfl) le_rfl hi hy' hz' (Or.inl hh)

/-- **C118, one nonterminal is enough.** If some nonterminal has no allowed rule with two nonterminals as children, or none with a nonterminal and a preterminal, or none
with a preterminal and a nonterminal, and the table has at least three words, then all marginals of rules and preterminals of the row are NaN: those of other
nonterminals too, and whatever derivations are allowed. -/
theorem stuck_nan (p : Scores ℝ) (lengths : Option (List ℕ)) (h : SentCFG.Valid p lengths) (h3 : 3 ≤ p.N) (F : Banned) :
    ∃ μ, CFGBackward.marginals Slope.plain (forbidCfg p F) lengths = .ok μ ∧ ∀ b < p.batch, Stuck F b p.NT p.T →
      (∀ n < p.N, ∀ t < p.T, μ.term b n t = IEEE.nan) ∧ ∀ X < p.NT, ∀ y < p.NT + p.T, ∀ z < p.NT + p.T, μ.rule b X y z = IEEE.nan := by
  obtain ⟨μ, e, hμ⟩ := call h (by omega) Slope.plain F
  refine ⟨μ, e, fun b hb => ?_⟩
  rintro ⟨X, hX, hs⟩
  obtain ⟨m1, m2, -, -⟩ := hμ b hb
  have k := nan_rel h F b hb
  obtain ⟨a, c⟩ := spread (f := bad p lengths F b) (last := len p lengths b - 1) h.nonterminals h.preterminals h3 hX (by
    rcases hs with hs | hs | hs
    · exact Or.inl fun w i y z => block_empty (l := false) (r := false) fun y hy z hz => Or.inl (by simpa [off] using hs y hy z hz)
    · exact Or.inr (Or.inl fun w i y z => block_empty (l := false) (r := true) fun y hy z hz => Or.inl (by simpa [off] using hs y hy z hz))
    · exact Or.inr (Or.inr fun w i y z => block_empty (l := true) (r := false) fun y hy z hz => Or.inl (by simpa [off] using hs y hy z hz)))
  exact ⟨fun n hn t ht => (m1 n t).trans ((k.term n t ht).iff.2 (a n hn t)), fun Y hY y hy z hz => (m2 Y y z).trans ((k.rule Y hY y hy z hz).iff.2 (c Y hY y hy z hz))⟩

/-- **C118, no rule with two preterminals.** If some nonterminal has none, all marginals of preterminals and those of its rules with two preterminals are NaN. -/
theorem words_nan (p : Scores ℝ) (lengths : Option (List ℕ)) (h : SentCFG.Valid p lengths) (h2 : 2 ≤ p.N) (F : Banned) :
    ∃ μ, CFGBackward.marginals Slope.plain (forbidCfg p F) lengths = .ok μ ∧ ∀ b < p.batch, ∀ X < p.NT,
      (∀ t < p.T, ∀ u < p.T, F.rule b X (p.NT + t) (p.NT + u)) →
      (∀ n < p.N, ∀ t < p.T, μ.term b n t = IEEE.nan) ∧ ∀ t < p.T, ∀ u < p.T, μ.rule b X (p.NT + t) (p.NT + u) = IEEE.nan := by
  obtain ⟨μ, e, hμ⟩ := call h h2 Slope.plain F
  refine ⟨μ, e, fun b hb X hX hs => ?_⟩
  obtain ⟨m1, m2, -, -⟩ := hμ b hb
  have k := nan_rel h F b hb
  have z0 : ∀ i, partW p.NT p.T false b (weight p F b) true true 1 i X = 0 := fun i =>
    block_empty (l := true) (r := true) fun y hy z hz => Or.inl (by simpa [off] using hs y hy z hz)
  have hT : 0 < p.T := h.preterminals
  refine ⟨fun n hn t ht => (m1 n t).trans ((k.term n t ht).iff.2 ?_), fun t ht u hu => (m2 _ _ _).trans ?_⟩
  · by_cases h1 : n + 1 < p.N
    · exact (both_hit (f := bad p lengths F b) h1 hX ht hT (z0 n)).1
    · obtain ⟨m, rfl⟩ : ∃ m, n = m + 1 := ⟨n - 1, by omega⟩
      exact (both_hit (f := bad p lengths F b) hn hX hT ht (z0 m)).2
  · exact rule_nan h hb (l := true) (r := true) present_tt le_rfl (i := 0) (by omega) hX ht hu (z0 0)

/-- **C118, a sufficient condition.** If every nonterminal has an allowed rule of every kind everywhere, torch's backward pass gives the conditional expectations. -/
theorem open_spec (p : Scores ℝ) (lengths : Option (List ℕ)) (h : SentCFG.Valid p lengths) (hl : Long p lengths) {B : ℝ} (hB : Bounded p lengths B) (F : Banned) :
    ∃ μ, CFGBackward.marginals Slope.plain (forbidCfg p F) lengths = .ok μ ∧ ∀ b < p.batch, Open F b p.N p.NT p.T → (∃ d : Der p lengths b, DerivAvoids F b d.1) →
      Close (fun x v => x = IEEE.ofReal v) p lengths F μ b (err p lengths B b * (3 * p.N)) := by
  obtain ⟨μ, e, hμ⟩ := plain_spec p lengths h hl hB F
  have hN2 : 2 ≤ p.N := (hl 0 h.rows).trans (SentCFG.len_le h 0 h.rows)
  obtain ⟨μ', e', hμ'⟩ := plain_iff p lengths h hN2 F
  obtain rfl : μ = μ' := Except.ok.inj (e.symm.trans e')
  refine ⟨μ, e, fun b hb ho hA => ?_⟩
  have n := (hμ' b hb).2 ho
  have c := hμ b hb hA
  refine ⟨fun n' hn t ht => ?_, fun X hX y hy z hz => ?_, fun X hX => ?_, fun w i hi X hX => ?_⟩
  · obtain ⟨v, h1, h2⟩ := c.term n' hn t ht
    exact ⟨v, h1.resolve_left (n.term n' hn t ht), h2⟩
  · obtain ⟨v, h1, h2⟩ := c.rule X hX y hy z hz
    exact ⟨v, h1.resolve_left (n.rule X hX y hy z hz), h2⟩
  · obtain ⟨v, h1, h2⟩ := c.root X hX
    exact ⟨v, h1.resolve_left (n.root X hX), h2⟩
  · obtain ⟨v, h1, h2⟩ := c.spans w i hi X hX
    exact ⟨v, h1.resolve_left (n.spans w i X hX), h2⟩

/-! The hypotheses are met: the sample, with rows of three and two words, two nonterminals and one preterminal. -/

/-- Nonterminal 0 may not have two nonterminals as children. -/
def noBoth : Banned := ⟨fun _ _ _ => False, fun _ X y z => X = 0 ∧ y < 2 ∧ z < 2, fun _ _ => False⟩

/-- No derivation of three words needs such a rule, and yet the marginals of all rules and preterminals are NaN. -/
example : (∀ d : Der SentCFG.sample (some [3, 2]) 0, DerivAvoids noBoth 0 d.1) ∧
    ∃ μ, CFGBackward.marginals Slope.plain (forbidCfg SentCFG.sample noBoth) (some [3, 2]) = .ok μ ∧ μ.term 0 1 0 = IEEE.nan ∧ μ.rule 0 1 2 1 = IEEE.nan := by
  constructor
  · rintro ⟨d, h1, h2⟩
    have h1 : d.size = 3 := h1
    have sizes : ∀ t : Deriv 2 1, t.sym < 2 → 2 ≤ t.size := by
      intro t ht
      cases t with
      | leaf a => simp only [Deriv.sym] at ht; omega
      | node X l r => have := l.size_pos; have := r.size_pos; simp only [GTree.size]; omega
    have key : ∀ t : Deriv 2 1, t.size ≤ 3 → ∀ x ∈ t.rules, ¬ (x.1 = 0 ∧ x.2.1 < 2 ∧ x.2.2 < 2) := by
      intro t
      induction t with
      | leaf a => intro _ x hx; simp [Deriv.rules] at hx
      | node X l r ihl ihr =>
        intro ht x hx
        have h3 := l.size_pos
        have h4 := r.size_pos
        simp only [GTree.size] at ht
        simp only [Deriv.rules, List.mem_cons, List.mem_append] at hx
        rcases hx with rfl | hx | hx
        · rintro ⟨-, hl, hr⟩
          have := sizes l hl
          have := sizes r hr
          omega
        · exact ihl (by omega) x hx
        · exact ihr (by omega) x hx
    exact ⟨not_false, key d (le_of_eq h1), fun _ _ => not_false⟩
  · obtain ⟨μ, h1, h2⟩ := stuck_nan SentCFG.sample (some [3, 2]) SentCFG.sample_valid (by decide) noBoth
    obtain ⟨h3, h4⟩ := h2 0 (by decide) ⟨0, by decide, Or.inl fun y hy z hz => ⟨rfl, hy, hz⟩⟩
    exact ⟨μ, h1, h3 1 (by decide) 0 (by decide), h4 1 (by decide) 2 (by decide) 1 (by decide)⟩

/-- If only the rule of nonterminal 0 with children 0 and 0 is forbidden, no marginal is NaN. -/
example : ∃ μ, CFGBackward.marginals Slope.plain (forbidCfg SentCFG.sample ⟨fun _ _ _ => False, fun _ X y z => X = 0 ∧ y = 0 ∧ z = 0, fun _ _ => False⟩) (some [3, 2]) = .ok μ ∧
    NoNan μ 0 3 2 1 ∧ NoNan μ 1 3 2 1 := by
  obtain ⟨μ, h1, h2⟩ := plain_iff SentCFG.sample (some [3, 2]) SentCFG.sample_valid (by decide) ⟨fun _ _ _ => False, fun _ X y z => X = 0 ∧ y = 0 ∧ z = 0, fun _ _ => False⟩
  have ho : ∀ b, Open ⟨fun _ _ _ => False, fun _ X y z => X = 0 ∧ y = 0 ∧ z = 0, fun _ _ => False⟩ b 3 2 1 := fun b =>
    ⟨fun X _ => ⟨1, by decide, 0, by decide, fun hc => absurd hc.2.1 (by decide)⟩, fun X _ n _ => ⟨1, by decide, 0, by decide, fun hc => absurd hc.2.1 (by decide), not_false⟩,
      fun X _ n _ => ⟨0, by decide, 0, by decide, fun hc => absurd hc.2.1 (by decide), not_false⟩,
      fun X _ n _ => ⟨0, by decide, 0, by decide, fun hc => absurd hc.2.1 (by decide), not_false, not_false⟩, ⟨0, by decide, not_false⟩⟩
  exact ⟨μ, h1, (h2 0 (by decide)).2 (ho 0), (h2 1 (by decide)).2 (ho 1)⟩

end Props.CFGInfinity
