import Verif.Proofs.CKY
import Verif.Proofs.ExactDP
import Verif.Proofs.Gibbs
import Verif.Proofs.Lists
import Mathlib.Tactic.IntervalCases

/-! Property theorems about `SentCFG`: C27, C51, C52, C53, C54.

A derivation of the `L` words of a row is an element of `Spec.Derivs NT T L`. -/

open Finset Spec Generic GrammarProofs CKYProofs

noncomputable section
namespace Props.SentCFG
open _root_.CKY

/-- What the theorems assume: tables of matching shapes, at least one nonterminal, preterminal, row and word, lengths between 1 and `N`; no
marks (they are added by `marginals`). -/
structure Valid {γ : Type} (p : Scores γ) (lengths : Option (List ℕ)) : Prop where
  symbols : p.S = p.NT + p.T
  nonterminals : 1 ≤ p.NT
  preterminals : 1 ≤ p.T
  rows : 1 ≤ p.batch
  words : 1 ≤ p.N
  lens : LengthsIn p.batch p.N lengths
  plain : p.mark = none

/-- The length of row `b`. -/
def len {γ : Type} (p : Scores γ) (lengths : Option (List ℕ)) (b : ℕ) : ℕ := lenOf p.N lengths b

/-- The derivations of row `b`. -/
abbrev Der {γ : Type} (p : Scores γ) (lengths : Option (List ℕ)) (b : ℕ) : Type := Derivs p.NT p.T (len p lengths b)

/-- The score of a derivation of row `b`. -/
def dscore (p : Scores ℝ) (b : ℕ) {L : ℕ} (d : Derivs p.NT p.T L) : ℝ := derivScore (p.term b) (p.rule b) (p.root b) d

/-- Every row has at least two words. -/
def Long {γ : Type} (p : Scores γ) (lengths : Option (List ℕ)) : Prop := ∀ b < p.batch, 2 ≤ len p lengths b

/-- A concrete input that meets the hypotheses: two rows of 3 and 2 words, two nonterminals, one preterminal. -/
def sample : Scores ℝ :=
  ⟨2, 3, 1, 2, 3, fun b n t => (b : ℝ) + n - t, fun b x y z => (b : ℝ) - x + y - z, fun b x => (b : ℝ) + x, none⟩

theorem sample_valid : Valid sample (some [3, 2]) := ⟨rfl, by decide, by decide, by decide, by decide, ⟨rfl, by decide⟩, rfl⟩

theorem sample_long : Long sample (some [3, 2]) := by
  intro b hb
  have hb : b < 2 := hb
  interval_cases b <;> decide

theorem Valid.toProofs {γ : Type} {p : Scores γ} {lengths : Option (List ℕ)} (h : Valid p lengths) : CKYProofs.Valid p lengths :=
  ⟨h.symbols, h.nonterminals, h.preterminals, h.rows, h.words, h.lens⟩

theorem Valid.marked {p : Scores ℝ} {lengths : Option (List ℕ)} (h : Valid p lengths) : CKYProofs.Valid (marked p) lengths :=
  ⟨h.symbols, h.nonterminals, h.preterminals, h.rows, h.words, h.lens⟩

variable {p : Scores ℝ} {lengths : Option (List ℕ)}

theorem nonempty_derivs {NT T : ℕ} (hNT : 1 ≤ NT) (hT : 1 ≤ T) : ∀ {L : ℕ}, 2 ≤ L → Nonempty (Derivs NT T L)
  | 2, _ => ⟨⟨.node ⟨0, hNT⟩ (.leaf ⟨0, hT⟩) (.leaf ⟨0, hT⟩), rfl, rfl⟩⟩
  | L + 3, _ => by
    obtain ⟨t⟩ := nonempty_derivs hNT hT (L := L + 2) (by omega)
    exact ⟨⟨.node ⟨0, hNT⟩ (.leaf ⟨0, hT⟩) t.1, by simp only [GTree.size, t.2.1]; omega, rfl⟩⟩

theorem der_nonempty (h : Valid p lengths) (hl : Long p lengths) (b : ℕ) (hb : b < p.batch) : Nonempty (Der p lengths b) :=
  nonempty_derivs h.nonterminals h.preterminals (hl b hb)

/-! ### Values -/

/-- **C27** in any commutative semiring: the value of a row is the sum over the derivations of its words, each once, of root weight times
rule weights times preterminal weights. -/
theorem sum_any_semiring {R : Type} [CommSemiring R] (p : Scores R) (lengths : Option (List ℕ)) (h : Valid p lengths) :
    logpartition (Semirings.std R) p lengths =
      .ok ((List.range p.batch).map fun b => ∑ d : Der p lengths b, derivWeight (p.term b) (p.rule b) (p.root b) d) := by
  refine (batchDP p lengths h.toProofs).any_semiring.trans ?_
  congr 1
  refine List.map_congr_left fun b _ => sum_congr rfl fun d _ => ?_
  rw [h.plain]
  simp only [derivParts, Option.isSome_none, Bool.false_eq_true, if_false, add_zero, Multiset.map_add, Multiset.prod_add, Multiset.map_singleton,
    Multiset.prod_singleton, ruleIds, wordIds, Multiset.map_coe, Multiset.prod_coe, List.map_map]
  rfl

/-- **C27** for the log semiring with a true zero (`zero = -∞`) and potentials that may be `-∞`. -/
theorem partition_limit (p : Scores EReal) (lengths : Option (List ℕ)) (h : Valid p lengths) : logpartition (Semirings.logE ⊥) p lengths =
    .ok ((List.range p.batch).map fun b => ENNReal.log (∑ d : Der p lengths b, EReal.exp (p.root b d.1.sym +
      ((d.1.rules.map fun x => p.rule b x.1 x.2.1 x.2.2).sum + ((d.1.words 0).map fun x => p.term b x.1 x.2).sum)))) := by
  refine ((batchDP p lengths h.toProofs).logE_eq ⊥ (Or.inl rfl)).trans ?_
  congr 1
  refine List.map_congr_left fun b _ => congrArg _ (sum_congr rfl fun d _ => ?_)
  rw [h.plain]
  simp only [derivParts, Option.isSome_none, Bool.false_eq_true, if_false, add_zero, Multiset.map_add, Multiset.sum_add, Multiset.map_singleton,
    Multiset.sum_singleton, ruleIds, wordIds, Multiset.map_coe, Multiset.sum_coe, List.map_map]
  rfl

theorem realScore_plain (p : Scores ℝ) (b : ℕ) {L : ℕ} : realScore (derivParts false b : Derivs p.NT p.T L → _) (atS p) = dscore p b := by
  funext d
  simp only [realScore, derivParts, Bool.false_eq_true, if_false, add_zero, Multiset.map_add, Multiset.sum_add, Multiset.map_singleton,
    Multiset.sum_singleton, ruleIds, wordIds, Multiset.map_coe, Multiset.sum_coe, List.map_map]
  rfl

theorem realScore_marked (p : Scores ℝ) (b : ℕ) {L : ℕ} : realScore (derivParts true b : Derivs p.NT p.T L → _) (atS (marked p)) = dscore p b := by
  funext d
  simp only [realScore, derivParts, if_true, Multiset.map_add, Multiset.sum_add, Multiset.map_singleton,
    Multiset.sum_singleton, ruleIds, wordIds, spanIds, Multiset.map_coe, Multiset.sum_coe, List.map_map]
  have : ((d.1.spans 0).map (atS (marked p) ∘ fun x => [b, 3, x.2.1 - x.1 - 1, x.1, x.2.2])).sum = 0 :=
    List.sum_eq_zero fun x hx => by
      obtain ⟨s, -, rfl⟩ := List.mem_map.1 hx
      rfl
  rw [this, add_zero]
  rfl

/-- The potentials that the derivations of a row use are at most `B` in absolute value. -/
structure Bounded (p : Scores ℝ) (lengths : Option (List ℕ)) (B : ℝ) : Prop where
  nonneg : 0 ≤ B
  term : ∀ b < p.batch, ∀ n < len p lengths b, ∀ t < p.T, |p.term b n t| ≤ B
  rule : ∀ b < p.batch, ∀ X < p.NT, ∀ y < p.NT + p.T, ∀ z < p.NT + p.T, |p.rule b X y z| ≤ B
  root : ∀ b < p.batch, ∀ X < p.NT, |p.root b X| ≤ B

/-- The error that the stand-in `zero = -1e5` causes in row `b`: (bound on the number of trees) · exp(4 · words · B - 1e5). -/
def err (p : Scores ℝ) (lengths : Option (List ℕ)) (B : ℝ) (b : ℕ) : ℝ :=
  ((2 * p.NT + p.T) ^ (2 * len p lengths b) : ℕ) * Real.exp (4 * len p lengths b * B - 100000)

theorem err_nonneg (p : Scores ℝ) (lengths : Option (List ℕ)) (B : ℝ) (b : ℕ) : 0 ≤ err p lengths B b :=
  mul_nonneg (Nat.cast_nonneg _) (Real.exp_nonneg _)

/-- Bounds on the entries, with or without marks. -/
structure EntryBound (mk : Bool) (N NT T : ℕ) (lengths : Option (List ℕ)) (b : ℕ) (v : List ℕ → ℝ) (B : ℝ) : Prop where
  nonneg : 0 ≤ B
  bound : ∀ e, Entry N NT T mk lengths b e → |v e| ≤ B
  mark : ∀ w i X, v [b, 3, w, i, X] = 0 ∨ mk = false

theorem bound_plain (h : Valid p lengths) {B : ℝ} (hB : Bounded p lengths B) (b : ℕ) (hb : b < p.batch) :
    EntryBound p.mark.isSome p.N p.NT p.T lengths b (atS p) B := by
  rw [h.plain]
  refine ⟨hB.nonneg, ?_, fun _ _ _ => Or.inr rfl⟩
  rintro e (⟨n, t, rfl, h1, h2⟩ | ⟨X, y, z, rfl, h1, h2, h3⟩ | ⟨X, rfl, h1⟩ | ⟨h0, -⟩)
  · exact hB.term b hb n h1 t h2
  · exact hB.rule b hb X h1 y h2 z h3
  · exact hB.root b hb X h1
  · exact absurd h0 (by simp)

theorem bound_marked {B : ℝ} (hB : Bounded p lengths B) (b : ℕ) (hb : b < p.batch) :
    EntryBound true p.N p.NT p.T lengths b (atS (marked p)) B := by
  refine ⟨hB.nonneg, ?_, fun _ _ _ => Or.inl rfl⟩
  rintro e (⟨n, t, rfl, h1, h2⟩ | ⟨X, y, z, rfl, h1, h2, h3⟩ | ⟨X, rfl, h1⟩ | ⟨-, w, i, X, rfl, -⟩)
  · exact hB.term b hb n h1 t h2
  · exact hB.rule b hb X h1 y h2 z h3
  · exact hB.root b hb X h1
  · change |(0 : ℝ)| ≤ B
    rw [abs_zero]; exact hB.nonneg

/-- The score of a tree with or without phantom leaves. -/
theorem tree_le {mk : Bool} {N NT T : ℕ} {b : ℕ} {v : List ℕ → ℝ} {B : ℝ} (hv : EntryBound mk N NT T lengths b v B) :
    ∀ (i : ℕ) (t : ETree NT T), i + t.size ≤ lenOf N lengths b →
      ((atoms mk b i t).map (Atom.score Semirings.negInf v)).sum ≤ (2 * t.size - 1) * B ∧
      (hole t → ((atoms mk b i t).map (Atom.score Semirings.negInf v)).sum ≤ -100000 + (2 * t.size - 1) * B)
  | i, .leaf (.inl t), h => by
    simp only [GTree.size] at h
    have := (abs_le.1 (hv.bound [b, 0, i, ↑t] (Or.inl ⟨i, t, rfl, by omega, t.2⟩))).2
    simp only [atoms, Multiset.map_singleton, Multiset.sum_singleton, GTree.size, hole, false_implies, and_true]
    change v [b, 0, i, ↑t] ≤ _
    push_cast
    linarith
  | i, .leaf (.inr X), h => by
    have hB := hv.nonneg
    simp only [atoms, Multiset.map_singleton, Multiset.sum_singleton, GTree.size]
    change (Semirings.negInf : ℝ) ≤ _ ∧ (_ → (Semirings.negInf : ℝ) ≤ _)
    norm_num [Semirings.negInf]
    constructor
    · linarith
    · intro _; exact hB
  | i, .node X l r, h => by
    have h1 := l.size_pos
    have h2 := r.size_pos
    simp only [GTree.size] at h
    obtain ⟨a1, a2⟩ := tree_le hv i l (by omega)
    obtain ⟨b1, b2⟩ := tree_le hv (i + l.size) r (by omega)
    have h3 := (abs_le.1 (hv.bound [b, 1, ↑X, sym l, sym r] (Or.inr (Or.inl ⟨X, _, _, rfl, X.2, sym_lt l, sym_lt r⟩)))).2
    have hm : ((if mk then {.pot [b, 3, l.size + r.size - 2, i, ↑X]} else 0 : Multiset Atom).map (Atom.score Semirings.negInf v)).sum = 0 := by
      rcases hv.mark (l.size + r.size - 2) i X with h | h
      · cases mk
        · simp
        · simp only [if_true, Multiset.map_singleton, Multiset.sum_singleton]
          exact h
      · subst h; simp
    have e : ((atoms mk b i (.node X l r)).map (Atom.score Semirings.negInf v)).sum = v [b, 1, ↑X, sym l, sym r] +
        ((atoms mk b i l).map (Atom.score Semirings.negInf v)).sum + ((atoms mk b (i + l.size) r).map (Atom.score Semirings.negInf v)).sum := by
      simp only [atoms, Multiset.map_add, Multiset.sum_add, hm, add_zero, Multiset.map_singleton, Multiset.sum_singleton]
      rfl
    rw [e]
    simp only [GTree.size]
    push_cast
    constructor
    · linarith
    · rintro (hh | hh)
      · have := a2 hh; linarith
      · have := b2 hh; linarith

theorem ph_le {mk : Bool} {N NT T : ℕ} {b : ℕ} {v : List ℕ → ℝ} {B : ℝ} (hv : EntryBound mk N NT T lengths b v B)
    (x : Ph NT T (lenOf N lengths b)) : phScore (phAtoms mk b) Semirings.negInf v x ≤ -100000 + 2 * lenOf N lengths b * B := by
  have h1 := (tree_le hv 0 x.1.1 (by rw [x.1.2]; omega)).2 x.2.2
  have h2 := (abs_le.1 (hv.bound [b, 2, sym x.1.1] (Or.inr (Or.inr (Or.inl ⟨_, rfl, x.2.1⟩))))).2
  have e : phScore (phAtoms mk b) Semirings.negInf v x = v [b, 2, sym x.1.1] + ((atoms mk b 0 x.1.1).map (Atom.score Semirings.negInf v)).sum := by
    simp only [phScore, phAtoms, Multiset.map_add, Multiset.sum_add, Multiset.map_singleton, Multiset.sum_singleton]
    rfl
  rw [e]
  rw [x.1.2] at h1
  linarith

theorem rules_length {NT T : ℕ} : ∀ d : Deriv NT T, d.rules.length = d.size - 1
  | .leaf _ => rfl
  | .node _ l r => by
    have h1 := l.size_pos
    have h2 := r.size_pos
    simp only [Deriv.rules, List.length_cons, List.length_append, rules_length l, rules_length r, GTree.size]; omega

theorem words_length {NT T : ℕ} : ∀ (d : Deriv NT T) (i : ℕ), (d.words i).length = d.size
  | .leaf _, _ => rfl
  | .node _ l r, i => by simp only [Deriv.words, List.length_append, words_length l, words_length r, GTree.size]

theorem spans_length {NT T : ℕ} : ∀ (d : Deriv NT T) (i : ℕ), (d.spans i).length = d.size - 1
  | .leaf _, _ => rfl
  | .node _ l r, i => by
    have h1 := l.size_pos
    have h2 := r.size_pos
    simp only [Deriv.spans, List.length_cons, List.length_append, spans_length l, spans_length r, GTree.size]; omega

theorem parts_card (mk : Bool) (b : ℕ) {NT T L : ℕ} (d : Derivs NT T L) :
    Multiset.card (derivParts mk b d) = 2 * L + if mk then L - 1 else 0 := by
  have h0 := d.1.size_pos
  have h1 := d.2.1
  simp only [derivParts, Multiset.card_add, Multiset.card_singleton, ruleIds, wordIds, Multiset.coe_card, List.length_map, rules_length, words_length]
  cases mk
  · simp; omega
  · simp only [if_true, spanIds, Multiset.coe_card, List.length_map, spans_length]; omega

theorem multiset_abs_sum_le {X : Type} (m : Multiset X) (f : X → ℝ) {B : ℝ} (h : ∀ x ∈ m, |f x| ≤ B) : |(m.map f).sum| ≤ Multiset.card m * B := by
  induction m using Multiset.induction_on with
  | empty => simp
  | cons a m ih =>
    rw [Multiset.map_cons, Multiset.sum_cons, Multiset.card_cons]
    have h1 := h a (Multiset.mem_cons_self a m)
    have h2 := ih fun x hx => h x (Multiset.mem_cons_of_mem hx)
    have h3 := abs_add_le (f a) (m.map f).sum
    push_cast
    linarith

theorem real_le (h : Valid p lengths) {B : ℝ} (hB : Bounded p lengths B) (b : ℕ) (hb : b < p.batch) (d : Der p lengths b) :
    |dscore p b d| ≤ 2 * len p lengths b * B := by
  have h1 := bound_plain h hB b hb
  obtain ⟨row, -, h2⟩ := (batchDP p lengths h.toProofs).rows
  have h3 := multiset_abs_sum_le (derivParts p.mark.isSome b d) (atS p) fun e he => h1.bound e ((h2 b hb).partE d e he)
  rw [parts_card, h.plain] at h3
  rw [← realScore_plain, realScore]
  simpa using h3

theorem card_ph (NT T L : ℕ) : Fintype.card (Ph NT T L) ≤ (2 * NT + T) ^ (2 * L) := by
  have h1 : Fintype.card (Ph NT T L) ≤ Fintype.card (GTrees NT (Fin T ⊕ Fin NT) L) :=
    Fintype.card_le_of_injective _ Subtype.val_injective
  have h2 := card_gtrees (NT := NT) (A := Fin T ⊕ Fin NT) L
  rw [Fintype.card_sum, Fintype.card_fin, Fintype.card_fin] at h2
  have e : NT + (T + NT) = 2 * NT + T := by omega
  rw [e] at h2
  by_cases hL : L = 0
  · subst hL
    have : IsEmpty (GTrees NT (Fin T ⊕ Fin NT) 0) := ⟨fun t => by have := t.1.size_pos; have := t.2; omega⟩
    rw [Fintype.card_eq_zero (α := GTrees NT (Fin T ⊕ Fin NT) 0)] at h1
    omega
  · by_cases h0 : 2 * NT + T = 0
    · rw [h0, zero_pow (by omega)] at h2
      omega
    · exact h1.trans (h2.trans (Nat.pow_le_pow_right (by omega) (by omega)))

theorem ex_le_aux {mk : Bool} {v : List ℕ → ℝ} {B : ℝ} {b : ℕ} (hne : Nonempty (Der p lengths b))
    (hv : EntryBound mk p.N p.NT p.T lengths b v B) (hreal : ∀ d : Der p lengths b, |realScore (derivParts mk b) v d| ≤ 2 * len p lengths b * B) :
    Gibbs.excess (realScore (derivParts mk b : Der p lengths b → _) v) (phScore (phAtoms mk b : Ph p.NT p.T (len p lengths b) → _) Semirings.negInf v) ≤
      err p lengths B b := by
  refine (Gibbs.excess_le (ι := Der p lengths b) _ _ (L := -(2 * len p lengths b * B)) (U := -100000 + 2 * len p lengths b * B) ?_ ?_).trans ?_
  · intro d
    exact (abs_le.1 (hreal d)).1
  · intro x
    exact ph_le hv x
  · rw [err]
    have e : -100000 + 2 * len p lengths b * B - -(2 * len p lengths b * B) = 4 * len p lengths b * B - 100000 := by ring
    rw [e]
    refine mul_le_mul_of_nonneg_right ?_ (Real.exp_nonneg _)
    exact_mod_cast card_ph p.NT p.T (len p lengths b)

theorem ex_plain (h : Valid p lengths) (hl : Long p lengths) {B : ℝ} (hB : Bounded p lengths B) (b : ℕ) (hb : b < p.batch) :
    Gibbs.excess (realScore (derivParts p.mark.isSome b : Der p lengths b → _) (atS p))
      (phScore (phAtoms p.mark.isSome b : Ph p.NT p.T (len p lengths b) → _) Semirings.negInf (atS p)) ≤ err p lengths B b := by
  refine ex_le_aux (der_nonempty h hl b hb) (bound_plain h hB b hb) fun d => ?_
  rw [h.plain]
  simp only [Option.isSome_none]
  rw [realScore_plain]
  exact real_le h hB b hb d

theorem ex_marked (h : Valid p lengths) (hl : Long p lengths) {B : ℝ} (hB : Bounded p lengths B) (b : ℕ) (hb : b < p.batch) :
    Gibbs.excess (realScore (derivParts true b : Der p lengths b → _) (atS (marked p)))
      (phScore (phAtoms true b : Ph p.NT p.T (len p lengths b) → _) Semirings.negInf (atS (marked p))) ≤ err p lengths B b := by
  refine ex_le_aux (der_nonempty h hl b hb) (bound_marked hB b hb) fun d => ?_
  rw [realScore_marked]
  exact real_le h hB b hb d

/-- The true log-partition of row `b`. -/
def truth (p : Scores ℝ) (lengths : Option (List ℕ)) (b : ℕ) : ℝ := Real.log (∑ d : Der p lengths b, Real.exp (dscore p b d))

/-- **C27.** For rows of at least two words `SentCFG.partition` is the log of the sum over the derivations of the exponentiated score; the
stand-in `zero = -1e5` only adds, and at most `err`. -/
theorem partition_spec (p : Scores ℝ) (lengths : Option (List ℕ)) (h : Valid p lengths) (hl : Long p lengths) {B : ℝ} (hB : Bounded p lengths B) :
    ∃ vs, Dist.partition algo p lengths = .ok vs ∧ vs.length = p.batch ∧ ∀ b (hb : b < vs.length),
      truth p lengths b ≤ vs[b] ∧ vs[b] ≤ truth p lengths b + err p lengths B b := by
  refine ⟨_, (batchDP p lengths h.toProofs).partition_leaky fun b hb => der_nonempty h hl b hb, by simp, fun b hb => ?_⟩
  have hb' : b < p.batch := by simpa using hb
  rw [getElem_map_range]
  have e : Real.log (Gibbs.Z (realScore (derivParts p.mark.isSome b : Der p lengths b → _) (atS p))) = truth p lengths b := by
    rw [h.plain]
    simp only [Option.isSome_none]
    rw [realScore_plain]; rfl
  have h1 := Gibbs.log_one_add_excess (realScore (derivParts p.mark.isSome b : Der p lengths b → _) (atS p))
    (phScore (phAtoms p.mark.isSome b : Ph p.NT p.T (len p lengths b) → _) Semirings.negInf (atS p))
  have h2 := ex_plain h hl hB b hb'
  unfold BatchDP.ex
  rw [← e]
  constructor
  · exact le_add_of_nonneg_right h1.1
  · exact add_le_add_right (h1.2.trans h2) _

/-- The bound on the error is tiny for `sample`. -/
theorem sample_bounded : Bounded sample (some [3, 2]) 10 ∧ err sample (some [3, 2]) 10 0 ≤ Real.exp (-99000) := by
  constructor
  · refine ⟨by norm_num, ?_, ?_, ?_⟩
    · intro b hb n hn t ht
      have hb : b < 2 := hb
      have ht : t < 1 := ht
      have hn' : n < 3 := by interval_cases b <;> simp [len, lenOf] at hn <;> omega
      interval_cases b <;> interval_cases n <;> interval_cases t <;> norm_num [sample, abs_le]
    · intro b hb X hX y hy z hz
      have hb : b < 2 := hb
      have hX : X < 2 := hX
      have hy : y < 3 := hy
      have hz : z < 3 := hz
      interval_cases b <;> interval_cases X <;> interval_cases y <;> interval_cases z <;> norm_num [sample, abs_le]
    · intro b hb X hX
      have hb : b < 2 := hb
      have hX : X < 2 := hX
      interval_cases b <;> interval_cases X <;> norm_num [sample, abs_le]
  · have e2 : len sample (some [3, 2]) 0 = 3 := rfl
    rw [err, e2]
    have h1 : (((2 * sample.NT + sample.T) ^ (2 * 3) : ℕ) : ℝ) = 15625 := by norm_num [sample]
    rw [h1]
    have h2 : (15625 : ℝ) ≤ Real.exp 800 := by
      have h3 : (2 : ℝ) ≤ Real.exp 1 := by have := Real.add_one_le_exp (1 : ℝ); linarith
      have h4 : Real.exp 800 = Real.exp 1 ^ 800 := by rw [← Real.exp_nat_mul]; norm_num
      rw [h4]
      have h5 : (2 : ℝ) ^ 14 ≤ Real.exp 1 ^ 800 := by
        calc (2 : ℝ) ^ 14 ≤ 2 ^ 800 := pow_le_pow_right₀ (by norm_num) (by norm_num)
          _ ≤ _ := pow_le_pow_left₀ (by norm_num) h3 _
      norm_num at h5 ⊢
      linarith
    calc (15625 : ℝ) * Real.exp (4 * (3 : ℕ) * 10 - 100000) ≤ Real.exp 800 * Real.exp (4 * (3 : ℕ) * 10 - 100000) :=
          mul_le_mul_of_nonneg_right h2 (Real.exp_nonneg _)
      _ ≤ Real.exp (-99000) := by rw [← Real.exp_add, Real.exp_le_exp]; norm_num

/-- A row of a single word has no derivation: its value consists of the stand-in `zero = -1e5` and the root scores only, whatever the
preterminal scores are.  This is why **C27** is about two words or more. -/
theorem partition_single (p : Scores ℝ) (lengths : Option (List ℕ)) (h : Valid p lengths) :
    ∃ vs, Dist.partition algo p lengths = .ok vs ∧ vs.length = p.batch ∧ ∀ b (hb : b < vs.length), len p lengths b = 1 →
      vs[b] = -100000 + Real.log (∑ X : Fin p.NT, Real.exp (p.root b X)) := by
  refine ⟨_, (batchDP p lengths h.toProofs).partition_eq, by simp, fun b hb hL => ?_⟩
  rw [getElem_map_range]
  have key : ∀ L, L = 1 → Gibbs.Z (tot (derivParts p.mark.isSome b : Derivs p.NT p.T L → _) (phAtoms p.mark.isSome b : Ph p.NT p.T L → _)
      Semirings.negInf (atS p)) = Real.exp (-100000) * ∑ X : Fin p.NT, Real.exp (p.root b X) := by
    rintro L rfl
    have : IsEmpty (Derivs p.NT p.T 1) := ⟨fun d => by
      obtain ⟨d, h1, h2⟩ := d
      cases d with
      | leaf t => exact absurd h2 (by simp [Deriv.isNode])
      | node X l r =>
        have := l.size_pos
        have := r.size_pos
        simp only [GTree.size] at h1
        omega⟩
    rw [Gibbs.Z, Fintype.sum_sum_type, univ_eq_empty, sum_empty, zero_add, mul_sum]
    refine (Fintype.sum_bijective (fun X : Fin p.NT => (⟨⟨.leaf (.inr X), rfl⟩, X.2, trivial⟩ : Ph p.NT p.T 1)) ⟨?_, ?_⟩ _ _ ?_).symm
    · intro X Y hXY
      have := congrArg (fun x : Ph p.NT p.T 1 => x.1.1) hXY
      simpa using this
    · rintro ⟨⟨t, h1⟩, h2, h3⟩
      cases t with
      | leaf a =>
        cases a with
        | inl t => exact absurd h3 (by simp [hole])
        | inr X => exact ⟨X, rfl⟩
      | node X l r =>
        have := l.size_pos
        have := r.size_pos
        simp only [GTree.size] at h1
        omega
    · intro X
      rw [← Real.exp_add]
      congr 1
      simp only [tot, Sum.elim_inr, phScore, phAtoms, atoms, Multiset.map_add, Multiset.sum_add, Multiset.map_singleton, Multiset.sum_singleton]
      change (-100000 : ℝ) + p.root b X = p.root b X + Semirings.negInf
      rw [Semirings.negInf]; ring
  have hne : Nonempty (Fin p.NT) := ⟨⟨0, h.nonterminals⟩⟩
  have e := key (lenOf p.N lengths b) hL
  refine (congrArg Real.log e).trans ?_
  rw [Real.log_mul (Real.exp_ne_zero _) (sum_pos (fun _ _ => Real.exp_pos _) univ_nonempty).ne', Real.log_exp]

/-- A batch with a row of one word. -/
example : Valid sample (some [1, 3]) ∧ len sample (some [1, 3]) 0 = 1 := ⟨⟨rfl, by decide, by decide, by decide, by decide, ⟨rfl, by decide⟩, rfl⟩, rfl⟩

/-! ### Lengths -/

/-- The same input with other preterminal scores. -/
def withTerm {γ : Type} (p : Scores γ) (g : ℕ → ℕ → ℕ → γ) : Scores γ := { p with term := g }

theorem withTerm_valid {γ : Type} {p : Scores γ} (h : Valid p lengths) (g : ℕ → ℕ → ℕ → γ) : Valid (withTerm p g) lengths :=
  ⟨h.symbols, h.nonterminals, h.preterminals, h.rows, h.words, h.lens, h.plain⟩

/-- **C53** in any commutative semiring: preterminal weights of words past the end of a row do not matter. -/
theorem inside_only {R : Type} [CommSemiring R] (p : Scores R) (lengths : Option (List ℕ)) (h : Valid p lengths) (g : ℕ → ℕ → ℕ → R)
    (hg : ∀ b < p.batch, ∀ n < len p lengths b, ∀ t < p.T, g b n t = p.term b n t) :
    logpartition (Semirings.std R) (withTerm p g) lengths = logpartition (Semirings.std R) p lengths := by
  rw [sum_any_semiring p lengths h, sum_any_semiring (withTerm p g) lengths (withTerm_valid h g)]
  congr 1
  refine List.map_congr_left fun b hb => sum_congr rfl fun d _ => ?_
  simp only [derivWeight]
  refine congrArg₂ _ rfl (congrArg₂ _ rfl ?_)
  refine congrArg List.prod (List.map_congr_left fun x hx => ?_)
  obtain ⟨row, -, h2⟩ := (batchDP p lengths h.toProofs).rows
  have := (h2 b (List.mem_range.1 hb)).partE d [b, 0, x.1, x.2] (by
    exact Multiset.mem_add.2 (Or.inr (Multiset.mem_add.2 (Or.inl (Multiset.mem_add.2 (Or.inr (List.mem_map.2 ⟨x, hx, rfl⟩)))))))
  rcases this with ⟨n, t, e, h1, h3⟩ | ⟨X, y, z, e, -⟩ | ⟨X, e, -⟩ | ⟨-, w, i, X, e, -⟩
  · simp only [List.cons.injEq, true_and, and_true] at e
    rw [e.1, e.2]
    exact hg b (List.mem_range.1 hb) n h1 t h3
  all_goals simp at e

/-- **C53** for `partition`, exactly. -/
theorem partition_inside_only (p : Scores ℝ) (lengths : Option (List ℕ)) (h : Valid p lengths) (g : ℕ → ℕ → ℕ → ℝ)
    (hg : ∀ b < p.batch, ∀ n < len p lengths b, ∀ t < p.T, g b n t = p.term b n t) :
    Dist.partition algo (withTerm p g) lengths = Dist.partition algo p lengths := by
  have D := batchDP p lengths h.toProofs
  have D' := batchDP (withTerm p g) lengths (withTerm_valid h g).toProofs
  refine D'.partition_eq.trans (Eq.trans ?_ D.partition_eq.symm)
  congr 1
  refine List.map_congr_left fun b hb => ?_
  have := D.tot_congr (val' := atS (withTerm p g)) (fun b hb e he => ?_) Semirings.negInf b (List.mem_range.1 hb)
  · rw [this]; rfl
  · rcases he with ⟨n, t, rfl, h1, h2⟩ | ⟨X, y, z, rfl, -⟩ | ⟨X, rfl, -⟩ | ⟨-, w, i, X, rfl, -⟩
    · exact (hg b hb n h1 t h2).symm
    all_goals rfl

/-- The unpadded problem of row `b`. -/
def block {γ : Type} (p : Scores γ) (b L : ℕ) : Scores γ :=
  ⟨1, L, p.T, p.NT, p.S, fun _ n t => p.term b n t, fun _ x y z => p.rule b x y z, fun _ x => p.root b x, none⟩

theorem block_valid {γ : Type} {p : Scores γ} (h : Valid p lengths) {b : ℕ} (hb : b < p.batch) : Valid (block p b (len p lengths b)) none :=
  ⟨h.symbols, h.nonterminals, h.preterminals, le_rfl, (CKYCRFProofs.len_in h.words h.lens b hb).1, trivial, rfl⟩

/-- **C53** in any commutative semiring: the value of a row is that of the unpadded problem with only its first words. -/
theorem truncation {R : Type} [CommSemiring R] (p : Scores R) (lengths : Option (List ℕ)) (h : Valid p lengths) :
    ∃ vs, logpartition (Semirings.std R) p lengths = .ok vs ∧ vs.length = p.batch ∧ ∀ b (hb : b < vs.length),
      logpartition (Semirings.std R) (block p b (len p lengths b)) none = .ok [vs[b]] := by
  refine ⟨_, sum_any_semiring p lengths h, by simp, fun b hb => ?_⟩
  rw [sum_any_semiring (block p b (len p lengths b)) none (block_valid h (by simpa using hb))]
  rw [getElem_map_range]
  rfl

/-- **C53** for `partition`, exactly. -/
theorem partition_truncation (p : Scores ℝ) (lengths : Option (List ℕ)) (h : Valid p lengths) :
    ∃ vs, Dist.partition algo p lengths = .ok vs ∧ vs.length = p.batch ∧ ∀ b (hb : b < vs.length),
      Dist.partition algo (block p b (len p lengths b)) none = .ok [vs[b]] := by
  refine ⟨_, (batchDP p lengths h.toProofs).partition_eq, by simp, fun b hb => ?_⟩
  have hb' : b < p.batch := by simpa using hb
  refine ((batchDP _ none (block_valid h hb').toProofs).partition_eq).trans ?_
  rw [getElem_map_range]
  change Except.ok [_] = _
  congr 2
  have e1 : Gibbs.Z (tot (derivParts false 0 : Der p lengths b → _) (phAtoms false 0 : Ph p.NT p.T (len p lengths b) → _) Semirings.negInf
      (atS (block p b (len p lengths b)))) = Gibbs.Z (tot (derivParts false b : Der p lengths b → _)
      (phAtoms false b : Ph p.NT p.T (len p lengths b) → _) Semirings.negInf (atS p)) := by
    congr 1
    funext t
    cases t with
    | inl d =>
      rw [tot, tot, Sum.elim_inl, Sum.elim_inl, realScore_plain p b]
      exact congrFun (realScore_plain (block p b (len p lengths b)) 0) d
    | inr x =>
      simp only [tot, Sum.elim_inr, phScore, phAtoms, Multiset.map_add, Multiset.sum_add, Multiset.map_singleton, Multiset.sum_singleton]
      have key : ∀ (i : ℕ) (t : ETree p.NT p.T), (atoms false 0 i t).map (Atom.score Semirings.negInf (atS (block p b (len p lengths b)))) =
          (atoms false b i t).map (Atom.score Semirings.negInf (atS p)) := by
        intro i t
        induction t generalizing i with
        | leaf a => cases a <;> rfl
        | node X l r ihl ihr =>
          simp only [atoms, Multiset.map_add, ihl, ihr, Bool.false_eq_true, if_false, Multiset.map_zero, Multiset.map_singleton]
          rfl
      rw [key]
      rfl
  rw [h.plain]
  exact congrArg Real.log e1

/-! ### `max`, `argmax` -/

theorem len_le (h : Valid p lengths) (b : ℕ) (hb : b < p.batch) : len p lengths b ≤ p.N := (CKYCRFProofs.len_in h.words h.lens b hb).2

theorem beat_aux (h : Valid p lengths) (hl : Long p lengths) {B : ℝ} (hB : Bounded p lengths B) (hsmall : 4 * p.N * B < 100000) (b : ℕ) (hb : b < p.batch)
    {s : ℝ} (hs : s ≤ -100000 + 2 * len p lengths b * B) : ∃ d : Der p lengths b, s < dscore p b d := by
  obtain ⟨d⟩ := der_nonempty h hl b hb
  refine ⟨d, ?_⟩
  have h2 := (abs_le.1 (real_le h hB b hb d)).1
  have h3 : (len p lengths b : ℝ) * B ≤ p.N * B := mul_le_mul_of_nonneg_right (by exact_mod_cast len_le h b hb) hB.nonneg
  linarith

theorem beat_plain (h : Valid p lengths) (hl : Long p lengths) {B : ℝ} (hB : Bounded p lengths B) (hsmall : 4 * p.N * B < 100000) (b : ℕ) (hb : b < p.batch)
    (x : Ph p.NT p.T (len p lengths b)) : ∃ d : Der p lengths b, phScore (phAtoms p.mark.isSome b) Semirings.negInf (atS p) x <
      realScore (derivParts p.mark.isSome b) (atS p) d := by
  obtain ⟨d, hd⟩ := beat_aux h hl hB hsmall b hb (ph_le (bound_plain h hB b hb) x)
  refine ⟨d, hd.trans_eq ?_⟩
  rw [h.plain]
  exact (congrFun (realScore_plain p b) d).symm

theorem beat_marked (h : Valid p lengths) (hl : Long p lengths) {B : ℝ} (hB : Bounded p lengths B) (hsmall : 4 * p.N * B < 100000) (b : ℕ) (hb : b < p.batch)
    (x : Ph p.NT p.T (len p lengths b)) : ∃ d : Der p lengths b, phScore (phAtoms true b) Semirings.negInf (atS (marked p)) x <
      realScore (derivParts true b) (atS (marked p)) d := by
  obtain ⟨d, hd⟩ := beat_aux h hl hB hsmall b hb (ph_le (bound_marked hB b hb) x)
  exact ⟨d, hd.trans_eq (congrFun (realScore_marked p b) d).symm⟩

/-- **C52.** `max` is the score of the best derivation of each row. -/
theorem max_spec (p : Scores ℝ) (lengths : Option (List ℕ)) (h : Valid p lengths) (hl : Long p lengths) {B : ℝ} (hB : Bounded p lengths B)
    (hsmall : 4 * p.N * B < 100000) :
    ∃ vs, Dist.max algo p lengths = .ok vs ∧ vs.length = p.batch ∧
    ∀ b (hb : b < vs.length), (∃ d : Der p lengths b, vs[b] = dscore p b d) ∧ ∀ d : Der p lengths b, dscore p b d ≤ vs[b] := by
  have := (batchDP p lengths h.toProofs).max_leaky fun b hb x => (beat_plain h hl hB hsmall b hb x).imp fun _ hy => hy.le
  rw [h.plain] at this
  simp only [Option.isSome_none, realScore_plain] at this
  exact this

example : 4 * (sample.N : ℝ) * 10 < 100000 := by norm_num [sample]

theorem coe_count' {α : Type} [DecidableEq α] [BEq α] [LawfulBEq α] (a : α) (l : List α) : Multiset.count a (l : Multiset α) = l.count a := by
  induction l with
  | nil => simp
  | cons x l ih => rw [← Multiset.cons_coe, Multiset.count_cons, ih, List.count_cons]; simp only [beq_iff_eq]; simp only [eq_comm]

theorem count_root (mk : Bool) (b : ℕ) {NT T L : ℕ} (d : Derivs NT T L) (X : ℕ) :
    (derivParts mk b d).count [b, 2, X] = if d.1.sym = X then 1 else 0 := by
  have h1 : (ruleIds b d.1).count [b, 2, X] = 0 := Multiset.count_eq_zero.2 fun hc => by
    obtain ⟨x, -, hx⟩ := List.mem_map.1 (Multiset.mem_coe.1 hc)
    simp at hx
  have h2 : (wordIds b 0 d.1).count [b, 2, X] = 0 := Multiset.count_eq_zero.2 fun hc => by
    obtain ⟨x, -, hx⟩ := List.mem_map.1 (Multiset.mem_coe.1 hc)
    simp at hx
  have h3 : (if mk then spanIds b 0 d.1 else 0 : Multiset (List ℕ)).count [b, 2, X] = 0 := Multiset.count_eq_zero.2 fun hc => by
    cases mk
    · simp at hc
    · obtain ⟨x, -, hx⟩ := List.mem_map.1 (Multiset.mem_coe.1 hc)
      simp at hx
  simp only [derivParts, Multiset.count_add, h1, h2, h3, Multiset.count_singleton, add_zero, List.cons.injEq, and_true, true_and]
  simp only [eq_comm]

theorem count_rule (mk : Bool) (b : ℕ) {NT T L : ℕ} (d : Derivs NT T L) (X y z : ℕ) :
    (derivParts mk b d).count [b, 1, X, y, z] = d.1.rules.count (X, y, z) := by
  have h1 : (ruleIds b d.1).count [b, 1, X, y, z] = d.1.rules.count (X, y, z) := by
    rw [← coe_count']
    exact Multiset.count_map_eq_count' (fun x : ℕ × ℕ × ℕ => [b, 1, x.1, x.2.1, x.2.2]) ↑d.1.rules
      (fun x x' h => by simp only [List.cons.injEq, true_and, and_true] at h; exact Prod.ext h.1 (Prod.ext h.2.1 h.2.2)) (X, y, z)
  have h2 : (wordIds b 0 d.1).count [b, 1, X, y, z] = 0 := Multiset.count_eq_zero.2 fun hc => by
    obtain ⟨x, -, hx⟩ := List.mem_map.1 (Multiset.mem_coe.1 hc)
    simp at hx
  have h3 : (if mk then spanIds b 0 d.1 else 0 : Multiset (List ℕ)).count [b, 1, X, y, z] = 0 := Multiset.count_eq_zero.2 fun hc => by
    cases mk
    · simp at hc
    · obtain ⟨x, -, hx⟩ := List.mem_map.1 (Multiset.mem_coe.1 hc)
      simp at hx
  have h4 : ({[b, 2, d.1.sym]} : Multiset (List ℕ)).count [b, 1, X, y, z] = 0 := Multiset.count_eq_zero.2 fun hc => by
    simp at hc
  simp only [derivParts, Multiset.count_add, h1, h2, h3, h4, add_zero, zero_add]

theorem count_term (mk : Bool) (b : ℕ) {NT T L : ℕ} (d : Derivs NT T L) (n t : ℕ) :
    (derivParts mk b d).count [b, 0, n, t] = (d.1.words 0).count (n, t) := by
  have h1 : (wordIds b 0 d.1).count [b, 0, n, t] = (d.1.words 0).count (n, t) := by
    rw [← coe_count']
    exact Multiset.count_map_eq_count' (fun x : ℕ × ℕ => [b, 0, x.1, x.2]) ↑(d.1.words 0)
      (fun x x' h => by simp only [List.cons.injEq, true_and, and_true] at h; exact Prod.ext h.1 h.2) (n, t)
  have h2 : (ruleIds b d.1).count [b, 0, n, t] = 0 := Multiset.count_eq_zero.2 fun hc => by
    obtain ⟨x, -, hx⟩ := List.mem_map.1 (Multiset.mem_coe.1 hc)
    simp at hx
  have h3 : (if mk then spanIds b 0 d.1 else 0 : Multiset (List ℕ)).count [b, 0, n, t] = 0 := Multiset.count_eq_zero.2 fun hc => by
    cases mk
    · simp at hc
    · obtain ⟨x, -, hx⟩ := List.mem_map.1 (Multiset.mem_coe.1 hc)
      simp at hx
  have h4 : ({[b, 2, d.1.sym]} : Multiset (List ℕ)).count [b, 0, n, t] = 0 := Multiset.count_eq_zero.2 fun hc => by
    simp at hc
  simp only [derivParts, Multiset.count_add, h1, h2, h3, h4, add_zero, zero_add]

/-- The constituents lie inside the words that the derivation covers and have at least two words. -/
theorem spans_mem {NT T : ℕ} : ∀ (d : Deriv NT T) (i : ℕ), ∀ x ∈ d.spans i, i ≤ x.1 ∧ x.1 < x.2.1 ∧ x.2.1 < i + d.size ∧ x.2.2 < NT
  | .leaf _, _, x, hx => by simp [Deriv.spans] at hx
  | .node X l r, i, x, hx => by
    have h1 := l.size_pos
    have h2 := r.size_pos
    simp only [Deriv.spans, List.mem_cons, List.mem_append] at hx
    simp only [GTree.size]
    rcases hx with rfl | hx | hx
    · exact ⟨le_rfl, by simp only; omega, by simp only; omega, X.2⟩
    · have := spans_mem l i x hx; omega
    · have := spans_mem r _ x hx; omega

theorem count_span (b : ℕ) {NT T L : ℕ} (d : Derivs NT T L) (w i X : ℕ) :
    (derivParts true b d).count [b, 3, w, i, X] = (d.1.spans 0).count (i, i + w + 1, X) := by
  have h1 : (spanIds b 0 d.1).count [b, 3, w, i, X] = (d.1.spans 0).count (i, i + w + 1, X) := by
    rw [← coe_count']
    refine Eq.trans ?_ (Multiset.count_eq_card_filter_eq _ _).symm
    refine (Multiset.count_map (fun x : ℕ × ℕ × ℕ => [b, 3, x.2.1 - x.1 - 1, x.1, x.2.2]) ↑(d.1.spans 0) [b, 3, w, i, X]).trans ?_
    congr 1
    refine Multiset.filter_congr fun x hx => ?_
    have := spans_mem d.1 0 x (Multiset.mem_coe.1 hx)
    obtain ⟨x1, x2, x3⟩ := x
    simp only [List.cons.injEq, true_and, and_true, Prod.mk.injEq] at this ⊢
    omega
  have h2 : (ruleIds b d.1).count [b, 3, w, i, X] = 0 := Multiset.count_eq_zero.2 fun hc => by
    obtain ⟨x, -, hx⟩ := List.mem_map.1 (Multiset.mem_coe.1 hc)
    simp at hx
  have h3 : (wordIds b 0 d.1).count [b, 3, w, i, X] = 0 := Multiset.count_eq_zero.2 fun hc => by
    obtain ⟨x, -, hx⟩ := List.mem_map.1 (Multiset.mem_coe.1 hc)
    simp at hx
  have h4 : ({[b, 2, d.1.sym]} : Multiset (List ℕ)).count [b, 3, w, i, X] = 0 := Multiset.count_eq_zero.2 fun hc => by
    simp at hc
  simp only [derivParts, Multiset.count_add, h1, h2, h3, h4, add_zero, zero_add, if_true]

/-- Every word has exactly one preterminal. -/
theorem words_fst {NT T : ℕ} : ∀ (d : Deriv NT T) (i : ℕ), (d.words i).map Prod.fst = (List.range d.size).map (i + ·)
  | .leaf _, i => by simp [Deriv.words, GTree.size]
  | .node _ l r, i => by
    simp only [Deriv.words, List.map_append, words_fst l, words_fst r, GTree.size, List.range_add, List.map_map]
    congr 1
    refine List.map_congr_left fun x _ => ?_
    simp only [Function.comp]; omega

/-- Every word has at most one preterminal, so the count of a preterminal at a position is 0 or 1. -/
theorem words_count_le {NT T : ℕ} (d : Deriv NT T) (i n t : ℕ) : (d.words i).count (n, t) ≤ 1 := by
  refine List.nodup_iff_count_le_one.1 (List.Nodup.of_map Prod.fst ?_) _
  rw [words_fst]
  exact List.nodup_range.map fun a b h => by simpa using h

/-- No constituent occurs twice. -/
theorem spans_nodup {NT T : ℕ} : ∀ (d : Deriv NT T) (i : ℕ), ((d.spans i).map fun x => (x.1, x.2.1)).Nodup
  | .leaf _, i => by simp [Deriv.spans]
  | .node X l r, i => by
    have h1 := l.size_pos
    have h2 := r.size_pos
    simp only [Deriv.spans, List.map_cons, List.map_append, List.nodup_cons, List.mem_append, List.mem_map]
    refine ⟨?_, List.nodup_append.2 ⟨spans_nodup l i, spans_nodup r _, ?_⟩⟩
    · rintro (⟨x, hx, he⟩ | ⟨x, hx, he⟩)
      · have := spans_mem l i x hx
        simp only [Prod.mk.injEq] at he
        omega
      · have := spans_mem r _ x hx
        simp only [Prod.mk.injEq] at he
        omega
    · intro a ha c hc he
      obtain ⟨x, hx, rfl⟩ := List.mem_map.1 ha
      obtain ⟨y, hy, rfl⟩ := List.mem_map.1 hc
      have a1 := spans_mem l i x hx
      have a2 := spans_mem r _ y hy
      simp only [Prod.mk.injEq] at he
      omega

theorem spans_count_le {NT T : ℕ} (d : Deriv NT T) (i : ℕ) (x : ℕ × ℕ × ℕ) : (d.spans i).count x ≤ 1 :=
  List.nodup_iff_count_le_one.1 (List.Nodup.of_map _ (spans_nodup d i)) _

/-- The tables of parts of row `b` are those of the derivation `d`: every preterminal, every rule as often as it is used, the root, and the
constituents by width and first word. -/
structure IsParts (μ : Marginals) (b : ℕ) {NT T L : ℕ} (d : Derivs NT T L) : Prop where
  term : ∀ n t, μ.term b n t = (d.1.words 0).count (n, t)
  rule : ∀ X y z, μ.rule b X y z = d.1.rules.count (X, y, z)
  root : ∀ X, μ.root b X = if d.1.sym = X then 1 else 0
  spans : ∀ w i X, μ.spans b w i X = (d.1.spans 0).count (i, i + w + 1, X)

theorem arrangeSpans_eq {N : ℕ} (g : List ℕ → ℝ) (b : ℕ) {NT T L : ℕ} (hL : L ≤ N) (d : Derivs NT T L)
    (h : ∀ e : List ℕ, e.head? = some b → g e = (derivParts true b d).count e) (w i X : ℕ) :
    arrangeSpans N g b w i X = (d.1.spans 0).count (i, i + w + 1, X) := by
  rw [arrangeSpans]
  split_ifs with hc
  · rw [h _ rfl, count_span]
  · rw [eq_comm, Nat.cast_eq_zero, List.count_eq_zero]
    intro hm
    have := spans_mem d.1 0 _ hm
    have h2 := d.2.1
    simp only at this
    omega

theorem arrange_isParts {N : ℕ} (g : List ℕ → ℝ) (b : ℕ) {NT T L : ℕ} (hL : L ≤ N) (d : Derivs NT T L)
    (h : ∀ e : List ℕ, e.head? = some b → g e = (derivParts true b d).count e) : IsParts (arrange N g) b d where
  term n t := (h [b, 0, n, t] rfl).trans (by rw [count_term])
  rule X y z := (h [b, 1, X, y, z] rfl).trans (by rw [count_rule])
  root X := (h [b, 2, X] rfl).trans (by rw [count_root]; push_cast; rfl)
  spans w i X := arrangeSpans_eq g b hL d h w i X

theorem N_ne (h : Valid p lengths) (hl : Long p lengths) : p.N ≠ 1 := by
  have := hl 0 h.rows
  have := len_le h 0 h.rows
  omega

/-- **C52.** `argmax` returns, for every row, the parts of one derivation, and that one has the highest score, however ties are broken. -/
theorem argmax_spec (p : Scores ℝ) (lengths : Option (List ℕ)) (h : Valid p lengths) (hl : Long p lengths) {B : ℝ} (hB : Bounded p lengths B)
    (hsmall : 4 * p.N * B < 100000) {pick : List (Autograd.Grad (List ℕ)) → Autograd.Grad (List ℕ)} (hp : Autograd.IsArgmax Prod.fst pick) :
    ∃ μ, argmax p lengths pick = .ok μ ∧ ∀ b < p.batch, ∃ d : Der p lengths b,
      (∀ d' : Der p lengths b, dscore p b d' ≤ dscore p b d) ∧ IsParts μ b d := by
  obtain ⟨μ, h1, h2⟩ := (batchDP (marked p) lengths h.marked).argmax_leaky (beat_marked (p := p) h hl hB hsmall) hp
  refine ⟨arrange p.N μ, (if_neg (N_ne h hl)).trans (congrArg (Except.map (arrange p.N)) h1 :), fun b hb => ?_⟩
  obtain ⟨d, h3, h4⟩ := h2 b hb
  refine ⟨d, fun d' => ?_, arrange_isParts μ b (len_le h b hb) d h4⟩
  exact (congrFun (realScore_marked p b) d').symm.trans_le ((h3 d').trans_eq (congrFun (realScore_marked p b) d))

/-! ### Marginals -/

theorem card_filterMap_le {α β : Type} (f : α → Option β) (s : Multiset α) : Multiset.card (s.filterMap f) ≤ Multiset.card s := by
  induction s using Multiset.induction_on with
  | empty => simp
  | cons a s ih =>
    rw [Multiset.card_cons]
    cases h : f a with
    | none => rw [Multiset.filterMap_cons_none _ _ h]; omega
    | some c => rw [Multiset.filterMap_cons_some _ _ _ h, Multiset.card_cons]; omega

theorem atoms_card (mk : Bool) (b : ℕ) {NT T : ℕ} : ∀ (i : ℕ) (t : ETree NT T),
    Multiset.card (atoms mk b i t) + (if mk then 2 else 1) = (if mk then 3 else 2) * t.size
  | i, .leaf (.inl t) => by cases mk <;> simp [atoms, GTree.size]
  | i, .leaf (.inr X) => by cases mk <;> simp [atoms, GTree.size]
  | i, .node X l r => by
    have h1 := atoms_card mk b i l
    have h2 := atoms_card mk b (i + l.size) r
    cases mk <;> simp only [atoms, Multiset.card_add, Multiset.card_singleton, GTree.size, if_true, Bool.false_eq_true, if_false,
      Multiset.card_zero] at h1 h2 ⊢ <;> omega

theorem phAtoms_card (mk : Bool) (b : ℕ) {NT T L : ℕ} (x : Ph NT T L) : Multiset.card (phAtoms mk b x) = 2 * L + if mk then L - 1 else 0 := by
  have h1 := atoms_card mk b 0 x.1.1
  have h2 := x.1.2
  have h3 := x.1.1.size_pos
  rw [phAtoms, Multiset.card_add, Multiset.card_singleton]
  cases mk <;> simp only [if_true, Bool.false_eq_true, if_false] at h1 ⊢ <;> omega

/-- The expectation of the number of times something occurs in a derivation, under the distribution over the derivations. -/
def expected (p : Scores ℝ) (lengths : Option (List ℕ)) (b : ℕ) (count : Deriv p.NT p.T → ℕ) : ℝ :=
  ∑ d : Der p lengths b, Gibbs.prob (dscore p b) d * count d.1

/-- **C51.** `marginals` are the expected number of uses of every preterminal, rule and root, and of every constituent (for preterminals, roots and
constituents: their probability), up to the error of the stand-in. -/
theorem marginals_spec (p : Scores ℝ) (lengths : Option (List ℕ)) (h : Valid p lengths) (hl : Long p lengths) {B : ℝ} (hB : Bounded p lengths B) :
    ∃ μ, marginals p lengths = .ok μ ∧ ∀ b < p.batch,
      (∀ n t, |μ.term b n t - expected p lengths b fun d => (d.words 0).count (n, t)| ≤ err p lengths B b * (3 * p.N)) ∧
      (∀ X y z, |μ.rule b X y z - expected p lengths b fun d => d.rules.count (X, y, z)| ≤ err p lengths B b * (3 * p.N)) ∧
      (∀ X, |μ.root b X - expected p lengths b fun d => if d.sym = X then 1 else 0| ≤ err p lengths B b * (3 * p.N)) ∧
      (∀ w i X, |μ.spans b w i X - expected p lengths b fun d => (d.spans 0).count (i, i + w + 1, X)| ≤ err p lengths B b * (3 * p.N)) := by
  have hcard : ∀ b < p.batch, 2 * len p lengths b + (len p lengths b - 1) ≤ 3 * p.N := fun b hb => by have := len_le h b hb; omega
  obtain ⟨μ, h1, h2⟩ := (batchDP (marked p) lengths h.marked).marginals_leaky (fun b hb => der_nonempty (p := p) h hl b hb) (M := 3 * p.N)
    (fun b hb e d => by
      have a1 := Multiset.count_le_card e (derivParts true b d)
      rw [parts_card] at a1
      exact_mod_cast a1.trans (hcard b hb))
    (fun b hb e x => by
      have a1 := (Multiset.count_le_card e ((phAtoms true b x).filterMap Atom.link)).trans (card_filterMap_le _ _)
      rw [phAtoms_card] at a1
      exact_mod_cast a1.trans (hcard b hb))
  refine ⟨arrange p.N μ, (if_neg (N_ne h hl)).trans (congrArg (Except.map (arrange p.N)) h1 :), fun b hb => ?_⟩
  have key : ∀ e : List ℕ, e.head? = some b → ∀ f : Deriv p.NT p.T → ℕ, (∀ d : Der p lengths b, (derivParts true b d).count e = f d.1) →
      |μ e - expected p lengths b f| ≤ err p lengths B b * (3 * p.N) := by
    intro e he f hf
    have h3 := h2 b hb e he
    have e1 : Gibbs.expect (realScore (derivParts true b : Der p lengths b → _) (atS (marked p))) (fun d => (derivParts true b d).count e) =
        expected p lengths b f := by
      rw [Gibbs.expect, expected]
      refine sum_congr rfl fun d _ => ?_
      rw [hf d, realScore_marked]
    rw [← e1]
    exact h3.trans (mul_le_mul_of_nonneg_right (ex_marked h hl hB b hb) (by positivity))
  refine ⟨fun n t => key [b, 0, n, t] rfl _ fun d => count_term true b d n t, fun X y z => key [b, 1, X, y, z] rfl _ fun d => count_rule true b d X y z,
    fun X => key [b, 2, X] rfl _ fun d => count_root true b d X, fun w i X => ?_⟩
  change |arrangeSpans p.N μ b w i X - _| ≤ _
  rw [arrangeSpans]
  split_ifs with hc
  · exact key [b, 3, w, i, X] rfl _ fun d => count_span b d w i X
  · have : expected p lengths b (fun d => (d.spans 0).count (i, i + w + 1, X)) = 0 := by
      refine sum_eq_zero fun d _ => ?_
      have : (d.1.spans 0).count (i, i + w + 1, X) = 0 := by
        rw [List.count_eq_zero]
        intro hm
        have := spans_mem d.1 0 _ hm
        have h2 := d.2.1
        have h3 := len_le h b hb
        simp only at this
        omega
      beta_reduce
      rw [this, Nat.cast_zero, mul_zero]
    rw [this, sub_zero, abs_zero]
    exact mul_nonneg (err_nonneg _ _ _ _) (by positivity)

/-- Under the true distribution every word has exactly one preterminal ... -/
theorem term_prob_sum (h : Valid p lengths) (hl : Long p lengths) (b : ℕ) (hb : b < p.batch) (n : ℕ) (hn : n < len p lengths b) :
    ∑ t : Fin p.T, expected p lengths b (fun d => (d.words 0).count (n, (t : ℕ))) = 1 := by
  have := der_nonempty h hl b hb
  simp only [expected]
  rw [sum_comm, ← Gibbs.sum_prob (dscore p b : Der p lengths b → ℝ)]
  refine sum_congr rfl fun d _ => ?_
  rw [← mul_sum, ← Nat.cast_sum]
  have key : ∀ (d : Deriv p.NT p.T) (i n : ℕ), i ≤ n → n < i + d.size → ∑ t : Fin p.T, (d.words i).count (n, (t : ℕ)) = 1 := by
    intro d
    induction d with
    | leaf a =>
      intro i n h1 h2
      simp only [GTree.size] at h2
      have : n = i := by omega
      subst this
      simp only [Deriv.words]
      rw [Finset.sum_eq_single a]
      · simp
      · intro t _ ht
        rw [List.count_eq_zero]
        simp only [List.mem_singleton, Prod.mk.injEq, true_and]
        exact fun hc => ht (Fin.ext hc)
      · simp
    | node X l r ihl ihr =>
      intro i n h1 h2
      simp only [GTree.size] at h2
      simp only [Deriv.words, List.count_append, sum_add_distrib]
      have out : ∀ (d : Deriv p.NT p.T) (i : ℕ), ¬ (i ≤ n ∧ n < i + d.size) → ∑ t : Fin p.T, (d.words i).count (n, (t : ℕ)) = 0 := by
        intro d i hd
        refine sum_eq_zero fun t _ => List.count_eq_zero.2 fun hc => hd ?_
        have : n ∈ (d.words i).map Prod.fst := List.mem_map.2 ⟨_, hc, rfl⟩
        rw [words_fst, List.mem_map] at this
        obtain ⟨m, hm, rfl⟩ := this
        rw [List.mem_range] at hm
        omega
      by_cases hc : n < i + l.size
      · rw [ihl i n h1 hc, out r _ (by omega)]
      · rw [ihr _ n (by omega) (by omega), out l _ (by omega)]
  rw [key d.1 0 n (Nat.zero_le _) (by rw [d.2.1]; omega), Nat.cast_one, mul_one]

/-- ... and every derivation one root. -/
theorem root_prob_sum (h : Valid p lengths) (hl : Long p lengths) (b : ℕ) (hb : b < p.batch) :
    ∑ X : Fin p.NT, expected p lengths b (fun d => if d.sym = (X : ℕ) then 1 else 0) = 1 := by
  have := der_nonempty h hl b hb
  simp only [expected]
  rw [sum_comm, ← Gibbs.sum_prob (dscore p b : Der p lengths b → ℝ)]
  refine sum_congr rfl fun d _ => ?_
  rw [← mul_sum, ← Nat.cast_sum]
  obtain ⟨d, h1, h2⟩ := d
  cases d with
  | leaf a => exact absurd h2 (by simp [Deriv.isNode])
  | node X l r =>
    have : ∑ Y : Fin p.NT, (if Deriv.sym (.node X l r : Deriv p.NT p.T) = (Y : ℕ) then 1 else 0) = 1 := by
      rw [Finset.sum_eq_single X]
      · exact if_pos rfl
      · exact fun Y _ hY => if_neg fun hc => hY (Fin.ext hc.symm)
      · simp
    rw [this, Nat.cast_one, mul_one]

/-- The expected number of rule applications is the number of words minus one. -/
theorem rule_count_sum (h : Valid p lengths) (hl : Long p lengths) (b : ℕ) (hb : b < p.batch) :
    expected p lengths b (fun d => d.rules.length) = (len p lengths b : ℝ) - 1 := by
  have := der_nonempty h hl b hb
  have h1 := hl b hb
  have : ∀ d : Der p lengths b, Gibbs.prob (dscore p b) d * (d.1.rules.length : ℕ) = Gibbs.prob (dscore p b) d * ((len p lengths b : ℝ) - 1) := fun d => by
    rw [rules_length, d.2.1, Nat.cast_sub (by omega), Nat.cast_one]
  rw [expected, sum_congr rfl fun d _ => this d, ← sum_mul, Gibbs.sum_prob, one_mul]

/-! ### Entropy, `kmax`, `topk` -/

theorem ph_abs_le (h : Valid p lengths) {B : ℝ} (hB : Bounded p lengths B) (b : ℕ) (hb : b < p.batch) (x : Ph p.NT p.T (len p lengths b)) :
    |phScore (phAtoms p.mark.isSome b) Semirings.negInf (atS p) x| ≤ 2 * len p lengths b * (100000 + B) := by
  have h1 := bound_plain h hB b hb
  obtain ⟨row, -, h2⟩ := (batchDP p lengths h.toProofs).rows
  have h3 := multiset_abs_sum_le (phAtoms p.mark.isSome b x) (Atom.score Semirings.negInf (atS p)) (B := 100000 + B) fun a ha => ?_
  · rw [phAtoms_card, h.plain] at h3
    rw [phScore, h.plain]
    simpa using h3
  · have hn := hB.nonneg
    have hz : |(Semirings.negInf : ℝ)| ≤ 100000 + B := by rw [Semirings.negInf]; norm_num; exact hn
    cases a with
    | pot e => exact (h1.bound e ((h2 b hb).potE x e ha)).trans (by linarith)
    | masked e => exact hz
    | zero => exact hz
    | one => change |(0 : ℝ)| ≤ _; rw [abs_zero]; linarith

/-- **C54.** `entropy` is the Shannon entropy of the distribution over the derivations, up to an explicit error from `zero = -1e5`. -/
theorem entropy_spec (p : Scores ℝ) (lengths : Option (List ℕ)) (h : Valid p lengths) (hl : Long p lengths) {B : ℝ} (hB : Bounded p lengths B) :
    ∃ vs, Dist.entropy algo p lengths = .ok vs ∧ vs.length = p.batch ∧ ∀ b (hb : b < vs.length),
      |vs[b] - Gibbs.entropy (dscore p b : Der p lengths b → ℝ)| ≤
        err p lengths B b * (1 + 2 * len p lengths b * B + 2 * len p lengths b * (100000 + B)) := by
  have hreal : ∀ b, realScore (derivParts p.mark.isSome b : Der p lengths b → _) (atS p) = dscore p b := fun b => by
    rw [h.plain]; exact realScore_plain p b
  obtain ⟨vs, h1, h2, h3⟩ := (batchDP p lengths h.toProofs).entropy_leaky (fun b hb => der_nonempty h hl b hb)
    (F := fun b => 2 * len p lengths b * B) (fun b hb d => (congrArg abs (congrFun (hreal b) d)).trans_le (real_le h hB b hb d))
    (G := fun b => 2 * len p lengths b * (100000 + B)) (fun b hb x => ph_abs_le h hB b hb x)
  refine ⟨vs, h1, h2, fun b hb => ?_⟩
  have h4 := h3 b hb
  rw [← hreal b]
  refine h4.trans (mul_le_mul_of_nonneg_right (ex_plain h hl hB b (by omega)) ?_)
  have := hB.nonneg
  positivity

theorem size_le_card (m : Multiset Atom) : (m.map Atom.size).sum ≤ Multiset.card m := by
  induction m using Multiset.induction_on with
  | empty => simp
  | cons a m ih =>
    rw [Multiset.map_cons, Multiset.sum_cons, Multiset.card_cons]
    have : Atom.size a ≤ 1 := by cases a <;> simp [Atom.size, Atom.weight]
    omega

theorem small_plain (h : Valid p lengths) {B : ℝ} (hB : Bounded p lengths B) (hsmall : 4 * p.N * B < 100000) (b : ℕ) (hb : b < p.batch) :
    BatchDP.Small (atS p) (Entry p.N p.NT p.T p.mark.isSome lengths b) (derivParts p.mark.isSome b : Der p lengths b → _)
      (phAtoms p.mark.isSome b : Ph p.NT p.T (len p lengths b) → _) (2 * p.N) B where
  nonneg := hB.nonneg
  bound := (bound_plain h hB b hb).bound
  size d := by rw [parts_card, h.plain]; have := len_le h b hb; simpa using this
  sizeA x := (size_le_card _).trans (by rw [phAtoms_card, h.plain]; have := len_le h b hb; simpa using this)
  small := by push_cast; linarith
  below := by
    have h2 : (1 : ℝ) ≤ p.N := by exact_mod_cast h.words
    have h3 := hB.nonneg
    nlinarith

theorem small_marked (h : Valid p lengths) {B : ℝ} (hB : Bounded p lengths B) (hsmall : 6 * p.N * B < 100000) (b : ℕ) (hb : b < p.batch) :
    BatchDP.Small (atS (marked p)) (Entry p.N p.NT p.T true lengths b) (derivParts true b : Der p lengths b → _)
      (phAtoms true b : Ph p.NT p.T (len p lengths b) → _) (3 * p.N) B where
  nonneg := hB.nonneg
  bound := (bound_marked hB b hb).bound
  size d := by rw [parts_card]; have := len_le h b hb; simp only [if_true]; omega
  sizeA x := (size_le_card _).trans (by rw [phAtoms_card]; have := len_le h b hb; simp only [if_true]; omega)
  small := by push_cast; linarith
  below := by
    have h2 : (1 : ℝ) ≤ p.N := by exact_mod_cast h.words
    have h3 := hB.nonneg
    nlinarith

/-- **C52.** `kmax(k)` returns the scores of the `k` best derivations of every row, in decreasing order. -/
theorem kmax_spec (p : Scores ℝ) (lengths : Option (List ℕ)) (h : Valid p lengths) {B : ℝ} (hB : Bounded p lengths B)
    (hsmall : 4 * p.N * B < 100000) {k : ℕ} (hk : 0 < k) (hc : ∀ b < p.batch, k ≤ Fintype.card (Der p lengths b)) :
    ∃ vs, Dist.kmax algo p lengths k = .ok vs ∧ vs.length = p.batch ∧ ∀ b (hb : b < vs.length), ∃ ds : List (Der p lengths b),
      IsKBest (dscore p b) k ds ∧ vs[b] = ds.map (dscore p b) := by
  have := (batchDP p lengths h.toProofs).kmax_eq (fun b hb => small_plain h hB hsmall b hb) hk hc
  rw [h.plain] at this
  simp only [Option.isSome_none, realScore_plain] at this
  exact this

/-- **C52.** `topk(k)` returns the constituents of the `k` best derivations, one table for every slot, and one table of preterminals, rules
and roots that adds those of the `k` derivations. -/
theorem topk_spec (p : Scores ℝ) (lengths : Option (List ℕ)) (h : Valid p lengths) (hl : Long p lengths) {B : ℝ} (hB : Bounded p lengths B)
    (hsmall : 6 * p.N * B < 100000) {k : ℕ} (hk : 0 < k) (hc : ∀ b < p.batch, k ≤ Fintype.card (Der p lengths b))
    {sel : List (Autograd.Grad (List ℕ)) → List (Autograd.Grad (List ℕ))} (hsel : Autograd.IsTopk Prod.fst k sel) :
    ∃ (spans : ℕ → ℕ → ℕ → ℕ → ℕ → ℝ) (μ : Marginals), (∀ s < k, topkSpans p lengths k sel s = .ok (spans s)) ∧ topkParts p lengths k sel = .ok μ ∧
      ∀ b < p.batch, ∃ ds : List (Der p lengths b), IsKBest (dscore p b) k ds ∧
        (∀ s (hs : s < ds.length), ∀ w i X, spans s b w i X = (ds[s].1.spans 0).count (i, i + w + 1, X)) ∧
        (∀ n t, μ.term b n t = (ds.map fun d => ((d.1.words 0).count (n, t) : ℝ)).sum) ∧
        (∀ X y z, μ.rule b X y z = (ds.map fun d => (d.1.rules.count (X, y, z) : ℝ)).sum) ∧
        (∀ X, μ.root b X = (ds.map fun d => if d.1.sym = X then (1 : ℝ) else 0).sum) := by
  obtain ⟨vs, g, -, h2, h3, h4⟩ := (batchDP (marked p) lengths h.marked).topk_eq (fun b hb => small_marked (p := p) h hB hsmall b hb) hk hc hsel
  have hparts : topkParts p lengths k sel = .ok (arrange p.N fun e => ((List.range k).map fun s => g s e).sum) := by
    have h5 := h3 0 hk
    rw [topkParts, if_neg (N_ne h hl)]
    unfold Dist.topk at h3 h5
    revert h3 h5
    cases algo.run (Autograd.kmax k sel) (algo.map (fun q : ℝ × List ℕ => Autograd.kmaxConvert k q.1 q.2) (algo.index (marked p))) lengths with
    | error e => intro _ h5; exact absurd h5 (by simp [Except.map])
    | ok rows =>
      intro h3 _
      refine congrArg Except.ok (congrArg (arrange p.N) (funext fun e => ?_))
      refine congrArg List.sum (List.map_congr_left fun s hs => ?_)
      have := h3 s (List.mem_range.1 hs)
      exact congrFun (Except.ok.inj this) e
  refine ⟨fun s => arrangeSpans p.N (g s), _, fun s hs => (if_neg (N_ne h hl)).trans (congrArg (Except.map (arrangeSpans p.N)) (h3 s hs) :), hparts,
    fun b hb => ?_⟩
  have h5 : ∃ ds : List (Der p lengths b), IsKBest (realScore (derivParts true b) (atS (marked p))) k ds ∧
      ∀ s (hs : s < ds.length), ∀ e : List ℕ, e.head? = some b → g s e = ((derivParts true b ds[s]).count e : ℝ) := by
    obtain ⟨ds, a1, -, a3⟩ := h4 b (by rw [h2]; exact hb)
    exact ⟨ds, a1, a3⟩
  obtain ⟨ds, a1, a3⟩ := h5
  have hreal : realScore (derivParts true b : Der p lengths b → _) (atS (marked p)) = dscore p b := realScore_marked p b
  have a1 : IsKBest (dscore p b : Der p lengths b → ℝ) k ds := hreal ▸ a1
  have hlen : ds.length = k := a1.length
  have key : ∀ e : List ℕ, e.head? = some b → ∀ f : Der p lengths b → ℝ, (∀ d, ((derivParts true b d).count e : ℝ) = f d) →
      ((List.range k).map fun s => g s e).sum = (ds.map f).sum := by
    intro e he f hf
    congr 1
    refine List.ext_getElem (by simp [hlen]) fun s hs hs' => ?_
    simp only [List.getElem_map, List.getElem_range]
    rw [← hf]
    exact a3 s (by simpa using hs') e he
  refine ⟨ds, a1, fun s hs w i X => arrangeSpans_eq (g s) b (len_le h b hb) ds[s] (fun e he => a3 s hs e he) w i X,
    fun n t => key [b, 0, n, t] rfl _ fun d => by rw [count_term], fun X y z => key [b, 1, X, y, z] rfl _ fun d => by rw [count_rule],
    fun X => key [b, 2, X] rfl _ fun d => by rw [count_root]; push_cast; rfl⟩

/-- `sample` has enough derivations for `k = 2`. -/
example : ∀ b < sample.batch, 2 ≤ Fintype.card (Der sample (some [3, 2]) b) := by
  intro b hb
  have hb : b < 2 := hb
  have key : ∀ L, 2 ≤ L → 2 ≤ Fintype.card (Derivs 2 1 L) := by
    intro L hL
    obtain ⟨d⟩ := nonempty_derivs (NT := 2) (T := 1) (by decide) (by decide) hL
    obtain ⟨d, h1, h2⟩ := d
    cases d with
    | leaf a => exact absurd h2 (by simp [Deriv.isNode])
    | node X l r =>
      have := Fintype.card_le_of_injective (fun Y : Fin 2 => (⟨.node Y l r, h1, rfl⟩ : Derivs 2 1 L)) fun Y Y' he => by
        have := congrArg Subtype.val he
        simpa using this
      simpa using this
  have : 2 ≤ len sample (some [3, 2]) b := sample_long b hb
  exact key _ this

end Props.SentCFG
