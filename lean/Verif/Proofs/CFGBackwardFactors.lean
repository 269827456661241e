import Verif.Proofs.CFGBackwardValue

/-! The factors of the backward pass of `SentCFG.marginals`, from the potentials. -/

open Finset Spec Generic GrammarProofs CKYProofs
open TreeBackwardProofs (LogOf logOf_rel slope_real guarded_real plain_nan bot_of_zero fl)

noncomputable section
namespace CFGBackwardProofs
open CFGBackward

/-- What is known of row `b`: its potentials are the logarithms of `W`. -/
structure Row (p : CKY.Scores EReal) (b : ℕ) (W : Atom → ℝ) : Prop where
  plain : p.mark = none
  nonterminals : 0 < p.NT
  preterminals : 0 < p.T
  nonneg : ∀ a, 0 ≤ W a
  zero : LogOf sr.zero (W .zero)
  term : ∀ n < p.N, ∀ t < p.T, LogOf (p.term b n t) (W (.pot [b, 0, n, t]))
  rule : ∀ X < p.NT, ∀ y < p.NT + p.T, ∀ z < p.NT + p.T, LogOf (p.rule b X y z) (W (.pot [b, 1, X, y, z]))
  root : ∀ X < p.NT, LogOf (p.root b X) (W (.pot [b, 2, X]))

variable {p : CKY.Scores EReal} {b : ℕ} {W : Atom → ℝ}

theorem Row.inputs (h : Row p b W) : Inputs LogOf p b p.N W := ⟨h.term, h.rule, fun m hm => by rw [h.plain] at hm; cases hm⟩

theorem Row.before (h : Row p b W) : ∀ w, w + 1 ≤ p.N → Inv LogOf p.N p.NT p.T p.N b false W (w + 1) (before p (w + 1)) := by
  intro w
  induction w with
  | zero =>
    intro _ u hu i hi X hX
    obtain rfl : u = 0 := by omega
    rw [inside_zero_nt _ b W i X hX]
    exact ⟨h.zero, h.zero⟩
  | succ w ih =>
    intro hw
    have e : CFGBackward.before p (w + 1 + 1) = CKY.step sr p (CFGBackward.before p (w + 1)) (w + 1) := by
      simp only [CFGBackward.before, Nat.add_sub_cancel]
      rw [List.range_succ, List.foldl_append]
      rfl
    have k := step_inv (S := sr) logOf_rel h.inputs h.nonterminals h.preterminals le_rfl (w := w) (by omega) (st := CFGBackward.before p (w + 1))
    rw [h.plain] at k
    rw [e]
    exact k (ih (by omega))

theorem Row.at (h : Row p b W) {w : ℕ} (hw : 1 ≤ w) (hN : w ≤ p.N) : Inv LogOf p.N p.NT p.T p.N b false W w (CFGBackward.before p w) := by
  obtain ⟨v, rfl⟩ : ∃ v, w = v + 1 := ⟨w - 1, by omega⟩
  exact h.before v hN

theorem Row.span (h : Row p b W) {w i X : ℕ} (hw : 1 ≤ w) (hi : i + w < p.N) (hX : X < p.NT) :
    LogOf (CKY.spanOf sr p (CFGBackward.before p w) w b i X) (inside p.NT p.T false b W i w X) := by
  obtain ⟨v, rfl⟩ : ∃ v, w = v + 1 := ⟨w - 1, by omega⟩
  have k := spanOf_rel (S := sr) logOf_rel h.inputs h.nonterminals h.preterminals le_rfl (w := v) (st := CFGBackward.before p (v + 1)) (i := i) (X := X)
  rw [h.plain] at k
  have := k (h.before v (by omega)) hi hX
  rw [CKY.touch, h.plain] at this
  exact this

theorem Row.half (h : Row p b W) {w i u y z : ℕ} (hi : i + w < p.N) (hu : u < w) (hy : y < p.NT) (hz : z < p.NT) :
    LogOf (sr.mul ((CFGBackward.before p w).1 b i u y) ((CFGBackward.before p w).2 b (w + i) (p.N - w + u) z))
      (inside p.NT p.T false b W i u y * inside p.NT p.T false b W (i + u + 1) (w - 1 - u) z) := by
  have k := h.at (w := w) (by omega) (by omega)
  refine logOf_rel.mul (k u hu i (by omega) y hy).1 ?_
  have := (k (w - 1 - u) (by omega) (i + u + 1) (by omega) z hz).2
  have e1 : i + u + 1 + (w - 1 - u) = w + i := by omega
  have e2 : p.N - 1 - (w - 1 - u) = p.N - w + u := by omega
  rwa [e1, e2] at this

theorem Row.pair (h : Row p b W) {l r : Bool} {w i y z : ℕ} (hw : 1 ≤ w) (hi : i + w < p.N) (hy : y < size p.NT p.T l) (hz : z < size p.NT p.T r) :
    LogOf (pairAt p b l r w i y z) (pairW p.NT p.T false b W l r w i y z) := by
  have k := h.at hw (by omega)
  have ht : ∀ t < p.T, LogOf (p.term b (w + i) t) (W (.pot [b, 0, i + w, t])) := fun t ht => by
    rw [add_comm w i]; exact h.term _ hi t ht
  cases l <;> cases r <;> simp only [size, if_true, if_false, Bool.false_eq_true] at hy hz <;> simp only [pairAt, pairW]
  · rw [CKY.split]
    exact logOf_rel.sum_range (by omega) fun u hu => h.half hi (by omega) hy hz
  · exact logOf_rel.mul (k (w - 1) (by omega) i (by omega) y hy).1 (ht z hz)
  · refine logOf_rel.mul (h.term i (by omega) y hy) ?_
    have := (k (w - 1) (by omega) (i + 1) (by omega) z hz).2
    have e1 : i + 1 + (w - 1) = w + i := by omega
    have e2 : p.N - 1 - (w - 1) = p.N - w := by omega
    rwa [e1, e2] at this
  · exact logOf_rel.mul (h.term i (by omega) y hy) (ht z hz)

theorem off_lt {NT T : ℕ} {l : Bool} {y : ℕ} (hy : y < size NT T l) : off NT l + y < NT + T := by
  cases l <;> simp only [size, off, if_true, if_false, Bool.false_eq_true] at hy ⊢ <;> omega

theorem Row.part (h : Row p b W) (l r : Bool) {w i X : ℕ} (hw : 1 ≤ w) (hi : i + w < p.N) (hX : X < p.NT) :
    LogOf (partAt p b l r w i X) (partW p.NT p.T false b W l r w i X) := by
  have h1 := h.nonterminals
  have h2 := h.preterminals
  have hs : ∀ l, 0 < size p.NT p.T l := fun l => by cases l <;> simpa [size]
  have key := block_rel (S := sr) logOf_rel (hs l) (hs r) (M := fun y z => pairAt p b l r w i y z) (M' := fun y z => pairW p.NT p.T false b W l r w i y z)
    (rule := p.rule b X) (r := fun y z => W (.pot [b, 1, X, y, z])) (oy := off p.NT l) (oz := off p.NT r) (fun y hy z hz => h.pair hw hi hy hz)
    fun y hy z hz => h.rule X hX _ (off_lt hy) _ (off_lt hz)
  cases l <;> cases r <;> exact key

theorem Row.entry (h : Row p b W) {l r : Bool} {w i X y z : ℕ} (hw : 1 ≤ w) (hi : i + w < p.N) (hX : X < p.NT) (hy : y < size p.NT p.T l) (hz : z < size p.NT p.T r) :
    LogOf (sr.mul (pairAt p b l r w i y z) (p.rule b X (off p.NT l + y) (off p.NT r + z)))
      (pairW p.NT p.T false b W l r w i y z * W (.pot [b, 1, X, off p.NT l + y, off p.NT r + z])) :=
  logOf_rel.mul (h.pair hw hi hy hz) (h.rule X hX _ (off_lt hy) _ (off_lt hz))

theorem Row.top (h : Row p b W) {lens : List ℕ} {last X : ℕ} (hl : CKYCRF.lastIndex p.N (lens.getD b 0) = last) (hN : last < p.N) (hX : X < p.NT) :
    LogOf (sr.mul (CKY.top sr p lens b X) (p.root b X)) (inside p.NT p.T false b W 0 last X * W (.pot [b, 2, X])) := by
  have k := charts_inv (S := sr) logOf_rel h.zero h.inputs h.nonterminals h.preterminals (by omega) le_rfl
  rw [h.plain] at k
  refine logOf_rel.mul ?_ (h.root X hX)
  rw [CKY.top, hl]
  exact (k last hN 0 (by omega) X hX).1

theorem Row.all (h : Row p b W) {lens : List ℕ} {last : ℕ} (hl : CKYCRF.lastIndex p.N (lens.getD b 0) = last) (hN : last < p.N) :
    LogOf (CKY.logZ sr p lens b b) (rowTotal p.NT p.T b W last) := by
  rw [CKY.logZ, SR.dot, CKYCRFProofs.zipWith_map, rowTotal]
  exact logOf_rel.sum_range h.nonterminals fun X hX => h.top hl hN hX

/-! ### Zeros -/

theorem half_zero (hW : ∀ a, 0 ≤ W a) {NT T w i u y z : ℕ} (hu : u < w) (h : pairW NT T false b W false false w i y z = 0) :
    inside NT T false b W i u y * inside NT T false b W (i + u + 1) (w - 1 - u) z = 0 :=
  (sum_eq_zero_iff_of_nonneg fun u _ => mul_nonneg (inside_nonneg hW _ _ _ _) (inside_nonneg hW _ _ _ _)).1 h u (mem_range.2 hu)

theorem entry_zero (hW : ∀ a, 0 ≤ W a) {NT T : ℕ} {l r : Bool} {w i X y z : ℕ} (hy : y < size NT T l) (hz : z < size NT T r)
    (h : partW NT T false b W l r w i X = 0) : pairW NT T false b W l r w i y z * W (.pot [b, 1, X, off NT l + y, off NT r + z]) = 0 := by
  have h1 := (sum_eq_zero_iff_of_nonneg fun y _ => sum_nonneg fun z _ => mul_nonneg (pairW_nonneg hW _ _ _ _ _ _ _) (hW _)).1 h y (mem_range.2 hy)
  exact (sum_eq_zero_iff_of_nonneg fun z _ => mul_nonneg (pairW_nonneg hW _ _ _ _ _ _ _) (hW _)).1 h1 z (mem_range.2 hz)

theorem part_zero (hW : ∀ a, 0 ≤ W a) {NT T : ℕ} {l r : Bool} {w i X : ℕ} (hp : Present l r w) (hw : 1 ≤ w) (hX : X < NT)
    (h : inside NT T false b W i w X = 0) : partW NT T false b W l r w i X = 0 := by
  rw [inside_parts false b W hw i X hX] at h
  simp only [Bool.false_eq_true, if_false, mul_one] at h
  have n := fun l r => partW_nonneg (NT := NT) (T := T) (b := b) hW false l r w i X
  have n1 := n false false
  have n2 := n false true
  have n3 := n true false
  have n4 := n true true
  cases l <;> cases r
  · split_ifs at h <;> linarith
  · split_ifs at h <;> linarith
  · split_ifs at h <;> linarith
  · rw [if_pos (hp rfl rfl)] at h; linarith

theorem top_zero (hW : ∀ a, 0 ≤ W a) {NT T last X : ℕ} (hX : X < NT) (h : rowTotal NT T b W last = 0) :
    inside NT T false b W 0 last X * W (.pot [b, 2, X]) = 0 :=
  (sum_eq_zero_iff_of_nonneg fun _ _ => mul_nonneg (inside_nonneg hW _ _ _ _) (hW _)).1 h X (mem_range.2 hX)

/-! ### The factors -/

/-- Where a factor is NaN. -/
def zeros (NT T : ℕ) (b : ℕ) (W : Atom → ℝ) (last : ℕ) : Factors Prop where
  part _ _ w i X := inside NT T false b W i w X = 0
  entry l r w i X _ _ := partW NT T false b W l r w i X = 0
  split w i _ y z := pairW NT T false b W false false w i y z = 0
  top _ := rowTotal NT T b W last = 0

theorem plain_nanIff {t r : EReal} {y z : ℝ} (ht : LogOf t y) (hr : LogOf r z) (h : z = 0 → y = 0) : NanIff (Slope.plain t r) (z = 0) := by
  by_cases hz : z = 0
  · obtain rfl := h hz
    subst hz
    refine ⟨⊤, ?_, by simp⟩
    rw [bot_of_zero ht, bot_of_zero hr, plain_nan]
    rfl
  · exact ⟨((y / z : ℝ) : WithTop ℝ), by rw [slope_real ht hr hz]; rfl, by simp [hz]⟩

/-- NaN, or the given number. -/
def NanOr (x : IEEE) (r : ℝ) : Prop := x = IEEE.nan ∨ x = IEEE.ofReal r

theorem nanOr_rel : OpsRel ieee real NanOr where
  zero := Or.inr rfl
  one := Or.inr rfl
  add := by
    rintro a r c s (rfl | rfl) (rfl | rfl)
    · exact Or.inl rfl
    · exact Or.inl rfl
    · exact Or.inl (by cases h : IEEE.ofReal r <;> rfl)
    · exact Or.inr (IEEE.add_real _ _)
  mul := by
    rintro a r c s (rfl | rfl) (rfl | rfl)
    · exact Or.inl rfl
    · exact Or.inl rfl
    · exact Or.inl (by cases h : IEEE.ofReal r <;> rfl)
    · exact Or.inr (IEEE.mul_real _ _)

theorem plain_nanOr {t r : EReal} {y z : ℝ} (ht : LogOf t y) (hr : LogOf r z) (h : z = 0 → y = 0) : NanOr (Slope.plain t r) (y / z) := by
  by_cases hz : z = 0
  · obtain rfl := h hz
    subst hz
    refine Or.inl ?_
    rw [bot_of_zero ht, bot_of_zero hr, plain_nan]
    rfl
  · exact Or.inr (slope_real ht hr hz)

theorem factors_rel {H : Type} {ρ : IEEE → H → Prop} {σ : Slope} {φ : ℝ → ℝ → H}
    (hσ : ∀ {t r : EReal} {y z : ℝ}, LogOf t y → LogOf r z → (z = 0 → y = 0) → ρ (σ t r) (φ y z))
    (h : Row p b W) {lens : List ℕ} {last : ℕ} (hl : CKYCRF.lastIndex p.N (lens.getD b 0) = last) (hN : last < p.N) :
    FactorsRel ρ p.N p.NT p.T (factors σ p lens b) ⟨fun l r w i X => φ (partW p.NT p.T false b W l r w i X) (inside p.NT p.T false b W i w X),
      fun l r w i X y z => φ (pairW p.NT p.T false b W l r w i y z * W (.pot [b, 1, X, off p.NT l + y, off p.NT r + z])) (partW p.NT p.T false b W l r w i X),
      fun w i u y z => φ (inside p.NT p.T false b W i u y * inside p.NT p.T false b W (i + u + 1) (w - 1 - u) z) (pairW p.NT p.T false b W false false w i y z),
      fun X => φ (inside p.NT p.T false b W 0 last X * W (.pot [b, 2, X])) (rowTotal p.NT p.T b W last)⟩ where
  part l r w i X hp hw hi hX := hσ (h.part l r hw hi hX) (h.span hw hi hX) fun h0 => part_zero h.nonneg hp hw hX h0
  entry l r w i X y z hp hw hi hX hy hz := hσ (h.entry hw hi hX hy hz) (h.part l r hw hi hX) fun h0 => entry_zero h.nonneg hy hz h0
  split w i u y z hw hi hu hy hz := hσ (h.half hi hu hy hz) (h.pair (l := false) (r := false) hw hi hy hz) fun h0 => half_zero h.nonneg hu h0
  top X hX := hσ (h.top hl hN hX) (h.all hl hN) fun h0 => top_zero h.nonneg hX h0

theorem zeros_rel (h : Row p b W) {lens : List ℕ} {last : ℕ} (hl : CKYCRF.lastIndex p.N (lens.getD b 0) = last) (hN : last < p.N) :
    FactorsRel NanIff p.N p.NT p.T (factors Slope.plain p lens b) (zeros p.NT p.T b W last) :=
  factors_rel (φ := fun _ z => z = 0) (fun ht hr h0 => plain_nanIff ht hr h0) h hl hN

theorem shares_plain_rel (h : Row p b W) {lens : List ℕ} {last : ℕ} (hl : CKYCRF.lastIndex p.N (lens.getD b 0) = last) (hN : last < p.N) :
    FactorsRel NanOr p.N p.NT p.T (factors Slope.plain p lens b) (shares p.NT p.T b W last) :=
  factors_rel (φ := fun y z => y / z) (fun ht hr h0 => plain_nanOr ht hr h0) h hl hN

theorem shares_guarded_rel (h : Row p b W) {lens : List ℕ} {last : ℕ} (hl : CKYCRF.lastIndex p.N (lens.getD b 0) = last) (hN : last < p.N) :
    FactorsRel (fun x r => x = IEEE.ofReal r) p.N p.NT p.T (factors Slope.guarded p lens b) (shares p.NT p.T b W last) :=
  factors_rel (φ := fun y z => y / z) (fun ht hr h0 => guarded_real ht hr h0) h hl hN

/-! ### Where NaN spreads -/

section spread
variable {N NT T : ℕ} {f : Factors Prop}

theorem useGrad_truth (g : Adj Prop) (l r : Bool) (w i X y z : ℕ) :
    useGrad truth f N g l r w i X y z ↔ (g.A i w X ∨ g.B (i + w) (N - w - 1) X) ∨ f.part l r w i X ∨ f.entry l r w i X y z := by
  change ((_ ∨ _) ∨ _) ∨ _ ↔ _
  rw [or_assoc (c := f.entry l r w i X y z)]

theorem ruleGrad_truth (g : Adj Prop) (l r : Bool) (w X y z : ℕ) :
    ruleGrad truth f N g l r w X y z ↔ ∃ i < N - w, useGrad truth f N g l r w i X y z := truth_all _ _

theorem pairGrad_truth (g : Adj Prop) (l r : Bool) (w i y z : ℕ) :
    pairGrad truth f N NT g l r w i y z ↔ ∃ X < NT, useGrad truth f N g l r w i X y z := truth_all _ _

/-- Gradients of rules and preterminals stay NaN. -/
theorem step_grows (g : Adj Prop) (w : ℕ) : (∀ X y z, g.rule X y z → (backStep truth f N NT T g w).rule X y z) ∧
    (∀ n t, g.term n t → (backStep truth f N NT T g w).term n t) := by
  constructor
  · intro X y z h
    simp only [backStep]
    split_ifs
    · exact Or.inl h
    · exact h
    · exact Or.inl h
    · exact Or.inl h
    · exact Or.inl h
  · intro n t h
    exact Or.inl (Or.inl h)

/-- The gradients after the iterations with `w > v`. -/
def stage (f : Factors Prop) (N NT T last v : ℕ) : Adj Prop :=
  ((List.range (N - 1)).drop v).reverse.foldl (fun g w => backStep truth f N NT T g (w + 1)) (start truth f last)

theorem stage_last (last v : ℕ) (h : N - 1 ≤ v) : stage f N NT T last v = start truth f last := by
  rw [stage, List.drop_eq_nil_of_le (by simpa using h)]; rfl

theorem stage_step (last v : ℕ) (h : v < N - 1) : stage f N NT T last v = backStep truth f N NT T (stage f N NT T last (v + 1)) (v + 1) := by
  rw [stage, stage, List.drop_eq_getElem_cons (by simpa using h), List.reverse_cons, List.foldl_append]
  simp

theorem stage_zero (last : ℕ) : stage f N NT T last 0 = backLoop truth f N NT T last := by rw [stage, backLoop]; rfl

theorem stage_grows (last : ℕ) (v : ℕ) : (∀ X y z, (stage f N NT T last v).rule X y z → (backLoop truth f N NT T last).rule X y z) ∧
    (∀ n t, (stage f N NT T last v).term n t → (backLoop truth f N NT T last).term n t) := by
  induction v with
  | zero => rw [stage_zero]; exact ⟨fun _ _ _ h => h, fun _ _ h => h⟩
  | succ v ih =>
    by_cases hv : v < N - 1
    · have k := step_grows (f := f) (N := N) (NT := NT) (T := T) (stage f N NT T last (v + 1)) (v + 1)
      rw [← stage_step last v hv] at k
      exact ⟨fun X y z h => ih.1 X y z (k.1 X y z h), fun n t h => ih.2 n t (k.2 n t h)⟩
    · rw [stage_last last (v + 1) (by omega), ← stage_last (f := f) (N := N) (NT := NT) (T := T) last v (by omega)]
      exact ih

end spread

end CFGBackwardProofs
