import Verif.Model.CFGBackward
import Verif.Proofs.TreeBackwardValue
import Verif.Proofs.CKY

/-! The backward pass of `SentCFG.marginals` on other kinds of numbers: on real numbers if no factor is NaN, and on truth values ("is NaN"). -/

open Finset Spec
open TreeBackwardProofs (LogOf fl tmul fl_add fl_mul tmul_eq_top fl_inj)

noncomputable section
namespace CFGBackwardProofs
open CFGBackward

/-! ### Two kinds of numbers -/

/-- The arithmetics agree along `ρ`. -/
structure OpsRel {G H : Type} (D : Ops G) (E : Ops H) (ρ : G → H → Prop) : Prop where
  zero : ρ D.zero E.zero
  one : ρ D.one E.one
  add : ∀ {a b c d}, ρ a b → ρ c d → ρ (D.add a c) (E.add b d)
  mul : ∀ {a b c d}, ρ a b → ρ c d → ρ (D.mul a c) (E.mul b d)

/-- `X4` exists for spans of two words only. -/
def Present (l r : Bool) (w : ℕ) : Prop := l = true → r = true → w = 1

/-- The number of symbols on one side. -/
def size (NT T : ℕ) (l : Bool) : ℕ := if l then T else NT

/-- The factors agree along `ρ`. -/
structure FactorsRel {G H : Type} (ρ : G → H → Prop) (N NT T : ℕ) (f : Factors G) (k : Factors H) : Prop where
  part : ∀ l r w i X, Present l r w → 1 ≤ w → i + w < N → X < NT → ρ (f.part l r w i X) (k.part l r w i X)
  entry : ∀ l r w i X y z, Present l r w → 1 ≤ w → i + w < N → X < NT → y < size NT T l → z < size NT T r → ρ (f.entry l r w i X y z) (k.entry l r w i X y z)
  split : ∀ w i u y z, 1 ≤ w → i + w < N → u < w → y < NT → z < NT → ρ (f.split w i u y z) (k.split w i u y z)
  top : ∀ X < NT, ρ (f.top X) (k.top X)

/-- The gradients agree along `ρ`. -/
structure AdjRel {G H : Type} (ρ : G → H → Prop) (NT T : ℕ) (g : Adj G) (h : Adj H) : Prop where
  A : ∀ i v, ∀ X < NT, ρ (g.A i v X) (h.A i v X)
  B : ∀ i v, ∀ X < NT, ρ (g.B i v X) (h.B i v X)
  term : ∀ n, ∀ t < T, ρ (g.term n t) (h.term n t)
  rule : ∀ X < NT, ∀ y < NT + T, ∀ z < NT + T, ρ (g.rule X y z) (h.rule X y z)
  root : ∀ X < NT, ρ (g.root X) (h.root X)
  span : ∀ w i, ∀ X < NT, ρ (g.span w i X) (h.span w i X)

section rel
variable {G H : Type} {D : Ops G} {E : Ops H} {ρ : G → H → Prop} {N NT T : ℕ} {f : Factors G} {k : Factors H}

theorem OpsRel.all (R : OpsRel D E ρ) {n : ℕ} {u : ℕ → G} {v : ℕ → H} (h : ∀ i < n, ρ (u i) (v i)) : ρ (D.all n u) (E.all n v) := by
  rw [Ops.all, Ops.all]
  have : ∀ l : List ℕ, (∀ i ∈ l, i < n) → ρ ((l.map u).foldr D.add D.zero) ((l.map v).foldr E.add E.zero) := by
    intro l
    induction l with
    | nil => exact fun _ => R.zero
    | cons x l ih => exact fun hl => R.add (h x (hl x (by simp))) (ih fun i hi => hl i (by simp [hi]))
  exact this _ fun i hi => List.mem_range.1 hi

theorem newGrad_rel (R : OpsRel D E ρ) {g : Adj G} {h : Adj H} (hg : AdjRel ρ NT T g h) (w i : ℕ) {X : ℕ} (hX : X < NT) :
    ρ (newGrad D N g w i X) (newGrad E N h w i X) := R.add (hg.A _ _ _ hX) (hg.B _ _ _ hX)

theorem useGrad_rel (R : OpsRel D E ρ) (F : FactorsRel ρ N NT T f k) {g : Adj G} {h : Adj H} (hg : AdjRel ρ NT T g h) {l r : Bool} {w i X y z : ℕ}
    (hp : Present l r w) (hw : 1 ≤ w) (hi : i + w < N) (hX : X < NT) (hy : y < size NT T l) (hz : z < size NT T r) :
    ρ (useGrad D f N g l r w i X y z) (useGrad E k N h l r w i X y z) :=
  R.mul (R.mul (newGrad_rel R hg w i hX) (F.part l r w i X hp hw hi hX)) (F.entry l r w i X y z hp hw hi hX hy hz)

theorem pairGrad_rel (R : OpsRel D E ρ) (F : FactorsRel ρ N NT T f k) {g : Adj G} {h : Adj H} (hg : AdjRel ρ NT T g h) {l r : Bool} {w i y z : ℕ}
    (hp : Present l r w) (hw : 1 ≤ w) (hi : i + w < N) (hy : y < size NT T l) (hz : z < size NT T r) :
    ρ (pairGrad D f N NT g l r w i y z) (pairGrad E k N NT h l r w i y z) := R.all fun _ hX => useGrad_rel R F hg hp hw hi hX hy hz

theorem ruleGrad_rel (R : OpsRel D E ρ) (F : FactorsRel ρ N NT T f k) {g : Adj G} {h : Adj H} (hg : AdjRel ρ NT T g h) {l r : Bool} {w X y z : ℕ}
    (hp : Present l r w) (hw : 1 ≤ w) (hX : X < NT) (hy : y < size NT T l) (hz : z < size NT T r) :
    ρ (ruleGrad D f N g l r w X y z) (ruleGrad E k N h l r w X y z) := R.all fun _ hi => useGrad_rel R F hg hp hw (by omega) hX hy hz

theorem start_rel (R : OpsRel D E ρ) (F : FactorsRel ρ N NT T f k) (last : ℕ) : AdjRel ρ NT T (start D f last) (start E k last) where
  A i v X hX := by
    simp only [start]
    split_ifs
    · exact R.mul R.one (F.top X hX)
    · exact R.zero
  B _ _ _ _ := R.zero
  term _ _ _ := R.zero
  rule _ _ _ _ _ _ := R.zero
  root X hX := R.mul R.one (F.top X hX)
  span _ _ _ _ := R.zero

theorem present_ff (w : ℕ) : Present false false w := fun h => by simp at h
theorem present_ft (w : ℕ) : Present false true w := fun h => by simp at h
theorem present_tf (w : ℕ) : Present true false w := fun _ h => by simp at h
theorem present_tt : Present true true 1 := fun _ _ => rfl

theorem backStep_rel (R : OpsRel D E ρ) (F : FactorsRel ρ N NT T f k) {g : Adj G} {h : Adj H} (hg : AdjRel ρ NT T g h) {w : ℕ} (hw : 1 ≤ w) :
    AdjRel ρ NT T (backStep D f N NT T g w) (backStep E k N NT T h w) where
  A i v X hX := by
    simp only [backStep]
    split_ifs
    · exact R.add (R.add (hg.A _ _ _ hX) (R.all fun z hz => R.mul (pairGrad_rel R F hg (present_ff w) hw (by omega) hX hz) (F.split w i v X z hw (by omega) (by omega) hX hz)))
        (R.all fun z hz => pairGrad_rel R F hg (present_ft w) hw (by omega) hX hz)
    · exact R.add (R.add (hg.A _ _ _ hX) (R.all fun z hz => R.mul (pairGrad_rel R F hg (present_ff w) hw (by omega) hX hz) (F.split w i v X z hw (by omega) (by omega) hX hz)))
        R.zero
    · exact R.zero
    · exact hg.A _ _ _ hX
    · exact hg.A _ _ _ hX
  B j v X hX := by
    simp only [backStep]
    split_ifs
    · exact R.add (R.add (hg.B _ _ _ hX) (R.all fun y hy => R.mul (pairGrad_rel R F hg (present_ff w) hw (by omega) hy hX)
        (F.split w (j - w) _ y X hw (by omega) (by omega) hy hX))) (R.all fun y hy => pairGrad_rel R F hg (present_tf w) hw (by omega) hy hX)
    · exact R.add (R.add (hg.B _ _ _ hX) (R.all fun y hy => R.mul (pairGrad_rel R F hg (present_ff w) hw (by omega) hy hX)
        (F.split w (j - w) _ y X hw (by omega) (by omega) hy hX))) R.zero
    · exact R.zero
    · exact hg.B _ _ _ hX
    · exact hg.B _ _ _ hX
  term n t ht := by
    simp only [backStep]
    refine R.add (R.add (hg.term _ _ ht) (R.add ?_ ?_)) ?_
    · split_ifs
      · exact R.all fun y hy => pairGrad_rel R F hg (present_ft w) hw (by omega) hy ht
      · exact R.zero
    · split_ifs
      · exact R.all fun z hz => pairGrad_rel R F hg (present_tf w) hw (by omega) ht hz
      · exact R.zero
    · by_cases h1 : w = 1
      · subst h1
        rw [if_pos rfl, if_pos rfl]
        refine R.add ?_ ?_
        · split_ifs
          · exact R.all fun z hz => pairGrad_rel R F hg present_tt hw (by omega) ht hz
          · exact R.zero
        · split_ifs
          · exact R.all fun y hy => pairGrad_rel R F hg present_tt hw (by omega) hy ht
          · exact R.zero
      · rw [if_neg h1, if_neg h1]; exact R.zero
  rule X hX y hy z hz := by
    simp only [backStep]
    split_ifs with h1 h2 h3 h4
    · subst h3
      exact R.add (hg.rule _ hX _ hy _ hz) (ruleGrad_rel R F hg present_tt hw hX (by simp only [size, if_true]; omega) (by simp only [size, if_true]; omega))
    · exact hg.rule _ hX _ hy _ hz
    · exact R.add (hg.rule _ hX _ hy _ hz) (ruleGrad_rel R F hg (present_tf w) hw hX (by simp only [size, if_true]; omega) (by simp [size]; omega))
    · exact R.add (hg.rule _ hX _ hy _ hz) (ruleGrad_rel R F hg (present_ft w) hw hX (by simp [size]; omega) (by simp only [size, if_true]; omega))
    · exact R.add (hg.rule _ hX _ hy _ hz) (ruleGrad_rel R F hg (present_ff w) hw hX (by simp [size]; omega) (by simp [size]; omega))
  root X hX := hg.root X hX
  span v i X hX := by
    simp only [backStep]
    split_ifs
    · exact newGrad_rel R hg w i hX
    · exact hg.span _ _ _ hX

theorem backLoop_rel (R : OpsRel D E ρ) (F : FactorsRel ρ N NT T f k) (last : ℕ) : AdjRel ρ NT T (backLoop D f N NT T last) (backLoop E k N NT T last) := by
  rw [backLoop, backLoop]
  have : ∀ (l : List ℕ) (g : Adj G) (h : Adj H), AdjRel ρ NT T g h →
      AdjRel ρ NT T (l.foldl (fun g w => backStep D f N NT T g (w + 1)) g) (l.foldl (fun g w => backStep E k N NT T g (w + 1)) h) := by
    intro l
    induction l with
    | nil => exact fun _ _ hg => hg
    | cons x l ih => exact fun g h hg => ih _ _ (backStep_rel R F hg (by omega))
  exact this _ _ _ (start_rel R F last)

end rel

/-! ### Real numbers and truth values -/

/-- The arithmetic of the real numbers. -/
def real : Ops ℝ := ⟨0, 1, (· + ·), (· * ·)⟩

/-- Where NaN spreads. -/
def truth : Ops Prop := ⟨False, False, Or, Or⟩

/-- A number that is no infinity, and NaN exactly if `P`. -/
def NanIff (x : IEEE) (P : Prop) : Prop := ∃ t : WithTop ℝ, x = fl t ∧ (t = ⊤ ↔ P)

theorem NanIff.iff {x : IEEE} {P : Prop} (h : NanIff x P) : x = IEEE.nan ↔ P := by
  obtain ⟨t, rfl, ht⟩ := h
  rw [← ht]
  exact ⟨fun hx => fl_inj (y := ⊤) hx, fun hx => by rw [hx]; rfl⟩

theorem real_rel : OpsRel ieee real fun x r => x = IEEE.ofReal r where
  zero := rfl
  one := rfl
  add := by rintro _ _ _ _ rfl rfl; exact IEEE.add_real _ _
  mul := by rintro _ _ _ _ rfl rfl; exact IEEE.mul_real _ _

theorem truth_rel : OpsRel ieee truth NanIff where
  zero := ⟨(0 : ℝ), rfl, by simp [truth]⟩
  one := ⟨(1 : ℝ), rfl, by simp [truth]⟩
  add := by
    rintro _ _ _ _ ⟨t, rfl, ht⟩ ⟨s, rfl, hs⟩
    exact ⟨t + s, fl_add _ _, by rw [WithTop.add_eq_top, ht, hs]; rfl⟩
  mul := by
    rintro _ _ _ _ ⟨t, rfl, ht⟩ ⟨s, rfl, hs⟩
    exact ⟨tmul t s, fl_mul _ _, by rw [tmul_eq_top, ht, hs]; rfl⟩

theorem real_all (n : ℕ) (u : ℕ → ℝ) : real.all n u = ∑ i ∈ range n, u i := by
  rw [← CKYProofs.sum_list_range, Ops.all, List.sum]
  rfl

theorem truth_all (n : ℕ) (u : ℕ → Prop) : truth.all n u ↔ ∃ i < n, u i := by
  rw [Ops.all]
  have : ∀ l : List ℕ, (l.map u).foldr truth.add truth.zero ↔ ∃ i ∈ l, u i := by
    intro l
    induction l with
    | nil => simp [truth]
    | cons x l ih =>
      rw [List.map_cons, List.foldr_cons]
      change (u x ∨ _) ↔ _
      rw [ih]
      simp
  rw [this]
  simp

end CFGBackwardProofs
