import Verif.Model.Validate

/-! Property theorems C138: constructors with `validate_args=True`. -/

noncomputable section
namespace Props.Validate
open _root_.Validate

/-- The arguments have the right values: no NaN among the potentials, no negative length. -/
def Good (a : Args) : Prop :=
  (match a.potentials with
    | .floats xs => ∀ x ∈ xs, x ≠ none
    | .tuple ts => ∀ xs ∈ ts, ∀ x ∈ xs, x ≠ none
    | _ => False) ∧
  match a.lengths with
    | .none => True
    | .longs ls => ∀ n ∈ ls, 0 ≤ n
    | _ => False

/-- The property: with `validate_args=True`, arguments with the right values are accepted, with the same result as without validation, and others are rejected with
`ValueError`. -/
def Property : Prop := ∀ (c : Cls) (a : Args) (flag : Option Bool),
  (Good a → construct c a true flag = construct c a false flag) ∧ (¬ Good a → construct c a true flag = (.error .value, flag))

theorem mask_real (xs : List IEEE) : ((xs.map fun x => x.isSome).all id = true) ↔ ∀ x ∈ xs, x ≠ none := by
  simp only [List.all_map, List.all_eq_true, Function.comp, id]
  exact forall₂_congr fun x _ => Option.isSome_iff_ne_none

theorem mask_int (ls : List ℤ) : ((ls.map fun n => decide (0 ≤ n)).all id = true) ↔ ∀ n ∈ ls, 0 ≤ n := by
  simp [List.all_eq_true]

theorem validate_real {at_ : String → Val} {param : String} {rest : List (String × Constraint)} {xs : List IEEE} (h : at_ param = .floats xs) :
    ((∀ x ∈ xs, x ≠ none) → validate at_ ((param, .real) :: rest) = validate at_ rest) ∧ (¬ (∀ x ∈ xs, x ≠ none) → validate at_ ((param, .real) :: rest) = .error .value) := by
  rw [← mask_real]
  constructor <;> intro hx <;> (simp only [validate, h, check]; change (if _ then _ else _) = _)
  · rw [if_pos hx]
  · rw [if_neg hx]

theorem validate_int {at_ : String → Val} {param : String} {rest : List (String × Constraint)} {ls : List ℤ} (h : at_ param = .longs ls) :
    ((∀ n ∈ ls, 0 ≤ n) → validate at_ ((param, .nonnegInt) :: rest) = validate at_ rest) ∧ (¬ (∀ n ∈ ls, 0 ≤ n) → validate at_ ((param, .nonnegInt) :: rest) = .error .value) := by
  rw [← mask_int]
  constructor <;> intro hx <;> (simp only [validate, h, check]; change (if _ then _ else _) = _)
  · rw [if_pos hx]
  · rw [if_neg hx]

theorem construct_ok {c : Cls} {a : Args} {flag : Option Bool} (h : validate (attr a) (constraintsOf c) = .ok ()) : construct c a true flag = construct c a false flag := by
  simp [construct, h]

theorem construct_error {c : Cls} {a : Args} {flag : Option Bool} {e : PyErr} (h : validate (attr a) (constraintsOf c) = .error e) : construct c a true flag = (.error e, flag) := by
  simp [construct, h]

/-- The classes with the constraints of the base class and one tensor of potentials. -/
def Plain (c : Cls) : Prop := c ≠ .alignment ∧ c ≠ .sentCFG ∧ c ≠ .nonProj

theorem plain_constraints {c : Cls} (h : Plain c) : constraintsOf c = baseConstraints := by
  obtain ⟨h1, h2, h3⟩ := h
  cases c <;> first | rfl | contradiction

/-- **C138, without validation** every construction succeeds. -/
theorem unchecked (c : Cls) (a : Args) (flag : Option Bool) : construct c a false flag = (.ok ⟨c, a⟩, if c = .dependency then some a.multiroot else flag) := rfl

/-- **C138, `LinearChainCRF`, `HMM`, `SemiMarkovCRF`, `DependencyCRF`, `TreeCRF` with lengths.** Validation accepts exactly the arguments with the right values, with the same
result as without validation; it rejects the others with `ValueError`. -/
theorem with_lengths_partial (c : Cls) (hc : Plain c) (a : Args) (xs : List IEEE) (ls : List ℤ) (hp : a.potentials = .floats xs) (hl : a.lengths = .longs ls) (flag : Option Bool) :
    (Good a → construct c a true flag = construct c a false flag) ∧ (¬ Good a → construct c a true flag = (.error .value, flag)) := by
  have hG : Good a ↔ (∀ x ∈ xs, x ≠ none) ∧ ∀ n ∈ ls, 0 ≤ n := by simp only [Good, hp, hl]
  have h1 := validate_real (at_ := attr a) (param := "log_potentials") (rest := [("lengths", .nonnegInt)]) (xs := xs) (by simpa [attr] using hp)
  have h2 := validate_int (at_ := attr a) (param := "lengths") (rest := []) (ls := ls) (by simpa [attr] using hl)
  rw [hG]
  constructor
  · rintro ⟨g1, g2⟩
    refine construct_ok ?_
    rw [plain_constraints hc, baseConstraints, h1.1 g1, h2.1 g2]
    rfl
  · intro hn
    refine construct_error ?_
    rw [plain_constraints hc, baseConstraints]
    by_cases g1 : ∀ x ∈ xs, x ≠ none
    · rw [h1.1 g1]
      exact h2.2 fun g2 => hn ⟨g1, g2⟩
    · exact h1.2 g1

/-- **C138, the same classes without lengths.** Validation raises `TypeError` for all potentials without NaN: `None` is checked as if it were a number. -/
theorem without_lengths (c : Cls) (hc : Plain c) (a : Args) (xs : List IEEE) (hp : a.potentials = .floats xs) (hx : ∀ x ∈ xs, x ≠ none) (hl : a.lengths = .none)
    (flag : Option Bool) : construct c a true flag = (.error .type, flag) := by
  refine construct_error ?_
  rw [plain_constraints hc, baseConstraints, (validate_real (xs := xs) (by simpa [attr] using hp)).1 hx]
  simp only [validate, attr, hl, check]
  rfl

/-- **C138, `SentCFG`.** Validation raises `AttributeError` for every tuple of potentials and all lengths. -/
theorem sentcfg_never (a : Args) (ts : List (List IEEE)) (hp : a.potentials = .tuple ts) (flag : Option Bool) : construct .sentCFG a true flag = (.error .attribute, flag) := by
  refine construct_error ?_
  simp only [constraintsOf, baseConstraints, validate, attr, hp, check]
  rfl

/-- **C138, `AlignmentCRF`.** Validation accepts no arguments at all when `local` is a bool: `ValueError` if the potentials have a NaN and `AttributeError` otherwise. -/
theorem alignment_never (a : Args) (xs : List IEEE) (l : Bool) (hp : a.potentials = .floats xs) (hl : a.loc = .bool l) (flag : Option Bool) :
    ((∀ x ∈ xs, x ≠ none) → construct .alignment a true flag = (.error .attribute, flag)) ∧
    (¬ (∀ x ∈ xs, x ≠ none) → construct .alignment a true flag = (.error .value, flag)) := by
  have h1 := validate_real (at_ := attr a) (param := "log_potentials") (rest := [("local", .boolean), ("max_gap", .nonnegInt), ("lengths", .nonnegInt)]) (xs := xs)
    (by simpa [attr] using hp)
  constructor
  · intro hx
    refine construct_error ?_
    rw [constraintsOf, h1.1 hx]
    simp only [validate, attr, hl, check]
    rfl
  · exact fun hx => construct_error (h1.2 hx)

/-- **C138, `NonProjectiveDependencyCRF`.** Validation accepts exactly the potentials without NaN; lengths are not looked at. -/
theorem nonproj_validated (a : Args) (xs : List IEEE) (hp : a.potentials = .floats xs) (flag : Option Bool) :
    ((∀ x ∈ xs, x ≠ none) → construct .nonProj a true flag = construct .nonProj a false flag) ∧
    (¬ (∀ x ∈ xs, x ≠ none) → construct .nonProj a true flag = (.error .value, flag)) := by
  have h1 := validate_real (at_ := attr a) (param := "log_potentials") (rest := []) (xs := xs) (by simpa [attr] using hp)
  exact ⟨fun hx => construct_ok (h1.1 hx), fun hx => construct_error (h1.2 hx)⟩

/-- **C138.** A construction that raises leaves the class attribute `multiroot` alone. -/
theorem failed_flag (c : Cls) (a : Args) (v : Bool) (flag : Option Bool) (e : PyErr) (h : (construct c a v flag).1 = .error e) : (construct c a v flag).2 = flag := by
  unfold construct at h ⊢
  split
  · rfl
  · rename_i h1
    rw [h1] at h
    simp at h

/-- **C138 is false of the code**: a linear chain without lengths is rejected. -/
theorem property_false : ¬ Property := by
  intro h
  have h1 := (h .linearChain { potentials := .floats [some 0] } none).1 (by simp [Good])
  rw [without_lengths .linearChain ⟨by decide, by decide, by decide⟩ _ [some 0] rfl (by simp) rfl, unchecked] at h1
  simp at h1

/-! ## Concrete cases -/

/-- Potentials -inf pass validation, a NaN and a negative length do not. -/
example : (construct .tree { potentials := .floats [some 0, some ⊥], lengths := .longs [3, 2] } true none).1 = .ok ⟨.tree, { potentials := .floats [some 0, some ⊥], lengths := .longs [3, 2] }⟩ := by
  rw [(with_lengths_partial .tree ⟨by decide, by decide, by decide⟩ { potentials := .floats [some 0, some ⊥], lengths := .longs [3, 2] } _ _ rfl rfl none).1 (by simp [Good])]
  rfl

example : construct .dependency { potentials := .floats [some 0, none], lengths := .longs [3, 2] } true (some false) = (.error .value, some false) :=
  (with_lengths_partial .dependency ⟨by decide, by decide, by decide⟩ _ _ _ rfl rfl _).2 (by simp [Good])

example : construct .semiMarkov { potentials := .floats [some 0], lengths := .longs [3, -1] } true none = (.error .value, none) :=
  (with_lengths_partial .semiMarkov ⟨by decide, by decide, by decide⟩ _ _ _ rfl rfl _).2 (by simp [Good])

end Props.Validate
