import Verif.Spec.Autoregressive
import Verif.Model.InfBeam

/-! Specification of autoregressive models that forbid classes by logits `-inf`. -/

noncomputable section
namespace Spec
open Autoregressive InfBeam

/-- One step of a network whose logits may be `-inf`. -/
abbrev ARStepE (St : Type) := St → Tok → List EReal × St

/-- All logits of a sequence of tokens. -/
def runStepE {St : Type} (step : ARStepE St) : St → List Tok → List (List EReal) × St
  | s, [] => ([], s)
  | s, x :: xs => ((step s x).1 :: (runStepE step (step s x).2 xs).1, (runStepE step (step s x).2 xs).2)

/-- The contract of `AutoregressiveModel.forward` (as `IsCausal`); also, no logit is `+inf`. -/
structure IsCausalE {St : Type} (D : ARE St) (step : ARStepE St) : Prop where
  run : ∀ (rows : List (List Tok)) (states : List St), rows.length = states.length →
    D.model rows states = ((List.zipWith (fun row s => (runStepE step s row).1) rows states), List.zipWith (fun row s => (runStepE step s row).2) rows states)
  classes : ∀ s x, (step s x).1.length = D.nClasses
  no_top : ∀ s x, ∀ e ∈ (step s x).1, e ≠ ⊤

/-- All classes are forbidden. -/
def Stuck (xs : List EReal) : Prop := ∀ e ∈ xs, e = ⊥

/-- The network always leaves a class. -/
def NeverStuck {St : Type} (step : ARStepE St) : Prop := ∀ s x, ¬ Stuck (step s x).1

/-- At some position of the sequence all classes were forbidden. -/
def PassesStuck {St : Type} (step : ARStepE St) : St → Tok → List ℕ → Prop
  | _, _, [] => False
  | s, x, y :: ys => Stuck (step s x).1 ∨ PassesStuck step (step s x).2 (.hard y) ys

/-- No class of the sequence was forbidden when it was its turn. -/
def Permitted {St : Type} (step : ARStepE St) : St → Tok → List ℕ → Prop
  | _, _, [] => True
  | s, x, y :: ys => (step s x).1.getD y 0 ≠ ⊥ ∧ Permitted step (step s x).2 (.hard y) ys

open Classical in
/-- The logit of an allowed class, or its log-softmax among the allowed classes. -/
def allowedNorm (normalize : Bool) (xs : List EReal) (c : ℕ) : ℝ :=
  if normalize then (xs.getD c 0).toReal - Real.log (∑ i ∈ Finset.range xs.length, if xs.getD i 0 = ⊥ then 0 else Real.exp (xs.getD i 0).toReal)
  else (xs.getD c 0).toReal

/-- The chain rule for a sequence of allowed classes. -/
def allowedScore {St : Type} (normalize : Bool) (step : ARStepE St) : St → Tok → List ℕ → ℝ
  | _, _, [] => 0
  | s, x, y :: ys => allowedNorm normalize (step s x).1 y + allowedScore normalize step (step s x).2 (.hard y) ys

/-- Every class is one with the largest logit. -/
def IsGreedyE {St : Type} (C : ℕ) (step : ARStepE St) : St → Tok → List ℕ → Prop
  | _, _, [] => True
  | s, x, y :: ys => (∀ c < C, (step s x).1.getD c 0 ≤ (step s x).1.getD y 0) ∧ IsGreedyE C step (step s x).2 (.hard y) ys

/-- Equally long sequences of allowed classes never differ by `1e5` or more in score. -/
def CloseScores {St : Type} (nm : Bool) (step : ARStepE St) (C : ℕ) (s : St) (x : Tok) (n : ℕ) : Prop :=
  ∀ t ≤ n, ∀ y y', IsSeq C t y → Permitted step s x y → IsSeq C t y' → Permitted step s x y' → allowedScore nm step s x y' - allowedScore nm step s x y < 100000

end Spec
