import Verif.Model.Autoregressive
import Mathlib.Algebra.BigOperators.Group.Finset.Basic

/-! Specification of autoregressive models: what a network has to satisfy, and the chain rule. -/

noncomputable section
namespace Spec
open Autoregressive

/-- One step of a network: a state and the token that is fed give the next logits and the next state. -/
abbrev ARStep (St : Type) := St → Tok → List ℝ × St

/-- All logits of a sequence of tokens. -/
def runStep {St : Type} (step : ARStep St) : St → List Tok → List (List ℝ) × St
  | s, [] => ([], s)
  | s, x :: xs => ((step s x).1 :: (runStep step (step s x).2 xs).1, (runStep step (step s x).2 xs).2)

/-- The contract of `AutoregressiveModel.forward`: the rows of the batch do not interact, and the logits at a position depend on the tokens up to that
position only, through a state; there are `C` of them. -/
structure IsCausal {St : Type} (D : AR St) (step : ARStep St) : Prop where
  run : ∀ (rows : List (List Tok)) (states : List St), rows.length = states.length →
    D.model rows states = ((List.zipWith (fun row s => (runStep step s row).1) rows states), List.zipWith (fun row s => (runStep step s row).2) rows states)
  classes : ∀ s x, (step s x).1.length = D.nClasses

/-- The logits, or their log-softmax `x_c - log ∑ exp x`. -/
def arNorm (normalize : Bool) (xs : List ℝ) (c : ℕ) : ℝ :=
  if normalize then xs.getD c 0 - Real.log (∑ i ∈ Finset.range xs.length, Real.exp (xs.getD i 0)) else xs.getD c 0

/-- The chain rule: feed `x`, add the score of the next class `y`, feed `y`, and so on. -/
def arScore {St : Type} (normalize : Bool) (step : ARStep St) : St → Tok → List ℕ → ℝ
  | _, _, [] => 0
  | s, x, y :: ys => arNorm normalize (step s x).1 y + arScore normalize step (step s x).2 (.hard y) ys

/-- The same, if every class is one with the largest logit. -/
def IsGreedy {St : Type} (C : ℕ) (step : ARStep St) : St → Tok → List ℕ → Prop
  | _, _, [] => True
  | s, x, y :: ys => (∀ c < C, (step s x).1.getD c 0 ≤ (step s x).1.getD y 0) ∧ IsGreedy C step (step s x).2 (.hard y) ys

/-- The scores of all classes at every position of the sequence. -/
def arTable {St : Type} (normalize : Bool) (step : ARStep St) : St → Tok → List ℕ → List (ℕ → ℝ)
  | _, _, [] => []
  | s, x, y :: ys => arNorm normalize (step s x).1 :: arTable normalize step (step s x).2 (.hard y) ys

/-- A sequence of `n` classes. -/
def IsSeq (C n : ℕ) (y : List ℕ) : Prop := y.length = n ∧ ∀ c ∈ y, c < C

/-- The order of two equally long prefixes does not change if both are continued by the same class (up to length `n`). -/
def PrefixMonotone {St : Type} (normalize : Bool) (step : ARStep St) (C : ℕ) (s0 : St) (x0 : Tok) (n : ℕ) : Prop :=
  ∀ t < n, ∀ (y y' : List ℕ) (c : ℕ), IsSeq C t y → IsSeq C t y' → c < C → arScore normalize step s0 x0 y ≤ arScore normalize step s0 x0 y' →
    arScore normalize step s0 x0 (y ++ [c]) ≤ arScore normalize step s0 x0 (y' ++ [c])

/-- The network looks at the position only: up to length `n`, the score of a sequence is the sum of `v t c` over its positions `t` and classes `c`. -/
def PositionWise {St : Type} (normalize : Bool) (step : ARStep St) (C : ℕ) (s0 : St) (x0 : Tok) (n : ℕ) (v : ℕ → ℕ → ℝ) : Prop :=
  ∀ t ≤ n, ∀ y, IsSeq C t y → arScore normalize step s0 x0 y = ∑ i ∈ Finset.range t, v i (y.getD i 0)

end Spec
