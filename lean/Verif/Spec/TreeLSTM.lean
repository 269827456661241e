import Mathlib.Analysis.Complex.Trigonometric
import Mathlib.Analysis.SpecialFunctions.Log.Basic
import Verif.Spec.Grammar

/-! Specification of a binary tree-LSTM: hidden and cell state of a tree, computed from those of its two children. -/

open Finset

noncomputable section
namespace Spec.TreeLSTM

/-- The logistic function. -/
def σ (x : ℝ) : ℝ := 1 / (1 + Real.exp (- x))

/-- The weights for states of size `H` and input vectors of size `H`.  `Wi`, `Wo`, `Wu` act on the input of a leaf, `Ui`, `Uo`, `Uu` on the hidden states of the left
and the right child, `Uf` gives the forget gates of the left (`false`) and the right (`true`) child. -/
structure Weights (H : ℕ) where
  Wi : Fin H → Fin H → ℝ
  Wo : Fin H → Fin H → ℝ
  Wu : Fin H → Fin H → ℝ
  Ui : Bool → Fin H → Fin H → ℝ
  Uo : Bool → Fin H → Fin H → ℝ
  Uu : Bool → Fin H → Fin H → ℝ
  bi : Fin H → ℝ
  bo : Fin H → ℝ
  bu : Fin H → ℝ
  Uf : Bool → Bool → Fin H → Fin H → ℝ
  bf : Bool → Fin H → ℝ

variable {H : ℕ} (W : Weights H)

/-- The hidden state and the cell state. -/
structure State (H : ℕ) where
  h : Fin H → ℝ
  c : Fin H → ℝ

/-- A leaf with input vector `x`, whose cell state is `m` times the gated input. -/
def leafState (m : ℝ) (x : Fin H → ℝ) : State H :=
  let c : Fin H → ℝ := fun k => m * (σ (∑ j, W.Wi k j * x j + W.bi k) * Real.tanh (∑ j, W.Wu k j * x j + W.bu k))
  ⟨fun k => σ (∑ j, W.Wo k j * x j + W.bo k) * Real.tanh (c k), c⟩

/-- An inner node with children `l` and `r`. -/
def nodeState (l r : State H) : State H :=
  let gate : (Bool → Fin H → Fin H → ℝ) → Fin H → ℝ := fun U k => ∑ j, U false k j * l.h j + ∑ j, U true k j * r.h j
  let c : Fin H → ℝ := fun k => σ (gate W.Ui k + W.bi k) * Real.tanh (gate W.Uu k + W.bu k)
    + (σ (gate (W.Uf false) k + W.bf false k) * l.c k + σ (gate (W.Uf true) k + W.bf true k) * r.c k)
  ⟨fun k => σ (gate W.Uo k + W.bo k) * Real.tanh (c k), c⟩

/-- The state of a tree whose leaf `t` has input `x t`. -/
def state {NT T : ℕ} (m : ℝ) (x : Fin T → Fin H → ℝ) : Deriv NT T → State H
  | .leaf t => leafState W m (x t)
  | .node _ l r => nodeState W (state m x l) (state m x r)

/-- The logarithms of the probabilities of `C` classes, from a hidden state. -/
def logProbs {C : ℕ} (A : Fin C → Fin H → ℝ) (a : Fin C → ℝ) (h : Fin H → ℝ) (k : Fin C) : ℝ :=
  (∑ j, A k j * h j + a k) - Real.log (∑ k, Real.exp (∑ j, A k j * h j + a k))

open Classical in
/-- The table of a tree over the first words of a sentence of `N` words, with the remaining words `w i` as further leaves: 1 at the cell of every subtree and at the
cell of every remaining word, 0 elsewhere. -/
def padded {NT T : ℕ} (N : ℕ) (d : Deriv NT T) (w : ℕ → Fin T) (i j A : ℕ) : ℝ :=
  if (i, j, A) ∈ (d.subs 0).map Deriv.cell ∨ (d.size ≤ i ∧ i < N ∧ j = i ∧ A = NT + w i) then 1 else 0

end Spec.TreeLSTM
