import Verif.Model.Checkpoint

/-! Specification vocabulary for the checkpointed semirings. -/

namespace Spec.Checkpoint
open _root_.Checkpoint

/-- `idx` is an index of a tensor of batch shape `shape`. -/
def InShape (shape idx : List ℕ) : Prop := List.Forall₂ (fun d i => i < d) shape idx

/-- The two tensors have the same shape and the same entries. -/
structure Same (x y : Tensor) : Prop where
  shape : x.shape = y.shape
  rows : x.rows = y.rows
  cols : x.cols = y.cols
  get : ∀ idx i j, InShape x.shape idx → i < x.rows → j < x.cols → x.get idx i j = y.get idx i j

/-- Both calls succeed with the same tensor. -/
def SameResult (r s : Except PyErr Tensor) : Prop := ∃ x y, r = .ok x ∧ s = .ok y ∧ Same x y

/-- Both calls succeed with the same pair of tensors. -/
def SameGrads (r s : Except PyErr (Tensor × Tensor)) : Prop := ∃ x y, r = .ok x ∧ s = .ok y ∧ Same x.1 y.1 ∧ Same x.2 y.2

end Spec.Checkpoint
