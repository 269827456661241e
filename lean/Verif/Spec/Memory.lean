import Verif.Model.Memory

/-! What a call on tensors in memory must do: give the answer that belongs to the entries of the tensors, and leave the memory of the caller alone. -/

namespace Spec
open View
variable {α : Type}

/-- `convert` gives a tensor with the elements `pot` (of the given shape), without changing an existing storage. -/
def Converts (E : Layout α) (h : Heap) (convert : HeapM View) (shape : List ℕ) (pot : List ℕ → α) : Prop :=
  ∃ t h', convert h = (.ok t, h') ∧ (h.next ≤ h'.next ∧ ∀ s < h.next, h'.data s = h.data s) ∧ t.storage < h'.next ∧
    t.shape = E.size :: shape ∧ ∀ ix, Valid shape ix → E.get h' t ix = pot ix

/-- The outcome `r` of a call on the heap `h`, against the answer `ans` (one value for every row, or an exception): every storage that existed before the
call is unchanged, also if the call raises; the result is in a new storage and holds the answer. -/
def Answers (E : Layout α) (h : Heap) (r : Except PyErr View × Heap) (ans : Except PyErr (List α)) : Prop :=
  (∀ s < h.next, r.2.data s = h.data s) ∧
    match r.1 with
    | .error e => ans = .error e
    | .ok v => h.next ≤ v.storage ∧ ∃ rows, v.shape = [E.size, rows] ∧ ans = .ok ((List.range rows).map fun b => E.get r.2 v [b])

/-- What a caller reads off the outcome of a call: the exception, or the value of every row. -/
def result (E : Layout α) (r : Except PyErr View × Heap) : Except PyErr (List α) :=
  match r.1 with
  | .error e => .error e
  | .ok v => .ok ((List.range (v.shape.getD 1 0)).map fun b => E.get r.2 v [b])

end Spec
