import Verif.Spec.Dep

/-! The usual picture of projectivity: the nodes `0 .. n` on a line, arcs drawn above, no two arcs cross. -/

namespace Spec

/-- The arcs between `a`, `b` and between `c`, `d` cross: exactly one of `c`, `d` lies strictly between `a` and `b`, the other lies strictly outside. -/
def Crosses (a b c d : ℕ) : Prop := min a b < min c d ∧ min c d < max a b ∧ max a b < max c d

/-- No two arcs cross; the arcs from the artificial root count. -/
def NonCrossing {n : ℕ} (h : Heads n) : Prop := ∀ k l : Fin n, ¬ Crosses (k + 1) (h k) (l + 1) (h l)

end Spec
