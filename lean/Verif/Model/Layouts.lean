import Verif.Model.Memory

/-! The first dimension of the tensors of the semirings of the library. -/

namespace Memory

/-- `Semiring.size` (semirings.py:38-41): the first dimension has size 1. -/
def single : Layout ℝ := ⟨1, fun f => f 0, fun x _ => x⟩

/-- `KMaxSemiring(k).size` (semirings.py:185-187): the `k` slots. -/
def slots (k : ℕ) : Layout (List ℝ) := ⟨k, fun f => (List.range k).map f, fun x s => x.getD s 0⟩

/-- `EntropySemiring.size` (semirings.py:372-374): log-value and entropy. -/
def two : Layout (ℝ × ℝ) := ⟨2, fun f => (f 0, f 1), fun x s => if s = 0 then x.1 else x.2⟩

/-- `KLDivergenceSemiring.size`, `CrossEntropySemiring.size` (semirings.py:258-260, 318-320). -/
def three : Layout (ℝ × ℝ × ℝ) := ⟨3, fun f => (f 0, f 1, f 2), fun x s => if s = 0 then x.1 else if s = 1 then x.2.1 else x.2.2⟩

end Memory
