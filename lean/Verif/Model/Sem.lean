import Verif.Model.ChainMemory
import Verif.Model.Layouts

/-! The semirings of the library by name, with their code on tensors: the first dimension, the operations and `convert`. -/

namespace Memory

/-- The semirings of `partition`, `max`, `count`, `kmax(k)`, `entropy`, `cross_entropy` and `kl` (distributions.py:77-125, 137-150, 185-190, 207-210). -/
inductive Sem where
  | log | max | std | kmax (k : ℕ) | entropy | crossEntropy | kl

namespace Sem

/-- The elements. (semirings.py:119-404) -/
def carrier : Sem → Type
  | log | max | std => ℝ
  | kmax _ => List ℝ
  | entropy => ℝ × ℝ
  | crossEntropy | kl => ℝ × ℝ × ℝ

/-- `size` (semirings.py:38-41, 185-187, 258-260, 318-320, 372-374). -/
def layout : (X : Sem) → Layout X.carrier
  | log | max | std => single
  | kmax k => slots k
  | entropy => two
  | crossEntropy | kl => three

/-- The operations (semirings.py:92-399). -/
noncomputable def sr : (X : Sem) → SR X.carrier
  | log => Semirings.log
  | max => Semirings.max
  | std => Semirings.std ℝ
  | kmax k => Semirings.kmax k
  | entropy => Semirings.entropy
  | crossEntropy => Semirings.crossEntropy
  | kl => Semirings.kl

/-- `convert`, which for the last two semirings takes a list of two tensors (distributions.py:98-100, 112-114); they unpack nothing else. -/
noncomputable def convert (t u : View) : Sem → HeapM View
  | log | max | std => convertView t
  | kmax k => convertKMax k t
  | entropy => convertEntropy t
  | crossEntropy | kl => convertPair t u

/-- The element that `convert` makes of an entry of the potentials (and the entry of the second tensor). (semirings.py:66-68, 190-198, 264-269, 324-329, 378-382) -/
noncomputable def elem (x y : ℝ) : (X : Sem) → X.carrier
  | log | max | std => x
  | kmax k => Semirings.kmaxConvert k x
  | entropy => Semirings.entropyConvert x
  | crossEntropy | kl => Semirings.pairConvert (x, y)

end Sem
end Memory
