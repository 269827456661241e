import Verif.Model.Helpers
import Mathlib.Data.Real.Basic

/-! Model of `AlignmentCRF` (distributions.py:280-317) and of the part of torch_struct/alignment.py that is executed.

No semiring of the library has the methods `one_` and `zero_` that alignment.py:100, 176 and 177 call, so the program ends at line 100 with
`AttributeError`; the lines after it are never reached and are not modelled. -/

noncomputable section
namespace Alignment

/-- The attributes of an `AlignmentCRF` (distributions.py:309-312).  `maxGap = none` is `None`. -/
structure CRF where
  potentials : T4 ℝ
  loc : Bool
  lengths : Option (List ℕ)
  maxGap : Option ℕ

/-- The attributes of an `Alignment` (alignment.py:18-24).  `sparse_rounds` is an integer, or a boolean when the caller passes one. -/
structure Algo where
  sparseRounds : ℕ ⊕ Bool
  maxGap : Option ℕ
  loc : Bool

/-- `Alignment.__init__(semiring, sparse_rounds=3, max_gap=None, local=False)` (alignment.py:18-24): arguments that are not given have their defaults. -/
def Algo.make (sparseRounds : Option (ℕ ⊕ Bool)) (maxGap : Option (Option ℕ)) (loc : Option Bool) : Algo :=
  ⟨sparseRounds.getD (.inl 3), maxGap.getD none, loc.getD false⟩

/-- `AlignmentCRF._struct` (distributions.py:314-317): `self.struct(sr, self.local, max_gap=self.max_gap)`; the second positional argument is
`sparse_rounds`. -/
def CRF.struct (d : CRF) : Algo := Algo.make (some (.inr d.loc)) (some d.maxGap) none

open Classical in
/-- `Alignment._check_potentials` (alignment.py:26-47). -/
def checkPotentials (a : Algo) (edge : T4 ℝ) (lengths : Option (List ℕ)) : Except PyErr (List ℕ) :=
  if edge.d3 ≠ 3 then .error .assertion
  else if a.loc = true ∧ ¬ ∀ b < edge.d0, ∀ i < edge.d1, ∀ j < edge.d2, edge.get b i j 0 ≤ 0 ∧ 0 ≤ edge.get b i j 1 ∧ edge.get b i j 2 ≤ 0 then .error .assertion
  else if edge.d2 < edge.d1 then .error .assertion
  else match lengths.getD (List.replicate edge.d0 edge.d1) |>.max? with
    | none => .error .value
    | some m => if m = edge.d1 then .ok (lengths.getD (List.replicate edge.d0 edge.d1)) else .error .assertion

/-- `Alignment.logpartition` (alignment.py:48-102).  `math.log(0, 2)` raises for an empty table; the first round of the loop of line 89 ends at line
100.  (`_check_potentials` has made sure that there is a first round; a batch of size 0 with a length would end one line earlier.) -/
def logpartition (a : Algo) (edge : T4 ℝ) (lengths : Option (List ℕ)) : Except PyErr (List ℝ) :=
  match checkPotentials a edge lengths with
  | .error e => .error e
  | .ok lens =>
    if edge.d2 + edge.d1 = 0 then .error .value
    else match lens with
      | [] => .error .value          -- not reached
      | _ :: _ => if edge.d0 = 0 then .error .index else .error .attribute

/-- `AlignmentCRF.partition` (distributions.py:207-210). -/
def CRF.partition (d : CRF) : Except PyErr (List ℝ) := logpartition d.struct d.potentials d.lengths

end Alignment
