import Mathlib.Data.EReal.Operations
import Verif.Model.DepTree
import Verif.Model.CKY

/-! Model of `max` and `argmax` on potentials some of which are `-inf`.

`-inf` is `⊥ : EReal`; potentials are never `+inf` or NaN, so sums of them are the IEEE sums (`-inf + x = -inf`).  `torch.max` compares `-inf` like any other number
and passes the gradient to the entry it returns; nothing is multiplied by a potential on the way back. -/

noncomputable section
namespace Autograd

/-- A number or `-inf`, together with its gradient. (helpers.py:98-116) -/
abbrev GradE (E : Type) := EReal × (E → ℝ)

/-- The potential at entry `e`. (helpers.py:101-115) -/
def leafE {E : Type} [DecidableEq E] (v : EReal) (e : E) : GradE E := (v, Pi.single e 1)

/-- What `torch.max(xs, dim)` guarantees about the entry it returns: it is one of the entries and no entry is larger. (semirings.py:169, 173) -/
def IsArgmaxE {G : Type} (score : G → EReal) (pick : List G → G) : Prop :=
  ∀ xs, xs ≠ [] → pick xs ∈ xs ∧ ∀ x ∈ xs, score x ≤ score (pick xs)

/-- `MaxSemiring` with gradients (semirings.py:153-169), on numbers that may be `-inf`. -/
def maxE {E : Type} (pick : List (GradE E) → GradE E) : SR (GradE E) where
  zero := ((Semirings.negInf : ℝ), 0)
  one := (0, 0)
  mul a b := (a.1 + b.1, a.2 + b.2)
  sum := pick
  raw0 := (0, 0)
  detach x := (x.1, 0)
  setData x v := (v.1, x.2)

end Autograd

namespace Semirings

/-- The largest entry of a list; as for `Semirings.listMax`, the empty list does not occur. (semirings.py:169) -/
def listMaxE : List EReal → EReal
  | [] => 0
  | x :: xs => xs.foldl Max.max x

/-- `MaxSemiring` (semirings.py:153-169), on numbers that may be `-inf`. -/
def maxE : SR EReal where
  zero := (negInf : ℝ)
  one := 0
  mul := (· + ·)
  sum := listMaxE
  raw0 := 0
  detach x := x
  setData _ v := v

end Semirings

namespace Dist
variable (A : Algo) (p : A.T EReal) (lengths : Option (List ℕ))

/-- `StructDistribution.max` (distributions.py:117-125), on potentials that may be `-inf`. -/
def maxE : Except PyErr (List EReal) := A.run Semirings.maxE p lengths

/-- `StructDistribution.argmax` (distributions.py:127-135, helpers.py:83-116), on potentials that may be `-inf`. -/
def argmaxE (pick : List (Autograd.GradE (List ℕ)) → Autograd.GradE (List ℕ)) : Except PyErr (List ℕ → ℝ) :=
  (A.run (Autograd.maxE pick) (A.map (fun q : EReal × List ℕ => Autograd.leafE q.1 q.2) (A.index p)) lengths).map fun vs => (vs.map Prod.snd).sum

end Dist

/-- `DependencyCRF.max` (deptree.py:50-56, distributions.py:117-125), on potentials that may be `-inf`. -/
def DepTree.maxE (multiroot : Bool) (q : DepTree.Arcs EReal) (lengths : Option (List ℕ)) : Except PyErr (List EReal) := do
  let p ← DepTree.convert ((DepTree.negBig : ℝ) : EReal) q
  Dist.maxE (DepTree.algo multiroot) p lengths

/-- `DependencyCRF.argmax` (deptree.py:50-56, distributions.py:127-135), on potentials that may be `-inf`. -/
def DepTree.argmaxE (multiroot : Bool) (q : DepTree.Arcs EReal) (lengths : Option (List ℕ))
    (pick : List (Autograd.GradE (List ℕ)) → Autograd.GradE (List ℕ)) : Except PyErr (List ℕ → ℝ) := do
  let p ← DepTree.convert ((DepTree.negBig : ℝ) : EReal) q
  Dist.argmaxE (DepTree.algo multiroot) p lengths pick

/-- `SentCFG.argmax` (distributions.py:127-135, cky.py:81-143), on potentials that may be `-inf`.  As for `CKY.argmax`, the leaves for `span[1:]` are added and sentences of one word fail. -/
def CKY.argmaxE (p : CKY.Scores EReal) (lengths : Option (List ℕ)) (pick : List (Autograd.GradE (List ℕ)) → Autograd.GradE (List ℕ)) :
    Except PyErr CKY.Marginals :=
  if p.N = 1 then .error .runtime else (Dist.argmaxE CKY.algo { p with mark := some fun _ _ _ _ => 0 } lengths pick).map (CKY.arrange p.N)
