import Mathlib.Algebra.Module.Pi
import Mathlib.Data.Multiset.Basic
import Verif.Model.Semirings

/-! Model of the semirings seen through `_Struct.marginals` (helpers.py:83-116): every value carries its gradient with
respect to the potentials.  `E` indexes the entries of the potential tensor; `(v, g)` is a number `v` with gradient `g : E → ℝ`.

Trusted: PyTorch's reverse-mode differentiation accumulates exactly the chain rule, so the gradient of the final value is obtained by
propagating gradients through each operation with that operation's derivative. -/

noncomputable section
namespace Autograd
open Semirings

variable {E : Type}

/-- A number together with its gradient. (used for the differentiation of helpers.py:98-116) -/
abbrev Grad (E : Type) := ℝ × (E → ℝ)

/-- The potential at entry `e` : gradient is the `e`-th unit vector (`edges` are the leaves, helpers.py:101-115). -/
def leaf [DecidableEq E] (v : ℝ) (e : E) : Grad E := (v, Pi.single e 1)

/-- `x.data` as a value. (linearchain.py:76-79, deptree.py:71-84) -/
def detach (x : Grad E) : Grad E := (x.1, 0)

/-- `x.data[...] = v`. (linearchain.py:76-77, deptree.py:71-84) -/
def setData (x v : Grad E) : Grad E := (v.1, x.2)

/-- `LogSemiring` with gradients: the derivative of `logsumexp` (semirings.py:102-104) is the softmax. -/
def logZ (z : ℝ) : SR (Grad E) where
  zero := (z, 0)
  one := (0, 0)
  mul a b := (a.1 + b.1, a.2 + b.2)
  sum xs :=
    let part := lse (xs.map Prod.fst)
    (part, (xs.map fun x => Real.exp (x.1 - part) • x.2).sum)
  raw0 := (0, 0)
  detach := detach
  setData := setData

/-- `LogSemiring` with gradients and `zero = -1e5`. (semirings.py:98-108, 138-150, with the differentiation of helpers.py:110-116) -/
def log : SR (Grad E) := logZ negInf

/-- What `torch.max(xs, dim)` guarantees about the entry it returns and back-propagates to: it is one of the entries and no entry is
larger.  Which one is returned under ties is unspecified: the theorems hold for every such choice. (semirings.py:169, 173) -/
def IsArgmax {G : Type} (score : G → ℝ) (pick : List G → G) : Prop :=
  ∀ xs, xs ≠ [] → pick xs ∈ xs ∧ ∀ x ∈ xs, score x ≤ score (pick xs)

/-- `MaxSemiring` with gradients (semirings.py:153-169): the gradient flows to the returned entry only. -/
def max (pick : List (Grad E) → Grad E) : SR (Grad E) where
  zero := (negInf, 0)
  one := (0, 0)
  mul a b := (a.1 + b.1, a.2 + b.2)
  sum := pick
  raw0 := (0, 0)
  detach := detach
  setData := setData

/-- What `torch.topk(xs, k)` guarantees: `k` of the entries (as a sub-multiset), in non-increasing order, none of the
entries left out being larger.  Ties are broken arbitrarily. (semirings.py:209, 220, 233) -/
def IsTopk {G : Type} (score : G → ℝ) (k : ℕ) (sel : List G → List G) : Prop :=
  ∀ xs : List G, k ≤ xs.length → ∃ rest : Multiset G, (xs : Multiset G) = (sel xs : Multiset G) + rest ∧
    (sel xs).length = k ∧ (sel xs).Pairwise (fun a b => score b ≤ score a) ∧
    ∀ a ∈ sel xs, ∀ b ∈ rest, score b ≤ score a

/-- `KMaxSemiring(k)` with gradients (semirings.py:177-237): `topk` gathers, so the gradient of a slot is that of the entry selected for it. -/
def kmax (k : ℕ) (sel : List (Grad E) → List (Grad E)) : SR (List (Grad E)) where
  zero := List.replicate k (negInf, 0)
  one := (List.range k).map fun i => if i = 0 then (0, 0) else (negInf, 0)
  mul a b := sel (a.flatMap fun x => b.map fun y => (x.1 + y.1, x.2 + y.2))
  sum xs := sel xs.flatten
  raw0 := List.replicate k (0, 0)
  detach xs := xs.map detach
  setData xs vs := List.zipWith setData xs vs

/-- `KMaxSemiring.convert` on a leaf: slot 0 is the potential, the other slots are constants.  `unconvert` of the gradient
(semirings.py:200-202) reads the gradient with respect to slot 0 only, which is the gradient recorded here. -/
def kmaxConvert [DecidableEq E] (k : ℕ) (v : ℝ) (e : E) : List (Grad E) :=
  (List.range k).map fun i => if i = 0 then leaf v e else (negInf, 0)

end Autograd
