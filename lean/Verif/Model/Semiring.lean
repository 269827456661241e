import Mathlib.Tactic.TypeStar
/-
Model of the semiring interface of torch_struct/semirings/semirings.py.
-/

/-- Python exceptions that the modelled code can raise.  `assertion`/`value`/`index`/`attribute`/`type`/`notImpl`
stand for `AssertionError`, `ValueError`, `IndexError`, `AttributeError`, `TypeError`, `NotImplementedError`;
`runtime` for the `RuntimeError` of a torch operation on ill-shaped tensors, `name` for the `NameError` of a missing module. (raised in distributions.py, helpers.py, linearchain.py, semimarkov.py, cky.py, deptree.py, alignment.py) -/
inductive PyErr where
  | assertion | value | index | attribute | type | notImpl | runtime | key | name
  deriving DecidableEq, Repr

/-- The interface that the dynamic programs use (`Semiring`, semirings.py:23-82).  No law is assumed.

* `zero`, `one`, `mul`, `sum` : the class attributes / static methods of the same names.  `sum` reduces one
  dimension, given here as the list of the entries along it.
* `raw0` : the entry that `torch.zeros` puts into a freshly allocated tensor (linearchain.py:61, semimarkov.py:42).
* `detach x` : `x.data` read as a value: same number, no autograd link.
* `setData x v` : effect of `x.data[...] = v`: the number of `v`, the autograd link of `x`.

Simplification: the leading *ssize* dimension of the code (semirings.py:39-41) is folded into the carrier `α`. -/
structure SR (α : Type) where
  zero : α
  one : α
  mul : α → α → α
  sum : List α → α
  raw0 : α
  detach : α → α
  setData : α → α → α

namespace SR
variable {α : Type} (S : SR α)

/-- `Semiring.fill` (semirings.py:50-55), one entry: `torch.where(mask, v, c)`. -/
def fill (c : α) (mask : Bool) (v : α) : α := if mask then v else c

/-- `Semiring.plus` (semirings.py:80-82). -/
def plus (a b : α) : α := S.sum [a, b]

/-- `Semiring.times` (semirings.py:57-63) for a list `l0 :: ls`. -/
def times (l0 : α) (ls : List α) : α := ls.foldl S.mul l0

/-- `matmul` (semirings.py:12-20), one entry of the result: `a.unsqueeze(-1)`, `b.unsqueeze(-3)`, multiply,
transpose, and sum over the shared dimension `k`.  (`StdSemiring.matmul`, semirings.py:128-135, is `torch.matmul`: the same
sum of products.  The `genbmm` branches are not modelled.) -/
def matmul {ι κ : Type} {m : Nat} (a : ι → Fin m → α) (b : Fin m → κ → α) (i : ι) (j : κ) : α :=
  S.sum (List.ofFn fun k => S.mul (a i k) (b k j))

/-- `Semiring.dot` (semirings.py:43-48): product along the last dimension, given as two lists. -/
def dot (a b : List α) : α := S.sum (List.zipWith S.mul a b)

end SR
