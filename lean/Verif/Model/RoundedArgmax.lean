import Verif.Model.DepTree
import Verif.Model.CKY

/-! Model of `argmax` on a machine that rounds: `MaxSemiring` compares numbers exactly (`torch.max`) and adds them with rounding errors. -/

noncomputable section

/-- `MaxSemiring` with gradients (semirings.py:153-169, 65-83), `add` instead of the exact sum.  Derivatives do not depend on how the sum is rounded: a sum passes its gradient to both
terms. -/
def Autograd.maxWith {E : Type} (add : ℝ → ℝ → ℝ) (pick : List (Autograd.Grad E) → Autograd.Grad E) : SR (Autograd.Grad E) :=
  { Autograd.max pick with mul := fun a b => (add a.1 b.1, a.2 + b.2) }

/-- `StructDistribution.argmax` (distributions.py:127-135), `add` instead of the exact sum. -/
def Dist.argmaxWith (add : ℝ → ℝ → ℝ) (A : Algo) (p : A.T ℝ) (lengths : Option (List ℕ)) (pick : List (Autograd.Grad (List ℕ)) → Autograd.Grad (List ℕ)) :
    Except PyErr (List ℕ → ℝ) :=
  (A.run (Autograd.maxWith add pick) (Dist.leaves A p) lengths).map Dist.gradOfSum

/-- `DependencyCRF.argmax` (distributions.py:127-135), `add` instead of the exact sum. -/
def DepTree.argmaxWith (add : ℝ → ℝ → ℝ) (multiroot : Bool) (q : DepTree.Arcs ℝ) (lengths : Option (List ℕ))
    (pick : List (Autograd.Grad (List ℕ)) → Autograd.Grad (List ℕ)) : Except PyErr (List ℕ → ℝ) := do
  let p ← DepTree.convert DepTree.negBig q
  Dist.argmaxWith add (DepTree.algo multiroot) p lengths pick

/-- `SentCFG.argmax` (distributions.py:127-135, cky.py:81-143), `add` instead of the exact sum. -/
def CKY.argmaxWith (add : ℝ → ℝ → ℝ) (p : CKY.Scores ℝ) (lengths : Option (List ℕ)) (pick : List (Autograd.Grad (List ℕ)) → Autograd.Grad (List ℕ)) :
    Except PyErr CKY.Marginals :=
  if p.N = 1 then .error .runtime else (Dist.argmaxWith add CKY.algo (CKY.marked p) lengths pick).map (CKY.arrange p.N)

/-- With exact sums these are the functions modelled before. -/
theorem Dist.argmaxWith_exact (A : Algo) (p : A.T ℝ) (lengths : Option (List ℕ)) (pick : List (Autograd.Grad (List ℕ)) → Autograd.Grad (List ℕ)) :
    Dist.argmaxWith (· + ·) A p lengths pick = Dist.argmax A p lengths pick := rfl

theorem DepTree.argmaxWith_exact (multiroot : Bool) (q : DepTree.Arcs ℝ) (lengths : Option (List ℕ)) (pick : List (Autograd.Grad (List ℕ)) → Autograd.Grad (List ℕ)) :
    DepTree.argmaxWith (· + ·) multiroot q lengths pick = DepTree.argmax multiroot q lengths pick := rfl

theorem CKY.argmaxWith_exact (p : CKY.Scores ℝ) (lengths : Option (List ℕ)) (pick : List (Autograd.Grad (List ℕ)) → Autograd.Grad (List ℕ)) :
    CKY.argmaxWith (· + ·) p lengths pick = CKY.argmax p lengths pick := rfl
