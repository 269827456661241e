import Mathlib.Data.List.Sort
import Verif.Model.InfArgmax

/-! Model of `kmax` and `topk` on potentials some of which are `-inf`.

As in `Model/InfArgmax.lean`, `-inf` is `⊥ : EReal` and potentials are never `+inf` or NaN.  `torch.topk` compares `-inf` like any other number and passes the gradient of a
slot to the entry it selected.  Note that the `k` slots of a leaf are `[x, -1e5, ..., -1e5]`: with `x = -inf` they are out of order. -/

noncomputable section
namespace Semirings

/-- `torch.topk(xs, k)[0]` (semirings.py:209, 233), on numbers that may be `-inf`. -/
def topkE (k : ℕ) (xs : List EReal) : List EReal := (xs.insertionSort (· ≥ ·)).take k

/-- `KMaxSemiring(k)` (semirings.py:177-237), on numbers that may be `-inf`. -/
def kmaxE (k : ℕ) : SR (List EReal) where
  zero := List.replicate k ((negInf : ℝ) : EReal)
  one := (List.range k).map fun i => if i = 0 then 0 else ((negInf : ℝ) : EReal)
  mul a b := topkE k (a.flatMap fun x => b.map fun y => x + y)
  sum xs := topkE k xs.flatten
  raw0 := List.replicate k 0
  detach x := x
  setData _ v := v

/-- `KMaxSemiring.convert` on a leaf (semirings.py:184-193), which may be `-inf`. -/
def kmaxConvertE (k : ℕ) (x : EReal) : List EReal := (List.range k).map fun i => if i = 0 then x else ((negInf : ℝ) : EReal)

end Semirings

namespace Autograd

/-- What `torch.topk(xs, k)` guarantees, see `Autograd.IsTopk`. (semirings.py:209, 220, 233) -/
def IsTopkE {G : Type} (score : G → EReal) (k : ℕ) (sel : List G → List G) : Prop :=
  ∀ xs : List G, k ≤ xs.length → ∃ rest : Multiset G, (xs : Multiset G) = (sel xs : Multiset G) + rest ∧
    (sel xs).length = k ∧ (sel xs).Pairwise (fun a b => score b ≤ score a) ∧
    ∀ a ∈ sel xs, ∀ b ∈ rest, score b ≤ score a

/-- `KMaxSemiring(k)` with gradients (semirings.py:177-237), on numbers that may be `-inf`. -/
def kmaxE {E : Type} (k : ℕ) (sel : List (GradE E) → List (GradE E)) : SR (List (GradE E)) where
  zero := List.replicate k ((Semirings.negInf : ℝ), 0)
  one := (List.range k).map fun i => if i = 0 then (0, 0) else ((Semirings.negInf : ℝ), 0)
  mul a b := sel (a.flatMap fun x => b.map fun y => (x.1 + y.1, x.2 + y.2))
  sum xs := sel xs.flatten
  raw0 := List.replicate k (0, 0)
  detach xs := xs.map fun x => (x.1, 0)
  setData xs vs := List.zipWith (fun x v => (v.1, x.2)) xs vs

/-- `KMaxSemiring.convert` on a leaf, which may be `-inf`, with the gradient of slot 0; see `Autograd.kmaxConvert`. (semirings.py:184-202) -/
def kmaxConvertE {E : Type} [DecidableEq E] (k : ℕ) (v : EReal) (e : E) : List (GradE E) :=
  (List.range k).map fun i => if i = 0 then leafE v e else ((Semirings.negInf : ℝ), 0)

end Autograd

namespace Dist
variable (A : Algo) (p : A.T EReal) (lengths : Option (List ℕ))

/-- `StructDistribution.kmax(k)` (distributions.py:137-150), on potentials that may be `-inf`. -/
def kmaxE (k : ℕ) : Except PyErr (List (List EReal)) :=
  A.run (Semirings.kmaxE k) (A.map (Semirings.kmaxConvertE k) p) lengths

/-- `StructDistribution.topk(k)` (distributions.py:152-165, helpers.py:95-109), on potentials that may be `-inf`: slot `j` is the gradient of `v[j].sum(dim=0)`. -/
def topkE (k : ℕ) (sel : List (Autograd.GradE (List ℕ)) → List (Autograd.GradE (List ℕ))) (j : ℕ) : Except PyErr (List ℕ → ℝ) :=
  (A.run (Autograd.kmaxE k sel) (A.map (fun q : EReal × List ℕ => Autograd.kmaxConvertE k q.1 q.2) (A.index p)) lengths).map
    fun vs => (vs.map fun row => (row.getD j (0, 0)).2).sum

end Dist

/-- `DependencyCRF.kmax(k)` (deptree.py:50-56, distributions.py:137-150), on potentials that may be `-inf`. -/
def DepTree.kmaxE (multiroot : Bool) (q : DepTree.Arcs EReal) (lengths : Option (List ℕ)) (k : ℕ) : Except PyErr (List (List EReal)) := do
  let p ← DepTree.convert ((DepTree.negBig : ℝ) : EReal) q
  Dist.kmaxE (DepTree.algo multiroot) p lengths k

/-- `DependencyCRF.topk(k)` (deptree.py:50-56, distributions.py:152-165), slot `s`, on potentials that may be `-inf`. -/
def DepTree.topkE (multiroot : Bool) (q : DepTree.Arcs EReal) (lengths : Option (List ℕ)) (k : ℕ)
    (sel : List (Autograd.GradE (List ℕ)) → List (Autograd.GradE (List ℕ))) (s : ℕ) : Except PyErr (List ℕ → ℝ) := do
  let p ← DepTree.convert ((DepTree.negBig : ℝ) : EReal) q
  Dist.topkE (DepTree.algo multiroot) p lengths k sel s

/-- `SentCFG.topk(k)` (distributions.py:152-165, cky.py:132-141), the spans of slot `s`, on potentials that may be `-inf`; see `CKY.topkSpans`. -/
def CKY.topkSpansE (p : CKY.Scores EReal) (lengths : Option (List ℕ)) (k : ℕ) (sel : List (Autograd.GradE (List ℕ)) → List (Autograd.GradE (List ℕ))) (s : ℕ) :
    Except PyErr (ℕ → ℕ → ℕ → ℕ → ℝ) :=
  if p.N = 1 then .error .runtime else (Dist.topkE CKY.algo { p with mark := some fun _ _ _ _ => 0 } lengths k sel s).map (CKY.arrangeSpans p.N)

/-- `SentCFG.topk(k)`, the terms, rules and roots, which add the slots (cky.py:139-140), on potentials that may be `-inf`; see `CKY.topkParts`. -/
def CKY.topkPartsE (p : CKY.Scores EReal) (lengths : Option (List ℕ)) (k : ℕ) (sel : List (Autograd.GradE (List ℕ)) → List (Autograd.GradE (List ℕ))) :
    Except PyErr CKY.Marginals :=
  if p.N = 1 then .error .runtime
  else (CKY.algo.run (Autograd.kmaxE k sel) (CKY.algo.map (fun q : EReal × List ℕ => Autograd.kmaxConvertE k q.1 q.2)
      (CKY.algo.index { p with mark := some fun _ _ _ _ => 0 })) lengths).map
    fun vs => CKY.arrange p.N fun e => ((List.range k).map fun s => (vs.map fun row => (row.getD s (0, 0)).2).sum e).sum
