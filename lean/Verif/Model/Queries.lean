import Verif.Model.CKY
import Verif.Model.DepTree
import Verif.Model.NonProj
import Verif.Model.Sampling

/-! Model of the methods of `StructDistribution` (torch_struct/distributions.py) on the distributions that inherit them but whose objects do not fit: the
potentials of `SentCFG` are a tuple, `NonProjectiveDependencyCRF` has no attribute `struct`, and `cross_entropy` and `kl` pass a Python list of two tables. -/

noncomputable section

/-- What a program can pass where the code expects a tensor, as far as the code looks at it before it fails. (distributions.py:45-51, 67-75, 99-115) -/
inductive PyObj where
  /-- a tensor with the given shape -/
  | tensor (shape : List ℕ)
  /-- a tuple or a list of objects -/
  | seq (items : List PyObj)

namespace PyObj

/-- `x.dim()`, `x.detach()`, `x.requires_grad_()`: methods of tensors; sequences do not have them. (distributions.py:67; helpers.py:44, 47) -/
def method : PyObj → Except PyErr (List ℕ)
  | tensor s => .ok s
  | seq _ => .error .attribute

/-- An argument of a torch function (`torch.ones_like(x)`, `v.type_as(x)`) that must be a tensor. (distributions.py:188; helpers.py:56-60) -/
def tensorArg : PyObj → Except PyErr (List ℕ)
  | tensor s => .ok s
  | seq _ => .error .type

/-- `a, b, c = x`: unpacking a sequence of another length raises `ValueError`; so does unpacking a tensor whose first dimension is not 3. (cky.py:13, 96) -/
def unpack3 : PyObj → Except PyErr (List PyObj)
  | tensor s => match s with
    | [] => .error .type
    | n :: ns => if n = 3 then .ok (List.replicate 3 (tensor ns)) else .error .value
  | seq l => if l.length = 3 then .ok l else .error .value

end PyObj

namespace SentCFG

/-- The potentials of a `SentCFG` object as the code sees them: the tuple `(terms, rules, roots)` (distributions.py:449-453). -/
def potentials (p : CKY.Scores ℝ) : PyObj :=
  .seq [.tensor [p.batch, p.N, p.T], .tensor [p.batch, p.NT, p.S, p.S], .tensor [p.batch, p.NT]]

/-- `SentCFG.log_prob(value)` (distributions.py:56-75): `value.dim()`, then `value.type_as(self.log_potentials)`; the call of `CKY.score`, which has no
parameter `batch_dims` (cky.py:145), is not reached. -/
def logProb (p : CKY.Scores ℝ) (value : PyObj) : Except PyErr (List ℝ) := do
  let _ ← value.method
  let _ ← (potentials p).tensorArg
  .error .type

/-- `SentCFG.count` (distributions.py:185-190): `torch.ones_like(self.log_potentials)`. -/
def count (p : CKY.Scores ℝ) : Except PyErr (List ℝ) := do
  let _ ← (potentials p).tensorArg
  .error .type

/-- `SentCFG.cross_entropy(other)` and `SentCFG.kl(other)` (distributions.py:88-115): `CKY.logpartition` unpacks the list of the two tuples into three variables
(cky.py:13).  The lines after it are not reached. -/
def compare (p q : CKY.Scores ℝ) : Except PyErr (List ℝ) := do
  let _ ← (PyObj.seq [potentials p, potentials q]).unpack3
  .error .type

/-- `SentCFG.sample(sample_shape)` (distributions.py:212-233): `marginals` returns a tuple (cky.py:129, 143), and distributions.py:230 calls `sample.detach()`.  `pass` is the
outcome of `marginals`, which may fail too. -/
def sample (pass : Except PyErr Unit) (sampleShape : List ℕ) : Except PyErr (List (List ℕ → ℕ)) :=
  match sampleShape with
  | [nsamples] =>
    if nsamples = 0 then .error .runtime
    else do
      pass
      let _ ← (PyObj.seq [.tensor [], .tensor [], .tensor [], .tensor []]).method
      .error .type
  | _ => .error .assertion

end SentCFG

namespace DepTree

/-- `DependencyCRF.cross_entropy(other)` and `.kl(other)` (distributions.py:88-115): `DepTree.logpartition` calls `arc_scores_in.dim()` on the list of the two
tables (deptree.py:51). -/
def compare (p q : Arcs ℝ) : Except PyErr (List ℝ) := do
  let _ ← (PyObj.seq [.tensor [p.d0, p.d1, p.d2], .tensor [q.d0, q.d1, q.d2]]).method
  .error .type

end DepTree

namespace NonProj

/-- The attributes of a `NonProjectiveDependencyCRF` that the inherited methods look up (distributions.py:459-522): the class defines no `struct`. -/
def struct : Option Unit := none

/-- `self._struct(sr)` (distributions.py:243-244): `self.struct(...)` raises when there is no such attribute. -/
def getStruct : Except PyErr Unit :=
  match struct with
  | some A => .ok A
  | none => .error .attribute

/-- The queries that `NonProjectiveDependencyCRF` inherits. (distributions.py:459-522, 77-197) -/
inductive Inherited where
  | max | kmax (k : ℕ) | topk (k : ℕ) | count | gumbelCRF
  | logProb (value : PyObj)
  | crossEntropy | kl

/-- The result of an inherited query (distributions.py:56-75, 88-125, 137-165, 185-197): `log_prob` first calls `value.dim()`; all of them call `_struct`. -/
def inherited : Inherited → Except PyErr Unit
  | .logProb value => do
    let _ ← value.method
    getStruct
  | _ => getStruct

/-- `NonProjectiveDependencyCRF.sample` (distributions.py:501-502). -/
def sample (_sampleShape : List ℕ) : Except PyErr (List (List ℕ → ℕ)) := .error .notImpl

/-- `NonProjectiveDependencyCRF.argmax` and `.entropy` (distributions.py:511-522): the bodies are `pass`, so the result is `None`. -/
def silent : Except PyErr (Option (List ℝ)) := .ok none

end NonProj
