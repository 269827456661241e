import Verif.Model.LogProb
import Verif.Model.Sampling

/-! Model of a Python process that creates tensors, builds distributions over them, queries the distributions in any order, with gradients enabled or
disabled, and updates the tensors in place (as `optimizer.step()` does).

A `StructDistribution` keeps a reference to the caller's tensor (distributions.py:47), not a copy.  `lazy_property` (distributions.py:77, 117, 127, 171, 185,
207) evaluates with gradients enabled and stores the first result in the object.  `kmax` and `topk` enable gradients themselves (147, 162); `sample` (212-233)
does not, although it differentiates.  The dynamic programs set `requires_grad` of the caller's tensor (helpers.py:41-48, semimarkov.py:27).

Simplifications: the tensors are leaves of the autograd graph; the tie-breaking of `torch.max` is a function `pick`.  Not modelled here: `mode`,
`cross_entropy`, `kl`, `gumbel_crf`, and `DependencyCRF`, whose flag is shared between objects (`Model/DependencyHistory.lean`). -/

noncomputable section
namespace Objects
open Autograd

/-- A distribution class: its dynamic program, and the check of the number of dimensions of the tensor (the unpacking of `edge.shape`). (distributions.py:247-422) -/
structure Cls where
  algo : Algo
  read : Tensor ℝ → Except PyErr (algo.T ℝ)

/-- `batch, N_1, C, C2 = self._get_dimension(edge)` (linearchain.py:29, cky_crf.py:9): `ValueError` if the tensor does not have four dimensions. -/
def read4 (t : Tensor ℝ) : Except PyErr (T4 ℝ) :=
  match t.shape with
  | [d0, d1, d2, d3] => .ok ⟨d0, d1, d2, d3, fun a b c d => t.get [a, b, c, d]⟩
  | _ => .error .value

/-- `batch, N_1, K, C, C2 = self._get_dimension(edge)` (semimarkov.py:11). -/
def read5 (t : Tensor ℝ) : Except PyErr (T5 ℝ) :=
  match t.shape with
  | [d0, d1, d2, d3, d4] => .ok ⟨d0, d1, d2, d3, d4, fun a b c d e => t.get [a, b, c, d, e]⟩
  | _ => .error .value

/-- `LinearChainCRF` (distributions.py:247-277). -/
def linearChainCRF : Cls := ⟨LinearChain.algo, read4⟩

/-- `SemiMarkovCRF` (distributions.py:344-364). -/
def semiMarkovCRF : Cls := ⟨SemiMarkov.algo, read5⟩

/-- `TreeCRF` (distributions.py:399-423). -/
def treeCRF : Cls := ⟨CKYCRF.algo, read4⟩

/-- A distribution object: the tensor it refers to, its lengths, and the results stored by `lazy_property`. (distributions.py:45-51, 77-210) -/
structure Obj where
  cls : Cls
  tensor : ℕ
  lengths : Option (List ℕ)
  partition : Option (List ℝ) := none
  max : Option (List ℝ) := none
  entropy : Option (List ℝ) := none
  count : Option (List ℝ) := none
  marginals : Option (List ℕ → ℝ) := none
  argmax : Option (List ℕ → ℝ) := none

/-- A tensor of the process: its entries and `requires_grad`. (helpers.py:41-48) -/
structure Cell where
  data : Tensor ℝ
  requiresGrad : Bool

/-- The process: the tensors and the distributions in order of creation. (distributions.py:45-51) -/
structure State where
  cells : List Cell
  objs : List Obj

/-- The process at its start. (distributions.py:45-51) -/
def start : State := ⟨[], []⟩

/-- The queries. (distributions.py:77-233) -/
inductive Query where
  | partition | max | entropy | count | marginals | argmax
  | kmax (k : ℕ)
  | topk (k : ℕ) (sel : List (Grad (List ℕ)) → List (Grad (List ℕ))) (s : ℕ)
  | logProb (value : Tensor ℝ)
  /-- `sample(shape)`; `pass` holds the results of the backward passes, which are random (`Model/Sampling.lean`). -/
  | sample (pass : ℕ → List ℕ → ℕ) (shape : List ℕ)

/-- The results. (distributions.py:77-233) -/
inductive Val where
  | rows (v : List ℝ)
  | slots (v : List (List ℝ))
  | table (v : List ℕ → ℝ)
  | tensor (v : Tensor ℝ)
  | events (v : List (List ℕ → ℕ))

/-- What a program does. (distributions.py:45-233) -/
inductive Op where
  /-- a new tensor with `requires_grad=False` -/
  | tensor (data : Tensor ℝ)
  /-- `Cls(tensor i, lengths)` -/
  | new (cls : Cls) (i : ℕ) (lengths : Option (List ℕ))
  /-- an in-place update of tensor `i`, with gradients enabled or (`torch.no_grad()`) not -/
  | update (grad : Bool) (i : ℕ) (data : Tensor ℝ)
  /-- a query of distribution `i`, with gradients enabled or (`torch.no_grad()`) not -/
  | ask (grad : Bool) (i : ℕ) (query : Query)

/-- `lazy_property`: the stored result, or a new evaluation. (distributions.py:77, 117, 127, 171, 185, 207) -/
def cached {β : Type} (store : Option β) (eval : Except PyErr β) : Except PyErr β :=
  match store with
  | some v => .ok v
  | none => eval

/-- Evaluation of a dynamic program on the caller's tensor. (distributions.py:86, 125, 135, 183, 190, 210) -/
def Cls.eval {β : Type} (c : Cls) (t : Tensor ℝ) (f : c.algo.T ℝ → Except PyErr β) : Except PyErr β := do
  let p ← c.read t
  f p

/-- `sample` (distributions.py:212-233).  With gradients disabled the forward pass succeeds, but `torch.autograd.grad` (helpers.py:112-114) raises, because its
result does not require a gradient. -/
def Cls.sample (c : Cls) (grad : Bool) (t : Tensor ℝ) (lengths : Option (List ℕ)) (pass : ℕ → List ℕ → ℕ) (shape : List ℕ) : Except PyErr (List (List ℕ → ℕ)) :=
  match shape with
  | [nsamples] =>
    if nsamples = 0 then .error .runtime      -- `torch.stack([])`
    else do
      let _ ← c.eval t fun p => Sampling.record c.algo Semirings.negInf p lengths
      if grad then Sampling.sample pass [nsamples] else .error .runtime
  | _ => .error .assertion

/-- A query (distributions.py:56-233) of an object over a tensor with entries `t`: the object afterwards, whether a dynamic program was started on the tensor,
and the answer. -/
def askObj (pick : List (Grad (List ℕ)) → Grad (List ℕ)) (grad : Bool) (o : Obj) (t : Tensor ℝ) : Query → Obj × Bool × Except PyErr Val
  | .partition =>
    let r := cached o.partition (o.cls.eval t fun p => Dist.partition o.cls.algo p o.lengths)
    ({ o with partition := r.toOption }, o.partition.isNone, r.map .rows)
  | .max =>
    let r := cached o.max (o.cls.eval t fun p => Dist.max o.cls.algo p o.lengths)
    ({ o with max := r.toOption }, o.max.isNone, r.map .rows)
  | .entropy =>
    let r := cached o.entropy (o.cls.eval t fun p => Dist.entropy o.cls.algo p o.lengths)
    ({ o with entropy := r.toOption }, o.entropy.isNone, r.map .rows)
  | .count =>                        -- the dynamic program runs on `ones`, a new tensor
    let r := cached o.count (o.cls.eval t fun p => Dist.count o.cls.algo o.lengths (o.cls.algo.map (fun x : ℝ => (x : EReal)) p))
    ({ o with count := r.toOption }, false, r.map .rows)
  | .marginals =>
    let r := cached o.marginals (o.cls.eval t fun p => Dist.marginals o.cls.algo p o.lengths)
    ({ o with marginals := r.toOption }, o.marginals.isNone, r.map .table)
  | .argmax =>
    let r := cached o.argmax (o.cls.eval t fun p => Dist.argmax o.cls.algo p o.lengths pick)
    ({ o with argmax := r.toOption }, o.argmax.isNone, r.map .table)
  | .kmax k => (o, true, (o.cls.eval t fun p => Dist.kmax o.cls.algo p o.lengths k).map .slots)
  | .topk k sel s => (o, true, (o.cls.eval t fun p => Dist.topk o.cls.algo p o.lengths k sel s).map .table)
  | .logProb value =>
    match Tensor.score .real t value (value.shape.length - t.shape.tail.length) with
    | .error e => (o, false, .error e)
    | .ok v =>                       -- `v - self.partition` (line 75)
      let r := cached o.partition (o.cls.eval t fun p => Dist.partition o.cls.algo p o.lengths)
      ({ o with partition := r.toOption }, o.partition.isNone, (r.map (Tensor.ofList 0)) >>= fun z => (Tensor.zip Arith.real.sub v z).map .tensor)
  | .sample pass shape => (o, (match shape with | [n] => decide (n ≠ 0) | _ => false), (o.cls.sample grad t o.lengths pass shape).map .events)

/-- One operation, and the answer of a query. (distributions.py:45-233) -/
def step (pick : List (Grad (List ℕ)) → Grad (List ℕ)) (st : State) : Op → State × Option (Except PyErr Val)
  | .tensor data => (⟨st.cells ++ [⟨data, false⟩], st.objs⟩, none)
  | .new cls i lengths => if i < st.cells.length then (⟨st.cells, st.objs ++ [{ cls, tensor := i, lengths }]⟩, none) else (st, none)
  | .update grad i data =>           -- an in-place operation on a leaf that requires a gradient raises `RuntimeError` unless gradients are disabled
    match st.cells[i]? with
    | none => (st, none)
    | some c => if grad ∧ c.requiresGrad then (st, some (.error .runtime)) else (⟨st.cells.set i ⟨data, c.requiresGrad⟩, st.objs⟩, none)
  | .ask grad i query =>
    match st.objs[i]? with
    | none => (st, none)
    | some o =>
      match st.cells[o.tensor]? with
      | none => (st, none)
      | some c =>
        let r := askObj pick grad o c.data query
        (⟨st.cells.set o.tensor ⟨c.data, c.requiresGrad || r.2.1⟩, st.objs.set i r.1⟩, some r.2.2)

/-- A history. (distributions.py:45-233) -/
def run (pick : List (Grad (List ℕ)) → Grad (List ℕ)) (st : State) (ops : List Op) : State := ops.foldl (fun st op => (step pick st op).1) st

end Objects
