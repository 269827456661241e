import Verif.Model.DepTree

/-! Model of a Python process that creates and queries `DependencyCRF` objects (distributions.py:367-396).

The constructor argument `multiroot` is not stored in the object: `setattr(self.struct, "multiroot", multiroot)` (line 396) writes it into the class
`DepTree`, which all objects share, and `logpartition` reads it back (deptree.py:50) at the time of the query.  `lazy_property` stores the result of the
first successful evaluation in the object.

Not modelled here: `count`, `mode`, `sample`, `gumbel_crf`, `cross_entropy`, `kl`. -/

noncomputable section
namespace DependencyHistory
open DepTree

/-- An object: its tables and the results stored by `lazy_property` (distributions.py:77, 117, 127, 171, 207). -/
structure Obj where
  potentials : Arcs ℝ
  lengths : Option (List ℕ)
  partition : Option (List ℝ) := none
  max : Option (List ℝ) := none
  entropy : Option (List ℝ) := none
  marginals : Option (List ℕ → ℝ) := none
  argmax : Option (List ℕ → ℝ) := none

/-- The process: the attribute of the class `DepTree`, absent at first, and the objects in order of construction. (distributions.py:393-396) -/
structure State where
  multiroot : Option Bool
  objs : List Obj

/-- The process before the first construction. (distributions.py:393-396) -/
def start : State := ⟨none, []⟩

/-- The queries. (distributions.py:77-210) -/
inductive Query where
  | partition | max | entropy | marginals | argmax
  | kmax (k : ℕ)
  | topk (k : ℕ) (sel : List (Autograd.Grad (List ℕ)) → List (Autograd.Grad (List ℕ))) (s : ℕ)
  | logProb (b : ℕ) (value : ℕ → ℕ → ℕ → ℝ)

/-- The results. (distributions.py:77-210) -/
inductive Val where
  | rows (v : List ℝ)
  | slots (v : List (List ℝ))
  | table (v : List ℕ → ℝ)
  | number (v : ℝ)

/-- What a program does with the objects. (distributions.py:393-396, 77-210) -/
inductive Op where
  /-- `DependencyCRF(potentials, lengths, multiroot=multiroot)` -/
  | new (potentials : Arcs ℝ) (lengths : Option (List ℕ)) (multiroot : Bool)
  /-- a query of the object that was constructed as number `i` -/
  | ask (i : ℕ) (query : Query)

/-- `lazy_property`: the stored result, or a new evaluation. (distributions.py:77, 117, 127, 171, 207) -/
def cached {β : Type} (store : Option β) (eval : Except PyErr β) : Except PyErr β :=
  match store with
  | some v => .ok v
  | none => eval

/-- A query (distributions.py:56-210); `multiroot` is `getattr(self, "multiroot", True)` (deptree.py:50).  `pick` is the tie-breaking of `torch.max`. -/
def askObj (pick : List (Autograd.Grad (List ℕ)) → Autograd.Grad (List ℕ)) (multiroot : Bool) (o : Obj) : Query → Obj × Except PyErr Val
  | .partition =>
    let r := cached o.partition (DepTree.partition multiroot o.potentials o.lengths)
    ({ o with partition := r.toOption }, r.map .rows)
  | .max =>
    let r := cached o.max (DepTree.max multiroot o.potentials o.lengths)
    ({ o with max := r.toOption }, r.map .rows)
  | .entropy =>
    let r := cached o.entropy (DepTree.entropy multiroot o.potentials o.lengths)
    ({ o with entropy := r.toOption }, r.map .rows)
  | .marginals =>
    let r := cached o.marginals (DepTree.marginals multiroot o.potentials o.lengths)
    ({ o with marginals := r.toOption }, r.map .table)
  | .argmax =>
    let r := cached o.argmax (DepTree.argmax multiroot o.potentials o.lengths pick)
    ({ o with argmax := r.toOption }, r.map .table)
  | .kmax k => (o, (DepTree.kmax multiroot o.potentials o.lengths k).map .slots)
  | .topk k sel s => (o, (DepTree.topk multiroot o.potentials o.lengths k sel s).map .table)
  | .logProb b value =>
    let q := o.potentials
    let idx := (List.range q.d1).flatMap fun i => (List.range q.d2).flatMap fun j => (List.range q.labels).map fun l => (i, j, l)
    let score := Struct.score (idx.map fun x => q.get b x.1 x.2.1 x.2.2) (idx.map fun x => value x.1 x.2.1 x.2.2)
    let r := cached o.partition (DepTree.partition multiroot o.potentials o.lengths)   -- `v - self.partition` (line 75)
    ({ o with partition := r.toOption }, r.map fun z => .number (score - z.getD b 0))

/-- One operation; the result of a query, if there is such an object. (distributions.py:393-396, 77-210) -/
def step (pick : List (Autograd.Grad (List ℕ)) → Autograd.Grad (List ℕ)) (st : State) : Op → State × Option (Except PyErr Val)
  | .new potentials lengths multiroot => (⟨some multiroot, st.objs ++ [{ potentials, lengths }]⟩, none)
  | .ask i query =>
    match st.objs[i]? with
    | none => (st, none)
    | some o =>
      let r := askObj pick (st.multiroot.getD true) o query
      (⟨st.multiroot, st.objs.set i r.1⟩, some r.2)

/-- A history. (distributions.py:393-396, 77-210) -/
def run (pick : List (Autograd.Grad (List ℕ)) → Autograd.Grad (List ℕ)) (st : State) (ops : List Op) : State :=
  ops.foldl (fun st op => (step pick st op).1) st

end DependencyHistory
