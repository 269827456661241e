import Mathlib.Analysis.SpecialFunctions.Log.Basic
import Mathlib.Analysis.Complex.Trigonometric
import Mathlib.Algebra.Order.Floor.Semiring
import Mathlib.Data.Real.Archimedean
import Verif.Model.CKYParts

/-! Model of the tree network of the examples: examples/networks/TreeLSTM.py, which reads the graph that `CKY.to_networkx` makes of a batch of trees.

Vectors are functions of an index; only the entries below their size are used.  Devices are ignored.  What is used of the `dgl` library is modelled after its
documentation: `prop_nodes` pulls one frontier after the other; a pull reads the values before it, reduces the messages of every node of the frontier that has
incoming edges (in the order in which the edges were added) and then applies the node function to every node of the frontier; `prop_nodes_topo` does this for the
frontiers of the topological traversal. -/

noncomputable section
namespace TreeLSTM

/-- A vector. (TreeLSTM.py:66-75) -/
abbrev Vec := ℕ → ℝ

/-- The parameters of `TreeLSTM(hidden, in_size, out_size)` (TreeLSTM.py:9-15, 59-64). -/
structure Params where
  hidden : ℕ
  inSize : ℕ
  outSize : ℕ
  /-- `emb.weight` -/
  emb : ℕ → Vec
  /-- `W_iou.weight` -/
  wIou : ℕ → Vec
  /-- `U_iou.weight` -/
  uIou : ℕ → Vec
  bIou : Vec
  /-- `U_f.weight` and `U_f.bias` -/
  uF : ℕ → Vec
  uFBias : Vec
  /-- `out.weight` and `out.bias` -/
  out : ℕ → Vec
  outBias : Vec

/-- `torch.sigmoid` (of one entry). (TreeLSTM.py:22, 29) -/
def sigmoid (x : ℝ) : ℝ := 1 / (1 + Real.exp (- x))

/-- A linear map without bias, from vectors of size `n`. (TreeLSTM.py:12-13, 15) -/
def linear (n : ℕ) (W : ℕ → Vec) (x : Vec) : Vec := fun o => ((List.range n).map fun k => W o k * x k).sum

/-- The data of the nodes: `iou`, `h` and `c`. (TreeLSTM.py:41-43) -/
structure Data where
  iou : ℕ → Vec
  h : ℕ → Vec
  c : ℕ → Vec

variable (θ : Params)

/-- `nodes.mailbox["h"].view(n, -1)` (TreeLSTM.py:21): the messages of one node, side by side. -/
def cat (hs : List Vec) : Vec := fun k => hs.getD (k / θ.hidden) 0 (k % θ.hidden)

/-- `reduce_func` (TreeLSTM.py:20-24) for a node with the messages `(h, c)`; `U_f` and `U_iou` take vectors of size `2 * h_size`. -/
def reduce (mail : List (Vec × Vec)) : Except PyErr (Vec × Vec) :=
  if mail.length * θ.hidden ≠ 2 * θ.hidden then .error .runtime
  else
    let hcat := cat θ (mail.map Prod.fst)
    let f : Vec := fun k => sigmoid (linear (2 * θ.hidden) θ.uF hcat k + θ.uFBias k)
    let c : Vec := fun k => ((List.range mail.length).map fun e => f (e * θ.hidden + k) * (mail.map Prod.snd).getD e 0 k).sum
    .ok (linear (2 * θ.hidden) θ.uIou hcat, c)

/-- `apply_node_func` (TreeLSTM.py:26-32) for a node with data `iou` and `c`; the result is `(h, c)`. -/
def applyNode (iou c : Vec) : Vec × Vec :=
  let iou' : Vec := fun k => iou k + θ.bIou k
  let i : Vec := fun k => sigmoid (iou' k)
  let o : Vec := fun k => sigmoid (iou' (θ.hidden + k))
  let u : Vec := fun k => Real.tanh (iou' (2 * θ.hidden + k))
  let c' : Vec := fun k => i k * u k + c k
  (fun k => o k * Real.tanh (c' k), c')

/-- The messages of `message_func` (TreeLSTM.py:17-18) that arrive at node `v`. -/
def mailbox (edges : List (ℕ × ℕ)) (d : Data) (v : ℕ) : List (Vec × Vec) :=
  (edges.filter fun e => e.2 = v).map fun e => (d.h e.1, d.c e.1)

/-- One node in a pull: its new `iou`, `h` and `c`. (TreeLSTM.py:17-32) -/
def pullNode (edges : List (ℕ × ℕ)) (d : Data) (v : ℕ) : Except PyErr (Vec × Vec × Vec) :=
  match mailbox edges d v with
  | [] => .ok (d.iou v, applyNode θ (d.iou v) (d.c v))
  | m :: ms => (reduce θ (m :: ms)).map fun r => (r.1, applyNode θ r.1 r.2)

/-- Store the new values of node `v`. (TreeLSTM.py:24, 32) -/
def Data.put (d : Data) (v : ℕ) (x : Vec × Vec × Vec) : Data :=
  ⟨Function.update d.iou v x.1, Function.update d.h v x.2.1, Function.update d.c v x.2.2⟩

/-- `g.pull(frontier)`: all nodes of the frontier are computed from the data before the pull. (TreeLSTM.py:45-49) -/
def pull (edges : List (ℕ × ℕ)) (d : Data) (frontier : List ℕ) : Except PyErr Data :=
  (frontier.mapM fun v => (pullNode θ edges d v).map fun x => (v, x)).map fun xs => xs.foldl (fun d x => d.put x.1 x.2) d

/-- `g.prop_nodes(frontiers)`. (TreeLSTM.py:49) -/
def propNodes (edges : List (ℕ × ℕ)) (frontiers : List (List ℕ)) (d : Data) : Except PyErr Data :=
  frontiers.foldlM (pull θ edges) d

/-- The frontiers of the topological traversal of a graph with `n` nodes: every frontier contains the nodes that are not done and all of whose predecessors are;
`fuel` bounds the number of frontiers.  (A node on a cycle is in no frontier; the library raises an error, which cannot happen here.) (`dgl.prop_nodes_topo`, TreeLSTM.py:45, 47) -/
def frontiers (n : ℕ) (edges : List (ℕ × ℕ)) : ℕ → List ℕ → List (List ℕ)
  | 0, _ => []
  | fuel + 1, done =>
    let f := (List.range n).filter fun v => decide (v ∉ done ∧ ∀ e ∈ edges, e.2 = v → e.1 ∈ done)
    if f = [] then [] else f :: frontiers n edges fuel (done ++ f)

/-- `run(cell, graph, iou, h, c, topo)` (TreeLSTM.py:35-51). -/
def run (n : ℕ) (edges : List (ℕ × ℕ)) (iou h c : ℕ → Vec) (topo : Option (List (List ℕ))) : Except PyErr (ℕ → Vec) := do
  -- line 45
  let d ← propNodes θ edges (frontiers n edges n []) ⟨iou, h, c⟩
  -- lines 46-49
  let d ← propNodes θ edges (topo.getD (frontiers n edges n [])) d
  .ok d.h

/-- `log_softmax(dim=-1)` of a vector of size `n`. (TreeLSTM.py:74) -/
def logSoftmax (n : ℕ) (x : Vec) : Vec := fun k => x k - Real.log ((List.range n).map fun k => Real.exp (x k)).sum

/-- `indices[i, 0][0]` of line 73, and lines 73-74 for one row. -/
def result (h : ℕ → Vec) (left : ℕ × ℕ → Option (ℕ × ℕ)) (i : ℕ) : Except PyErr Vec :=
  match left (i, 0) with
  | none => .error .key
  | some r => .ok (logSoftmax θ.outSize fun k => linear θ.hidden θ.out (h r.1) k + θ.outBias k)

/-- `TreeLSTM.forward(g, label, indices, topo, lengths)` (TreeLSTM.py:66-75) for a graph with `n` nodes; line 71 stores one vector for every label, so that there
must be as many labels as nodes. -/
def forward (n : ℕ) (edges : List (ℕ × ℕ)) (label : List ℕ) (left : ℕ × ℕ → Option (ℕ × ℕ)) (topo : List (List ℕ)) (lengths : List ℕ) :
    Except PyErr (List Vec) := do
  if ¬ ∀ l ∈ label, l < θ.inSize then .error .index
  else if label.length ≠ n then .error .runtime
  else
    let h ← run θ n edges (fun v => linear θ.hidden θ.wIou (θ.emb (label.getD v 0))) (fun _ _ => 0) (fun _ _ => 0) (some topo)
    -- `torch.stack` of an empty list
    if lengths = [] then .error .runtime
    else (List.range lengths.length).mapM (result θ h left)

/-- `spans_to_dgl(trees)` (TreeLSTM.py:77-83) followed by `forward`, as examples/tree.py:61-62, 107-110 calls them; `nNodes` is `int(spans.sum())`, `ordered` the
nonzero entries of the table sorted by width.  `add_edges` needs nodes below `nNodes`; `topo` is a list of `N` lists. -/
def network (N nNodes : ℕ) (ordered : List CKY.Cell4) (lengths : List ℕ) : Except PyErr (List Vec) := do
  let s ← CKY.toNetworkx N ordered
  if ¬ ∀ v ∈ s.a ++ s.b, v < nNodes then .error .runtime
  else forward θ nNodes (s.a.zip s.b) (ordered.map fun c => c.2.2.2) s.left ((List.range N).map s.topo) lengths

/-- The same from the rows of the table: `order` stands for the sort by width of cky.py:249 (`torch.argsort` need not be stable), `S` is the number of channels. -/
def lstm (N S : ℕ) (order : List CKY.Cell4 → List CKY.Cell4) (rows : List (ℕ → ℕ → ℕ → ℝ)) (lengths : List ℕ) : Except PyErr (List Vec) :=
  network θ N ⌊CKY.nNodes rows.length N S fun b => rows.getD b 0⌋₊ (order (CKY.cover4 rows.length N S fun b => rows.getD b 0)) lengths

end TreeLSTM
