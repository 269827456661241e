import Mathlib.Analysis.SpecialFunctions.Exp
import Mathlib.Analysis.SpecialFunctions.Trigonometric.DerivHyp
import Verif.Model.NeuralCFG
import Verif.Model.TreeLSTM
import Verif.Model.LinearChainParts

/-! Model of examples/networks/SpanLSTM.py: the network that computes the potentials of `TreeCRF` in examples/tree.py.

Numbers are real numbers.  `torch.nn.LSTM` is modelled by the equations of its documentation, one layer, both directions, starting in the zero state. -/

open Finset

noncomputable section
namespace SpanLSTM

/-- One direction of `torch.nn.LSTM(H, H)`: `weight_ih`, `weight_hh`, `bias_ih`, `bias_hh`; the first index is the gate, in the order `i, f, g, o`. (SpanLSTM.py:32) -/
structure Cell (H : ℕ) where
  wIh : Fin 4 → Fin H → Fin H → ℝ
  wHh : Fin 4 → Fin H → Fin H → ℝ
  bIh : Fin 4 → Fin H → ℝ
  bHh : Fin 4 → Fin H → ℝ

variable {H : ℕ}

/-- What a gate sees: `W_i x + b_i + W_h h + b_h` (documentation of `torch.nn.LSTM`). (SpanLSTM.py:40) -/
def Cell.pre (c : Cell H) (gate : Fin 4) (h x : Fin H → ℝ) (k : Fin H) : ℝ :=
  ∑ j, c.wIh gate k j * x j + c.bIh gate k + (∑ j, c.wHh gate k j * h j + c.bHh gate k)

/-- One step of `torch.nn.LSTM` from the state `(h, c)` on the input `x`. (SpanLSTM.py:40) -/
def Cell.step (c : Cell H) (s : (Fin H → ℝ) × (Fin H → ℝ)) (x : Fin H → ℝ) : (Fin H → ℝ) × (Fin H → ℝ) :=
  let c' : Fin H → ℝ := fun k => TreeLSTM.sigmoid (c.pre 1 s.1 x k) * s.2 k + TreeLSTM.sigmoid (c.pre 0 s.1 x k) * Real.tanh (c.pre 2 s.1 x k)
  (fun k => TreeLSTM.sigmoid (c.pre 3 s.1 x k) * Real.tanh (c' k), c')

/-- The loop over the sequence: the hidden state after every step. (SpanLSTM.py:40) -/
def Cell.outputs (c : Cell H) : (Fin H → ℝ) × (Fin H → ℝ) → List (Fin H → ℝ) → List (Fin H → ℝ)
  | _, [] => []
  | s, x :: xs => (c.step s x).1 :: c.outputs (c.step s x) xs

/-- The parameters (SpanLSTM.py:26-34).  `Res` is the class of SpanLSTM.py:5-18, the same text as NeuralCFG.py:5-18. -/
structure Params (NT V H : ℕ) where
  emb : Fin V → Fin H → ℝ
  forward : Cell H
  backward : Cell H
  res : NeuralCFG.Res (2 * H)
  projWeight : Fin NT → Fin (2 * H) → ℝ
  projBias : Fin NT → ℝ

variable {NT V : ℕ}

/-- `self.emb.weight[1].data.zero_()` (SpanLSTM.py:37): the row 1 of the embedding is set to zero, in the parameter itself. -/
def Params.cleared (θ : Params NT V H) : Params NT V H := { θ with emb := fun v => if (v : ℕ) = 1 then 0 else θ.emb v }

/-- `self.emb(words)` for one word that is below `V` (SpanLSTM.py:40); `forward` checks the bound. -/
def Params.embed (θ : Params NT V H) (w : ℕ) : Fin H → ℝ := if h : w < V then θ.emb ⟨w, h⟩ else 0

/-- The first half of the output of the bidirectional LSTM for row `b`: `f` of SpanLSTM.py:40. -/
def ahead (θ : Params NT V H) (words : T2 ℕ) (b n : ℕ) : Fin H → ℝ :=
  (θ.forward.outputs 0 ((List.range words.d1).map fun i => θ.embed (words.get b i))).getD n 0

/-- The second half: `ba` of SpanLSTM.py:40.  The second direction reads the row, padding included, from its last column to its first; its outputs are
stored at the positions it has just read. -/
def behind (θ : Params NT V H) (words : T2 ℕ) (b n : ℕ) : Fin H → ℝ :=
  (θ.backward.outputs 0 ((List.range words.d1).map fun i => θ.embed (words.get b (words.d1 - 1 - i)))).getD (words.d1 - 1 - n) 0

/-- The table `a` (SpanLSTM.py:41, 43-45). -/
def tableA (θ : Params NT V H) (words : T2 ℕ) (b i j : ℕ) : Fin H → ℝ :=
  if j < words.d1 - 1 then ahead θ words b (j + 1) - ahead θ words b i else 0

/-- The table `b` (SpanLSTM.py:42, 46-48). -/
def tableB (θ : Params NT V H) (words : T2 ℕ) (b i j : ℕ) : Fin H → ℝ :=
  if 1 ≤ i then behind θ words b (i - 1) - behind θ words b j else 0

/-- `torch.cat([a, b], dim=-1)` (SpanLSTM.py:49). -/
def cat (x y : Fin H → ℝ) (k : Fin (2 * H)) : ℝ := if h : (k : ℕ) < H then x ⟨k, h⟩ else y ⟨k - H, by omega⟩

/-- `self.proj` (SpanLSTM.py:34). -/
def Params.proj (θ : Params NT V H) (y : Fin (2 * H) → ℝ) (c : Fin NT) : ℝ := ∑ k, y k * θ.projWeight c k + θ.projBias c

/-- `SpanLSTM.forward(words, lengths)` (SpanLSTM.py:36-50): the parameters afterwards and the table of potentials.  `lengths` is not used.  `weight[1]` needs a second
row, the embedding fails on words that are not below `V`, and the LSTM on sequences without words. -/
def forward (θ : Params NT V H) (words : T2 ℕ) (_lengths : List ℕ) : Except PyErr (Params NT V H × T4 ℝ) :=
  if V ≤ 1 then .error .index
  else if ¬ ∀ b < words.d0, ∀ n < words.d1, words.get b n < V then .error .index
  else if words.d1 = 0 then .error .runtime
  else
    let θ := θ.cleared
    .ok (θ, ⟨words.d0, words.d1, words.d1, NT, fun b i j c =>
      if h : c < NT then θ.proj (θ.res.forward (cat (tableA θ words b i j) (tableB θ words b i j))) ⟨c, h⟩ else 0⟩)

end SpanLSTM
