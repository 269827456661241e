import Verif.Model.CKY

/-! Model of examples/networks/NeuralCFG.py: the network that computes the potentials of `SentCFG`.

Numbers are real numbers; a tensor of fixed shape is a function of its indices. -/

open Finset

noncomputable section
namespace NeuralCFG

/-- `nn.Linear(H, H)`: weight and bias. (NeuralCFG.py:8-13) -/
structure Linear (H : ℕ) where
  weight : Fin H → Fin H → ℝ
  bias : Fin H → ℝ

/-- `Linear.forward`: `y W^T + b`. (NeuralCFG.py:16-18) -/
def Linear.forward {H : ℕ} (l : Linear H) (y : Fin H → ℝ) (i : Fin H) : ℝ := ∑ j, y j * l.weight i j + l.bias i

/-- `torch.relu`. (NeuralCFG.py:17-18) -/
def relu {H : ℕ} (y : Fin H → ℝ) (i : Fin H) : ℝ := max (y i) 0

/-- `Res` (NeuralCFG.py:5-13). -/
structure Res (H : ℕ) where
  u1 : Linear H
  u2 : Linear H
  v1 : Linear H
  v2 : Linear H
  w : Linear H

/-- `Res.forward` (NeuralCFG.py:15-18). -/
def Res.forward {H : ℕ} (r : Res H) (y : Fin H → ℝ) : Fin H → ℝ :=
  let y1 := r.w.forward y
  let y2 := y1 + relu (r.v1.forward (relu (r.u1.forward y1)))
  y2 + relu (r.v2.forward (relu (r.u2.forward y2)))

/-- The parameters (NeuralCFG.py:26-37). -/
structure Params (V T NT H : ℕ) where
  word_emb : Fin V → Fin H → ℝ
  term_emb : Fin T → Fin H → ℝ
  nonterm_emb : Fin NT → Fin H → ℝ
  nonterm_emb_c : Fin (NT + T) → Fin (NT + T) → Fin H → ℝ
  root_emb : Fin NT → Fin H → ℝ
  s_emb : Fin 1 → Fin H → ℝ
  mlp1 : Res H
  mlp2 : Res H

/-- `x.log_softmax(-1)`. (NeuralCFG.py:50, 63, 71) -/
def logSoftmax {n : ℕ} (x : Fin n → ℝ) (i : Fin n) : ℝ := x i - Real.log (∑ j, Real.exp (x j))

variable {V T NT H : ℕ} (θ : Params V T NT H)

/-- `einsum("vh,th->tv", word_emb, mlp1(term_emb))` (NeuralCFG.py:48). -/
def termLogits (t : Fin T) (v : Fin V) : ℝ := ∑ h, θ.word_emb v h * θ.mlp1.forward (θ.term_emb t) h

/-- `einsum("sh,tuh->stu", nonterm_emb, nonterm_emb_c).view(NT, -1)` (NeuralCFG.py:60-61): the flat index is `u (NT + T) + v`. -/
def ruleLogits (s : Fin NT) (k : Fin ((NT + T) * (NT + T))) : ℝ := ∑ h, θ.nonterm_emb s h * θ.nonterm_emb_c k.divNat k.modNat h

/-- `einsum("ah,th->t", s_emb, mlp2(root_emb))` (NeuralCFG.py:69). -/
def rootLogits (t : Fin NT) : ℝ := ∑ a, ∑ h, θ.s_emb a h * θ.mlp2.forward (θ.root_emb t) h

/-- Reading a tensor at a natural number; nobody reads beyond the end. (NeuralCFG.py:56) -/
def at1 {n : ℕ} (x : Fin n → ℝ) (i : ℕ) : ℝ := if h : i < n then x ⟨i, h⟩ else 0

/-- `terms` (NeuralCFG.py:45-56), entry `b n t`: `gather` takes the entry of the word. -/
def terms (input : ℕ → ℕ → ℕ) (b n t : ℕ) : ℝ := at1 (fun t => at1 (logSoftmax (termLogits θ t)) (input b n)) t

/-- `rules` (NeuralCFG.py:58-65), entry `s y z`: `view(1, NT, NT + T, NT + T)` of the flat result. -/
def rules (s y z : ℕ) : ℝ := at1 (fun s => at1 (logSoftmax (ruleLogits θ s)) (y * (NT + T) + z)) s

/-- `roots` (NeuralCFG.py:67-73). -/
def roots (s : ℕ) : ℝ := at1 (logSoftmax (rootLogits θ)) s

/-- `forward` (NeuralCFG.py:42-77) on a batch of `batch` sentences of `N` word numbers.  `gather` (line 55) raises when a word number is not in the vocabulary.  `expand`
repeats the rules and the roots for every row. -/
def forward (batch N : ℕ) (input : ℕ → ℕ → ℕ) : Except PyErr (CKY.Scores ℝ) :=
  if ∀ b ∈ List.range batch, ∀ n ∈ List.range N, input b n < V then
    .ok ⟨batch, N, T, NT, NT + T, terms θ input, fun _ => rules θ, fun _ => roots θ, none⟩
  else .error .runtime

end NeuralCFG
