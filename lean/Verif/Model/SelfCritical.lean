import Mathlib.Data.Real.Basic
import Verif.Model.Semiring

/-! Model of the policy-gradient objective of the examples: examples/rl.py (`SelfCritical.forward`) and examples/tree.py:38-48, 105-112, 129-130.

The batch dimension of a tensor of structures is a list of rows; a row is read by index.  `.cpu()`, `.cuda()` and `.detach()` do nothing. -/

noncomputable section
namespace SelfCritical

/-- One row of a tensor of structures. (rl.py:12-17) -/
abbrev Row := ℕ → ℕ → ℕ → ℝ

/-- The rows of an event with batch size `B` (indices `b, i, j, a`). (rl.py:12-17) -/
def rows (B : ℕ) (e : List ℕ → ℝ) : List Row := (List.range B).map fun b i j a => e [b, i, j, a]

/-- `Tensor.mean` over one dimension. (rl.py:19) -/
def meanOf (l : List ℝ) : ℝ := l.sum / l.length

/-- What `forward` returns. (rl.py:23) -/
structure Out where
  structs : List (List Row)
  rewards : List (List ℝ)
  total : List ℝ
  maxScore : List ℝ

/-- `samples[k]` (rl.py:12). -/
def get (samples : List (List Row)) (k : ℕ) : Except PyErr (List Row) :=
  match samples[k]? with
  | some s => .ok s
  | none => .error .index

/-- `SelfCritical.forward(dist, K)` (rl.py:8-23).  `samples` is `dist.sample((K,))`, `argmax` is `dist.argmax`; `from_parts` of a `TreeCRF` returns its
argument (helpers.py:121-124). -/
def forward (rewardFn : List Row → ℕ → Except PyErr (List (List ℝ))) (samples : List (List Row)) (argmax : List Row) (K : ℕ) : Except PyErr Out := do
  -- lines 10-13
  let trees ← (List.range K).mapM (get samples)
  -- line 14: `torch.stack` of an empty list
  if trees.isEmpty then .error .runtime else
  -- lines 15-18
  let sampleScore ← rewardFn (trees ++ [argmax]).flatten (K + 1)
  -- line 20
  match sampleScore.getLast? with
  | none => .error .index
  | some maxScore =>
    .ok {
      structs := trees
      -- line 21
      rewards := sampleScore.dropLast.map fun s => List.zipWith (· - ·) s maxScore
      -- line 19
      total := (List.range maxScore.length).map fun b => meanOf (sampleScore.dropLast.map (·.getD b 0))
      maxScore }

/-- `obj = rewards.mul(dist.log_prob(structs)).mean(-1).mean(-1)` (tree.py:129-130); `logProb b value` is row `b` of `dist.log_prob(value)`. -/
def objective (logProb : ℕ → Row → Except PyErr ℝ) (rewards : List (List ℝ)) (structs : List (List Row)) : Except PyErr ℝ := do
  let r ← structs.mapM fun s => (List.range s.length).mapM fun b => logProb b (s.getD b 0)
  .ok (meanOf (List.zipWith (fun rw lp => meanOf (List.zipWith (· * ·) rw lp)) rewards r))

/-- `expand_spans(spans, words, K, V)` (tree.py:38-48) for spans of `NT` labels.  The view of line 42 needs `NT = 1` and `K * batch` rows; `one_hot` needs word ids
below `V`.  Line 40 clears the diagonal; line 43 fills a copy and changes nothing. -/
def expandSpans (NT N : ℕ) (spans : List Row) (words : List (List ℕ)) (K V : ℕ) : Except PyErr (List Row) :=
  if NT ≠ 1 ∨ spans.length ≠ K * words.length then .error .runtime
  else if ¬ ∀ w ∈ words, ∀ v ∈ w, v < V then .error .runtime
  else .ok ((List.range K).flatMap fun k => (List.range words.length).map fun b i j c =>
    if ¬ (i < N ∧ j < N) then 0
    else if c = 0 then if i = j then 0 else spans.getD (k * words.length + b) 0 i j 0
    else if i = j ∧ (words.getD b []).getD i 0 + 1 = c then 1 else 0)

/-- `tree_reward(spans, K)` (tree.py:105-112): `lstm` stands for `spans_to_dgl` followed by `tree_lstm`; it is given every expanded row and its length. -/
def treeReward (NT N : ℕ) (words : List (List ℕ)) (lengths label : List ℕ) (V : ℕ) (lstm : List Row → List ℕ → Except PyErr (List (ℕ → ℝ)))
    (spans : List Row) (K : ℕ) : Except PyErr (List (List ℝ)) := do
  let newSpans ← expandSpans NT N spans words K V
  -- lines 107-110: `torch.cat([lengths for _ in range(K)])`
  let ret ← lstm newSpans ((List.range K).flatMap fun _ => lengths)
  -- lines 111-112
  if ret.length ≠ K * words.length then .error .runtime
  else .ok ((List.range K).map fun k => (List.range words.length).map fun b => - ret.getD (k * words.length + b) 0 (label.getD b 0))

end SelfCritical
