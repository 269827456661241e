import Verif.Model.Semirings

/-! Model of torch_struct/autoregressive.py and of the `sparse_sum` methods of the semirings it uses (semirings.py:171-174, 215-225, 406-422). -/

noncomputable section
namespace Autoregressive
open Semirings

/-- What is fed to the network at one position: a class, or (after the first step of `greedy_tempmax`) a vector of weights. (autoregressive.py:156, semirings.py:419-420) -/
inductive Tok where
  | hard (c : ℕ)
  | soft (w : List ℝ)

/-- `Autoregressive(model, initial_state, n_classes, n_length, normalize, start_class)` (autoregressive.py:49-68).  `St` holds one row of all the tensors
of the state tuple; `init` has one entry per batch row.  `model` is the user's network: it maps `batch x N` tokens and `batch` states to
`batch x N x C` logits and `batch` states.  `end_class` is ignored by the code. -/
structure AR (St : Type) where
  model : List (List Tok) → List St → List (List (List ℝ)) × List St
  init : List St
  nClasses : ℕ
  nLength : ℕ
  normalize : Bool
  startClass : ℕ

variable {St : Type}

/-- `logits.log_softmax(-1)`, one row. (autoregressive.py:113, 173) -/
def logSoftmax (xs : List ℝ) : List ℝ := xs.map fun x => x - lse xs

/-- Lines 112-115 and 172-173 of autoregressive.py. -/
def AR.norm (D : AR St) (xs : List ℝ) : List ℝ := if D.normalize then logSoftmax xs else xs

/-- `unwrap(i.unsqueeze(0).expand((n,) + i.shape))` (autoregressive.py:100-102, 148-150, 270-275): the states of the batch, `n` times. -/
def AR.expand (D : AR St) (n : ℕ) : List St := (List.replicate n D.init).flatten

/-- `wrap(xs, n)` (autoregressive.py:27-28): `xs` in `n` parts of equal size. -/
def wrap {α : Type} [Inhabited α] (xs : List α) (n : ℕ) : List (List α) :=
  (List.range n).map fun k => (List.range (xs.length / n)).map fun b => xs.getD (k * (xs.length / n) + b) default

/-- The assertion on the shape of the logits (autoregressive.py:105-110, 157-162). -/
def HasShape (logits : List (List (List ℝ))) (b n c : ℕ) : Prop :=
  logits.length = b ∧ ∀ row ∈ logits, row.length = n ∧ ∀ x ∈ row, x.length = c

/-- The argument of `log_prob(value, sparse=True)`: classes, of shape `sample x batch x len`.  Simplification: they are natural numbers. (autoregressive.py:70-88) -/
structure Classes where
  sample : ℕ
  batch : ℕ
  len : ℕ
  get : ℕ → ℕ → ℕ → ℕ

/-- The argument of `log_prob(value)`: shape `sample x batch x len x classes`. (autoregressive.py:70-86) -/
structure OneHot where
  sample : ℕ
  batch : ℕ
  len : ℕ
  classes : ℕ
  get : ℕ → ℕ → ℕ → ℕ → ℕ

/-- `torch.cat([start, value], dim=2)` and `unwrap` (autoregressive.py:90-99). -/
def inputRows (start : ℕ) (v : Classes) : List (List ℕ) :=
  (List.range v.sample).flatMap fun s => (List.range v.batch).map fun b => start :: (List.range v.len).map fun t => v.get s b t

/-- `log_probs[:, :-1].gather(2, value[:, 1:].unsqueeze(-1)).sum(-1).sum(-1)` (autoregressive.py:117), one row. -/
def rowScore (logProbs : List (List ℝ)) (value : List ℕ) : ℝ :=
  (List.zipWith (fun (xs : List ℝ) y => xs.getD y 0) logProbs.dropLast value.tail).sum

open Classical in
/-- `log_prob(value, sparse=True)` (autoregressive.py:70-118); `gather` raises for a class that is out of range, and
`wrap` (`view(0, -1)`) for an empty stack of samples. -/
def AR.logProbSparse (D : AR St) (v : Classes) : Except PyErr (List (List ℝ)) :=
  let value := inputRows D.startClass v
  let logits := (D.model (value.map fun row => row.map .hard) (D.expand v.sample)).1
  if ¬ HasShape logits (v.sample * v.batch) (v.len + 1) D.nClasses then .error .assertion
  else if ∃ row ∈ value, ∃ y ∈ row.tail, D.nClasses ≤ y then .error .runtime
  else if v.sample = 0 then .error .runtime
  else .ok (wrap (List.zipWith (fun lg row => rowScore (lg.map D.norm) row) logits value) v.sample)

/-- `(value * arange(n_classes)).sum(-1)` (autoregressive.py:82-86). -/
def OneHot.toClasses (v : OneHot) : Classes :=
  ⟨v.sample, v.batch, v.len, fun s b t => ((List.range v.classes).map fun c => v.get s b t c * c).sum⟩

/-- `log_prob(value)` (autoregressive.py:70-118). -/
def AR.logProb (D : AR St) (v : OneHot) : Except PyErr (List (List ℝ)) := D.logProbSparse v.toClasses

/-! ### Beam search -/

/-- What `_beam_search` uses of a semiring: `size()`, `one`, and `sparse_sum`, which maps `ex_beam` (shape `size x batch x C`) to the new beam, the
positions and the tokens (shape `size x batch`). (autoregressive.py:120-178) -/
structure BeamSR where
  size : ℕ
  one : ℕ → ℝ
  sparseSum : (C : ℕ) → (ℕ → ℕ → ℕ → ℝ) → Except PyErr ((ℕ → ℕ → ℝ) × (ℕ → ℕ → ℕ) × (ℕ → ℕ → Tok))

/-- What `torch.max(xs, -1)` guarantees about the index it returns. (semirings.py:173) -/
def IsArgmaxIdx (pick : List ℝ → ℕ) : Prop := ∀ xs : List ℝ, xs ≠ [] → pick xs < xs.length ∧ ∀ x ∈ xs, x ≤ xs.getD (pick xs) 0

/-- `MaxSemiring.sparse_sum` (semirings.py:171-174). -/
def maxSR (pick : List ℝ → ℕ) : BeamSR where
  size := 1
  one _ := 0
  sparseSum C ex :=
    if C = 0 then .error .index
    else
      let a := fun k b => pick ((List.range C).map fun c => ex k b c)
      .ok (fun k b => ex k b (a k b), fun _ _ => 0, fun k b => .hard (a k b))

/-- What `torch.topk(xs, k)` guarantees about the indices it returns: `k` different ones, by non-increasing values, and no entry that is left out
is larger than one that is returned. (semirings.py:220) -/
structure IsTopkIdx (k : ℕ) (sel : List ℝ → List ℕ) : Prop where
  length : ∀ xs : List ℝ, k ≤ xs.length → (sel xs).length = k
  lt : ∀ xs : List ℝ, k ≤ xs.length → ∀ i ∈ sel xs, i < xs.length
  nodup : ∀ xs : List ℝ, k ≤ xs.length → (sel xs).Nodup
  sorted : ∀ xs : List ℝ, k ≤ xs.length → (sel xs).Pairwise fun i j => xs.getD j 0 ≤ xs.getD i 0
  best : ∀ xs : List ℝ, k ≤ xs.length → ∀ i ∈ sel xs, ∀ j < xs.length, j ∉ sel xs → xs.getD j 0 ≤ xs.getD i 0

/-- Entry `b` of `xs.permute(1, ..., 0).view(..., -1)` (semirings.py:218-219): entry `(k, c)` is at index `c * K + k`. -/
def flatRow (K C : ℕ) (ex : ℕ → ℕ → ℕ → ℝ) (b : ℕ) : List ℝ := (List.range (C * K)).map fun i => ex (i % K) b (i / K)

/-- `KMaxSemiring(K)` (semirings.py:182-187, 215-225). -/
def kmaxSR (K : ℕ) (sel : List ℝ → List ℕ) : BeamSR where
  size := K
  one k := if k = 0 then 0 else negInf
  sparseSum C ex :=
    if C * K < K then .error .runtime
    else
      let j := fun k b => (sel (flatRow K C ex b)).getD k 0
      .ok (fun k b => (flatRow K C ex b).getD (j k b) 0, fun k b => j k b % K, fun k b => .hard (j k b / K))

/-- `torch.softmax(alpha * xs, -1)`. (semirings.py:419) -/
def softmax (xs : List ℝ) : List ℝ := xs.map fun x => Real.exp (x - lse xs)

/-- `TempMax(alpha)` (semirings.py:406-422). -/
def tempSR (alpha : ℝ) (pick : List ℝ → ℕ) : BeamSR where
  size := 1
  one _ := 0
  sparseSum C ex :=
    if C = 0 then .error .index
    else .ok (fun k b => ex k b (pick ((List.range C).map fun c => ex k b c)), fun _ _ => 0,
      fun k b => .soft (softmax ((List.range C).map fun c => alpha * ex k b c)))

/-- One round of the loop: the logits, positions and tokens, by beam slot and batch row. (autoregressive.py:155-179) -/
structure Round where
  logits : ℕ → ℕ → ℕ → ℝ
  pos : ℕ → ℕ → ℕ
  tok : ℕ → ℕ → Tok

/-- The variables of the loop (autoregressive.py:121-154); the tokens and the states are flattened, slot by slot. -/
structure Loop (St : Type) where
  beam : ℕ → ℕ → ℝ
  tokens : List Tok
  state : List St
  rounds : List Round

/-- `take(state, indices)` (autoregressive.py:128-143). -/
def take (K B : ℕ) (state : List St) (pos : ℕ → ℕ → ℕ) : Except PyErr (List St) :=
  ((List.range K).flatMap fun k => (List.range B).map fun b => pos k b * B + b).mapM fun i =>
    match state[i]? with
    | some s => .ok s
    | none => .error .index

/-- `view(-1)` of the new tokens (autoregressive.py:31-32, 156). -/
def flatTokens (K B : ℕ) (tok : ℕ → ℕ → Tok) : List Tok := (List.range K).flatMap fun k => (List.range B).map fun b => tok k b

/-- The logits of a round (autoregressive.py:156-173), after `wrap`, the noise (`noise k b c`, if there is any) and `log_softmax`. -/
def AR.roundLogits (D : AR St) (noise : Option (ℕ → ℕ → ℕ → ℝ)) (out : List (List (List ℝ))) (k b : ℕ) : List ℝ :=
  let lg := (out.getD (k * D.init.length + b) []).getD 0 []
  D.norm (match noise with
    | none => lg
    | some z => (List.range D.nClasses).map fun c => lg.getD c 0 + z k b c)

open Classical in
/-- Lines 156-179 of autoregressive.py. -/
def AR.round (D : AR St) (S : BeamSR) (noise : Option (ℕ → ℕ → ℕ → ℝ)) (s : Loop St) : Except PyErr (Loop St) :=
  let B := D.init.length
  let out := D.model (s.tokens.map fun x => [x]) s.state
  if ¬ HasShape out.1 (S.size * B) 1 D.nClasses then .error .assertion
  else if out.2.length ≠ S.size * B then .error .assertion
  else do
    let logits := fun k b c => (D.roundLogits noise out.1 k b).getD c 0
    let r ← S.sparseSum D.nClasses fun k b c => s.beam k b + logits k b c
    let state ← take S.size B out.2 r.2.1
    pure ⟨r.1, flatTokens S.size B r.2.2, state, s.rounds ++ [⟨logits, r.2.1, r.2.2⟩]⟩

/-- Lines 120-179 of autoregressive.py; `noise t` is the Gumbel noise of step `t`.  `one.view(-1, 1)` raises for size 0, and without steps
`torch.autograd.grad` and `torch.stack` do. -/
def AR.search (D : AR St) (S : BeamSR) (noise : ℕ → Option (ℕ → ℕ → ℕ → ℝ)) : Except PyErr (Loop St) :=
  if S.size = 0 ∨ D.nLength = 0 then .error .runtime
  else (List.range D.nLength).foldlM (fun s t => D.round S (noise t) s)
    ⟨fun k _ => S.one k, List.replicate (S.size * D.init.length) (.hard D.startClass), D.expand S.size, []⟩

open Classical in
/-- The gradient of `ex_beam` from the gradient `g` of the new beam: `max` and `topk` send it to the entry they selected. (autoregressive.py:184-190) -/
def exGrad (K : ℕ) (r : Round) (g : ℕ → ℕ → ℕ) (k b c : ℕ) : ℕ :=
  ((List.range K).map fun k' => if r.pos k' b = k ∧ r.tok k' b = .hard c then g k' b else 0).sum

/-- The backward pass (autoregressive.py:181-190): the gradient of the beam before the rounds, and the gradients of `ex_beam` in all rounds.
`ex_beam = beam.unsqueeze(-1) + logits` sends the sum over the classes to the beam; the tokens and positions are integers and send nothing. -/
def backward (K C : ℕ) (rounds : List Round) (g : ℕ → ℕ → ℕ) : (ℕ → ℕ → ℕ) × List (ℕ → ℕ → ℕ → ℕ) :=
  rounds.foldr (fun r acc => (fun k b => ((List.range C).map fun c => exGrad K r acc.1 k b c).sum, exGrad K r acc.1 :: acc.2)) (g, [])

/-- `torch.stack(all_m)` (autoregressive.py:181-191): slot `k`, batch row `b`, step `t`, class `c`. -/
def paths (K C : ℕ) (rounds : List Round) (k b t c : ℕ) : ℕ :=
  ((List.range K).map fun k' => ((backward K C rounds fun k'' _ => if k'' = k then 1 else 0).2.getD t fun _ _ _ => 0) k' b c).sum

/-- No noise (`gumbel=False`). (autoregressive.py:120, 168) -/
def quiet : ℕ → Option (ℕ → ℕ → ℕ → ℝ) := fun _ => none

/-- The three results of `greedy_max()` (autoregressive.py:193-203): the path, its value and the logits, by batch row. -/
def AR.greedyMax (D : AR St) (pick : List ℝ → ℕ) : Except PyErr ((ℕ → ℕ → ℕ → ℕ) × (ℕ → ℝ) × (ℕ → ℕ → ℕ → ℝ)) :=
  (D.search (maxSR pick) quiet).map fun s =>
    (paths 1 D.nClasses s.rounds 0, s.beam 0, fun b t c => (s.rounds.map fun r => r.logits 0 b c).getD t 0)

/-- `beam_topk(K)` (autoregressive.py:224-235) and `_beam_max(K)` (237-238): the paths and their values, by slot and batch row. -/
def AR.beamTopk (D : AR St) (K : ℕ) (sel : List ℝ → List ℕ) : Except PyErr ((ℕ → ℕ → ℕ → ℕ → ℕ) × (ℕ → ℕ → ℝ)) :=
  (D.search (kmaxSR K sel) quiet).map fun s => (paths K D.nClasses s.rounds, s.beam)

/-- `sample_without_replacement((K,))` (autoregressive.py:240-257): the paths; also the values, which the code drops. -/
def AR.sampleWithoutReplacement (D : AR St) (K : ℕ) (sel : List ℝ → List ℕ) (gumbel : ℕ → ℕ → ℕ → ℕ → ℝ) :
    Except PyErr ((ℕ → ℕ → ℕ → ℕ → ℕ) × (ℕ → ℕ → ℝ)) :=
  (D.search (kmaxSR K sel) fun t => some (gumbel t)).map fun s => (paths K D.nClasses s.rounds, s.beam)

open Classical in
/-- The second and third result of `greedy_tempmax(alpha)` (autoregressive.py:205-222).  `alpha` is also passed as the argument `gumbel`, which is
true unless `alpha = 0`.  The first result (a gradient through the network) is not modelled. -/
def AR.greedyTempmax (D : AR St) (pick : List ℝ → ℕ) (gumbel : ℕ → ℕ → ℕ → ℕ → ℝ) (alpha : ℝ) :
    Except PyErr ((ℕ → ℝ) × (ℕ → ℕ → ℕ → ℝ)) :=
  (D.search (tempSR alpha pick) fun t => if alpha = 0 then none else some (gumbel t)).map fun s =>
    (s.beam 0, fun b t c => (s.rounds.map fun r => r.logits 0 b c).getD t 0)

/-! ### Sampling -/

/-- The loop of `sample` (autoregressive.py:269-286): the tokens and states of all rows, the logits given to `Categorical` and the tokens, by step.
`draw t r` is the class drawn at step `t` for row `r`. -/
def AR.sampleLoop (D : AR St) (n : ℕ) (draw : ℕ → ℕ → ℕ) : List (List (List ℝ)) × List (List ℕ) :=
  let R := n * D.init.length
  let s := (List.range D.nLength).foldl (fun (s : (List ℕ × List St) × List (List (List ℝ)) × List (List ℕ)) t =>
      let out := D.model (s.1.1.map fun x => [.hard x]) s.1.2
      let logits := out.1.map fun row => row.getD 0 []
      let tokens := (List.range R).map (draw t)
      ((tokens, out.2), s.2.1 ++ [logits], s.2.2 ++ [tokens]))
    ((List.replicate R D.startClass, D.expand n), [], [])
  s.2

/-- `sample((n,))` (autoregressive.py:259-288): `one_hot(wrap(stack(all_tokens, dim=1), n))`, by sample, batch row, step and class.
`stack` raises without steps, `wrap` without samples.  Simplification: the classes drawn are below `n_classes` (when the network returns logits of another
width, `one_hot` raises on a larger class). -/
def AR.sample (D : AR St) (n : ℕ) (draw : ℕ → ℕ → ℕ) : Except PyErr (ℕ → ℕ → ℕ → ℕ → ℕ) :=
  if D.nLength = 0 ∨ n = 0 then .error .runtime
  else
    let all := (D.sampleLoop n draw).2
    .ok fun s b t c => if (all.getD t []).getD (s * D.init.length + b) 0 = c then 1 else 0

end Autoregressive
