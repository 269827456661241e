import Verif.Model.CKYCRF
import Verif.Model.SelfCritical
import Verif.Model.SpanLSTM
import Verif.Model.TreeLSTM

/-! Model of `valid_sup` of examples/tree.py: the accuracy of the two networks on the validation data.

`.cuda()`, `.cpu()` and `.detach()` do nothing. -/

noncomputable section
namespace TreeEval

/-- One batch of the iterator: `ex.word` (padded words and lengths) and `ex.label`. (tree.py:55-58) -/
structure Batch where
  words : T2 ℕ
  lengths : List ℕ
  label : List ℕ

/-- (a default element, not read) -/
instance : Inhabited Batch := ⟨⟨⟨0, 0, fun _ _ => 0⟩, [], []⟩⟩

/-- The rows of the table of words. (tree.py:56) -/
def Batch.rows (ex : Batch) : List (List ℕ) := (List.range ex.words.d0).map fun b => (List.range ex.words.d1).map fun i => ex.words.get b i

variable {V H : ℕ}

/-- The body of the loop (tree.py:55-74) for `NT = 1`: the parameters of the span network afterwards, the number of correct labels and the number of labels.  `pick` is the choice of
`torch.max` inside `argmax`, `order` the sort by width inside `spans_to_dgl`, `top` the index that `.max(-1)` returns.  `label == am` compares entry by entry, and fails
if the numbers of entries differ (simplified: a tensor with one entry would be broadcast). -/
def evalBatch (span : SpanLSTM.Params 1 V H) (θ : TreeLSTM.Params) (pick : List (Autograd.Grad (List ℕ)) → Autograd.Grad (List ℕ))
    (order : List CKY.Cell4 → List CKY.Cell4) (top : List ℝ → ℕ) (ex : Batch) : Except PyErr (SpanLSTM.Params 1 V H × ℕ × ℕ) := do
  -- lines 68-71; `from_parts` of a `TreeCRF` returns its argument (helpers.py:121-124)
  let (span', phi) ← SpanLSTM.forward span ex.words ex.lengths
  let argmax ← Dist.argmax CKYCRF.algo phi (some ex.lengths) pick
  -- lines 61-65
  let newSpans ← SelfCritical.expandSpans 1 ex.words.d1 (SelfCritical.rows ex.words.d0 argmax) ex.rows 1 V
  let outs ← TreeLSTM.lstm θ ex.words.d1 (1 + V) order newSpans ex.lengths
  -- `max` over a dimension of size 0
  if θ.outSize = 0 then .error .index
  else
    let am := outs.map fun v => top ((List.range θ.outSize).map v)
    if ex.label.length ≠ am.length then .error .runtime
    else .ok (span', (List.zipWith (fun l a => if l = a then 1 else 0) ex.label am).sum, ex.label.length)

/-- The loop over the batches with the two counters; `correct = none` is the integer 0 of line 53, a number is the tensor it becomes with the first addition.  The loop
ends after the batch with number 25. -/
def loop (θ : TreeLSTM.Params) (pick : List (Autograd.Grad (List ℕ)) → Autograd.Grad (List ℕ)) (order : List CKY.Cell4 → List CKY.Cell4) (top : List ℝ → ℕ) :
    SpanLSTM.Params 1 V H → ℕ → ℕ → Option ℕ → List Batch → Except PyErr (ℕ × Option ℕ)
  | _, _, total, correct, [] => .ok (total, correct)
  | span, i, total, correct, ex :: exs => do
    let (span', score, tota) ← evalBatch span θ pick order top ex
    let total := total + tota
    let correct := some (correct.getD 0 + score)
    if i = 25 then .ok (total, correct)
    else loop θ pick order top span' (i + 1) total correct exs

/-- `valid_sup(valid_iter, model, tree_lstm, V)` (tree.py:51-79).  Without batches `correct` is an integer, which has no method `item`. -/
def validSup (span : SpanLSTM.Params 1 V H) (θ : TreeLSTM.Params) (pick : List (Autograd.Grad (List ℕ)) → Autograd.Grad (List ℕ))
    (order : List CKY.Cell4 → List CKY.Cell4) (top : List ℝ → ℕ) (batches : List Batch) : Except PyErr ℝ := do
  let (total, correct) ← loop θ pick order top span 0 0 none batches
  match correct with
  | none => .error .attribute
  | some c => if total = 0 then .error .value else .ok (c / total)

end TreeEval
