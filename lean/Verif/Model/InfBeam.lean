import Verif.Model.Autoregressive
import Verif.Model.InfEntropy

/-! Model of `log_prob` and of the beam search of torch_struct/autoregressive.py for networks that forbid classes by logits `-inf`.
Numbers are real numbers, infinities or NaN (`IEEE`), without rounding.  The parts of the code that do not touch the scores are those of
Model/Autoregressive.lean. -/

noncomputable section
namespace InfBeam
open Semirings Autoregressive

/-- `Autoregressive(model, initial_state, n_classes, n_length, normalize, start_class)` (autoregressive.py:49-68) where the logits of the network may be `-inf`. -/
structure ARE (St : Type) where
  model : List (List Tok) → List St → List (List (List EReal)) × List St
  init : List St
  nClasses : ℕ
  nLength : ℕ
  normalize : Bool
  startClass : ℕ

variable {St : Type}

/-- `logits.log_softmax(-1)` (autoregressive.py:113, 173), one row: `x - logsumexp`, where `-inf - -inf` is NaN. -/
def logSoftmax (xs : List EReal) : List IEEE := xs.map fun x => logSmE x (lseE xs)

/-- Lines 112-115 and 172-173 of autoregressive.py. -/
def ARE.norm (D : ARE St) (xs : List EReal) : List IEEE := if D.normalize then logSoftmax xs else xs.map some

/-- `unwrap(i.unsqueeze(0).expand((n,) + i.shape))` (autoregressive.py:100-102, 148-150). -/
def ARE.expand (D : ARE St) (n : ℕ) : List St := (List.replicate n D.init).flatten

/-- The assertion on the shape of the logits (autoregressive.py:105-110, 157-162). -/
def HasShape (logits : List (List (List EReal))) (b n c : ℕ) : Prop :=
  logits.length = b ∧ ∀ row ∈ logits, row.length = n ∧ ∀ x ∈ row, x.length = c

/-- `log_probs[:, :-1].gather(2, value[:, 1:].unsqueeze(-1)).sum(-1).sum(-1)` (autoregressive.py:117), one row. -/
def rowScore (logProbs : List (List IEEE)) (value : List ℕ) : IEEE :=
  ChainBackward.addAll (List.zipWith (fun (xs : List IEEE) y => xs.getD y .nan) logProbs.dropLast value.tail)

open Classical in
/-- `log_prob(value, sparse=True)` (autoregressive.py:70-118). -/
def ARE.logProbSparse (D : ARE St) (v : Classes) : Except PyErr (List (List IEEE)) :=
  let value := inputRows D.startClass v
  let logits := (D.model (value.map fun row => row.map .hard) (D.expand v.sample)).1
  if ¬ HasShape logits (v.sample * v.batch) (v.len + 1) D.nClasses then .error .assertion
  else if ∃ row ∈ value, ∃ y ∈ row.tail, D.nClasses ≤ y then .error .runtime
  else if v.sample = 0 then .error .runtime
  else .ok (wrap (List.zipWith (fun lg row => rowScore (lg.map D.norm) row) logits value) v.sample)

/-! ### Beam search -/

/-- What `_beam_search` uses of a semiring (autoregressive.py:120-178). -/
structure BeamSRE where
  size : ℕ
  one : ℕ → ℝ
  sparseSum : (C : ℕ) → (ℕ → ℕ → ℕ → IEEE) → Except PyErr ((ℕ → ℕ → IEEE) × (ℕ → ℕ → ℕ) × (ℕ → ℕ → Tok))

/-- What `torch.max(xs, -1)` guarantees about the index it returns if no entry is NaN. (semirings.py:173) -/
def IsArgmaxIdxE (pick : List IEEE → ℕ) : Prop :=
  ∀ xs : List EReal, xs ≠ [] → pick (xs.map some) < xs.length ∧ ∀ x ∈ xs, x ≤ xs.getD (pick (xs.map some)) 0

/-- `MaxSemiring.sparse_sum` (semirings.py:171-174). -/
def maxSRE (pick : List IEEE → ℕ) : BeamSRE where
  size := 1
  one _ := 0
  sparseSum C ex :=
    if C = 0 then .error .index
    else
      let a := fun k b => pick ((List.range C).map fun c => ex k b c)
      .ok (fun k b => ex k b (a k b), fun _ _ => 0, fun k b => .hard (a k b))

/-- What `torch.topk(xs, k)` guarantees about the indices it returns if no entry is NaN. (semirings.py:220) -/
structure IsTopkIdxE (k : ℕ) (sel : List IEEE → List ℕ) : Prop where
  length : ∀ xs : List EReal, k ≤ xs.length → (sel (xs.map some)).length = k
  lt : ∀ xs : List EReal, k ≤ xs.length → ∀ i ∈ sel (xs.map some), i < xs.length
  nodup : ∀ xs : List EReal, k ≤ xs.length → (sel (xs.map some)).Nodup
  sorted : ∀ xs : List EReal, k ≤ xs.length → (sel (xs.map some)).Pairwise fun i j => xs.getD j 0 ≤ xs.getD i 0
  best : ∀ xs : List EReal, k ≤ xs.length → ∀ i ∈ sel (xs.map some), ∀ j < xs.length, j ∉ sel (xs.map some) → xs.getD j 0 ≤ xs.getD i 0

/-- Entry `b` of `xs.permute(1, ..., 0).view(..., -1)` (semirings.py:218-219): entry `(k, c)` is at index `c * K + k`. -/
def flatRowE (K C : ℕ) (ex : ℕ → ℕ → ℕ → IEEE) (b : ℕ) : List IEEE := (List.range (C * K)).map fun i => ex (i % K) b (i / K)

/-- `KMaxSemiring(K)` (semirings.py:182-187, 215-225). -/
def kmaxSRE (K : ℕ) (sel : List IEEE → List ℕ) : BeamSRE where
  size := K
  one k := if k = 0 then 0 else negInf
  sparseSum C ex :=
    if C * K < K then .error .runtime
    else
      let j := fun k b => (sel (flatRowE K C ex b)).getD k 0
      .ok (fun k b => (flatRowE K C ex b).getD (j k b) .nan, fun k b => j k b % K, fun k b => .hard (j k b / K))

/-- The variables of the loop (autoregressive.py:121-154).  Of the rounds only the positions and tokens are kept (the field `logits` is 0). -/
structure LoopE (St : Type) where
  beam : ℕ → ℕ → IEEE
  tokens : List Tok
  state : List St
  rounds : List Round

/-- The logits of a round (autoregressive.py:156-173), after `wrap`, the noise (if there is any) and `log_softmax`.  The noise is a real number,
so `-inf` stays `-inf`. -/
def ARE.roundLogits (D : ARE St) (noise : Option (ℕ → ℕ → ℕ → ℝ)) (out : List (List (List EReal))) (k b : ℕ) : List IEEE :=
  let lg := (out.getD (k * D.init.length + b) []).getD 0 []
  D.norm (match noise with
    | none => lg
    | some z => (List.range D.nClasses).map fun c => lg.getD c 0 + ((z k b c : ℝ) : EReal))

open Classical in
/-- Lines 156-179 of autoregressive.py. -/
def ARE.round (D : ARE St) (S : BeamSRE) (noise : Option (ℕ → ℕ → ℕ → ℝ)) (s : LoopE St) : Except PyErr (LoopE St) :=
  let B := D.init.length
  let out := D.model (s.tokens.map fun x => [x]) s.state
  if ¬ HasShape out.1 (S.size * B) 1 D.nClasses then .error .assertion
  else if out.2.length ≠ S.size * B then .error .assertion
  else do
    let logits := fun k b c => (D.roundLogits noise out.1 k b).getD c .nan
    let r ← S.sparseSum D.nClasses fun k b c => IEEE.add (s.beam k b) (logits k b c)
    let state ← take S.size B out.2 r.2.1
    pure ⟨r.1, flatTokens S.size B r.2.2, state, s.rounds ++ [⟨fun _ _ _ => 0, r.2.1, r.2.2⟩]⟩

/-- Lines 120-179 of autoregressive.py; `noise t` is the Gumbel noise of step `t`. -/
def ARE.search (D : ARE St) (S : BeamSRE) (noise : ℕ → Option (ℕ → ℕ → ℕ → ℝ)) : Except PyErr (LoopE St) :=
  if S.size = 0 ∨ D.nLength = 0 then .error .runtime
  else (List.range D.nLength).foldlM (fun s t => D.round S (noise t) s)
    ⟨fun k _ => .ofReal (S.one k), List.replicate (S.size * D.init.length) (.hard D.startClass), D.expand S.size, []⟩

/-- The first two results of `greedy_max()` (autoregressive.py:193-203): the path and its value, by batch row. -/
def ARE.greedyMax (D : ARE St) (pick : List IEEE → ℕ) : Except PyErr ((ℕ → ℕ → ℕ → ℕ) × (ℕ → IEEE)) :=
  (D.search (maxSRE pick) quiet).map fun s => (paths 1 D.nClasses s.rounds 0, s.beam 0)

/-- `beam_topk(K)` (autoregressive.py:224-235) and `_beam_max(K)` (237-238): the paths and their values, by slot and batch row. -/
def ARE.beamTopk (D : ARE St) (K : ℕ) (sel : List IEEE → List ℕ) : Except PyErr ((ℕ → ℕ → ℕ → ℕ → ℕ) × (ℕ → ℕ → IEEE)) :=
  (D.search (kmaxSRE K sel) quiet).map fun s => (paths K D.nClasses s.rounds, s.beam)

/-- `sample_without_replacement((K,))` (autoregressive.py:240-257): the paths. -/
def ARE.sampleWithoutReplacement (D : ARE St) (K : ℕ) (sel : List IEEE → List ℕ) (gumbel : ℕ → ℕ → ℕ → ℕ → ℝ) :
    Except PyErr (ℕ → ℕ → ℕ → ℕ → ℕ) :=
  (D.search (kmaxSRE K sel) fun t => some (gumbel t)).map fun s => paths K D.nClasses s.rounds

/-! ### Sampling -/

/-- The loop of `sample` (autoregressive.py:269-286): the logits given to `Categorical` and the tokens, by step.  `draw t r` is the class drawn at step `t` for row `r`. -/
def ARE.sampleLoop (D : ARE St) (n : ℕ) (draw : ℕ → ℕ → ℕ) : List (List (List EReal)) × List (List ℕ) :=
  let R := n * D.init.length
  let s := (List.range D.nLength).foldl (fun (s : (List ℕ × List St) × List (List (List EReal)) × List (List ℕ)) t =>
      let out := D.model (s.1.1.map fun x => [.hard x]) s.1.2
      let logits := out.1.map fun row => row.getD 0 []
      let tokens := (List.range R).map (draw t)
      ((tokens, out.2), s.2.1 ++ [logits], s.2.2 ++ [tokens]))
    ((List.replicate R D.startClass, D.expand n), [], [])
  s.2

open Classical in
/-- `sample((n,))` (autoregressive.py:259-288), by sample, batch row, step and class.  `stack` raises without steps, `wrap` without samples, and `Categorical`
(autoregressive.py:284) for a row of logits that are all `-inf`, whose softmax is NaN (a ValueError if it validates its arguments, else a RuntimeError).  Simplification: the errors of all steps are checked at the end. -/
def ARE.sample (D : ARE St) (n : ℕ) (draw : ℕ → ℕ → ℕ) : Except PyErr (ℕ → ℕ → ℕ → ℕ → ℕ) :=
  if D.nLength = 0 ∨ n = 0 then .error .runtime
  else if ∃ rows ∈ (D.sampleLoop n draw).1, ∃ xs ∈ rows, ∀ e ∈ xs, e = ⊥ then .error .value
  else
    let all := (D.sampleLoop n draw).2
    .ok fun s b t c => if (all.getD t []).getD (s * D.init.length + b) 0 = c then 1 else 0

end InfBeam
