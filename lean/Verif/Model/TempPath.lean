import Verif.Model.Autoregressive
import Mathlib.Analysis.Calculus.Deriv.Basic

/-! Model of the first result of `greedy_tempmax`: the gradient of the values with respect to the extended beams of all steps.  The tokens that `TempMax` passes to the
network depend on the extended beam, so the gradient of an earlier step goes through the network. -/

noncomputable section
namespace Autoregressive
open Semirings

variable {St : Type}

/-- `TempMax(alpha).sparse_sum` (semirings.py:417-420) as autograd sees it: the gradient of `torch.max` is that of reading the entry `a k b` it has selected. -/
def frozenSR (alpha : ℝ) (a : ℕ → ℕ → ℕ) : BeamSR where
  size := 1
  one _ := 0
  sparseSum C ex :=
    if C = 0 then .error .index
    else .ok (fun k b => ex k b (a k b), fun _ _ => 0, fun k b => .soft (softmax ((List.range C).map fun c => alpha * ex k b c)))

open Classical in
/-- The argument `gumbel` of `_beam_search` is `alpha` (autoregressive.py:168, 221). -/
def tempNoise (alpha : ℝ) (gumbel : ℕ → ℕ → ℕ → ℕ → ℝ) (t : ℕ) : Option (ℕ → ℕ → ℕ → ℝ) := if alpha = 0 then none else some (gumbel t)

/-- The variables before step `t` (autoregressive.py:121-179). -/
def AR.tempBefore (D : AR St) (pick : List ℝ → ℕ) (gumbel : ℕ → ℕ → ℕ → ℕ → ℝ) (alpha : ℝ) (t : ℕ) : Except PyErr (Loop St) :=
  (List.range t).foldlM (fun s t => D.round (tempSR alpha pick) (tempNoise alpha gumbel t) s)
    ⟨fun k _ => (tempSR alpha pick).one k, List.replicate ((tempSR alpha pick).size * D.init.length) (.hard D.startClass), D.expand (tempSR alpha pick).size, []⟩

/-- `ex_beam` of a step (autoregressive.py:156-176). -/
def AR.exBeam (D : AR St) (noise : Option (ℕ → ℕ → ℕ → ℝ)) (s : Loop St) (k b c : ℕ) : ℝ :=
  s.beam k b + (D.roundLogits noise (D.model (s.tokens.map fun x => [x]) s.state).1 k b).getD c 0

/-- `all_beams[t]` (autoregressive.py:176-178). -/
def AR.tempEx (D : AR St) (pick : List ℝ → ℕ) (gumbel : ℕ → ℕ → ℕ → ℕ → ℝ) (alpha : ℝ) (t : ℕ) : ℕ → ℕ → ℕ → ℝ :=
  match D.tempBefore pick gumbel alpha t with
  | .ok s => D.exBeam (tempNoise alpha gumbel t) s
  | .error _ => fun _ _ _ => 0

/-- The index that `torch.max` selects at step `t` (semirings.py:418). -/
def AR.tempPick (D : AR St) (pick : List ℝ → ℕ) (gumbel : ℕ → ℕ → ℕ → ℕ → ℝ) (alpha : ℝ) (t k b : ℕ) : ℕ :=
  pick ((List.range D.nClasses).map (D.tempEx pick gumbel alpha t k b))

/-- `obj` (autoregressive.py:184-185) as a function of `ex_beam` of step `t` (autoregressive.py:177-179, then 155-179 for the later steps); `s` holds the variables before the step,
`a` the selected indices. -/
def AR.tempRest (D : AR St) (alpha : ℝ) (noise : ℕ → Option (ℕ → ℕ → ℕ → ℝ)) (a : ℕ → ℕ → ℕ → ℕ) (t : ℕ) (s : Loop St) (ex : ℕ → ℕ → ℕ → ℝ) : Except PyErr ℝ := do
  let out := D.model (s.tokens.map fun x => [x]) s.state
  let r ← (frozenSR alpha (a t)).sparseSum D.nClasses ex
  let state ← take 1 D.init.length out.2 r.2.1
  let s' ← (List.range' (t + 1) (D.nLength - (t + 1))).foldlM (fun s t => D.round (frozenSR alpha (a t)) (noise t) s)
    ⟨r.1, flatTokens 1 D.init.length r.2.2, state, s.rounds ++ [⟨fun k b c => (D.roundLogits (noise t) out.1 k b).getD c 0, r.2.1, r.2.2⟩]⟩
  pure (((List.range D.init.length).map fun b => s'.beam 0 b).sum)

/-- `obj` as a function of `all_beams[t]` (autoregressive.py:184-188); 0 if the search raises. -/
def AR.tempObj (D : AR St) (pick : List ℝ → ℕ) (gumbel : ℕ → ℕ → ℕ → ℕ → ℝ) (alpha : ℝ) (t : ℕ) (ex : ℕ → ℕ → ℕ → ℝ) : ℝ :=
  match D.tempBefore pick gumbel alpha t with
  | .ok s => match D.tempRest alpha (tempNoise alpha gumbel) (D.tempPick pick gumbel alpha) t s ex with
    | .ok v => v
    | .error _ => 0
  | .error _ => 0

/-- `torch.autograd.grad(obj, all_beams)` (autoregressive.py:186-191), the first result of `greedy_tempmax(alpha)` (autoregressive.py:205-222): batch row `b`, step `t`, class `c`.
Simplification: the derivative of `obj`, which is what autograd computes if the network is differentiable where it is evaluated. -/
def AR.greedyTempmaxPath (D : AR St) (pick : List ℝ → ℕ) (gumbel : ℕ → ℕ → ℕ → ℕ → ℝ) (alpha : ℝ) (b t c : ℕ) : ℝ :=
  deriv (fun x => D.tempObj pick gumbel alpha t fun k' b' c' => if k' = 0 ∧ b' = b ∧ c' = c then x else D.tempEx pick gumbel alpha t k' b' c')
    (D.tempEx pick gumbel alpha t 0 b c)

end Autoregressive
