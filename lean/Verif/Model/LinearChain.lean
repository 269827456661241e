import Verif.Model.Helpers

/-! Model of torch_struct/linearchain.py (class `LinearChain`). -/

namespace LinearChain
open Struct
variable {α : Type}

/-- `_check_potentials` (linearchain.py:30-42), without the conversion to the semiring.  `edge` has shape
`batch x N-1 x C x C2`; `max(lengths)` of an empty list raises `ValueError`. -/
def checkPotentials {P : Type} (edge : T4 P) (lengths : Option (List ℕ)) : Except PyErr (List ℕ) := do
  let N := edge.d1 + 1
  let lens ← match lengths with
    | none => .ok (List.replicate edge.d0 N)
    | some ls => match ls.max? with
      | none => .error .value
      | some m =>
        if m ≤ N then
          if m = N then .ok ls else .error .assertion
        else .error .assertion
  if edge.d2 = edge.d3 then .ok lens else .error .assertion

/-- Lines 53-58: the chart, filled with `zero`, with `one` on the diagonal of the last two dimensions. -/
def chartInit (S : SR α) {C : ℕ} (_b _n : ℕ) (i j : Fin C) : α :=
  SR.fill S.zero (decide (i = j)) S.one

/-- Lines 61-70: `torch.zeros` with the first `N - 1` positions overwritten by the potentials. -/
def big (S : SR α) {C : ℕ} (N : ℕ) (lp : ℕ → ℕ → Fin C → Fin C → α) (b n : ℕ) (i j : Fin C) : α :=
  if n < N - 1 then lp b n i j else S.raw0

/-- Lines 73-75: `arange(bin_N) >= lengths - 1`, flattened to `batch * bin_N` rows. -/
def lengthMask (binN : ℕ) (lens : ℕ → ℕ) : ℕ → Bool :=
  flat binN fun b n => decide (n ≥ lens b - 1)

/-- Lines 71-79: the length mask applied to both tables through `.data`, and their semiring sum, written back into the chart.
The result is the chart (unflattened) that enters the scan. -/
def masked (S : SR α) {C : ℕ} (N binN : ℕ) (lens : ℕ → ℕ) (lp : ℕ → ℕ → Fin C → Fin C → α) :
    ℕ → ℕ → Fin C → Fin C → α :=
  let c := flat binN (chartInit (C := C) S)
  let l := flat binN (big S N lp)
  let mask := lengthMask binN lens
  let l' := fun r i j => S.setData (l r i j) (SR.fill (S.detach (l r i j)) (mask r) S.zero)
  let c' := fun r i j => S.setData (c r i j) (SR.fill (S.detach (c r i j)) (!mask r) S.zero)
  unflat binN fun r i j => S.sum [S.detach (c' r i j), l' r i j]

/-- Line 83: `matmul(chart[:, :, 1::2], chart[:, :, 0::2])`. -/
def scanStep (S : SR α) {m : ℕ} (chart : ℕ → Fin m → Fin m → α) : ℕ → Fin m → Fin m → α :=
  fun n => S.matmul (chart (2 * n + 1)) (chart (2 * n))

/-- Lines 82-83: the loop `for n in range(1, log_N + 1)`. -/
def scan (S : SR α) {m : ℕ} : ℕ → (ℕ → Fin m → Fin m → α) → (ℕ → Fin m → Fin m → α)
  | 0, chart => chart
  | k + 1, chart => scan S k (scanStep S chart)

/-- Line 84: `semiring.sum(semiring.sum(chart[:, :, 0]))`. -/
def total (S : SR α) {m : ℕ} (x : Fin m → Fin m → α) : α :=
  S.sum (List.ofFn fun i => S.sum (List.ofFn fun j => x i j))

/-- Lines 52-84 for batch row `b`, once shapes and lengths are checked; `log_N` is a parameter. -/
def core (S : SR α) {C : ℕ} (N logN : ℕ) (lens : ℕ → ℕ) (lp : ℕ → ℕ → Fin C → Fin C → α) (b : ℕ) : α :=
  total S (scan S logN (masked S N (2 ^ logN) lens lp b) 0)

/-- `LinearChain.logpartition` (linearchain.py:44-85): one value per batch row.  `edge` holds the potentials after the elementwise
`semiring.convert` of line 32. -/
def logpartition (S : SR α) (edge : T4 α) (lengths : Option (List ℕ)) : Except PyErr (List α) := do
  let lens ← checkPotentials edge lengths
  let (logN, _) ← binLength edge.d1
  if lens.length = edge.d0 then      -- `(lengths - 1).view(batch, 1)`
    .ok ((List.range edge.d0).map fun b =>
      core S (C := edge.d2) (edge.d1 + 1) logN (fun b => lens.getD b 0) (fun b n i j => edge.get b n i j) b)
  else .error .runtime

end LinearChain
