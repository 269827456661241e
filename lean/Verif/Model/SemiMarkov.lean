import Verif.Model.Distributions
import Verif.Model.LinearChainParts

/-! Model of torch_struct/semimarkov.py (class `SemiMarkov`, used by `SemiMarkovCRF`). -/

noncomputable section
namespace SemiMarkov
open Struct
variable {α : Type}

/-- `_check_potentials` (semimarkov.py:10-19), without the conversion to the semiring.  `edge` has shape `batch x N-1 x K x C x C2`;
`max(lengths)` of an empty list, also the one of lines 14-15 for an empty batch, raises `ValueError`. -/
def checkPotentials {P : Type} (edge : T5 P) (lengths : Option (List ℕ)) : Except PyErr (List ℕ) :=
  let N := edge.d1 + 1
  let lens := LinearChain.lensOr edge.d0 N lengths
  match lens.max? with
  | none => .error .value
  | some m =>
    if m ≤ N then
      if m = N then
        if edge.d3 = edge.d4 then .ok lens else .error .assertion
      else .error .assertion
    else .error .assertion

/-- Lines 32-39: the chart `batch x bin_N x K-1 x K-1 x C x C`, filled with `zero`; `one` where both remaining lengths are 0 and the two
classes are equal. -/
def chartInit (S : SR α) (_b _n k1 k2 c1 c2 : ℕ) : α :=
  SR.fill S.zero (decide (k1 = 0 ∧ k2 = 0 ∧ c1 = c2)) S.one

/-- Lines 42-52: `torch.zeros` with the first `N - 1` positions overwritten by the potentials. -/
def big (S : SR α) (N : ℕ) (lp : ℕ → ℕ → ℕ → ℕ → ℕ → α) (b n k c1 c2 : ℕ) : α :=
  if n < N - 1 then lp b n k c1 c2 else S.raw0

/-- Lines 53-63: the length mask written through `.data` into both tables, and the write of column `k2 = 0` of the chart:
`c[:, :, : K - 1, 0] = sum([c.data[:, :, : K - 1, 0], lp[:, :, 1:K]])`.  (The views `c`, `lp` share memory with `init`, `big`.) -/
def written (S : SR α) (N binN : ℕ) (lens : ℕ → ℕ) (lp : ℕ → ℕ → ℕ → ℕ → ℕ → α) : ℕ → ℕ → ℕ → ℕ → ℕ → ℕ → α :=
  let c := flat binN (chartInit S)
  let l := flat binN (big S N lp)
  let mask := LinearChain.lengthMask binN lens
  let l' := fun r k c1 c2 => S.setData (l r k c1 c2) (SR.fill (S.detach (l r k c1 c2)) (mask r) S.zero)
  let c' := fun r k1 k2 c1 c2 =>
    if k2 = 0 then S.setData (c r k1 k2 c1 c2) (SR.fill (S.detach (c r k1 k2 c1 c2)) (!mask r) S.zero) else c r k1 k2 c1 c2
  unflat binN fun r k1 k2 c1 c2 =>
    if k2 = 0 then S.sum [S.detach (c' r k1 k2 c1 c2), l' r (k1 + 1) c1 c2] else c' r k1 k2 c1 c2

/-- Lines 64-71: for `k` in `1 .. K-2`, the entries `(k - 1, k)` on the diagonal of the classes are set to `one` at the positions
`n < lengths - 1 - (k - 1)`.  The subtraction is on integers, so the test is `n + k < lengths`.
Simplification: line 69 converts the boolean mask to the semiring.  For the semirings with one slot this only adds a dimension; for
`KMaxSemiring` the further slots of the mask become `True` and for `EntropySemiring` the second slot becomes `False`, and in those slots
`one` and `zero` coincide, so filling the whole entry is the same. -/
def decremented (S : SR α) (lens : ℕ → ℕ) (init : ℕ → ℕ → ℕ → ℕ → ℕ → ℕ → α) : ℕ → ℕ → ℕ → ℕ → ℕ → ℕ → α :=
  fun b n k1 k2 c1 c2 => SR.fill (init b n k1 k2 c1 c2) (decide (k1 + 1 = k2 ∧ c1 = c2 ∧ n + k2 < lens b)) S.one

/-- Lines 73-80: `permute(0, 1, 2, 3, 5, 4, 6)` and `view(-1, batch, bin_N, K_1 * C, K_1 * C)`: rows and columns are pairs
(remaining length, class). -/
def chart (S : SR α) (K1 C N binN : ℕ) (lens : ℕ → ℕ) (lp : ℕ → ℕ → ℕ → ℕ → ℕ → α) (b n : ℕ) (i j : Fin (K1 * C)) : α :=
  decremented S lens (written S N binN lens lp) b n i.divNat j.divNat i.modNat j.modNat

/-- Lines 85-86: `semiring.sum(semiring.sum(final[:, :, 0, :, 0, :]))`, where `final` is viewed as `K_1 x C x K_1 x C`. -/
def total (S : SR α) {K1 : ℕ} (C : ℕ) (hK : 0 < K1) (x : Fin (K1 * C) → Fin (K1 * C) → α) : α :=
  let state (c : Fin C) : Fin (K1 * C) := ⟨c, Nat.lt_of_lt_of_le c.2 (Nat.le_mul_of_pos_left C hK)⟩
  S.sum (List.ofFn fun i : Fin C => S.sum (List.ofFn fun j : Fin C => x (state i) (state j)))

/-- Lines 52-86 for batch row `b`, once shapes and lengths are checked; `log_N` is a parameter.  The scan (lines 82-83) is the loop of
`LinearChain`. -/
def core (S : SR α) {K1 : ℕ} (C : ℕ) (hK : 0 < K1) (N logN : ℕ) (lens : ℕ → ℕ) (lp : ℕ → ℕ → ℕ → ℕ → ℕ → α) (b : ℕ) : α :=
  total S C hK (LinearChain.scan S logN (chart S K1 C N (2 ^ logN) lens lp b) 0)

/-- `SemiMarkov.logpartition` (semimarkov.py:21-87): one value per batch row.  `edge` holds the potentials after the elementwise
`semiring.convert` of line 12.  `K = 0` gives a negative dimension in line 33 (`RuntimeError`); with `K = 1` the index of line 38 is out of
range (`IndexError`). -/
def logpartition (S : SR α) (edge : T5 α) (lengths : Option (List ℕ)) : Except PyErr (List α) := do
  let lens ← checkPotentials edge lengths
  let (logN, _) ← binLength edge.d1
  if edge.d2 = 0 then .error .runtime
  else if hK : 0 < edge.d2 - 1 then
    if lens.length = edge.d0 then      -- `(lengths - 1).view(batch, 1)`
      .ok ((List.range edge.d0).map fun b => core S edge.d3 hK (edge.d1 + 1) logN (fun b => lens.getD b 0) edge.get b)
    else .error .runtime
  else .error .index

/-- `SemiMarkovCRF` (distributions.py:344-364): `struct = SemiMarkov`. -/
def algo : Algo where
  T := T5
  run S p lengths := logpartition S p lengths
  map f p := ⟨p.d0, p.d1, p.d2, p.d3, p.d4, fun a b c d e => f (p.get a b c d e)⟩
  index p := ⟨p.d0, p.d1, p.d2, p.d3, p.d4, fun a b c d e => (p.get a b c d e, [a, b, c, d, e])⟩

/-- `SemiMarkovCRF.cross_entropy(other)` and `.kl(other)` (distributions.py:88-115): the potentials are passed as a Python list, and
line 27 of semimarkov.py calls the tensor method `requires_grad_` on it. -/
def crossEntropy (_p _q : T5 ℝ) (_lengths : Option (List ℕ)) : Except PyErr (List ℝ) := .error .attribute

/-- see `crossEntropy`. (distributions.py:103-115) -/
def kl (_p _q : T5 ℝ) (_lengths : Option (List ℕ)) : Except PyErr (List ℝ) := .error .attribute

/-- `SemiMarkovCRF.log_prob(value)` (distributions.py:56-75) for batch row `b` and one event: `score` (helpers.py:31-34) minus the
partition. -/
def logProb (p : T5 ℝ) (lengths : Option (List ℕ)) (b : ℕ) (value : ℕ → ℕ → ℕ → ℕ → ℝ) : Except PyErr ℝ := do
  let z ← Dist.partition algo p lengths
  let idx := (List.range p.d1).flatMap fun n => (List.range p.d2).flatMap fun k => (List.range p.d3).flatMap fun i =>
    (List.range p.d4).map fun j => (n, k, i, j)
  .ok (Struct.score (idx.map fun x => p.get b x.1 x.2.1 x.2.2.1 x.2.2.2) (idx.map fun x => value x.1 x.2.1 x.2.2.1 x.2.2.2) - z.getD b 0)

/-! ### `_dp_standard` -/

/-- The charts of `_dp_standard`: `alpha[b, n, k, c]` and `beta[n][b, c]`. (semimarkov.py:97-101) -/
abbrev Charts (α : Type) := (ℕ → ℕ → ℕ → ℕ → α) × (ℕ → ℕ → ℕ → α)

/-- Lines 95-101 of semimarkov.py. -/
def dpInit (S : SR α) : Charts α :=
  (fun _ _ _ _ => S.zero, fun n _ _ => if n = 0 then SR.fill S.zero true S.one else S.zero)

/-- Lines 110-112: `t = max(n - K, -1)`, `f1 = arange(n - 1, t, -1)`, `f2 = arange(1, len(f1) + 1)`, zipped.  `t` is an integer; the number of
entries of `f1` is `n - 1 - t`. -/
def dpPairs (n K : ℕ) : List (ℕ × ℕ) :=
  let t : ℤ := Max.max ((n : ℤ) - K) (-1)
  (List.range ((n : ℤ) - 1 - t).toNat).map fun i => (n - 1 - i, i + 1)

/-- The body of the loop (lines 104-115). -/
def dpStep (S : SR α) (K C : ℕ) (edge : ℕ → ℕ → ℕ → ℕ → ℕ → α) (st : Charts α) (n : ℕ) : Charts α :=
  let alpha : ℕ → ℕ → ℕ → ℕ → α := fun b m k c =>
    if m = n - 1 then S.dot ((List.range C).map fun c' => st.2 (n - 1) b c') ((List.range C).map fun c' => edge b (n - 1) k c c')
    else st.1 b m k c
  (alpha, fun m b c => if m = n then S.sum ((dpPairs n K).map fun ab => alpha b ab.1 ab.2 c) else st.2 m b c)

/-- Lines 104-115: `for n in range(1, N)`. -/
def dpCharts (S : SR α) (K C N : ℕ) (edge : ℕ → ℕ → ℕ → ℕ → ℕ → α) : Charts α :=
  (List.range (N - 1)).foldl (fun st i => dpStep S K C edge st (i + 1)) (dpInit S)

/-- `SemiMarkov._dp_standard` (semimarkov.py:89-119): the value of each row.  With `K = 1` there is nothing to stack in line 114
(`RuntimeError`), with `K = 0` likewise; line 117 reads `beta[l - 1]`, where `l = 0` is Python's last element.  `torch.stack` over an empty
batch raises.  Simplification: for `lengths` of another size than the batch the code raises `IndexError` when it is longer and otherwise
returns fewer rows, which is what is modelled. -/
def dpStandard (S : SR α) (edge : T5 α) (lengths : Option (List ℕ)) : Except PyErr (List α) := do
  let lens ← checkPotentials edge lengths
  let N := edge.d1 + 1
  if 1 < N ∧ edge.d2 ≤ 1 then .error .runtime
  else if edge.d0 < lens.length then .error .index
  else if lens = [] then .error .runtime
  else
    let beta := (dpCharts S edge.d2 edge.d3 N edge.get).2
    .ok ((List.range lens.length).map fun i =>
      let l := lens.getD i 0
      S.sum ((List.range edge.d3).map fun c => beta (if l = 0 then N - 1 else l - 1) i c))

/-! ### Event conversion and `hsmm` -/

/-- The body of the inner loop of `SemiMarkov.to_parts` (semimarkov.py:140-152): the state is `(labels, last, c)`.  Entries of the sequence are
`none` for -1 and `some c` for a class; -1 in the first position fails the assertion.  The write raises `IndexError` when the gap is not smaller
than `K` or a class not smaller than `C`. -/
def partStep (s : T2 (Option ℕ)) (C K b : ℕ) (st : (ℕ → ℕ → ℕ → ℕ → ℕ → ℕ) × ℕ × ℕ) (n : ℕ) :
    Except PyErr ((ℕ → ℕ → ℕ → ℕ → ℕ → ℕ) × ℕ × ℕ) :=
  match s.get b n with
  | none => if n = 0 then .error .assertion else .ok st
  | some newC =>
    if n = 0 then .ok (st.1, n, newC)
    else if n - st.2.1 < K ∧ newC < C ∧ st.2.2 < C then
      .ok (fun b' m k c1 c2 => if b' = b ∧ m = st.2.1 ∧ k = n - st.2.1 ∧ c1 = newC ∧ c2 = st.2.2 then 1
        else st.1 b' m k c1 c2, n, newC)
    else .error .index

/-- The body of the outer loop of `SemiMarkov.to_parts` (semimarkov.py:137-152). -/
def rowStep (s : T2 (Option ℕ)) (C K : ℕ) (labels : ℕ → ℕ → ℕ → ℕ → ℕ → ℕ) (b : ℕ) : Except PyErr (ℕ → ℕ → ℕ → ℕ → ℕ → ℕ) := do
  let st ← (List.range s.d1).foldlM (partStep s C K b) (labels, 0, 0)
  .ok st.1

/-- `SemiMarkov.to_parts` (semimarkov.py:121-154).  `lengths` is not used.  Returns the event as a table.
Simplification: entries other than -1 and classes (other negative numbers) do not occur. -/
def toParts (sequence : T2 (Option ℕ)) (C K : ℕ) : Except PyErr (T5 ℕ) :=
  if sequence.d1 = 0 then .error .runtime
  else do
    let labels ← (List.range sequence.d0).foldlM (rowStep sequence C K) (fun _ _ _ _ _ => 0)
    .ok ⟨sequence.d0, sequence.d1 - 1, K, C, C, labels⟩

/-- `edge.nonzero()`: the indices of the non-zero entries, in row-major order. (semimarkov.py:172) -/
def nonzero (edge : T5 ℕ) : List (ℕ × ℕ × ℕ × ℕ × ℕ) :=
  (List.range edge.d0).flatMap fun b => (List.range edge.d1).flatMap fun n => (List.range edge.d2).flatMap fun k =>
    (List.range edge.d3).flatMap fun i => ((List.range edge.d4).filter fun j => edge.get b n k i j ≠ 0).map fun j => (b, n, k, i, j)

/-- The loop body of `from_parts` (semimarkov.py:173-176): the writes `(row, position) := value` of one non-zero entry, in order. -/
def partWrites (o : ℕ × ℕ × ℕ × ℕ × ℕ) : List ((ℕ × ℕ) × ℕ) :=
  (if o.2.1 = 0 then [((o.1, o.2.1), o.2.2.2.2)] else []) ++ [((o.1, o.2.1 + o.2.2.1), o.2.2.2.1)]

/-- `SemiMarkov.from_parts` (semimarkov.py:156-178): the sequence and `(C, K)`.  A write past the end raises `IndexError`. -/
def fromParts (edge : T5 ℕ) : Except PyErr (T2 (Option ℕ) × (ℕ × ℕ)) :=
  let writes := (nonzero edge).flatMap partWrites
  if ∃ w ∈ writes, edge.d1 + 1 ≤ w.1.2 then .error .index
  else
    let labels : ℕ × ℕ → Option ℕ := writes.foldl (fun t w => fun k => if k = w.1 then some w.2 else t k) (fun _ => none)
    .ok (⟨edge.d0, edge.d1 + 1, fun b n => labels (b, n)⟩, (edge.d3, edge.d2))

/-- `SemiMarkov.hsmm` (semimarkov.py:181-219).  `init : C` (or `b x C`, given here by row), `transition : C x C` with
`transition i j` = from `i` to `j`, `duration : C x K`, `emission : b x N x K x C`.  With `N = 0` the write `edges[:, 0]` raises `IndexError`.
Simplification: the shapes of `init`, `transition` and `duration` are those documented. -/
def hsmm {R : Type} [Add R] [Zero R] (init : ℕ → ℕ → R) (transition : ℕ → ℕ → R) (duration : ℕ → ℕ → R) (emission : T4 R) :
    Except PyErr (T5 R) :=
  if emission.d1 = 0 then .error .index
  else
    let e0 : ℕ → ℕ → ℕ → ℕ → ℕ → R := fun _ _ _ _ _ => 0
    let e1 := fun b n k c2 c1 => if n = 0 then e0 b n k c2 c1 + init b c1 else e0 b n k c2 c1
    let e2 := fun b n k c2 c1 => e1 b n k c2 c1 + transition c1 c2
    let e3 := fun b n k c2 c1 => e2 b n k c2 c1 + duration c2 k
    let e4 := fun b n k c2 c1 => e3 b n k c2 c1 + emission.get b n k c2
    .ok ⟨emission.d0, emission.d1, emission.d2, emission.d3, emission.d3, e4⟩

end SemiMarkov
