import Verif.Model.Distributions

/-! Model of torch_struct/cky_crf.py (class `CKY_CRF`, used by `TreeCRF`). -/

noncomputable section
namespace CKYCRF

variable {α : Type}

/-- The two charts `beta[A]`, `beta[B]` (cky_crf.py:20), read as `chart batch position width`.  `beta[A][i, w]` holds the span of `w + 1` words
that starts at `i`, `beta[B][j, N - 1 - w]` the span of `w + 1` words that ends at `j`. -/
abbrev Charts (α : Type) := (ℕ → ℕ → ℕ → α) × (ℕ → ℕ → ℕ → α)

/-- `reduced_scores = semiring.sum(scores)` (cky_crf.py:24): labels are summed out. -/
def reduced (S : SR α) (p : T4 α) (b i j : ℕ) : α := S.sum ((List.range p.d3).map fun a => p.get b i j a)

/-- Lines 20 and 24-28 of cky_crf.py: both charts are filled with `zero`, then the diagonal is copied. -/
def init (S : SR α) (N : ℕ) (red : ℕ → ℕ → ℕ → α) : Charts α :=
  (fun b i w => if i < N ∧ w = 0 then red b i i else S.zero,
   fun b i w => if i < N ∧ w = N - 1 then red b i i else S.zero)

/-- The body of the loop (cky_crf.py:32-39): `left = slice(None, N - w)`, `right = slice(w, None)`. -/
def step (S : SR α) (N : ℕ) (red : ℕ → ℕ → ℕ → α) (st : Charts α) (w : ℕ) : Charts α :=
  let Y b i := (List.range w).map fun u => st.1 b i u
  let Z b i := (List.range w).map fun u => st.2 b (w + i) (N - w + u)
  let new b i := S.times (S.dot (Y b i) (Z b i)) [red b i (i + w)]
  (fun b i v => if i < N - w ∧ v = w then new b i else st.1 b i v,
   fun b i v => if w ≤ i ∧ i < N ∧ v = N - w - 1 then new b (i - w) else st.2 b i v)

/-- The loop `for w in range(1, N)` (cky_crf.py:31). -/
def charts (S : SR α) (N : ℕ) (red : ℕ → ℕ → ℕ → α) : Charts α :=
  (List.range (N - 1)).foldl (fun st w => step S N red st (w + 1)) (init S N red)

/-- `lengths - 1` used as an index into a dimension of size `N` (cky_crf.py:42): 0 becomes -1, which reads the last entry. -/
def lastIndex (N l : ℕ) : ℕ := if l = 0 then N - 1 else l - 1

/-- `final[:, torch.arange(batch), lengths - 1]` (cky_crf.py:41-42): the two index vectors are broadcast; an index past the end raises. -/
def gather (batch N : ℕ) (final : ℕ → ℕ → α) (lengths : List ℕ) : Except PyErr (List α) :=
  if ∀ l ∈ lengths, l ≤ N then
    if lengths.length = batch then .ok ((List.range batch).map fun b => final b (lastIndex N (lengths.getD b 0)))
    else if lengths.length = 1 then .ok ((List.range batch).map fun b => final b (lastIndex N (lengths.getD 0 0)))
    else if batch = 1 then .ok (lengths.map fun l => final 0 (lastIndex N l))
    else .error .index
  else .error .index

/-- `lengths` defaults to `N` for every row (cky_crf.py:11-12). -/
def lensOr (batch N : ℕ) : Option (List ℕ) → List ℕ
  | none => List.replicate batch N
  | some l => l

/-- `CKY_CRF.logpartition` (cky_crf.py:8-43).  `lengths` defaults to `N` for every row (line 12); with no words the first assignment raises.
Simplification: tables whose two position dimensions differ are rejected (the code rejects them too, except that for `N = 1` it ignores
the extra columns). -/
def logpartition (S : SR α) (p : T4 α) (lengths : Option (List ℕ)) : Except PyErr (List α) :=
  if p.d1 ≠ p.d2 then .error .runtime
  else if p.d1 = 0 then .error .index
  else
    let final b w := (charts S p.d1 (reduced S p)).1 b 0 w
    gather p.d0 p.d1 final (lensOr p.d0 p.d1 lengths)

/-- `TreeCRF` (distributions.py:399-422): `struct = CKY_CRF`. -/
def algo : Algo where
  T := T4
  run S p lengths := logpartition S p lengths
  map f p := ⟨p.d0, p.d1, p.d2, p.d3, fun a b c d => f (p.get a b c d)⟩
  index p := ⟨p.d0, p.d1, p.d2, p.d3, fun a b c d => (p.get a b c d, [a, b, c, d])⟩

/-- `TreeCRF.cross_entropy(other)` (distributions.py:88-101). -/
def crossEntropy (p q : T4 ℝ) (lengths : Option (List ℕ)) : Except PyErr (List ℝ) := do
  let x ← LinearChain.pairPotentials p q
  (logpartition Semirings.crossEntropy x lengths).map (List.map fun a => a.2.2)

/-- `TreeCRF.kl(other)` (distributions.py:103-115). -/
def kl (p q : T4 ℝ) (lengths : Option (List ℕ)) : Except PyErr (List ℝ) := do
  let x ← LinearChain.pairPotentials p q
  (logpartition Semirings.kl x lengths).map (List.map fun a => a.2.2)

/-- `TreeCRF.log_prob(value)` (distributions.py:56-75) for batch row `b` and one event: `score` (helpers.py:31-34) minus the partition. -/
def logProb (p : T4 ℝ) (lengths : Option (List ℕ)) (b : ℕ) (value : ℕ → ℕ → ℕ → ℝ) : Except PyErr ℝ := do
  let z ← Dist.partition algo p lengths
  let idx := (List.range p.d1).flatMap fun i => (List.range p.d2).flatMap fun j =>
    (List.range p.d3).map fun a => (i, j, a)
  .ok (Struct.score (idx.map fun x => p.get b x.1 x.2.1 x.2.2) (idx.map fun x => value x.1 x.2.1 x.2.2) - z.getD b 0)

end CKYCRF
