import Verif.Model.Distributions

/-! Model of torch_struct/deptree.py (class `DepTree`, used by `DependencyCRF`). -/

noncomputable section
namespace DepTree

/-- A table of arc scores: `rank` is `dim()`.  An unlabelled table (`rank = 3`) is read with last index 0, and `d3` is not used. (deptree.py:49-56) -/
structure Arcs (α : Type) where
  (rank d0 d1 d2 d3 : ℕ)
  get : ℕ → ℕ → ℕ → ℕ → α

variable {α γ : Type}

/-- `labeled = arc_scores_in.dim() == 4` (deptree.py:54). -/
def Arcs.labeled (q : Arcs α) : Prop := q.rank = 4

/-- (deptree.py:54) -/
instance (q : Arcs α) : Decidable q.labeled := inferInstanceAs (Decidable (q.rank = 4))

/-- The number of labels: 1 for an unlabelled table. (deptree.py:54, 61) -/
def Arcs.labels (q : Arcs α) : ℕ := if q.labeled then q.d3 else 1

/-- `convert` (deptree.py:5-17): entry `(h, m)` of the new table; `neg` stands for the constant `-1e9`. -/
def convertCell (neg : γ) (get : ℕ → ℕ → ℕ → ℕ → γ) (b h m l : ℕ) : γ :=
  if m = 0 then neg
  else if h = 0 then get b (m - 1) (m - 1) l
  else if h = m then neg
  else get b (h - 1) (m - 1) l

/-- Lines 51-56 of deptree.py: the rank is checked and the table is converted.  If the table is not square (`N × M`), line 15 raises `IndexError`
for `M < N` and `RuntimeError` for `M > N`, unless `N = 1`, which broadcasts; then the assertion of line 129 fails. -/
def convert (neg : γ) (q : Arcs γ) : Except PyErr (Arcs γ) :=
  if q.rank ≠ 3 ∧ q.rank ≠ 4 then .error .value
  else if q.d2 < q.d1 then .error .index
  else if q.d1 < q.d2 then (if q.d1 = 1 then .error .assertion else .error .runtime)
  else .ok ⟨q.rank, q.d0, q.d1 + 1, q.d2 + 1, q.d3, convertCell neg q.get⟩

/-- `unconvert` (deptree.py:20-31): entry `(i, j)` of the new table. -/
def unconvertCell (get : ℕ → ℕ → ℕ → ℕ → γ) (b i j l : ℕ) : γ :=
  if i = j then get b 0 (j + 1) l else get b (i + 1) (j + 1) l

/-- `unconvert` on a table with at least one row and column. (deptree.py:20-31) -/
def unconvert (q : Arcs γ) : Arcs γ := ⟨q.rank, q.d0, q.d1 - 1, q.d2 - 1, q.d3, unconvertCell q.get⟩

/-- The eight charts `alpha[A|B][C|I][L|R]` (deptree.py:62-68), read as `chart batch position column`.  In an `A` chart, position `i` and column `w`
hold the span from `i` to `i + w`; in a `B` chart, position `j` and column `N - 1 - w` hold the span from `j - w` to `j`. -/
structure Charts (α : Type) where
  (acl acr bcl bcr ail air bil bir : ℕ → ℕ → ℕ → α)

/-- Lines 62-84 of deptree.py: all charts are filled with `zero`, the complete spans of width 0 with `one`. -/
def init (S : SR α) (N : ℕ) : Charts α :=
  let first _ _ w := SR.fill S.zero (w == 0) S.one
  let last _ _ w := SR.fill S.zero (w == N - 1) S.one
  let none _ _ _ := S.zero
  ⟨first, first, last, last, none, none, none, none⟩

/-- `alpha[A][..][s : N - k, k] = new` (helpers.py:22-24). -/
def writeA (s N k : ℕ) (new : ℕ → ℕ → α) (old : ℕ → ℕ → ℕ → α) : ℕ → ℕ → ℕ → α :=
  fun b i w => if s ≤ i ∧ i < N - k ∧ w = k then new b i else old b i w

/-- `alpha[B][..][k + s : N, N - k - 1] = new`. (deptree.py:100, 103, 108, 111) -/
def writeB (s N k : ℕ) (new : ℕ → ℕ → α) (old : ℕ → ℕ → ℕ → α) : ℕ → ℕ → ℕ → α :=
  fun b j w => if k + s ≤ j ∧ j < N ∧ w = N - k - 1 then new b (j - k) else old b j w

/-- Lines 92-103 of deptree.py: the incomplete spans of width `k`.  `arc b h m` is `arc_scores[:, b, h, m]`. -/
def stepI (S : SR α) (s N : ℕ) (arc : ℕ → ℕ → ℕ → α) (st : Charts α) (k : ℕ) : Charts α :=
  let x b i := S.dot ((List.range k).map fun u => st.acr b i u) ((List.range k).map fun u => st.bcl b (k + i) (N - k + u))
  let arcsL b i := S.times (x b i) [arc b (i + k) i]
  let arcsR b i := S.times (x b i) [arc b i (i + k)]
  { st with
    ail := writeA s N k arcsL st.ail
    bil := writeB s N k arcsL st.bil
    air := writeA s N k arcsR st.air
    bir := writeB s N k arcsR st.bir }

/-- Lines 104-111 of deptree.py: the complete spans of width `k`. -/
def stepC (S : SR α) (s N : ℕ) (st : Charts α) (k : ℕ) : Charts α :=
  let newL b i := S.dot ((List.range k).map fun u => st.acl b i u) ((List.range k).map fun u => st.bil b (k + i) (N - k - 1 + u))
  let newR b i := S.dot ((List.range k).map fun u => st.air b i (1 + u)) ((List.range k).map fun u => st.bcr b (k + i) (N - k + u))
  { st with
    acl := writeA s N k newL st.acl
    bcl := writeB s N k newL st.bcl
    acr := writeA s N k newR st.acr
    bcr := writeB s N k newR st.bcr }

/-- The body of the loop (deptree.py:92-111). -/
def step (S : SR α) (s N : ℕ) (arc : ℕ → ℕ → ℕ → α) (st : Charts α) (k : ℕ) : Charts α := stepC S s N (stepI S s N arc st k) k

/-- The loop `for k in range(1, N - start_idx)` (deptree.py:91). -/
def charts (S : SR α) (s N : ℕ) (arc : ℕ → ℕ → ℕ → α) : Charts α :=
  (List.range (N - s - 1)).foldl (fun st k => step S s N arc st (k + 1)) (init S N)

/-- Lines 117-120 of deptree.py, one round: `alpha[A][C][R][0, k]`. -/
def rootStep (S : SR α) (N : ℕ) (span : ℕ → ℕ → α) (st : Charts α) (k : ℕ) : Charts α :=
  let new b := S.dot ((List.range k).map fun u => span b u) ((List.range k).map fun u => st.bcr b k (N - k + u))
  { st with acr := fun b i w => if i = 0 ∧ w = k then new b else st.acr b i w }

/-- Lines 113-120 of deptree.py: a single root. -/
def rootCharts (S : SR α) (N : ℕ) (arc : ℕ → ℕ → ℕ → α) (st : Charts α) : Charts α :=
  let span b m := S.times (st.acl b 1 m) [arc b 0 (1 + m)]
  (List.range (N - 1)).foldl (fun st k => rootStep S N span st (k + 1)) st

/-- `final = alpha[A][C][R][(0,)]` (deptree.py:86-122). -/
def final (multiroot : Bool) (S : SR α) (N : ℕ) (arc : ℕ → ℕ → ℕ → α) : ℕ → ℕ → α :=
  let st := if multiroot then charts S 0 N arc else rootCharts S N arc (charts S 1 N arc)
  fun b w => st.acr b 0 w

/-- Lines 135-140 of deptree.py: entries whose head or word is past the row's length become `zero`.  They are written before the table is made the leaf
of the gradient (line 60), so the gradient at such an entry is the one with respect to the written value. -/
def masked (S : SR α) (p : Arcs α) (lens : List ℕ) (b h m l : ℕ) : α :=
  if lens.getD b 0 < h ∨ lens.getD b 0 < m then S.setData (p.get b h m l) S.zero else p.get b h m l

/-- Line 61 of deptree.py: labels are summed out. -/
def arcScores (S : SR α) (p : Arcs α) (lens : List ℕ) (b h m : ℕ) : α :=
  if p.labeled then S.sum ((List.range p.d3).map fun l => masked S p lens b h m l) else masked S p lens b h m 0

/-- `lengths` defaults to the number of words (deptree.py:130-131); `N` is the size of the converted table. -/
def lensOr (batch N : ℕ) : Option (List ℕ) → List ℕ
  | none => List.replicate batch (N - 1)
  | some l => l

/-- `DepTree.logpartition` (deptree.py:57-124) on the converted table.  `max(lengths)` of an empty batch raises `ValueError` (132); a list of
lengths that is too short or too long, or a length equal to `N`, raises `IndexError` (138, 123); with no words the single-root
program raises `IndexError` (115).  Lengths are natural numbers. -/
def logpartition (multiroot : Bool) (S : SR α) (p : Arcs α) (lengths : Option (List ℕ)) : Except PyErr (List α) :=
  let N := p.d1
  let lens := lensOr p.d0 N lengths
  if p.d1 ≠ p.d2 then .error .assertion
  else if lens = [] then .error .value
  else if ∃ l ∈ lens, N < l then .error .assertion
  else if lens.length < p.d0 then .error .index
  else if multiroot = false ∧ N < 2 then .error .index
  else if p.d0 < lens.length ∨ ∃ l ∈ lens, N ≤ l then .error .index
  else .ok ((List.range p.d0).map fun b => final multiroot S N (arcScores S p lens) b (lens.getD b 0))

/-- The entry of the user's table to which `_arrange_marginals` (deptree.py:143-144) moves the gradient of entry `(h, m)` of the converted table: `unconvert`
reads `(0, j + 1)` for `(j, j)` and `(i + 1, j + 1)` for other `(i, j)`; the remaining entries are dropped (`[]`). -/
def tag (labeled : Bool) (b h m l : ℕ) : List ℕ :=
  if m = 0 then []
  else if h = 0 then [b, m - 1, m - 1] ++ (if labeled then [l] else [])
  else if h = m then []
  else [b, h - 1, m - 1] ++ (if labeled then [l] else [])

/-- `DependencyCRF` (distributions.py:367-396) after `convert`. -/
def algo (multiroot : Bool) : Algo where
  T := Arcs
  run S p lengths := logpartition multiroot S p lengths
  map f p := ⟨p.rank, p.d0, p.d1, p.d2, p.d3, fun b h m l => f (p.get b h m l)⟩
  index p := ⟨p.rank, p.d0, p.d1, p.d2, p.d3, fun b h m l => (p.get b h m l, tag (decide p.labeled) b h m l)⟩

/-- The constant of deptree.py:11 and 16. -/
def negBig : ℝ := -1000000000

/-- `DependencyCRF(q, lengths, multiroot).sum` in a semiring whose `convert` is the identity. (helpers.py:66-81, deptree.py:49-124) -/
def sum (multiroot : Bool) (S : SR γ) (neg : γ) (q : Arcs γ) (lengths : Option (List ℕ)) : Except PyErr (List γ) := do
  let p ← convert neg q
  logpartition multiroot S p lengths

section methods
variable (multiroot : Bool) (q : Arcs ℝ) (lengths : Option (List ℕ))

/-- `DependencyCRF.partition` (distributions.py:207-210). -/
def partition : Except PyErr (List ℝ) := do
  let p ← convert negBig q
  Dist.partition (algo multiroot) p lengths

/-- `DependencyCRF.max` (distributions.py:117-125). -/
def max : Except PyErr (List ℝ) := do
  let p ← convert negBig q
  Dist.max (algo multiroot) p lengths

/-- `DependencyCRF.kmax(k)` (distributions.py:137-150). -/
def kmax (k : ℕ) : Except PyErr (List (List ℝ)) := do
  let p ← convert negBig q
  Dist.kmax (algo multiroot) p lengths k

/-- `DependencyCRF.entropy` (distributions.py:77-86). -/
def entropy : Except PyErr (List ℝ) := do
  let p ← convert negBig q
  Dist.entropy (algo multiroot) p lengths

/-- `DependencyCRF.count` (distributions.py:185-190): the table of ones is converted, so the constant is the number `-1e9`. -/
def count (q : Arcs EReal) : Except PyErr (List ℝ) := do
  let p ← convert negBig ⟨q.rank, q.d0, q.d1, q.d2, q.d3, fun b i j l => if q.get b i j l = ⊥ then (0 : ℝ) else 1⟩
  logpartition multiroot (Semirings.std ℝ) p lengths

/-- `DependencyCRF.marginals` (distributions.py:171-183, deptree.py:143-144). -/
def marginals : Except PyErr (List ℕ → ℝ) := do
  let p ← convert negBig q
  Dist.marginals (algo multiroot) p lengths

/-- `DependencyCRF.argmax` (distributions.py:127-135). -/
def argmax (pick : List (Autograd.Grad (List ℕ)) → Autograd.Grad (List ℕ)) : Except PyErr (List ℕ → ℝ) := do
  let p ← convert negBig q
  Dist.argmax (algo multiroot) p lengths pick

/-- `DependencyCRF.topk(k)` (distributions.py:152-165), slot `s`. -/
def topk (k : ℕ) (sel : List (Autograd.Grad (List ℕ)) → List (Autograd.Grad (List ℕ))) (s : ℕ) : Except PyErr (List ℕ → ℝ) := do
  let p ← convert negBig q
  Dist.topk (algo multiroot) p lengths k sel s

/-- `DependencyCRF.log_prob(value)` (distributions.py:56-75) for batch row `b` and one event: `score` (helpers.py:31-34) minus the partition. -/
def logProb (b : ℕ) (value : ℕ → ℕ → ℕ → ℝ) : Except PyErr ℝ := do
  let z ← partition multiroot q lengths
  let idx := (List.range q.d1).flatMap fun i => (List.range q.d2).flatMap fun j => (List.range q.labels).map fun l => (i, j, l)
  .ok (Struct.score (idx.map fun x => q.get b x.1 x.2.1 x.2.2) (idx.map fun x => value x.1 x.2.1 x.2.2) - z.getD b 0)

end methods

/-! ### Events -/

/-- Lines 162-164 of deptree.py: `labels[b, sequence[b, n - 1], n] = 1` for every word `n` (one cell of the result). -/
def headCell (N : ℕ) (seq : ℕ → ℕ → ℕ) (b h m : ℕ) : ℕ := if 1 ≤ m ∧ m ≤ N ∧ seq b (m - 1) = h then 1 else 0

/-- Lines 165-167 of deptree.py: arcs whose head or word is past the row's length are cleared. -/
def clearedCell (N : ℕ) (seq : ℕ → ℕ → ℕ) (lens : List ℕ) (b h m : ℕ) : ℕ :=
  if lens.getD b 0 < h ∨ lens.getD b 0 < m then 0 else headCell N seq b h m

/-- `DepTree.to_parts(sequence, lengths)` (deptree.py:146-168) for a `batch × N` table of heads.  A head above `N` raises `IndexError` (164), as
does a missing length (166).  Heads are natural numbers. -/
def toParts (batch N : ℕ) (seq : ℕ → ℕ → ℕ) (lengths : Option (List ℕ)) : Except PyErr (ℕ → ℕ → ℕ → ℕ) :=
  if 1 ≤ N ∧ ∃ b < batch, ∃ n < N, N < seq b n then .error .index
  else if (lensOr batch (N + 1) lengths).length < batch then .error .index
  else .ok fun b i j => unconvertCell (fun b h m _ => clearedCell N seq (lensOr batch (N + 1) lengths) b h m) b i j 0

/-- One assignment of deptree.py:184-188: entry `(b, i, j)` is non-zero. -/
def fromStep (labels : ℕ → ℕ → ℕ) (e : ℕ × ℕ × ℕ) : ℕ → ℕ → ℕ :=
  fun b j => if b = e.1 ∧ j = e.2.2 then (if e.2.1 = e.2.2 then 0 else e.2.1 + 1) else labels b j

/-- `DepTree.from_parts(arcs)` (deptree.py:170-189) for a `batch × N × N` table: `nonzero()` lists the non-zero entries in row-major order. -/
def fromParts (batch N : ℕ) (arcs : ℕ → ℕ → ℕ → ℕ) : ℕ → ℕ → ℕ :=
  let all := (List.range batch).flatMap fun b => (List.range N).flatMap fun i => (List.range N).map fun j => (b, i, j)
  (all.filter fun e => arcs e.1 e.2.1 e.2.2 ≠ 0).foldl fromStep fun _ _ => 0

end DepTree
