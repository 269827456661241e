import Verif.Model.Distributions
import Verif.Model.CKYCRF

/-! Model of torch_struct/cky.py (class `CKY`, used by `SentCFG`): `logpartition` and `marginals`. -/

noncomputable section
namespace CKY

variable {α : Type}

/-- The tuple `(terms, rules, roots)` (cky.py:13-17): terms `batch x N x T`, rules `batch x NT x S x S`, roots `batch x NT`.

`mark` is not an argument of the code.  `marginals` (cky.py:81-143) differentiates the result with respect to the intermediate tensors
`span[w]`.  The derivative with respect to an intermediate value `v` is the derivative with respect to a leaf that is multiplied into `v`
(semiring multiplication adds the log-values, so a leaf with value 0 changes nothing).  `mark` is `none` when only values are computed and
holds these leaves, read by `b w i X`, when `marginals` is called. -/
structure Scores (α : Type) where
  batch : ℕ
  N : ℕ
  T : ℕ
  NT : ℕ
  S : ℕ
  term : ℕ → ℕ → ℕ → α
  rule : ℕ → ℕ → ℕ → ℕ → α
  root : ℕ → ℕ → α
  mark : Option (ℕ → ℕ → ℕ → ℕ → α)

/-- `beta[A]`, `beta[B]` (cky.py:29), read as `chart batch position width label`.  `beta[A][i, w]` holds the span of `w + 1` words that starts
at `i`, `beta[B][j, N - 1 - w]` the span of `w + 1` words that ends at `j`. -/
abbrev Charts (α : Type) := (ℕ → ℕ → ℕ → ℕ → α) × (ℕ → ℕ → ℕ → ℕ → α)

/-- `beta` is filled with `zero` (cky.py:29, helpers.py:13). -/
def init (S : SR α) : Charts α := (fun _ _ _ _ => S.zero, fun _ _ _ _ => S.zero)

/-- The pairs of indices of a block of `m` by `n` entries, in the order of `.view(..., -1)` (cky.py:40, 55, 62, 65). -/
def pairs (m n : ℕ) : List (ℕ × ℕ) := (List.range m).flatMap fun y => (List.range n).map fun z => (y, z)

/-- `matmul(M.view(*v2), arr(a, b))` (cky.py:55, 62, 65, 69), one entry: the sum over the flattened block of `M[y, z]` times
`rules[X, oy + y, oz + z]`; the slices `NTs`, `Ts` start at `oy`, `oz`. -/
def block (S : SR α) (m n : ℕ) (M : ℕ → ℕ → α) (rule : ℕ → ℕ → α) (oy oz : ℕ) : α :=
  S.sum ((pairs m n).map fun yz => S.mul (M yz.1 yz.2) (rule (oy + yz.1) (oz + yz.2)))

/-- `matmul(Y.transpose(-2, -1), Z)` (cky.py:53-55), one entry: `Y = beta[A][: N - w, :w, :]`, `Z = beta[B][w:, N - w :, :]`. -/
def split (S : SR α) (N : ℕ) (st : Charts α) (b i w y z : ℕ) : α :=
  S.sum ((List.range w).map fun u => S.mul (st.1 b i u y) (st.2 b (w + i) (N - w + u) z))

/-- `X1` (cky.py:53-56): both children are nonterminals. -/
def x1 (S : SR α) (p : Scores α) (st : Charts α) (w b i X : ℕ) : α :=
  block S p.NT p.NT (fun y z => split S p.N st b i w y z) (p.rule b X) 0 0

/-- `X2` (cky.py:59, 61-62): the right child is the preterminal of word `i + w`, the left one a nonterminal over `w` words
(`Y[..., -1, :]`). -/
def x2 (S : SR α) (p : Scores α) (st : Charts α) (w b i X : ℕ) : α :=
  block S p.NT p.T (fun y z => S.times (st.1 b i (w - 1) y) [p.term b (w + i) z]) (p.rule b X) 0 p.NT

/-- `X3` (cky.py:58, 64-65): the left child is the preterminal of word `i`, the right one a nonterminal over `w` words (`Z[..., 0, :]`). -/
def x3 (S : SR α) (p : Scores α) (st : Charts α) (w b i X : ℕ) : α :=
  block S p.T p.NT (fun y z => S.times (p.term b i y) [st.2 b (w + i) (p.N - w) z]) (p.rule b X) p.NT 0

/-- `X4` (cky.py:68-70), only for spans of two words: both children are preterminals. -/
def x4 (S : SR α) (p : Scores α) (w b i X : ℕ) : α :=
  block S p.T p.T (fun y z => S.times (p.term b i y) [p.term b (w + i) z]) (p.rule b X) p.NT p.NT

/-- `span[w]` (cky.py:50-72) before differentiation. -/
def spanOf (S : SR α) (p : Scores α) (st : Charts α) (w b i X : ℕ) : α :=
  S.sum ([x1 S p st w b i X, x2 S p st w b i X, x3 S p st w b i X] ++ if w = 1 then [x4 S p w b i X] else [])

/-- The leaf that stands for `span[w]` in `torch.autograd.grad` (cky.py:79, 106-112, 131; `span[1:]` is passed, so the index is `w - 1`).
The code differentiates with respect to `span[w]` itself; here it is multiplied by a leaf, which `marked` sets to `one`.  With `KMaxSemiring`, `mul` sorts the
slots, so that this may reorder slots that hold no solution. -/
def touch (S : SR α) (p : Scores α) (w b i X : ℕ) (v : α) : α :=
  match p.mark with
  | none => v
  | some m => S.mul v (m b (w - 1) i X)

/-- The body of the loop (cky.py:49-74). -/
def step (S : SR α) (p : Scores α) (st : Charts α) (w : ℕ) : Charts α :=
  let new b i X := touch S p w b i X (spanOf S p st w b i X)
  (fun b i v X => if i < p.N - w ∧ v = w then new b i X else st.1 b i v X,
   fun b i v X => if w ≤ i ∧ i < p.N ∧ v = p.N - w - 1 then new b (i - w) X else st.2 b i v X)

/-- The loop `for w in range(1, N)` (cky.py:49). -/
def charts (S : SR α) (p : Scores α) : Charts α := (List.range (p.N - 1)).foldl (fun st w => step S p st (w + 1)) (init S)

/-- `top` (cky.py:76-77), read by `b X`: row `b` of `final` at `lengths[b] - 1` (0 becomes -1, which reads the last entry). -/
def top (S : SR α) (p : Scores α) (lens : List ℕ) (b X : ℕ) : α :=
  (charts S p).1 b 0 (CKYCRF.lastIndex p.N (lens.getD b 0)) X

/-- `semiring.dot(top, roots)` (cky.py:78) for row `b` of `roots` and row `c` of `top`. -/
def logZ (S : SR α) (p : Scores α) (lens : List ℕ) (c b : ℕ) : α :=
  S.dot ((List.range p.NT).map fun X => top S p lens c X) ((List.range p.NT).map fun X => p.root b X)

/-- `CKY.logpartition` (cky.py:8-79).  `torch.stack` over no length raises, an entry past the end raises; fewer lengths than rows are
broadcast if there is one and raise otherwise.  `rules.view(ssize, batch, 1, NT, S, S)` raises unless `S = NT + T`; `view(..., -1)` raises
for empty blocks.  Simplification: the batch sizes of the three tables are equal. -/
def logpartition (S : SR α) (p : Scores α) (lengths : Option (List ℕ)) : Except PyErr (List α) :=
  if p.S ≠ p.NT + p.T ∨ p.NT = 0 ∨ p.T = 0 ∨ p.batch = 0 then .error .runtime
  else if p.N = 0 then .error .index
  else
    let lens := CKYCRF.lensOr p.batch p.N lengths
    if ∀ l ∈ lens, l ≤ p.N then
      if lens.length = p.batch then .ok ((List.range p.batch).map fun b => logZ S p lens b b)
      else if lens.length = 1 then .ok ((List.range p.batch).map fun b => logZ S p lens 0 b)
      else if p.batch < lens.length then .error .index
      else .error .runtime
    else .error .index

/-- The dynamic program.  The entries have the indices `[b, 0, n, t]` (terms), `[b, 1, X, y, z]` (rules), `[b, 2, X]` (roots) and
`[b, 3, w, i, X]` (the intermediate tensors `span[w + 1]`). (cky.py:11-79) -/
def algo : Algo where
  T := Scores
  run S p lengths := logpartition S p lengths
  map f p := ⟨p.batch, p.N, p.T, p.NT, p.S, fun b n t => f (p.term b n t), fun b x y z => f (p.rule b x y z), fun b x => f (p.root b x),
    p.mark.map fun m b w i x => f (m b w i x)⟩
  index p := ⟨p.batch, p.N, p.T, p.NT, p.S, fun b n t => (p.term b n t, [b, 0, n, t]), fun b x y z => (p.rule b x y z, [b, 1, x, y, z]),
    fun b x => (p.root b x, [b, 2, x]), p.mark.map fun m b w i x => (m b w i x, [b, 3, w, i, x])⟩

/-- The input of a call of `marginals`: the leaves for `span[1:]` are added. (cky.py:79, 131) -/
def marked (p : Scores ℝ) : Scores ℝ := { p with mark := some fun _ _ _ _ => 0 }

/-- What `marginals` returns (cky.py:129): `(term_marg, rule_marg, root_marg, spans_marg)`, read by index. -/
structure Marginals where
  term : ℕ → ℕ → ℕ → ℝ
  rule : ℕ → ℕ → ℕ → ℕ → ℝ
  root : ℕ → ℕ → ℝ
  spans : ℕ → ℕ → ℕ → ℕ → ℝ

/-- `spans_marg` (cky.py:114-120), read by `b w i X`: zeros except `spans_marg[:, w, : N - w - 1]` for `w < N - 1`. -/
def arrangeSpans (N : ℕ) (g : List ℕ → ℝ) (b w i X : ℕ) : ℝ := if w < N - 1 ∧ i < N - w - 1 then g [b, 3, w, i, X] else 0

/-- Lines 114-129 of cky.py. -/
def arrange (N : ℕ) (g : List ℕ → ℝ) : Marginals :=
  ⟨fun b n t => g [b, 0, n, t], fun b x y z => g [b, 1, x, y, z], fun b x => g [b, 2, x], arrangeSpans N g⟩

/-- `SentCFG.marginals` (distributions.py:171-183, cky.py:81-143).  With a single word the rules are not used, and `autograd.grad` with
`allow_unused=False` raises. -/
def marginals (p : Scores ℝ) (lengths : Option (List ℕ)) : Except PyErr Marginals :=
  if p.N = 1 then .error .runtime else (Dist.marginals algo (marked p) lengths).map (arrange p.N)

/-- `SentCFG.argmax` (distributions.py:127-135). -/
def argmax (p : Scores ℝ) (lengths : Option (List ℕ)) (pick : List (Autograd.Grad (List ℕ)) → Autograd.Grad (List ℕ)) : Except PyErr Marginals :=
  if p.N = 1 then .error .runtime else (Dist.argmax algo (marked p) lengths pick).map (arrange p.N)

/-- `SentCFG.topk(k)` (distributions.py:152-165, cky.py:132-141): one table of spans for every slot ... -/
def topkSpans (p : Scores ℝ) (lengths : Option (List ℕ)) (k : ℕ) (sel : List (Autograd.Grad (List ℕ)) → List (Autograd.Grad (List ℕ))) (s : ℕ) :
    Except PyErr (ℕ → ℕ → ℕ → ℕ → ℝ) :=
  if p.N = 1 then .error .runtime else (Dist.topk algo (marked p) lengths k sel s).map (arrangeSpans p.N)

/-- ... but only one table of terms, rules and roots: `obj = v.sum(dim=0)` adds the slots (cky.py:139-140). -/
def topkParts (p : Scores ℝ) (lengths : Option (List ℕ)) (k : ℕ) (sel : List (Autograd.Grad (List ℕ)) → List (Autograd.Grad (List ℕ))) :
    Except PyErr Marginals :=
  if p.N = 1 then .error .runtime
  else (algo.run (Autograd.kmax k sel) (algo.map (fun q : ℝ × List ℕ => Autograd.kmaxConvert k q.1 q.2) (algo.index (marked p))) lengths).map
    fun vs => arrange p.N fun e => ((List.range k).map fun s => Dist.gradOfSum (vs.map fun row => row.getD s (0, 0)) e).sum

/-- `CKY.score(potentials, parts)` (cky.py:145-153) for row `b` and a table of parts. -/
def score (p : Scores ℝ) (b : ℕ) (term : ℕ → ℕ → ℝ) (rule : ℕ → ℕ → ℕ → ℝ) (root : ℕ → ℝ) : ℝ :=
  ((pairs p.N p.T).map fun x => term x.1 x.2 * p.term b x.1 x.2).sum +
  ((List.range p.NT).flatMap fun X => (pairs p.S p.S).map fun x => rule X x.1 x.2 * p.rule b X x.1 x.2).sum +
  ((List.range p.NT).map fun X => root X * p.root b X).sum

end CKY
