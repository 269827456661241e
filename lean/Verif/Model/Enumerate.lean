import Verif.Model.SemiMarkov
import Verif.Model.LinearChainParts
import Verif.Model.DepTree
import Verif.Model.CKY

/-! Model of the brute-force enumerations of tests/extensions.py: the values with which the project's own tests compare the library.

A score is a tensor with one entry per batch row, given here as a function of the row.  The leading `ssize` dimension is folded into the carrier,
as in `Model/Semiring.lean`. -/

namespace Enumerate
variable {α : Type}

/-- `semiring.sum(torch.stack(ls, dim), dim)` (extensions.py:65, 115, 166, 216, 313, 367): one value per row; `torch.stack([])` raises. -/
def stackSum (S : SR α) (batch : ℕ) (ls : List (ℕ → α)) : Except PyErr (List α) :=
  if ls = [] then .error .runtime else .ok ((List.range batch).map fun b => S.sum (ls.map fun s => s b))

/-! ### `LinearChainTest.enumerate` -/

/-- `chains[n]` of `LinearChainTest.enumerate` (extensions.py:29-52): the sequences of `n + 1` classes with their scores. -/
def chains (S : SR α) (C : ℕ) (edge : ℕ → ℕ → ℕ → ℕ → α) : ℕ → List (List ℕ × (ℕ → α))
  | 0 => (List.range C).map fun c => ([c], fun _ => SR.fill S.raw0 true S.one)
  | n + 1 => (chains S C edge n).flatMap fun x => (List.range C).map fun c =>
      (x.1 ++ [c], fun b => S.mul (x.2 b) (edge b n c (x.1.getLastD 0)))

/-- `ret` of `LinearChainTest.enumerate` (extensions.py:65), without the assertion of line 66. -/
def chainValue (S : SR α) (edge : T4 α) : Except PyErr (List α) :=
  stackSum S edge.d0 ((chains S edge.d2 edge.get edge.d1).map Prod.snd)

/-- `torch.stack([torch.tensor(c) for (c, _) in cs])` for lists of `n` classes. (tests/extensions.py:59, 71) -/
def stackSeq (n : ℕ) (cs : List (List ℕ)) : T2 ℕ := ⟨cs.length, n, fun a i => (cs.getD a []).getD i 0⟩

/-- `torch.isclose` with its default tolerances. (tests/extensions.py:66) -/
def isclose (a b : ℝ) : Prop := |a - b| ≤ 1 / 100000000 + 1 / 100000 * |b|

/-- Lines 62-64 of extensions.py for row `b`: `edges` times `edge`, the semiring product over all entries of a sequence, the semiring sum over the sequences.
`prod` is `semiring.prod`. -/
def einsumValue (S : SR ℝ) (prod : List ℝ → ℝ) (edge : T4 ℝ) (edges : T4 ℕ) (b : ℕ) : ℝ :=
  S.sum ((List.range edges.d0).map fun a =>
    prod ((List.range edges.d1).flatMap fun n => (List.range edges.d2).flatMap fun c => (List.range edges.d3).map fun d =>
      (edges.get a n c d : ℝ) * edge.get b n c d))

open Classical in
/-- `LinearChainTest.enumerate` (extensions.py:24-79) with a semiring on plain numbers (`size() = 1`).  The four results: the value of every row, the scores of
all sequences, the events of row `b` (`edges[a, b]`), and the number of events of every row.
Simplification: for a length below 2, line 41 leaves `enum_lengths[b]` uninitialised and the outcome is not specified; here a `RuntimeError`. -/
noncomputable def linearChain (S : SR ℝ) (prod : List ℝ → ℝ) (edge : T4 ℝ) (lengths : Option (List ℕ)) :
    Except PyErr (List ℝ × List (ℕ → ℝ) × (ℕ → ℕ → ℕ → ℕ → ℕ → ℕ) × List ℕ) := do
  let lens ← LinearChain.checkPotentials edge lengths
  let N := edge.d1 + 1
  let cs := chains S edge.d2 edge.get
  let edges ← LinearChain.toParts (stackSeq N ((cs (N - 1)).map Prod.fst)) edge.d2 none
  let ret ← stackSum S edge.d0 ((cs (N - 1)).map Prod.snd)
  if ∀ b < edge.d0, isclose (einsumValue S prod edge edges b) (ret.getD b 0) then
    if ∃ l ∈ lens, l < 2 then .error .runtime
    else do
      let parts ← lens.mapM fun l => LinearChain.toParts (stackSeq l ((cs (l - 1)).map Prod.fst)) edge.d2 none
      .ok (ret, (cs (N - 1)).map Prod.snd,
        fun a b n c d => match parts[b]? with
          | none => 0
          | some e => if a < e.d0 ∧ n < e.d1 then e.get a n c d else 0,
        lens.map fun l => (cs (l - 1)).length)
  else .error .assertion

/-! ### `SemiMarkovTest.enumerate` and `enumerate_hsmm` -/

/-- The dictionary `chains` of `SemiMarkovTest.enumerate`, one entry: lists of pairs (class, length) with their scores. (tests/extensions.py:139-163) -/
abbrev SemiTable (α : Type) := ℕ → Option (List (List (ℕ × ℕ) × (ℕ → α)))

/-- The loop body of `SemiMarkovTest.enumerate` (extensions.py:150-164) for end point `n`. -/
def semiStep (S : SR α) (K C : ℕ) (edge : ℕ → ℕ → ℕ → ℕ → ℕ → α) (d : SemiTable α) (n : ℕ) : SemiTable α :=
  let new := (List.range' 1 (K - 1)).flatMap fun k =>
    if n < k then [] else match d (n - k) with
      | none => []
      | some cs => cs.flatMap fun x => (List.range C).map fun c =>
          (x.1 ++ [(c, k)], fun b => S.mul (x.2 b) (edge b (n - k) k c (x.1.getLastD (0, 0)).1))
  fun m => if m = n then some new else d m

/-- The dictionary after the loop (extensions.py:139-164). -/
def semiChains (S : SR α) (K C : ℕ) (edge : ℕ → ℕ → ℕ → ℕ → ℕ → α) (N : ℕ) : SemiTable α :=
  (List.range' 1 N).foldl (semiStep S K C edge)
    fun m => if m = 0 then some ((List.range C).map fun c => ([(c, 0)], fun _ => SR.fill S.raw0 true S.one)) else none

/-- `SemiMarkovTest.enumerate(semiring, edge)` (extensions.py:135-166): the value of every row, and the scores of all segmentations. -/
def semiMarkov (S : SR α) (edge : T5 α) : Except PyErr (List α × List (ℕ → α)) := do
  let ls := ((semiChains S edge.d2 edge.d3 edge.get edge.d1 edge.d1).getD []).map Prod.snd
  let ret ← stackSum S edge.d0 ls
  .ok (ret, ls)

/-- The loop of `score_chain` (extensions.py:190-199): state `(score, prev_state, n)`. -/
def hsmmScore (S : SR α) (trans : ℕ → ℕ → α) (dur : ℕ → ℕ → α) (emit : ℕ → ℕ → ℕ → α) (score : α) (prev n : ℕ) : List (ℕ × ℕ) → α
  | [] => score
  | (state, k) :: l =>
    hsmmScore S trans dur emit (S.mul (S.mul (S.mul score (trans prev state)) (dur state k)) (emit n k state)) state (n + k) l

/-- `score_chain(chain)` (extensions.py:183-200) for row `b`; every chain has a first entry. -/
def scoreChain (S : SR α) (init : ℕ → α) (trans : ℕ → ℕ → α) (dur : ℕ → ℕ → α) (emit : ℕ → ℕ → ℕ → α) : List (ℕ × ℕ) → α
  | [] => S.one
  | (state, _) :: l => hsmmScore S trans dur emit (S.mul (SR.fill S.raw0 true S.one) (init state)) state 0 l

/-- The loop body of `enumerate_hsmm` (extensions.py:207-214) for end point `n`. -/
def hsmmStep (K C : ℕ) (d : ℕ → Option (List (List (ℕ × ℕ)))) (n : ℕ) : ℕ → Option (List (List (ℕ × ℕ))) :=
  let new := (List.range' 1 (K - 1)).flatMap fun k =>
    if n < k then [] else match d (n - k) with
      | none => []
      | some cs => cs.flatMap fun x => (List.range C).map fun c => x ++ [(c, k)]
  fun m => if m = n then some new else d m

/-- The dictionary of `enumerate_hsmm` after the loop (extensions.py:202-214). -/
def hsmmChains (K C N : ℕ) : ℕ → Option (List (List (ℕ × ℕ))) :=
  (List.range' 1 N).foldl (hsmmStep K C) fun m => if m = 0 then some ((List.range C).map fun c => [(c, 0)]) else none

/-- `SemiMarkovTest.enumerate_hsmm` (extensions.py:169-216); the parameters are those after the conversion to the semiring, `init` by row. -/
def hsmm (S : SR α) (init : ℕ → ℕ → α) (trans : ℕ → ℕ → α) (dur : ℕ → ℕ → α) (emission : T4 α) : Except PyErr (List α × List (ℕ → α)) := do
  let ls := ((hsmmChains emission.d2 emission.d3 emission.d1 emission.d1).getD []).map fun ch =>
    fun b => scoreChain S (init b) trans dur (fun n k c => emission.get b n k c) ch
  let ret ← stackSum S emission.d0 ls
  .ok (ret, ls)

/-! ### `DepTreeTest.enumerate` -/

/-- `itertools.product(range(m), repeat=n)`. (tests/extensions.py:101) -/
def product (m : ℕ) : ℕ → List (List ℕ)
  | 0 => [[]]
  | n + 1 => (List.range m).flatMap fun a => (product m n).map fun l => a :: l

/-- `[-1] + list(mid)` (extensions.py:102). -/
def parseOf (mid : List ℕ) : List ℤ := -1 :: mid.map Int.ofNat

/-- `d.get(cur, [])` (extensions.py:223-228, 236): the positions whose head is `cur`, in increasing order. -/
def kids (parse : List ℤ) (cur : ℕ) : List ℕ := (List.range parse.length).filter fun m => parse.getD m 0 == (cur : ℤ)

/-- The loop of `_is_spanning` (extensions.py:229-236) with `fuel` rounds at most: the nodes seen, `none` for `return False`, which is also the result when the
rounds do not suffice (`Props/Enumerate.lean` shows that `parse.length + 1` rounds always do). -/
def walk (parse : List ℤ) : ℕ → List ℕ → List ℕ → Option (List ℕ)
  | _, [], seen => some seen
  | 0, _ :: _, _ => none
  | fuel + 1, cur :: stack, seen => if cur ∈ seen then none else walk parse fuel (kids parse cur ++ stack) (cur :: seen)

/-- `_is_spanning(parse)` (extensions.py:222-239); no entry is `None`. -/
def isSpanning (parse : List ℤ) : Bool :=
  if (List.range parse.length).any fun m => parse.getD m 0 == (m : ℤ) then false
  else match walk parse (parse.length + 1) [0] [] with
    | none => false
    | some seen => seen.length == parse.length

/-- `_is_multi_root(parse)` (extensions.py:242-247). -/
def isMultiRoot (parse : List ℤ) : Bool := 1 < (parse.filter fun h => h == 0).length

/-- The condition of lines 255-270 of extensions.py. -/
def crossing (m h m2 h2 : ℤ) : Bool :=
  (m < h && (m < m2 && m2 < h && h < h2 || m < h2 && h2 < h && h < m2 || m2 < m && m < h2 && h2 < h || h2 < m && m < m2 && m2 < h)) ||
  (h < m && (h < m2 && m2 < m && m < h2 || h < h2 && h2 < m && m < m2 || m2 < h && h < h2 && h2 < m || h2 < h && h < m2 && m2 < m))

/-- `_is_projective(parse)` (extensions.py:250-271). -/
def isProjective (parse : List ℤ) : Bool :=
  (List.range parse.length).all fun m => (List.range parse.length).all fun m2 =>
    m2 == m || !crossing m (parse.getD m 0) m2 (parse.getD m2 0)

/-- The parses that `DepTreeTest.enumerate` keeps (extensions.py:101-111), for a converted table with `N` nodes; `mid` only. -/
def parses (nonProj multiRoot : Bool) (N : ℕ) : List (List ℕ) :=
  (product (N + 1) (N - 1)).filter fun mid =>
    isSpanning (parseOf mid) && !(!nonProj && !isProjective (parseOf mid)) && !(!multiRoot && isMultiRoot (parseOf mid))

/-- `DepTreeTest.enumerate(semiring, arc_scores, non_proj, multi_root)` (extensions.py:94-115), first result; `neg` is the `-1e9` of `convert`, and the table
has no labels.  `semiring.times()` without words raises. -/
def depTree (S : SR α) (neg : α) (q : DepTree.Arcs α) (nonProj multiRoot : Bool) : Except PyErr (List α) := do
  let c ← DepTree.convert neg q
  let N := c.d1
  if N = 1 then .error .index
  else stackSum S c.d0 ((parses nonProj multiRoot N).map fun mid b =>
    match (List.range' 1 (N - 1)).map fun i => c.get b (mid.getD (i - 1) 0) i 0 with
    | [] => S.one
    | l0 :: ls => S.times l0 ls)

/-! ### `CKY_CRFTest.enumerate` and `CKYTest.enumerate` -/

/-- The generator `enumerate(x, start, end)` of `CKY_CRFTest.enumerate` (extensions.py:293-307), scores only; `width = end - start - 1`. -/
def treeScores (S : SR α) (NT : ℕ) (scores : ℕ → ℕ → ℕ → ℕ → α) (x start width : ℕ) : List (ℕ → α) :=
  match width with
  | 0 => [fun b => scores b start start x]
  | w + 1 => (List.finRange (w + 1)).flatMap fun (k : Fin (w + 1)) => (List.range NT).flatMap fun y => (List.range NT).flatMap fun z =>
      (treeScores S NT scores y start k).flatMap fun m1 => (treeScores S NT scores z (start + k + 1) (w - k)).map fun m2 =>
        fun b => S.times (m1 b) [m2 b, scores b start (start + w + 1) x]
termination_by width
decreasing_by all_goals (have := k.isLt; omega)

/-- `CKY_CRFTest.enumerate(semiring, scores)` (extensions.py:289-313), first result.  Without words the generator finds nothing: `end = 0`. -/
def treeCRF (S : SR α) (p : T4 α) : Except PyErr (List α) :=
  if p.d1 = 0 then .error .runtime
  else stackSum S p.d0 ((List.range p.d3).flatMap fun nt => treeScores S p.d3 p.get nt 0 (p.d1 - 1))

/-- The generator `enumerate(x, start, end)` of `CKYTest.enumerate` (extensions.py:348-362), scores only; `width = end - start - 1`. -/
def cfgScores (S : SR α) (NT T : ℕ) (term : ℕ → ℕ → ℕ → α) (rule : ℕ → ℕ → ℕ → ℕ → α) (x start width : ℕ) : List (ℕ → α) :=
  match width with
  | 0 => [fun b => term b start (x - NT)]
  | w + 1 => (List.finRange (w + 1)).flatMap fun (k : Fin (w + 1)) =>
      (if (k : ℕ) ≠ 0 then List.range NT else List.range' NT T).flatMap fun y =>
      (if (k : ℕ) ≠ w then List.range NT else List.range' NT T).flatMap fun z =>
      (cfgScores S NT T term rule y start k).flatMap fun m1 => (cfgScores S NT T term rule z (start + k + 1) (w - k)).map fun m2 =>
        fun b => S.times (S.times (m1 b) [m2 b]) [rule b x y z]
termination_by width
decreasing_by all_goals (have := k.isLt; omega)

/-- `CKYTest.enumerate(semiring, scores)` (extensions.py:343-367), first result.  With one word, `terms[:, 0, x - NT]` has a negative index, which Python counts from
the end (an `IndexError` if it is below `-T`). -/
def cfg (S : SR α) (p : CKY.Scores α) : Except PyErr (List α) :=
  if p.N = 0 then .error .runtime
  else if p.N = 1 then
    if p.T < p.NT then .error .index
    else stackSum S p.batch ((List.range p.NT).map fun nt b => S.times (p.term b 0 (p.T - (p.NT - nt))) [p.root b nt])
  else stackSum S p.batch ((List.range p.NT).flatMap fun nt => (cfgScores S p.NT p.T p.term p.rule nt 0 (p.N - 1)).map fun s b => S.times (s b) [p.root b nt])

/-! ### `AlignmentTest.enumerate` -/

/-- `AlignmentTest.enumerate(edge)` (extensions.py:382-417): line 384 calls `self._check_potentials`, which the class does not have. -/
def alignment {β : Type} : Except PyErr β := .error .attribute

end Enumerate
