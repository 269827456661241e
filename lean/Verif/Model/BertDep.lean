import Verif.Model.DepTree
import Mathlib.Algebra.BigOperators.Group.Finset.Basic
import Mathlib.Algebra.BigOperators.Group.List.Basic

/-! Model of the dependency parser example (examples/bert-dep.py) and of its data (examples/data/data.py, `ConllXDataset` in examples/data/trees.py).

The pretrained network and its tokenizer are parameters: nothing is assumed about them unless a theorem says so.  Dropout is the identity (evaluation mode). -/

open Finset

noncomputable section
namespace BertDep

/-! ### Reading the data -/

/-- One line of a file: `none` if nothing is left after `strip()`, otherwise the fields of `line.split(separator)` (trees.py:12-18). -/
abbrev Line : Type := Option (List String)

/-- Lines 18-20 of trees.py: fields 1 and 6 are appended to the two columns. -/
def addLine (columns : List String × List String) (fields : List String) : List String × List String :=
  (columns.1 ++ (fields[1]?).toList, columns.2 ++ (fields[6]?).toList)

/-- One iteration of the loop of trees.py:11-20: `examples` and `columns`.  `columns` is a list of two lists, so `if columns:` is always true. -/
def readLine (s : List (List String × List String) × (List String × List String)) : Line → List (List String × List String) × (List String × List String)
  | none => (s.1 ++ [s.2], ([], []))
  | some fields => (s.1, addLine s.2 fields)

/-- `ConllXDataset.__init__` (trees.py:6-23): the columns of every example, before the fields' preprocessing. -/
def conllx (file : List Line) : List (List String × List String) :=
  let s := file.foldl readLine ([], ([], []))
  s.1 ++ [s.2]

/-! ### Subword pieces -/

/-- The state of the loop of data.py:9-26.  Of `expect` only the length is used. -/
structure Tok where
  out : List ℤ
  cur : ℕ
  expect : ℕ
  first : Bool

/-- A string, as the list of its characters. (data.py:5-32) -/
abbrev Str : Type := List Char

/-- `w.startswith("##")`. (data.py:18) -/
def hashes (w : Str) : Bool := ['#', '#'].isPrefixOf w

/-- One iteration of data.py:13-26.  `lower` is `str.lower`; `q[cur - 1]` raises when there are more words in the pieces than in `q`. -/
def tokStep (lower : Str → Str) (q : List Str) (s : Tok) (w : Str) : Except PyErr Tok := do
  let s ← if s.expect = 0 then
      match q[s.cur]? with
      | none => .error .index
      | some x => .ok { s with cur := s.cur + 1, expect := (lower x).length, first := true }
    else .ok s
  if hashes w then .ok { s with out := s.out ++ [-1], expect := s.expect - (w.length - 2) }
  else if s.first then .ok { s with out := s.out ++ [(s.cur : ℤ)], expect := s.expect - w.length, first := false }
  else .ok { s with expect := s.expect - w.length }

/-- `token_pre(tokenizer, q)` (data.py:5-32).  `tokenize` and `encode` are the tokenizer's methods on `" ".join(q)`. -/
def tokenPre (lower : Str → Str) (tokenize : List Str → List Str) (encode : List Str → List ℕ) (q : List Str) : Except PyErr (List ℕ × List ℤ) := do
  let s ← (tokenize q).foldlM (tokStep lower q) ⟨[0], 0, 0, true⟩
  let out := s.out ++ [(s.cur : ℤ) + 1]
  if s.cur ≠ q.length then .ok (List.replicate (q.length + 2) 0, List.replicate (q.length + 2) 0)
  else .ok (encode q, out)

/-- `max` of a Python list. (data.py:38, 41, 42) -/
def maxOf (l : List ℕ) : Except PyErr ℕ :=
  match l with
  | [] => .error .value
  | a :: l => .ok (l.foldl max a)

/-- The mapper of one row (data.py:43-47): entry `(i, w)` is 1 exactly if position `i` of the list holds `w ≠ -1`. -/
def mapperRow (l : List ℤ) (i w : ℕ) : ℝ := if l[i]? = some (w : ℤ) then 1 else 0

/-- `token_post(ls)` (data.py:35-48): the ids padded with 0, the mapper (pieces × words), and its sizes.  The row's list of word numbers must not be longer
than the padded ids (46-47). -/
def tokenPost (ls : List (List ℕ × List ℤ)) : Except PyErr (ℕ × ℕ × (ℕ → ℕ → ℕ) × (ℕ → ℕ → ℕ → ℝ)) := do
  let length ← maxOf (ls.map fun l => l.1.length)
  let length2 ← maxOf (ls.map fun l => (l.2.foldl max (l.2.headD 0) + 1).toNat)
  if ∃ l ∈ ls, length < l.2.length then .error .index
  else .ok (length, length2, fun b i => (ls.getD b ([], [])).1.getD i 0, fun b => mapperRow (ls.getD b ([], [])).2)

/-! ### Potentials -/

/-- `Model.forward` (bert-dep.py:52-61): `vec` is the output of the pretrained network (row, piece, feature), `P` the number of pieces, `H` the number of features,
`lin`, `bil`, `root` the parameters, `W` the number of columns of the mapper. -/
def forward (H P W : ℕ) (lin bil : ℕ → ℕ → ℝ) (root : ℕ → ℝ) (batch : ℕ) (mapper : ℕ → ℕ → ℕ → ℝ) (vec : ℕ → ℕ → ℕ → ℝ) : DepTree.Arcs ℝ :=
  let out : ℕ → ℕ → ℕ → ℝ := fun b w h => ∑ i ∈ range P, mapper b i w * vec b i h
  let final1 : ℕ → ℕ → ℕ → ℝ := fun b w g => ∑ h ∈ range H, out b w h * lin h g
  let final2 : ℕ → ℕ → ℕ → ℝ := fun b n m => ∑ h ∈ range H, ∑ g ∈ range H, out b n h * bil h g * final1 b m g
  let rootScore : ℕ → ℕ → ℝ := fun b w => ∑ h ∈ range H, out b w h * root h
  ⟨3, batch, W - 2, W - 2, 1, fun b i j _ => final2 b (i + 1) (j + 1) + if i = j then rootScore b (i + 1) else 0⟩

/-! ### Training and validation -/

/-- `batch_num(nums)` (bert-dep.py:19-25): the padded heads, their number of columns, the lengths. -/
def batchNum (nums : List (List ℕ)) : Except PyErr ((ℕ → ℕ → ℕ) × ℕ × List ℕ) := do
  let n ← maxOf (nums.map List.length)
  .ok (fun b i => (nums.getD b []).getD i 0, n, nums.map List.length)

/-- The first index of the slice `lengths[b]-1:` of a dimension of size `N`; `-1:` is the last element. (bert-dep.py:78-79, 102-103) -/
def sliceStart (N len : ℕ) : ℕ := if len = 0 then N - 1 else len - 1

/-- Lines 77-79 and 101-103 of bert-dep.py: `final[b, lengths[b]-1:, :] = 0`, `final[b, :, lengths[b]-1:] = 0`. -/
def mask (q : DepTree.Arcs ℝ) (lens : List ℕ) : DepTree.Arcs ℝ :=
  { q with get := fun b i j l => if sliceStart q.d1 (lens.getD b 0) ≤ i ∨ sliceStart q.d2 (lens.getD b 0) ≤ j then 0 else q.get b i j l }

/-- One batch of `validate` (bert-dep.py:72-83): what is added to `incorrect_edges` and to `total_edges`.  `final` is the output of the model, `nums` the heads of the
rows.  Simplification: the subtraction of tables of different sizes raises (PyTorch would repeat a table of size 1). -/
def validate (pick : List (Autograd.Grad (List ℕ)) → Autograd.Grad (List ℕ)) (final : DepTree.Arcs ℝ) (nums : List (List ℕ)) : Except PyErr (ℝ × ℝ) := do
  let (label, n, lengths) ← batchNum nums
  let μ ← DepTree.argmax true (mask final lengths) (some lengths) pick
  let gold ← DepTree.toParts nums.length n label (some lengths)
  if final.d0 ≠ nums.length ∨ final.d1 ≠ n then .error .runtime
  else .ok ((∑ b ∈ range nums.length, ∑ i ∈ range n, ∑ j ∈ range n, |μ [b, i, j] - (gold b i j : ℝ)|) / 2,
    ∑ b ∈ range nums.length, ∑ i ∈ range n, ∑ j ∈ range n, (gold b i j : ℝ))

/-- The loss of one batch of `train` (bert-dep.py:95-113); the test of line 105 is part of the hypotheses of the theorems. -/
def loss (final : DepTree.Arcs ℝ) (nums : List (List ℕ)) : Except PyErr ℝ := do
  let (label, n, lengths) ← batchNum nums
  let gold ← DepTree.toParts nums.length n label (some lengths)
  let ps ← (List.range nums.length).mapM fun b => DepTree.logProb true (mask final lengths) (some lengths) b fun i j _ => (gold b i j : ℝ)
  .ok ps.sum

end BertDep
