import Verif.Model.CKYParts

/-! Model of the reader of bracketed data (examples/data/trees.py, class `ListOpsDataset`) and of the printer of trees (`show` in examples/tree.py).

A line is given by its tokens: `b.split()` has been done. -/

namespace ListOps

/-- The state of the loop of trees.py:53-64: `cur`, `spans`, `stack` (its last element first). -/
structure State where
  cur : ℤ
  spans : List (ℤ × ℤ × String)
  stack : List ℤ

/-- One iteration of the loop (trees.py:56-64).  `stack[-1]` of an empty list raises. -/
def step (s : State) (w : String) : Except PyErr State :=
  if w = "(" then .ok { s with stack := s.cur :: s.stack }
  else if w = ")" then
    match s.stack with
    | [] => .error .index
    | a :: stack => .ok ⟨s.cur, s.spans ++ [(a, s.cur - 1, w)], stack⟩
  else .ok ⟨s.cur + 1, s.spans ++ [(s.cur, s.cur, w)], s.stack⟩

/-- `w not in "()"` (trees.py:51): a test for substrings. -/
def inBrackets (w : String) : Bool := w = "" || w = "(" || w = ")" || w = "()"

/-- Lines 51-65 of trees.py: the words and the spans of one line. -/
def parse (tokens : List String) : Except PyErr (List String × List (ℤ × ℤ × String)) := do
  let s ← tokens.foldlM step ⟨0, [], []⟩
  .ok (tokens.filter fun w => !inBrackets w, s.spans)

/-- An index into a dimension of size `n`: negative numbers count from the end. (trees.py:38-40) -/
def index (n : ℕ) (i : ℤ) : Except PyErr ℕ :=
  if 0 ≤ i then (if i < n then .ok i.toNat else .error .index) else if 0 ≤ i + n then .ok (i + n).toNat else .error .index

/-- `ret[b, i, j, c] = 1`. (trees.py:38-40) -/
def put (f : ℕ → ℕ → ℕ → ℝ) (i j c : ℕ) (i' j' c' : ℕ) : ℝ := if i' = i ∧ j' = j ∧ c' = c then 1 else f i' j' c'

/-- One iteration of the loop of trees.py:36-40; `L` is `length`, `C` is `10 + len(v.vocab)`, `stoi` the numbers of the words. -/
def postStep (L C : ℕ) (stoi : String → ℕ) (f : ℕ → ℕ → ℕ → ℝ) (s : ℤ × ℤ × String) : Except PyErr (ℕ → ℕ → ℕ → ℝ) := do
  let i ← index L s.1
  let j ← index L s.2.1
  let c ← index C (if s.1 = s.2.1 then stoi s.2.2 + 1 else 0)
  .ok (put f i j c)

/-- `lengths = [l[-1][1] for l in ls]` (trees.py:32). -/
def lastEnd (l : List (ℤ × ℤ × String)) : Except PyErr ℤ :=
  match l.getLast? with
  | none => .error .index
  | some s => .ok s.2.1

/-- `tree_field(v)` (trees.py:28-43) on a batch of span lists: `length` and the tables of the rows.  `max` of an empty list raises. -/
def treeField (V : ℕ) (stoi : String → ℕ) (ls : List (List (ℤ × ℤ × String))) : Except PyErr (ℕ × List (ℕ → ℕ → ℕ → ℝ)) := do
  let lengths ← ls.mapM lastEnd
  if lengths = [] then .error .value
  let length := (lengths.foldl max (lengths.headD 0) + 1).toNat
  let rows ← ls.mapM fun l => l.foldlM (postStep length (10 + V) stoi) fun _ _ _ => 0
  .ok (length, rows)

/-- `start.setdefault(i, -1); start[i] += 1` (tree.py:196-199). -/
def count (d : ℕ → Option ℤ) (i : ℕ) (k : ℕ) : Option ℤ := if k = i then some ((d i).getD (-1) + 1) else d k

/-- The dictionaries `start` and `end` (tree.py:191-199), from the nonzero entries. -/
def dicts (cells : List CKY.Cell) : (ℕ → Option ℤ) × (ℕ → Option ℤ) :=
  cells.foldl (fun d c => (count d.1 c.1, count d.2 c.2.1)) (fun _ => none, fun _ => none)

/-- `show(tree)` (tree.py:189-206): the table has `N` words and `C` labels, `out` are the words of the row. -/
noncomputable def «show» (N C : ℕ) (f : ℕ → ℕ → ℕ → ℝ) (out : List String) : String :=
  let d := dicts (CKY.cover N C f)
  String.join (out.zipIdx.flatMap fun wi =>
    List.replicate ((d.1 wi.2).getD 0).toNat "( " ++ [wi.1 ++ " "] ++ List.replicate ((d.2 wi.2).getD 0).toNat ") ")

end ListOps
