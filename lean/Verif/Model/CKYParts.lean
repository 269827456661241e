import Verif.Model.CKYCRF
import Mathlib.Data.Real.Basic

/-! Model of the encodings of `CKY` (torch_struct/cky.py:155-269): `to_parts`, `from_parts`, `_intermediary`, `to_networkx`. -/

namespace CKY

/-- A nonzero entry `(i, j, A)` of one row of the span table. (cky.py:169, 173, 177) -/
abbrev Cell : Type := ℕ × ℕ × ℕ

/-- `spans[b].nonzero()` (cky.py:169): the nonzero entries in row-major order. -/
noncomputable def cover (N S : ℕ) (f : ℕ → ℕ → ℕ → ℝ) : List Cell :=
  ((List.range N).flatMap fun i => (List.range N).flatMap fun j => (List.range S).map fun A => (i, j, A)).filter fun c => decide (f c.1 c.2.1 c.2.2 ≠ 0)

/-- `left[i]` (cky.py:170-174): the entries `(A, j, j - i + 1)` that start at `i`, in the order of `cover`. -/
def leftOf (cover : List Cell) (i : ℕ) : List (ℕ × ℕ × ℤ) :=
  (cover.filter fun c => c.1 = i).map fun c => (c.2.2, c.2.1, (c.2.1 : ℤ) - c.1 + 1)

/-- `right[j]` (cky.py:171-175): the entries `(A, i, j - i + 1)` that end at `j`. -/
def rightOf (cover : List Cell) (j : ℕ) : List (ℕ × ℕ × ℤ) :=
  (cover.filter fun c => c.2.1 = j).map fun c => (c.2.2, c.1, (c.2.1 : ℤ) - c.1 + 1)

/-- The condition of cky.py:181 (and 228). -/
def fits (i j : ℕ) (l r : ℕ × ℕ × ℤ) : Bool := decide (r.2.1 = l.2.1 + 1 ∧ l.2.2 + r.2.2 = (j : ℤ) - i + 1)

/-- The body of the loop of cky.py:179-183: `break` only leaves the inner loop, so that a later `B_p` with a match replaces the pair. -/
def lastStep (i j : ℕ) (right : List (ℕ × ℕ × ℤ)) (acc : Option (ℕ × ℕ)) (l : ℕ × ℕ × ℤ) : Option (ℕ × ℕ) :=
  match right.find? (fits i j l) with
  | some r => some (l.1, r.1)
  | none => acc

/-- Lines 178-183 of cky.py: the pair `(B, C)`, or `None`. -/
def lastSplit (cover : List Cell) (i j : ℕ) : Option (ℕ × ℕ) :=
  (leftOf cover i).foldl (lastStep i j (rightOf cover j)) none

/-- `rules[b, A, B, C] += 1`. (cky.py:186) -/
def bump (rules : ℕ → ℕ → ℕ → ℝ) (A B C : ℕ) (X y z : ℕ) : ℝ := if X = A ∧ y = B ∧ z = C then rules X y z + 1 else rules X y z

/-- One iteration of the loop of cky.py:176-186.  A symbol `A ≥ NT` on a wide span is out of range for `rules`. -/
def partStep (NT : ℕ) (cover : List Cell) (rules : ℕ → ℕ → ℕ → ℝ) (c : Cell) : Except PyErr (ℕ → ℕ → ℕ → ℝ) :=
  if c.1 < c.2.1 then
    match lastSplit cover c.1 c.2.1 with
    | none => .error .assertion
    | some (B, C) => if c.2.2 < NT then .ok (bump rules c.2.2 B C) else .error .index
  else .ok rules

/-- One row of the result of `to_parts`. (cky.py:161-163, 187) -/
structure RowParts where
  term : ℕ → ℕ → ℝ
  rule : ℕ → ℕ → ℕ → ℝ
  root : ℕ → ℝ

/-- The body of the loop of cky.py:164-186 for one row with span table `f i j A` and length `len`: `spans[b, 0, lengths[b] - 1, :NT]`, the diagonal of
the first `len` words, and the rules. -/
noncomputable def toPartsRow (NT T N : ℕ) (f : ℕ → ℕ → ℕ → ℝ) (len : ℕ) : Except PyErr RowParts :=
  if len ≤ N then
    ((cover N (NT + T) f).foldlM (partStep NT (cover N (NT + T) f)) fun _ _ _ => 0).map fun rules =>
      ⟨fun n t => if n < len then f n n (NT + t) else 0, rules, fun X => f 0 (CKYCRF.lastIndex N len) X⟩
  else .error .index

/-- `CKY.to_parts(spans, extra, lengths)` (cky.py:156-187) with `extra = (NT, T)` and `spans` of shape `batch x N x N x S`; one result for every
row.  `lengths` must be given (`lengths[b]` on `None` raises). -/
noncomputable def toParts (NT T batch N S : ℕ) (spans : ℕ → ℕ → ℕ → ℕ → ℝ) (lengths : Option (List ℕ)) : Except PyErr (List RowParts) :=
  if S ≠ NT + T then .error .assertion
  else match lengths with
    | none => .error .type
    | some l => (List.range batch).mapM fun b =>
      match l[b]? with
      | none => .error .index
      | some len => toPartsRow NT T N (spans b) len

/-- `CKY.from_parts(chart)` (cky.py:190-202), for rules that are anchored by width and start: `rules : b x N x N x NT x S x S` read by
`w i X y z` (width `w + 2`), `terms : b x N x T`.  One row of the span table, read by `i j A`; `rules.sum(dim=-1).sum(dim=-1)` on the wide spans,
`terms` on the diagonal. -/
noncomputable def fromPartsRow (NT T N : ℕ) (term : ℕ → ℕ → ℝ) (rule : ℕ → ℕ → ℕ → ℕ → ℕ → ℝ) (i j A : ℕ) : ℝ :=
  if i < j ∧ j < N ∧ A < NT then ((List.range (NT + T)).map fun y => ((List.range (NT + T)).map fun z => rule (j - i - 1) i A y z).sum).sum
  else if i = j ∧ j < N ∧ NT ≤ A ∧ A < NT + T then term i (A - NT) else 0

/-! ### `_intermediary` -/

/-- The body of the loop of cky.py:224-234, with the second `break`: the first `B_p` with a match wins. -/
def firstStep (i j : ℕ) (right : List (ℕ × ℕ × ℤ)) (acc : Option (ℕ × ℕ × ℕ)) (l : ℕ × ℕ × ℤ) : Option (ℕ × ℕ × ℕ) :=
  match acc with
  | some x => some x
  | none =>
    if j < l.2.1 then none
    else match right.find? (fits i j l) with
      | some r => some (l.2.1, l.1, r.1)
      | none => none

/-- Lines 221-234 of cky.py: `(k_final, b_final, c_final)`. -/
def firstSplit (cover : List Cell) (i j : ℕ) : Option (ℕ × ℕ × ℕ) :=
  (leftOf cover i).foldl (firstStep i j (rightOf cover j)) none

/-- One iteration of the loop of cky.py:217-236; `splits` is a dictionary keyed by `(i, j)` (all of one row). -/
def splitStep (cover : List Cell) (splits : ℕ × ℕ → Option (ℕ × ℕ × ℕ)) (c : Cell) : Except PyErr (ℕ × ℕ → Option (ℕ × ℕ × ℕ)) :=
  if c.1 = c.2.1 then .ok splits
  else match firstSplit cover c.1 c.2.1 with
    | none => .error .assertion
    | some x => .ok (Function.update splits (c.1, c.2.1) (some x))

/-- `CKY._intermediary(spans)` (cky.py:205-237) for one row: the dictionaries of the code are keyed by the row, so that the rows do not
interact. -/
noncomputable def intermediaryRow (N S : ℕ) (f : ℕ → ℕ → ℕ → ℝ) : Except PyErr (ℕ × ℕ → Option (ℕ × ℕ × ℕ)) :=
  (cover N S f).foldlM (splitStep (cover N S f)) fun _ => none

/-! ### `to_networkx` -/

/-- A nonzero entry `(b, i, j, A)` of the span table of a batch. (cky.py:208, 211, 244) -/
abbrev Cell4 : Type := ℕ × ℕ × ℕ × ℕ

/-- `spans.nonzero()` (cky.py:244) for a batch, in row-major order. -/
noncomputable def cover4 (batch N S : ℕ) (spans : ℕ → ℕ → ℕ → ℕ → ℝ) : List Cell4 :=
  (List.range batch).flatMap fun b => (cover N S (spans b)).map fun c => (b, c)

/-- `n_nodes = int(spans.sum().item())` (cky.py:243), before the conversion to an integer. -/
noncomputable def nNodes (batch N S : ℕ) (spans : ℕ → ℕ → ℕ → ℕ → ℝ) : ℝ :=
  ((List.range batch).map fun b => (((List.range N).flatMap fun i => (List.range N).flatMap fun j => (List.range S).map fun A => (i, j, A)).map
    fun c => spans b c.1 c.2.1 c.2.2).sum).sum

/-- The state of the loop of `to_networkx`: the dictionaries `left` and `right`, the lists `a` and `b`, `topo` and `cur`. (cky.py:241-252) -/
structure NxState where
  left : ℕ × ℕ → Option (ℕ × ℕ)
  right : ℕ × ℕ → Option (ℕ × ℕ)
  a : List ℕ
  b : List ℕ
  topo : ℕ → List ℕ
  cur : ℕ

/-- Lines 264-267 of cky.py: register node `cur` with its `order`. -/
def nxPut (N : ℕ) (s : NxState) (c : Cell4) (order : ℕ) (a b : List ℕ) : Except PyErr NxState :=
  if order < N then .ok ⟨Function.update s.left (c.1, c.2.1) (some (s.cur, order)), Function.update s.right (c.1, c.2.2.1) (some (s.cur, order)), a, b,
    Function.update s.topo order (s.topo order ++ [s.cur]), s.cur + 1⟩
  else .error .index

/-- One iteration of the loop of cky.py:253-267; a missing key raises `KeyError`. -/
def nxStep (N : ℕ) (s : NxState) (c : Cell4) : Except PyErr NxState :=
  if c.2.1 = c.2.2.1 then nxPut N s c 0 s.a s.b
  else match s.left (c.1, c.2.1), s.right (c.1, c.2.2.1) with
    | some l, some r => nxPut N s c (max l.2 r.2 + 1) (s.a ++ [l.1, r.1]) (s.b ++ [s.cur, s.cur])
    | _, _ => .error .key

/-- The loop of `CKY.to_networkx(spans)` (cky.py:240-269) over `ordered`, the nonzero entries sorted by width (`torch.argsort`, which need not be
stable). -/
def toNetworkx (N : ℕ) (ordered : List Cell4) : Except PyErr NxState :=
  ordered.foldlM (nxStep N) ⟨fun _ => none, fun _ => none, [], [], fun _ => [], 0⟩

end CKY
