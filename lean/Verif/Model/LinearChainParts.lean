import Verif.Model.LinearChain

/-! Model of the static adapters of torch_struct/linearchain.py: `to_parts`, `from_parts`, `hmm`. -/

/-- A 2-dimensional tensor: dimensions and entries. (linearchain.py:102, 126) -/
structure T2 (α : Type) where
  (d0 d1 : ℕ)
  get : ℕ → ℕ → α

namespace LinearChain

/-- A Python slice start `start` (possibly negative) on a dimension of size `size`. (linearchain.py:109) -/
def sliceStart (size : ℕ) (start : ℤ) : ℕ :=
  if start < 0 then (start + size).toNat else start.toNat

/-- The default of `lengths` in the `to_parts` functions (linearchain.py:104-105, semimarkov.py:138-139, deptree.py:160-161):
`torch.LongTensor([N] * batch)`. -/
def lensOr (batch N : ℕ) : Option (List ℕ) → List ℕ
  | none => List.replicate batch N
  | some ls => ls

/-- `LinearChain.to_parts` (linearchain.py:87-110).  `sequence` has shape `batch x N`; a class outside `[0, C-1]` that is read raises
`IndexError` (simplification: classes are natural numbers, so Python's negative indices do not occur), `torch.zeros(batch, N - 1, ..)` with
`N = 0` raises `RuntimeError`, and a `lengths` shorter than the batch raises `IndexError`. -/
def toParts (sequence : T2 ℕ) (C : ℕ) (lengths : Option (List ℕ)) : Except PyErr (T4 ℕ) :=
  let batch := sequence.d0
  let N := sequence.d1
  let lens := lensOr batch N lengths
  if N = 0 then .error .runtime
  else if 2 ≤ N ∧ ∃ b ∈ List.range batch, ∃ n ∈ List.range N, C ≤ sequence.get b n then .error .index
  else if lens.length < batch then .error .index
  else
    -- for n in range(1, N): labels[arange(batch), n - 1, sequence[:, n], sequence[:, n - 1]] = 1
    let labels : ℕ → ℕ → ℕ → ℕ → ℕ := (List.range' 1 (N - 1)).foldl
      (fun t n => fun b m i j => if m = n - 1 ∧ i = sequence.get b n ∧ j = sequence.get b (n - 1) then 1 else t b m i j)
      (fun _ _ _ _ => 0)
    -- for b in range(batch): labels[b, lengths[b] - 1 :, :, :] = 0
    let labels' := (List.range batch).foldl
      (fun t b => fun b' m i j => if b' = b ∧ sliceStart (N - 1) ((lens.getD b 0 : ℤ) - 1) ≤ m then 0 else t b' m i j) labels
    .ok ⟨batch, N - 1, C, C, labels'⟩

/-- `edge.nonzero()`: the indices of the non-zero entries, in row-major order. (linearchain.py:127) -/
def nonzero (edge : T4 ℕ) : List (ℕ × ℕ × ℕ × ℕ) :=
  (List.range edge.d0).flatMap fun b => (List.range edge.d1).flatMap fun n => (List.range edge.d2).flatMap fun i =>
    ((List.range edge.d3).filter fun j => edge.get b n i j ≠ 0).map fun j => (b, n, i, j)

/-- The loop body of `from_parts` (linearchain.py:129-132): the writes `(row, position) := value` of one non-zero entry, in order. -/
def partWrites (o : ℕ × ℕ × ℕ × ℕ) : List ((ℕ × ℕ) × ℕ) :=
  (if o.2.1 = 0 then [((o.1, o.2.1), o.2.2.2)] else []) ++ [((o.1, o.2.1 + 1), o.2.2.1)]

/-- `LinearChain.from_parts` (linearchain.py:112-132). -/
def fromParts (edge : T4 ℕ) : T2 ℕ × ℕ :=
  let labels : ℕ × ℕ → ℕ := ((nonzero edge).flatMap partWrites).foldl (fun t w => fun k => if k = w.1 then w.2 else t k) (fun _ => 0)
  (⟨edge.d0, edge.d1 + 1, fun b n => labels (b, n)⟩, edge.d2)

/-- `LinearChain.hmm` (linearchain.py:135-157).  `transition : C x C`, `emission : V x C`, `init : C`, `observations : b x N`.  An observation
outside `[0, V-1]` raises `IndexError`; `N = 0` raises `RuntimeError`; with `N = 1` the write `scores[:, 0]` raises `IndexError`.
Simplification: the shapes of `transition` and `init` are those documented. -/
def hmm {R : Type} [Add R] [Zero R] (V C : ℕ) (transition : ℕ → ℕ → R) (emission : ℕ → ℕ → R) (init : ℕ → R) (observations : T2 ℕ) :
    Except PyErr (T4 R) :=
  let batch := observations.d0
  let N := observations.d1
  if N = 0 then .error .runtime
  else if N = 1 then .error .index
  else if ∃ b ∈ List.range batch, ∃ n ∈ List.range N, V ≤ observations.get b n then .error .index
  else
    -- obs = emission[observations.view(batch * N), :], read back as obs.view(batch, N, C)
    let obs : ℕ → ℕ → ℕ → R := fun b n => Struct.unflat N (fun r => emission (Struct.flat N observations.get r)) b n
    let s0 : ℕ → ℕ → ℕ → ℕ → R := fun _ _ _ _ => 0
    let s1 := fun b n i j => s0 b n i j + transition i j
    let s2 := fun b n i j => if n = 0 then s1 b n i j + init j else s1 b n i j
    let s3 := fun b n i j => s2 b n i j + obs b (n + 1) i
    let s4 := fun b n i j => if n = 0 then s3 b n i j + obs b 0 j else s3 b n i j
    .ok ⟨batch, N - 1, C, C, s4⟩

end LinearChain
