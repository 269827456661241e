import Mathlib.Data.Real.Basic
import Verif.Model.Semiring

/-! Model of the memory under the tensors: storages, views on them, allocation and in-place writes.  The other models are functions on tables; the
programs in `Model/ChainMemory.lean` and its neighbours are the same methods with every allocation, every view and every in-place write of the code.

Simplifications: exact real numbers; tensors of booleans (masks) are functions; autograd is not part of this model. -/

/-- Storages by number; the numbers below `next` are in use.  A storage maps addresses to values. (memory behind the tensor code of linearchain.py:44-85, cky_crf.py:16-43, deptree.py:49-124) -/
structure Heap where
  next : ℕ
  data : ℕ → ℕ → ℝ

/-- A tensor in memory: a storage, an offset, and a size and a stride for every dimension, as in torch. (used for the tensor code of linearchain.py:44-85, cky_crf.py:16-43, deptree.py:49-124) -/
structure View where
  storage : ℕ
  offset : ℕ
  shape : List ℕ
  strides : List ℕ

namespace View

/-- The address of the entry with index `ix`. (used for the tensor code of linearchain.py:44-85, cky_crf.py:16-43, deptree.py:49-124) -/
def addr (t : View) (ix : List ℕ) : ℕ := t.offset + (List.zipWith (· * ·) ix t.strides).sum

/-- The strides of a contiguous (row-major) tensor. (linearchain.py:71-75) -/
def rowMajor : List ℕ → List ℕ
  | [] => []
  | _ :: ds => ds.prod :: rowMajor ds

/-- `ix` is an index of a tensor of this shape. (used for the tensor code of linearchain.py:44-85, cky_crf.py:16-43, deptree.py:49-124) -/
def Valid : List ℕ → List ℕ → Prop
  | [], [] => True
  | d :: ds, i :: is => i < d ∧ Valid ds is
  | _, _ => False

/-- All indices of a shape. (used for the tensor code of linearchain.py:44-85, cky_crf.py:16-43, deptree.py:49-124) -/
def indices : List ℕ → List (List ℕ)
  | [] => [[]]
  | d :: ds => (List.range d).flatMap fun i => (indices ds).map fun ix => i :: ix

/-- The index of the entry at address `a` of a contiguous tensor. (linearchain.py:71-75) -/
def unravel : List ℕ → ℕ → List ℕ
  | [], _ => []
  | _ :: ds, a => (a / ds.prod) :: unravel ds (a % ds.prod)

/-- The basic slice `t[..., start:stop:step, ...]` at dimension `d`, for `start ≤ stop ≤ size`: a view. (linearchain.py:70, 83; cky_crf.py:34-39; deptree.py:93-111) -/
def slice (t : View) (d start stop step : ℕ) : View :=
  { t with offset := t.offset + start * t.strides.getD d 0, shape := t.shape.set d ((stop - start + step - 1) / step),
           strides := t.strides.set d (step * t.strides.getD d 0) }

/-- `t[..., i, ...]` at dimension `d`: a view without that dimension. (linearchain.py:84; cky_crf.py:38-41) -/
def select (t : View) (d i : ℕ) : View :=
  { t with offset := t.offset + i * t.strides.getD d 0, shape := t.shape.eraseIdx d, strides := t.strides.eraseIdx d }

/-- `t.diagonal(o, d, d + 1)` for `o ≥ 0`, a view: the two dimensions are replaced by one at the end. (linearchain.py:57; cky_crf.py:25, 36) -/
def diagonal (t : View) (o d : ℕ) : View :=
  { t with offset := t.offset + o * t.strides.getD (d + 1) 0,
           shape := (t.shape.eraseIdx (d + 1)).eraseIdx d ++ [min (t.shape.getD d 0) (t.shape.getD (d + 1) 0 - o)],
           strides := (t.strides.eraseIdx (d + 1)).eraseIdx d ++ [t.strides.getD d 0 + t.strides.getD (d + 1) 0] }

/-- `t.unsqueeze(0)`: a view with a first dimension of size 1. (semirings.py:68) -/
def unsqueeze0 (t : View) : View := { t with shape := 1 :: t.shape, strides := t.shape.prod :: t.strides }

/-- `t.permute(p)`: a view. (semirings.py:207, 210) -/
def permute (t : View) (p : List ℕ) : View := { t with shape := p.map fun d => t.shape.getD d 0, strides := p.map fun d => t.strides.getD d 0 }

end View

namespace Heap
open View

/-- The entry of a tensor. (used for the tensor code of linearchain.py:44-85, cky_crf.py:16-43, deptree.py:49-124) -/
def read (h : Heap) (t : View) (ix : List ℕ) : ℝ := h.data t.storage (t.addr ix)

/-- The heap after the allocation of a contiguous tensor with entries `f`. (used for the tensor code of linearchain.py:44-85, cky_crf.py:16-43, deptree.py:49-124) -/
def push (h : Heap) (shape : List ℕ) (f : List ℕ → ℝ) : Heap := ⟨h.next + 1, fun s a => if s = h.next then f (unravel shape a) else h.data s a⟩

/-- The heap after `t[...] = f`: the entries of `t` are overwritten. (linearchain.py:70, 76-77; cky_crf.py:27-28, 38-39) -/
def write (h : Heap) (t : View) (f : List ℕ → ℝ) : Heap :=
  { h with data := fun s a => if s = t.storage then (match (indices t.shape).find? fun ix => decide (t.addr ix = a) with
      | some ix => f ix
      | none => h.data s a) else h.data s a }

end Heap

/-- A piece of code: it changes the heap, and returns or raises. (the tensor code of linearchain.py:44-85, cky_crf.py:16-43, deptree.py:49-124) -/
def HeapM (β : Type) : Type := Heap → Except PyErr β × Heap

namespace HeapM
open View
variable {β γ : Type}

/-- (sequencing of statements) -/
instance : Monad HeapM where
  pure x := fun h => (.ok x, h)
  bind m k := fun h => match m h with
    | (.ok x, h') => k x h'
    | (.error e, h') => (.error e, h')

/-- A check that may raise. (linearchain.py:39-41) -/
def lift (x : Except PyErr β) : HeapM β := fun h => (x, h)

/-- A new contiguous tensor whose entries are computed from the present heap: the result of every operation that is not a view and not in place. (used for the tensor code of linearchain.py:44-85, cky_crf.py:16-43, deptree.py:49-124) -/
def alloc (shape : List ℕ) (f : Heap → List ℕ → ℝ) : HeapM View := fun h => (.ok ⟨h.next, 0, shape, rowMajor shape⟩, h.push shape (f h))

/-- `torch.zeros(shape)`. (linearchain.py:61-69; helpers.py:8-12, 56-60) -/
def zeros (shape : List ℕ) : HeapM View := alloc shape fun _ _ => 0

/-- `t[...] = e`, where the entries of `e` are computed from the present heap. (linearchain.py:70, 76-79; cky_crf.py:27-28, 38-39) -/
def assign (t : View) (f : Heap → List ℕ → ℝ) : HeapM Unit := fun h => (.ok (), h.write t (f h))

/-- `t.view(shape)`.  Simplification: only of contiguous tensors; torch also accepts other tensors if the dimensions that are merged lie one after the
other, and raises for the rest. (linearchain.py:71-75; semirings.py:208, 229-232) -/
def view (t : View) (shape : List ℕ) : HeapM View :=
  if t.strides = rowMajor t.shape ∧ t.shape.prod = shape.prod then pure { t with shape := shape, strides := rowMajor shape } else lift (.error .runtime)

/-- `t.contiguous()`: `t` itself if it is contiguous, else a copy. (linearchain.py:84; semirings.py:208, 232) -/
def contiguous (t : View) : HeapM View := if t.strides = rowMajor t.shape then pure t else alloc t.shape fun h ix => h.read t ix

/-- `torch.stack([a, b], dim=-1)`. (linearchain.py:79) -/
def stack (a b : View) : HeapM View :=
  alloc (a.shape ++ [2]) fun h ix => if ix.getLastD 0 = 0 then h.read a ix.dropLast else h.read b ix.dropLast

end HeapM

/-- How the elements of a semiring lie in the first dimension of the tensors (`semiring.size()`, semirings.py:39-41, 186-187, 259-260, 373-374): `dec`
reads an element off that dimension, `enc` writes it. -/
structure Layout (α : Type) where
  size : ℕ
  dec : (ℕ → ℝ) → α
  enc : α → ℕ → ℝ

namespace Layout
open View HeapM
variable {α : Type} (E : Layout α) (S : SR α)

/-- The element at `ix` of a tensor of semiring elements. (semirings.py, first dimension of size `size()`) -/
def get (h : Heap) (t : View) (ix : List ℕ) : α := E.dec fun s => h.read t (s :: ix)

/-- The value at index `s :: ix` of a tensor with element `x ix` at `ix`. (semirings.py, first dimension of size `size()`) -/
def put (x : List ℕ → α) : List ℕ → ℝ
  | [] => 0
  | s :: ix => E.enc (x ix) s

/-- `_make_chart` (helpers.py:52-63), one chart: `torch.zeros`, overwritten by `zero`. -/
def makeChart (shape : List ℕ) : HeapM View := do
  let c ← zeros (E.size :: shape)
  assign c fun _ => E.put fun _ => S.zero
  pure c

/-- `Chart(size, potentials, semiring)` (helpers.py:6-16): `data` as in `_make_chart`, and `grad`, which nothing reads.  The result is `data`. -/
def chart (shape : List ℕ) : HeapM View := do
  let c ← E.makeChart S shape
  let _ ← alloc (E.size :: shape) fun _ _ => 0
  pure c

/-- `Semiring.fill(c, mask, v)` (semirings.py:50-55): `torch.where`, a new tensor. -/
def fill (c : View) (mask : List ℕ → Bool) (v : α) : HeapM View :=
  alloc c.shape fun h => E.put fun ix => SR.fill (E.get h c ix) (mask ix) v

/-- `semiring.sum(t)`, over the last dimension. (semirings.py:75-76) -/
def reduce (t : View) : HeapM View :=
  alloc t.shape.dropLast fun h => E.put fun ix => S.sum ((List.range (t.shape.getLastD 0)).map fun j => E.get h t (ix ++ [j]))

/-- `matmul` (semirings.py:12-20) of tensors of shapes `batch x n x m x k` and `batch x n x k x l` (after the first dimension): `times` of
`a.unsqueeze(-1)` and `b.unsqueeze(-3)`, then `sum(c.transpose(-2, -1))`. -/
def matmul (a b : View) : HeapM View :=
  match a.shape, b.shape with
  | [s, d0, d1, m, k], [_, _, _, _, l] => do
    let c ← alloc [s, d0, d1, m, k, l] fun h => E.put fun ix => match ix with
      | [x, y, i, q, j] => S.mul (E.get h a [x, y, i, q]) (E.get h b [x, y, q, j])
      | _ => S.zero
    E.reduce S (c.permute [0, 1, 2, 3, 5, 4])
  | _, _ => lift (.error .runtime)

/-- `semiring.times(a, b)` of tensors of the same shape. (semirings.py:57-63) -/
def times (a b : View) : HeapM View := alloc a.shape fun h => E.put fun ix => S.mul (E.get h a ix) (E.get h b ix)

/-- `Semiring.dot` (semirings.py:43-48): the products, and their sum over the last dimension. -/
def dot (a b : View) : HeapM View := do
  let c ← E.times S a b
  E.reduce S c

end Layout
