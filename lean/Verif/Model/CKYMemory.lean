import Verif.Model.CKY
import Verif.Model.ChainMemory
import Verif.Model.Sem
import Verif.Model.Strides

/-! `CKY.logpartition` (torch_struct/cky.py:8-79) with its allocations, views and in-place writes. -/

namespace CKY
open View HeapM
variable {α : Type}

/-- `t.view(...)` of cky.py:36, which only adds a dimension of size 1 at place `d`; torch accepts this for any strides.  The new stride is never used. -/
def addDim (t : View) (d : ℕ) : View := { t with shape := t.shape.insertIdx d 1, strides := t.strides.insertIdx d 0 }

/-- `arr(a, b)` (cky.py:38-39) for the slices `oy : oy + m` and `oz : oz + n`. -/
def arrM (E : Layout α) (batch NT : ℕ) (rules : View) (oy m oz n : ℕ) : HeapM View := do
  let x ← contiguous ((rules.slice 4 oy (oy + m) 1).slice 5 oz (oz + n) 1)
  let x ← view x [E.size, batch, NT, m * n]
  pure (x.permute [0, 1, 3, 2])

/-- `matmul` (semirings.py:12-20) of tensors of shapes `batch x m x k` and `batch x k x l` (after the first dimension). -/
def matmul4 (E : Layout α) (S : SR α) (a b : View) : HeapM View :=
  match a.shape, b.shape with
  | [s, d0, m, k], [_, _, _, l] => do
    let c ← alloc [s, d0, m, k, l] fun h => E.put fun ix => match ix with
      | [x, i, q, j] => S.mul (E.get h a [x, i, q]) (E.get h b [x, q, j])
      | _ => S.zero
    E.reduce S (c.permute [0, 1, 2, 4, 3])
  | _, _ => lift (.error .runtime)

/-- `times(Y, Z)` of `y.unsqueeze(-1)` and `z.unsqueeze(-2)` (cky.py:58-69), with broadcasting. -/
def outer (E : Layout α) (S : SR α) (y z : View) : HeapM View :=
  match y.shape, z.shape with
  | [s, d0, d1, m], [_, _, _, n] => alloc [s, d0, d1, m, n] fun h => E.put fun ix => match ix with
      | [x, i, p, q] => S.mul (E.get h y [x, i, p]) (E.get h z [x, i, q])
      | _ => S.zero
  | _, _ => lift (.error .runtime)

/-- `torch.stack(xs, dim=-1)` of tensors of the same shape. (cky.py:72) -/
def stackM (xs : List View) : HeapM View :=
  match xs with
  | [] => lift (.error .runtime)
  | x :: _ => alloc (x.shape ++ [xs.length]) fun h ix => h.read (xs.getD (ix.getLastD 0) x) ix.dropLast

/-- The tensors that the loop uses: `beta[A]`, `beta[B]`, `term_use`, `X_Y_Z`, `X_Y1_Z`, `X_Y_Z1`, `X_Y1_Z1` (cky.py:29-46). -/
structure Tensors where
  a : View
  b : View
  term : View
  nn : View
  tn : View
  nt : View
  tt : View

/-- The body of the loop (cky.py:49-74).  `views w` is the outcome of the three `view`s of products with `term_use` in round `w`, which depends on the layout
of the caller's tensor (`Strides.ckyRound`).  Simplification: apart from that, the results of operations are contiguous. -/
def stepM (E : Layout α) (S : SR α) (views : ℕ → Except PyErr Unit) (batch N T NT : ℕ) (t : Tensors) (w : ℕ) : HeapM Unit := do
  -- 53-56
  let y := (t.a.slice 2 0 (N - w) 1).slice 3 0 w 1
  let z := (t.b.slice 2 w N 1).slice 3 (N - w) N 1
  let m ← E.matmul S (y.permute [0, 1, 2, 4, 3]) z
  let m ← view m [E.size, batch, N - w, NT * NT]
  let x1 ← matmul4 E S m t.nn
  -- 58-66
  let yTerm := t.term.slice 2 0 (N - w) 1
  let zTerm := t.term.slice 2 w N 1
  lift (views w)
  let m ← outer E S (y.select 3 (w - 1)) zTerm
  let m ← view m [E.size, batch, N - w, NT * T]
  let x2 ← matmul4 E S m t.nt
  let m ← outer E S yTerm (z.select 3 0)
  let m ← view m [E.size, batch, N - w, T * NT]
  let x3 ← matmul4 E S m t.tn
  -- 68-72
  let all ← if w = 1 then do
      let m ← outer E S yTerm zTerm
      let m ← view m [E.size, batch, N - w, T * T]
      let x4 ← matmul4 E S m t.tt
      stackM [x1, x2, x3, x4]
    else stackM [x1, x2, x3]
  let span ← E.reduce S all
  -- 73-74
  assign ((t.a.slice 2 0 (N - w) 1).select 3 w) fun h => h.read span
  assign ((t.b.slice 2 w N 1).select 3 (N - w - 1)) fun h => h.read span

/-- The loop `for w in range(1, N)` (cky.py:48), for the given values of `w`. -/
def loopM (E : Layout α) (S : SR α) (views : ℕ → Except PyErr Unit) (batch N T NT : ℕ) (t : Tensors) : List ℕ → HeapM Unit
  | [] => pure ()
  | w :: ws => do
    stepM E S views batch N T NT t w
    loopM E S views batch N T NT t ws

/-- `top` (cky.py:77), a new tensor: `final[:, i]` raises if there are more lengths than rows, `l - 1` if a length is too large, and `torch.stack` if there
are no lengths. -/
def topM (E : Layout α) (batch N NT : ℕ) (final : View) (lens : List ℕ) : HeapM View :=
  if ∀ l ∈ lens, l ≤ N then
    if batch < lens.length then lift (.error .index)
    else if lens.length = 0 then lift (.error .runtime)
    else alloc [E.size, lens.length, NT] fun h ix =>
      h.read final [ix.getD 0 0, ix.getD 1 0, CKYCRF.lastIndex N (lens.getD (ix.getD 1 0) 0), ix.getD 2 0]
  else lift (.error .index)

/-- `semiring.dot(top, roots)` (cky.py:78) with broadcasting over the rows of `top`: it must have `batch` rows or one. -/
def dotM (E : Layout α) (S : SR α) (batch rows NT : ℕ) (top roots : View) : HeapM View :=
  if rows = batch ∨ rows = 1 then do
    let x ← alloc [E.size, batch, NT] fun h => E.put fun ix =>
      S.mul (E.get h top [if rows = batch then ix.getD 0 0 else 0, ix.getD 1 0]) (E.get h roots ix)
    E.reduce S x
  else lift (.error .runtime)

/-- `CKY.logpartition` (cky.py:8-79) on the heap.  `terms`, `rules`, `roots` are `semiring.convert` of the caller's tensors, of shapes `batch x N x T`,
`batch x NT x S' x S'` and `batch x NT`.  The exceptions are those of `logpartition`, in its order. -/
def logpartitionM (E : Layout α) (S : SR α) (views : ℕ → Except PyErr Unit) (batch N T NT S' : ℕ) (terms rules roots : HeapM View)
    (lengths : Option (List ℕ)) : HeapM View := do
  -- 19-25
  let terms ← terms
  let rules ← rules
  let roots ← roots
  let lens := CKYCRF.lensOr batch N lengths
  -- 29-32
  let a ← E.chart S [batch, N, N, NT]
  let b ← E.chart S [batch, N, N, NT]
  let termUse ← alloc terms.shape fun h => h.read terms
  -- 35-46: the `view`s of lines 36 and 39
  if S' ≠ NT + T ∨ NT = 0 ∨ T = 0 ∨ batch = 0 then lift (.error .runtime)
  let rules := addDim rules 2
  let nn ← arrM E batch NT rules 0 NT 0 NT
  let tn ← arrM E batch NT rules NT T 0 NT
  let nt ← arrM E batch NT rules 0 NT NT T
  let tt ← arrM E batch NT rules NT T NT T
  -- 48-74
  loopM E S views batch N T NT ⟨a, b, termUse, nn, tn, nt, tt⟩ ((List.range (N - 1)).map (· + 1))
  -- 76-78
  if N = 0 then lift (.error .index)
  let top ← topM E batch N NT (a.select 2 0) lens
  dotM E S batch lens.length NT top roots

/-- The outcome of the `view`s of products with `term_use` for the semirings of the library: with `Semiring.convert` (semirings.py:65-68) `term_use` inherits
the layout of the caller's tensor; the other `convert`s copy into a new contiguous tensor. -/
def viewsOf (X : Memory.Sem) (terms : View) (batch N T NT : ℕ) (w : ℕ) : Except PyErr Unit :=
  match X with
  | .log | .max | .std => Strides.ckyRound ⟨terms.shape, terms.strides⟩ batch N T NT w
  | _ => .ok ()

end CKY
