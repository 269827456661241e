import Mathlib.Tactic.Ring
import Mathlib.Tactic.Linarith
import Verif.Model.Memory

/-! Facts about the memory model: addresses of contiguous tensors, reads after allocations and writes. -/

open View HeapM

namespace MemoryProofs
variable {α β γ : Type}

/-! ### Indices -/

theorem mem_indices : ∀ (shape ix : List ℕ), ix ∈ indices shape ↔ Valid shape ix
  | [], [] => by simp [indices, Valid]
  | [], _ :: _ => by simp [indices, Valid]
  | d :: ds, [] => by simp [indices, Valid]
  | d :: ds, i :: is => by
    simp only [indices, Valid, List.mem_flatMap, List.mem_range, List.mem_map, List.cons.injEq]
    constructor
    · rintro ⟨a, ha, b, hb, rfl, rfl⟩
      exact ⟨ha, (mem_indices ds b).1 hb⟩
    · rintro ⟨h1, h2⟩
      exact ⟨i, h1, is, (mem_indices ds is).2 h2, rfl, rfl⟩

/-- The address in a contiguous tensor. -/
def ravel (shape ix : List ℕ) : ℕ := (List.zipWith (· * ·) ix (rowMajor shape)).sum

theorem ravel_cons (d : ℕ) (ds : List ℕ) (i : ℕ) (is : List ℕ) : ravel (d :: ds) (i :: is) = i * ds.prod + ravel ds is := by simp [ravel, rowMajor]

theorem ravel_lt : ∀ (shape ix : List ℕ), Valid shape ix → ravel shape ix < shape.prod
  | [], [], _ => by simp [ravel]
  | d :: ds, i :: is, h => by
    obtain ⟨h1, h2⟩ := h
    have := ravel_lt ds is h2
    rw [ravel_cons, List.prod_cons]
    nlinarith [Nat.mul_le_mul_right ds.prod (Nat.succ_le_of_lt h1)]

theorem unravel_ravel : ∀ (shape ix : List ℕ), Valid shape ix → unravel shape (ravel shape ix) = ix
  | [], [], _ => rfl
  | d :: ds, i :: is, h => by
    obtain ⟨h1, h2⟩ := h
    have := ravel_lt ds is h2
    rw [ravel_cons, unravel]
    have hp : 0 < ds.prod := by omega
    rw [show (i * ds.prod + ravel ds is) / ds.prod = i by
        rw [Nat.add_comm, Nat.add_mul_div_right _ _ hp, Nat.div_eq_of_lt this, Nat.zero_add],
      show (i * ds.prod + ravel ds is) % ds.prod = ravel ds is by rw [Nat.add_comm, Nat.add_mul_mod_self_right, Nat.mod_eq_of_lt this],
      unravel_ravel ds is h2]

theorem ravel_inj {shape ix jx : List ℕ} (h1 : Valid shape ix) (h2 : Valid shape jx) (h : ravel shape ix = ravel shape jx) : ix = jx := by
  rw [← unravel_ravel shape ix h1, ← unravel_ravel shape jx h2, h]

/-- The contiguous tensor of a shape that fills storage `n`. -/
def tens (n : ℕ) (shape : List ℕ) : View := ⟨n, 0, shape, rowMajor shape⟩

theorem addr_tens (n : ℕ) (shape ix : List ℕ) : (tens n shape).addr ix = ravel shape ix := by simp [addr, tens, ravel]

/-! ### Reads -/

theorem read_push_new (h : Heap) (shape : List ℕ) (f : List ℕ → ℝ) (ix : List ℕ) (hv : Valid shape ix) :
    (h.push shape f).read (tens h.next shape) ix = f ix := by
  rw [Heap.read, addr_tens, Heap.push]
  simp only [tens, if_pos, unravel_ravel shape ix hv]

theorem read_push_old (h : Heap) (shape : List ℕ) (f : List ℕ → ℝ) (t : View) (ht : t.storage < h.next) (ix : List ℕ) :
    (h.push shape f).read t ix = h.read t ix := by
  rw [Heap.read, Heap.push]
  simp only [if_neg (Nat.ne_of_lt ht)]
  rfl

theorem read_write_hit (h : Heap) (t u : View) (f : List ℕ → ℝ) (ix kx : List ℕ) (hs : u.storage = t.storage) (hk : Valid t.shape kx)
    (ha : u.addr ix = t.addr kx) (hu : ∀ jx, Valid t.shape jx → t.addr jx = t.addr kx → jx = kx) : (h.write t f).read u ix = f kx := by
  rw [Heap.read, Heap.write]
  simp only [if_pos hs]
  cases hc : (indices t.shape).find? fun jx => decide (t.addr jx = u.addr ix) with
  | none =>
    rw [List.find?_eq_none] at hc
    exact absurd ha.symm (by simpa using hc kx ((mem_indices _ _).2 hk))
  | some jx =>
    have h1 := List.find?_some hc
    have h2 := List.mem_of_find?_eq_some hc
    rw [hu jx ((mem_indices _ _).1 h2) (by rw [← ha]; simpa using h1)]

theorem read_write_miss (h : Heap) (t u : View) (f : List ℕ → ℝ) (ix : List ℕ)
    (hm : u.storage = t.storage → ∀ jx, Valid t.shape jx → t.addr jx ≠ u.addr ix) : (h.write t f).read u ix = h.read u ix := by
  rw [Heap.read, Heap.write, Heap.read]
  simp only
  split_ifs with hs
  · cases hc : (indices t.shape).find? fun jx => decide (t.addr jx = u.addr ix) with
    | none => rfl
    | some jx =>
      have h1 := List.find?_some hc
      have h2 := List.mem_of_find?_eq_some hc
      exact absurd (by simpa using h1) (hm hs jx ((mem_indices _ _).1 h2))
  · rfl

theorem read_write_other (h : Heap) (t u : View) (f : List ℕ → ℝ) (ix : List ℕ) (hs : u.storage ≠ t.storage) : (h.write t f).read u ix = h.read u ix :=
  read_write_miss h t u f ix fun he => absurd he hs

/-- A whole contiguous tensor is overwritten; `u` is another view of the same storage. -/
theorem read_write_tens (h : Heap) (n : ℕ) (shape : List ℕ) (u : View) (f : List ℕ → ℝ) (ix kx : List ℕ) (hs : u.storage = n) (hk : Valid shape kx)
    (ha : u.addr ix = ravel shape kx) : (h.write (tens n shape) f).read u ix = f kx :=
  read_write_hit h (tens n shape) u f ix kx hs hk (by rw [addr_tens, ha]) fun jx hj he => by
    rw [addr_tens, addr_tens] at he
    exact ravel_inj hj hk he

/-! ### Extension of a heap -/

/-- What a piece of code leaves alone: the storages that exist in `h0`. -/
structure Ext (h0 h : Heap) : Prop where
  next : h0.next ≤ h.next
  data : ∀ s < h0.next, h.data s = h0.data s

theorem Ext.refl (h : Heap) : Ext h h := ⟨le_rfl, fun _ _ => rfl⟩

theorem Ext.trans {a b c : Heap} (h1 : Ext a b) (h2 : Ext b c) : Ext a c :=
  ⟨h1.next.trans h2.next, fun s hs => (h2.data s (hs.trans_le h1.next)).trans (h1.data s hs)⟩

theorem Ext.push {h0 h : Heap} (e : Ext h0 h) (shape : List ℕ) (f : List ℕ → ℝ) : Ext h0 (h.push shape f) :=
  ⟨e.next.trans (Nat.le_succ _), fun s hs => by
    rw [← e.data s hs]
    funext a
    exact if_neg (Nat.ne_of_lt (hs.trans_le e.next))⟩

theorem Ext.write {h0 h : Heap} (e : Ext h0 h) (t : View) (ht : h0.next ≤ t.storage) (f : List ℕ → ℝ) : Ext h0 (h.write t f) :=
  ⟨e.next, fun s hs => by
    rw [← e.data s hs]
    funext a
    exact if_neg (Nat.ne_of_lt (hs.trans_le ht))⟩

theorem Ext.read {h0 h : Heap} (e : Ext h0 h) (t : View) (ht : t.storage < h0.next) (ix : List ℕ) : h.read t ix = h0.read t ix := by
  rw [Heap.read, e.data _ ht]; rfl

/-! ### Running code -/

theorem bind_ok {m : HeapM β} {k : β → HeapM γ} {h h' : Heap} {x : β} (e : m h = (.ok x, h')) : (m >>= k) h = k x h' := by
  show (match m h with | (.ok x, h') => k x h' | (.error e, h') => (.error e, h')) = _
  rw [e]

theorem bind_error {m : HeapM β} {k : β → HeapM γ} {h h' : Heap} {x : PyErr} (e : m h = (.error x, h')) : (m >>= k) h = (.error x, h') := by
  show (match m h with | (.ok x, h') => k x h' | (.error e, h') => (.error e, h')) = _
  rw [e]

theorem bind_assoc' {δ : Type} (m : HeapM β) (k : β → HeapM γ) (l : γ → HeapM δ) : (m >>= k) >>= l = m >>= fun x => k x >>= l := by
  funext h
  show (match (match m h with | (.ok x, h') => k x h' | (.error e, h') => (.error e, h')) with | (.ok x, h') => l x h' | (.error e, h') => (.error e, h')) =
    (match m h with | (.ok x, h') => (match k x h' with | (.ok x, h') => l x h' | (.error e, h') => (.error e, h')) | (.error e, h') => (.error e, h'))
  rcases m h with ⟨_ | _, _⟩ <;> rfl

theorem alloc_bind (shape : List ℕ) (f : Heap → List ℕ → ℝ) (k : View → HeapM γ) (h : Heap) (Q : Except PyErr γ × Heap → Prop)
    (hk : ∀ h', h' = h.push shape (f h) → Q (k (tens h.next shape) h')) : Q ((alloc shape f >>= k) h) := hk _ rfl

theorem assign_bind (t : View) (f : Heap → List ℕ → ℝ) (k : Unit → HeapM γ) (h : Heap) (Q : Except PyErr γ × Heap → Prop)
    (hk : ∀ h', h' = h.write t (f h) → Q (k () h')) : Q ((assign t f >>= k) h) := hk _ rfl

theorem lift_bind (x : Except PyErr β) (k : β → HeapM γ) (h : Heap) (Q : Except PyErr γ × Heap → Prop) (h1 : ∀ e, x = .error e → Q (.error e, h))
    (h2 : ∀ v, x = .ok v → Q (k v h)) : Q ((lift x >>= k) h) := by
  rcases x with e | v
  · exact h1 e rfl
  · exact h2 v rfl

theorem view_tens (n : ℕ) (shape shape' : List ℕ) (hp : shape.prod = shape'.prod) (h : Heap) : view (tens n shape) shape' h = (.ok (tens n shape'), h) := by
  rw [view, if_pos ⟨rfl, hp⟩]; rfl

/-! ### Semiring elements -/

/-- What `Layout` needs of a semiring: the elements can be written to memory and read back.  `ok` holds of the elements that have a place for all their parts
(for `KMaxSemiring(k)`: the lists of length `k`). -/
structure Lawful (E : Layout α) (S : SR α) (ok : α → Prop) : Prop where
  dec_enc : ∀ x, ok x → E.dec (E.enc x) = x
  enc_dec : ∀ f, ∀ s < E.size, E.enc (E.dec f) s = f s
  congr : ∀ f g, (∀ s < E.size, f s = g s) → E.dec f = E.dec g
  ok_dec : ∀ f, ok (E.dec f)
  raw0 : E.dec (fun _ => 0) = S.raw0
  zero : ok S.zero
  one : ok S.one
  mul : ∀ x y, ok x → ok y → ok (S.mul x y)
  sum : ∀ l, l ≠ [] → (∀ x ∈ l, ok x) → ok (S.sum l)

variable {E : Layout α} {S : SR α} {ok : α → Prop}

theorem Lawful.read (L : Lawful E S ok) {x : α} (hx : ok x) {f : ℕ → ℝ} (hf : ∀ s < E.size, f s = E.enc x s) : E.dec f = x := by
  rw [L.congr f (E.enc x) hf, L.dec_enc x hx]

theorem Lawful.ok_get (L : Lawful E S ok) (h : Heap) (t : View) (ix : List ℕ) : ok (E.get h t ix) := L.ok_dec _

theorem get_push_new (L : Lawful E S ok) (h : Heap) (shape : List ℕ) (x : List ℕ → α) (ix : List ℕ) (hv : Valid shape ix) (hx : ok (x ix)) :
    E.get (h.push (E.size :: shape) (E.put x)) (tens h.next (E.size :: shape)) ix = x ix :=
  L.read hx fun s hs => read_push_new h (E.size :: shape) (E.put x) (s :: ix) ⟨hs, hv⟩

theorem get_push_old (h : Heap) (shape : List ℕ) (f : List ℕ → ℝ) (t : View) (ht : t.storage < h.next) (ix : List ℕ) :
    E.get (h.push shape f) t ix = E.get h t ix := by
  unfold Layout.get
  exact congrArg E.dec (funext fun s => read_push_old h shape f t ht (s :: ix))

theorem get_write_other (h : Heap) (t u : View) (f : List ℕ → ℝ) (ix : List ℕ) (hs : u.storage ≠ t.storage) :
    E.get (h.write t f) u ix = E.get h u ix := by
  unfold Layout.get
  exact congrArg E.dec (funext fun s => read_write_other h t u f (s :: ix) hs)

end MemoryProofs
