import Verif.Proofs.SemiMemory
import Verif.Model.CKYMemory

/-! `CKY.logpartitionM` computes what `CKY.logpartition` computes, and leaves the existing storages alone. -/

open View HeapM

namespace MemoryProofs
variable {α γ : Type} {E : Layout α} {S : SR α} {ok : α → Prop}

/-! ### Operations -/

theorem matmul5_bind (L : Lawful E S ok) (a b : View) (d0 d1 m q l : ℕ) (hq : 0 < q) (ha : a.shape = [E.size, d0, d1, m, q])
    (hb : b.shape = [E.size, d0, d1, q, l]) (k : View → HeapM γ) (h0 h : Heap) (e : Ext h0 h) (Q : Except PyErr γ × Heap → Prop)
    (hk : ∀ n h', h.next ≤ n → n < h'.next → Ext h h' → Ext h0 h' → (∀ x < d0, ∀ y < d1, ∀ i < m, ∀ j < l,
        E.get h' (tens n [E.size, d0, d1, m, l]) [x, y, i, j] =
          S.sum ((List.range q).map fun u => S.mul (E.get h a [x, y, i, u]) (E.get h b [x, y, u, j]))) →
      Q (k (tens n [E.size, d0, d1, m, l]) h')) : Q ((E.matmul S a b >>= k) h) := by
  unfold Layout.matmul
  rw [ha, hb]
  simp only
  rw [bind_assoc']
  refine put_bind L [d0, d1, m, q, l] (fun h ix => match ix with
      | [x, y, i, q, j] => S.mul (E.get h a [x, y, i, q]) (E.get h b [x, y, q, j])
      | _ => S.zero) _ h0 h e ?_ Q ?_
  · intro ix _
    split
    · exact L.mul _ _ (L.ok_get _ _ _) (L.ok_get _ _ _)
    · exact L.zero
  intro h1 n1 x1 e1 g1
  refine reduce_bind L _ [d0, d1, m, l] q hq rfl k h0 h1 e1 Q ?_
  intro h2 n2 x2 e2 g2
  refine hk _ h2 (by omega) (by omega) (x1.trans x2) e2 fun x hx y hy i hi j hj => ?_
  rw [g2 [x, y, i, j] ⟨hx, hy, hi, hj, trivial⟩]
  refine congrArg S.sum (List.map_congr_left fun u hu => ?_)
  refine Eq.trans ?_ (g1 [x, y, i, u, j] ⟨hx, hy, hi, List.mem_range.1 hu, hj, trivial⟩)
  refine congrArg E.dec (funext fun s => ?_)
  rw [Heap.read, Heap.read]
  refine congrArg _ ?_
  simp [addr, permute, tens, rowMajor]
  ring

theorem matmul4_bind (L : Lawful E S ok) (a b : View) (d0 m q l : ℕ) (hq : 0 < q) (ha : a.shape = [E.size, d0, m, q])
    (hb : b.shape = [E.size, d0, q, l]) (k : View → HeapM γ) (h0 h : Heap) (e : Ext h0 h) (Q : Except PyErr γ × Heap → Prop)
    (hk : ∀ n h', h.next ≤ n → n < h'.next → Ext h h' → Ext h0 h' → (∀ x < d0, ∀ i < m, ∀ j < l,
        E.get h' (tens n [E.size, d0, m, l]) [x, i, j] =
          S.sum ((List.range q).map fun u => S.mul (E.get h a [x, i, u]) (E.get h b [x, u, j]))) →
      Q (k (tens n [E.size, d0, m, l]) h')) : Q ((CKY.matmul4 E S a b >>= k) h) := by
  unfold CKY.matmul4
  rw [ha, hb]
  simp only
  rw [bind_assoc']
  refine put_bind L [d0, m, q, l] (fun h ix => match ix with
      | [x, i, q, j] => S.mul (E.get h a [x, i, q]) (E.get h b [x, q, j])
      | _ => S.zero) _ h0 h e ?_ Q ?_
  · intro ix _
    split
    · exact L.mul _ _ (L.ok_get _ _ _) (L.ok_get _ _ _)
    · exact L.zero
  intro h1 n1 x1 e1 g1
  refine reduce_bind L _ [d0, m, l] q hq rfl k h0 h1 e1 Q ?_
  intro h2 n2 x2 e2 g2
  refine hk _ h2 (by omega) (by omega) (x1.trans x2) e2 fun x hx i hi j hj => ?_
  rw [g2 [x, i, j] ⟨hx, hi, hj, trivial⟩]
  refine congrArg S.sum (List.map_congr_left fun u hu => ?_)
  refine Eq.trans ?_ (g1 [x, i, u, j] ⟨hx, hi, List.mem_range.1 hu, hj, trivial⟩)
  refine congrArg E.dec (funext fun s => ?_)
  rw [Heap.read, Heap.read]
  refine congrArg _ ?_
  simp [addr, permute, tens, rowMajor]
  ring

theorem outer_bind (L : Lawful E S ok) (y z : View) (d0 d1 m n : ℕ) (hy : y.shape = [E.size, d0, d1, m]) (hz : z.shape = [E.size, d0, d1, n])
    (k : View → HeapM γ) (h0 h : Heap) (e : Ext h0 h) (Q : Except PyErr γ × Heap → Prop)
    (hk : ∀ h', h'.next = h.next + 1 → Ext h h' → Ext h0 h' → (∀ x < d0, ∀ i < d1, ∀ p < m, ∀ q < n,
        E.get h' (tens h.next [E.size, d0, d1, m, n]) [x, i, p, q] = S.mul (E.get h y [x, i, p]) (E.get h z [x, i, q])) →
      Q (k (tens h.next [E.size, d0, d1, m, n]) h')) : Q ((CKY.outer E S y z >>= k) h) := by
  unfold CKY.outer
  rw [hy, hz]
  refine put_bind L [d0, d1, m, n] (fun h ix => match ix with
      | [x, i, p, q] => S.mul (E.get h y [x, i, p]) (E.get h z [x, i, q])
      | _ => S.zero) _ h0 h e ?_ Q ?_
  · intro ix _
    split
    · exact L.mul _ _ (L.ok_get _ _ _) (L.ok_get _ _ _)
    · exact L.zero
  intro h1 n1 x1 e1 g1
  exact hk h1 n1 x1 e1 fun x hx i hi p hp q hq => g1 [x, i, p, q] ⟨hx, hi, hp, hq, trivial⟩

theorem range_mul_map {β : Type} (f : ℕ → β) (n : ℕ) : ∀ m, (List.range (m * n)).map f = (CKY.pairs m n).map fun yz => f (yz.1 * n + yz.2)
  | 0 => by simp [CKY.pairs]
  | m + 1 => by
    rw [Nat.succ_mul, List.range_add, List.map_append, range_mul_map f n m]
    simp [CKY.pairs, List.range_succ, Function.comp_def]

/-- A matrix of rules in memory: entry `(y, z)` of the block that starts at `(oy, oz)` is at `y * n + z`. -/
structure Block (E : Layout α) (h : Heap) (v : View) (batch NT m n oy oz : ℕ) (rule : ℕ → ℕ → ℕ → ℕ → α) : Prop where
  shape : v.shape = [E.size, batch, m * n, NT]
  lt : v.storage < h.next
  get : ∀ b < batch, ∀ X < NT, ∀ y < m, ∀ z < n, E.get h v [b, y * n + z, X] = rule b X (oy + y) (oz + z)

theorem Block.mono {h h' : Heap} {v : View} {batch NT m n oy oz : ℕ} {rule : ℕ → ℕ → ℕ → ℕ → α} (B : Block E h v batch NT m n oy oz rule) (x : Ext h h') :
    Block E h' v batch NT m n oy oz rule :=
  ⟨B.shape, B.lt.trans_le x.next, fun b hb X hX y hy z hz => by rw [x.get _ B.lt]; exact B.get b hb X hX y hy z hz⟩

theorem Block.write {h : Heap} {v : View} {batch NT m n oy oz : ℕ} {rule : ℕ → ℕ → ℕ → ℕ → α} (B : Block E h v batch NT m n oy oz rule) (t : View)
    (f : List ℕ → ℝ) (ht : v.storage ≠ t.storage) : Block E (h.write t f) v batch NT m n oy oz rule :=
  ⟨B.shape, B.lt, fun b hb X hX y hy z hz => by rw [get_write_other _ _ _ _ _ ht]; exact B.get b hb X hX y hy z hz⟩

/-- The flattened product of a table of pairs with a block of rules. -/
theorem block_bind (L : Lawful E S ok) (n0 : ℕ) (v : View) (batch K NT m n oy oz : ℕ) (hm : 0 < m) (hn : 0 < n) (rule : ℕ → ℕ → ℕ → ℕ → α)
    (M : ℕ → ℕ → ℕ → ℕ → α) (k : View → HeapM γ) (h0 h : Heap) (e : Ext h0 h) (B : Block E h v batch NT m n oy oz rule)
    (hM : ∀ b < batch, ∀ i < K, ∀ y < m, ∀ z < n, E.get h (tens n0 [E.size, batch, K, m, n]) [b, i, y, z] = M b i y z)
    (Q : Except PyErr γ × Heap → Prop)
    (hk : ∀ n1 h', h.next ≤ n1 → n1 < h'.next → Ext h h' → Ext h0 h' → (∀ b < batch, ∀ i < K, ∀ X < NT,
        E.get h' (tens n1 [E.size, batch, K, NT]) [b, i, X] = CKY.block S m n (M b i) (rule b X) oy oz) →
      Q (k (tens n1 [E.size, batch, K, NT]) h')) :
    Q ((view (tens n0 [E.size, batch, K, m, n]) [E.size, batch, K, m * n] >>= fun x => CKY.matmul4 E S x v >>= k) h) := by
  rw [bind_ok (view_tens n0 _ [E.size, batch, K, m * n] (by simp only [List.prod_cons, List.prod_nil]; ring) h)]
  refine matmul4_bind L _ _ batch K (m * n) NT (Nat.mul_pos hm hn) rfl B.shape k h0 h e Q fun n1 h1 a1 b1 x1 e1 g1 => ?_
  refine hk n1 h1 a1 b1 x1 e1 fun b hb i hi X hX => ?_
  rw [g1 b hb i hi X hX, range_mul_map, CKY.block]
  refine congrArg S.sum (List.map_congr_left fun yz hyz => ?_)
  obtain ⟨y, z⟩ := yz
  simp only [CKY.pairs, List.mem_flatMap, List.mem_range, List.mem_map, Prod.mk.injEq] at hyz
  obtain ⟨y', hy, z', hz, rfl, rfl⟩ := hyz
  simp only
  refine congrArg₂ S.mul ?_ (B.get b hb X hX y' hy z' hz)
  rw [← hM b hb i hi y' hy z' hz]
  refine congrArg E.dec (funext fun s => ?_)
  rw [Heap.read, Heap.read]
  refine congrArg _ ?_
  simp only [addr_tens, ravel_cons, List.prod_cons, List.prod_nil]
  simp [ravel, rowMajor]
  try ring

/-- `contiguous()` and `view`, for any strides and offset. -/
theorem flatten_bind (L : Lawful E S ok) (t : View) (shape shape' : List ℕ) (hs : t.shape = E.size :: shape) (hp : shape.prod = shape'.prod)
    (k : View → HeapM γ) (h0 h : Heap) (e : Ext h0 h) (ht : t.storage < h.next) (Q : Except PyErr γ × Heap → Prop)
    (hk : ∀ v h', (v.storage = t.storage ∨ h.next ≤ v.storage) → v.storage < h'.next → v.shape = E.size :: shape' → v.strides = rowMajor (E.size :: shape') →
      Ext h h' → Ext h0 h' → (∀ ix ix', Valid shape ix → ravel shape ix = ravel shape' ix' → E.get h' v ix' = E.get h t ix) → Q (k v h')) :
    Q ((contiguous t >>= fun x => view x (E.size :: shape') >>= k) h) := by
  have hprod : (E.size :: shape).prod = (E.size :: shape').prod := by simp [hp]
  by_cases hc : t.strides = rowMajor t.shape
  · rw [contiguous, if_pos hc]
    show Q ((view t (E.size :: shape') >>= k) h)
    have hv : view t (E.size :: shape') h = (.ok { t with shape := E.size :: shape', strides := rowMajor (E.size :: shape') }, h) := by
      rw [view, if_pos ⟨hc, by rw [hs, hprod]⟩]; rfl
    rw [bind_ok hv]
    refine hk _ h (.inl rfl) ht rfl rfl (Ext.refl h) e fun ix ix' _ hr => ?_
    refine congrArg E.dec (funext fun s => ?_)
    rw [Heap.read, Heap.read]
    refine congrArg _ ?_
    have h1 := ravel_cons E.size shape s ix
    have h2 := ravel_cons E.size shape' s ix'
    simp only [ravel] at h1 h2 hr
    rw [hs] at hc
    simp only [addr, hc]
    rw [h1, h2, hr, hp]
  · rw [contiguous, if_neg hc, hs]
    refine alloc_bind _ _ _ _ Q fun h1 q1 => ?_
    have x1 : Ext h h1 := by rw [q1]; exact (Ext.refl h).push _ _
    rw [bind_ok (view_tens h.next _ (E.size :: shape') hprod h1)]
    refine hk _ h1 (.inr le_rfl) (by rw [q1]; exact Nat.lt_succ_self _) rfl rfl x1 (e.trans x1) fun ix ix' hix hr => ?_
    refine L.congr _ _ fun s hs' => ?_
    rw [← read_push_new h (E.size :: shape) (fun ix => h.read t ix) (s :: ix) ⟨hs', hix⟩, q1]
    rw [Heap.read, Heap.read, addr_tens, addr_tens, ravel_cons, ravel_cons, hr, hp]
    rfl

/-- `arr`. -/
theorem arr_bind (L : Lawful E S ok) (t : View) (batch NT R oy m oz n : ℕ) (hs : t.shape = [E.size, batch, 1, NT, R, R]) (hy : oy + m ≤ R) (hz : oz + n ≤ R)
    (k : View → HeapM γ) (h0 h : Heap) (e : Ext h0 h) (ht : t.storage < h.next) (rule : ℕ → ℕ → ℕ → ℕ → α)
    (hr : ∀ b < batch, ∀ X < NT, ∀ y < R, ∀ z < R, E.get h t [b, 0, X, y, z] = rule b X y z) (Q : Except PyErr γ × Heap → Prop)
    (hk : ∀ v h', (v.storage = t.storage ∨ h.next ≤ v.storage) → Ext h h' → Ext h0 h' → Block E h' v batch NT m n oy oz rule → Q (k v h')) :
    Q ((CKY.arrM E batch NT t oy m oz n >>= k) h) := by
  unfold CKY.arrM
  rw [bind_assoc']
  simp only [bind_assoc']
  refine flatten_bind L ((t.slice 4 oy (oy + m) 1).slice 5 oz (oz + n) 1) [batch, 1, NT, m, n] [batch, NT, m * n] ?_ (by simp [Nat.mul_assoc]) _ h0 h e ht Q ?_
  · simp [slice, hs]
  intro v h1 hv1 hv2 hv3 hv4 x1 e1 g1
  refine hk (v.permute [0, 1, 3, 2]) h1 hv1 x1 e1 ⟨by simp [permute, hv3], hv2, fun b hb X hX y hy' z hz' => ?_⟩
  have h2 := g1 [b, 0, X, y, z] [b, X, y * n + z] ⟨hb, by norm_num, hX, hy', hz', trivial⟩ (by simp [ravel, rowMajor])
  refine Eq.trans ?_ (h2.trans (Eq.trans ?_ (hr b hb X hX (oy + y) (by omega) (oz + z) (by omega))))
  · refine congrArg E.dec (funext fun s => ?_)
    rw [Heap.read, Heap.read]
    refine congrArg _ ?_
    simp [addr, permute, hv4, rowMajor]
    ring
  · refine congrArg E.dec (funext fun s => ?_)
    rw [Heap.read, Heap.read]
    refine congrArg _ ?_
    obtain ⟨st, o, sh, str⟩ := t
    rcases str with _ | ⟨a0, _ | ⟨a1, _ | ⟨a2, _ | ⟨a3, _ | ⟨a4, _ | ⟨a5, str⟩⟩⟩⟩⟩⟩ <;> simp [addr, slice] <;> ring

/-! ### Slices -/

section
variable (n k batch N NT w : ℕ)

theorem span_left (hw : w ≤ N) : Part ((((tens n [k, batch, N, N, NT]).slice 2 0 (N - w) 1).slice 3 0 w 1).permute [0, 1, 2, 4, 3]) n k [batch, N, N, NT]
    [batch, N - w, NT, w] fun ix => [ix.getD 0 0, ix.getD 1 0, ix.getD 3 0, ix.getD 2 0] where
  storage := rfl
  shape_eq := by simp [slice, permute, tens]
  valid ix hv := by
    match ix, hv with
    | [b, i, y, u], hv => exact ⟨hv.1, by have := hv.2.1; simp; omega, by have := hv.2.2.2.1; simp; omega, hv.2.2.1, trivial⟩
  addr s ix hv := by
    match ix, hv with
    | [b, i, y, u], hv =>
      rw [← addr_tens n]
      simp [slice, permute, addr, tens, rowMajor]
      ring

theorem span_right (hw : w ≤ N) : Part (((tens n [k, batch, N, N, NT]).slice 2 w N 1).slice 3 (N - w) N 1) n k [batch, N, N, NT]
    [batch, N - w, w, NT] fun ix => [ix.getD 0 0, w + ix.getD 1 0, N - w + ix.getD 2 0, ix.getD 3 0] where
  storage := rfl
  shape_eq := by simp [slice, tens, Nat.sub_sub_self hw]
  valid ix hv := by
    match ix, hv with
    | [b, i, u, z], hv => exact ⟨hv.1, by have := hv.2.1; simp; omega, by have := hv.2.2.1; simp; omega, hv.2.2.2.1, trivial⟩
  addr s ix hv := by
    match ix, hv with
    | [b, i, u, z], hv =>
      rw [← addr_tens n]
      simp [slice, addr, tens, rowMajor]
      ring

theorem span_last (hw : 0 < w) (hw' : w ≤ N) : Part ((((tens n [k, batch, N, N, NT]).slice 2 0 (N - w) 1).slice 3 0 w 1).select 3 (w - 1)) n k
    [batch, N, N, NT] [batch, N - w, NT] fun ix => [ix.getD 0 0, ix.getD 1 0, w - 1, ix.getD 2 0] where
  storage := rfl
  shape_eq := by simp [slice, select, tens]
  valid ix hv := by
    match ix, hv with
    | [b, i, y], hv => exact ⟨hv.1, by have := hv.2.1; simp; omega, by omega, hv.2.2.1, trivial⟩
  addr s ix hv := by
    match ix, hv with
    | [b, i, y], hv =>
      rw [← addr_tens n]
      simp [slice, select, addr, tens, rowMajor]
      ring

theorem span_first (hw : 0 < w) (hw' : w ≤ N) : Part ((((tens n [k, batch, N, N, NT]).slice 2 w N 1).slice 3 (N - w) N 1).select 3 0) n k
    [batch, N, N, NT] [batch, N - w, NT] fun ix => [ix.getD 0 0, w + ix.getD 1 0, N - w, ix.getD 2 0] where
  storage := rfl
  shape_eq := by simp [slice, select, tens]
  valid ix hv := by
    match ix, hv with
    | [b, i, y], hv => exact ⟨hv.1, by have := hv.2.1; simp; omega, by omega, hv.2.2.1, trivial⟩
  addr s ix hv := by
    match ix, hv with
    | [b, i, y], hv =>
      rw [← addr_tens n]
      simp [slice, select, addr, tens, rowMajor]
      ring

theorem span_writeA (hw : w < N) : Part (((tens n [k, batch, N, N, NT]).slice 2 0 (N - w) 1).select 3 w) n k [batch, N, N, NT] [batch, N - w, NT]
    fun ix => [ix.getD 0 0, ix.getD 1 0, w, ix.getD 2 0] where
  storage := rfl
  shape_eq := by simp [slice, select, tens]
  valid ix hv := by
    match ix, hv with
    | [b, i, x], hv => exact ⟨hv.1, by have := hv.2.1; simp; omega, hw, hv.2.2.1, trivial⟩
  addr s ix hv := by
    match ix, hv with
    | [b, i, x], hv =>
      rw [← addr_tens n]
      simp [slice, select, addr, tens, rowMajor]
      ring

theorem span_writeB (hw : w < N) : Part (((tens n [k, batch, N, N, NT]).slice 2 w N 1).select 3 (N - w - 1)) n k [batch, N, N, NT] [batch, N - w, NT]
    fun ix => [ix.getD 0 0, w + ix.getD 1 0, N - w - 1, ix.getD 2 0] where
  storage := rfl
  shape_eq := by simp [slice, select, tens]
  valid ix hv := by
    match ix, hv with
    | [b, i, x], hv => exact ⟨hv.1, by have := hv.2.1; simp; omega, by omega, hv.2.2.1, trivial⟩
  addr s ix hv := by
    match ix, hv with
    | [b, i, x], hv =>
      rw [← addr_tens n]
      simp [slice, select, addr, tens, rowMajor]
      ring

theorem span_final (hN : 0 < N) : Part ((tens n [k, batch, N, N, NT]).select 2 0) n k [batch, N, N, NT] [batch, N, NT]
    fun ix => [ix.getD 0 0, 0, ix.getD 1 0, ix.getD 2 0] where
  storage := rfl
  shape_eq := by simp [select, tens]
  valid ix hv := by
    match ix, hv with
    | [b, i, x], hv => exact ⟨hv.1, hN, hv.2.1, hv.2.2.1, trivial⟩
  addr s ix hv := by
    match ix, hv with
    | [b, i, x], hv =>
      rw [← addr_tens n]
      simp [select, addr, tens, rowMajor]

theorem term_left : Part ((tens n [k, batch, N, NT]).slice 2 0 (N - w) 1) n k [batch, N, NT] [batch, N - w, NT]
    fun ix => [ix.getD 0 0, ix.getD 1 0, ix.getD 2 0] where
  storage := rfl
  shape_eq := by simp [slice, tens]
  valid ix hv := by
    match ix, hv with
    | [b, i, x], hv => exact ⟨hv.1, by have := hv.2.1; simp; omega, hv.2.2.1, trivial⟩
  addr s ix hv := by
    match ix, hv with
    | [b, i, x], hv =>
      rw [← addr_tens n]
      simp [slice, addr, tens, rowMajor]

theorem term_right : Part ((tens n [k, batch, N, NT]).slice 2 w N 1) n k [batch, N, NT] [batch, N - w, NT]
    fun ix => [ix.getD 0 0, w + ix.getD 1 0, ix.getD 2 0] where
  storage := rfl
  shape_eq := by simp [slice, tens]
  valid ix hv := by
    match ix, hv with
    | [b, i, x], hv => exact ⟨hv.1, by have := hv.2.1; simp; omega, hv.2.2.1, trivial⟩
  addr s ix hv := by
    match ix, hv with
    | [b, i, x], hv =>
      rw [← addr_tens n]
      simp [slice, addr, tens, rowMajor]
      ring

end

theorem stack_bind (L : Lawful E S ok) (ns : List ℕ) (hns : ns ≠ []) (shape : List ℕ) (k : View → HeapM γ) (h0 h : Heap) (e : Ext h0 h)
    (Q : Except PyErr γ × Heap → Prop)
    (hk : ∀ n h', h.next ≤ n → n < h'.next → Ext h h' → Ext h0 h' → (∀ ix, Valid shape ix → E.get h' (tens n (E.size :: shape)) ix =
        S.sum (ns.map fun m => E.get h (tens m (E.size :: shape)) ix)) → Q (k (tens n (E.size :: shape)) h')) :
    Q ((CKY.stackM (ns.map fun m => tens m (E.size :: shape)) >>= fun x => E.reduce S x >>= k) h) := by
  obtain ⟨n0, ns', rfl⟩ := List.exists_cons_of_ne_nil hns
  show Q ((alloc ((tens n0 (E.size :: shape)).shape ++ [((n0 :: ns').map fun m => tens m (E.size :: shape)).length]) (fun h ix =>
    h.read (((n0 :: ns').map fun m => tens m (E.size :: shape)).getD (ix.getLastD 0) (tens n0 (E.size :: shape))) ix.dropLast) >>= fun x => E.reduce S x >>= k) h)
  refine alloc_bind _ _ _ _ Q fun h1 q1 => ?_
  have x1 : Ext h h1 := by rw [q1]; exact (Ext.refl h).push _ _
  refine reduce_bind L _ shape (n0 :: ns').length (by simp) (by simp [tens]) k h0 h1 (e.trans x1) Q fun h2 n2 x2 e2 g2 => ?_
  refine hk _ h2 x1.next (by omega) (x1.trans x2) e2 fun ix hv => ?_
  rw [g2 ix hv]
  refine congrArg S.sum (List.ext_getElem (by simp) fun i h3 h4 => ?_)
  have hi : i < (n0 :: ns').length := by simpa using h3
  rw [List.getElem_map, List.getElem_map, List.getElem_range]
  refine L.congr _ _ fun s hs => ?_
  rw [q1]
  have hlen : ((n0 :: ns').map fun m => tens m (E.size :: shape)).length = (n0 :: ns').length := by simp
  have hval : Valid ((tens n0 (E.size :: shape)).shape ++ [((n0 :: ns').map fun m => tens m (E.size :: shape)).length]) (s :: (ix ++ [i])) := by
    rw [hlen]
    exact ⟨hs, valid_append shape ix _ i hv hi⟩
  refine (read_push_new h _ _ (s :: (ix ++ [i])) hval).trans ?_
  have d1 : (s :: (ix ++ [i])).getLastD 0 = i := List.getLastD_concat (l := s :: ix)
  have d2 : (s :: (ix ++ [i])).dropLast = s :: ix := List.dropLast_concat (l₁ := s :: ix)
  rw [d1, d2, List.getD_eq_getElem _ _ (by simpa using hi), List.getElem_map]

/-! ### The loop -/

/-- The tensors in memory hold the scores and the charts of the model. -/
structure HeldG (E : Layout α) (h0 h : Heap) (p : CKY.Scores α) (na nb nt : ℕ) (nn tn nt' tt : View) (st : CKY.Charts α) : Prop where
  ext : Ext h0 h
  a0 : h0.next ≤ na
  b0 : h0.next ≤ nb
  a1 : na < h.next
  b1 : nb < h.next
  t1 : nt < h.next
  ab : na ≠ nb
  ta : nt ≠ na
  tb : nt ≠ nb
  a : ∀ b < p.batch, ∀ i < p.N, ∀ w < p.N, ∀ X < p.NT, E.get h (tens na [E.size, p.batch, p.N, p.N, p.NT]) [b, i, w, X] = st.1 b i w X
  b : ∀ b < p.batch, ∀ i < p.N, ∀ w < p.N, ∀ X < p.NT, E.get h (tens nb [E.size, p.batch, p.N, p.N, p.NT]) [b, i, w, X] = st.2 b i w X
  term : ∀ b < p.batch, ∀ i < p.N, ∀ x < p.T, E.get h (tens nt [E.size, p.batch, p.N, p.T]) [b, i, x] = p.term b i x
  bnn : Block E h nn p.batch p.NT p.NT p.NT 0 0 p.rule
  btn : Block E h tn p.batch p.NT p.T p.NT p.NT 0 p.rule
  bnt : Block E h nt' p.batch p.NT p.NT p.T 0 p.NT p.rule
  btt : Block E h tt p.batch p.NT p.T p.T p.NT p.NT p.rule
  sep : ∀ v ∈ [nn, tn, nt', tt], v.storage ≠ na ∧ v.storage ≠ nb

theorem inj3 (batch K NT c : ℕ) (f : ℕ → ℕ) (hf : ∀ i j, f i = f j → i = j) : ∀ ix jx : List ℕ, Valid [batch, K, NT] ix → Valid [batch, K, NT] jx →
    [ix.getD 0 0, f (ix.getD 1 0), c, ix.getD 2 0] = [jx.getD 0 0, f (jx.getD 1 0), c, jx.getD 2 0] → ix = jx := by
  intro ix jx h1 h2 he
  match ix, jx, h1, h2 with
  | [a, b, x], [a', b', x'], _, _ =>
    simp only [List.getD_cons_zero, List.getD_cons_succ, List.cons.injEq, and_true, true_and] at he
    obtain ⟨rfl, h, rfl⟩ := he
    rw [hf _ _ h]

theorem grammar_write (L : Lawful E S ok) {h0 h hh : Heap} {p : CKY.Scores α} {na nb nt : ℕ} {nn tn nt' tt : View} {st : CKY.Charts α}
    (H : HeldG E h0 h p na nb nt nn tn nt' tt st) (hmark : p.mark = none) (w : ℕ) (hw : w < p.N) (n : ℕ) (hn : h.next ≤ n) (hn' : n < hh.next)
    (x : Ext h hh)
    (hnew : ∀ b < p.batch, ∀ i < p.N - w, ∀ X < p.NT, E.get hh (tens n [E.size, p.batch, p.N - w, p.NT]) [b, i, X] = CKY.spanOf S p st w b i X)
    (k : Unit → HeapM γ) (Q : Except PyErr γ × Heap → Prop) (hk : ∀ h', HeldG E h0 h' p na nb nt nn tn nt' tt (CKY.step S p st w) → Q (k () h')) :
    Q ((assign (((tens na [E.size, p.batch, p.N, p.N, p.NT]).slice 2 0 (p.N - w) 1).select 3 w)
        (fun h => h.read (tens n [E.size, p.batch, p.N - w, p.NT])) >>= fun _ =>
      assign (((tens nb [E.size, p.batch, p.N, p.N, p.NT]).slice 2 w p.N 1).select 3 (p.N - w - 1))
        (fun h => h.read (tens n [E.size, p.batch, p.N - w, p.NT])) >>= k) hh) := by
  have pa := span_writeA na E.size p.batch p.N p.NT w hw
  have pb := span_writeB nb E.size p.batch p.N p.NT w hw
  refine assign_bind _ _ _ _ Q fun h3 q3 => ?_
  refine assign_bind _ _ _ _ Q fun h4 q4 => ?_
  have ha1 := H.a1
  have hb1 := H.b1
  have ht1 := H.t1
  have xn := x.next
  have n3 : h3.next = hh.next := by rw [q3]; rfl
  have n4 : h4.next = h3.next := by rw [q4]; rfl
  have e3 : Ext h0 h3 := by rw [q3]; exact (H.ext.trans x).write _ (by rw [pa.storage]; exact H.a0) _
  have e4 : Ext h0 h4 := by rw [q4]; exact e3.write _ (by rw [pb.storage]; exact H.b0) _
  have blk : ∀ v ∈ [nn, tn, nt', tt], ∀ m n oy oz, Block E h v p.batch p.NT m n oy oz p.rule → Block E h4 v p.batch p.NT m n oy oz p.rule := by
    intro v hv m n oy oz B
    rw [q4, q3]
    exact ((B.mono x).write _ _ (by rw [pa.storage]; exact (H.sep v hv).1)).write _ _ (by rw [pb.storage]; exact (H.sep v hv).2)
  refine hk h4 ⟨e4, H.a0, H.b0, by omega, by omega, by omega, H.ab, H.ta, H.tb, ?_, ?_, ?_, blk _ (by simp) _ _ _ _ H.bnn, blk _ (by simp) _ _ _ _ H.btn,
    blk _ (by simp) _ _ _ _ H.bnt, blk _ (by simp) _ _ _ _ H.btt, H.sep⟩
  · intro b hb i hi v hv X hX
    rw [q4, get_write_other _ _ _ _ _ (by rw [pb.storage]; exact H.ab), q3]
    simp only [CKY.step, CKY.touch, hmark]
    by_cases hc : i < p.N - w ∧ v = w
    · rw [if_pos hc, ← hnew b hb i hc.1 X hX]
      obtain ⟨hc, rfl⟩ := hc
      exact pa.write_hit L (inj3 _ _ _ v id fun _ _ h => h) hh _ [b, i, X] ⟨hb, hc, hX, trivial⟩
    · rw [if_neg hc, pa.write_miss L hh _ [b, i, v, X] ⟨hb, hi, hv, hX, trivial⟩, x.get _ ha1, H.a b hb i hi v hv X hX]
      intro jx hj he
      match jx, hj with
      | [b', i', X'], hj =>
        simp only [List.getD_cons_zero, List.getD_cons_succ, List.cons.injEq] at he
        have := hj.2.1
        omega
  · intro b hb i hi v hv X hX
    have hh' : ∀ ix, E.get h3 (tens n [E.size, p.batch, p.N - w, p.NT]) ix = E.get hh (tens n [E.size, p.batch, p.N - w, p.NT]) ix := fun ix => by
      rw [q3]
      exact get_write_other _ _ _ _ _ (by rw [pa.storage]; show n ≠ na; omega)
    rw [q4]
    simp only [CKY.step, CKY.touch, hmark]
    by_cases hc : w ≤ i ∧ i < p.N ∧ v = p.N - w - 1
    · rw [if_pos hc, ← hnew b hb (i - w) (by omega) X hX, ← hh']
      obtain ⟨hc1, hc2, rfl⟩ := hc
      have := pb.write_hit L (inj3 _ _ _ (p.N - w - 1) (w + ·) fun _ _ h => Nat.add_left_cancel h) h3 (tens n [E.size, p.batch, p.N - w, p.NT]) [b, i - w, X]
        ⟨hb, by omega, hX, trivial⟩
      simp only [List.getD_cons_zero, List.getD_cons_succ] at this
      rw [show w + (i - w) = i by omega] at this
      exact this
    · rw [if_neg hc, pb.write_miss L h3 _ [b, i, v, X] ⟨hb, hi, hv, hX, trivial⟩, q3, get_write_other _ _ _ _ _ (by rw [pa.storage]; exact H.ab.symm),
        x.get _ hb1, H.b b hb i hi v hv X hX]
      intro jx hj he
      match jx, hj with
      | [b', i', X'], hj =>
        simp only [List.getD_cons_zero, List.getD_cons_succ, List.cons.injEq] at he
        have := hj.2.1
        omega
  · intro b hb i hi y hy
    rw [q4, get_write_other _ _ _ _ _ (by rw [pb.storage]; exact H.tb), q3, get_write_other _ _ _ _ _ (by rw [pa.storage]; exact H.ta),
      x.get _ ht1, H.term b hb i hi y hy]

theorem grammar_step (L : Lawful E S ok) {h0 h : Heap} {p : CKY.Scores α} {na nb nt : ℕ} {nn tn nt' tt : View} {st : CKY.Charts α}
    (H : HeldG E h0 h p na nb nt nn tn nt' tt st) (hmark : p.mark = none) (hT : 0 < p.T) (hNT : 0 < p.NT) (views : ℕ → Except PyErr Unit) (w : ℕ)
    (hw0 : 0 < w) (hw : w < p.N) (k : Unit → HeapM γ) (Q : Except PyErr γ × Heap → Prop)
    (hv : ∀ e h', views w = .error e → Ext h0 h' → Q (.error e, h'))
    (hk : ∀ h', views w = .ok () → HeldG E h0 h' p na nb nt nn tn nt' tt (CKY.step S p st w) → Q (k () h')) :
    Q ((CKY.stepM E S views p.batch p.N p.T p.NT ⟨tens na [E.size, p.batch, p.N, p.N, p.NT], tens nb [E.size, p.batch, p.N, p.N, p.NT],
      tens nt [E.size, p.batch, p.N, p.T], nn, tn, nt', tt⟩ w >>= k) h) := by
  unfold CKY.stepM
  have pl := span_left na E.size p.batch p.N p.NT w hw.le
  have pr := span_right nb E.size p.batch p.N p.NT w hw.le
  have pla := span_last na E.size p.batch p.N p.NT w hw0 hw.le
  have pfi := span_first nb E.size p.batch p.N p.NT w hw0 hw.le
  have ptl := term_left nt E.size p.batch p.N p.T w
  have ptr := term_right nt E.size p.batch p.N p.T w
  have ha1 := H.a1
  have hb1 := H.b1
  have ht1 := H.t1
  -- reads of the tensors of the loop, in any later heap
  have rla : ∀ h', Ext h h' → ∀ b < p.batch, ∀ i < p.N - w, ∀ y < p.NT, E.get h' ((((tens na [E.size, p.batch, p.N, p.N, p.NT]).slice 2 0 (p.N - w) 1).slice 3 0 w 1).select 3 (w - 1))
      [b, i, y] = st.1 b i (w - 1) y := by
    intro h' x b hb i hi y hy
    refine (pla.get h' [b, i, y] ⟨hb, hi, hy, trivial⟩).trans ?_
    rw [x.get _ ha1]
    exact H.a b hb i (by omega) (w - 1) (by omega) y hy
  have rfi : ∀ h', Ext h h' → ∀ b < p.batch, ∀ i < p.N - w, ∀ y < p.NT, E.get h' ((((tens nb [E.size, p.batch, p.N, p.N, p.NT]).slice 2 w p.N 1).slice 3 (p.N - w) p.N 1).select 3 0)
      [b, i, y] = st.2 b (w + i) (p.N - w) y := by
    intro h' x b hb i hi y hy
    refine (pfi.get h' [b, i, y] ⟨hb, hi, hy, trivial⟩).trans ?_
    rw [x.get _ hb1]
    exact H.b b hb (w + i) (by omega) (p.N - w) (by omega) y hy
  have rtl : ∀ h', Ext h h' → ∀ b < p.batch, ∀ i < p.N - w, ∀ y < p.T, E.get h' ((tens nt [E.size, p.batch, p.N, p.T]).slice 2 0 (p.N - w) 1) [b, i, y] =
      p.term b i y := by
    intro h' x b hb i hi y hy
    refine (ptl.get h' [b, i, y] ⟨hb, hi, hy, trivial⟩).trans ?_
    rw [x.get _ ht1]
    exact H.term b hb i (by omega) y hy
  have rtr : ∀ h', Ext h h' → ∀ b < p.batch, ∀ i < p.N - w, ∀ y < p.T, E.get h' ((tens nt [E.size, p.batch, p.N, p.T]).slice 2 w p.N 1) [b, i, y] =
      p.term b (w + i) y := by
    intro h' x b hb i hi y hy
    refine (ptr.get h' [b, i, y] ⟨hb, hi, hy, trivial⟩).trans ?_
    rw [x.get _ ht1]
    exact H.term b hb (w + i) (by omega) y hy
  simp only [bind_assoc']
  -- X1
  refine matmul5_bind L _ _ p.batch (p.N - w) p.NT w p.NT hw0 pl.shape_eq pr.shape_eq _ h0 h H.ext Q fun m1 h1 a1 b1 x1 e1 g1 => ?_
  refine block_bind L m1 nn p.batch (p.N - w) p.NT p.NT p.NT 0 0 hNT hNT p.rule (fun b i y z => CKY.split S p.N st b i w y z) _ h0 h1 e1 (H.bnn.mono x1) ?_ Q ?_
  · intro b hb i hi y hy z hz
    rw [g1 b hb i hi y hy z hz, CKY.split]
    refine congrArg S.sum (List.map_congr_left fun u hu => ?_)
    have hu := List.mem_range.1 hu
    refine congrArg₂ S.mul ?_ ?_
    · exact (pl.get h [b, i, y, u] ⟨hb, hi, hy, hu, trivial⟩).trans (H.a b hb i (by omega) u (by omega) y hy)
    · exact (pr.get h [b, i, u, z] ⟨hb, hi, hu, hz, trivial⟩).trans (H.b b hb (w + i) (by omega) (p.N - w + u) (by omega) z hz)
  intro n1 h2 a2 b2 x2 e2 g2
  have y2 := x1.trans x2
  refine lift_bind _ _ _ Q (fun e he => hv e h2 he e2) fun _ hvw => ?_
  -- X2
  refine outer_bind L _ _ p.batch (p.N - w) p.NT p.T pla.shape_eq ptr.shape_eq _ h0 h2 e2 Q fun h3 m3 x3 e3 g3 => ?_
  have y3 := y2.trans x3
  refine block_bind L h2.next nt' p.batch (p.N - w) p.NT p.NT p.T 0 p.NT hNT hT p.rule (fun b i y z => S.times (st.1 b i (w - 1) y) [p.term b (w + i) z]) _ h0 h3 e3
    (H.bnt.mono y3) ?_ Q ?_
  · intro b hb i hi y hy z hz
    rw [g3 b hb i hi y hy z hz, rla h2 y2 b hb i hi y hy, rtr h2 y2 b hb i hi z hz]
    rfl
  intro n2 h4 a4 b4 x4 e4 g4
  have y4 := y3.trans x4
  -- X3
  refine outer_bind L _ _ p.batch (p.N - w) p.T p.NT ptl.shape_eq pfi.shape_eq _ h0 h4 e4 Q fun h5 m5 x5 e5 g5 => ?_
  have y5 := y4.trans x5
  refine block_bind L h4.next tn p.batch (p.N - w) p.NT p.T p.NT p.NT 0 hT hNT p.rule (fun b i y z => S.times (p.term b i y) [st.2 b (w + i) (p.N - w) z]) _ h0 h5 e5
    (H.btn.mono y5) ?_ Q ?_
  · intro b hb i hi y hy z hz
    rw [g5 b hb i hi y hy z hz, rtl h4 y4 b hb i hi y hy, rfi h4 y4 b hb i hi z hz]
    rfl
  intro n3 h6 a6 b6 x6 e6 g6
  have y6 := y5.trans x6
  have l1 := x1.next
  have l2 := x2.next
  have l3 := x3.next
  have l4 := x4.next
  have l5 := x5.next
  have l6 := x6.next
  have v1 : ∀ h', Ext h6 h' → ∀ b < p.batch, ∀ i < p.N - w, ∀ X < p.NT, E.get h' (tens n1 [E.size, p.batch, p.N - w, p.NT]) [b, i, X] = CKY.x1 S p st w b i X := by
    intro h' x b hb i hi X hX
    rw [(x3.trans (x4.trans (x5.trans (x6.trans x)))).get _ b2]
    exact g2 b hb i hi X hX
  have v2 : ∀ h', Ext h6 h' → ∀ b < p.batch, ∀ i < p.N - w, ∀ X < p.NT, E.get h' (tens n2 [E.size, p.batch, p.N - w, p.NT]) [b, i, X] = CKY.x2 S p st w b i X := by
    intro h' x b hb i hi X hX
    rw [(x5.trans (x6.trans x)).get _ b4]
    exact g4 b hb i hi X hX
  have v3 : ∀ h', Ext h6 h' → ∀ b < p.batch, ∀ i < p.N - w, ∀ X < p.NT, E.get h' (tens n3 [E.size, p.batch, p.N - w, p.NT]) [b, i, X] = CKY.x3 S p st w b i X := by
    intro h' x b hb i hi X hX
    rw [x.get _ b6]
    exact g6 b hb i hi X hX
  split_ifs with hw1
  · simp only [bind_assoc']
    refine outer_bind L _ _ p.batch (p.N - w) p.T p.T ptl.shape_eq ptr.shape_eq _ h0 h6 e6 Q fun h7 m7 x7 e7 g7 => ?_
    have y7 := y6.trans x7
    refine block_bind L h6.next tt p.batch (p.N - w) p.NT p.T p.T p.NT p.NT hT hT p.rule (fun b i y z => S.times (p.term b i y) [p.term b (w + i) z]) _ h0 h7 e7
      (H.btt.mono y7) ?_ Q ?_
    · intro b hb i hi y hy z hz
      rw [g7 b hb i hi y hy z hz, rtl h6 y6 b hb i hi y hy, rtr h6 y6 b hb i hi z hz]
      rfl
    intro n4 h8 a8 b8 x8 e8 g8
    have y8 := y7.trans x8
    have l7 := x7.next
    have l8 := x8.next
    refine stack_bind L [n1, n2, n3, n4] (by simp) [p.batch, p.N - w, p.NT] _ h0 h8 e8 Q fun n h9 a9 b9 x9 e9 g9 => ?_
    refine grammar_write L H hmark w hw n (by omega) b9 (y8.trans x9) ?_ k Q fun h' => hk h' hvw
    intro b hb i hi X hX
    rw [g9 [b, i, X] ⟨hb, hi, hX, trivial⟩]
    simp only [List.map_cons, List.map_nil]
    rw [v1 h8 (x7.trans x8) b hb i hi X hX, v2 h8 (x7.trans x8) b hb i hi X hX, v3 h8 (x7.trans x8) b hb i hi X hX, g8 b hb i hi X hX, CKY.spanOf, if_pos hw1]
    rfl
  · simp only [bind_assoc']
    refine stack_bind L [n1, n2, n3] (by simp) [p.batch, p.N - w, p.NT] _ h0 h6 e6 Q fun n h9 a9 b9 x9 e9 g9 => ?_
    refine grammar_write L H hmark w hw n (by omega) b9 (y6.trans x9) ?_ k Q fun h' => hk h' hvw
    intro b hb i hi X hX
    rw [g9 [b, i, X] ⟨hb, hi, hX, trivial⟩]
    simp only [List.map_cons, List.map_nil]
    rw [v1 h6 (Ext.refl _) b hb i hi X hX, v2 h6 (Ext.refl _) b hb i hi X hX, v3 h6 (Ext.refl _) b hb i hi X hX, CKY.spanOf, if_neg hw1]
    rfl

theorem grammar_loop (L : Lawful E S ok) (h0 : Heap) (p : CKY.Scores α) (na nb nt : ℕ) (nn tn nt' tt : View) (hmark : p.mark = none) (hT : 0 < p.T)
    (hNT : 0 < p.NT) (views : ℕ → Except PyErr Unit) (k : Unit → HeapM γ) (Q : Except PyErr γ × Heap → Prop) :
    ∀ (ws : List ℕ) (h : Heap) (st : CKY.Charts α), HeldG E h0 h p na nb nt nn tn nt' tt st → (∀ w ∈ ws, w + 1 < p.N) →
      (∀ e h', (∃ w ∈ ws, views (w + 1) = .error e) → Ext h0 h' → Q (.error e, h')) →
      (∀ h', (∀ w ∈ ws, views (w + 1) = .ok ()) → HeldG E h0 h' p na nb nt nn tn nt' tt (ws.foldl (fun st w => CKY.step S p st (w + 1)) st) → Q (k () h')) →
      Q ((CKY.loopM E S views p.batch p.N p.T p.NT ⟨tens na [E.size, p.batch, p.N, p.N, p.NT], tens nb [E.size, p.batch, p.N, p.N, p.NT],
        tens nt [E.size, p.batch, p.N, p.T], nn, tn, nt', tt⟩ (ws.map (· + 1)) >>= k) h)
  | [], h, st, H, _, _, hk => hk h (by simp) H
  | w :: ws, h, st, H, hw, hv, hk => by
    rw [List.map_cons]
    unfold CKY.loopM
    rw [bind_assoc']
    exact grammar_step L H hmark hT hNT views (w + 1) (Nat.succ_pos w) (hw w List.mem_cons_self) _ Q (fun e h' he => hv e h' ⟨w, List.mem_cons_self, he⟩)
      fun h' hvw H' => grammar_loop L h0 p na nb nt nn tn nt' tt hmark hT hNT views k Q ws h' _ H' (fun v hv => hw v (List.mem_cons_of_mem _ hv))
        (fun e h' ⟨v, hm, he⟩ => hv e h' ⟨v, List.mem_cons_of_mem _ hm, he⟩) fun h' hvs => hk h' fun v hm => by
          rcases List.mem_cons.1 hm with rfl | hm
          · exact hvw
          · exact hvs v hm

/-! ### The whole program -/

theorem views_ok {views : ℕ → Except PyErr Unit} : ∀ {ws : List ℕ}, (∀ w ∈ ws, views w = .ok ()) → ws.forM views = .ok ()
  | [], _ => rfl
  | w :: ws, h => by
    show (views w >>= fun _ => ws.forM views) = _
    rw [h w List.mem_cons_self]
    exact views_ok fun v hv => h v (List.mem_cons_of_mem _ hv)

theorem views_error {views : ℕ → Except PyErr Unit} (hviews : ∀ w e, views w = .error e → e = .runtime) :
    ∀ {ws : List ℕ}, (∃ w ∈ ws, ∃ e, views w = .error e) → ws.forM views = .error .runtime
  | [], h => absurd h (by simp)
  | w :: ws, h => by
    show (views w >>= fun _ => ws.forM views) = _
    cases hw : views w with
    | error e => rw [hviews w e hw]; rfl
    | ok x =>
      refine views_error hviews ?_
      obtain ⟨v, hv, e, he⟩ := h
      rcases List.mem_cons.1 hv with rfl | hv
      · rw [hw] at he; cases he
      · exact ⟨v, hv, e, he⟩

theorem addDim_get (h : Heap) (t : View) (b X y z : ℕ) : E.get h (CKY.addDim t 2) [b, 0, X, y, z] = E.get h t [b, X, y, z] := by
  refine congrArg E.dec (funext fun s => ?_)
  rw [Heap.read, Heap.read]
  refine congrArg _ ?_
  obtain ⟨st, o, sh, str⟩ := t
  rcases str with _ | ⟨a0, _ | ⟨a1, str⟩⟩ <;> simp [addr, CKY.addDim]

set_option maxHeartbeats 1600000 in
theorem grammar_run (L : Lawful E S ok) (h0 : Heap) (views : ℕ → Except PyErr Unit) (hviews : ∀ w e, views w = .error e → e = .runtime)
    (batch N T NT R : ℕ) (terms rules roots : HeapM View) (lengths : Option (List ℕ)) (pt pr po : List ℕ → α)
    (ct : ∀ h, Ext h0 h → Spec.Converts E h terms [batch, N, T] pt) (cr : ∀ h, Ext h0 h → Spec.Converts E h rules [batch, NT, R, R] pr)
    (co : ∀ h, Ext h0 h → Spec.Converts E h roots [batch, NT] po) :
    Spec.Answers E h0 (CKY.logpartitionM E S views batch N T NT R terms rules roots lengths h0)
      (((List.range (N - 1)).forM fun w => views (w + 1)) >>= fun _ => CKY.logpartition S ⟨batch, N, T, NT, R, fun b n t => pt [b, n, t],
        fun b x y z => pr [b, x, y, z], fun b x => po [b, x], none⟩ lengths) := by
  generalize hp : (⟨batch, N, T, NT, R, fun b n t => pt [b, n, t], fun b x y z => pr [b, x, y, z], fun b x => po [b, x], none⟩ : CKY.Scores α) = p
  have pb : p.batch = batch := by rw [← hp]
  have pN : p.N = N := by rw [← hp]
  have pT : p.T = T := by rw [← hp]
  have pNT : p.NT = NT := by rw [← hp]
  have pS : p.S = R := by rw [← hp]
  have pm : p.mark = none := by rw [← hp]
  have pte : ∀ b n t, p.term b n t = pt [b, n, t] := by rw [← hp]; intros; rfl
  have pru : ∀ b x y z, p.rule b x y z = pr [b, x, y, z] := by rw [← hp]; intros; rfl
  have pro : ∀ b x, p.root b x = po [b, x] := by rw [← hp]; intros; rfl
  clear hp
  subst pb pN pT pNT pS
  obtain ⟨t, h1, ec1, ⟨en1, ed1⟩, ht, hts, hpt⟩ := ct h0 (Ext.refl h0)
  have e1 : Ext h0 h1 := ⟨en1, ed1⟩
  obtain ⟨r, h2, ec2, ⟨en2, ed2⟩, hr, hrs, hpr⟩ := cr h1 e1
  have x2 : Ext h1 h2 := ⟨en2, ed2⟩
  have e2 := e1.trans x2
  obtain ⟨o, h3, ec3, ⟨en3, ed3⟩, ho, hos, hpo⟩ := co h2 e2
  have x3 : Ext h2 h3 := ⟨en3, ed3⟩
  have e3 := e2.trans x3
  unfold CKY.logpartitionM
  rw [bind_ok ec1, bind_ok ec2, bind_ok ec3]
  generalize hans : (((List.range (p.N - 1)).forM fun w => views (w + 1)) >>= fun _ => CKY.logpartition S p lengths) = ans
  generalize hQ : (fun r => Spec.Answers E h0 r ans) = Q
  have hQ' : ∀ r, Q r ↔ Spec.Answers E h0 r ans := fun r => by rw [← hQ]
  refine (hQ' _).1 ?_
  simp only
  refine chart_bind L _ _ h0 h3 e3 Q fun h4 n4 x4 e4 g4 => ?_
  refine chart_bind L _ _ h0 h4 e4 Q fun h5 n5 x5 e5 g5 => ?_
  refine alloc_bind _ _ _ _ Q fun h6 q6 => ?_
  have x6 : Ext h5 h6 := by rw [q6]; exact (Ext.refl h5).push _ _
  have e6 := e5.trans x6
  have f6 : Ext h3 h6 := x4.trans (x5.trans x6)
  have n6 : h6.next = h5.next + 1 := by rw [q6]; rfl
  have failed : (∃ w ∈ List.range (p.N - 1), ∃ e, views (w + 1) = .error e) → ans = .error .runtime := by
    intro hw
    rw [← hans, views_error (views := fun w => views (w + 1)) (fun w e => hviews (w + 1) e) hw]; rfl
  have passed : (∀ w ∈ List.range (p.N - 1), views (w + 1) = .ok ()) → ans = CKY.logpartition S p lengths := by
    intro hw
    rw [← hans, views_ok (views := fun w => views (w + 1)) hw]; rfl
  have cases' : (∃ w ∈ List.range (p.N - 1), ∃ e, views (w + 1) = .error e) ∨ ∀ w ∈ List.range (p.N - 1), views (w + 1) = .ok () := by
    by_contra hc
    push Not at hc
    obtain ⟨hc1, w, hw, hc2⟩ := hc
    cases he : views (w + 1) with
    | error e => exact hc1 w hw e he
    | ok u => exact hc2 he
  by_cases hbad : p.S ≠ p.NT + p.T ∨ p.NT = 0 ∨ p.T = 0 ∨ p.batch = 0
  · rw [if_pos hbad]
    refine (hQ' _).2 ⟨e6.data, ?_⟩
    rcases cases' with hw | hw
    · exact failed hw
    · exact (passed hw).trans (by rw [CKY.logpartition, if_pos hbad])
  rw [if_neg hbad]
  have hgood : p.S = p.NT + p.T ∧ p.NT ≠ 0 ∧ p.T ≠ 0 ∧ p.batch ≠ 0 := by
    push Not at hbad; exact hbad
  obtain ⟨hS, hNT, hT, hb0⟩ := hgood
  have l2 := x2.next
  have l3 := x3.next
  have l4 := x4.next
  have l5 := x5.next
  have hshape : (CKY.addDim r 2).shape = [E.size, p.batch, 1, p.NT, p.S, p.S] := by simp [CKY.addDim, hrs]
  have hrule : ∀ h', Ext h6 h' → ∀ b < p.batch, ∀ X < p.NT, ∀ y < p.S, ∀ z < p.S, E.get h' (CKY.addDim r 2) [b, 0, X, y, z] = p.rule b X y z := by
    intro h' x b hb X hX y hy z hz
    rw [addDim_get, (x3.trans (x4.trans (x5.trans (x6.trans x)))).get _ hr, hpr [b, X, y, z] ⟨hb, hX, hy, hz, trivial⟩, pru]
  have hrst : (CKY.addDim r 2).storage = r.storage := rfl
  refine arr_bind L (CKY.addDim r 2) p.batch p.NT p.S 0 p.NT 0 p.NT hshape (by omega) (by omega) _ h3 h6 f6 (by rw [hrst]; omega) p.rule
    (hrule h6 (Ext.refl _)) Q fun nn h7 s7 x7 e7 B7 => ?_
  have l7 := x7.next
  refine arr_bind L (CKY.addDim r 2) p.batch p.NT p.S p.NT p.T 0 p.NT hshape (by omega) (by omega) _ h3 h7 e7 (by rw [hrst]; omega) p.rule
    (hrule h7 x7) Q fun tn h8 s8 x8 e8 B8 => ?_
  have l8 := x8.next
  refine arr_bind L (CKY.addDim r 2) p.batch p.NT p.S 0 p.NT p.NT p.T hshape (by omega) (by omega) _ h3 h8 e8 (by rw [hrst]; omega) p.rule
    (hrule h8 (x7.trans x8)) Q fun nt' h9 s9 x9 e9 B9 => ?_
  have l9 := x9.next
  refine arr_bind L (CKY.addDim r 2) p.batch p.NT p.S p.NT p.T p.NT p.T hshape (by omega) (by omega) _ h3 h9 e9 (by rw [hrst]; omega) p.rule
    (hrule h9 (x7.trans (x8.trans x9))) Q fun tt h10 s10 x10 e10 B10 => ?_
  have l10 := x10.next
  have x610 : Ext h6 h10 := x7.trans (x8.trans (x9.trans x10))
  have H : HeldG E h3 h10 p h3.next h4.next h5.next nn tn nt' tt (CKY.init S) := by
    refine ⟨e10, le_rfl, l4, by omega, by omega, by omega, by omega, by omega, by omega, ?_, ?_, ?_, B7.mono (x8.trans (x9.trans x10)),
      B8.mono (x9.trans x10), B9.mono x10, B10, ?_⟩
    · intro b hb i hi w hw X hX
      rw [(x5.trans (x6.trans x610)).get _ (show h3.next < h4.next by omega)]
      exact g4 [b, i, w, X] ⟨hb, hi, hw, hX, trivial⟩
    · intro b hb i hi w hw X hX
      rw [(x6.trans x610).get _ (show h4.next < h5.next by omega)]
      exact g5 [b, i, w, X] ⟨hb, hi, hw, hX, trivial⟩
    · intro b hb i hi y hy
      rw [x610.get _ (show h5.next < h6.next by omega), pte, ← hpt [b, i, y] ⟨hb, hi, hy, trivial⟩, ← (x2.trans (x3.trans (x4.trans x5))).get (E := E) t ht, q6, hts]
      exact L.congr _ _ fun s hs => read_push_new h5 _ _ (s :: [b, i, y]) ⟨hs, hb, hi, hy, trivial⟩
    · intro v hv
      simp only [List.mem_cons, List.not_mem_nil, or_false] at hv
      rw [hrst] at s7 s8 s9 s10
      rcases hv with rfl | rfl | rfl | rfl <;> constructor <;> omega
  have hterm : (tens h5.next t.shape) = tens h5.next [E.size, p.batch, p.N, p.T] := by rw [hts]
  rw [hterm]
  refine grammar_loop L h3 p h3.next h4.next h5.next nn tn nt' tt pm (by omega) (by omega) views _ Q _ h10 _ H
    (fun w hw => by have := List.mem_range.1 hw; omega) (fun e h' ⟨w, hw, he⟩ x => (hQ' _).2 ⟨(e3.trans x).data, ?_⟩) fun h11 hok H11 => ?_
  · rw [failed ⟨w, hw, e, he⟩, hviews _ _ he]
  rw [passed hok] at hQ'
  unfold CKY.logpartition at hQ'
  simp only [if_neg hbad] at hQ'
  by_cases hN : p.N = 0
  · rw [if_pos hN] at hQ' ⊢
    exact (hQ' _).2 ⟨(e3.trans H11.ext).data, rfl⟩
  rw [if_neg hN] at hQ' ⊢
  have pf := span_final h3.next E.size p.batch p.N p.NT (by omega)
  generalize CKYCRF.lensOr p.batch p.N lengths = lens at hQ' ⊢
  have hlast : ∀ l ≤ p.N, CKYCRF.lastIndex p.N l < p.N := fun l hl => by unfold CKYCRF.lastIndex; split_ifs <;> omega
  unfold CKY.topM
  by_cases c1 : ∀ l ∈ lens, l ≤ p.N
  swap
  · rw [if_neg c1] at hQ' ⊢
    exact (hQ' _).2 ⟨(e3.trans H11.ext).data, rfl⟩
  rw [if_pos c1] at hQ' ⊢
  by_cases c2 : p.batch < lens.length
  · rw [if_pos c2]
    rw [if_neg (by omega), if_neg (by omega), if_pos c2] at hQ'
    exact (hQ' _).2 ⟨(e3.trans H11.ext).data, rfl⟩
  rw [if_neg c2]
  by_cases c3 : lens.length = 0
  · rw [if_pos c3]
    rw [if_neg (by omega), if_neg (by omega), if_neg c2] at hQ'
    exact (hQ' _).2 ⟨(e3.trans H11.ext).data, rfl⟩
  rw [if_neg c3]
  refine alloc_bind _ _ _ _ Q fun h12 q12 => ?_
  have x12 : Ext h11 h12 := by rw [q12]; exact (Ext.refl h11).push _ _
  have e12 := (e3.trans H11.ext).trans x12
  have gtop : ∀ c < lens.length, ∀ X < p.NT, E.get h12 (tens h11.next [E.size, lens.length, p.NT]) [c, X] = CKY.top S p lens c X := by
    intro c hc X hX
    have hl : lens.getD c 0 ≤ p.N := by
      rw [List.getD_eq_getElem _ _ hc]
      exact c1 _ (List.getElem_mem _)
    have hf := (pf.get (E := E) h11 [c, CKYCRF.lastIndex p.N (lens.getD c 0), X] ⟨by omega, hlast _ hl, hX, trivial⟩).trans
      (H11.a c (by omega) 0 (by omega) (CKYCRF.lastIndex p.N (lens.getD c 0)) (hlast _ hl) X hX)
    refine Eq.trans ?_ hf
    refine L.congr _ _ fun s hs => ?_
    rw [q12]
    exact read_push_new h11 _ _ (s :: [c, X]) ⟨hs, hc, hX, trivial⟩
  have x11 : Ext h3 h12 := H11.ext.trans x12
  unfold CKY.dotM
  by_cases c4 : lens.length = p.batch ∨ lens.length = 1
  swap
  · rw [if_neg c4]
    rw [if_neg (by tauto), if_neg (by tauto), if_neg c2] at hQ'
    exact (hQ' _).2 ⟨e12.data, rfl⟩
  rw [if_pos c4]
  refine put_bind L [p.batch, p.NT] (fun h ix => S.mul (E.get h (tens h11.next [E.size, lens.length, p.NT])
    [if lens.length = p.batch then ix.getD 0 0 else 0, ix.getD 1 0]) (E.get h o ix)) _ h0 h12 e12
    (fun ix _ => L.mul _ _ (L.ok_get _ _ _) (L.ok_get _ _ _)) Q fun h13 n13 x13 e13 g13 => ?_
  refine reduce_run L _ [p.batch] p.NT (by omega) rfl h0 h13 e13 Q fun h14 n14 x14 e14 g14 => ?_
  have groot : ∀ b < p.batch, ∀ X < p.NT, E.get h12 o [b, X] = p.root b X := by
    intro b hb X hX
    rw [x11.get _ ho, hpo [b, X] ⟨hb, hX, trivial⟩, pro]
  have hres : ∀ b < p.batch, E.get h14 (tens h13.next [E.size, p.batch]) [b] = CKY.logZ S p lens (if lens.length = p.batch then b else 0) b := by
    intro b hb
    rw [g14 [b] ⟨hb, trivial⟩, CKY.logZ, SR.dot, List.zipWith_map, List.zipWith_self]
    refine congrArg S.sum (List.map_congr_left fun X hX => ?_)
    have hX := List.mem_range.1 hX
    refine (g13 [b, X] ⟨hb, hX, trivial⟩).trans ?_
    refine congrArg₂ S.mul ?_ (groot b hb X hX)
    exact gtop (if lens.length = p.batch then b else 0) (by split_ifs <;> omega) X hX
  refine (hQ' _).2 ?_
  have hfin : (∀ s < h0.next, h14.data s = h0.data s) ∧ h0.next ≤ h13.next := ⟨e14.data, e13.next⟩
  rcases c4 with c4 | c4
  · rw [if_pos c4]
    refine ⟨hfin.1, hfin.2, p.batch, rfl, congrArg _ (List.map_congr_left fun b hb => ?_)⟩
    rw [hres b (List.mem_range.1 hb), if_pos c4]
  · by_cases c5 : lens.length = p.batch
    · rw [if_pos c5]
      refine ⟨hfin.1, hfin.2, p.batch, rfl, congrArg _ (List.map_congr_left fun b hb => ?_)⟩
      rw [hres b (List.mem_range.1 hb), if_pos c5]
    · rw [if_neg c5, if_pos c4]
      refine ⟨hfin.1, hfin.2, p.batch, rfl, congrArg _ (List.map_congr_left fun b hb => ?_)⟩
      rw [hres b (List.mem_range.1 hb), if_neg c5]

end MemoryProofs
