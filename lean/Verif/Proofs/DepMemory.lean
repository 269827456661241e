import Verif.Proofs.TreeMemory
import Verif.Model.DepMemory

/-! `DepTree.logpartitionM` computes what `DepTree.logpartition` computes, and leaves the existing storages alone. -/

open View HeapM

namespace MemoryProofs
variable {α γ : Type} {E : Layout α} {S : SR α} {ok : α → Prop}

/-! ### Slices of a chart -/

section
variable (n k batch N : ℕ)

theorem part_box (a a' l l' : ℕ) (ha : a ≤ a') (ha' : a' ≤ N) (hl : l ≤ l') (hl' : l' ≤ N) :
    Part (((tens n [k, batch, N, N]).slice 2 a a' 1).slice 3 l l' 1) n k [batch, N, N] [batch, a' - a, l' - l]
      fun ix => [ix.getD 0 0, a + ix.getD 1 0, l + ix.getD 2 0] where
  storage := rfl
  shape_eq := by simp [slice, tens]
  valid ix hv := by
    match ix, hv with
    | [b, i, u], hv => exact ⟨hv.1, by have := hv.2.1; simp; omega, by have := hv.2.2.1; simp; omega, trivial⟩
  addr s ix hv := by
    match ix, hv with
    | [b, i, u], hv =>
      rw [← addr_tens n]
      simp [slice, addr, tens, rowMajor]
      ring

theorem part_col (a a' c : ℕ) (ha' : a' ≤ N) (hc : c < N) : Part (((tens n [k, batch, N, N]).slice 2 a a' 1).select 3 c) n k [batch, N, N] [batch, a' - a]
    fun ix => [ix.getD 0 0, a + ix.getD 1 0, c] where
  storage := rfl
  shape_eq := by simp [slice, select, tens]
  valid ix hv := by
    match ix, hv with
    | [b, i], hv => exact ⟨hv.1, by have := hv.2.1; simp; omega, hc, trivial⟩
  addr s ix hv := by
    match ix, hv with
    | [b, i], hv =>
      rw [← addr_tens n]
      simp [slice, select, addr, tens, rowMajor]
      ring

theorem part_rowslice (r a a' : ℕ) (hr : r < N) (ha' : a' ≤ N) : Part (((tens n [k, batch, N, N]).select 2 r).slice 2 a a' 1) n k [batch, N, N] [batch, a' - a]
    fun ix => [ix.getD 0 0, r, a + ix.getD 1 0] where
  storage := rfl
  shape_eq := by simp [slice, select, tens]
  valid ix hv := by
    match ix, hv with
    | [b, i], hv => exact ⟨hv.1, hr, by have := hv.2.1; simp; omega, trivial⟩
  addr s ix hv := by
    match ix, hv with
    | [b, i], hv =>
      rw [← addr_tens n]
      simp [slice, select, addr, tens, rowMajor]
      ring

theorem part_cell (r c : ℕ) (hr : r < N) (hc : c < N) : Part (((tens n [k, batch, N, N]).select 2 r).select 2 c) n k [batch, N, N] [batch]
    fun ix => [ix.getD 0 0, r, c] where
  storage := rfl
  shape_eq := by simp [select, tens]
  valid ix hv := by
    match ix, hv with
    | [b], hv => exact ⟨hv.1, hr, hc, trivial⟩
  addr s ix hv := by
    match ix, hv with
    | [b], hv =>
      rw [← addr_tens n]
      simp [select, addr, tens, rowMajor]
      ring

theorem part_prefix (m a : ℕ) (ha : a ≤ m) : Part ((tens n [k, batch, m]).slice 2 0 a 1) n k [batch, m] [batch, a] fun ix => ix where
  storage := rfl
  shape_eq := by simp [slice, tens]
  valid ix hv := by
    match ix, hv with
    | [b, i], hv => exact ⟨hv.1, by have := hv.2.1; omega, trivial⟩
  addr s ix hv := by
    match ix, hv with
    | [b, i], hv =>
      rw [← addr_tens n]
      simp [slice, addr, tens, rowMajor]

end

/-! ### The charts -/

/-- A family of charts in memory, in the storages `n c`, and a table `arc` in storage `na`. -/
structure Holds {ι : Type} (E : Layout α) (h0 h : Heap) (batch N : ℕ) (n : ι → ℕ) (na : ℕ) (arc : ℕ → ℕ → ℕ → α) (st : ι → ℕ → ℕ → ℕ → α) : Prop where
  ext : Ext h0 h
  lo : ∀ c, h0.next ≤ n c
  hi : ∀ c, n c < h.next
  inj : ∀ c d, n c = n d → c = d
  na_hi : na < h.next
  na_ne : ∀ c, n c ≠ na
  val : ∀ c, ∀ b < batch, ∀ i < N, ∀ w < N, E.get h (tens (n c) [E.size, batch, N, N]) [b, i, w] = st c b i w
  arcs : ∀ b < batch, ∀ i < N, ∀ j < N, E.get h (tens na [E.size, batch, N, N]) [b, i, j] = arc b i j

section
variable {ι : Type} {h0 h h' : Heap} {batch N : ℕ} {n : ι → ℕ} {na : ℕ} {arc : ℕ → ℕ → ℕ → α} {st : ι → ℕ → ℕ → ℕ → α}

theorem Holds.mono (H : Holds E h0 h batch N n na arc st) (x : Ext h h') : Holds E h0 h' batch N n na arc st :=
  ⟨H.ext.trans x, H.lo, fun c => lt_of_lt_of_le (H.hi c) x.next, H.inj, lt_of_lt_of_le H.na_hi x.next, H.na_ne,
    fun c b hb i hi w hw => by rw [x.get _ (H.hi c), H.val c b hb i hi w hw],
    fun b hb i hi j hj => by rw [x.get _ H.na_hi, H.arcs b hb i hi j hj]⟩

/-- `chart[a : a', c] = new`: the column of one chart is overwritten. -/
theorem column_bind [DecidableEq ι] (L : Lawful E S ok) (H : Holds E h0 h batch N n na arc st) (d : ι) (a a' c : ℕ) (ha' : a' ≤ N) (hc : c < N) (m : ℕ)
    (hm : ∀ c, n c ≠ m) (f : ℕ → ℕ → α) (hf : ∀ b < batch, ∀ i < a' - a, E.get h (tens m [E.size, batch, a' - a]) [b, i] = f b (a + i))
    (k : Unit → HeapM γ) (Q : Except PyErr γ × Heap → Prop)
    (hk : ∀ h', h'.next = h.next → (∀ u : View, (∀ c, u.storage ≠ n c) → ∀ ix, E.get h' u ix = E.get h u ix) →
      Holds E h0 h' batch N n na arc (Function.update st d fun b i w => if a ≤ i ∧ i < a' ∧ w = c then f b i else st d b i w) → Q (k () h')) :
    Q ((assign (((tens (n d) [E.size, batch, N, N]).slice 2 a a' 1).select 3 c) (fun h => h.read (tens m [E.size, batch, a' - a])) >>= k) h) := by
  have p := part_col (n d) E.size batch N a a' c ha' hc
  refine assign_bind _ _ _ _ Q fun h1 q1 => ?_
  refine hk h1 (by rw [q1]; rfl) (fun u hu ix => by rw [q1]; exact get_write_other _ _ _ _ _ (by rw [p.storage]; exact hu d)) ?_
  refine ⟨by rw [q1]; exact H.ext.write _ (by rw [p.storage]; exact H.lo d) _, H.lo, fun c => by rw [q1]; exact H.hi c, H.inj, by rw [q1]; exact H.na_hi, H.na_ne, ?_, ?_⟩
  · intro e b hb i hi w hw
    rw [q1]
    by_cases hed : e = d
    · subst hed
      rw [Function.update_self]
      by_cases hx : a ≤ i ∧ i < a' ∧ w = c
      · obtain ⟨h1, h2, rfl⟩ := hx
        rw [if_pos ⟨h1, h2, rfl⟩]
        have := p.write_hit L (by
          intro ix jx h1 h2 he
          match ix, jx, h1, h2 with
          | [_, _], [_, _], _, _ => simpa using he) h (tens m [E.size, batch, a' - a]) [b, i - a] ⟨hb, by omega, trivial⟩
        simp only [List.getD_cons_zero, List.getD_cons_succ] at this
        rw [show a + (i - a) = i by omega] at this
        rw [this, hf b hb (i - a) (by omega), show a + (i - a) = i by omega]
      · rw [if_neg hx, p.write_miss L h _ [b, i, w] ⟨hb, hi, hw, trivial⟩, H.val e b hb i hi w hw]
        intro jx hj he
        match jx, hj with
        | [b', i'], hj =>
          simp only [List.getD_cons_zero, List.getD_cons_succ, List.cons.injEq] at he
          have := hj.2.1
          omega
    · rw [Function.update_of_ne hed, get_write_other _ _ _ _ _ (by rw [p.storage]; exact fun hh => hed (H.inj _ _ hh)), H.val e b hb i hi w hw]
  · intro b hb i hi j hj
    rw [q1, get_write_other _ _ _ _ _ (by rw [p.storage]; exact (H.na_ne d).symm), H.arcs b hb i hi j hj]

end

theorem column_bind' {ι : Type} {h0 h : Heap} {batch N : ℕ} {n : ι → ℕ} {na : ℕ} {arc : ℕ → ℕ → ℕ → α} {st : ι → ℕ → ℕ → ℕ → α} [DecidableEq ι]
    (L : Lawful E S ok) (H : Holds E h0 h batch N n na arc st) (d : ι) (a a' c wd : ℕ) (hwd : wd = a' - a) (ha' : a' ≤ N) (hc : c < N) (m : ℕ)
    (hm : ∀ c, n c ≠ m) (f : ℕ → ℕ → α) (hf : ∀ b < batch, ∀ i < wd, E.get h (tens m [E.size, batch, wd]) [b, i] = f b (a + i))
    (k : Unit → HeapM γ) (Q : Except PyErr γ × Heap → Prop)
    (hk : ∀ h', h'.next = h.next → (∀ u : View, (∀ c, u.storage ≠ n c) → ∀ ix, E.get h' u ix = E.get h u ix) →
      Holds E h0 h' batch N n na arc (Function.update st d fun b i w => if a ≤ i ∧ i < a' ∧ w = c then f b i else st d b i w) → Q (k () h')) :
    Q ((assign (((tens (n d) [E.size, batch, N, N]).slice 2 a a' 1).select 3 c) (fun h => h.read (tens m [E.size, batch, wd])) >>= k) h) := by
  subst hwd
  exact column_bind L H d a a' c ha' hc m hm f hf k Q hk

/-- Names of the eight charts. -/
inductive Ch where
  | acl | acr | bcl | bcr | ail | air | bil | bir
  deriving DecidableEq

def fam (st : DepTree.Charts α) : Ch → ℕ → ℕ → ℕ → α
  | .acl => st.acl
  | .acr => st.acr
  | .bcl => st.bcl
  | .bcr => st.bcr
  | .ail => st.ail
  | .air => st.air
  | .bil => st.bil
  | .bir => st.bir

/-- The charts in the storages `n c`. -/
def chartsAt (k batch N : ℕ) (n : Ch → ℕ) : DepTree.ChartsM :=
  let t c := tens (n c) [k, batch, N, N]
  ⟨t .acl, t .acr, t .bcl, t .bcr, t .ail, t .air, t .bil, t .bir⟩

section
variable {h0 h : Heap} {batch N : ℕ} {n : Ch → ℕ} {na : ℕ} {arc : ℕ → ℕ → ℕ → α}

/-- The product of two boxes of charts. -/
theorem box_dot (L : Lawful E S ok) {st : Ch → ℕ → ℕ → ℕ → α} (H : Holds E h0 h batch N n na arc st) (d e : Ch) (a a' l c c' r k' : ℕ) (hk' : 0 < k')
    (ha : a ≤ a') (ha' : a' ≤ N) (hl : l + k' ≤ N) (hc : c ≤ c') (hc' : c' ≤ N) (hr : r + k' ≤ N) (hw : c' - c = a' - a)
    (k : View → HeapM γ) (Q : Except PyErr γ × Heap → Prop)
    (hk : ∀ m h', h'.next = m + 1 → h.next ≤ m → Ext h h' → Holds E h0 h' batch N n na arc st →
      (∀ b < batch, ∀ i < a' - a, E.get h' (tens m [E.size, batch, a' - a]) [b, i] =
        S.dot ((List.range k').map fun u => st d b (a + i) (l + u)) ((List.range k').map fun u => st e b (c + i) (r + u))) →
      Q (k (tens m [E.size, batch, a' - a]) h')) :
    Q ((E.dot S (((tens (n d) [E.size, batch, N, N]).slice 2 a a' 1).slice 3 l (l + k') 1)
      (((tens (n e) [E.size, batch, N, N]).slice 2 c c' 1).slice 3 r (r + k') 1) >>= k) h) := by
  have pl := part_box (n d) E.size batch N a a' l (l + k') ha ha' (by omega) hl
  have pr := part_box (n e) E.size batch N c c' r (r + k') hc hc' (by omega) hr
  simp only [Nat.add_sub_cancel_left] at pl pr
  refine dot_bind L _ _ [batch, a' - a] k' hk' pl.shape_eq _ h0 h H.ext Q fun h1 n1 x1 e1 g1 => ?_
  refine hk _ h1 (by omega) (by omega) x1 (H.mono x1) fun b hb i hi => ?_
  rw [g1 [b, i] ⟨hb, hi, trivial⟩]
  refine congrArg₂ S.dot ?_ ?_
  · refine List.map_congr_left fun u hu => ?_
    have hu := List.mem_range.1 hu
    refine (pl.get h [b, i, u] ⟨hb, hi, hu, trivial⟩).trans ?_
    exact H.val d b hb (a + i) (by omega) (l + u) (by omega)
  · refine List.map_congr_left fun u hu => ?_
    have hu := List.mem_range.1 hu
    refine (pr.get h [b, i, u] ⟨hb, by omega, hu, trivial⟩).trans ?_
    exact H.val e b hb (c + i) (by omega) (r + u) (by omega)

theorem gather_bind (L : Lawful E S ok) {st : Ch → ℕ → ℕ → ℕ → α} (H : Holds E h0 h batch N n na arc st) (w : ℕ) (g g' : ℕ → ℕ) (hg : ∀ i < w, g i < N)
    (hg' : ∀ i < w, g' i < N) (k : View → HeapM γ) (Q : Except PyErr γ × Heap → Prop)
    (hk : ∀ h', h'.next = h.next + 1 → Ext h h' → Holds E h0 h' batch N n na arc st →
      (∀ b < batch, ∀ i < w, E.get h' (tens h.next [E.size, batch, w]) [b, i] = arc b (g i) (g' i)) → Q (k (tens h.next [E.size, batch, w]) h')) :
    Q ((alloc [E.size, batch, w] (fun h ix => h.read (tens na [E.size, batch, N, N]) [ix.getD 0 0, ix.getD 1 0, g (ix.getD 2 0), g' (ix.getD 2 0)]) >>= k) h) := by
  refine alloc_bind _ _ _ _ Q fun h1 q1 => ?_
  have x1 : Ext h h1 := by rw [q1]; exact (Ext.refl h).push _ _
  refine hk h1 (by rw [q1]; rfl) x1 (H.mono x1) fun b hb i hi => ?_
  rw [← H.arcs b hb (g i) (hg i hi) (g' i) (hg' i hi), q1]
  exact L.congr _ _ fun s hs => read_push_new h [E.size, batch, w] _ [s, b, i] ⟨hs, hb, hi, trivial⟩

theorem dep_step (L : Lawful E S ok) (st : DepTree.Charts α) (H : Holds E h0 h batch N n na arc (fam st)) (s w : ℕ) (hw : 0 < w) (hwN : w + s < N)
    (k : Unit → HeapM γ) (Q : Except PyErr γ × Heap → Prop)
    (hk : ∀ h', Holds E h0 h' batch N n na arc (fam (DepTree.step S s N arc st w)) → Q (k () h')) :
    Q ((DepTree.stepM E S batch s N (tens na [E.size, batch, N, N]) (chartsAt E.size batch N n) w >>= k) h) := by
  unfold DepTree.stepM
  have hN : N - w + w = N := by omega
  have hN1 : N - w - 1 + w = N - 1 := by omega
  have hne : ∀ {m : ℕ} {h' : Heap}, h'.next ≤ m → Holds E h0 h' batch N n na arc (fam st) → ∀ c, n c ≠ m := fun hm H' c => by have := H'.hi c; omega
  simp only [bind_assoc', DepTree.assignA, DepTree.assignB, chartsAt]
  have b1 := fun (k : View → HeapM γ) => box_dot L H .acr .bcl s (N - w) 0 (w + s) N (N - w) w hw (by omega) (by omega) (by omega) (by omega) le_rfl (by omega) (by omega) k Q
  simp only [Nat.zero_add, hN] at b1
  refine b1 _ fun m1 h1 n1 l1 x1 H1 g1 => ?_
  clear b1
  -- left arcs
  refine gather_bind L H1 (N - w - s) (fun i => s + i + w) (fun i => s + i) (fun i hi => by omega) (fun i hi => by omega) _ Q fun h2 n2 x2 H2 g2 => ?_
  refine times_bind L _ _ [batch, N - w - s] rfl _ h0 h2 H2.ext Q fun h3 n3 x3 e3 g3 => ?_
  have H3 := H2.mono x3
  let x : ℕ → ℕ → α := fun b i => S.dot ((List.range w).map fun u => st.acr b i u) ((List.range w).map fun u => st.bcl b (w + i) (N - w + u))
  have gx : ∀ h', Ext h1 h' → ∀ b < batch, ∀ i < N - w - s, E.get h' (tens m1 [E.size, batch, N - w - s]) [b, i] = x b (s + i) := by
    intro h' x' b hb i hi
    rw [x'.get _ (show m1 < h1.next by omega), g1 b hb i hi]
    simp only [x, fam, Nat.add_assoc]
  let arcsL : ℕ → ℕ → α := fun b i => S.times (x b i) [arc b (i + w) i]
  have gl : ∀ b < batch, ∀ i < N - w - s, E.get h3 (tens h2.next [E.size, batch, N - w - s]) [b, i] = arcsL b (s + i) := by
    intro b hb i hi
    rw [g3 [b, i] ⟨hb, hi, trivial⟩, gx h2 x2 b hb i hi, g2 b hb i hi]
    rfl
  have ne3 : ∀ c, n c ≠ h2.next := fun c => by have := H2.hi c; omega
  refine column_bind' L H3 .ail s (N - w) w _ rfl (by omega) (by omega) h2.next ne3 arcsL gl _ Q fun h4 n4 k4 H4 => ?_
  refine column_bind' L H4 .bil (w + s) N (N - w - 1) _ (by omega) le_rfl (by omega) h2.next ne3 (fun b i => arcsL b (i - w)) ?_ _ Q fun h5 n5 k5 H5 => ?_
  · intro b hb i hi
    rw [k4 _ (fun c => (ne3 c).symm), gl b hb i hi, show w + s + i - w = s + i by omega]
  -- right arcs
  refine gather_bind L H5 (N - w - s) (fun i => s + i) (fun i => s + i + w) (fun i hi => by omega) (fun i hi => by omega) _ Q fun h6 n6 x6 H6 g6 => ?_
  refine times_bind L _ _ [batch, N - w - s] rfl _ h0 h6 H6.ext Q fun h7 n7 x7 e7 g7 => ?_
  have H7 := H6.mono x7
  have ne1 : ∀ c, m1 ≠ n c := fun c => by have := H.hi c; omega
  let arcsR : ℕ → ℕ → α := fun b i => S.times (x b i) [arc b i (i + w)]
  have gr : ∀ b < batch, ∀ i < N - w - s, E.get h7 (tens h6.next [E.size, batch, N - w - s]) [b, i] = arcsR b (s + i) := by
    intro b hb i hi
    rw [g7 [b, i] ⟨hb, hi, trivial⟩, g6 b hb i hi, x6.get _ (show m1 < h5.next by omega), k5 _ ne1, k4 _ ne1, gx h3 (x2.trans x3) b hb i hi]
    rfl
  have ne7 : ∀ c, n c ≠ h6.next := fun c => by have := H6.hi c; omega
  refine column_bind' L H7 .air s (N - w) w _ rfl (by omega) (by omega) h6.next ne7 arcsR gr _ Q fun h8 n8 k8 H8 => ?_
  refine column_bind' L H8 .bir (w + s) N (N - w - 1) _ (by omega) le_rfl (by omega) h6.next ne7 (fun b i => arcsR b (i - w)) ?_ _ Q fun h9 n9 k9 H9 => ?_
  · intro b hb i hi
    rw [k8 _ (fun c => (ne7 c).symm), gr b hb i hi, show w + s + i - w = s + i by omega]
  -- the state so far
  have hI : Holds E h0 h9 batch N n na arc (fam (DepTree.stepI S s N arc st w)) := by
    convert H9 using 1
    funext c
    cases c <;> rfl
  clear H9 H8 H7 H6 H5 H4 H3 H2 H1
  have hk' : ∀ h', Holds E h0 h' batch N n na arc (fam (DepTree.stepC S s N (DepTree.stepI S s N arc st w) w)) → Q (k () h') := hk
  generalize DepTree.stepI S s N arc st w = st' at hI hk'
  -- complete spans
  have b2 := fun (k : View → HeapM γ) => box_dot L hI .acl .bil s (N - w) 0 (w + s) N (N - w - 1) w hw (by omega) (by omega) (by omega) (by omega) le_rfl (by omega) (by omega) k Q
  simp only [Nat.zero_add, hN1] at b2
  refine b2 _ fun m10 h10 n10 l10 x10 H10 g10 => ?_
  clear b2
  have ne10 : ∀ c, n c ≠ m10 := fun c => by have := hI.hi c; omega
  let newL : ℕ → ℕ → α := fun b i => S.dot ((List.range w).map fun u => st'.acl b i u) ((List.range w).map fun u => st'.bil b (w + i) (N - w - 1 + u))
  have g10' : ∀ b < batch, ∀ i < N - w - s, E.get h10 (tens m10 [E.size, batch, N - w - s]) [b, i] = newL b (s + i) := by
    intro b hb i hi
    rw [g10 b hb i hi]
    simp only [newL, fam, Nat.add_assoc]
  refine column_bind' L H10 .acl s (N - w) w _ rfl (by omega) (by omega) m10 ne10 newL g10' _ Q fun h11 n11 k11 H11 => ?_
  refine column_bind' L H11 .bcl (w + s) N (N - w - 1) _ (by omega) le_rfl (by omega) m10 ne10 (fun b i => newL b (i - w)) ?_ _ Q fun h12 n12 k12 H12 => ?_
  · intro b hb i hi
    rw [k11 _ (fun c => (ne10 c).symm), g10' b hb i hi, show w + s + i - w = s + i by omega]
  have b3 := fun (k : View → HeapM γ) => box_dot L H12 .air .bcr s (N - w) 1 (w + s) N (N - w) w hw (by omega) (by omega) (by omega) (by omega) le_rfl (by omega) (by omega) k Q
  simp only [Nat.add_comm 1 w, hN] at b3
  refine b3 _ fun m13 h13 n13 l13 x13 H13 g13 => ?_
  clear b3
  have ne13 : ∀ c, n c ≠ m13 := fun c => by have := H12.hi c; omega
  let newR : ℕ → ℕ → α := fun b i => S.dot ((List.range w).map fun u => st'.air b i (1 + u)) ((List.range w).map fun u => st'.bcr b (w + i) (N - w + u))
  have g13' : ∀ b < batch, ∀ i < N - w - s, E.get h13 (tens m13 [E.size, batch, N - w - s]) [b, i] = newR b (s + i) := by
    intro b hb i hi
    rw [g13 b hb i hi]
    simp [newR, fam, Nat.add_assoc]
  refine column_bind' L H13 .acr s (N - w) w _ rfl (by omega) (by omega) m13 ne13 newR g13' _ Q fun h14 n14 k14 H14 => ?_
  refine column_bind' L H14 .bcr (w + s) N (N - w - 1) _ (by omega) le_rfl (by omega) m13 ne13 (fun b i => newR b (i - w)) ?_ _ Q fun h15 n15 k15 H15 => ?_
  · intro b hb i hi
    rw [k14 _ (fun c => (ne13 c).symm), g13' b hb i hi, show w + s + i - w = s + i by omega]
  refine hk' h15 ?_
  convert H15 using 1
  funext c
  cases c <;> rfl

theorem dep_loop (L : Lawful E S ok) (h0 : Heap) (batch N s : ℕ) (n : Ch → ℕ) (na : ℕ) (arc : ℕ → ℕ → ℕ → α) (k : Unit → HeapM γ)
    (Q : Except PyErr γ × Heap → Prop) :
    ∀ (ws : List ℕ) (h : Heap) (st : DepTree.Charts α), Holds E h0 h batch N n na arc (fam st) → (∀ w ∈ ws, w + 1 + s < N) →
      (∀ h', Holds E h0 h' batch N n na arc (fam (ws.foldl (fun st w => DepTree.step S s N arc st (w + 1)) st)) → Q (k () h')) →
      Q ((DepTree.loopM E S batch s N (tens na [E.size, batch, N, N]) (chartsAt E.size batch N n) (ws.map (· + 1)) >>= k) h)
  | [], h, st, H, _, hk => hk h H
  | w :: ws, h, st, H, hw, hk => by
    rw [List.map_cons]
    unfold DepTree.loopM
    rw [bind_assoc']
    refine dep_step L st H s (w + 1) (by omega) (hw w (by simp)) _ Q fun h1 H1 => ?_
    exact dep_loop L h0 batch N s n na arc k Q ws h1 _ H1 (fun v hv => hw v (by simp [hv])) hk

theorem root_loop (L : Lawful E S ok) (h0 : Heap) (batch N : ℕ) (n : Ch → ℕ) (na ns : ℕ) (hns : ∀ c, n c ≠ ns) (arc : ℕ → ℕ → ℕ → α) (span : ℕ → ℕ → α)
    (k : Unit → HeapM γ) (Q : Except PyErr γ × Heap → Prop) :
    ∀ (ws : List ℕ) (h : Heap) (st : DepTree.Charts α), Holds E h0 h batch N n na arc (fam st) → ns < h.next →
      (∀ b < batch, ∀ u < N - 1, E.get h (tens ns [E.size, batch, N - 1]) [b, u] = span b u) → (∀ w ∈ ws, w + 1 < N) →
      (∀ h', Holds E h0 h' batch N n na arc (fam (ws.foldl (fun st w => DepTree.rootStep S N span st (w + 1)) st)) → Q (k () h')) →
      Q ((DepTree.rootLoopM E S N (tens ns [E.size, batch, N - 1]) (chartsAt E.size batch N n) (ws.map (· + 1)) >>= k) h)
  | [], h, st, H, _, _, _, hk => hk h H
  | w :: ws, h, st, H, hn, hs, hw, hk => by
    have hwN := hw w (by simp)
    rw [List.map_cons]
    unfold DepTree.rootLoopM
    simp only [bind_assoc', chartsAt]
    have pl := part_prefix ns E.size batch (N - 1) (w + 1) (by omega)
    have pr := part_rowslice (n .bcr) E.size batch N (w + 1) (N - (w + 1)) N hwN le_rfl
    have pc := part_cell (n .acr) E.size batch N 0 (w + 1) (by omega) hwN
    refine dot_bind L _ _ [batch] (w + 1) (by omega) pl.shape_eq _ h0 h H.ext Q fun h1 n1 x1 e1 g1 => ?_
    have H1 := H.mono x1
    refine assign_bind _ _ _ _ Q fun h2 q2 => ?_
    have g1' : ∀ b < batch, E.get h1 (tens (h.next + 1) [E.size, batch]) [b] =
        S.dot ((List.range (w + 1)).map fun u => span b u) ((List.range (w + 1)).map fun u => st.bcr b (w + 1) (N - (w + 1) + u)) := by
      intro b hb
      rw [g1 [b] ⟨hb, trivial⟩]
      refine congrArg₂ S.dot ?_ ?_
      · refine List.map_congr_left fun u hu => ?_
        have hu := List.mem_range.1 hu
        refine (pl.get h [b, u] ⟨hb, hu, trivial⟩).trans ?_
        exact hs b hb u (by omega)
      · refine List.map_congr_left fun u hu => ?_
        have hu := List.mem_range.1 hu
        refine (pr.get h [b, u] ⟨hb, by omega, trivial⟩).trans ?_
        exact H.val .bcr b hb (w + 1) hwN (N - (w + 1) + u) (by omega)
    have hne : ∀ c, h.next + 1 ≠ n c := fun c => by have := H.hi c; omega
    refine root_loop L h0 batch N n na ns hns arc span k Q ws h2 (DepTree.rootStep S N span st (w + 1)) ?_ ?_ ?_ (fun v hv => hw v (by simp [hv])) hk
    · refine ⟨by rw [q2]; exact H1.ext.write _ (by rw [pc.storage]; exact H.lo _) _, H.lo, fun c => by rw [q2]; exact H1.hi c, H.inj, by rw [q2]; exact H1.na_hi, H.na_ne, ?_, ?_⟩
      · intro e b hb i hi v hv
        rw [q2]
        by_cases hed : e = .acr
        · subst hed
          show _ = if i = 0 ∧ v = w + 1 then _ else _
          by_cases hx : i = 0 ∧ v = w + 1
          · obtain ⟨rfl, rfl⟩ := hx
            rw [if_pos ⟨rfl, rfl⟩, ← g1' b hb]
            exact pc.write_hit L (by
              intro ix jx h1 h2 he
              match ix, jx, h1, h2 with
              | [_], [_], _, _ => simpa using he) h1 (tens (h.next + 1) [E.size, batch]) [b] ⟨hb, trivial⟩
          · rw [if_neg hx, pc.write_miss L h1 _ [b, i, v] ⟨hb, hi, hv, trivial⟩]
            · exact H1.val .acr b hb i hi v hv
            · intro jx hj he
              simp only [List.cons.injEq] at he
              omega
        · rw [get_write_other _ _ _ _ _ (by rw [pc.storage]; exact fun hh => hed (H.inj _ _ hh)), H1.val e b hb i hi v hv]
          cases e <;> first | rfl | exact absurd rfl hed
      · intro b hb i hi j hj
        rw [q2, get_write_other _ _ _ _ _ (by rw [pc.storage]; exact (H.na_ne _).symm), H1.arcs b hb i hi j hj]
    · rw [q2]; show ns < h1.next; omega
    · intro b hb u hu
      rw [q2, get_write_other _ _ _ _ _ (by rw [pc.storage]; exact (hns _).symm), x1.get _ hn, hs b hb u hu]

end

theorem main_bind (L : Lawful E S ok) (multiroot : Bool) {h0 h : Heap} {batch N : ℕ} (hN : 0 < N) {n : Ch → ℕ} {na : ℕ} {arc : ℕ → ℕ → ℕ → α}
    (H : Holds E h0 h batch N n na arc (fam (DepTree.init S N))) (k : Unit → HeapM γ) (Q : Except PyErr γ × Heap → Prop)
    (he : multiroot = false ∧ N < 2 → Q (.error .index, h))
    (hk : ¬(multiroot = false ∧ N < 2) → ∀ h', Ext h0 h' →
      (∀ b < batch, ∀ w < N, E.get h' (tens (n .acr) [E.size, batch, N, N]) [b, 0, w] = DepTree.final multiroot S N arc b w) → Q (k () h')) :
    Q ((DepTree.mainM multiroot E S batch N (tens na [E.size, batch, N, N]) (chartsAt E.size batch N n) >>= k) h) := by
  unfold DepTree.mainM
  cases multiroot with
  | true =>
    rw [if_pos rfl]
    refine dep_loop L h0 batch N 0 n na arc k Q _ h _ H (fun w hw => by have := List.mem_range.1 hw; omega) fun h' H' => ?_
    refine hk (by simp) h' H'.ext fun b hb w hw => ?_
    exact H'.val .acr b hb 0 hN w hw
  | false =>
    rw [if_neg (by simp)]
    by_cases h2 : N < 2
    · rw [if_pos h2]; exact he ⟨rfl, h2⟩
    rw [if_neg h2]
    rw [bind_assoc']
    refine dep_loop L h0 batch N 1 n na arc _ Q _ h _ H (fun w hw => by have := List.mem_range.1 hw; omega) fun h1 H1 => ?_
    rw [bind_assoc']
    have H1' : Holds E h0 h1 batch N n na arc (fam (DepTree.charts S 1 N arc)) := H1
    clear H1
    generalize hst : DepTree.charts S 1 N arc = st at H1'
    have pl := part_rowslice (n .acl) E.size batch N 1 0 (N - 1) (by omega) (by omega)
    have pr := part_rowslice na E.size batch N 0 1 N (by omega) le_rfl
    refine times_bind L _ _ [batch, N - 1 - 0] pl.shape_eq _ h0 h1 H1'.ext Q fun h3 n3 x3 e3 g3 => ?_
    rw [Nat.sub_zero] at g3 ⊢
    have H3 := H1'.mono x3
    refine root_loop L h0 batch N n na h1.next (fun c => by have := H1'.hi c; omega) arc (fun b m => S.times (st.acl b 1 m) [arc b 0 (1 + m)]) k Q _ h3 st H3
      (by omega) ?_ (fun w hw => by have := List.mem_range.1 hw; omega) fun h4 H4 => ?_
    · intro b hb u hu
      rw [g3 [b, u] ⟨hb, hu, trivial⟩]
      refine congrArg₂ S.mul ?_ ?_
      · refine (pl.get h1 [b, u] ⟨hb, hu, trivial⟩).trans ?_
        refine (H1'.val .acl b hb 1 (by omega) (0 + u) (by omega)).trans ?_
        rw [Nat.zero_add]; rfl
      · refine (pr.get h1 [b, u] ⟨hb, hu, trivial⟩).trans ?_
        exact H1'.arcs b hb 0 (by omega) (1 + u) (by omega)
    · refine hk (by omega) h4 H4.ext fun b hb w hw => ?_
      refine (H4.val .acr b hb 0 hN w hw).trans ?_
      rw [DepTree.final, if_neg (by simp), hst]
      rfl

theorem fillColumn_bind {ι : Type} [DecidableEq ι] (L : Lawful E S ok) {h0 h : Heap} {batch N : ℕ} {n : ι → ℕ} {na : ℕ} {arc : ℕ → ℕ → ℕ → α}
    {st : ι → ℕ → ℕ → ℕ → α} (H : Holds E h0 h batch N n na arc st) (d : ι) (col : ℕ) (k : Unit → HeapM γ) (Q : Except PyErr γ × Heap → Prop)
    (hk : ∀ h', Holds E h0 h' batch N n na arc (Function.update st d fun b i w => SR.fill (st d b i w) (w == col) S.one) → Q (k () h')) :
    Q ((DepTree.fillColumnM E S (tens (n d) [E.size, batch, N, N]) col >>= k) h) := by
  unfold DepTree.fillColumnM
  rw [bind_assoc']
  refine put_bind L [batch, N, N] (fun h ix => SR.fill (E.get h (tens (n d) [E.size, batch, N, N]) ix) (ix.getD 2 0 == col) S.one) _ h0 h H.ext
    (fun ix _ => ok_fill _ (L.ok_get _ _ _) L.one) Q fun h1 n1 x1 e1 g1 => ?_
  have H1 := H.mono x1
  refine assign_bind _ _ _ _ Q fun h2 q2 => hk h2 ?_
  refine ⟨by rw [q2]; exact H1.ext.write _ (H.lo d) _, H.lo, fun c => by rw [q2]; exact H1.hi c, H.inj, by rw [q2]; exact H1.na_hi, H.na_ne, ?_, ?_⟩
  · intro e b hb i hi w hw
    have hv : Valid [batch, N, N] [b, i, w] := ⟨hb, hi, hw, trivial⟩
    rw [q2]
    by_cases hed : e = d
    · subst hed
      rw [Function.update_self, get_assign_self L _ _ _ _ _ hv, g1 _ hv, H.val e b hb i hi w hw]
      rfl
    · rw [Function.update_of_ne hed, get_write_other _ _ _ _ _ (show n e ≠ n d from fun hh => hed (H.inj _ _ hh)), H1.val e b hb i hi w hw]
  · intro b hb i hi j hj
    rw [q2, get_write_other _ _ _ _ _ (show na ≠ n d from (H.na_ne d).symm), H1.arcs b hb i hi j hj]

theorem charts_bind (L : Lawful E S ok) {h0 h : Heap} (e : Ext h0 h) (batch N na : ℕ) (hna : na < h.next) (arc : ℕ → ℕ → ℕ → α)
    (harc : ∀ b < batch, ∀ i < N, ∀ j < N, E.get h (tens na [E.size, batch, N, N]) [b, i, j] = arc b i j)
    (k : DepTree.ChartsM → HeapM γ) (Q : Except PyErr γ × Heap → Prop)
    (hk : ∀ n h', Holds E h0 h' batch N n na arc (fam (DepTree.init S N)) → Q (k (chartsAt E.size batch N n) h')) :
    Q ((DepTree.chartsM E S batch N >>= k) h) := by
  unfold DepTree.chartsM
  simp only [bind_assoc']
  refine chart_bind L _ _ h0 h e Q fun h1 n1 x1 e1 g1 => ?_
  refine chart_bind L _ _ h0 h1 e1 Q fun h2 n2 x2 e2 g2 => ?_
  refine chart_bind L _ _ h0 h2 e2 Q fun h3 n3 x3 e3 g3 => ?_
  refine chart_bind L _ _ h0 h3 e3 Q fun h4 n4 x4 e4 g4 => ?_
  refine chart_bind L _ _ h0 h4 e4 Q fun h5 n5 x5 e5 g5 => ?_
  refine chart_bind L _ _ h0 h5 e5 Q fun h6 n6 x6 e6 g6 => ?_
  refine chart_bind L _ _ h0 h6 e6 Q fun h7 n7 x7 e7 g7 => ?_
  refine chart_bind L _ _ h0 h7 e7 Q fun h8 n8 x8 e8 g8 => ?_
  let n : Ch → ℕ
    | .acl => h.next
    | .acr => h1.next
    | .bcl => h2.next
    | .bcr => h3.next
    | .ail => h4.next
    | .air => h5.next
    | .bil => h6.next
    | .bir => h7.next
  have hh := e.next
  have H8 : Holds E h0 h8 batch N n na arc fun _ _ _ _ => S.zero := by
    refine ⟨e8, ?_, ?_, ?_, by omega, ?_, ?_, ?_⟩
    · intro c; cases c <;> simp only [n] <;> omega
    · intro c; cases c <;> simp only [n] <;> omega
    · intro c d hcd
      cases c <;> cases d <;> first | rfl | (simp only [n] at hcd; omega)
    · intro c; cases c <;> simp only [n] <;> omega
    · have y7 := x8
      have y6 := x7.trans y7
      have y5 := x6.trans y6
      have y4 := x5.trans y5
      have y3 := x4.trans y4
      have y2 := x3.trans y3
      have y1 := x2.trans y2
      intro c b hb i hi w hw
      have hv : Valid [batch, N, N] [b, i, w] := ⟨hb, hi, hw, trivial⟩
      cases c
      · exact (y1.get _ (show h.next < h1.next by omega) _).trans (g1 _ hv)
      · exact (y2.get _ (show h1.next < h2.next by omega) _).trans (g2 _ hv)
      · exact (y3.get _ (show h2.next < h3.next by omega) _).trans (g3 _ hv)
      · exact (y4.get _ (show h3.next < h4.next by omega) _).trans (g4 _ hv)
      · exact (y5.get _ (show h4.next < h5.next by omega) _).trans (g5 _ hv)
      · exact (y6.get _ (show h5.next < h6.next by omega) _).trans (g6 _ hv)
      · exact (y7.get _ (show h6.next < h7.next by omega) _).trans (g7 _ hv)
      · exact g8 _ hv
    · intro b hb i hi j hj
      rw [(x1.trans (x2.trans (x3.trans (x4.trans (x5.trans (x6.trans (x7.trans x8))))))).get _ hna, harc b hb i hi j hj]
  refine fillColumn_bind L H8 .acl 0 _ Q fun h9 H9 => ?_
  refine fillColumn_bind L H9 .acr 0 _ Q fun h10 H10 => ?_
  refine fillColumn_bind L H10 .bcl (N - 1) _ Q fun h11 H11 => ?_
  refine fillColumn_bind L H11 .bcr (N - 1) _ Q fun h12 H12 => ?_
  refine hk n h12 ?_
  convert H12 using 1
  funext c
  cases c <;> rfl

/-! ### `convert` -/

/-- `t` is a view of the contiguous tensor `tens n shape`: entry `ix` of `t` is entry `g ix` of it. -/
structure Sub (t : View) (n : ℕ) (shape shape' : List ℕ) (g : List ℕ → List ℕ) : Prop where
  storage : t.storage = n
  shape_eq : t.shape = shape'
  valid : ∀ ix, Valid shape' ix → Valid shape (g ix)
  addr : ∀ ix, Valid shape' ix → t.addr ix = ravel shape (g ix)

theorem Sub.hit {t : View} {n : ℕ} {shape shape' : List ℕ} {g : List ℕ → List ℕ} (p : Sub t n shape shape' g)
    (hg : ∀ ix jx, Valid shape' ix → Valid shape' jx → g ix = g jx → ix = jx) (h : Heap) (f : List ℕ → ℝ) (ix : List ℕ) (hv : Valid shape' ix) :
    (h.write t f).read (tens n shape) (g ix) = f ix := by
  refine read_write_hit h t _ _ _ ix p.storage.symm (by rw [p.shape_eq]; exact hv) (by rw [p.addr ix hv, addr_tens]) fun jx hj he => ?_
  rw [p.shape_eq] at hj
  rw [p.addr jx hj, p.addr ix hv] at he
  exact hg _ _ hj hv (ravel_inj (p.valid _ hj) (p.valid _ hv) he)

theorem Sub.miss {t : View} {n : ℕ} {shape shape' : List ℕ} {g : List ℕ → List ℕ} (p : Sub t n shape shape' g)
    (h : Heap) (f : List ℕ → ℝ) (ix : List ℕ) (hv : Valid shape ix) (hm : ∀ jx, Valid shape' jx → g jx ≠ ix) :
    (h.write t f).read (tens n shape) ix = h.read (tens n shape) ix := by
  refine read_write_miss h t _ _ _ fun _ jx hj he => ?_
  rw [p.shape_eq] at hj
  rw [p.addr jx hj, addr_tens] at he
  exact hm jx hj (ravel_inj (p.valid _ hj) hv he)

section
variable (n batch N : ℕ) (ls : List ℕ)

theorem sub_inner : Sub (((tens n (batch :: (N + 1) :: (N + 1) :: ls)).slice 1 1 (N + 1) 1).slice 2 1 (N + 1) 1) n (batch :: (N + 1) :: (N + 1) :: ls)
    (batch :: N :: N :: ls) fun ix => match ix with
      | b :: i :: j :: l => b :: (i + 1) :: (j + 1) :: l
      | ix => ix where
  storage := rfl
  shape_eq := by simp [slice, tens]
  valid ix hv := by
    match ix, hv with
    | b :: i :: j :: l, hv => exact ⟨hv.1, by have := hv.2.1; omega, by have := hv.2.2.1; omega, hv.2.2.2⟩
  addr ix hv := by
    match ix, hv with
    | b :: i :: j :: l, hv =>
      simp only [← addr_tens n]
      simp [slice, addr, tens, rowMajor]
      ring

theorem sub_top : Sub (((tens n (batch :: (N + 1) :: (N + 1) :: ls)).select 1 0).slice 1 1 (N + 1) 1) n (batch :: (N + 1) :: (N + 1) :: ls)
    (batch :: N :: ls) fun ix => match ix with
      | b :: j :: l => b :: 0 :: (j + 1) :: l
      | ix => ix where
  storage := rfl
  shape_eq := by simp [slice, select, tens]
  valid ix hv := by
    match ix, hv with
    | b :: j :: l, hv => exact ⟨hv.1, by omega, by have := hv.2.1; omega, hv.2.2⟩
  addr ix hv := by
    match ix, hv with
    | b :: j :: l, hv =>
      simp only [← addr_tens n]
      simp [slice, select, addr, tens, rowMajor]
      ring

theorem sub_diag : Sub ((DepTree.diag12 (tens n (batch :: (N + 1) :: (N + 1) :: ls))).slice 1 1 (N + 1) 1) n (batch :: (N + 1) :: (N + 1) :: ls)
    (batch :: N :: ls) fun ix => match ix with
      | b :: j :: l => b :: (j + 1) :: (j + 1) :: l
      | ix => ix where
  storage := rfl
  shape_eq := by simp [slice, DepTree.diag12, tens]
  valid ix hv := by
    match ix, hv with
    | b :: j :: l, hv => exact ⟨hv.1, by have := hv.2.1; omega, by have := hv.2.1; omega, hv.2.2⟩
  addr ix hv := by
    match ix, hv with
    | b :: j :: l, hv =>
      simp only [← addr_tens n]
      simp [slice, DepTree.diag12, addr, tens, rowMajor]
      ring

end

theorem convert_bind (neg : ℝ) (t : View) (batch N : ℕ) (ls : List ℕ) {h0 h : Heap} (e : Ext h0 h) (ht : t.storage < h.next) (k : View → HeapM γ)
    (Q : Except PyErr γ × Heap → Prop)
    (hk : ∀ h', h.next < h'.next → Ext h h' → Ext h0 h' → (∀ b i j l, Valid (batch :: (N + 1) :: (N + 1) :: ls) (b :: i :: j :: l) →
      h'.read (tens h.next (batch :: (N + 1) :: (N + 1) :: ls)) (b :: i :: j :: l) =
        DepTree.convertCell neg (fun b i j _ => h.read t (b :: i :: j :: l)) b i j 0) → Q (k (tens h.next (batch :: (N + 1) :: (N + 1) :: ls)) h')) :
    Q ((DepTree.convertM neg t batch N ls >>= k) h) := by
  unfold DepTree.convertM
  simp only [bind_assoc']
  generalize hsh : batch :: (N + 1) :: (N + 1) :: ls = sh at hk ⊢
  refine alloc_bind _ _ _ _ Q fun h1 q1 => ?_
  refine assign_bind _ _ _ _ Q fun h2 q2 => ?_
  refine assign_bind _ _ _ _ Q fun h3 q3 => ?_
  refine alloc_bind _ _ _ _ Q fun h4 q4 => ?_
  refine assign_bind _ _ _ _ Q fun h5 q5 => ?_
  refine assign_bind _ _ _ _ Q fun h6 q6 => ?_
  have x1 : Ext h h1 := by rw [q1]; exact (Ext.refl h).push _ _
  have x2 : Ext h h2 := by rw [q2]; exact x1.write _ le_rfl _
  have x3 : Ext h h3 := by rw [q3]; exact x2.write _ le_rfl _
  have x4 : Ext h h4 := by rw [q4]; exact x3.push _ _
  have x5 : Ext h h5 := by rw [q5]; exact x4.write _ le_rfl _
  have x6 : Ext h h6 := by rw [q6]; exact x5.write _ le_rfl _
  have n1 : h1.next = h.next + 1 := by rw [q1]; rfl
  have n2 : h2.next = h1.next := by rw [q2]; rfl
  have n3 : h3.next = h2.next := by rw [q3]; rfl
  have n4 : h4.next = h3.next + 1 := by rw [q4]; rfl
  have n5 : h5.next = h4.next := by rw [q5]; rfl
  have n6 : h6.next = h5.next := by rw [q6]; rfl
  show Q (k (tens h.next sh) h6)
  refine hk h6 (by omega) x6 (e.trans x6) fun b i j l hv => ?_
  have pi := sub_inner h.next batch N ls
  have pt := sub_top h.next batch N ls
  have pd := sub_diag h.next batch N ls
  rw [hsh] at pi pt pd
  have hb : b < batch ∧ i < N + 1 ∧ j < N + 1 ∧ Valid ls l := by rw [← hsh] at hv; exact hv
  have r2 : h2.read (tens h.next sh) (b :: i :: j :: l) = neg := by
    rw [q2]
    exact read_write_tens h1 _ _ _ _ _ (b :: i :: j :: l) rfl hv (addr_tens _ _ _)
  have r3 : h3.read (tens h.next sh) (b :: i :: j :: l) = if 1 ≤ i ∧ 1 ≤ j then h.read t (b :: (i - 1) :: (j - 1) :: l) else neg := by
    rw [q3]
    split_ifs with hc
    · have := pi.hit (by
        intro ix jx h1 h2 he
        match ix, jx, h1, h2 with
        | _ :: _ :: _ :: _, _ :: _ :: _ :: _, _, _ => simpa using he) h2 (h2.read t) (b :: (i - 1) :: (j - 1) :: l) ⟨hb.1, by omega, by omega, hb.2.2.2⟩
      simp only [Nat.sub_add_cancel hc.1, Nat.sub_add_cancel hc.2] at this
      rw [this, x2.read t ht]
    · rw [pi.miss h2 _ _ hv, r2]
      intro jx hj he
      match jx, hj with
      | b' :: i' :: j' :: l', hj =>
        simp only [List.cons.injEq] at he
        omega
  have r5 : h5.read (tens h.next sh) (b :: i :: j :: l) = if i = 0 ∧ 1 ≤ j then h.read t (b :: (j - 1) :: (j - 1) :: l)
      else if 1 ≤ i ∧ 1 ≤ j then h.read t (b :: (i - 1) :: (j - 1) :: l) else neg := by
    rw [q5]
    split_ifs with hc hc'
    · obtain ⟨rfl, hc⟩ := hc
      have := pt.hit (by
        intro ix jx h1 h2 he
        match ix, jx, h1, h2 with
        | _ :: _ :: _, _ :: _ :: _, _, _ => simpa using he) h4 (h4.read (tens h3.next (batch :: N :: ls))) (b :: (j - 1) :: l) ⟨hb.1, by omega, hb.2.2.2⟩
      simp only [Nat.sub_add_cancel hc] at this
      rw [this, q4, read_push_new h3 (batch :: N :: ls) _ (b :: (j - 1) :: l) ⟨hb.1, by omega, hb.2.2.2⟩]
      simp only
      rw [x3.read t ht]
    · rw [pt.miss h4 _ _ hv, q4, read_push_old _ _ _ _ (show h.next < h3.next by omega), r3, if_pos hc']
      intro jx hj he
      match jx, hj with
      | b' :: j' :: l', hj =>
        simp only [List.cons.injEq] at he
        omega
    · rw [pt.miss h4 _ _ hv, q4, read_push_old _ _ _ _ (show h.next < h3.next by omega), r3, if_neg hc']
      intro jx hj he
      match jx, hj with
      | b' :: j' :: l', hj =>
        simp only [List.cons.injEq] at he
        omega
  rw [q6]
  by_cases hd : i = j ∧ 1 ≤ i
  · obtain ⟨rfl, hd⟩ := hd
    have := pd.hit (by
      intro ix jx h1 h2 he
      match ix, jx, h1, h2 with
      | _ :: _ :: _, _ :: _ :: _, _, _ => simpa using he) h5 (fun _ => neg) (b :: (i - 1) :: l) ⟨hb.1, by omega, hb.2.2.2⟩
    simp only [Nat.sub_add_cancel hd] at this
    rw [this, DepTree.convertCell, if_neg (by omega), if_neg (by omega), if_pos rfl]
  · rw [pd.miss h5 _ _ hv, r5, DepTree.convertCell]
    · split_ifs <;> first | rfl | omega
    · intro jx hj he
      match jx, hj with
      | b' :: j' :: l', hj =>
        simp only [List.cons.injEq] at he
        omega

/-! ### The whole program -/

theorem arcs_bind (L : Lawful E S ok) (sh ls : List ℕ) (hls : ls = [] ∨ ∃ l, ls = [l]) (hl : ∀ l ∈ ls, 0 < l) {h0 h : Heap} (e : Ext h0 h) (n : ℕ)
    (hn : n < h.next) (k : View → HeapM γ) (Q : Except PyErr γ × Heap → Prop)
    (hk : ∀ m h', m < h'.next → Ext h0 h' → (∀ ix, Valid sh ix → E.get h' (tens m (E.size :: sh)) ix =
        if ls = [] then E.get h (tens n (E.size :: (sh ++ ls))) ix
        else S.sum ((List.range (ls.headD 0)).map fun j => E.get h (tens n (E.size :: (sh ++ ls))) (ix ++ [j]))) →
      Q (k (tens m (E.size :: sh)) h')) :
    Q ((DepTree.arcsM E S ls (tens n (E.size :: (sh ++ ls))) >>= k) h) := by
  unfold DepTree.arcsM
  rcases hls with rfl | ⟨l, rfl⟩
  · rw [if_pos rfl]
    simp only [List.append_nil, if_true] at hk ⊢
    exact hk n h hn e fun ix _ => rfl
  · rw [if_neg (by simp)]
    refine reduce_bind L (tens n (E.size :: (sh ++ [l]))) sh l (hl l (by simp)) rfl _ h0 h e Q fun h1 n1 x1 e1 g1 => ?_
    refine hk h.next h1 (by omega) e1 fun ix hv => ?_
    rw [if_neg (by simp), g1 ix hv]
    rfl

/-- The index of a label. -/
def lab (ls : List ℕ) (l : ℕ) : List ℕ := if ls = [] then [] else [l]

theorem dep_run (L : Lawful E S ok) (P : LinearChainProofs.Plain S) (multiroot : Bool) (neg : ℝ) (h0 : Heap) (t : View) (ht : t.storage < h0.next)
    (batch d1 d2 : ℕ) (ls : List ℕ) (hs : t.shape = batch :: d1 :: d2 :: ls) (hl : ∀ l ∈ ls, 0 < l) (elem : ℝ → α) (conv : View → HeapM View)
    (hconv : ∀ (h : Heap) (p : View), p.storage < h.next → Spec.Converts E h (conv p) p.shape fun ix => elem (h.read p ix))
    (lengths : Option (List ℕ)) (get : ℕ → ℕ → ℕ → ℕ → ℝ)
    (hget : ∀ b i j l, Valid (batch :: d1 :: d2 :: ls) (b :: i :: j :: lab ls l) → h0.read t (b :: i :: j :: lab ls l) = get b i j l) :
    Spec.Answers E h0 (DepTree.logpartitionM multiroot E S neg conv t lengths h0)
      (DepTree.convert neg ⟨t.shape.length, batch, d1, d2, ls.headD 0, get⟩ >>= fun p =>
        DepTree.logpartition multiroot S ((DepTree.algo multiroot).map elem p) lengths) := by
  generalize hans : (DepTree.convert neg ⟨t.shape.length, batch, d1, d2, ls.headD 0, get⟩ >>= fun p =>
        DepTree.logpartition multiroot S ((DepTree.algo multiroot).map elem p) lengths) = ans
  unfold DepTree.logpartitionM
  simp only [hs]
  rw [hs] at hans
  by_cases hr : (batch :: d1 :: d2 :: ls).length ≠ 3 ∧ (batch :: d1 :: d2 :: ls).length ≠ 4
  · have c : ∀ {γ : Type} (n : γ) g, DepTree.convert n ⟨(batch :: d1 :: d2 :: ls).length, batch, d1, d2, ls.headD 0, g⟩ = .error .value := fun n g => if_pos hr
    rw [c] at hans
    rw [c]
    exact ⟨fun _ _ => rfl, hans.symm⟩
  by_cases h1 : d2 < d1
  · have c : ∀ {γ : Type} (n : γ) g, DepTree.convert n ⟨(batch :: d1 :: d2 :: ls).length, batch, d1, d2, ls.headD 0, g⟩ = .error .index :=
      fun n g => (if_neg hr).trans (if_pos h1)
    rw [c] at hans
    rw [c]
    exact ⟨fun _ _ => rfl, hans.symm⟩
  by_cases h2 : d1 < d2
  · by_cases h3 : d1 = 1
    · have c : ∀ {γ : Type} (n : γ) g, DepTree.convert n ⟨(batch :: d1 :: d2 :: ls).length, batch, d1, d2, ls.headD 0, g⟩ = .error .assertion :=
        fun n g => (if_neg hr).trans ((if_neg h1).trans ((if_pos h2).trans (if_pos h3)))
      rw [c] at hans
      rw [c]
      exact ⟨fun _ _ => rfl, hans.symm⟩
    · have c : ∀ {γ : Type} (n : γ) g, DepTree.convert n ⟨(batch :: d1 :: d2 :: ls).length, batch, d1, d2, ls.headD 0, g⟩ = .error .runtime :=
        fun n g => (if_neg hr).trans ((if_neg h1).trans ((if_pos h2).trans (if_neg h3)))
      rw [c] at hans
      rw [c]
      exact ⟨fun _ _ => rfl, hans.symm⟩
  have hd : d1 = d2 := by omega
  subst hd
  have c : ∀ {γ : Type} (n : γ) g, DepTree.convert n ⟨(batch :: d1 :: d1 :: ls).length, batch, d1, d1, ls.headD 0, g⟩ =
      .ok ⟨(batch :: d1 :: d1 :: ls).length, batch, d1 + 1, d1 + 1, ls.headD 0, DepTree.convertCell n g⟩ :=
    fun n g => (if_neg hr).trans ((if_neg h1).trans (if_neg h2))
  rw [c] at hans
  rw [c]
  have hls : ls = [] ∨ ∃ l, ls = [l] := by
    match ls, hr with
    | [], _ => exact .inl rfl
    | [l], _ => exact .inr ⟨l, rfl⟩
    | _ :: _ :: _, hr => simp at hr
  change DepTree.logpartition multiroot S _ lengths = ans at hans
  generalize hp : (DepTree.algo multiroot).map elem (⟨(batch :: d1 :: d1 :: ls).length, batch, d1 + 1, d1 + 1, ls.headD 0, DepTree.convertCell neg get⟩ : DepTree.Arcs ℝ) = p at hans
  have hp0 : p.d0 = batch := by rw [← hp]; rfl
  have hp1 : p.d1 = d1 + 1 := by rw [← hp]; rfl
  have hp2 : p.d2 = d1 + 1 := by rw [← hp]; rfl
  unfold DepTree.logpartition at hans
  simp only [hp0, hp1, hp2, ne_eq, not_true, if_false] at hans
  generalize hlens : DepTree.lensOr batch (d1 + 1) lengths = lens at hans ⊢
  generalize hQ : (fun r => Spec.Answers E h0 r ans) = Q
  have hQ' : ∀ r, Q r ↔ Spec.Answers E h0 r ans := fun r => by rw [← hQ]
  refine (hQ' _).1 ?_
  refine lift_bind _ _ _ Q (fun e he => by cases he) fun _ _ => ?_
  refine convert_bind neg t batch d1 ls (Ext.refl h0) ht _ Q fun h1 n1 x1 e1 g1 => ?_
  have fail : ∀ (e : PyErr) (h : Heap), Ext h0 h → ans = .error e → Q (.error e, h) := fun e h x he => (hQ' _).2 ⟨x.data, he⟩
  by_cases c1 : lens = []
  · rw [if_pos c1] at hans ⊢
    exact fail _ h1 e1 hans.symm
  rw [if_neg c1] at hans ⊢
  by_cases c2 : ∃ l ∈ lens, d1 + 1 < l
  · rw [if_pos c2] at hans
    simp only [if_pos c2]
    exact fail _ h1 e1 hans.symm
  rw [if_neg c2] at hans
  simp only [if_neg c2]
  obtain ⟨t2, h2, ec, ⟨en, ed⟩, ht2, hsh2, hpot⟩ := hconv h1 (tens h0.next (batch :: (d1 + 1) :: (d1 + 1) :: ls)) n1
  have x2 : Ext h1 h2 := ⟨en, ed⟩
  have e2 := e1.trans x2
  refine (congrArg Q (bind_ok ec)).mpr ?_
  by_cases c3 : lens.length < batch
  · rw [if_pos c3] at hans ⊢
    exact fail _ h2 e2 hans.symm
  rw [if_neg c3] at hans ⊢
  unfold Layout.fill
  rw [hsh2]
  change Q ((alloc (E.size :: ([batch, d1 + 1, d1 + 1] ++ ls)) _ >>= _) h2)
  refine put_bind L ([batch, d1 + 1, d1 + 1] ++ ls) (fun h ix => SR.fill (E.get h t2 ix) (decide (lens.getD (ix.getD 0 0) 0 < ix.getD 1 0 ∨
    lens.getD (ix.getD 0 0) 0 < ix.getD 2 0)) S.zero) _ h0 h2 e2 (fun ix _ => ok_fill _ (L.ok_get _ _ _) L.zero) Q fun h3 n3 x3 e3 g3 => ?_
  have cell : ∀ b < batch, ∀ i < d1 + 1, ∀ j < d1 + 1, ∀ l, Valid ls (lab ls l) →
      E.get h3 (tens h2.next (E.size :: ([batch, d1 + 1, d1 + 1] ++ ls))) (b :: i :: j :: lab ls l) = DepTree.masked S p lens b i j l := by
    intro b hb i hi j hj l hl'
    have hv : Valid (batch :: (d1 + 1) :: (d1 + 1) :: ls) (b :: i :: j :: lab ls l) := ⟨hb, hi, hj, hl'⟩
    rw [g3 _ hv, hpot _ hv]
    simp only [SR.fill, List.getD_cons_zero, List.getD_cons_succ, DepTree.masked, P.setData, decide_eq_true_eq]
    rw [← hp]
    show (if _ then _ else elem _) = (if _ then _ else elem _)
    rw [g1 b i j _ hv]
    refine congrArg (fun x => if lens.getD b 0 < i ∨ lens.getD b 0 < j then S.zero else elem x) ?_
    show DepTree.convertCell _ _ _ _ _ _ = DepTree.convertCell neg get b i j l
    unfold DepTree.convertCell
    split_ifs
    · rfl
    · exact hget _ _ _ _ ⟨hb, by omega, by omega, hl'⟩
    · rfl
    · exact hget _ _ _ _ ⟨hb, by omega, by omega, hl'⟩
  refine arcs_bind L [batch, d1 + 1, d1 + 1] ls hls hl e3 h2.next (by omega) _ Q fun m h4 hm e4 g4 => ?_
  have harc : ∀ b < batch, ∀ i < d1 + 1, ∀ j < d1 + 1, E.get h4 (tens m [E.size, batch, d1 + 1, d1 + 1]) [b, i, j] = DepTree.arcScores S p lens b i j := by
    intro b hb i hi j hj
    rw [g4 [b, i, j] ⟨hb, hi, hj, trivial⟩]
    unfold DepTree.arcScores
    rcases hls with rfl | ⟨l, rfl⟩
    · have hlab : ¬p.labeled := by rw [← hp]; show ¬(3 = 4); omega
      rw [if_pos rfl, if_neg hlab]
      exact cell b hb i hi j hj 0 trivial
    · have hlab : p.labeled := by rw [← hp]; rfl
      have hp3 : p.d3 = l := by rw [← hp]; rfl
      rw [if_neg (by simp), if_pos hlab, hp3]
      refine congrArg S.sum (List.map_congr_left fun x hx => ?_)
      exact cell b hb i hi j hj x ⟨List.mem_range.1 hx, trivial⟩
  refine charts_bind L e4 batch (d1 + 1) m hm _ harc _ Q fun n h5 H5 => ?_
  refine main_bind L multiroot (Nat.succ_pos _) H5 _ Q (fun c4 => ?_) fun c4 h6 e6 g6 => ?_
  · rw [if_pos c4] at hans
    exact fail _ h5 H5.ext hans.symm
  rw [if_neg c4] at hans
  by_cases c5 : batch < lens.length ∨ ∃ l ∈ lens, d1 + 1 ≤ l
  · rw [if_pos c5] at hans
    simp only [if_pos c5]
    exact fail _ h6 e6 hans.symm
  rw [if_neg c5] at hans
  simp only [if_neg c5]
  refine (hQ' _).2 ?_
  rw [← hans]
  refine answers_push L e6 batch _ _ fun b hb => ?_
  have hlb : lens.getD b 0 < d1 + 1 := by
    rw [List.getD_eq_getElem _ _ (by omega)]
    by_contra hc
    exact c5 (.inr ⟨_, List.getElem_mem _, not_lt.1 hc⟩)
  have pf := part_row (n .acr) E.size batch (d1 + 1) 0 (by omega)
  exact (pf.get h6 [b, lens.getD b 0] ⟨hb, hlb, trivial⟩).trans (g6 b hb _ hlb)

end MemoryProofs
