import Verif.Proofs.ChainMemory
import Verif.Model.TreeMemory

/-! `CKYCRF.logpartitionM` computes what `CKYCRF.logpartition` computes, and leaves the existing storages alone. -/

open View HeapM

namespace MemoryProofs
variable {α γ : Type} {E : Layout α} {S : SR α} {ok : α → Prop}

/-- `t` is a view of the contiguous tensor `tens n (k :: shape)`: entry `s :: ix` of `t` is entry `s :: g ix` of it. -/
structure Part (t : View) (n k : ℕ) (shape shape' : List ℕ) (g : List ℕ → List ℕ) : Prop where
  storage : t.storage = n
  shape_eq : t.shape = k :: shape'
  valid : ∀ ix, Valid shape' ix → Valid shape (g ix)
  addr : ∀ s ix, Valid shape' ix → t.addr (s :: ix) = ravel (k :: shape) (s :: g ix)

theorem Part.get {t : View} {n k : ℕ} {shape shape' : List ℕ} {g : List ℕ → List ℕ} (p : Part t n k shape shape' g) (h : Heap) (ix : List ℕ)
    (hv : Valid shape' ix) : E.get h t ix = E.get h (tens n (k :: shape)) (g ix) := by
  refine congrArg E.dec (funext fun s => ?_)
  rw [Heap.read, Heap.read, p.addr s ix hv, addr_tens, p.storage]; rfl

theorem Part.write_hit (L : Lawful E S ok) {t : View} {n : ℕ} {shape shape' : List ℕ} {g : List ℕ → List ℕ} (p : Part t n E.size shape shape' g)
    (hg : ∀ ix jx, Valid shape' ix → Valid shape' jx → g ix = g jx → ix = jx) (h : Heap) (x : View) (ix : List ℕ) (hv : Valid shape' ix) :
    E.get (h.write t (h.read x)) (tens n (E.size :: shape)) (g ix) = E.get h x ix := by
  refine L.congr _ _ fun s hs => ?_
  refine read_write_hit h t _ _ _ (s :: ix) p.storage.symm (by rw [p.shape_eq]; exact ⟨hs, hv⟩) (by rw [p.addr s ix hv, addr_tens]) ?_
  intro jx hj he
  rw [p.shape_eq] at hj
  match jx, hj with
  | s' :: jx, hj =>
    rw [p.addr s' jx hj.2, p.addr s ix hv] at he
    have := ravel_inj (show Valid (E.size :: shape) (s' :: g jx) from ⟨hj.1, p.valid _ hj.2⟩) (show Valid (E.size :: shape) (s :: g ix) from ⟨hs, p.valid _ hv⟩) he
    rw [List.cons.injEq] at this
    rw [this.1, hg _ _ hj.2 hv this.2]

theorem Part.write_miss (L : Lawful E S ok) {t : View} {n : ℕ} {shape shape' : List ℕ} {g : List ℕ → List ℕ} (p : Part t n E.size shape shape' g)
    (h : Heap) (f : List ℕ → ℝ) (ix : List ℕ) (hv : Valid shape ix) (hm : ∀ jx, Valid shape' jx → g jx ≠ ix) :
    E.get (h.write t f) (tens n (E.size :: shape)) ix = E.get h (tens n (E.size :: shape)) ix := by
  refine L.congr _ _ fun s hs => ?_
  refine read_write_miss h t _ _ _ fun _ jx hj he => ?_
  rw [p.shape_eq] at hj
  match jx, hj with
  | s' :: jx, hj =>
    rw [p.addr s' jx hj.2, addr_tens] at he
    have := ravel_inj (show Valid (E.size :: shape) (s' :: g jx) from ⟨hj.1, p.valid _ hj.2⟩) (show Valid (E.size :: shape) (s :: ix) from ⟨hs, hv⟩) he
    rw [List.cons.injEq] at this
    exact hm jx hj.2 this.2

theorem chart_bind (L : Lawful E S ok) (shape : List ℕ) (k : View → HeapM γ) (h0 h : Heap) (e : Ext h0 h) (Q : Except PyErr γ × Heap → Prop)
    (hk : ∀ h', h'.next = h.next + 2 → Ext h h' → Ext h0 h' → (∀ ix, Valid shape ix → E.get h' (tens h.next (E.size :: shape)) ix = S.zero) →
      Q (k (tens h.next (E.size :: shape)) h')) : Q ((E.chart S shape >>= k) h) := by
  unfold Layout.chart
  rw [bind_assoc']
  refine makeChart_bind L shape _ h0 h e Q fun h1 n1 x1 e1 g1 => ?_
  rw [bind_assoc']
  refine alloc_bind _ _ _ _ Q fun h2 q2 => ?_
  refine hk h2 (by rw [q2]; show h1.next + 1 = _; omega) (by rw [q2]; exact x1.push _ _) (by rw [q2]; exact e1.push _ _) fun ix hv => ?_
  rw [q2, get_push_old _ _ _ _ (show h.next < h1.next by omega), g1 ix hv]

theorem times_bind (L : Lawful E S ok) (a b : View) (shape : List ℕ) (ha : a.shape = E.size :: shape) (k : View → HeapM γ) (h0 h : Heap) (e : Ext h0 h)
    (Q : Except PyErr γ × Heap → Prop)
    (hk : ∀ h', h'.next = h.next + 1 → Ext h h' → Ext h0 h' → (∀ ix, Valid shape ix → E.get h' (tens h.next (E.size :: shape)) ix =
        S.mul (E.get h a ix) (E.get h b ix)) → Q (k (tens h.next (E.size :: shape)) h')) : Q ((E.times S a b >>= k) h) := by
  unfold Layout.times
  rw [ha]
  exact put_bind L shape (fun h ix => S.mul (E.get h a ix) (E.get h b ix)) k h0 h e (fun ix _ => L.mul _ _ (L.ok_get _ _ _) (L.ok_get _ _ _)) Q hk

theorem valid_append : ∀ (shape ix : List ℕ) (d j : ℕ), Valid shape ix → j < d → Valid (shape ++ [d]) (ix ++ [j])
  | [], [], _, _, _, hj => ⟨hj, trivial⟩
  | _ :: ds, _ :: is, d, j, h, hj => ⟨h.1, valid_append ds is d j h.2 hj⟩

theorem dot_bind (L : Lawful E S ok) (a b : View) (shape : List ℕ) (d : ℕ) (hd : 0 < d) (ha : a.shape = E.size :: (shape ++ [d])) (k : View → HeapM γ)
    (h0 h : Heap) (e : Ext h0 h) (Q : Except PyErr γ × Heap → Prop)
    (hk : ∀ h', h'.next = h.next + 2 → Ext h h' → Ext h0 h' → (∀ ix, Valid shape ix → E.get h' (tens (h.next + 1) (E.size :: shape)) ix =
        S.dot ((List.range d).map fun j => E.get h a (ix ++ [j])) ((List.range d).map fun j => E.get h b (ix ++ [j]))) →
      Q (k (tens (h.next + 1) (E.size :: shape)) h')) : Q ((E.dot S a b >>= k) h) := by
  unfold Layout.dot
  rw [bind_assoc']
  refine times_bind L a b (shape ++ [d]) ha _ h0 h e Q fun h1 n1 x1 e1 g1 => ?_
  refine reduce_bind L _ shape d hd rfl k h0 h1 e1 Q fun h2 n2 x2 e2 g2 => ?_
  rw [n1]
  refine hk h2 (by omega) (x1.trans x2) e2 fun ix hv => ?_
  rw [← n1, g2 ix hv, SR.dot, List.zipWith_map, List.zipWith_self]
  refine congrArg S.sum (List.map_congr_left fun j hj => ?_)
  exact g1 _ (valid_append shape ix d j hv (List.mem_range.1 hj))

/-! ### Slices of a chart -/

section
variable (n k batch N w : ℕ)

theorem part_left (hw : w ≤ N) : Part (((tens n [k, batch, N, N]).slice 2 0 (N - w) 1).slice 3 0 w 1) n k [batch, N, N] [batch, N - w, w]
    fun ix => [ix.getD 0 0, ix.getD 1 0, ix.getD 2 0] where
  storage := rfl
  shape_eq := by simp [slice, tens]
  valid ix hv := by
    match ix, hv with
    | [b, i, u], hv => exact ⟨hv.1, by have := hv.2.1; simp; omega, by have := hv.2.2.1; simp; omega, trivial⟩
  addr s ix hv := by
    match ix, hv with
    | [b, i, u], hv =>
      rw [← addr_tens n]
      simp [slice, addr, tens, rowMajor]

theorem part_right (hw : w ≤ N) : Part (((tens n [k, batch, N, N]).slice 2 w N 1).slice 3 (N - w) N 1) n k [batch, N, N] [batch, N - w, w]
    fun ix => [ix.getD 0 0, w + ix.getD 1 0, N - w + ix.getD 2 0] where
  storage := rfl
  shape_eq := by simp [slice, tens, Nat.sub_sub_self hw]
  valid ix hv := by
    match ix, hv with
    | [b, i, u], hv => exact ⟨hv.1, by have := hv.2.1; simp; omega, by have := hv.2.2.1; simp; omega, trivial⟩
  addr s ix hv := by
    match ix, hv with
    | [b, i, u], hv =>
      rw [← addr_tens n]
      simp [slice, addr, tens, rowMajor]
      ring

theorem part_diagonal : Part ((tens n [k, batch, N, N]).diagonal w 2) n k [batch, N, N] [batch, N - w]
    fun ix => [ix.getD 0 0, ix.getD 1 0, ix.getD 1 0 + w] where
  storage := rfl
  shape_eq := by simp [diagonal, tens]
  valid ix hv := by
    match ix, hv with
    | [b, i], hv => exact ⟨hv.1, by have := hv.2.1; simp; omega, by have := hv.2.1; simp; omega, trivial⟩
  addr s ix hv := by
    match ix, hv with
    | [b, i], hv =>
      rw [← addr_tens n]
      simp [diagonal, addr, tens, rowMajor]
      ring

theorem part_writeA (hw : w < N) : Part (((tens n [k, batch, N, N]).slice 2 0 (N - w) 1).select 3 w) n k [batch, N, N] [batch, N - w]
    fun ix => [ix.getD 0 0, ix.getD 1 0, w] where
  storage := rfl
  shape_eq := by simp [slice, select, tens]
  valid ix hv := by
    match ix, hv with
    | [b, i], hv => exact ⟨hv.1, by have := hv.2.1; simp; omega, hw, trivial⟩
  addr s ix hv := by
    match ix, hv with
    | [b, i], hv =>
      rw [← addr_tens n]
      simp [slice, select, addr, tens, rowMajor]
      ring

theorem part_writeB (hw : w < N) : Part (((tens n [k, batch, N, N]).slice 2 w N 1).select 3 (N - w - 1)) n k [batch, N, N] [batch, N - w]
    fun ix => [ix.getD 0 0, w + ix.getD 1 0, N - w - 1] where
  storage := rfl
  shape_eq := by simp [slice, select, tens]
  valid ix hv := by
    match ix, hv with
    | [b, i], hv => exact ⟨hv.1, by have := hv.2.1; simp; omega, by omega, trivial⟩
  addr s ix hv := by
    match ix, hv with
    | [b, i], hv =>
      rw [← addr_tens n]
      simp [slice, select, addr, tens, rowMajor]
      ring

theorem part_column (c : ℕ) (hc : c < N) : Part ((tens n [k, batch, N, N]).select 3 c) n k [batch, N, N] [batch, N]
    fun ix => [ix.getD 0 0, ix.getD 1 0, c] where
  storage := rfl
  shape_eq := by simp [select, tens]
  valid ix hv := by
    match ix, hv with
    | [b, i], hv => exact ⟨hv.1, hv.2.1, hc, trivial⟩
  addr s ix hv := by
    match ix, hv with
    | [b, i], hv =>
      rw [← addr_tens n]
      simp [select, addr, tens, rowMajor]
      ring

theorem part_row (r : ℕ) (hr : r < N) : Part ((tens n [k, batch, N, N]).select 2 r) n k [batch, N, N] [batch, N]
    fun ix => [ix.getD 0 0, r, ix.getD 1 0] where
  storage := rfl
  shape_eq := by simp [select, tens]
  valid ix hv := by
    match ix, hv with
    | [b, i], hv => exact ⟨hv.1, hr, hv.2.1, trivial⟩
  addr s ix hv := by
    match ix, hv with
    | [b, i], hv =>
      rw [← addr_tens n]
      simp [select, addr, tens, rowMajor]
      ring

end

/-- The charts in memory hold the charts of the model. -/
structure Held (E : Layout α) (h0 h : Heap) (batch N na nb nr : ℕ) (red : ℕ → ℕ → ℕ → α) (st : CKYCRF.Charts α) : Prop where
  ext : Ext h0 h
  a0 : h0.next ≤ na
  b0 : h0.next ≤ nb
  a1 : na < h.next
  b1 : nb < h.next
  r1 : nr < h.next
  ab : na ≠ nb
  ar : na ≠ nr
  br : nb ≠ nr
  a : ∀ b < batch, ∀ i < N, ∀ w < N, E.get h (tens na [E.size, batch, N, N]) [b, i, w] = st.1 b i w
  b : ∀ b < batch, ∀ i < N, ∀ w < N, E.get h (tens nb [E.size, batch, N, N]) [b, i, w] = st.2 b i w
  r : ∀ b < batch, ∀ i < N, ∀ j < N, E.get h (tens nr [E.size, batch, N, N]) [b, i, j] = red b i j

theorem tree_step (L : Lawful E S ok) (h0 h : Heap) (batch N na nb nr : ℕ) (red : ℕ → ℕ → ℕ → α) (st : CKYCRF.Charts α)
    (H : Held E h0 h batch N na nb nr red st) (w : ℕ) (hw : 0 < w) (hwN : w < N) (k : Unit → HeapM γ) (Q : Except PyErr γ × Heap → Prop)
    (hk : ∀ h', Held E h0 h' batch N na nb nr red (CKYCRF.step S N red st w) → Q (k () h')) :
    Q ((CKYCRF.stepM E S N (tens na [E.size, batch, N, N]) (tens nb [E.size, batch, N, N]) (tens nr [E.size, batch, N, N]) w >>= k) h) := by
  unfold CKYCRF.stepM
  have pl := part_left na E.size batch N w hwN.le
  have pr := part_right nb E.size batch N w hwN.le
  have pd := part_diagonal nr E.size batch N w
  have pa := part_writeA na E.size batch N w hwN
  have pb := part_writeB nb E.size batch N w hwN
  rw [bind_assoc']
  refine dot_bind L _ _ [batch, N - w] w hw pl.shape_eq _ h0 h H.ext Q fun h1 n1 x1 e1 g1 => ?_
  rw [bind_assoc']
  refine times_bind L _ _ [batch, N - w] rfl _ h0 h1 e1 Q fun h2 n2 x2 e2 g2 => ?_
  rw [bind_assoc']
  refine assign_bind _ _ _ _ Q fun h3 q3 => ?_
  refine assign_bind _ _ _ _ Q fun h4 q4 => ?_
  have ha1 := H.a1
  have hb1 := H.b1
  have hr1 := H.r1
  have x12 := x1.trans x2
  have n3 : h3.next = h2.next := by rw [q3]; rfl
  have n4 : h4.next = h3.next := by rw [q4]; rfl
  have e3 : Ext h0 h3 := by rw [q3]; exact e2.write _ (by rw [pa.storage]; exact H.a0) _
  have e4 : Ext h0 h4 := by rw [q4]; exact e3.write _ (by rw [pb.storage]; exact H.b0) _
  have hnew : ∀ b < batch, ∀ i < N - w, E.get h2 (tens h1.next [E.size, batch, N - w]) [b, i] =
      S.times (S.dot ((List.range w).map fun u => st.1 b i u) ((List.range w).map fun u => st.2 b (w + i) (N - w + u))) [red b i (i + w)] := by
    intro b hb i hi
    rw [g2 [b, i] ⟨hb, hi, trivial⟩, g1 [b, i] ⟨hb, hi, trivial⟩, pd.get h1 [b, i] ⟨hb, hi, trivial⟩, SR.times, List.foldl_cons, List.foldl_nil]
    have r1 : E.get h1 (tens nr [E.size, batch, N, N]) [b, i, i + w] = red b i (i + w) := by
      rw [x1.get _ hr1, H.r b hb i (by omega) (i + w) (by omega)]
    refine congrArg₂ S.mul (congrArg₂ S.dot ?_ ?_) r1
    · refine List.map_congr_left fun u hu => ?_
      have hu := List.mem_range.1 hu
      refine (pl.get h [b, i, u] ⟨hb, hi, hu, trivial⟩).trans ?_
      exact H.a b hb i (by omega) u (by omega)
    · refine List.map_congr_left fun u hu => ?_
      have hu := List.mem_range.1 hu
      refine (pr.get h [b, i, u] ⟨hb, hi, hu, trivial⟩).trans ?_
      exact H.b b hb (w + i) (by omega) (N - w + u) (by omega)
  refine hk h4 ⟨e4, H.a0, H.b0, by omega, by omega, by omega, H.ab, H.ar, H.br, ?_, ?_, ?_⟩
  · intro b hb i hi v hv
    rw [q4, get_write_other _ _ _ _ _ (by rw [pb.storage]; exact H.ab), q3]
    simp only [CKYCRF.step]
    by_cases hc : i < N - w ∧ v = w
    · rw [if_pos hc, ← hnew b hb i hc.1]
      obtain ⟨hc, rfl⟩ := hc
      exact pa.write_hit L (by
        intro ix jx h1 h2 he
        match ix, jx, h1, h2 with
        | [_, _], [_, _], _, _ => simpa using he) h2 _ [b, i] ⟨hb, hc, trivial⟩
    · rw [if_neg hc, pa.write_miss L h2 _ [b, i, v] ⟨hb, hi, hv, trivial⟩, x12.get _ ha1, H.a b hb i hi v hv]
      intro jx hj he
      match jx, hj with
      | [b', i'], hj =>
        simp only [List.getD_cons_zero, List.getD_cons_succ, List.cons.injEq] at he
        have := hj.2.1
        omega
  · intro b hb i hi v hv
    have hh : ∀ ix, E.get h3 (tens h1.next [E.size, batch, N - w]) ix = E.get h2 (tens h1.next [E.size, batch, N - w]) ix := fun ix => by
      rw [q3]
      exact get_write_other _ _ _ _ _ (by rw [pa.storage]; show h1.next ≠ na; omega)
    rw [q4]
    simp only [CKYCRF.step]
    by_cases hc : w ≤ i ∧ i < N ∧ v = N - w - 1
    · rw [if_pos hc, ← hnew b hb (i - w) (by omega), ← hh]
      obtain ⟨hc1, hc2, rfl⟩ := hc
      have := pb.write_hit L (by
        intro ix jx h1 h2 he
        match ix, jx, h1, h2 with
        | [_, _], [_, _], _, _ => simpa using he) h3 (tens h1.next [E.size, batch, N - w]) [b, i - w] ⟨hb, by omega, trivial⟩
      simp only [List.getD_cons_zero, List.getD_cons_succ] at this
      rw [show w + (i - w) = i by omega] at this
      exact this
    · rw [if_neg hc, pb.write_miss L h3 _ [b, i, v] ⟨hb, hi, hv, trivial⟩, q3, get_write_other _ _ _ _ _ (by rw [pa.storage]; exact H.ab.symm), x12.get _ hb1,
        H.b b hb i hi v hv]
      intro jx hj he
      match jx, hj with
      | [b', i'], hj =>
        simp only [List.getD_cons_zero, List.getD_cons_succ, List.cons.injEq] at he
        have := hj.2.1
        omega
  · intro b hb i hi v hv
    rw [q4, get_write_other _ _ _ _ _ (by rw [pb.storage]; exact H.br.symm), q3, get_write_other _ _ _ _ _ (by rw [pa.storage]; exact H.ar.symm),
      x12.get _ hr1, H.r b hb i hi v hv]

theorem tree_loop (L : Lawful E S ok) (h0 : Heap) (batch N na nb nr : ℕ) (red : ℕ → ℕ → ℕ → α) (k : Unit → HeapM γ) (Q : Except PyErr γ × Heap → Prop) :
    ∀ (ws : List ℕ) (h : Heap) (st : CKYCRF.Charts α), Held E h0 h batch N na nb nr red st → (∀ w ∈ ws, w + 1 < N) →
      (∀ h', Held E h0 h' batch N na nb nr red (ws.foldl (fun st w => CKYCRF.step S N red st (w + 1)) st) → Q (k () h')) →
      Q ((CKYCRF.loopM E S N (tens na [E.size, batch, N, N]) (tens nb [E.size, batch, N, N]) (tens nr [E.size, batch, N, N]) (ws.map (· + 1)) >>= k) h)
  | [], h, st, H, _, hk => hk h H
  | w :: ws, h, st, H, hw, hk => by
    rw [List.map_cons]
    unfold CKYCRF.loopM
    rw [bind_assoc']
    exact tree_step L h0 h batch N na nb nr red st H (w + 1) (Nat.succ_pos w) (hw w List.mem_cons_self) _ Q fun h' H' =>
      tree_loop L h0 batch N na nb nr red k Q ws h' _ H' (fun v hv => hw v (List.mem_cons_of_mem _ hv)) hk

theorem alloc_run (shape : List ℕ) (f : Heap → List ℕ → ℝ) (h : Heap) (Q : Except PyErr View × Heap → Prop)
    (hk : ∀ h', h' = h.push shape (f h) → Q (.ok (tens h.next shape), h')) : Q (alloc shape f h) := hk _ rfl

theorem answers_push (L : Lawful E S ok) {h0 h : Heap} (e : Ext h0 h) (rows : ℕ) (f : List ℕ → ℝ) (g : ℕ → α)
    (hg : ∀ b < rows, E.dec (fun s => f [s, b]) = g b) :
    Spec.Answers E h0 (.ok (tens h.next [E.size, rows]), h.push [E.size, rows] f) (.ok ((List.range rows).map g)) := by
  refine ⟨(e.push _ _).data, e.next, rows, rfl, congrArg _ (List.map_congr_left fun b hb => ?_)⟩
  have hb := List.mem_range.1 hb
  rw [← hg b hb]
  exact L.congr _ _ fun s hs => (read_push_new h [E.size, rows] f [s, b] ⟨hs, hb, trivial⟩).symm

theorem tree_run (L : Lawful E S ok) (h0 : Heap) (batch N N2 NT : ℕ) (hNT : 0 < NT) (convert : HeapM View) (lengths : Option (List ℕ)) (pot : List ℕ → α)
    (hc : Spec.Converts E h0 convert [batch, N, N2, NT] pot) :
    Spec.Answers E h0 (CKYCRF.logpartitionM E S batch N N2 convert lengths h0)
      (CKYCRF.logpartition S ⟨batch, N, N2, NT, fun b i j a => pot [b, i, j, a]⟩ lengths) := by
  obtain ⟨t, h1, ec, ⟨en, ed⟩, ht, hsh, hpot⟩ := hc
  have e1 : Ext h0 h1 := ⟨en, ed⟩
  clear en ed
  unfold CKYCRF.logpartitionM
  rw [bind_ok ec]
  by_cases hNN : N = N2
  swap
  · rw [if_pos hNN]
    exact ⟨e1.data, if_pos hNN⟩
  subst hNN
  rw [if_neg (not_not.2 rfl)]
  by_cases hN : N = 0
  · rw [if_pos hN]
    exact ⟨e1.data, (if_neg (not_not.2 rfl)).trans (if_pos hN)⟩
  rw [if_neg hN]
  have hans : CKYCRF.logpartition S ⟨batch, N, N, NT, fun b i j a => pot [b, i, j, a]⟩ lengths =
      CKYCRF.gather batch N (fun b w => (CKYCRF.charts S N (CKYCRF.reduced S ⟨batch, N, N, NT, fun b i j a => pot [b, i, j, a]⟩)).1 b 0 w)
        (CKYCRF.lensOr batch N lengths) := by
    rw [CKYCRF.logpartition, if_neg (not_not.2 rfl), if_neg hN]
  rw [hans]
  generalize hred : CKYCRF.reduced S ⟨batch, N, N, NT, fun b i j a => pot [b, i, j, a]⟩ = red
  generalize CKYCRF.lensOr batch N lengths = lens
  generalize hQ : (fun r => Spec.Answers E h0 r (CKYCRF.gather batch N (fun b w => (CKYCRF.charts S N red).1 b 0 w) lens)) = Q
  have hQ' : ∀ r, Q r ↔ Spec.Answers E h0 r (CKYCRF.gather batch N (fun b w => (CKYCRF.charts S N red).1 b 0 w) lens) := fun r => by rw [← hQ]
  refine (hQ' _).1 ?_
  refine chart_bind L _ _ h0 h1 e1 Q fun h2 n2 x2 e2 g2 => ?_
  refine chart_bind L _ _ h0 h2 e2 Q fun h3 n3 x3 e3 g3 => ?_
  refine reduce_bind L t [batch, N, N] NT hNT hsh _ h0 h3 e3 Q fun h4 n4 x4 e4 g4 => ?_
  have pd := part_diagonal h3.next E.size batch N 0
  have pa := part_column h1.next E.size batch N 0 (by omega)
  have pb := part_column h2.next E.size batch N (N - 1) (by omega)
  refine assign_bind _ _ _ _ Q fun h5 q5 => ?_
  refine assign_bind _ _ _ _ Q fun h6 q6 => ?_
  have e5 : Ext h0 h5 := by rw [q5]; exact e4.write _ (by rw [pa.storage]; exact e1.next) _
  have e6 : Ext h0 h6 := by rw [q6]; exact e5.write _ (by rw [pb.storage]; exact e2.next) _
  have m5 : h5.next = h4.next := by rw [q5]; rfl
  have m6 : h6.next = h5.next := by rw [q6]; rfl
  have hr4 : ∀ b < batch, ∀ i < N, ∀ j < N, E.get h4 (tens h3.next [E.size, batch, N, N]) [b, i, j] = red b i j := by
    intro b hb i hi j hj
    rw [g4 [b, i, j] ⟨hb, hi, hj, trivial⟩, ← hred, CKYCRF.reduced]
    refine congrArg S.sum (List.map_congr_left fun a ha => ?_)
    exact ((x2.trans x3).get t ht _).trans (hpot [b, i, j, a] ⟨hb, hi, hj, List.mem_range.1 ha, trivial⟩)
  have hinj : ∀ c, ∀ ix jx : List ℕ, Valid [batch, N] ix → Valid [batch, N] jx → [ix.getD 0 0, ix.getD 1 0, c] = [jx.getD 0 0, jx.getD 1 0, c] → ix = jx := by
    intro c ix jx h1 h2 he
    match ix, jx, h1, h2 with
    | [_, _], [_, _], _, _ => simpa using he
  have H : Held E h0 h6 batch N h1.next h2.next h3.next red (CKYCRF.init S N red) := by
    refine ⟨e6, e1.next, e2.next, by omega, by omega, by omega, by omega, by omega, by omega, ?_, ?_, ?_⟩
    · intro b hb i hi w hw
      rw [q6, get_write_other _ _ _ _ _ (by rw [pb.storage]; show h1.next ≠ h2.next; omega), q5]
      simp only [CKYCRF.init]
      by_cases hc : i < N ∧ w = 0
      · obtain ⟨-, rfl⟩ := hc
        rw [if_pos ⟨hi, rfl⟩, ← hr4 b hb i hi i hi]
        refine (pa.write_hit L (hinj 0) h4 _ [b, i] ⟨hb, hi, trivial⟩).trans ?_
        exact pd.get h4 [b, i] ⟨hb, hi, trivial⟩
      · rw [if_neg hc, pa.write_miss L h4 _ [b, i, w] ⟨hb, hi, hw, trivial⟩, (x3.trans x4).get _ (show h1.next < h2.next by omega),
          g2 [b, i, w] ⟨hb, hi, hw, trivial⟩]
        intro jx hj he
        simp only [List.cons.injEq] at he
        omega
    · intro b hb i hi w hw
      rw [q6]
      simp only [CKYCRF.init]
      by_cases hc : i < N ∧ w = N - 1
      · obtain ⟨-, rfl⟩ := hc
        rw [if_pos ⟨hi, rfl⟩, ← hr4 b hb i hi i hi]
        refine (pb.write_hit L (hinj (N - 1)) h5 _ [b, i] ⟨hb, hi, trivial⟩).trans ?_
        refine (pd.get h5 [b, i] ⟨hb, hi, trivial⟩).trans ?_
        rw [q5]
        exact get_write_other _ _ _ _ _ (by rw [pa.storage]; show h3.next ≠ h1.next; omega)
      · rw [if_neg hc, pb.write_miss L h5 _ [b, i, w] ⟨hb, hi, hw, trivial⟩, q5,
          get_write_other _ _ _ _ _ (by rw [pa.storage]; show h2.next ≠ h1.next; omega), x4.get _ (show h2.next < h3.next by omega),
          g3 [b, i, w] ⟨hb, hi, hw, trivial⟩]
        intro jx hj he
        simp only [List.cons.injEq] at he
        omega
    · intro b hb i hi j hj
      rw [q6, get_write_other _ _ _ _ _ (by rw [pb.storage]; show h3.next ≠ h2.next; omega), q5,
        get_write_other _ _ _ _ _ (by rw [pa.storage]; show h3.next ≠ h1.next; omega), hr4 b hb i hi j hj]
  refine tree_loop L h0 batch N h1.next h2.next h3.next red _ Q _ h6 _ H (fun w hw => by have := List.mem_range.1 hw; omega) fun h7 H7 => ?_
  have pf := part_row h1.next E.size batch N 0 (by omega)
  have hfin : ∀ b < batch, ∀ w < N, E.get h7 ((tens h1.next [E.size, batch, N, N]).select 2 0) [b, w] = (CKYCRF.charts S N red).1 b 0 w := by
    intro b hb w hw
    exact (pf.get h7 [b, w] ⟨hb, hw, trivial⟩).trans (H7.a b hb 0 (by omega) w hw)
  have hlast : ∀ l ≤ N, CKYCRF.lastIndex N l < N := fun l hl => by unfold CKYCRF.lastIndex; split_ifs <;> omega
  unfold CKYCRF.gatherM
  unfold CKYCRF.gather at hQ'
  split_ifs at hQ' ⊢ with c1 c2 c3 c4
  · refine (hQ' _).2 (answers_push L H7.ext batch _ _ fun b hb => ?_)
    have hl : lens.getD b 0 ≤ N := by
      rw [List.getD_eq_getElem _ _ (by omega)]
      exact c1 _ (List.getElem_mem _)
    exact hfin b hb _ (hlast _ hl)
  · refine (hQ' _).2 (answers_push L H7.ext batch _ _ fun b hb => ?_)
    have hl : lens.getD 0 0 ≤ N := by
      rw [List.getD_eq_getElem _ _ (by omega)]
      exact c1 _ (List.getElem_mem _)
    exact hfin b hb _ (hlast _ hl)
  · have hm : lens.map (fun l => (CKYCRF.charts S N red).1 0 0 (CKYCRF.lastIndex N l)) =
        (List.range lens.length).map fun b => (CKYCRF.charts S N red).1 0 0 (CKYCRF.lastIndex N (lens.getD b 0)) :=
      List.ext_getElem (by simp) fun b h1 h2 => by
        have hb : b < lens.length := by simpa using h1
        simp [List.getElem?_eq_getElem hb]
    refine (hQ' _).2 ?_
    rw [hm]
    refine answers_push L H7.ext lens.length _ _ fun b hb => ?_
    have hl : lens.getD b 0 ≤ N := by
      rw [List.getD_eq_getElem _ _ (by omega)]
      exact c1 _ (List.getElem_mem _)
    exact hfin 0 (by omega) _ (hlast _ hl)
  · exact (hQ' _).2 ⟨H7.ext.data, rfl⟩
  · exact (hQ' _).2 ⟨H7.ext.data, rfl⟩

end MemoryProofs
