import Verif.Proofs.LinearChain
import Verif.Proofs.Memory
import Verif.Spec.Memory
import Verif.Model.ChainMemory

/-! `LinearChain.logpartitionM` computes what `LinearChain.logpartition` computes, and leaves the existing storages alone. -/

open View HeapM

namespace MemoryProofs
variable {α γ : Type} {E : Layout α} {S : SR α} {ok : α → Prop}

theorem makeChart_bind (L : Lawful E S ok) (shape : List ℕ) (k : View → HeapM γ) (h0 h : Heap) (e : Ext h0 h) (Q : Except PyErr γ × Heap → Prop)
    (hk : ∀ h', h'.next = h.next + 1 → Ext h h' → Ext h0 h' → (∀ ix, Valid shape ix → E.get h' (tens h.next (E.size :: shape)) ix = S.zero) →
      Q (k (tens h.next (E.size :: shape)) h')) : Q ((E.makeChart S shape >>= k) h) := by
  unfold Layout.makeChart
  rw [bind_assoc']
  refine alloc_bind _ _ _ _ Q fun h1 e1 => ?_
  rw [bind_assoc']
  refine assign_bind _ _ _ _ Q fun h2 e2 => ?_
  refine hk h2 (by rw [e2, e1]; rfl) ?_ ?_ fun ix hv => ?_
  · rw [e2]
    exact Ext.write (by rw [e1]; exact (Ext.refl h).push _ _) _ le_rfl _
  · rw [e2]
    exact Ext.write (by rw [e1]; exact e.push _ _) _ e.next _
  · refine L.read L.zero fun s hs => ?_
    rw [e2]
    exact read_write_tens h1 _ _ _ _ _ (s :: ix) rfl ⟨hs, hv⟩ (addr_tens _ _ _)

/-- An operation whose result has the elements `x h ix`. -/
theorem put_bind (L : Lawful E S ok) (shape : List ℕ) (x : Heap → List ℕ → α) (k : View → HeapM γ) (h0 h : Heap) (e : Ext h0 h)
    (hx : ∀ ix, Valid shape ix → ok (x h ix)) (Q : Except PyErr γ × Heap → Prop)
    (hk : ∀ h', h'.next = h.next + 1 → Ext h h' → Ext h0 h' → (∀ ix, Valid shape ix → E.get h' (tens h.next (E.size :: shape)) ix = x h ix) →
      Q (k (tens h.next (E.size :: shape)) h')) : Q ((alloc (E.size :: shape) (fun h => E.put (x h)) >>= k) h) := by
  refine alloc_bind _ _ _ _ Q fun h1 e1 => ?_
  refine hk h1 (by rw [e1]; rfl) ?_ ?_ fun ix hv => ?_
  · rw [e1]; exact (Ext.refl h).push _ _
  · rw [e1]; exact e.push _ _
  · rw [e1]; exact get_push_new L h shape (x h) ix hv (hx ix hv)

theorem Ext.get {h0 h : Heap} (e : Ext h0 h) (t : View) (ht : t.storage < h0.next) (ix : List ℕ) : E.get h t ix = E.get h0 t ix := by
  unfold Layout.get
  exact congrArg E.dec (funext fun s => e.read t ht (s :: ix))

theorem ok_fill {x v : α} (m : Bool) (hx : ok x) (hv : ok v) : ok (SR.fill x m v) := by
  unfold SR.fill; split_ifs
  · exact hv
  · exact hx

/-- `t[:] = x` for a contiguous tensor `t` and a tensor `x` in another storage; `u` is a view of `t`. -/
theorem get_assign (L : Lawful E S ok) (h : Heap) (n : ℕ) (shape : List ℕ) (x u : View) (ix kx : List ℕ) (hs : u.storage = n) (hk : Valid shape kx)
    (ha : ∀ s < E.size, u.addr (s :: ix) = ravel (E.size :: shape) (s :: kx)) :
    E.get (h.write (tens n (E.size :: shape)) (h.read x)) u ix = E.get h x kx :=
  L.congr _ _ fun s hs' => read_write_tens h n (E.size :: shape) u (h.read x) (s :: ix) (s :: kx) hs ⟨hs', hk⟩ (ha s hs')

theorem reduce_bind (L : Lawful E S ok) (t : View) (shape : List ℕ) (d : ℕ) (hd : 0 < d) (ht : t.shape = E.size :: (shape ++ [d])) (k : View → HeapM γ)
    (h0 h : Heap) (e : Ext h0 h) (Q : Except PyErr γ × Heap → Prop)
    (hk : ∀ h', h'.next = h.next + 1 → Ext h h' → Ext h0 h' → (∀ ix, Valid shape ix → E.get h' (tens h.next (E.size :: shape)) ix =
        S.sum ((List.range d).map fun j => E.get h t (ix ++ [j]))) →
      Q (k (tens h.next (E.size :: shape)) h')) : Q ((E.reduce S t >>= k) h) := by
  have e1 : t.shape.dropLast = E.size :: shape := by
    rw [ht, show E.size :: (shape ++ [d]) = (E.size :: shape) ++ [d] from rfl, List.dropLast_concat]
  have e2 : t.shape.getLastD 0 = d := by
    rw [ht]
    exact List.getLastD_concat (l := E.size :: shape)
  unfold Layout.reduce
  rw [e1, e2]
  refine put_bind L shape (fun h ix => S.sum ((List.range d).map fun j => E.get h t (ix ++ [j]))) k h0 h e (fun ix _ => L.sum _ ?_ ?_) Q hk
  · intro hc
    have := congrArg List.length hc
    simp at this
    omega
  · intro x hx
    obtain ⟨j, -, rfl⟩ := List.mem_map.1 hx
    exact L.ok_get _ _ _

theorem reduce_run (L : Lawful E S ok) (t : View) (shape : List ℕ) (d : ℕ) (hd : 0 < d) (ht : t.shape = E.size :: (shape ++ [d]))
    (h0 h : Heap) (e : Ext h0 h) (Q : Except PyErr View × Heap → Prop)
    (hk : ∀ h', h'.next = h.next + 1 → Ext h h' → Ext h0 h' → (∀ ix, Valid shape ix → E.get h' (tens h.next (E.size :: shape)) ix =
        S.sum ((List.range d).map fun j => E.get h t (ix ++ [j]))) →
      Q (.ok (tens h.next (E.size :: shape)), h')) : Q (E.reduce S t h) := by
  have : E.reduce S t h = (E.reduce S t >>= pure) h := by
    show _ = (match E.reduce S t h with | (.ok x, h') => ((.ok x, h') : Except PyErr View × Heap) | (.error e, h') => (.error e, h'))
    rcases E.reduce S t h with ⟨_ | _, _⟩ <;> rfl
  rw [this]
  exact reduce_bind L t shape d hd ht pure h0 h e Q hk

theorem matmul_bind (L : Lawful E S ok) (a b : View) (d0 d1 m : ℕ) (hm : 0 < m) (ha : a.shape = [E.size, d0, d1, m, m])
    (hb : b.shape = [E.size, d0, d1, m, m]) (k : View → HeapM γ) (h0 h : Heap) (e : Ext h0 h) (Q : Except PyErr γ × Heap → Prop)
    (hk : ∀ n h', h.next ≤ n → n < h'.next → Ext h h' → Ext h0 h' → (∀ x < d0, ∀ y < d1, ∀ i j : Fin m,
        E.get h' (tens n [E.size, d0, d1, m, m]) [x, y, i, j] =
          S.matmul (fun i q : Fin m => E.get h a [x, y, i, q]) (fun q j : Fin m => E.get h b [x, y, q, j]) i j) →
      Q (k (tens n [E.size, d0, d1, m, m]) h')) : Q ((E.matmul S a b >>= k) h) := by
  unfold Layout.matmul
  rw [ha, hb]
  simp only
  rw [bind_assoc']
  refine put_bind L [d0, d1, m, m, m] (fun h ix => match ix with
      | [x, y, i, q, j] => S.mul (E.get h a [x, y, i, q]) (E.get h b [x, y, q, j])
      | _ => S.zero) _ h0 h e ?_ Q ?_
  · intro ix _
    split
    · exact L.mul _ _ (L.ok_get _ _ _) (L.ok_get _ _ _)
    · exact L.zero
  intro h1 n1 x1 e1 g1
  refine reduce_bind L _ [d0, d1, m, m] m hm rfl k h0 h1 e1 Q ?_
  intro h2 n2 x2 e2 g2
  refine hk _ h2 (by omega) (by omega) (x1.trans x2) e2 fun x hx y hy i j => ?_
  rw [g2 [x, y, i, j] ⟨hx, hy, i.2, j.2, trivial⟩]
  refine congrArg S.sum ?_
  rw [← List.map_coe_finRange_eq_range, List.map_map, List.ofFn_eq_map]
  refine List.map_congr_left fun q _ => ?_
  refine Eq.trans ?_ (g1 [x, y, i, q, j] ⟨hx, hy, i.2, q.2, j.2, trivial⟩)
  refine congrArg E.dec (funext fun s => ?_)
  rw [Heap.read, Heap.read]
  refine congrArg _ ?_
  simp [addr, permute, tens, rowMajor]
  ring

theorem scan_bind (L : Lawful E S ok) (batch m : ℕ) (hm : 0 < m) (k : View → HeapM γ) (h0 : Heap) (Q : Except PyErr γ × Heap → Prop) :
    ∀ (logN n : ℕ) (h : Heap) (x : ℕ → ℕ → Fin m → Fin m → α), h0.next ≤ n → n < h.next → Ext h0 h →
      (∀ b < batch, ∀ y < 2 ^ logN, ∀ i j : Fin m, E.get h (tens n [E.size, batch, 2 ^ logN, m, m]) [b, y, i, j] = x b y i j) →
      (∀ n' h', h0.next ≤ n' → n' < h'.next → Ext h0 h' →
        (∀ b < batch, ∀ i j : Fin m, E.get h' (tens n' [E.size, batch, 1, m, m]) [b, 0, i, j] = LinearChain.scan S logN (x b) 0 i j) →
        Q (k (tens n' [E.size, batch, 1, m, m]) h')) →
      Q ((LinearChain.scanM E S (2 ^ logN) logN (tens n [E.size, batch, 2 ^ logN, m, m]) >>= k) h)
  | 0, n, h, x, hn, hn', e, hx, hk => hk n h hn hn' e fun b hb i j => hx b hb 0 (by simp) i j
  | logN + 1, n, h, x, hn, hn', e, hx, hk => by
    have h2 : 2 ^ (logN + 1) = 2 * 2 ^ logN := by rw [pow_succ, Nat.mul_comm]
    have hp : 0 < 2 ^ logN := Nat.pow_pos (by norm_num)
    unfold LinearChain.scanM
    rw [bind_assoc']
    refine matmul_bind L _ _ batch (2 ^ logN) m hm ?_ ?_ _ h0 h e Q ?_
    · simp only [slice, tens, List.set]
      rw [show (2 ^ (logN + 1) - 1 + 2 - 1) / 2 = 2 ^ logN by omega]
    · simp only [slice, tens, List.set]
      rw [show (2 ^ (logN + 1) - 0 + 2 - 1) / 2 = 2 ^ logN by omega]
    intro n1 h1 hn1 hn1' x1 e1 g1
    rw [show 2 ^ (logN + 1) / 2 = 2 ^ logN by omega]
    refine scan_bind L batch m hm k h0 Q logN n1 h1 (fun b => LinearChain.scanStep S (x b)) (e.next.trans hn1) hn1' e1 (fun b hb y hy i j => ?_) hk
    rw [g1 b hb y hy i j, LinearChain.scanStep]
    have a1 : ∀ (s b y i q : ℕ), ((tens n [E.size, batch, 2 ^ (logN + 1), m, m]).slice 2 1 (2 ^ (logN + 1)) 2).addr [s, b, y, i, q] =
        (tens n [E.size, batch, 2 ^ (logN + 1), m, m]).addr [s, b, 2 * y + 1, i, q] := by
      intro s b y i q
      simp [slice, addr, tens, rowMajor]
      ring
    have a2 : ∀ (s b y i q : ℕ), ((tens n [E.size, batch, 2 ^ (logN + 1), m, m]).slice 2 0 (2 ^ (logN + 1)) 2).addr [s, b, y, i, q] =
        (tens n [E.size, batch, 2 ^ (logN + 1), m, m]).addr [s, b, 2 * y, i, q] := by
      intro s b y i q
      simp [slice, addr, tens, rowMajor]
      ring
    have b1 : (fun i q : Fin m => E.get h ((tens n [E.size, batch, 2 ^ (logN + 1), m, m]).slice 2 1 (2 ^ (logN + 1)) 2) [b, y, i, q]) = x b (2 * y + 1) := by
      funext i q
      rw [← hx b hb (2 * y + 1) (by omega) i q]
      refine congrArg E.dec (funext fun s => ?_)
      rw [Heap.read, a1]; rfl
    have b2 : (fun i q : Fin m => E.get h ((tens n [E.size, batch, 2 ^ (logN + 1), m, m]).slice 2 0 (2 ^ (logN + 1)) 2) [b, y, i, q]) = x b (2 * y) := by
      funext i q
      rw [← hx b hb (2 * y) (by omega) i q]
      refine congrArg E.dec (funext fun s => ?_)
      rw [Heap.read, a2]; rfl
    rw [b1, b2]

theorem binLength_pow {N1 logN binN : ℕ} (h : Struct.binLength N1 = .ok (logN, binN)) : binN = 2 ^ logN ∧ N1 ≤ 2 ^ logN ∧ logN = Nat.clog 2 N1 := by
  unfold Struct.binLength at h
  split_ifs at h with h0
  rw [Except.ok.injEq, Prod.mk.injEq] at h
  obtain ⟨rfl, rfl⟩ := h
  exact ⟨rfl, Nat.le_pow_clog (by norm_num) _, rfl⟩

theorem contiguous_tens (n : ℕ) (shape : List ℕ) (h : Heap) : contiguous (tens n shape) h = (.ok (tens n shape), h) := by
  have : (tens n shape).strides = rowMajor (tens n shape).shape := rfl
  rw [contiguous, if_pos this]; rfl

theorem get_flat (h : Heap) (n z a b c d r i j : ℕ) :
    E.get h (tens n [z, a * b, c, d]) [r, i, j] = E.get h (tens n [z, a, b, c, d]) [r / b, r % b, i, j] := by
  refine congrArg E.dec (funext fun s => ?_)
  rw [Heap.read, Heap.read]
  refine congrArg _ ?_
  have h1 : r * (c * d) = (b * (r / b) + r % b) * (c * d) := by rw [Nat.div_add_mod]
  simp [addr, tens, rowMajor]
  rw [h1]
  ring

theorem get_unflat (h : Heap) (n z a b c d x y i j : ℕ) (hy : y < b) :
    E.get h (tens n [z, a, b, c, d]) [x, y, i, j] = E.get h (tens n [z, a * b, c, d]) [x * b + y, i, j] := by
  rw [get_flat]
  congr 3
  · rw [Nat.mul_comm, Nat.mul_add_div (by omega), Nat.div_eq_of_lt hy]; simp
  · rw [Nat.mul_comm, Nat.mul_add_mod, Nat.mod_eq_of_lt hy]

/-- `t[:] = x` for a contiguous tensor, read through the same tensor. -/
theorem get_assign_self (L : Lawful E S ok) (h : Heap) (n : ℕ) (shape : List ℕ) (x : View) (ix : List ℕ) (hk : Valid shape ix) :
    E.get (h.write (tens n (E.size :: shape)) (h.read x)) (tens n (E.size :: shape)) ix = E.get h x ix :=
  get_assign L h n shape x _ ix ix rfl hk fun s _ => addr_tens _ _ _

theorem chain_run (L : Lawful E S ok) (P : LinearChainProofs.Plain S) (h0 : Heap) (batch N1 C C2 : ℕ) (hC : 0 < C) (convert : HeapM View)
    (lengths : Option (List ℕ)) (pot : List ℕ → α) (hc : Spec.Converts E h0 convert [batch, N1, C, C2] pot) :
    Spec.Answers E h0 (LinearChain.logpartitionM E S batch N1 C C2 convert lengths h0)
      (LinearChain.logpartition S ⟨batch, N1, C, C2, fun b n i j => pot [b, n, i, j]⟩ lengths) := by
  obtain ⟨t, h1, ec, ⟨en, ed⟩, ht, -, hpot⟩ := hc
  have e1 : Ext h0 h1 := ⟨en, ed⟩
  clear en ed
  unfold LinearChain.logpartitionM
  rw [bind_ok ec]
  generalize hQ : (fun r => Spec.Answers E h0 r (LinearChain.logpartition S ⟨batch, N1, C, C2, fun b n i j => pot [b, n, i, j]⟩ lengths)) = Q
  have hQ' : ∀ r, Q r ↔ Spec.Answers E h0 r (LinearChain.logpartition S ⟨batch, N1, C, C2, fun b n i j => pot [b, n, i, j]⟩ lengths) := fun r => by
    rw [← hQ]
  refine (hQ' _).1 ?_
  have hcheck : LinearChain.checkPotentials (P := Unit) ⟨batch, N1, C, C2, fun _ _ _ _ => ()⟩ lengths =
      LinearChain.checkPotentials (P := α) ⟨batch, N1, C, C2, fun b n i j => pot [b, n, i, j]⟩ lengths := rfl
  refine lift_bind _ _ _ Q (fun e he => (hQ' _).2 ⟨e1.data, ?_⟩) fun lens hlens => ?_
  · rw [hcheck] at he
    simp only [LinearChain.logpartition, he]
    rfl
  rw [hcheck] at hlens
  have hCC : C = C2 := by
    unfold LinearChain.checkPotentials at hlens
    by_contra hne
    simp only [hne, if_false] at hlens
    rcases lengths with _ | l
    · simp [bind, Except.bind] at hlens
    · rcases hm : l.max? with _ | m
      · simp [hm, bind, Except.bind] at hlens
      · simp only [hm] at hlens
        split_ifs at hlens <;> simp [bind, Except.bind] at hlens
  subst hCC
  refine lift_bind _ _ _ Q (fun e he => (hQ' _).2 ⟨e1.data, ?_⟩) fun lb hlb => ?_
  · simp only [LinearChain.logpartition, hlens, he]
    rfl
  obtain ⟨logN, binN⟩ := lb
  simp only
  obtain ⟨rfl, hN, hlog⟩ := binLength_pow hlb
  have hp : 0 < 2 ^ logN := Nat.pow_pos (by norm_num)
  -- the chart
  refine makeChart_bind L _ _ h0 h1 e1 Q fun h2 n2 x2 e2 g2 => ?_
  refine put_bind L [batch, 2 ^ logN, C, C] (fun h ix => SR.fill (E.get h (tens h1.next [E.size, batch, 2 ^ logN, C, C]) ix)
    (decide (ix.getD 2 0 = ix.getD 3 0)) S.one) _ h0 h2 e2 (fun ix _ => ok_fill _ (L.ok_get _ _ _) L.one) Q fun h3 n3 x3 e3 g3 => ?_
  have G3 : ∀ r < batch * 2 ^ logN, ∀ i j : Fin C, E.get h3 (tens h2.next [E.size, batch * 2 ^ logN, C, C]) [r, i, j] =
      Struct.flat (2 ^ logN) (LinearChain.chartInit (C := C) S) r i j := by
    intro r hr i j
    have hb : r / 2 ^ logN < batch := Nat.div_lt_of_lt_mul (by rw [Nat.mul_comm]; exact hr)
    have hv : Valid [batch, 2 ^ logN, C, C] [r / 2 ^ logN, r % 2 ^ logN, i, j] := ⟨hb, Nat.mod_lt _ hp, i.2, j.2, trivial⟩
    rw [get_flat, g3 _ hv, g2 _ hv, Struct.flat, LinearChain.chartInit]
    simp only [List.getD_cons_succ, List.getD_cons_zero, Fin.ext_iff]
  clear g3 g2
  -- the table of potentials
  refine alloc_bind _ _ _ _ Q fun h4 q4 => ?_
  refine assign_bind _ _ _ _ Q fun h5 q5 => ?_
  have n4 : h4.next = h3.next + 1 := by rw [q4]; rfl
  have n5 : h5.next = h4.next := by rw [q5]; rfl
  have x4 : Ext h3 h4 := by rw [q4]; exact (Ext.refl h3).push _ _
  have x5 : Ext h3 h5 := by rw [q5]; exact x4.write _ le_rfl _
  have e5 : Ext h0 h5 := e3.trans x5
  have G5 : ∀ r < batch * 2 ^ logN, ∀ i j : Fin C, E.get h5 (tens h3.next [E.size, batch * 2 ^ logN, C, C]) [r, i, j] =
      Struct.flat (2 ^ logN) (LinearChain.big S (N1 + 1) fun b n (i j : Fin C) => pot [b, n, i, j]) r i j := by
    intro r hr i j
    have hb : r / 2 ^ logN < batch := Nat.div_lt_of_lt_mul (by rw [Nat.mul_comm]; exact hr)
    have hn : r % 2 ^ logN < 2 ^ logN := Nat.mod_lt _ hp
    rw [get_flat, Struct.flat, LinearChain.big, Nat.add_sub_cancel]
    generalize r / 2 ^ logN = b at hb
    generalize r % 2 ^ logN = n at hn
    have ha : ∀ s b n i j : ℕ, ((tens h3.next [E.size, batch, 2 ^ logN, C, C]).slice 2 0 N1 1).addr [s, b, n, i, j] =
        ravel [E.size, batch, 2 ^ logN, C, C] [s, b, n, i, j] := by
      intro s b n i j
      rw [← addr_tens h3.next]
      simp [slice, addr, tens, rowMajor]
    have hs : ((tens h3.next [E.size, batch, 2 ^ logN, C, C]).slice 2 0 N1 1).shape = [E.size, batch, N1, C, C] := by
      simp [slice, tens]
    have hall : ∀ jx, Valid [E.size, batch, N1, C, C] jx → ∃ s b n i j, jx = [s, b, n, i, j] ∧ n < N1 ∧ Valid [E.size, batch, 2 ^ logN, C, C] jx := by
      intro jx hj
      match jx, hj with
      | [s, b, n, i, j], hj => exact ⟨s, b, n, i, j, rfl, hj.2.2.1, hj.1, hj.2.1, lt_of_lt_of_le hj.2.2.1 hN, hj.2.2.2⟩
    split_ifs with hlt
    · rw [← hpot [b, n, i, j] ⟨hb, hlt, i.2, j.2, trivial⟩, ← (x2.trans (x3.trans x4)).get (E := E) t ht, q5]
      refine L.congr _ _ fun s hs' => ?_
      refine read_write_hit h4 _ _ _ _ [s, b, n, i, j] rfl (by rw [hs]; exact ⟨hs', hb, hlt, i.2, j.2, trivial⟩) (by rw [ha, addr_tens]) ?_
      intro jx hj he
      rw [hs] at hj
      obtain ⟨s', b', n', i', j', rfl, -, hv⟩ := hall jx hj
      rw [ha, ha] at he
      exact ravel_inj hv (show Valid _ [s, b, n, i, j] from ⟨hs', hb, hn, i.2, j.2, trivial⟩) he
    · rw [← L.raw0, q5]
      refine L.congr _ _ fun s hs' => ?_
      rw [read_write_miss]
      · rw [q4]
        exact read_push_new h3 _ _ [s, b, n, i, j] ⟨hs', hb, hn, i.2, j.2, trivial⟩
      · intro _ jx hj he
        rw [hs] at hj
        obtain ⟨s', b', n', i', j', rfl, hn', hv⟩ := hall jx hj
        rw [ha, addr_tens] at he
        have := ravel_inj hv (show Valid _ [s, b, n, (i : ℕ), (j : ℕ)] from ⟨hs', hb, hn, i.2, j.2, trivial⟩) he
        simp only [List.cons.injEq] at this
        omega
  have H5 : ∀ r < batch * 2 ^ logN, ∀ i j : Fin C, E.get h5 (tens h2.next [E.size, batch * 2 ^ logN, C, C]) [r, i, j] =
      Struct.flat (2 ^ logN) (LinearChain.chartInit (C := C) S) r i j := fun r hr i j => by
    rw [x5.get _ (show h2.next < h3.next by omega), G3 r hr i j]
  -- the views
  rw [bind_ok (view_tens h2.next [E.size, batch, 2 ^ logN, C, C] [E.size, batch * 2 ^ logN, C, C] (by simp only [List.prod_cons, List.prod_nil]; ring) h5),
    bind_ok (view_tens h3.next [E.size, batch, 2 ^ logN, C, C] [E.size, batch * 2 ^ logN, C, C] (by simp only [List.prod_cons, List.prod_nil]; ring) h5)]
  by_cases hlen : lens.length = batch
  swap
  · rw [if_pos hlen]
    refine (hQ' _).2 ⟨e5.data, ?_⟩
    simp only [LinearChain.logpartition, hlens, hlb]
    exact if_neg hlen
  rw [if_neg (not_not.2 hlen)]
  generalize hmask : (LinearChain.rowMask (2 ^ logN) fun b => lens.getD b 0) = mask
  -- the masks
  have lt1 : h1.next < h2.next := by omega
  refine put_bind L [batch * 2 ^ logN, C, C] (fun h ix => SR.fill (E.get h (tens h3.next [E.size, batch * 2 ^ logN, C, C]) ix) (mask ix) S.zero) _ h0 h5 e5
    (fun ix _ => ok_fill _ (L.ok_get _ _ _) L.zero) Q fun h6 n6 x6 e6 g6 => ?_
  refine assign_bind _ _ _ _ Q fun h7 q7 => ?_
  have n7 : h7.next = h6.next := by rw [q7]; rfl
  have e7 : Ext h0 h7 := by rw [q7]; exact e6.write _ e3.next _
  have G7 : ∀ r < batch * 2 ^ logN, ∀ i j : Fin C, E.get h7 (tens h3.next [E.size, batch * 2 ^ logN, C, C]) [r, i, j] =
      SR.fill (Struct.flat (2 ^ logN) (LinearChain.big S (N1 + 1) fun b n (i j : Fin C) => pot [b, n, i, j]) r i j) (mask [r, i, j]) S.zero := by
    intro r hr i j
    have hv : Valid [batch * 2 ^ logN, C, C] [r, i, j] := ⟨hr, i.2, j.2, trivial⟩
    rw [q7, get_assign_self L _ _ _ _ _ hv, g6 _ hv, G5 r hr i j]
  have H7 : ∀ r < batch * 2 ^ logN, ∀ i j : Fin C, E.get h7 (tens h2.next [E.size, batch * 2 ^ logN, C, C]) [r, i, j] =
      Struct.flat (2 ^ logN) (LinearChain.chartInit (C := C) S) r i j := by
    intro r hr i j
    rw [q7, get_write_other _ _ _ _ _ (show h2.next ≠ h3.next by omega), x6.get _ (show h2.next < h5.next by omega), H5 r hr i j]
  refine put_bind L [batch * 2 ^ logN, C, C] (fun h ix => SR.fill (E.get h (tens h2.next [E.size, batch * 2 ^ logN, C, C]) ix) (!mask ix) S.zero) _ h0 h7 e7
    (fun ix _ => ok_fill _ (L.ok_get _ _ _) L.zero) Q fun h8 n8 x8 e8 g8 => ?_
  refine assign_bind _ _ _ _ Q fun h9 q9 => ?_
  have n9 : h9.next = h8.next := by rw [q9]; rfl
  have e9 : Ext h0 h9 := by rw [q9]; exact e8.write _ (show h0.next ≤ h2.next from e2.next) _
  have H9 : ∀ r < batch * 2 ^ logN, ∀ i j : Fin C, E.get h9 (tens h2.next [E.size, batch * 2 ^ logN, C, C]) [r, i, j] =
      SR.fill (Struct.flat (2 ^ logN) (LinearChain.chartInit (C := C) S) r i j) (!mask [r, i, j]) S.zero := by
    intro r hr i j
    have hv : Valid [batch * 2 ^ logN, C, C] [r, i, j] := ⟨hr, i.2, j.2, trivial⟩
    rw [q9, get_assign_self L _ _ _ _ _ hv, g8 _ hv, H7 r hr i j]
  have G9 : ∀ r < batch * 2 ^ logN, ∀ i j : Fin C, E.get h9 (tens h3.next [E.size, batch * 2 ^ logN, C, C]) [r, i, j] =
      SR.fill (Struct.flat (2 ^ logN) (LinearChain.big S (N1 + 1) fun b n (i j : Fin C) => pot [b, n, i, j]) r i j) (mask [r, i, j]) S.zero := by
    intro r hr i j
    rw [q9, get_write_other _ _ _ _ _ (show h3.next ≠ h2.next by omega), x8.get _ (show h3.next < h7.next by omega), G7 r hr i j]
  -- the sum
  refine alloc_bind _ _ _ _ Q fun h10 q10 => ?_
  have n10 : h10.next = h9.next + 1 := by rw [q10]; rfl
  have e10 : Ext h0 h10 := by rw [q10]; exact e9.push _ _
  refine reduce_bind L _ [batch * 2 ^ logN, C, C] 2 (by norm_num) rfl _ h0 h10 e10 Q fun h11 n11 x11 e11 g11 => ?_
  refine assign_bind _ _ _ _ Q fun h12 q12 => ?_
  have n12 : h12.next = h11.next := by rw [q12]; rfl
  have e12 : Ext h0 h12 := by rw [q12]; exact e11.write _ (show h0.next ≤ h2.next from e2.next) _
  have H12 : ∀ b < batch, ∀ n < 2 ^ logN, ∀ i j : Fin C, E.get h12 (tens h2.next [E.size, batch, 2 ^ logN, C, C]) [b, n, i, j] =
      LinearChain.masked S (N1 + 1) (2 ^ logN) (fun b => lens.getD b 0) (fun b n (i j : Fin C) => pot [b, n, i, j]) b n i j := by
    intro b hb n hn i j
    have hr : b * 2 ^ logN + n < batch * 2 ^ logN := by nlinarith [Nat.mul_le_mul_right (2 ^ logN) (Nat.succ_le_of_lt hb)]
    have hv : Valid [batch * 2 ^ logN, C, C] [b * 2 ^ logN + n, (i : ℕ), (j : ℕ)] := ⟨hr, i.2, j.2, trivial⟩
    rw [get_unflat _ _ _ _ _ _ _ _ _ _ _ hn, q12, get_assign_self L _ _ _ _ _ hv, g11 _ hv]
    simp only [LinearChain.masked, Struct.unflat, P.detach, P.setData]
    rw [show List.range 2 = [0, 1] from rfl, List.map_cons, List.map_cons, List.map_nil]
    have hm : ∀ r, mask [r, (i : ℕ), (j : ℕ)] = LinearChain.lengthMask (2 ^ logN) (fun b => lens.getD b 0) r := fun r => by rw [← hmask]; rfl
    have a1 := H9 _ hr i j
    have a2 := G9 _ hr i j
    rw [hm] at a1 a2
    rw [← a1, ← a2]
    congr 2
    · refine L.congr _ _ fun s hs => ?_
      rw [q10]
      exact read_push_new h9 _ _ [s, b * 2 ^ logN + n, i, j, 0] ⟨hs, hr, i.2, j.2, by norm_num, trivial⟩
    · congr 1
      refine L.congr _ _ fun s hs => ?_
      rw [q10]
      exact read_push_new h9 _ _ [s, b * 2 ^ logN + n, i, j, 1] ⟨hs, hr, i.2, j.2, by norm_num, trivial⟩
  -- the scan
  refine scan_bind L batch C hC _ h0 Q logN h2.next h12 _ e2.next (by omega) e12 H12 fun n' h13 a13 b13 e13 g13 => ?_
  have hsel : (tens n' [E.size, batch, 1, C, C]).select 2 0 = tens n' [E.size, batch, C, C] := by
    simp [select, tens, rowMajor]
  rw [hsel, bind_ok (contiguous_tens n' _ h13)]
  refine reduce_bind L _ [batch, C] C hC rfl _ h0 h13 e13 Q fun h14 n14 x14 e14 g14 => ?_
  refine reduce_run L _ [batch] C hC rfl h0 h14 e14 Q fun h15 n15 x15 e15 g15 => ?_
  refine (hQ' _).2 ⟨e15.data, e14.next, batch, rfl, ?_⟩
  simp only [LinearChain.logpartition, hlens, hlb]
  refine (if_pos hlen).trans (congrArg _ (List.map_congr_left fun b hb => ?_))
  have hb := List.mem_range.1 hb
  rw [g15 [b] ⟨hb, trivial⟩, LinearChain.core, LinearChain.total, List.ofFn_eq_map, ← List.map_coe_finRange_eq_range, List.map_map]
  refine congrArg S.sum (List.map_congr_left fun i _ => ?_)
  rw [List.ofFn_eq_map]
  refine Eq.trans ?_ (g14 [b, i] ⟨hb, i.2, trivial⟩).symm
  rw [← List.map_coe_finRange_eq_range, List.map_map]
  refine congrArg S.sum (List.map_congr_left fun j _ => ?_)
  rw [← g13 b hb i j]
  refine congrArg E.dec (funext fun s => ?_)
  rw [Heap.read, Heap.read]
  refine congrArg _ ?_
  simp [addr, tens, rowMajor]

end MemoryProofs
