import Verif.Proofs.TreeMemory
import Verif.Model.SemiMemory

/-! `SemiMarkov.logpartitionM` computes what `SemiMarkov.logpartition` computes, and leaves the existing storages alone. -/

open View HeapM

namespace MemoryProofs
variable {α γ : Type} {E : Layout α} {S : SR α} {ok : α → Prop}

theorem get_flat_gen (h : Heap) (n z a b r : ℕ) (ds ix : List ℕ) :
    E.get h (tens n (z :: a * b :: ds)) (r :: ix) = E.get h (tens n (z :: a :: b :: ds)) (r / b :: r % b :: ix) := by
  refine congrArg E.dec (funext fun s => ?_)
  rw [Heap.read, Heap.read]
  refine congrArg _ ?_
  have h1 : r * ds.prod = (b * (r / b) + r % b) * ds.prod := by rw [Nat.div_add_mod]
  simp only [addr_tens, ravel_cons, List.prod_cons]
  rw [h1]
  ring

theorem get_unflat_gen (h : Heap) (n z a b x y : ℕ) (ds ix : List ℕ) (hy : y < b) :
    E.get h (tens n (z :: a :: b :: ds)) (x :: y :: ix) = E.get h (tens n (z :: a * b :: ds)) ((x * b + y) :: ix) := by
  rw [get_flat_gen]
  congr 2
  · rw [Nat.mul_comm, Nat.mul_add_div (by omega), Nat.div_eq_of_lt hy]; simp
  · rw [Nat.mul_comm, Nat.mul_add_mod, Nat.mod_eq_of_lt hy]

/-- `t.contiguous()` for a tensor without an offset: `t` itself or a copy. -/
theorem contiguous_bind (L : Lawful E S ok) (t : View) (shape : List ℕ) (hs : t.shape = E.size :: shape) (ho : t.offset = 0) (k : View → HeapM γ)
    (h0 h : Heap) (e : Ext h0 h) (h0t : h0.next ≤ t.storage) (ht : t.storage < h.next) (Q : Except PyErr γ × Heap → Prop)
    (hk : ∀ n h', h0.next ≤ n → n < h'.next → Ext h0 h' → (∀ ix, Valid shape ix → E.get h' (tens n (E.size :: shape)) ix = E.get h t ix) →
      Q (k (tens n (E.size :: shape)) h')) : Q ((contiguous t >>= k) h) := by
  by_cases hc : t.strides = rowMajor t.shape
  · have e1 : t = tens t.storage (E.size :: shape) := by
      obtain ⟨s, o, sh, st⟩ := t
      subst hs ho
      change st = rowMajor (E.size :: shape) at hc
      subst hc
      rfl
    rw [contiguous, if_pos hc]
    have := hk t.storage h h0t ht e fun ix _ => by rw [← e1]
    rw [← e1] at this
    exact this
  · rw [contiguous, if_neg hc, hs]
    refine alloc_bind _ _ _ _ Q fun h1 q1 => ?_
    refine hk h.next h1 e.next (by rw [q1]; exact Nat.lt_succ_self _) (by rw [q1]; exact e.push _ _) fun ix hv => ?_
    refine L.congr _ _ fun s hs' => ?_
    rw [q1]
    exact read_push_new h _ _ (s :: ix) ⟨hs', hv⟩

/-- Column 0 of the chart. -/
theorem col_part (n z R a b c d : ℕ) (hb : 0 < b) :
    Part ((tens n [z, R, a, b, c, d]).select 3 0) n z [R, a, b, c, d] [R, a, c, d] fun ix => [ix.getD 0 0, ix.getD 1 0, 0, ix.getD 2 0, ix.getD 3 0] := by
  refine ⟨rfl, by simp [select, tens], ?_, ?_⟩
  · intro ix hv
    match ix, hv with
    | [r, i, j, l], hv => exact ⟨hv.1, hv.2.1, hb, hv.2.2⟩
  · intro s ix hv
    match ix, hv with
    | [r, i, j, l], hv =>
      simp [select, addr, tens, rowMajor, ravel]

theorem col_inj (R a c d : ℕ) : ∀ ix jx, Valid [R, a, c, d] ix → Valid [R, a, c, d] jx →
    [ix.getD 0 0, ix.getD 1 0, 0, ix.getD 2 0, ix.getD 3 0] = [jx.getD 0 0, jx.getD 1 0, 0, jx.getD 2 0, jx.getD 3 0] → ix = jx := by
  intro ix jx h1 h2 he
  match ix, h1, jx, h2 with
  | [r, i, j, l], h1, [r', i', j', l'], h2 => simpa using he

/-- A write to column 0 of the chart. -/
theorem get_write_col (L : Lawful E S ok) (h : Heap) (n R a b c d : ℕ) (x : View) (r i k j l : ℕ) (hr : r < R) (hi : i < a) (hk : k < b) (hj : j < c)
    (hl : l < d) : E.get (h.write ((tens n [E.size, R, a, b, c, d]).select 3 0) (h.read x)) (tens n [E.size, R, a, b, c, d]) [r, i, k, j, l] =
      if k = 0 then E.get h x [r, i, j, l] else E.get h (tens n [E.size, R, a, b, c, d]) [r, i, k, j, l] := by
  have p := col_part n E.size R a b c d (by omega)
  split_ifs with h0
  · subst h0
    exact p.write_hit L (col_inj R a c d) h x [r, i, j, l] ⟨hr, hi, hj, hl, trivial⟩
  · refine p.write_miss L h _ _ ⟨hr, hi, hk, hj, hl, trivial⟩ fun jx _ he => ?_
    simp only [List.cons.injEq] at he
    omega

theorem slice_all (n : ℕ) (z R a b c d : ℕ) : (tens n [z, R, a, b, c, d]).slice 2 0 a 1 = tens n [z, R, a, b, c, d] := by
  simp [slice, tens, rowMajor]

/-- The mask of lines 64-70. -/
theorem decMask_eq (slot : ℕ → Bool → Bool) (K : ℕ) (lens : ℕ → ℕ) (s b n k1 k2 c1 c2 : ℕ) (hk : k2 < K - 1) :
    SemiMarkov.decMask slot K lens s [b, n, k1, k2, c1, c2] = (decide (k1 + 1 = k2 ∧ c1 = c2) && slot s (decide (n + k2 < lens b))) := by
  unfold SemiMarkov.decMask
  simp only [List.getD_cons_succ, List.getD_cons_zero]
  by_cases h : k1 + 1 = k2 ∧ c1 = c2
  · obtain ⟨rfl, rfl⟩ := h
    have hd : decide ((n : ℤ) < (lens b : ℤ) - 1 - (((k1 + 1 : ℕ) : ℤ) - 1)) = decide (n + (k1 + 1) < lens b) := by
      refine decide_eq_decide.2 ?_
      omega
    rw [← hd]
    generalize hx : slot s (decide ((n : ℤ) < (lens b : ℤ) - 1 - (((k1 + 1 : ℕ) : ℤ) - 1))) = x
    cases x with
    | false =>
      rw [Bool.and_false, List.any_eq_false]
      intro i _ hc
      rw [Bool.and_eq_true, decide_eq_true_iff] at hc
      obtain ⟨⟨a1, a2, -⟩, a3⟩ := hc
      obtain rfl : i = k1 := by omega
      rw [hx] at a3
      exact absurd a3 (by simp)
    | true =>
      rw [Bool.and_true, decide_eq_true (by simp), List.any_eq_true]
      refine ⟨k1, List.mem_range.2 (by omega), ?_⟩
      rw [hx]
      simp
  · rw [decide_eq_false h, Bool.false_and, List.any_eq_false]
    intro i _ hc
    rw [Bool.and_eq_true, decide_eq_true_iff] at hc
    exact h ⟨by omega, hc.1.2.2⟩

/-- Lines 64-71: filling slot by slot is filling the whole entry. -/
theorem fillSlots_get (L : Lawful E S ok) (slot : ℕ → Bool → Bool) (h1 : ∀ m, slot 0 m = m)
    (h2 : ∀ s, 0 < s → s < E.size → E.enc S.one s = E.enc S.zero s) (h : Heap) (t : View) (K : ℕ) (lens : ℕ → ℕ) (b n k1 k2 c1 c2 : ℕ) (hk : k2 < K - 1)
    (x : α) (hx : E.get h t [b, n, k1, k2, c1, c2] = x) (hz : k1 + 1 = k2 → x = S.zero) :
    E.dec (fun s => if SemiMarkov.decMask slot K lens s [b, n, k1, k2, c1, c2] then E.enc S.one s else h.read t (s :: [b, n, k1, k2, c1, c2])) =
      SR.fill x (decide (k1 + 1 = k2 ∧ c1 = c2 ∧ n + k2 < lens b)) S.one := by
  simp only [decMask_eq slot K lens _ b n k1 k2 c1 c2 hk]
  by_cases hc : k1 + 1 = k2 ∧ c1 = c2
  · have hr : ∀ s < E.size, h.read t (s :: [b, n, k1, k2, c1, c2]) = E.enc S.zero s := by
      intro s hs
      rw [← hz hc.1, ← hx]
      exact (L.enc_dec (fun s => h.read t (s :: [b, n, k1, k2, c1, c2])) s hs).symm
    rw [decide_eq_true hc]
    by_cases hm : n + k2 < lens b
    · rw [decide_eq_true hm, decide_eq_true ⟨hc.1, hc.2, hm⟩]
      refine (L.read L.one fun s hs => ?_).trans rfl
      rw [hr s hs]
      rcases Nat.eq_zero_or_pos s with rfl | hp
      · simp [h1]
      · rw [h2 s hp hs]; simp
    · rw [decide_eq_false hm, decide_eq_false fun hh => hm hh.2.2, hz hc.1]
      refine (L.read L.zero fun s hs => ?_).trans rfl
      rw [hr s hs]
      rcases Nat.eq_zero_or_pos s with rfl | hp
      · simp [h1]
      · rw [h2 s hp hs]; simp
  · rw [decide_eq_false hc, decide_eq_false (p := k1 + 1 = k2 ∧ c1 = c2 ∧ n + k2 < lens b) fun hh => hc ⟨hh.1, hh.2.1⟩, ← hx]
    simp only [Bool.false_and, Bool.false_eq_true, if_false]
    rfl

theorem semi_run (L : Lawful E S ok) (P : LinearChainProofs.Plain S) (slot : ℕ → Bool → Bool) (hs1 : ∀ m, slot 0 m = m)
    (hs2 : ∀ s, 0 < s → s < E.size → E.enc S.one s = E.enc S.zero s) (h0 : Heap) (batch N1 K C C2 : ℕ) (hC : 0 < C) (convert : HeapM View)
    (lengths : Option (List ℕ)) (pot : List ℕ → α) (hc : Spec.Converts E h0 convert [batch, N1, K, C, C2] pot) :
    Spec.Answers E h0 (SemiMarkov.logpartitionM E S slot batch N1 K C C2 convert lengths h0)
      (SemiMarkov.logpartition S ⟨batch, N1, K, C, C2, fun b n k i j => pot [b, n, k, i, j]⟩ lengths) := by
  obtain ⟨t, h1, ec, ⟨en, ed⟩, ht, -, hpot⟩ := hc
  have e1 : Ext h0 h1 := ⟨en, ed⟩
  clear en ed
  unfold SemiMarkov.logpartitionM
  rw [bind_ok ec]
  generalize hQ : (fun r => Spec.Answers E h0 r (SemiMarkov.logpartition S ⟨batch, N1, K, C, C2, fun b n k i j => pot [b, n, k, i, j]⟩ lengths)) = Q
  have hQ' : ∀ r, Q r ↔ Spec.Answers E h0 r (SemiMarkov.logpartition S ⟨batch, N1, K, C, C2, fun b n k i j => pot [b, n, k, i, j]⟩ lengths) := fun r => by
    rw [← hQ]
  refine (hQ' _).1 ?_
  have hcheck : SemiMarkov.checkPotentials (P := Unit) ⟨batch, N1, K, C, C2, fun _ _ _ _ _ => ()⟩ lengths =
      SemiMarkov.checkPotentials (P := α) ⟨batch, N1, K, C, C2, fun b n k i j => pot [b, n, k, i, j]⟩ lengths := rfl
  refine lift_bind _ _ _ Q (fun e he => (hQ' _).2 ⟨e1.data, ?_⟩) fun lens hlens => ?_
  · rw [hcheck] at he
    simp only [SemiMarkov.logpartition, he]
    rfl
  rw [hcheck] at hlens
  have hCC : C = C2 := by
    unfold SemiMarkov.checkPotentials at hlens
    by_contra hne
    simp only [hne, if_false] at hlens
    split at hlens
    · exact absurd hlens (by simp)
    · split_ifs at hlens
  subst hCC
  refine lift_bind _ _ _ Q (fun e he => (hQ' _).2 ⟨e1.data, ?_⟩) fun lb hlb => ?_
  · simp only [SemiMarkov.logpartition, hlens, he]
    rfl
  obtain ⟨logN, binN⟩ := lb
  simp only
  obtain ⟨rfl, hN, hlog⟩ := binLength_pow hlb
  have hp : 0 < 2 ^ logN := Nat.pow_pos (by norm_num)
  by_cases hK0 : K = 0
  · rw [if_pos hK0]
    refine (hQ' _).2 ⟨e1.data, ?_⟩
    simp only [SemiMarkov.logpartition, hlens, hlb]
    exact if_pos hK0
  rw [if_neg hK0]
  -- the chart
  refine makeChart_bind L _ _ h0 h1 e1 Q fun h2 n2 x2 e2 g2 => ?_
  by_cases hK1 : K - 1 = 0
  · rw [if_pos hK1]
    refine (hQ' _).2 ⟨e2.data, ?_⟩
    simp only [SemiMarkov.logpartition, hlens, hlb]
    exact (if_neg hK0).trans (dif_neg (by omega))
  rw [if_neg hK1]
  have hK : 0 < K - 1 := Nat.pos_of_ne_zero hK1
  obtain ⟨k, rfl⟩ : ∃ k, K = k + 1 := ⟨K - 1, by omega⟩
  simp only [Nat.add_sub_cancel] at hK g2 ⊢
  clear hK0 hK1
  refine put_bind L [batch, 2 ^ logN, k, k, C, C] (fun h ix => SR.fill (E.get h (tens h1.next [E.size, batch, 2 ^ logN, k, k, C, C]) ix)
    (SemiMarkov.startMask ix) S.one) _ h0 h2 e2 (fun ix _ => ok_fill _ (L.ok_get _ _ _) L.one) Q fun h3 n3 x3 e3 g3 => ?_
  have G3 : ∀ r < batch * 2 ^ logN, ∀ k1 < k, ∀ k2 < k, ∀ i < C, ∀ j < C, E.get h3 (tens h2.next [E.size, batch * 2 ^ logN, k, k, C, C]) [r, k1, k2, i, j] =
      Struct.flat (2 ^ logN) (SemiMarkov.chartInit S) r k1 k2 i j := by
    intro r hr k1 hk1 k2 hk2 i hi j hj
    have hb : r / 2 ^ logN < batch := Nat.div_lt_of_lt_mul (by rw [Nat.mul_comm]; exact hr)
    have hv : Valid [batch, 2 ^ logN, k, k, C, C] [r / 2 ^ logN, r % 2 ^ logN, k1, k2, i, j] := ⟨hb, Nat.mod_lt _ hp, hk1, hk2, hi, hj, trivial⟩
    rw [get_flat_gen, g3 _ hv, g2 _ hv]
    rfl
  clear g3 g2
  -- the table of potentials
  refine alloc_bind _ _ _ _ Q fun h4 q4 => ?_
  refine assign_bind _ _ _ _ Q fun h5 q5 => ?_
  have n4 : h4.next = h3.next + 1 := by rw [q4]; rfl
  have n5 : h5.next = h4.next := by rw [q5]; rfl
  have x4 : Ext h3 h4 := by rw [q4]; exact (Ext.refl h3).push _ _
  have x5 : Ext h3 h5 := by rw [q5]; exact x4.write _ le_rfl _
  have e5 : Ext h0 h5 := e3.trans x5
  have G5 : ∀ r < batch * 2 ^ logN, ∀ k1 < k + 1, ∀ i < C, ∀ j < C, E.get h5 (tens h3.next [E.size, batch * 2 ^ logN, k + 1, C, C]) [r, k1, i, j] =
      Struct.flat (2 ^ logN) (SemiMarkov.big S (N1 + 1) fun b n k i j => pot [b, n, k, i, j]) r k1 i j := by
    intro r hr k1 hk1 i hi j hj
    have hb : r / 2 ^ logN < batch := Nat.div_lt_of_lt_mul (by rw [Nat.mul_comm]; exact hr)
    have hn : r % 2 ^ logN < 2 ^ logN := Nat.mod_lt _ hp
    rw [get_flat_gen, Struct.flat, SemiMarkov.big, Nat.add_sub_cancel]
    generalize r / 2 ^ logN = b at hb
    generalize r % 2 ^ logN = n at hn
    have ps : Part ((tens h3.next [E.size, batch, 2 ^ logN, k + 1, C, C]).slice 2 0 N1 1) h3.next E.size [batch, 2 ^ logN, k + 1, C, C]
        [batch, N1, k + 1, C, C] id := by
      refine ⟨rfl, by simp [slice, tens], ?_, ?_⟩
      · intro ix hv
        match ix, hv with
        | [b, n, k1, i, j], hv => exact ⟨hv.1, lt_of_lt_of_le hv.2.1 hN, hv.2.2⟩
      · intro s ix hv
        rw [← addr_tens h3.next]
        match ix, hv with
        | [b, n, k1, i, j], hv => simp [slice, addr, tens, rowMajor]
    split_ifs with hlt
    · rw [← hpot [b, n, k1, i, j] ⟨hb, hlt, hk1, hi, hj, trivial⟩, ← (x2.trans (x3.trans x4)).get (E := E) t ht, q5]
      exact ps.write_hit L (fun _ _ _ _ he => he) h4 t [b, n, k1, i, j] ⟨hb, hlt, hk1, hi, hj, trivial⟩
    · rw [← L.raw0, q5, ps.write_miss L h4 _ [b, n, k1, i, j] ⟨hb, hn, hk1, hi, hj, trivial⟩ ?_]
      · refine L.congr _ _ fun s hs' => ?_
        rw [q4]
        exact read_push_new h3 _ _ [s, b, n, k1, i, j] ⟨hs', hb, hn, hk1, hi, hj, trivial⟩
      · rintro jx hj' rfl
        exact hlt hj'.2.1
  have H5 : ∀ r < batch * 2 ^ logN, ∀ k1 < k, ∀ k2 < k, ∀ i < C, ∀ j < C, E.get h5 (tens h2.next [E.size, batch * 2 ^ logN, k, k, C, C]) [r, k1, k2, i, j] =
      Struct.flat (2 ^ logN) (SemiMarkov.chartInit S) r k1 k2 i j := fun r hr k1 hk1 k2 hk2 i hi j hj => by
    rw [x5.get _ (show h2.next < h3.next by omega), G3 r hr k1 hk1 k2 hk2 i hi j hj]
  -- the views
  rw [bind_ok (view_tens h2.next [E.size, batch, 2 ^ logN, k, k, C, C] [E.size, batch * 2 ^ logN, k, k, C, C]
      (by simp only [List.prod_cons, List.prod_nil]; ring) h5),
    bind_ok (view_tens h3.next [E.size, batch, 2 ^ logN, k + 1, C, C] [E.size, batch * 2 ^ logN, k + 1, C, C]
      (by simp only [List.prod_cons, List.prod_nil]; ring) h5)]
  have hans : SemiMarkov.logpartition S ⟨batch, N1, k + 1, C, C, fun b n k i j => pot [b, n, k, i, j]⟩ lengths =
      if lens.length = batch then .ok ((List.range batch).map fun b => SemiMarkov.core S C hK (N1 + 1) logN (fun b => lens.getD b 0)
        (fun b n k i j => pot [b, n, k, i, j]) b) else .error .runtime := by
    simp only [SemiMarkov.logpartition, hlens, hlb]
    exact (if_neg (t := Except.error PyErr.runtime) (Nat.succ_ne_zero k)).trans (dif_pos (show 0 < k + 1 - 1 by omega))
  by_cases hlen : lens.length = batch
  swap
  · rw [if_pos hlen]
    refine (hQ' _).2 ⟨e5.data, ?_⟩
    rw [hans, if_neg hlen]
    rfl
  rw [if_pos hlen] at hans
  rw [if_neg (not_not.2 hlen)]
  generalize hmask : (LinearChain.rowMask (2 ^ logN) fun b => lens.getD b 0) = mask
  have hm : ∀ r l, mask (r :: l) = LinearChain.lengthMask (2 ^ logN) (fun b => lens.getD b 0) r := fun r l => by rw [← hmask]; rfl
  -- the masks
  refine put_bind L [batch * 2 ^ logN, k + 1, C, C] (fun h ix => SR.fill (E.get h (tens h3.next [E.size, batch * 2 ^ logN, k + 1, C, C]) ix) (mask ix) S.zero)
    _ h0 h5 e5 (fun ix _ => ok_fill _ (L.ok_get _ _ _) L.zero) Q fun h6 n6 x6 e6 g6 => ?_
  refine assign_bind _ _ _ _ Q fun h7 q7 => ?_
  have n7 : h7.next = h6.next := by rw [q7]; rfl
  have e7 : Ext h0 h7 := by rw [q7]; exact e6.write _ e3.next _
  have G7 : ∀ r < batch * 2 ^ logN, ∀ k1 < k + 1, ∀ i < C, ∀ j < C, E.get h7 (tens h3.next [E.size, batch * 2 ^ logN, k + 1, C, C]) [r, k1, i, j] =
      SR.fill (Struct.flat (2 ^ logN) (SemiMarkov.big S (N1 + 1) fun b n k i j => pot [b, n, k, i, j]) r k1 i j)
        (LinearChain.lengthMask (2 ^ logN) (fun b => lens.getD b 0) r) S.zero := by
    intro r hr k1 hk1 i hi j hj
    have hv : Valid [batch * 2 ^ logN, k + 1, C, C] [r, k1, i, j] := ⟨hr, hk1, hi, hj, trivial⟩
    rw [q7, get_assign_self L _ _ _ _ _ hv, g6 _ hv, G5 r hr k1 hk1 i hi j hj, hm]
  have H7 : ∀ r < batch * 2 ^ logN, ∀ k1 < k, ∀ k2 < k, ∀ i < C, ∀ j < C, E.get h7 (tens h2.next [E.size, batch * 2 ^ logN, k, k, C, C]) [r, k1, k2, i, j] =
      Struct.flat (2 ^ logN) (SemiMarkov.chartInit S) r k1 k2 i j := by
    intro r hr k1 hk1 k2 hk2 i hi j hj
    rw [q7, get_write_other _ _ _ _ _ (show h2.next ≠ h3.next by omega), x6.get _ (show h2.next < h5.next by omega), H5 r hr k1 hk1 k2 hk2 i hi j hj]
  have pc := col_part h2.next E.size (batch * 2 ^ logN) k k C C hK
  have hcs : ((tens h2.next [E.size, batch * 2 ^ logN, k, k, C, C]).select 3 0).shape = E.size :: [batch * 2 ^ logN, k, C, C] := pc.shape_eq
  unfold Layout.fill
  rw [hcs]
  refine put_bind L [batch * 2 ^ logN, k, C, C] (fun h ix => SR.fill (E.get h ((tens h2.next [E.size, batch * 2 ^ logN, k, k, C, C]).select 3 0) ix)
    (!mask ix) S.zero) _ h0 h7 e7 (fun ix _ => ok_fill _ (L.ok_get _ _ _) L.zero) Q fun h8 n8 x8 e8 g8 => ?_
  refine assign_bind _ _ _ _ Q fun h9 q9 => ?_
  have n9 : h9.next = h8.next := by rw [q9]; rfl
  have e9 : Ext h0 h9 := by rw [q9]; exact e8.write _ (show h0.next ≤ h2.next from e2.next) _
  have H9 : ∀ r < batch * 2 ^ logN, ∀ k1 < k, ∀ k2 < k, ∀ i < C, ∀ j < C, E.get h9 (tens h2.next [E.size, batch * 2 ^ logN, k, k, C, C]) [r, k1, k2, i, j] =
      if k2 = 0 then SR.fill (Struct.flat (2 ^ logN) (SemiMarkov.chartInit S) r k1 k2 i j)
        (!LinearChain.lengthMask (2 ^ logN) (fun b => lens.getD b 0) r) S.zero else Struct.flat (2 ^ logN) (SemiMarkov.chartInit S) r k1 k2 i j := by
    intro r hr k1 hk1 k2 hk2 i hi j hj
    rw [q9, get_write_col L _ _ _ _ _ _ _ _ _ _ _ _ _ hr hk1 hk2 hi hj]
    split_ifs with hz
    · subst hz
      have hv : Valid [batch * 2 ^ logN, k, C, C] [r, k1, i, j] := ⟨hr, hk1, hi, hj, trivial⟩
      rw [g8 _ hv, hm, pc.get _ _ hv]
      exact congrArg (fun x => SR.fill x _ S.zero) (H7 r hr k1 hk1 0 hk2 i hi j hj)
    · rw [x8.get _ (show h2.next < h7.next by omega), H7 r hr k1 hk1 k2 hk2 i hi j hj]
  have G9 : ∀ r < batch * 2 ^ logN, ∀ k1 < k + 1, ∀ i < C, ∀ j < C, E.get h9 (tens h3.next [E.size, batch * 2 ^ logN, k + 1, C, C]) [r, k1, i, j] =
      SR.fill (Struct.flat (2 ^ logN) (SemiMarkov.big S (N1 + 1) fun b n k i j => pot [b, n, k, i, j]) r k1 i j)
        (LinearChain.lengthMask (2 ^ logN) (fun b => lens.getD b 0) r) S.zero := by
    intro r hr k1 hk1 i hi j hj
    rw [q9, get_write_other _ _ _ _ _ (show h3.next ≠ h2.next by omega), x8.get _ (show h3.next < h7.next by omega), G7 r hr k1 hk1 i hi j hj]
  clear H7 G7 H5 G5 G3
  -- the sum
  rw [slice_all]
  unfold stack
  rw [hcs]
  refine alloc_bind _ _ _ _ Q fun h10 q10 => ?_
  have n10 : h10.next = h9.next + 1 := by rw [q10]; rfl
  have e10 : Ext h0 h10 := by rw [q10]; exact e9.push _ _
  refine reduce_bind L _ [batch * 2 ^ logN, k, C, C] 2 (by norm_num) rfl _ h0 h10 e10 Q fun h11 n11 x11 e11 g11 => ?_
  refine assign_bind _ _ _ _ Q fun h12 q12 => ?_
  have n12 : h12.next = h11.next := by rw [q12]; rfl
  have e12 : Ext h0 h12 := by rw [q12]; exact e11.write _ (show h0.next ≤ h2.next from e2.next) _
  have H12 : ∀ b < batch, ∀ n < 2 ^ logN, ∀ k1 < k, ∀ k2 < k, ∀ i < C, ∀ j < C,
      E.get h12 (tens h2.next [E.size, batch, 2 ^ logN, k, k, C, C]) [b, n, k1, k2, i, j] =
      SemiMarkov.written S (N1 + 1) (2 ^ logN) (fun b => lens.getD b 0) (fun b n k i j => pot [b, n, k, i, j]) b n k1 k2 i j := by
    intro b hb n hn k1 hk1 k2 hk2 i hi j hj
    have hr : b * 2 ^ logN + n < batch * 2 ^ logN := by nlinarith [Nat.mul_le_mul_right (2 ^ logN) (Nat.succ_le_of_lt hb)]
    rw [get_unflat_gen _ _ _ _ _ _ _ _ _ hn, q12, get_write_col L _ _ _ _ _ _ _ _ _ _ _ _ _ hr hk1 hk2 hi hj]
    simp only [SemiMarkov.written, Struct.unflat, P.detach, P.setData]
    have a1 := H9 _ hr k1 hk1 k2 hk2 i hi j hj
    split_ifs with hz
    · subst hz
      rw [if_pos rfl] at a1
      have a2 := G9 _ hr (k1 + 1) (by omega) i hi j hj
      have hv : Valid [batch * 2 ^ logN, k, C, C] [b * 2 ^ logN + n, k1, i, j] := ⟨hr, hk1, hi, hj, trivial⟩
      rw [g11 _ hv, show List.range 2 = [0, 1] from rfl, List.map_cons, List.map_cons, List.map_nil, ← a1, ← a2]
      congr 2
      · refine Eq.trans ?_ (pc.get h9 _ hv)
        refine L.congr _ _ fun s hs => ?_
        rw [q10]
        exact read_push_new h9 _ _ [s, b * 2 ^ logN + n, k1, i, j, 0] ⟨hs, hr, hk1, hi, hj, by norm_num, trivial⟩
      · congr 1
        have : E.get h9 (tens h3.next [E.size, batch * 2 ^ logN, k + 1, C, C]) [b * 2 ^ logN + n, k1 + 1, i, j] =
            E.get h9 ((tens h3.next [E.size, batch * 2 ^ logN, k + 1, C, C]).slice 2 1 (k + 1) 1) [b * 2 ^ logN + n, k1, i, j] := by
          refine congrArg E.dec (funext fun s => ?_)
          rw [Heap.read, Heap.read]
          refine congrArg _ ?_
          simp [slice, addr, tens, rowMajor]
          ring
        rw [this]
        refine L.congr _ _ fun s hs => ?_
        rw [q10]
        exact read_push_new h9 _ _ [s, b * 2 ^ logN + n, k1, i, j, 1] ⟨hs, hr, hk1, hi, hj, by norm_num, trivial⟩
    · rw [x11.get _ (show h2.next < h10.next by omega), q10, get_push_old _ _ _ _ (show h2.next < h9.next by omega), a1, if_neg hz]
  -- the steps inside a segment
  unfold SemiMarkov.fillSlots
  refine alloc_bind _ _ _ _ Q fun h13 q13 => ?_
  have n13 : h13.next = h12.next + 1 := by rw [q13]; rfl
  have e13 : Ext h0 h13 := by rw [q13]; exact e12.push _ _
  have H13 : ∀ b < batch, ∀ n < 2 ^ logN, ∀ k1 < k, ∀ k2 < k, ∀ i < C, ∀ j < C,
      E.get h13 (tens h12.next [E.size, batch, 2 ^ logN, k, k, C, C]) [b, n, k1, k2, i, j] =
      SemiMarkov.decremented S (fun b => lens.getD b 0)
        (SemiMarkov.written S (N1 + 1) (2 ^ logN) (fun b => lens.getD b 0) (fun b n k i j => pot [b, n, k, i, j])) b n k1 k2 i j := by
    intro b hb n hn k1 hk1 k2 hk2 i hi j hj
    rw [SemiMarkov.decremented, ← fillSlots_get L slot hs1 hs2 h12 _ (k + 1) (fun b => lens.getD b 0) b n k1 k2 i j hk2 _
      (H12 b hb n hn k1 hk1 k2 hk2 i hi j hj)]
    · refine L.congr _ _ fun s hs => ?_
      rw [q13]
      exact read_push_new h12 _ _ [s, b, n, k1, k2, i, j] ⟨hs, hb, hn, hk1, hk2, hi, hj, trivial⟩
    · rintro rfl
      simp only [SemiMarkov.written, Struct.unflat, Struct.flat, SemiMarkov.chartInit, SR.fill]
      simp
  -- the chart of the scan
  have hprm : ((tens h12.next [E.size, batch, 2 ^ logN, k, k, C, C]).permute [0, 1, 2, 3, 5, 4, 6]).shape =
      E.size :: [batch, 2 ^ logN, k, C, k, C] := rfl
  refine contiguous_bind L _ [batch, 2 ^ logN, k, C, k, C] hprm rfl _ h0 h13 e13 e12.next (show h12.next < h13.next by omega) Q
    fun n14 h14 a14 b14 e14 g14 => ?_
  rw [bind_ok (view_tens n14 [E.size, batch, 2 ^ logN, k, C, k, C] [E.size, batch, 2 ^ logN, k * C, k * C]
      (by simp only [List.prod_cons, List.prod_nil]; ring) h14)]
  have hkC : 0 < k * C := Nat.mul_pos hK hC
  refine scan_bind L batch (k * C) hkC _ h0 Q logN n14 h14
    (SemiMarkov.chart S k C (N1 + 1) (2 ^ logN) (fun b => lens.getD b 0) (fun b n k i j => pot [b, n, k, i, j])) a14 b14 e14 ?_
    fun n' h15 a15 b15 e15 g15 => ?_
  · intro b hb n hn i j
    have hi := i.divNat.2
    have hj := j.divNat.2
    have hi' := i.modNat.2
    have hj' := j.modNat.2
    rw [SemiMarkov.chart, ← H13 b hb n hn _ hi _ hj _ hi' _ hj']
    refine Eq.trans ?_ ((g14 [b, n, i.divNat, i.modNat, j.divNat, j.modNat] ⟨hb, hn, hi, hi', hj, hj', trivial⟩).trans ?_)
    · refine congrArg E.dec (funext fun s => ?_)
      rw [Heap.read, Heap.read]
      refine congrArg _ ?_
      simp only [addr_tens, ravel_cons, List.prod_cons, List.prod_nil, Fin.coe_divNat, Fin.coe_modNat]
      have c1 : (i : ℕ) * (k * C) = (C * ((i : ℕ) / C) + (i : ℕ) % C) * (k * C) := by rw [Nat.div_add_mod]
      have c2 : (j : ℕ) * 1 = C * ((j : ℕ) / C) + (j : ℕ) % C := by rw [Nat.div_add_mod, Nat.mul_one]
      have c3 : (i : ℕ) * (k * C * 1) = (i : ℕ) * (k * C) := by rw [Nat.mul_one]
      rw [c2, c3, c1]
      ring
    · refine congrArg E.dec (funext fun s => ?_)
      rw [Heap.read, Heap.read]
      refine congrArg _ ?_
      simp [addr, permute, tens, rowMajor]
      ring
  -- the end
  rw [bind_ok (view_tens n' [E.size, batch, 1, k * C, k * C] [E.size, batch, k, C, k, C] (by simp only [List.prod_cons, List.prod_nil]; ring) h15)]
  have hfin : (((tens n' [E.size, batch, k, C, k, C]).select 2 0).select 3 0).shape = E.size :: [batch, C, C] := rfl
  refine contiguous_bind L _ [batch, C, C] hfin (by simp [select, tens]) _ h0 h15 e15 a15 b15 Q fun n16 h16 a16 b16 e16 g16 => ?_
  refine reduce_bind L _ [batch, C] C hC rfl _ h0 h16 e16 Q fun h17 n17 x17 e17 g17 => ?_
  refine reduce_run L _ [batch] C hC rfl h0 h17 e17 Q fun h18 n18 x18 e18 g18 => ?_
  refine (hQ' _).2 ⟨e18.data, e17.next, batch, rfl, ?_⟩
  rw [hans]
  refine congrArg _ (List.map_congr_left fun b hb => ?_)
  have hb := List.mem_range.1 hb
  rw [g18 [b] ⟨hb, trivial⟩, SemiMarkov.core, SemiMarkov.total, List.ofFn_eq_map, ← List.map_coe_finRange_eq_range, List.map_map]
  refine congrArg S.sum (List.map_congr_left fun i _ => ?_)
  rw [List.ofFn_eq_map]
  refine Eq.trans ?_ (g17 [b, i] ⟨hb, i.2, trivial⟩).symm
  rw [← List.map_coe_finRange_eq_range, List.map_map]
  refine congrArg S.sum (List.map_congr_left fun j _ => ?_)
  rw [← g15 b hb]
  refine Eq.trans ?_ (g16 [b, i, j] ⟨hb, i.2, j.2, trivial⟩).symm
  refine congrArg E.dec (funext fun s => ?_)
  rw [Heap.read, Heap.read]
  refine congrArg _ ?_
  simp [addr, select, tens, rowMajor]
  ring

end MemoryProofs
