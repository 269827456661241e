import Verif.Proofs.Strides
import Verif.Props.LinearChainValue
import Mathlib.Tactic.IntervalCases

/-! Property theorems about the memory layout of the potentials (C86). -/

namespace Props.MemoryLayout
open Strides

/-- **C86.** Contiguous potentials and events (with any number of sample dimensions): `log_prob` is what `StructDistribution.logProb` says. -/
theorem log_prob_contiguous {R : Type} (A : Arith R) (p : Tensor R) (partition : Except PyErr (Tensor R)) (value : Tensor R) (samples : List ℕ)
    (hv : value.shape = samples ++ p.shape) (hpos : ∀ x ∈ value.shape, 1 ≤ x) :
    logProb A p (contiguous p.shape).strides partition value (contiguous value.shape).strides = StructDistribution.logProb A p partition value := by
  rw [logProb, contiguous_eta, contiguous_eta, hv, score_contiguous (by rw [← hv]; exact hpos)]
  rfl

theorem score_error {R : Type} (A : Arith R) (p : Tensor R) (st : List ℕ) (partition : Except PyErr (Tensor R)) (value : Tensor R) (vst : List ℕ)
    (h : score ⟨p.shape, st⟩ ⟨value.shape, vst⟩ (value.shape.length - p.shape.tail.length) = .error .runtime) :
    logProb A p st partition value vst = .error .runtime := by
  rw [logProb, h]
  rfl

theorem swap_before {shape : List ℕ} {d0 d1 : ℕ} {st : List ℕ} {rest : List (List ℕ)} (h0 : 0 < st.getD d0 0) (h : st.getD d0 0 < st.getD d1 0) :
    shouldSwap shape d0 d1 (st :: rest) = .before := by
  simp only [shouldSwap]
  rw [if_neg (by omega), if_pos h]

theorem swap_after {shape : List ℕ} {d0 d1 : ℕ} {st : List ℕ} {rest : List (List ℕ)} (h0 : 0 < st.getD d1 0) (h : st.getD d1 0 < st.getD d0 0) :
    shouldSwap shape d0 d1 (st :: rest) = .after := by
  simp only [shouldSwap]
  rw [if_neg (by omega), if_neg (by omega), if_pos h]

theorem swap_skip {shape : List ℕ} {d0 d1 : ℕ} {st : List ℕ} {rest : List (List ℕ)} (h : st.getD d0 0 = 0 ∨ st.getD d1 0 = 0) :
    shouldSwap shape d0 d1 (st :: rest) = shouldSwap shape d0 d1 rest := by
  simp only [shouldSwap]
  rw [if_pos h]

theorem takeView_ge (numel : ℕ) : ∀ (l : List ℕ) (v : ℕ), (∀ x ∈ l, 1 ≤ x) → v ≤ (takeView numel v l).1
  | [], _, _ => le_rfl
  | s :: l, v, h => by
    rw [takeView]
    split_ifs
    · exact (Nat.le_mul_of_pos_right v (h s List.mem_cons_self)).trans (takeView_ge numel l (v * s) fun x hx => h x (List.mem_cons_of_mem _ hx))
    · exact le_rfl

/-- The last dimension of the new shape is larger than the last chunk of the tensor, which has at least two entries. -/
theorem compat_false {base numel n st : ℕ} {old : List (ℕ × ℕ)} {m : ℕ} {new : List ℕ} (h1 : 2 ≤ numel) (hn : n ≠ 1) (hst : st ≠ numel * base) (hm : numel < m)
    (hnew : ∀ x ∈ new, 1 ≤ x) : compat base numel ((n, st) :: old) (m :: new) = false := by
  rw [compat, if_pos ⟨hn, hst⟩]
  have : m ≤ (takeView numel 1 (m :: new)).1 := by
    rw [takeView, if_pos (Or.inl (by omega)), one_mul]
    exact takeView_ge _ _ _ hnew
  have hne : (takeView numel 1 (m :: new)).1 ≠ numel := by omega
  simp [hne]

theorem score_transposed (b n c : ℕ) (hb : 1 ≤ b) (hn : 2 ≤ n) (hc : 2 ≤ c) (vst : List ℕ) (hv : vst.length = 4) :
    score ((contiguous [b, n, c, c]).transpose 2 3) ⟨[b, n, c, c], vst⟩ 1 = .error .runtime := by
  obtain ⟨v0, v1, v2, v3, rfl⟩ : ∃ v0 v1 v2 v3, vst = [v0, v1, v2, v3] := by
    match vst, hv with
    | [v0, v1, v2, v3], _ => exact ⟨v0, v1, v2, v3, rfl⟩
  have h1 : c < c * c := by nlinarith
  have h2 : c * c < n * (c * c) := by nlinarith
  have hord : order [b, n, c, c] [[n * (c * c), c * c, 1, c], [v0, v1, v2, v3]] = [2, 3, 1, 0] := by
    have s32 : shouldSwap [b, n, c, c] 3 2 [[n * (c * c), c * c, 1, c], [v0, v1, v2, v3]] = .after := swap_after one_pos (show 1 < c by omega)
    have s31 : shouldSwap [b, n, c, c] 3 1 [[n * (c * c), c * c, 1, c], [v0, v1, v2, v3]] = .before := swap_before (show 0 < c by omega) h1
    have s10 : shouldSwap [b, n, c, c] 1 0 [[n * (c * c), c * c, 1, c], [v0, v1, v2, v3]] = .before := swap_before (show 0 < c * c by omega) h2
    simp [order, sink, List.range_succ, s32, s31, s10]
  have hdims : Tensor.dims [c, c, n, b] [c, c, n, b] = .ok [c, c, n, b] := dims_suffix [c, c, n, b] []
  have hb1 : bcast ⟨[b, n, c, c], [n * (c * c), c * c, 1, c]⟩ [b, n, c, c] = [n * (c * c), c * c, 1, c] := bcast_suffix [b, n, c, c] [] _ rfl
  have hb2 : bcast ⟨[b, n, c, c], [v0, v1, v2, v3]⟩ [b, n, c, c] = [v0, v1, v2, v3] := bcast_suffix [b, n, c, c] [] _ rfl
  have hl : (contiguous [b, n, c, c]).transpose 2 3 = ⟨[b, n, c, c], [n * (c * c), c * c, 1, c]⟩ := by simp [contiguous, Lay.transpose]
  have hel : elementwise ⟨[b, n, c, c], [n * (c * c), c * c, 1, c]⟩ ⟨[b, n, c, c], [v0, v1, v2, v3]⟩ =
      .ok ⟨[b, n, c, c], [c * (c * n), c * c, 1, c]⟩ := by
    simp only [elementwise, List.reverse_cons, List.reverse_nil, List.nil_append, List.cons_append, hdims]
    show Except.ok (Lay.mk _ _) = _
    simp only [List.reverse_cons, List.reverse_nil, List.nil_append, List.cons_append, hb1, hb2, hord]
    simp [dense, List.range_succ, List.takeWhile]
  rw [hl, score, hel]
  show view _ _ = _
  rw [view, if_neg]
  have hm : c < n * (c * c) := by omega
  have := compat_false (base := c) (numel := c) (n := c) (st := 1) (old := [(n, c * c), (b, c * (c * n))]) (m := n * (c * c)) (new := [b])
    hc (by omega) (by omega) hm (by simpa using hb)
  simp [canView, this]

theorem four {vst : List ℕ} (hv : vst.length = 4) : ∃ v0 v1 v2 v3, vst = [v0, v1, v2, v3] := by
  match vst, hv with
  | [v0, v1, v2, v3], _ => exact ⟨v0, v1, v2, v3, rfl⟩

theorem score_time_major (b n c : ℕ) (hb : 2 ≤ b) (hn : 2 ≤ n) (hc : 2 ≤ c) (vst : List ℕ) (hv : vst.length = 4) :
    score ((contiguous [n, b, c, c]).transpose 0 1) ⟨[b, n, c, c], vst⟩ 1 = .error .runtime := by
  obtain ⟨v0, v1, v2, v3, rfl⟩ := four hv
  have h1 : c < c * c := by nlinarith
  have h2 : c * c < b * (c * c) := by nlinarith
  have h3 : c * c < n * (c * c) := by nlinarith
  have hord : order [b, n, c, c] [[c * c, b * (c * c), c, 1], [v0, v1, v2, v3]] = [3, 2, 0, 1] := by
    have s32 : shouldSwap [b, n, c, c] 3 2 [[c * c, b * (c * c), c, 1], [v0, v1, v2, v3]] = .before := swap_before one_pos (show 1 < c by omega)
    have s21 : shouldSwap [b, n, c, c] 2 1 [[c * c, b * (c * c), c, 1], [v0, v1, v2, v3]] = .before :=
      swap_before (show 0 < c by omega) (show c < b * (c * c) by omega)
    have s10 : shouldSwap [b, n, c, c] 1 0 [[c * c, b * (c * c), c, 1], [v0, v1, v2, v3]] = .after := swap_after (show 0 < c * c by omega) h2
    have s20 : shouldSwap [b, n, c, c] 2 0 [[c * c, b * (c * c), c, 1], [v0, v1, v2, v3]] = .before := swap_before (show 0 < c by omega) h1
    simp [order, sink, List.range_succ, s32, s21, s10, s20]
  have hdims : Tensor.dims [c, c, n, b] [c, c, n, b] = .ok [c, c, n, b] := dims_suffix [c, c, n, b] []
  have hb1 : bcast ⟨[b, n, c, c], [c * c, b * (c * c), c, 1]⟩ [b, n, c, c] = [c * c, b * (c * c), c, 1] := bcast_suffix [b, n, c, c] [] _ rfl
  have hb2 : bcast ⟨[b, n, c, c], [v0, v1, v2, v3]⟩ [b, n, c, c] = [v0, v1, v2, v3] := bcast_suffix [b, n, c, c] [] _ rfl
  have hl : (contiguous [n, b, c, c]).transpose 0 1 = ⟨[b, n, c, c], [c * c, b * (c * c), c, 1]⟩ := by simp [contiguous, Lay.transpose]
  have hel : elementwise ⟨[b, n, c, c], [c * c, b * (c * c), c, 1]⟩ ⟨[b, n, c, c], [v0, v1, v2, v3]⟩ =
      .ok ⟨[b, n, c, c], [c * c, c * (c * b), c, 1]⟩ := by
    simp only [elementwise, List.reverse_cons, List.reverse_nil, List.nil_append, List.cons_append, hdims]
    show Except.ok (Lay.mk _ _) = _
    simp only [List.reverse_cons, List.reverse_nil, List.nil_append, List.cons_append, hb1, hb2, hord]
    simp [dense, List.range_succ, List.takeWhile]
  rw [hl, score, hel]
  show view _ _ = _
  rw [view, if_neg]
  have hm : c * (c * b) ≠ c * c * 1 := by nlinarith
  have := compat_false (base := 1) (numel := c * c) (n := n) (st := c * (c * b)) (old := [(b, c * c)]) (m := n * (c * c)) (new := [b])
    (by omega) (by omega) hm h3 (by intro x hx; simp at hx; omega)
  have : compat 1 c [(c, c), (n, c * (c * b)), (b, c * c)] [n * (c * c), b] = false := by rw [compat, if_neg (by simp), this]
  simp [canView, this]

theorem score_arcs_transposed (b n : ℕ) (hb : 1 ≤ b) (hn : 2 ≤ n) (vst : List ℕ) (hv : vst.length = 3) :
    score ((contiguous [b, n, n]).transpose 1 2) ⟨[b, n, n], vst⟩ 1 = .error .runtime := by
  obtain ⟨v0, v1, v2, rfl⟩ : ∃ v0 v1 v2, vst = [v0, v1, v2] := by
    match vst, hv with
    | [v0, v1, v2], _ => exact ⟨v0, v1, v2, rfl⟩
  have h1 : n < n * n := by nlinarith
  have hord : order [b, n, n] [[n * n, 1, n], [v0, v1, v2]] = [1, 2, 0] := by
    have s21 : shouldSwap [b, n, n] 2 1 [[n * n, 1, n], [v0, v1, v2]] = .after := swap_after one_pos (show 1 < n by omega)
    have s20 : shouldSwap [b, n, n] 2 0 [[n * n, 1, n], [v0, v1, v2]] = .before := swap_before (show 0 < n by omega) h1
    simp [order, sink, List.range_succ, s21, s20]
  have hdims : Tensor.dims [n, n, b] [n, n, b] = .ok [n, n, b] := dims_suffix [n, n, b] []
  have hb1 : bcast ⟨[b, n, n], [n * n, 1, n]⟩ [b, n, n] = [n * n, 1, n] := bcast_suffix [b, n, n] [] _ rfl
  have hb2 : bcast ⟨[b, n, n], [v0, v1, v2]⟩ [b, n, n] = [v0, v1, v2] := bcast_suffix [b, n, n] [] _ rfl
  have hl : (contiguous [b, n, n]).transpose 1 2 = ⟨[b, n, n], [n * n, 1, n]⟩ := by simp [contiguous, Lay.transpose]
  have hel : elementwise ⟨[b, n, n], [n * n, 1, n]⟩ ⟨[b, n, n], [v0, v1, v2]⟩ = .ok ⟨[b, n, n], [n * n, 1, n]⟩ := by
    simp only [elementwise, List.reverse_cons, List.reverse_nil, List.nil_append, List.cons_append, hdims]
    show Except.ok (Lay.mk _ _) = _
    simp only [List.reverse_cons, List.reverse_nil, List.nil_append, List.cons_append, hb1, hb2, hord]
    simp [dense, List.range_succ, List.takeWhile]
  rw [hl, score, hel]
  show view _ _ = _
  rw [view, if_neg]
  have := compat_false (base := n) (numel := n) (n := n) (st := 1) (old := [(b, n * n)]) (m := n * n) (new := [b])
    hn (by omega) (by omega) h1 (by simpa using hb)
  simp [canView, this]

/-- **C86**, false of the code: for potentials of a linear chain that are stored with their last two dimensions swapped (`x.transpose(2, 3)`), or time-major
(`x.transpose(0, 1)`), `partition` is computed but `log_prob` of every event raises. -/
theorem log_prob_layout (p : T4 ℝ) (lengths : Option (List ℕ)) (h : LinearChain.Valid p lengths) (hb : 2 ≤ p.d0) (hn : 2 ≤ p.d1) (hc : 2 ≤ p.d2)
    (value : Tensor ℝ) (hv : value.shape = [p.d0, p.d1, p.d2, p.d3]) (vst : List ℕ) (hvs : vst.length = 4) :
    (∃ vs, Dist.partition _root_.LinearChain.algo p lengths = .ok vs) ∧
    logProb .real (.of4 p) ((contiguous [p.d0, p.d1, p.d3, p.d2]).transpose 2 3).strides
      ((Dist.partition _root_.LinearChain.algo p lengths).map (.ofList 0)) value vst = .error .runtime ∧
    logProb .real (.of4 p) ((contiguous [p.d1, p.d0, p.d2, p.d3]).transpose 0 1).strides
      ((Dist.partition _root_.LinearChain.algo p lengths).map (.ofList 0)) value vst = .error .runtime := by
  obtain ⟨vs, e, -⟩ := LinearChain.partition_closed_form p lengths h
  have hk : value.shape.length - (Tensor.of4 p).shape.tail.length = 1 := by rw [hv]; rfl
  refine ⟨⟨vs, e⟩, score_error _ _ _ _ _ _ ?_, score_error _ _ _ _ _ _ ?_⟩
  · rw [hk, hv]
    have := score_transposed p.d0 p.d1 p.d2 (by omega) hn hc vst hvs
    simp only [Tensor.of4, ← h.square]
    exact this
  · rw [hk, hv]
    have := score_time_major p.d0 p.d1 p.d2 hb hn hc vst hvs
    simp only [Tensor.of4, ← h.square]
    exact this

/-- **C86**, false of the code: the scores of `DependencyCRF` given as `x.transpose(1, 2)`. -/
theorem dependency_log_prob_layout (q : DepTree.Arcs ℝ) (h3 : q.rank = 3) (hsq : q.d1 = q.d2) (hb : 1 ≤ q.d0) (hn : 2 ≤ q.d1)
    (partition : Except PyErr (Tensor ℝ)) (value : Tensor ℝ) (hv : value.shape = [q.d0, q.d1, q.d2]) (vst : List ℕ) (hvs : vst.length = 3) :
    logProb .real (.ofArcs q) ((contiguous [q.d0, q.d2, q.d1]).transpose 1 2).strides partition value vst = .error .runtime := by
  have hs : (Tensor.ofArcs q).shape = [q.d0, q.d1, q.d2] := by simp [Tensor.ofArcs, h3]
  refine score_error _ _ _ _ _ _ ?_
  rw [hs, hv, ← hsq]
  exact score_arcs_transposed q.d0 q.d1 hb hn vst hvs

/-! ### The grammar -/

theorem down5 {b m x y S s u v : ℕ} (hb : 1 ≤ b) (hm : 1 ≤ m) (hS : s < S) (h1 : u = 0 ∨ (u ≤ s ∧ (u = s → x ≤ m))) (h2 : v = 0 ∨ (v ≤ s ∧ (v = s → y ≤ m)))
    (h3 : u = 0 ∨ v = 0 ∨ (v ≤ u ∧ (v = u → y ≤ x))) : Down [1, b, m, x, y] [b * S, S, s, u, v] := by
  have hbS : S ≤ b * S := Nat.le_mul_of_pos_left S hb
  have e1 : S = b * S → b ≤ 1 := fun e => by
    by_contra hc
    have : 2 * S ≤ b * S := Nat.mul_le_mul_right S (by omega)
    omega
  intro d1 d0 hlt hd
  simp only [List.length_cons, List.length_nil] at hd
  interval_cases d0 <;> interval_cases d1 <;> simp only [List.getD_cons_zero, List.getD_cons_succ] <;> omega

theorem dim_one (x : ℕ) : Tensor.dim 1 x = .ok x ∧ Tensor.dim x 1 = .ok x ∧ Tensor.dim x x = .ok x := by
  refine ⟨?_, ?_, ?_⟩ <;> simp only [Tensor.dim] <;> split_ifs <;> simp_all

/-- The operands `Y` and `Z_term` (the same with `Y_term` and `Z`): the strides descend, so the result is contiguous and can be viewed. -/
theorem outer_ok {b m x y S s S' s' : ℕ} (hb : 1 ≤ b) (hm : 1 ≤ m) (hx : 1 ≤ x) (hy : 1 ≤ y) (hS : s < S) (hS' : s' < S') (hs : 1 ≤ s) (hs' : y ≤ s')
    (hsx : x ≤ s) : elementwise ⟨[1, b, m, x, 1], [b * S, S, s, 1, 1]⟩ ⟨[1, b, m, 1, y], [b * S', S', s', y, 1]⟩ = .ok (contiguous [1, b, m, x, y]) ∧
      view (contiguous [1, b, m, x, y]) [1, b, m, x * y] = .ok () := by
  have hd : Tensor.dims [1, x, m, b, 1] [y, 1, m, b, 1] = .ok [y, x, m, b, 1] := by
    simp only [Tensor.dims, dim_one]
    rfl
  have e1 : bcast ⟨[1, b, m, x, 1], [b * S, S, s, 1, 1]⟩ [1, b, m, x, y] = [b * S, S, s, 1, if y = 1 then 1 else 0] := by
    simp only [bcast, List.length_cons, List.length_nil, Nat.sub_self, List.replicate_zero, List.nil_append, List.drop_zero, List.zip_cons_cons, List.zip_nil_right,
      List.zipWith_cons_cons, List.zipWith_nil_right, ne_eq, true_and, not_true_eq_false, and_false, if_false, ite_not]
    split_ifs <;> simp_all
  have e2 : bcast ⟨[1, b, m, 1, y], [b * S', S', s', y, 1]⟩ [1, b, m, x, y] = [b * S', S', s', if x = 1 then y else 0, 1] := by
    simp only [bcast, List.length_cons, List.length_nil, Nat.sub_self, List.replicate_zero, List.nil_append, List.drop_zero, List.zip_cons_cons, List.zip_nil_right,
      List.zipWith_cons_cons, List.zipWith_nil_right, ne_eq, true_and, not_true_eq_false, and_false, if_false, ite_not]
    split_ifs <;> simp_all
  have hel : elementwise ⟨[1, b, m, x, 1], [b * S, S, s, 1, 1]⟩ ⟨[1, b, m, 1, y], [b * S', S', s', y, 1]⟩ = .ok (contiguous [1, b, m, x, y]) := by
    simp only [elementwise, List.reverse_cons, List.reverse_nil, List.nil_append, List.cons_append, hd]
    show Except.ok (Lay.mk _ _) = _
    simp only [List.reverse_cons, List.reverse_nil, List.nil_append, List.cons_append, e1, e2]
    rw [order_down, dense_reverse, contiguous_eta]
    intro st hst
    rcases List.mem_cons.1 hst with rfl | hst
    · refine down5 hb hm hS ?_ ?_ ?_
      · right; exact ⟨hs, fun e => by omega⟩
      · split_ifs with hc
        · right; exact ⟨hs, fun _ => by omega⟩
        · left; rfl
      · split_ifs with hc
        · right; right; exact ⟨le_rfl, fun _ => by omega⟩
        · right; left; rfl
    · obtain rfl := List.mem_singleton.1 hst
      refine down5 hb hm hS' ?_ ?_ ?_
      · split_ifs with hc
        · right; exact ⟨hs', fun _ => by omega⟩
        · left; rfl
      · right; exact ⟨by omega, fun e => by omega⟩
      · split_ifs with hc
        · right; right; exact ⟨hy, fun e => by omega⟩
        · left; rfl
  refine ⟨hel, ?_⟩
  rw [view, if_pos]
  refine canView_contiguous ?_ ?_
  · intro z hz
    have : 1 ≤ x * y := Nat.mul_pos hx hy
    simp at hz
    omega
  · simp

theorem termUse_contiguous (b N T : ℕ) (hb : 1 ≤ b) (hN : 1 ≤ N) (hT : 1 ≤ T) :
    elementwise1 ((contiguous [b, N, T]).unsqueeze 0) = ⟨[1, b, N, T], [b * (N * T), N * T, T, 1]⟩ := by
  have e : (contiguous [b, N, T]).unsqueeze 0 = contiguous [1, b, N, T] := by simp [contiguous, Lay.unsqueeze]
  rw [e, elementwise1, order_down, contiguous_shape, dense_reverse, contiguous_eta]
  · simp [contiguous]
  · intro st hst
    obtain rfl := List.mem_singleton.1 hst
    rw [contiguous_shape]
    exact contiguous_down (by intro x hx; simp at hx; omega)

/-- **C86.** With contiguous `terms`, all views of `SentCFG`'s inside algorithm succeed. -/
theorem grammar_contiguous (b N T NT : ℕ) (hb : 1 ≤ b) (hT : 1 ≤ T) (hNT : 1 ≤ NT) : ckyViews (contiguous [b, N, T]) b N T NT = .ok () := by
  have round : ∀ w, 1 ≤ w → w < N → ckyRound (contiguous [b, N, T]) b N T NT w = .ok () := by
    intro w h1 h2
    have hS : T < N * T := by nlinarith
    have hS' : N * NT < N * (N * NT) := by
      have : 0 < N * NT := Nat.mul_pos (by omega) hNT
      nlinarith
    have hK : NT ≤ N * NT := Nat.le_mul_of_pos_left NT (by omega)
    have hy : (((((contiguous [1, b, N, N, NT]).narrow 2 (N - w)).narrow 3 w).select 3).unsqueeze 4) =
        ⟨[1, b, N - w, NT, 1], [b * (N * (N * NT)), N * (N * NT), N * NT, 1, 1]⟩ := by simp [contiguous, Lay.narrow, Lay.select, Lay.unsqueeze]
    have hz : (((((contiguous [1, b, N, N, NT]).narrow 2 (N - w)).narrow 3 w).select 3).unsqueeze 3) =
        ⟨[1, b, N - w, 1, NT], [b * (N * (N * NT)), N * (N * NT), N * NT, NT, 1]⟩ := by simp [contiguous, Lay.narrow, Lay.select, Lay.unsqueeze]
    have hyt : ((elementwise1 ((contiguous [b, N, T]).unsqueeze 0)).narrow 2 (N - w)).unsqueeze 4 =
        ⟨[1, b, N - w, T, 1], [b * (N * T), N * T, T, 1, 1]⟩ := by
      rw [termUse_contiguous b N T hb (by omega) hT]; simp [Lay.narrow, Lay.unsqueeze]
    have hzt : ((elementwise1 ((contiguous [b, N, T]).unsqueeze 0)).narrow 2 (N - w)).unsqueeze 3 =
        ⟨[1, b, N - w, 1, T], [b * (N * T), N * T, T, T, 1]⟩ := by
      rw [termUse_contiguous b N T hb (by omega) hT]; simp [Lay.narrow, Lay.unsqueeze]
    have x2 := outer_ok (b := b) (m := N - w) (x := NT) (y := T) (S := N * (N * NT)) (s := N * NT) (S' := N * T) (s' := T) hb (by omega) hNT hT hS' hS
      (by omega) le_rfl hK
    have x3 := outer_ok (b := b) (m := N - w) (x := T) (y := NT) (S := N * T) (s := T) (S' := N * (N * NT)) (s' := N * NT) hb (by omega) hT hNT hS hS'
      (by omega) hK le_rfl
    have x4 := outer_ok (b := b) (m := N - w) (x := T) (y := T) (S := N * T) (s := T) (S' := N * T) (s' := T) hb (by omega) hT hT hS hS
      (by omega) le_rfl le_rfl
    simp only [ckyRound, hy, hz, hyt, hzt, x2.1, x3.1, x4.1]
    show (view _ _ >>= fun _ => view _ _ >>= fun _ => _) = _
    rw [x2.2]
    show (view _ _ >>= fun _ => _) = _
    rw [x3.2]
    show (if w = 1 then _ else _) = _
    split_ifs
    · exact x4.2
    · rfl
  have all : ∀ l : List ℕ, (∀ w ∈ l, w + 1 < N) → l.forM (fun w => ckyRound (contiguous [b, N, T]) b N T NT (w + 1)) = .ok () := by
    intro l hl
    induction l with
    | nil => rfl
    | cons w l ih =>
      show (ckyRound (contiguous [b, N, T]) b N T NT (w + 1) >>= fun _ => l.forM _) = _
      rw [round (w + 1) (by omega) (hl w List.mem_cons_self)]
      exact ih fun v hv => hl v (List.mem_cons_of_mem _ hv)
  exact all _ fun w hw => by have := List.mem_range.1 hw; omega

theorem swap_tie {shape : List ℕ} {d0 d1 : ℕ} {st : List ℕ} {rest : List (List ℕ)} (h : st.getD d0 0 = st.getD d1 0)
    (hs : shape.getD d0 0 ≤ shape.getD d1 0) : shouldSwap shape d0 d1 (st :: rest) = shouldSwap shape d0 d1 rest := by
  simp only [shouldSwap]
  by_cases h0 : st.getD d0 0 = 0 ∨ st.getD d1 0 = 0
  · rw [if_pos h0]
  · rw [if_neg h0, if_neg (by omega), if_neg (by omega), if_neg (by omega)]

/-- The `terms` of a grammar stored as `batch x T x N` and transposed: `terms + 0.0` keeps that layout. -/
theorem termUse_transposed (b N T : ℕ) (hb : 1 ≤ b) (hN : 3 ≤ N) (hT : 2 ≤ T) :
    elementwise1 (((contiguous [b, T, N]).transpose 1 2).unsqueeze 0) = ⟨[1, b, N, T], [b * (T * N), T * N, 1, N]⟩ := by
  have e : ((contiguous [b, T, N]).transpose 1 2).unsqueeze 0 = ⟨[1, b, N, T], [b * (T * N), T * N, 1, N]⟩ := by
    simp [contiguous, Lay.unsqueeze, Lay.transpose]
  have h1 : N < T * N := by nlinarith
  have h2 : T * N ≤ b * (T * N) := Nat.le_mul_of_pos_left _ hb
  have hord : order [1, b, N, T] [[b * (T * N), T * N, 1, N]] = [2, 3, 1, 0] := by
    have s32 : shouldSwap [1, b, N, T] 3 2 [[b * (T * N), T * N, 1, N]] = .after := swap_after one_pos (show 1 < N by omega)
    have s31 : shouldSwap [1, b, N, T] 3 1 [[b * (T * N), T * N, 1, N]] = .before := swap_before (show 0 < N by omega) h1
    have s30 : shouldSwap [1, b, N, T] 3 0 [[b * (T * N), T * N, 1, N]] = .before := swap_before (show 0 < N by omega) (show N < b * (T * N) by omega)
    have s10 : shouldSwap [1, b, N, T] 1 0 [[b * (T * N), T * N, 1, N]] = if b = 1 then .ambiguous else .before := by
      split_ifs with h
      · rw [swap_tie (by simp [h]) (by simp [h])]
        rfl
      · refine swap_before (show 0 < T * N by omega) (show T * N < b * (T * N) from ?_)
        have : 2 * (T * N) ≤ b * (T * N) := Nat.mul_le_mul_right _ (by omega)
        omega
    by_cases h : b = 1
    · rw [if_pos h] at s10
      simp [order, sink, List.range_succ, s32, s31, s10, s30]
    · rw [if_neg h] at s10
      simp [order, sink, List.range_succ, s32, s31, s10]
  rw [e, elementwise1, hord]
  simp [dense, List.range_succ, List.takeWhile]
  constructor <;> ring

/-- **C86**, false of the code: with `terms` given as `x.transpose(1, 2)`, `SentCFG` raises on every batch of sentences of at least three words, whatever the scores are,
if there are at least two terminals and two nonterminals. -/
theorem grammar_layout (b N T NT : ℕ) (hb : 1 ≤ b) (hN : 3 ≤ N) (hT : 2 ≤ T) (hNT : 2 ≤ NT) :
    ckyViews ((contiguous [b, T, N]).transpose 1 2) b N T NT = .error .runtime := by
  have round : ckyRound ((contiguous [b, T, N]).transpose 1 2) b N T NT 1 = .error .runtime := by
    have hz : (((((contiguous [1, b, N, N, NT]).narrow 2 (N - 1)).narrow 3 1).select 3).unsqueeze 3) =
        ⟨[1, b, N - 1, 1, NT], [b * (N * (N * NT)), N * (N * NT), N * NT, NT, 1]⟩ := by simp [contiguous, Lay.narrow, Lay.select, Lay.unsqueeze]
    have hyt : ((elementwise1 (((contiguous [b, T, N]).transpose 1 2).unsqueeze 0)).narrow 2 (N - 1)).unsqueeze 4 =
        ⟨[1, b, N - 1, T, 1], [b * (T * N), T * N, 1, N, 1]⟩ := by
      rw [termUse_transposed b N T hb hN hT]; simp [Lay.narrow, Lay.unsqueeze]
    have hd : Tensor.dims [1, T, N - 1, b, 1] [NT, 1, N - 1, b, 1] = .ok [NT, T, N - 1, b, 1] := by
      simp only [Tensor.dims, dim_one]
      rfl
    have e1 : bcast ⟨[1, b, N - 1, T, 1], [b * (T * N), T * N, 1, N, 1]⟩ [1, b, N - 1, T, NT] = [b * (T * N), T * N, 1, N, 0] := by
      simp [bcast, (by omega : NT ≠ 1)]
      omega
    have e2 : bcast ⟨[1, b, N - 1, 1, NT], [b * (N * (N * NT)), N * (N * NT), N * NT, NT, 1]⟩ [1, b, N - 1, T, NT] =
        [b * (N * (N * NT)), N * (N * NT), N * NT, 0, 1] := by
      simp [bcast, (by omega : T ≠ 1)]
      omega
    have hN2 : 1 < N * NT := by nlinarith
    have h1 : N < T * N := by nlinarith
    have h2 : T * N ≤ b * (T * N) := Nat.le_mul_of_pos_left _ hb
    have hord : order [1, b, N - 1, T, NT] [[b * (T * N), T * N, 1, N, 0], [b * (N * (N * NT)), N * (N * NT), N * NT, 0, 1]] = [4, 2, 3, 1, 0] := by
      have s43 : shouldSwap [1, b, N - 1, T, NT] 4 3 [[b * (T * N), T * N, 1, N, 0], [b * (N * (N * NT)), N * (N * NT), N * NT, 0, 1]] = .ambiguous := by
        rw [swap_skip (Or.inl rfl), swap_skip (Or.inr rfl)]; rfl
      have s32 : shouldSwap [1, b, N - 1, T, NT] 3 2 [[b * (T * N), T * N, 1, N, 0], [b * (N * (N * NT)), N * (N * NT), N * NT, 0, 1]] = .after :=
        swap_after one_pos (show 1 < N by omega)
      have s42 : shouldSwap [1, b, N - 1, T, NT] 4 2 [[b * (T * N), T * N, 1, N, 0], [b * (N * (N * NT)), N * (N * NT), N * NT, 0, 1]] = .before := by
        rw [swap_skip (Or.inl rfl)]
        exact swap_before one_pos hN2
      have s31 : shouldSwap [1, b, N - 1, T, NT] 3 1 [[b * (T * N), T * N, 1, N, 0], [b * (N * (N * NT)), N * (N * NT), N * NT, 0, 1]] = .before :=
        swap_before (show 0 < N by omega) h1
      have s30 : shouldSwap [1, b, N - 1, T, NT] 3 0 [[b * (T * N), T * N, 1, N, 0], [b * (N * (N * NT)), N * (N * NT), N * NT, 0, 1]] = .before :=
        swap_before (show 0 < N by omega) (show N < b * (T * N) by omega)
      have s10 : shouldSwap [1, b, N - 1, T, NT] 1 0 [[b * (T * N), T * N, 1, N, 0], [b * (N * (N * NT)), N * (N * NT), N * NT, 0, 1]] =
          if b = 1 then .ambiguous else .before := by
        split_ifs with h
        · rw [swap_tie (by simp [h]) (by simp [h]), swap_tie (by simp [h]) (by simp [h])]
          rfl
        · refine swap_before (show 0 < T * N by omega) (show T * N < b * (T * N) from ?_)
          have : 2 * (T * N) ≤ b * (T * N) := Nat.mul_le_mul_right _ (by omega)
          omega
      by_cases h : b = 1
      · rw [if_pos h] at s10
        simp [order, sink, List.range_succ, s43, s32, s42, s31, s10, s30]
      · rw [if_neg h] at s10
        simp [order, sink, List.range_succ, s43, s32, s42, s31, s10]
    have hel : elementwise ⟨[1, b, N - 1, T, 1], [b * (T * N), T * N, 1, N, 1]⟩
        ⟨[1, b, N - 1, 1, NT], [b * (N * (N * NT)), N * (N * NT), N * NT, NT, 1]⟩ =
        .ok ⟨[1, b, N - 1, T, NT], [NT * ((N - 1) * (T * b)), NT * ((N - 1) * T), NT, NT * (N - 1), 1]⟩ := by
      simp only [elementwise, List.reverse_cons, List.reverse_nil, List.nil_append, List.cons_append, hd]
      show Except.ok (Lay.mk _ _) = _
      simp only [List.reverse_cons, List.reverse_nil, List.nil_append, List.cons_append, e1, e2, hord]
      simp [dense, List.range_succ, List.takeWhile]
    have hview : view ⟨[1, b, N - 1, T, NT], [NT * ((N - 1) * (T * b)), NT * ((N - 1) * T), NT, NT * (N - 1), 1]⟩ [1, b, N - 1, T * NT] =
        .error .runtime := by
      rw [view, if_neg]
      have hm : NT * (N - 1) ≠ NT * 1 := by
        intro h
        have := Nat.eq_of_mul_eq_mul_left (by omega) h
        omega
      have := compat_false (base := 1) (numel := NT) (n := T) (st := NT * (N - 1))
        (old := [(N - 1, NT), (b, NT * ((N - 1) * T)), (1, NT * ((N - 1) * (T * b)))]) (m := T * NT) (new := [N - 1, b, 1])
        hNT (by omega) hm (by nlinarith) (by intro x hx; simp at hx; omega)
      simp [canView, this]
    have hy : (((((contiguous [1, b, N, N, NT]).narrow 2 (N - 1)).narrow 3 1).select 3).unsqueeze 4).shape = [1, b, N - 1, NT, 1] := by
      simp [contiguous, Lay.narrow, Lay.select, Lay.unsqueeze]
    have hzt : (((elementwise1 (((contiguous [b, T, N]).transpose 1 2).unsqueeze 0)).narrow 2 (N - 1)).unsqueeze 3).shape = [1, b, N - 1, 1, T] := by
      rw [termUse_transposed b N T hb hN hT]; simp [Lay.narrow, Lay.unsqueeze]
    obtain ⟨r, hr⟩ : ∃ r, elementwise (((((contiguous [1, b, N, N, NT]).narrow 2 (N - 1)).narrow 3 1).select 3).unsqueeze 4)
        (((elementwise1 (((contiguous [b, T, N]).transpose 1 2).unsqueeze 0)).narrow 2 (N - 1)).unsqueeze 3) = .ok r := by
      have hd : Tensor.dims [1, NT, N - 1, b, 1] [T, 1, N - 1, b, 1] = .ok [T, NT, N - 1, b, 1] := by
        simp only [Tensor.dims, dim_one]
        rfl
      rw [elementwise, hy, hzt]
      simp only [List.reverse_cons, List.reverse_nil, List.nil_append, List.cons_append, hd]
      exact ⟨_, rfl⟩
    simp only [ckyRound, hz, hyt, hel, hr]
    show (view r _ >>= fun _ => view _ _ >>= fun _ => _) = _
    rw [hview]
    rw [view]
    split_ifs <;> rfl
  obtain ⟨k, hk⟩ : ∃ k, N - 1 = k + 1 := ⟨N - 2, by omega⟩
  rw [ckyViews, hk, List.range_succ_eq_map]
  show (ckyRound _ b N T NT (0 + 1) >>= fun _ => _) = _
  rw [show 0 + 1 = 1 from rfl, round]
  rfl

/-- The hypotheses are met by two rows of lengths 3 and 2 over 2 tags, and by five samples for two rows of three steps over four tags. -/
example : LinearChain.Valid (⟨2, 2, 2, 2, fun b n i j => (b : ℝ) + n + 2 * i - j⟩ : T4 ℝ) (some [3, 2]) ∧ (2 ≤ 2 ∧ 2 ≤ 2) := ⟨LinearChain.sample_valid, by decide⟩

example : (∀ x ∈ ([5, 2, 3, 4, 4] : List ℕ), 1 ≤ x) ∧ ([5, 2, 3, 4, 4] : List ℕ) = [5] ++ [2, 3, 4, 4] := ⟨by decide, rfl⟩

end Props.MemoryLayout
