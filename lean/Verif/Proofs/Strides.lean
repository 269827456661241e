import Verif.Model.Strides
import Mathlib.Algebra.BigOperators.Group.List.Basic
import Mathlib.Algebra.Order.BigOperators.Group.List
import Mathlib.Data.List.GetD
import Mathlib.Tactic.Ring
import Mathlib.Tactic.Linarith

/-! Lemmas about `Model/Strides.lean`: contiguous tensors can be viewed, results of operations on contiguous tensors are contiguous. -/

namespace Strides

theorem contiguous_shape : ∀ s : List ℕ, (contiguous s).shape = s
  | [] => rfl
  | _ :: _ => rfl

theorem contiguous_eta (s : List ℕ) : (⟨s, (contiguous s).strides⟩ : Lay) = contiguous s := by cases s <;> rfl

theorem contiguous_length : ∀ s : List ℕ, (contiguous s).strides.length = s.length
  | [] => rfl
  | _ :: ns => by simp [contiguous, contiguous_length ns]

theorem contiguous_getD : ∀ (s : List ℕ) (d : ℕ), d < s.length → (contiguous s).strides.getD d 0 = (s.drop (d + 1)).prod
  | [], _, h => by simp at h
  | n :: ns, 0, _ => by simp [contiguous]
  | n :: ns, d + 1, h => by
    have := contiguous_getD ns d (by simpa using h)
    simpa [contiguous] using this

theorem prod_pos {l : List ℕ} (h : ∀ x ∈ l, 1 ≤ x) : 0 < l.prod := List.prod_pos fun x hx => h x hx

/-- The strides go down from the first dimension to the last, where they are not 0, and sizes do not break ties the other way. -/
def Down (shape st : List ℕ) : Prop :=
  ∀ d1 d0, d1 < d0 → d0 < shape.length → st.getD d0 0 ≠ 0 → st.getD d1 0 ≠ 0 →
    st.getD d0 0 ≤ st.getD d1 0 ∧ (st.getD d0 0 = st.getD d1 0 → shape.getD d0 0 ≤ shape.getD d1 0)

theorem shouldSwap_down {shape : List ℕ} {d0 d1 : ℕ} (h : d1 < d0) (hd : d0 < shape.length) :
    ∀ {ops : List (List ℕ)}, (∀ st ∈ ops, Down shape st) → shouldSwap shape d0 d1 ops ≠ .after
  | [], _ => by simp [shouldSwap]
  | st :: rest, hops => by
    have ih := shouldSwap_down h hd (ops := rest) fun st hst => hops st (List.mem_cons_of_mem _ hst)
    have hs := hops st List.mem_cons_self d1 d0 h hd
    simp only [shouldSwap]
    split_ifs with h0 h1 h2 h3
    · exact ih
    · simp
    · push Not at h0
      have := hs h0.1 h0.2
      omega
    · push Not at h0
      have := hs h0.1 h0.2
      have := this.2 (by omega)
      omega
    · exact ih

theorem sink_same {shape : List ℕ} {ops : List (List ℕ)} {perm : List ℕ} {dim1 : ℕ} :
    ∀ {dim0 : ℕ}, (∀ d < dim0, shouldSwap shape (perm.getD d 0) (perm.getD dim1 0) ops ≠ .after) → sink shape ops perm dim1 dim0 = perm
  | 0, _ => rfl
  | d + 1, h => by
    have h1 := h d (by omega)
    have ih := sink_same (shape := shape) (ops := ops) (perm := perm) (dim1 := dim1) (dim0 := d) fun e he => h e (by omega)
    rw [sink]
    split
    · exact absurd (by assumption) h1
    · rfl
    · exact ih

theorem getD_reverse_range {n i : ℕ} (h : i < n) : (List.range n).reverse.getD i 0 = n - 1 - i := by
  rw [List.getD_eq_getElem _ _ (by simpa using h)]
  simp

/-- Operands with descending strides: the result is in the usual order. -/
theorem order_down {shape : List ℕ} {ops : List (List ℕ)} (h : ∀ st ∈ ops, Down shape st) : order shape ops = (List.range shape.length).reverse := by
  have : ∀ m, m ≤ shape.length - 1 → (List.range m).foldl (fun perm i => sink shape ops perm (i + 1) (i + 1)) (List.range shape.length).reverse =
      (List.range shape.length).reverse := by
    intro m
    induction m with
    | zero => intro _; rfl
    | succ m ih =>
      intro hm
      rw [List.range_succ, List.foldl_append, ih (by omega)]
      refine sink_same fun d hd => ?_
      rw [getD_reverse_range (by omega), getD_reverse_range (by omega)]
      exact shouldSwap_down (by omega) (by omega) h
  exact this _ le_rfl

theorem takeWhile_reverse_range {n d : ℕ} (h : d < n) : (List.range n).reverse.takeWhile (· ≠ d) = (List.range' (d + 1) (n - 1 - d)).reverse := by
  have e : List.range n = List.range (d + 1) ++ List.range' (d + 1) (n - 1 - d) := by
    have := List.range'_append_1 (s := 0) (m := d + 1) (n := n - 1 - d)
    rw [zero_add] at this
    rw [List.range_eq_range', List.range_eq_range', this]
    congr 1; omega
  rw [e, List.reverse_append, List.takeWhile_append_of_pos, List.range_succ, List.reverse_append]
  · simp
  · intro x hx
    have := List.mem_reverse.1 hx
    rw [List.mem_range'_1] at this
    simp; omega

theorem map_range'_getD (s : List ℕ) : ∀ (k d : ℕ), d + k = s.length → ((List.range' d k).map fun e => s.getD e 0) = s.drop d
  | 0, d, h => by simp [List.drop_eq_nil_of_le (by omega : s.length ≤ d)]
  | k + 1, d, h => by
    rw [List.range'_succ, List.map_cons, map_range'_getD s k (d + 1) (by omega), List.getD_eq_getElem _ _ (by omega)]
    exact (List.drop_eq_getElem_cons (by omega)).symm

theorem dense_reverse (s : List ℕ) : dense s (List.range s.length).reverse = (contiguous s).strides := by
  refine List.ext_getElem (by simp [dense, contiguous_length]) fun d h1 h2 => ?_
  have hd : d < s.length := by simpa [dense] using h1
  have e := contiguous_getD s d hd
  rw [List.getD_eq_getElem _ _ h2] at e
  rw [e]
  simp only [dense, List.getElem_map, List.getElem_range]
  rw [takeWhile_reverse_range hd, List.map_reverse, List.prod_reverse, map_range'_getD s _ _ (by omega)]

theorem contiguous_down {s : List ℕ} (h : ∀ x ∈ s, 1 ≤ x) : Down s (contiguous s).strides := by
  intro d1 d0 hlt hd h0 h1
  rw [contiguous_getD s d0 hd, contiguous_getD s d1 (by omega)] at *
  have e : s.drop (d1 + 1) = (s.drop (d1 + 1)).take (d0 - (d1 + 1)) ++ s.getD d0 0 :: s.drop (d0 + 1) := by
    conv_lhs => rw [← List.take_append_drop (d0 - (d1 + 1)) (s.drop (d1 + 1)), List.drop_drop]
    rw [show d1 + 1 + (d0 - (d1 + 1)) = d0 by omega, List.getD_eq_getElem _ _ hd, ← List.drop_eq_getElem_cons]
  have hA : 0 < ((s.drop (d1 + 1)).take (d0 - (d1 + 1))).prod := prod_pos fun x hx => h x (List.mem_of_mem_drop (List.mem_of_mem_take hx))
  have hB : 1 ≤ s.getD d0 0 := by rw [List.getD_eq_getElem _ _ hd]; exact h _ (List.getElem_mem _)
  have hC : 1 ≤ s.getD d1 0 := by rw [List.getD_eq_getElem _ _ (by omega)]; exact h _ (List.getElem_mem _)
  rw [e, List.prod_append, List.prod_cons]
  generalize ((s.drop (d1 + 1)).take (d0 - (d1 + 1))).prod = A at *
  generalize s.getD d0 0 = B at *
  generalize (s.drop (d0 + 1)).prod = P at *
  have hP : 0 < P := by omega
  constructor
  · calc P = 1 * (1 * P) := by ring
      _ ≤ A * (B * P) := Nat.mul_le_mul hA (Nat.mul_le_mul hB le_rfl)
  · intro e
    have : 1 = A * B := Nat.eq_of_mul_eq_mul_right hP (by rw [one_mul, mul_assoc]; exact e)
    have : B = 1 := Nat.eq_one_of_mul_eq_one_left this.symm
    omega

theorem Down.prefix {s t st : List ℕ} (h : Down s st) : Down (t ++ s) (List.replicate t.length 0 ++ st) := by
  intro d1 d0 hlt hd h0 h1
  have hr : ∀ d, (List.replicate t.length 0 ++ st).getD d 0 ≠ 0 → t.length ≤ d ∧ (List.replicate t.length 0 ++ st).getD d 0 = st.getD (d - t.length) 0 := by
    intro d hne
    rcases Nat.lt_or_ge d t.length with hd | hd
    · rw [List.getD_append _ _ _ _ (by simpa using hd)] at hne
      simp [List.getD_eq_getElem _ _ (show d < (List.replicate t.length 0).length by simpa using hd)] at hne
    · refine ⟨hd, ?_⟩
      rw [List.getD_append_right _ _ _ _ (by simpa using hd)]
      simp
  obtain ⟨g1, e1⟩ := hr d1 h1
  obtain ⟨g0, e0⟩ := hr d0 h0
  have := h (d1 - t.length) (d0 - t.length) (by omega) (by simp at hd; omega) (by rwa [e0] at h0) (by rwa [e1] at h1)
  rw [e0, e1, List.getD_append_right _ _ _ _ g0, List.getD_append_right _ _ _ _ g1]
  exact this

theorem bcast_suffix (s t : List ℕ) (st : List ℕ) (h : st.length = s.length) : bcast ⟨s, st⟩ (t ++ s) = List.replicate t.length 0 ++ st := by
  simp only [bcast, List.length_append, Nat.add_sub_cancel, List.drop_left]
  congr 1
  refine List.ext_getElem (by simp [h]) fun i h1 h2 => ?_
  simp only [List.getElem_zipWith, List.getElem_zip]
  exact if_neg fun hc => hc.2 hc.1

theorem dims_suffix : ∀ (s t : List ℕ), Tensor.dims s (s ++ t) = .ok (s ++ t)
  | [], t => by cases t <;> rfl
  | n :: ns, t => by
    have ih := dims_suffix ns t
    simp only [List.cons_append, Tensor.dims, Tensor.dim, if_pos]
    rw [ih]
    rfl

/-- Potentials and a stack of events, both contiguous: the product is contiguous. -/
theorem elementwise_contiguous {s t : List ℕ} (h : ∀ x ∈ t ++ s, 1 ≤ x) : elementwise (contiguous s) (contiguous (t ++ s)) = .ok (contiguous (t ++ s)) := by
  have e : Tensor.dims (contiguous s).shape.reverse (contiguous (t ++ s)).shape.reverse = .ok (t ++ s).reverse := by
    rw [contiguous_shape, contiguous_shape, List.reverse_append]
    exact dims_suffix _ _
  have e1 : bcast (contiguous s) (t ++ s) = List.replicate t.length 0 ++ (contiguous s).strides := by
    have := bcast_suffix s t (contiguous s).strides (contiguous_length s)
    rwa [contiguous_eta] at this
  have e2 : bcast (contiguous (t ++ s)) (t ++ s) = (contiguous (t ++ s)).strides := by
    have := bcast_suffix (t ++ s) [] (contiguous (t ++ s)).strides (contiguous_length _)
    rw [contiguous_eta] at this
    simpa using this
  simp only [elementwise, e]
  show Except.ok (Lay.mk _ _) = _
  rw [List.reverse_reverse, e1, e2, order_down, dense_reverse]
  · rw [contiguous_eta]
  · intro st hst
    rcases List.mem_cons.1 hst with rfl | hst
    · exact (contiguous_down fun x hx => h x (List.mem_append_right _ hx)).prefix
    · obtain rfl := List.mem_singleton.1 hst
      exact contiguous_down h

theorem takeView_all : ∀ {l : List ℕ} {v n : ℕ}, (∀ x ∈ l, 1 ≤ x) → 0 < v → v * l.prod = n → takeView n v l = (n, [])
  | [], v, n, _, _, h => by simp [takeView] at *; exact h
  | s :: l, v, n, hl, hv, h => by
    have hp : 0 < l.prod := prod_pos fun x hx => hl x (List.mem_cons_of_mem _ hx)
    have hs : 1 ≤ s := hl s List.mem_cons_self
    rw [List.prod_cons] at h
    have hc : v < n ∨ s = 1 := by
      by_cases h1 : s = 1
      · exact Or.inr h1
      · left
        rw [← h]
        have : 2 * 1 ≤ s * l.prod := Nat.mul_le_mul (by omega) hp
        nlinarith
    rw [takeView, if_pos hc]
    exact takeView_all (fun x hx => hl x (List.mem_cons_of_mem _ hx)) (by positivity) (by rw [← h, mul_assoc])

/-- The dimensions before the last ones of a contiguous tensor extend the chunk. -/
theorem compat_contiguous : ∀ (pre : List ℕ) (suf new : List ℕ), (∀ x ∈ new, 1 ≤ x) → new.prod = (pre ++ suf).prod →
    compat 1 suf.prod ((pre.zip ((contiguous (pre ++ suf)).strides.take pre.length)).reverse) new = true := by
  intro pre
  induction pre using List.reverseRecOn with
  | nil =>
    intro suf new h1 h2
    have := takeView_all (v := 1) (n := suf.prod) h1 one_pos (by rw [one_mul, h2]; rfl)
    simp [compat, this]
  | append_singleton pre a ih =>
    intro suf new h1 h2
    have hl : pre.length < (contiguous (pre ++ [a] ++ suf)).strides.length := by rw [contiguous_length]; simp
    have e : (contiguous (pre ++ [a] ++ suf)).strides.take (pre ++ [a]).length =
        (contiguous (pre ++ [a] ++ suf)).strides.take pre.length ++ [suf.prod] := by
      rw [List.length_append, List.length_singleton, List.take_succ, List.getElem?_eq_getElem hl]
      have := contiguous_getD (pre ++ [a] ++ suf) pre.length (by simp)
      rw [List.getD_eq_getElem _ _ hl] at this
      rw [this]
      simp
    rw [e, List.zip_append (by simp [contiguous_length]), List.reverse_append]
    simp only [List.zip_cons_cons, List.zip_nil_right, List.reverse_cons, List.reverse_nil, List.nil_append, List.cons_append]
    rw [compat, if_neg (by simp)]
    have := ih (a :: suf) new h1 (by rw [h2]; simp)
    simpa [mul_comm] using this

theorem canView_contiguous {s new : List ℕ} (h1 : ∀ x ∈ new, 1 ≤ x) (h2 : new.prod = s.prod) : canView (contiguous s) new = true := by
  rw [canView, contiguous_shape]
  rcases List.eq_nil_or_concat s with rfl | ⟨pre, a, rfl⟩
  · simp at h2
    simp [contiguous, h2]
  · rw [List.concat_eq_append] at *
    have hl : pre.length < (contiguous (pre ++ [a])).strides.length := by rw [contiguous_length]; simp
    have e : (contiguous (pre ++ [a])).strides = (contiguous (pre ++ [a])).strides.take pre.length ++ [1] := by
      conv_lhs => rw [← List.take_append_drop pre.length (contiguous (pre ++ [a])).strides]
      congr 1
      rw [List.drop_eq_getElem_cons hl]
      have := contiguous_getD (pre ++ [a]) pre.length (by simp)
      rw [List.getD_eq_getElem _ _ hl] at this
      rw [this]
      simp [contiguous_length]
    rw [e, List.zip_append (by simp [contiguous_length]), List.reverse_append]
    simp only [List.zip_cons_cons, List.zip_nil_right, List.reverse_cons, List.reverse_nil, List.nil_append, List.cons_append]
    have := compat_contiguous pre [a] new.reverse (by simpa using h1) (by simpa using h2)
    simp only [List.prod_singleton] at this
    simp [h2, this]

/-- **C86**, first part: contiguous potentials and events. -/
theorem score_contiguous {s t : List ℕ} (h : ∀ x ∈ t ++ s, 1 ≤ x) (k : ℕ) : score (contiguous s) (contiguous (t ++ s)) k = .ok () := by
  rw [score, elementwise_contiguous h]
  show view _ _ = _
  rw [view, contiguous_shape, if_pos]
  refine canView_contiguous (fun x hx => ?_) ?_
  · rcases List.mem_append.1 hx with hx | hx
    · exact h x (List.mem_of_mem_take hx)
    · obtain rfl := List.mem_singleton.1 hx
      exact prod_pos fun x hx => h x (List.mem_of_mem_drop hx)
  · rw [List.prod_append, List.prod_singleton, ← List.prod_append, List.take_append_drop]

end Strides
