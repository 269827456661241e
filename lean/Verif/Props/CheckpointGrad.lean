import Verif.Props.Checkpoint
import Mathlib.Analysis.SpecialFunctions.ExpDeriv
import Mathlib.Analysis.SpecialFunctions.Log.Deriv
import Mathlib.Analysis.Calculus.Deriv.Add
import Mathlib.Analysis.Calculus.Deriv.Mul
import Mathlib.Algebra.BigOperators.Field

/-! The gradients of the sharded products are the derivatives of the product. -/

noncomputable section
namespace Props.Checkpoint
open _root_.Checkpoint Spec.Checkpoint Semirings

/-- `StdSemiring.matmul` (semirings.py:128-135) with the gradients of a product of matrices. -/
def stdOp : MatOp where
  fwd := matFwd (std ℝ)
  gradA _ _ c _ B G := fun i k => ∑ j ∈ Finset.range c, G i j * B k j
  gradB r _ _ A _ G := fun k j => ∑ i ∈ Finset.range r, G i j * A i k

/-- `LogSemiring.matmul` (semirings.py:12-20) with the gradients of `logsumexp`. -/
def logOp : MatOp where
  fwd := matFwd log
  gradA _ m c A B G := fun i k => ∑ j ∈ Finset.range c, G i j * Real.exp (A i k + B k j - matFwd log m A B i j)
  gradB r m _ A B G := fun k j => ∑ i ∈ Finset.range r, G i j * Real.exp (A i k + B k j - matFwd log m A B i j)

/-- The gradients of the operation are the derivatives of `<G, fwd A B>` in every direction. -/
def IsVJP (op : MatOp) (m : ℕ) : Prop := ∀ (r c : ℕ) (A B dA dB G : Mat),
  HasDerivAt (fun t : ℝ => ∑ i ∈ Finset.range r, ∑ j ∈ Finset.range c,
      G i j * op.fwd m (fun i k => A i k + t * dA i k) (fun k j => B k j + t * dB k j) i j)
    (∑ i ∈ Finset.range r, ∑ k ∈ Finset.range m, op.gradA r m c A B G i k * dA i k +
      ∑ k ∈ Finset.range m, ∑ j ∈ Finset.range c, op.gradB r m c A B G k j * dB k j) 0

theorem matFwd_std (m : ℕ) (A B : Mat) (i j : ℕ) : matFwd (std ℝ) m A B i j = ∑ k ∈ Finset.range m, A i k * B k j := rfl

theorem matFwd_log (m : ℕ) (A B : Mat) (i j : ℕ) :
    matFwd log m A B i j = Real.log (∑ k ∈ Finset.range m, Real.exp (A i k + B k j)) := by
  change Real.log ((((List.range m).map fun k => A i k + B k j).map Real.exp).sum) = _
  rw [List.map_map]; rfl

theorem line (x d : ℝ) : HasDerivAt (fun t : ℝ => x + t * d) d 0 := by
  simpa using ((hasDerivAt_id (0 : ℝ)).mul_const d).const_add x

theorem stdOp_vjp (m : ℕ) : IsVJP stdOp m := by
  intro r c A B dA dB G
  have h : HasDerivAt (fun t : ℝ => ∑ i ∈ Finset.range r, ∑ j ∈ Finset.range c,
      G i j * ∑ k ∈ Finset.range m, (A i k + t * dA i k) * (B k j + t * dB k j))
      (∑ i ∈ Finset.range r, ∑ j ∈ Finset.range c, G i j * ∑ k ∈ Finset.range m, (dA i k * B k j + A i k * dB k j)) 0 := by
    refine HasDerivAt.fun_sum fun i _ => HasDerivAt.fun_sum fun j _ => HasDerivAt.const_mul _ (HasDerivAt.fun_sum fun k _ => ?_)
    have := (line (A i k) (dA i k)).fun_mul (line (B k j) (dB k j))
    simpa using this
  refine h.congr_deriv ?_
  have e1 : ∀ i k, stdOp.gradA r m c A B G i k = ∑ j ∈ Finset.range c, G i j * B k j := fun _ _ => rfl
  have e2 : ∀ k j, stdOp.gradB r m c A B G k j = ∑ i ∈ Finset.range r, G i j * A i k := fun _ _ => rfl
  simp only [e1, e2, Finset.mul_sum, mul_add, Finset.sum_add_distrib, Finset.sum_mul]
  congr 1
  · refine Finset.sum_congr rfl fun i _ => ?_
    rw [Finset.sum_comm]
    exact Finset.sum_congr rfl fun k _ => Finset.sum_congr rfl fun j _ => by ring
  · rw [Finset.sum_comm]
    have : ∀ j, ∑ i ∈ Finset.range r, ∑ k ∈ Finset.range m, G i j * (A i k * dB k j) =
        ∑ k ∈ Finset.range m, ∑ i ∈ Finset.range r, G i j * A i k * dB k j := by
      intro j
      rw [Finset.sum_comm]
      exact Finset.sum_congr rfl fun k _ => Finset.sum_congr rfl fun i _ => by ring
    simp only [this]
    rw [Finset.sum_comm]

theorem logOp_vjp (m : ℕ) (hm : 0 < m) : IsVJP logOp m := by
  intro r c A B dA dB G
  have pos : ∀ i j, 0 < ∑ k ∈ Finset.range m, Real.exp (A i k + B k j) := fun i j =>
    Finset.sum_pos (fun _ _ => Real.exp_pos _) ⟨0, Finset.mem_range.2 hm⟩
  have h : HasDerivAt (fun t : ℝ => ∑ i ∈ Finset.range r, ∑ j ∈ Finset.range c,
      G i j * Real.log (∑ k ∈ Finset.range m, Real.exp ((A i k + t * dA i k) + (B k j + t * dB k j))))
      (∑ i ∈ Finset.range r, ∑ j ∈ Finset.range c, G i j * ∑ k ∈ Finset.range m,
        Real.exp (A i k + B k j - matFwd log m A B i j) * (dA i k + dB k j)) 0 := by
    refine HasDerivAt.fun_sum fun i _ => HasDerivAt.fun_sum fun j _ => HasDerivAt.const_mul _ ?_
    have h1 : HasDerivAt (fun t : ℝ => ∑ k ∈ Finset.range m, Real.exp ((A i k + t * dA i k) + (B k j + t * dB k j)))
        (∑ k ∈ Finset.range m, Real.exp (A i k + B k j) * (dA i k + dB k j)) 0 := by
      refine HasDerivAt.fun_sum fun k _ => ?_
      have := ((line (A i k) (dA i k)).add (line (B k j) (dB k j))).exp
      simpa using this
    have h2 := h1.log (by simpa using (pos i j).ne')
    refine h2.congr_deriv ?_
    simp only [zero_mul, add_zero]
    rw [Finset.sum_div]
    refine Finset.sum_congr rfl fun k _ => ?_
    rw [matFwd_log, Real.exp_sub, Real.exp_log (pos i j)]
    ring
  have hf : (fun t : ℝ => ∑ i ∈ Finset.range r, ∑ j ∈ Finset.range c,
      G i j * logOp.fwd m (fun i k => A i k + t * dA i k) (fun k j => B k j + t * dB k j) i j) =
      fun t : ℝ => ∑ i ∈ Finset.range r, ∑ j ∈ Finset.range c,
      G i j * Real.log (∑ k ∈ Finset.range m, Real.exp ((A i k + t * dA i k) + (B k j + t * dB k j))) := by
    funext t
    exact Finset.sum_congr rfl fun i _ => Finset.sum_congr rfl fun j _ => congrArg _ (matFwd_log m (fun i k => A i k + t * dA i k) (fun k j => B k j + t * dB k j) i j)
  rw [hf]
  refine h.congr_deriv ?_
  have e1 : ∀ i k, logOp.gradA r m c A B G i k =
    ∑ j ∈ Finset.range c, G i j * Real.exp (A i k + B k j - matFwd log m A B i j) := fun _ _ => rfl
  have e2 : ∀ k j, logOp.gradB r m c A B G k j =
    ∑ i ∈ Finset.range r, G i j * Real.exp (A i k + B k j - matFwd log m A B i j) := fun _ _ => rfl
  simp only [e1, e2, Finset.mul_sum, mul_add, Finset.sum_add_distrib, Finset.sum_mul]
  congr 1
  · refine Finset.sum_congr rfl fun i _ => ?_
    rw [Finset.sum_comm]
    exact Finset.sum_congr rfl fun k _ => Finset.sum_congr rfl fun j _ => by ring
  · rw [Finset.sum_comm]
    have : ∀ j, ∑ i ∈ Finset.range r, ∑ k ∈ Finset.range m, G i j * (Real.exp (A i k + B k j - matFwd log m A B i j) * dB k j) =
        ∑ k ∈ Finset.range m, ∑ i ∈ Finset.range r, G i j * Real.exp (A i k + B k j - matFwd log m A B i j) * dB k j := by
      intro j
      rw [Finset.sum_comm]
      exact Finset.sum_congr rfl fun k _ => Finset.sum_congr rfl fun i _ => by ring
    simp only [this]
    rw [Finset.sum_comm]

/-! ### Whole tensors -/

/-- `<g, x>`: the sum over all the entries. -/
def inner (g x : Tensor) : ℝ :=
  ((indices x.shape).map fun idx => ∑ i ∈ Finset.range x.rows, ∑ j ∈ Finset.range x.cols, g.get idx i j * x.get idx i j).sum

/-- The tensor `x + t * d`. -/
def along (x d : Tensor) (t : ℝ) : Tensor := ⟨x.shape, x.rows, x.cols, fun idx i j => x.get idx i j + t * d.get idx i j⟩

theorem indices_nodup : ∀ s, (indices s).Nodup
  | [] => by simp [indices]
  | d :: ds => by
    rw [indices, List.nodup_flatMap]
    refine ⟨fun i _ => (indices_nodup ds).map fun a b h => (List.cons.inj h).2, ?_⟩
    refine List.Pairwise.imp ?_ List.nodup_range
    intro i j hij
    rw [Function.onFun, List.disjoint_left]
    intro x hx hy
    simp only [List.mem_map] at hx hy
    obtain ⟨a, _, rfl⟩ := hx
    obtain ⟨b, _, h⟩ := hy
    exact hij (List.cons.inj h).1.symm

theorem mem_indices : ∀ (s idx : List ℕ), InShape s idx → idx ∈ indices s
  | [], _, h => by cases h; simp [indices]
  | d :: ds, _, h => by
    cases h with
    | @cons _ i _ is h1 h2 =>
      simp only [indices, List.mem_flatMap, List.mem_range, List.mem_map]
      exact ⟨i, h1, is, mem_indices ds is h2, rfl⟩

theorem bidx_in : ∀ {s t : List ℕ}, Expandable s t → ∀ {idx}, InShape t idx → (∀ d ∈ s, 0 < d) → InShape s (bidx s idx) := by
  intro s t h
  induction h with
  | nil => intro idx hi _; cases hi; exact .nil
  | @cons d e s t h1 _ ih =>
    intro idx hi hs
    cases hi with
    | @cons _ i _ is g1 g2 =>
      have := hs d (List.mem_cons_self ..)
      refine .cons ?_ (ih g2 fun x hx => hs x (List.mem_cons_of_mem _ hx))
      beta_reduce
      split_ifs <;> rcases h1 with h1 | h1 <;> omega

theorem sum_single {β : Type} [DecidableEq β] (L : List β) (hL : L.Nodup) {z : β} (hx : z ∈ L) (f : β → ℝ) :
    f z = (L.map fun y => if z = y then f y else 0).sum := by
  induction L with
  | nil => simp at hx
  | cons y L ih =>
    rw [List.nodup_cons] at hL
    rw [List.map_cons, List.sum_cons]
    by_cases h : z = y
    · subst h
      rw [if_pos rfl]
      have : (L.map fun y => if z = y then f y else 0) = L.map fun _ => (0 : ℝ) := by
        apply List.map_congr_left
        intro w hw
        rw [if_neg]
        rintro rfl
        exact hL.1 hw
      rw [this]; simp
    · rw [if_neg h, zero_add]
      exact ih hL.2 ((List.mem_cons.1 hx).resolve_left h)

/-- Adding up fibre by fibre. -/
theorem sum_fibre {α β : Type} [DecidableEq β] (L : List β) (M : List α) (φ : α → β) (hL : L.Nodup) (hφ : ∀ x ∈ M, φ x ∈ L) (F : α → β → ℝ) :
    (L.map fun y => ((M.filter fun x => decide (φ x = y)).map fun x => F x y).sum).sum = (M.map fun x => F x (φ x)).sum := by
  induction M with
  | nil => simp
  | cons x M ih =>
    have ih := ih fun z hz => hφ z (List.mem_cons_of_mem _ hz)
    have hx := hφ x (List.mem_cons_self ..)
    rw [List.map_cons, List.sum_cons, ← ih]
    have : (L.map fun y => (((x :: M).filter fun x => decide (φ x = y)).map fun x => F x y).sum).sum =
        (L.map fun y => (if φ x = y then F x y else 0) + ((M.filter fun x => decide (φ x = y)).map fun x => F x y).sum).sum := by
      congr 2
      funext y
      by_cases h : φ x = y
      · simp [h]
      · simp [h]
    rw [this, List.sum_map_add]
    congr 1
    exact (sum_single L hL hx (F x)).symm

theorem hasDerivAt_listSum {α : Type} (L : List α) (f : α → ℝ → ℝ) (f' : α → ℝ) (h : ∀ x ∈ L, HasDerivAt (f x) (f' x) 0) :
    HasDerivAt (fun t => (L.map fun x => f x t).sum) ((L.map f').sum) 0 := by
  induction L with
  | nil => simpa using hasDerivAt_const (0 : ℝ) (0 : ℝ)
  | cons x L ih =>
    simp only [List.map_cons, List.sum_cons]
    exact (h x (List.mem_cons_self ..)).add (ih fun y hy => h y (List.mem_cons_of_mem _ hy))

theorem swap_sums {α : Type} (M : List α) (r m : ℕ) (f : α → Mat) (d : Mat) :
    (M.map fun x => ∑ i ∈ Finset.range r, ∑ k ∈ Finset.range m, f x i k * d i k).sum =
      ∑ i ∈ Finset.range r, ∑ k ∈ Finset.range m, (M.map fun x => f x i k).sum * d i k := by
  induction M with
  | nil => simp
  | cons x M ih => simp only [List.map_cons, List.sum_cons, ih, add_mul, Finset.sum_add_distrib]

/-- The gradients that autograd returns for the plain product are the derivatives of `<g, a @ b>` in every direction, broadcasting included. -/
theorem autograd_deriv (op : MatOp) (a b da db g : Tensor) (hop : IsVJP op a.cols) (hab : Compatible a.shape b.shape) (hc : a.cols = b.rows)
    (ha : ∀ d ∈ a.shape, 0 < d) (hb : ∀ d ∈ b.shape, 0 < d)
    (hg : g.shape = List.zipWith (fun d e => if d = 1 then e else d) a.shape b.shape)
    (hda : da.shape = a.shape ∧ da.rows = a.rows ∧ da.cols = a.cols) (hdb : db.shape = b.shape ∧ db.rows = b.rows ∧ db.cols = b.cols) :
    ∃ out : ℝ → Tensor, ∃ ga gb, (∀ t, batched op (along a da t) (along b db t) = .ok (out t)) ∧
      autograd op a b g = .ok (ga, gb) ∧ HasDerivAt (fun t => inner g (out t)) (inner ga da + inner gb db) 0 := by
  obtain ⟨e1, e2, e3⟩ := compatible_size hab ha hb
  rw [e1, ← hg] at e2 e3
  refine ⟨fun t => ⟨g.shape, a.rows, b.cols, fun idx => op.fwd a.cols
      (fun i k => a.get (bidx a.shape idx) i k + t * da.get (bidx a.shape idx) i k)
      (fun k j => b.get (bidx b.shape idx) k j + t * db.get (bidx b.shape idx) k j)⟩,
    ⟨a.shape, a.rows, a.cols, fun ia i k => (((indices g.shape).filter fun idx => decide (bidx a.shape idx = ia)).map fun idx =>
            op.gradA a.rows a.cols b.cols (a.get (bidx a.shape idx)) (b.get (bidx b.shape idx)) (g.get idx) i k).sum⟩,
    ⟨b.shape, b.rows, b.cols, fun ib k j => (((indices g.shape).filter fun idx => decide (bidx b.shape idx = ib)).map fun idx =>
            op.gradB a.rows a.cols b.cols (a.get (bidx a.shape idx)) (b.get (bidx b.shape idx)) (g.get idx) k j).sum⟩,
    fun t => ?_, ?_, ?_⟩
  · unfold batched
    rw [if_pos (show Compatible (along a da t).shape (along b db t).shape ∧ (along a da t).cols = (along b db t).rows from ⟨hab, hc⟩), hg]
    rfl
  · unfold autograd
    rw [if_pos ⟨hab, hc⟩]
  · have hd := hasDerivAt_listSum (indices g.shape) _ _ fun idx _ =>
      hop a.rows b.cols (a.get (bidx a.shape idx)) (b.get (bidx b.shape idx)) (da.get (bidx a.shape idx)) (db.get (bidx b.shape idx)) (g.get idx)
    refine hd.congr_deriv ?_
    rw [List.sum_map_add]
    unfold inner
    rw [hda.1, hda.2.1, hda.2.2, hdb.1, hdb.2.1, hdb.2.2, ← hc]
    congr 1
    · rw [← sum_fibre (indices a.shape) (indices g.shape) (bidx a.shape) (indices_nodup _)
        (fun x hx => mem_indices _ _ (bidx_in e2 (indices_mem _ _ hx) ha))
        (fun idx ia => ∑ i ∈ Finset.range a.rows, ∑ k ∈ Finset.range a.cols, op.gradA a.rows a.cols b.cols (a.get (bidx a.shape idx))
          (b.get (bidx b.shape idx)) (g.get idx) i k * da.get ia i k)]
      congr 1
      apply List.map_congr_left
      intro ia _
      exact swap_sums _ _ _ _ _
    · rw [← sum_fibre (indices b.shape) (indices g.shape) (bidx b.shape) (indices_nodup _)
        (fun x hx => mem_indices _ _ (bidx_in e3 (indices_mem _ _ hx) hb))
        (fun idx ib => ∑ k ∈ Finset.range a.cols, ∑ j ∈ Finset.range b.cols, op.gradB a.rows a.cols b.cols (a.get (bidx a.shape idx))
          (b.get (bidx b.shape idx)) (g.get idx) k j * db.get ib k j)]
      congr 1
      apply List.map_congr_left
      intro ib _
      exact swap_sums _ _ _ _ _

/-- The operands of the concrete case meet the hypotheses; the directions are the operands themselves. -/
example : ∃ out : ℝ → Tensor, ∃ ga gb, (∀ t, batched logOp (along sampleA sampleA t) (along sampleB sampleB t) = .ok (out t)) ∧
    autograd logOp sampleA sampleB sampleG = .ok (ga, gb) ∧
      HasDerivAt (fun t => inner sampleG (out t)) (inner ga sampleA + inner gb sampleB) 0 :=
  autograd_deriv logOp sampleA sampleB sampleA sampleB sampleG (logOp_vjp _ (by simp [sampleA])) sample_compatible rfl (by simp [sampleA])
    (by simp [sampleB]) (by simp [sampleA, sampleB, sampleG]) ⟨rfl, rfl, rfl⟩ ⟨rfl, rfl, rfl⟩

end Props.Checkpoint
