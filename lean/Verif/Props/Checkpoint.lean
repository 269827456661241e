import Verif.Spec.Checkpoint
import Mathlib.Algebra.BigOperators.Group.List.Basic
import Mathlib.Algebra.Order.BigOperators.Group.List
import Mathlib.Tactic.Ring
import Mathlib.Algebra.BigOperators.Ring.Finset
import Mathlib.Tactic.Linarith
import Mathlib.Tactic.NormNum

/-! The checkpointed semirings compute the same products and gradients as the semiring they wrap. -/

noncomputable section
namespace Props.Checkpoint
open _root_.Checkpoint Spec.Checkpoint

theorem ravel_lt : ∀ (s idx : List ℕ), InShape s idx → ravel s idx < s.prod
  | [], _, h => by cases h; simp [ravel]
  | d :: ds, _, h => by
    cases h with
    | @cons _ i _ is h1 h2 =>
      have := ravel_lt ds is h2
      simp only [ravel, List.prod_cons]
      calc i * ds.prod + ravel ds is < i * ds.prod + ds.prod := by omega
        _ = (i + 1) * ds.prod := by ring
        _ ≤ d * ds.prod := Nat.mul_le_mul_right _ h1

theorem unravel_ravel : ∀ (s idx : List ℕ), InShape s idx → unravel s (ravel s idx) = idx
  | [], _, h => by cases h; simp [unravel]
  | d :: ds, _, h => by
    cases h with
    | @cons _ i _ is h1 h2 =>
      have h3 := ravel_lt ds is h2
      have h4 : 0 < ds.prod := by omega
      simp only [ravel, unravel]
      have e1 : (i * ds.prod + ravel ds is) / ds.prod = i := by
        rw [Nat.mul_comm, Nat.mul_add_div h4, Nat.div_eq_of_lt h3]; simp
      have e2 : (i * ds.prod + ravel ds is) % ds.prod = ravel ds is := by
        rw [Nat.mul_comm, Nat.mul_add_mod, Nat.mod_eq_of_lt h3]
      rw [e1, e2, unravel_ravel ds is h2]

/-- The slices `[p, p + step)` with `p` in `range(0, n, step)` cover `[0, n)`. -/
theorem starts_cover (n step : ℕ) (h : 0 < step) : n ≤ (n + step - 1) / step * step := by
  have h1 := Nat.div_add_mod (n + step - 1) step
  have h2 := Nat.mod_lt (n + step - 1) h
  rw [Nat.mul_comm] at h1
  omega

theorem starts_lt (n step k : ℕ) (h : 0 < step) (hk : k < (n + step - 1) / step) : k * step < n := by
  have h1 : (k + 1) * step ≤ n + step - 1 := le_trans (Nat.mul_le_mul_right _ hk) (Nat.div_mul_le_self _ _)
  rw [Nat.add_mul] at h1
  omega

theorem compatible_refl (s : List ℕ) : Compatible s s := by
  induction s with
  | nil => exact .nil
  | cons d ds ih => exact .cons (Or.inl rfl) ih

section forward
variable (op : MatOp)

theorem step_eq (step n : ℕ) (a b : Tensor) (a2 b2 : ℕ → Mat) (hc : a.cols = b.rows) (ret : ℕ → Mat) (p : ℕ) :
    ∃ ret', accumulateStep (batched op) step n a b a2 b2 ret p = .ok ret' ∧
      ∀ q, q < n → ret' q = if p ≤ q ∧ q < p + step then op.fwd a.cols (a2 q) (b2 q) else ret q := by
  have e : batched op (slice a2 n p step a.rows a.cols) (slice b2 n p step b.rows b.cols) =
      .ok ⟨[min step (n - p)], a.rows, b.cols, fun idx => op.fwd a.cols (a2 (p + (bidx [min step (n - p)] idx).headD 0))
        (b2 (p + (bidx [min step (n - p)] idx).headD 0))⟩ := by
    unfold batched slice
    rw [if_pos ⟨compatible_refl _, hc⟩]
    simp
  refine ⟨fun q => if p ≤ q ∧ q < p + step then op.fwd a.cols
      (a2 (p + (bidx [min step (n - p)] (bidx [min step (n - p)] [q - p])).headD 0))
      (b2 (p + (bidx [min step (n - p)] (bidx [min step (n - p)] [q - p])).headD 0)) else ret q, ?_, ?_⟩
  · unfold accumulateStep
    rw [e]
    change (if _ then _ else _) = _
    rw [if_pos (Or.inl rfl)]
  · intro q hq
    beta_reduce
    by_cases h : p ≤ q ∧ q < p + step
    · rw [if_pos h, if_pos h]
      have : p + (bidx [min step (n - p)] (bidx [min step (n - p)] [q - p])).headD 0 = q := by
        simp only [bidx, List.zipWith_cons_cons, List.headD_cons]
        split_ifs <;> omega
      rw [this]
    · rw [if_neg h, if_neg h]

theorem loop_eq (step n : ℕ) (hs : 0 < step) (a b : Tensor) (a2 b2 : ℕ → Mat) (hc : a.cols = b.rows) (K : ℕ) :
    ∃ ret, ((List.range K).map (· * step)).foldlM (accumulateStep (batched op) step n a b a2 b2) (fun _ _ _ => 0) = .ok ret ∧
      ∀ q, q < n → q < K * step → ret q = op.fwd a.cols (a2 q) (b2 q) := by
  induction K with
  | zero => exact ⟨_, rfl, by intro q _ h; simp at h⟩
  | succ K ih =>
    obtain ⟨ret, h1, h2⟩ := ih
    obtain ⟨ret', h3, h4⟩ := step_eq op step n a b a2 b2 hc ret (K * step)
    refine ⟨ret', ?_, ?_⟩
    · rw [List.range_succ, List.map_append, List.foldlM_append, h1]
      change (accumulateStep (batched op) step n a b a2 b2 ret (K * step) >>= fun r => pure r) = _
      rw [h3]; rfl
    · intro q hq hk
      rw [h4 q hq]
      rw [Nat.add_mul] at hk
      split_ifs with h
      · rfl
      · exact h2 q hq (by omega)

theorem compatible_size {s t : List ℕ} (h : Compatible s t) (hs : ∀ d ∈ s, 0 < d) (ht : ∀ d ∈ t, 0 < d) :
    List.zipWith max s t = List.zipWith (fun d e => if d = 1 then e else d) s t ∧
      Expandable s (List.zipWith max s t) ∧ Expandable t (List.zipWith max s t) := by
  induction h with
  | nil => exact ⟨rfl, .nil, .nil⟩
  | @cons d e s t h1 _ ih =>
    obtain ⟨i1, i2, i3⟩ := ih (fun x hx => hs x (List.mem_cons_of_mem _ hx)) (fun x hx => ht x (List.mem_cons_of_mem _ hx))
    have hd := hs d (List.mem_cons_self ..)
    have he := ht e (List.mem_cons_self ..)
    simp only [List.zipWith_cons_cons]
    refine ⟨?_, ?_, ?_⟩
    · rw [i1]
      congr 1
      split_ifs <;> omega
    · exact .cons (by rcases h1 with h1 | h1 | h1 <;> omega) i2
    · exact .cons (by rcases h1 with h1 | h1 | h1 <;> omega) i3

/-- **C40, forward.**  For any operation on matrices (so for the product of every semiring of size one), any operands that can be broadcast and
any size limits, the sharded product is the plain product. -/
theorem shard_matmul_partial (maxSize minSize : ℕ) (a b : Tensor) (hab : Compatible a.shape b.shape) (hc : a.cols = b.rows)
    (ha : ∀ d ∈ a.shape, 0 < d) (hb : ∀ d ∈ b.shape, 0 < d) (hm : 0 < a.cols) :
    SameResult (shardMatmul (batched op) maxSize minSize a b) (batched op a b) := by
  have hok : batched op a b = .ok ⟨List.zipWith (fun d e => if d = 1 then e else d) a.shape b.shape, a.rows, b.cols,
      fun idx => op.fwd a.cols (a.get (bidx a.shape idx)) (b.get (bidx b.shape idx))⟩ := by
    unfold batched; rw [if_pos ⟨hab, hc⟩]
  have triv : SameResult (batched op a b) (batched op a b) := ⟨_, _, hok, hok, rfl, rfl, rfl, fun _ _ _ _ _ _ => rfl⟩
  unfold shardMatmul
  split_ifs with h1 h2
  · exact triv
  · exact absurd h2 (by rw [← hc]; exact (Nat.mul_pos hm hm).ne')
  · unfold accumulate
    obtain ⟨e1, e2, e3⟩ := compatible_size hab ha hb
    simp only
    split_ifs with h3 h4
    · exact triv
    · have hs : 0 < shardStep maxSize a b := Nat.succ_pos _
      obtain ⟨ret, r1, r2⟩ := loop_eq op (shardStep maxSize a b) (matmulSize a b).prod hs a b (flat (matmulSize a b) a)
        (flat (matmulSize a b) b) hc (((matmulSize a b).prod + shardStep maxSize a b - 1) / shardStep maxSize a b)
      refine ⟨⟨matmulSize a b, a.rows, b.cols, fun idx => ret (ravel (matmulSize a b) idx)⟩, _, ?_, hok, e1, rfl, rfl, ?_⟩
      · unfold starts
        rw [r1]; rfl
      · intro idx i j hi _ _
        change InShape (matmulSize a b) idx at hi
        have hl := ravel_lt _ _ hi
        change ret (ravel (matmulSize a b) idx) i j = op.fwd a.cols (a.get (bidx a.shape idx)) (b.get (bidx b.shape idx)) i j
        rw [r2 _ hl (lt_of_lt_of_le hl (starts_cover _ _ hs))]
        unfold flat
        rw [unravel_ravel _ _ hi]
    · exact absurd ⟨e2, e3⟩ h4

/-- **C40, forward.**  `CheckpointSemiring` computes the plain product, whatever the semiring. -/
theorem checkpoint_matmul (fn : Tensor → Tensor → Except PyErr Tensor) (minSize : ℕ) (a b : Tensor) :
    checkpointMatmul fn minSize a b = fn a b := ite_self _

end forward

section backward
variable (op : MatOp)

theorem sum_map_flatMap {α β : Type} (l : List α) (f : α → List β) (g : β → ℝ) :
    ((l.flatMap f).map g).sum = (l.map fun x => ((f x).map g).sum).sum := by
  induction l with
  | nil => rfl
  | cons x l ih => simp [ih]

theorem sum_range_single (n i : ℕ) (h : i < n) (f : ℕ → ℝ) :
    ((List.range n).map fun k => if k = i then f k else 0).sum = f i := by
  have : ((List.range n).map fun k => if k = i then f k else 0).sum = ∑ k ∈ Finset.range n, if k = i then f k else 0 := rfl
  rw [this, Finset.sum_ite_eq' (Finset.range n) i f, if_pos (Finset.mem_range.2 h)]

/-- Adding up the dimensions in which a shape is one = adding up all positions that read the same entry. -/
theorem sumOnes_spec : ∀ (shape size : List ℕ), Expandable shape size → ∀ (f : List ℕ → ℝ) (ix : List ℕ), InShape shape ix →
    sumOnes shape size f ix = (((indices size).filter fun idx => decide (bidx shape idx = ix)).map f).sum
  | [], [], _, f, ix, h => by
    cases h
    simp [sumOnes, indices, bidx]
  | d :: ds, s :: ss, he, f, ix, h => by
    cases h with
    | @cons _ i _ is h1 h2 =>
    cases he with
    | cons g1 g2 =>
    have key : ∀ k, ((((indices ss).map (k :: ·)).filter fun idx => decide (bidx (d :: ds) idx = i :: is)).map f).sum =
        if (if d = 1 then 0 else k) = i then
          (((indices ss).filter fun idx => decide (bidx ds idx = is)).map fun r => f (k :: r)).sum else 0 := by
      intro k
      rw [List.filter_map, List.map_map]
      have e : ((fun idx => decide (bidx (d :: ds) idx = i :: is)) ∘ fun r => k :: r) =
          fun r => decide ((if d = 1 then 0 else k) = i) && decide (bidx ds r = is) := by
        funext r
        by_cases hk : (if d = 1 then 0 else k) = i <;> simp [bidx, hk] <;> congr
      rw [e]
      by_cases hk : (if d = 1 then 0 else k) = i
      · rw [if_pos hk]
        simp only [hk, decide_true, Bool.true_and]
        rfl
      · rw [if_neg hk]
        simp [hk]
    have exp : (((indices (s :: ss)).filter fun idx => decide (bidx (d :: ds) idx = i :: is)).map f).sum =
        ((List.range s).map fun k => if (if d = 1 then 0 else k) = i then
          (((indices ss).filter fun idx => decide (bidx ds idx = is)).map fun r => f (k :: r)).sum else 0).sum := by
      rw [indices, List.filter_flatMap, sum_map_flatMap]
      congr 2
      funext k
      exact key k
    rw [exp]
    by_cases hd : d = 1
    · subst hd
      have : i = 0 := by omega
      subst this
      simp only [sumOnes, if_true]
      congr 2
      funext k
      exact sumOnes_spec ds ss g2 _ is h2
    · have hs : d = s := by omega
      subst hs
      simp only [sumOnes, if_neg hd]
      rw [sum_range_single _ _ h1 fun k =>
        (((indices ss).filter fun idx => decide (bidx ds idx = is)).map fun r => f (k :: r)).sum]
      exact sumOnes_spec ds ss g2 _ is h2

theorem sum_chunk (n i : ℕ) (h : i < n) (F : List ℕ → ℝ) :
    (((indices [n]).filter fun idx => decide (bidx [n] idx = [i])).map F).sum = F [i] := by
  rw [← sumOnes_spec [n] [n] (.cons (Or.inl rfl) .nil) F [i] (.cons h .nil)]
  by_cases hn : n = 1
  · subst hn
    have : i = 0 := by omega
    subst this
    simp [sumOnes]
  · simp [sumOnes, hn]

theorem unstep_eq (step n : ℕ) (a b : Tensor) (a2 b2 g2 : ℕ → Mat) (hc : a.cols = b.rows) (acc : (ℕ → Mat) × (ℕ → Mat)) (p : ℕ) :
    ∃ acc', unaccumulateStep (autograd op) step n a b a2 b2 g2 acc p = .ok acc' ∧
      (∀ q, q < n → ∀ i k, acc'.1 q i k = if p ≤ q ∧ q < p + step then
        acc.1 q i k + op.gradA a.rows a.cols b.cols (a2 q) (b2 q) (g2 q) i k else acc.1 q i k) ∧
      (∀ q, q < n → ∀ i k, acc'.2 q i k = if p ≤ q ∧ q < p + step then
        acc.2 q i k + op.gradB a.rows a.cols b.cols (a2 q) (b2 q) (g2 q) i k else acc.2 q i k) := by
  have hcomp : Compatible (slice a2 n p step a.rows a.cols).shape (slice b2 n p step b.rows b.cols).shape ∧
      (slice a2 n p step a.rows a.cols).cols = (slice b2 n p step b.rows b.cols).rows := ⟨compatible_refl _, hc⟩
  obtain ⟨r, hr, hA, hB⟩ : ∃ r, autograd op (slice a2 n p step a.rows a.cols) (slice b2 n p step b.rows b.cols)
      (slice g2 n p step a.rows b.cols) = .ok r ∧
      (∀ q, q < n → p ≤ q → q < p + step → ∀ i k, r.1.get [q - p] i k =
        op.gradA a.rows a.cols b.cols (a2 q) (b2 q) (g2 q) i k) ∧
      (∀ q, q < n → p ≤ q → q < p + step → ∀ i k, r.2.get [q - p] i k =
        op.gradB a.rows a.cols b.cols (a2 q) (b2 q) (g2 q) i k) := by
    unfold autograd
    rw [if_pos hcomp]
    refine ⟨_, rfl, ?_, ?_⟩
    all_goals
      intro q hq h1 h2 i k
      change (((indices [min step (n - p)]).filter fun idx => decide (bidx [min step (n - p)] idx = [q - p])).map _).sum = _
      rw [sum_chunk _ _ (by omega)]
      have e1 : p + (bidx [min step (n - p)] [q - p]).headD 0 = q := by
        simp only [bidx, List.zipWith_cons_cons, List.headD_cons]
        split_ifs <;> omega
      have e2 : p + ([q - p] : List ℕ).headD 0 = q := by simp only [List.headD_cons]; omega
    · change op.gradA a.rows a.cols b.cols (a2 (p + (bidx [min step (n - p)] [q - p]).headD 0))
        (b2 (p + (bidx [min step (n - p)] [q - p]).headD 0)) (g2 (p + ([q - p] : List ℕ).headD 0)) i k = _
      rw [e1, e2]
    · change op.gradB a.rows a.cols b.cols (a2 (p + (bidx [min step (n - p)] [q - p]).headD 0))
        (b2 (p + (bidx [min step (n - p)] [q - p]).headD 0)) (g2 (p + ([q - p] : List ℕ).headD 0)) i k = _
      rw [e1, e2]
  refine ⟨(fun q i k => if p ≤ q ∧ q < p + step then acc.1 q i k + r.1.get [q - p] i k else acc.1 q i k,
    fun q i k => if p ≤ q ∧ q < p + step then acc.2 q i k + r.2.get [q - p] i k else acc.2 q i k), ?_, ?_, ?_⟩
  · unfold unaccumulateStep
    rw [hr]
    rfl
  · intro q hq i k
    by_cases h : p ≤ q ∧ q < p + step
    · simp only [if_pos h, hA q hq h.1 h.2]
    · simp only [if_neg h]
  · intro q hq i k
    by_cases h : p ≤ q ∧ q < p + step
    · simp only [if_pos h, hB q hq h.1 h.2]
    · simp only [if_neg h]

theorem unloop_eq (step n : ℕ) (a b : Tensor) (a2 b2 g2 : ℕ → Mat) (hc : a.cols = b.rows) (K : ℕ) :
    ∃ acc, ((List.range K).map (· * step)).foldlM (unaccumulateStep (autograd op) step n a b a2 b2 g2)
        (fun _ _ _ => 0, fun _ _ _ => 0) = .ok acc ∧
      (∀ q, q < n → ∀ i k, acc.1 q i k = if q < K * step then op.gradA a.rows a.cols b.cols (a2 q) (b2 q) (g2 q) i k else 0) ∧
      (∀ q, q < n → ∀ i k, acc.2 q i k = if q < K * step then op.gradB a.rows a.cols b.cols (a2 q) (b2 q) (g2 q) i k else 0) := by
  induction K with
  | zero => exact ⟨_, rfl, by intros; simp, by intros; simp⟩
  | succ K ih =>
    obtain ⟨acc, h1, h2, h3⟩ := ih
    obtain ⟨acc', h4, h5, h6⟩ := unstep_eq op step n a b a2 b2 g2 hc acc (K * step)
    refine ⟨acc', ?_, ?_, ?_⟩
    · rw [List.range_succ, List.map_append, List.foldlM_append, h1]
      change (unaccumulateStep (autograd op) step n a b a2 b2 g2 acc (K * step) >>= fun r => pure r) = _
      rw [h4]; rfl
    · intro q hq i k
      rw [h5 q hq, h2 q hq, Nat.add_mul]
      split_ifs <;> first | omega | simp
    · intro q hq i k
      rw [h6 q hq, h3 q hq, Nat.add_mul]
      split_ifs <;> first | omega | simp

theorem indices_mem : ∀ (s idx : List ℕ), idx ∈ indices s → InShape s idx
  | [], idx, h => by simp [indices] at h; subst h; exact .nil
  | d :: ds, idx, h => by
    simp only [indices, List.mem_flatMap, List.mem_range, List.mem_map] at h
    obtain ⟨i, hi, r, hr, rfl⟩ := h
    exact .cons hi (indices_mem ds r hr)

theorem gradSum_eq (size : List ℕ) (x : Tensor) (acc : ℕ → Mat) (G : List ℕ → Mat) (he : Expandable x.shape size)
    (hx : 1 ∈ x.shape ∨ x.rows = 1) (hacc : ∀ idx, InShape size idx → acc (ravel size idx) = G idx) :
    ∃ f, gradSum size x acc = .ok f ∧ Same f ⟨x.shape, x.rows, x.cols, fun ix i k =>
      (((indices size).filter fun idx => decide (bidx x.shape idx = ix)).map fun idx => G idx i k).sum⟩ := by
  unfold gradSum
  rw [if_pos hx]
  refine ⟨_, rfl, rfl, rfl, rfl, ?_⟩
  intro ix i k hix hi hk
  change InShape x.shape ix at hix
  change i < x.rows at hi
  change sumOnes x.shape size _ ix = _
  rw [sumOnes_spec _ _ he _ _ hix]
  congr 1
  apply List.map_congr_left
  intro idx hidx
  have hin := indices_mem _ _ (List.mem_of_mem_filter hidx)
  rw [hacc idx hin]
  split_ifs with h
  · rw [h] at hi ⊢
    have : i = 0 := by omega
    subst this
    simp
  · rfl

theorem bidx_self {s idx : List ℕ} (h : InShape s idx) : bidx s idx = idx := by
  unfold bidx
  induction h with
  | nil => rfl
  | @cons d i ds is h _ ih =>
    simp only [List.zipWith_cons_cons, ih]
    congr 1
    split_ifs <;> omega

/-- **C40, backward.**  For any operation on matrices, any operands that can be broadcast and that have a dimension of size one before
the last (the tensors of the dynamic programs have the slot dimension), any output gradient and any size limit, the sharded backward pass returns the
gradients of the plain product. -/
theorem shard_backward (maxSize : ℕ) (a b g : Tensor) (hab : Compatible a.shape b.shape) (hc : a.cols = b.rows)
    (ha : ∀ d ∈ a.shape, 0 < d) (hb : ∀ d ∈ b.shape, 0 < d) (hm : 0 < a.cols)
    (hg : g.shape = List.zipWith (fun d e => if d = 1 then e else d) a.shape b.shape)
    (h1 : 1 ∈ a.shape ∨ a.rows = 1) (h2 : 1 ∈ b.shape ∨ b.rows = 1) :
    SameGrads (shardBackward (autograd op) maxSize a b g) (autograd op a b g) := by
  have hok := show autograd op a b g = .ok _ from by
    unfold autograd
    rw [if_pos ⟨hab, hc⟩]
  have triv : SameGrads (autograd op a b g) (autograd op a b g) :=
    ⟨_, _, hok, hok, ⟨rfl, rfl, rfl, fun _ _ _ _ _ _ => rfl⟩, ⟨rfl, rfl, rfl, fun _ _ _ _ _ _ => rfl⟩⟩
  obtain ⟨e1, e2, e3⟩ := compatible_size hab ha hb
  rw [e1, ← hg] at e2 e3
  unfold shardBackward
  rw [if_neg (by rw [← hc]; exact (Nat.mul_pos hm hm).ne')]
  unfold unaccumulate
  simp only
  split_ifs with h3 h4
  · exact triv
  · have hs : 0 < shardStep maxSize a b := Nat.succ_pos _
    obtain ⟨acc, r1, r2, r3⟩ := unloop_eq op (shardStep maxSize a b) g.shape.prod a b (flat g.shape a) (flat g.shape b) (flat g.shape g) hc
      ((g.shape.prod + shardStep maxSize a b - 1) / shardStep maxSize a b)
    have hgid : ∀ idx, InShape g.shape idx → bidx g.shape idx = idx := fun idx h => bidx_self h
    obtain ⟨f1, q1, s1⟩ := gradSum_eq g.shape a acc.1 (fun idx => op.gradA a.rows a.cols b.cols (a.get (bidx a.shape idx))
      (b.get (bidx b.shape idx)) (g.get idx)) e2 h1 (by
        intro idx hi
        have hl := ravel_lt _ _ hi
        funext i k
        rw [r2 _ hl, if_pos (lt_of_lt_of_le hl (starts_cover _ _ hs))]
        unfold flat
        rw [unravel_ravel _ _ hi, hgid idx hi])
    obtain ⟨f2, q2, s2⟩ := gradSum_eq g.shape b acc.2 (fun idx => op.gradB a.rows a.cols b.cols (a.get (bidx a.shape idx))
      (b.get (bidx b.shape idx)) (g.get idx)) e3 h2 (by
        intro idx hi
        have hl := ravel_lt _ _ hi
        funext i k
        rw [r3 _ hl, if_pos (lt_of_lt_of_le hl (starts_cover _ _ hs))]
        unfold flat
        rw [unravel_ravel _ _ hi, hgid idx hi])
    refine ⟨(f1, f2), _, ?_, hok, s1, s2⟩
    unfold starts
    rw [r1]
    change (gradSum g.shape a acc.1 >>= fun f1 => gradSum g.shape b acc.2 >>= fun f2 => Except.ok (f1, f2)) = _
    rw [q1]
    change (gradSum g.shape b acc.2 >>= fun f2 => Except.ok (f1, f2)) = _
    rw [q2]
    rfl
  · exact absurd ⟨e2, e3⟩ h4

end backward

/-- A concrete case with broadcasting in both operands: batch shapes `(3, 1, 1)` and `(1, 1, 2)`, matrices `2 x 2` and `2 x 3`, and size
limits that make the sharded pass take several slices. -/
def sampleA : Tensor := ⟨[3, 1, 1], 2, 2, fun idx i j => (idx.getD 0 0 : ℝ) + 2 * i - j⟩
def sampleB : Tensor := ⟨[1, 1, 2], 2, 3, fun idx i j => (idx.getD 2 0 : ℝ) - i + 3 * j⟩
def sampleG : Tensor := ⟨[3, 1, 2], 2, 3, fun idx i j => (idx.getD 0 0 : ℝ) - idx.getD 2 0 + i * j⟩

theorem sample_compatible : Compatible sampleA.shape sampleB.shape := by
  simp [Compatible, sampleA, sampleB]

example (op : MatOp) : SameResult (shardMatmul (batched op) 8 0 sampleA sampleB) (batched op sampleA sampleB) :=
  shard_matmul_partial op 8 0 sampleA sampleB sample_compatible rfl (by simp [sampleA]) (by simp [sampleB]) (by simp [sampleA])

example (op : MatOp) : SameGrads (shardBackward (autograd op) 8 sampleA sampleB sampleG) (autograd op sampleA sampleB sampleG) :=
  shard_backward op 8 sampleA sampleB sampleG sample_compatible rfl (by simp [sampleA]) (by simp [sampleB]) (by simp [sampleA])
    (by simp [sampleA, sampleB, sampleG]) (by simp [sampleA]) (by simp [sampleB])

end Props.Checkpoint
