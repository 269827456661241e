import Verif.Props.CheckpointGrad
import Verif.Model.LinearChain

/-! How the checkpointed semirings are used: gradients of the sharded `LogSemiring`, the products of the chain algorithm, and where sharding
goes wrong. -/

noncomputable section
namespace Props.Checkpoint
open _root_.Checkpoint Spec.Checkpoint Semirings

theorem inner_congr {x y d : Tensor} (h : Same x y) (hs : d.shape = x.shape) (hr : d.rows = x.rows) (hc : d.cols = x.cols) :
    inner x d = inner y d := by
  unfold inner
  congr 1
  apply List.map_congr_left
  intro idx hi
  refine Finset.sum_congr rfl fun i h1 => Finset.sum_congr rfl fun j h2 => ?_
  rw [h.get idx i j (hs ▸ indices_mem _ _ hi) (hr ▸ Finset.mem_range.1 h1) (hc ▸ Finset.mem_range.1 h2)]

/-- **C40.**  `CheckpointShardSemiring(LogSemiring, max_size, min_size)`: for all operands, size limits, output gradients `g` and directions
`(da, db)`, the product is defined, and the gradients of its backward pass give the derivative of `<g, a @ b>` in that direction. -/
theorem log_shard_gradient (maxSize minSize : ℕ) (a b da db g : Tensor) (hab : Compatible a.shape b.shape) (hc : a.cols = b.rows)
    (ha : ∀ d ∈ a.shape, 0 < d) (hb : ∀ d ∈ b.shape, 0 < d) (hm : 0 < a.cols)
    (hg : g.shape = List.zipWith (fun d e => if d = 1 then e else d) a.shape b.shape)
    (hda : da.shape = a.shape ∧ da.rows = a.rows ∧ da.cols = a.cols) (hdb : db.shape = b.shape ∧ db.rows = b.rows ∧ db.cols = b.cols)
    (h1 : 1 ∈ a.shape ∨ a.rows = 1) (h2 : 1 ∈ b.shape ∨ b.rows = 1) :
    ∃ out : ℝ → Tensor, ∃ ga gb,
      (∀ t, SameResult (shardMatmul (batched logOp) maxSize minSize (along a da t) (along b db t)) (.ok (out t))) ∧
      shardBackward (autograd logOp) maxSize a b g = .ok (ga, gb) ∧
      HasDerivAt (fun t => inner g (out t)) (inner ga da + inner gb db) 0 := by
  obtain ⟨out, ga, gb, r1, r2, r3⟩ := autograd_deriv logOp a b da db g (logOp_vjp _ hm) hab hc ha hb hg hda hdb
  obtain ⟨x, y, q1, q2, q3, q4⟩ := shard_backward logOp maxSize a b g hab hc ha hb hm hg h1 h2
  rw [r2] at q2
  obtain rfl := Except.ok.inj q2
  have hs : ga.shape = a.shape ∧ ga.rows = a.rows ∧ ga.cols = a.cols ∧ gb.shape = b.shape ∧ gb.rows = b.rows ∧ gb.cols = b.cols := by
    unfold autograd at r2
    rw [if_pos ⟨hab, hc⟩] at r2
    have := Except.ok.inj r2
    rw [Prod.mk.injEq] at this
    obtain ⟨rfl, rfl⟩ := this
    exact ⟨rfl, rfl, rfl, rfl, rfl, rfl⟩
  refine ⟨out, x.1, x.2, fun t => ?_, by rw [q1], ?_⟩
  · rw [← r1 t]
    exact shard_matmul_partial logOp maxSize minSize _ _ hab hc ha hb hm
  · rw [inner_congr q3 (by rw [q3.shape, hda.1, hs.1]) (by rw [q3.rows, hda.2.1, hs.2.1]) (by rw [q3.cols, hda.2.2, hs.2.2.1]),
      inner_congr q4 (by rw [q4.shape, hdb.1, hs.2.2.2.1]) (by rw [q4.rows, hdb.2.1, hs.2.2.2.2.1]) (by rw [q4.cols, hdb.2.2, hs.2.2.2.2.2])]
    exact r3

/-- The operands of line 83 of linearchain.py as tensors of shape `(1, batch, n, C, C)`: the entries `2 n + off` of the chart. -/
def chartTensor {C : ℕ} (batch n off : ℕ) (chart : ℕ → ℕ → Fin C → Fin C → ℝ) : Tensor :=
  ⟨[1, batch, n], C, C, fun idx i j => if h : i < C ∧ j < C then
    chart (idx.getD 1 0) (2 * idx.getD 2 0 + off) ⟨i, h.1⟩ ⟨j, h.2⟩ else 0⟩

/-- **C40.**  With a sharded semiring of size one, the products of the chain algorithm (linearchain.py:83) are the products of the plain
semiring, for every batch, length, number of classes and size limits. -/
theorem chain_shard (S : SR ℝ) (op : MatOp) (hop : op.fwd = matFwd S) {C : ℕ} (hC : 0 < C) (batch n maxSize minSize : ℕ) (hB : 0 < batch)
    (hn : 0 < n) (chart : ℕ → ℕ → Fin C → Fin C → ℝ) :
    ∃ out, shardMatmul (batched op) maxSize minSize (chartTensor batch n 1 chart) (chartTensor batch n 0 chart) = .ok out ∧
      out.shape = [1, batch, n] ∧ out.rows = C ∧ out.cols = C ∧
      ∀ b < batch, ∀ k < n, ∀ i j : Fin C, out.get [0, b, k] i j = S.matmul (chart b (2 * k + 1)) (chart b (2 * k)) i j := by
  have hpos : ∀ d ∈ [1, batch, n], 0 < d := by
    intro d hd; simp at hd; omega
  obtain ⟨x, y, h1, h2, h3⟩ := shard_matmul_partial op maxSize minSize (chartTensor batch n 1 chart) (chartTensor batch n 0 chart)
    (compatible_refl _) rfl hpos hpos hC
  unfold batched at h2
  rw [if_pos ⟨compatible_refl _, rfl⟩] at h2
  obtain rfl := Except.ok.inj h2
  have hsh : x.shape = [1, batch, n] := by rw [h3.shape]; simp [chartTensor]
  refine ⟨x, h1, hsh, h3.rows, h3.cols, ?_⟩
  intro b hb k hk i j
  rw [h3.get [0, b, k] i j (by rw [hsh]; exact .cons (by omega) (.cons hb (.cons hk .nil))) (by rw [h3.rows]; exact i.2)
    (by rw [h3.cols]; exact j.2)]
  change op.fwd C _ _ i j = _
  have hb' : (if batch = 1 then 0 else b) = b := by split_ifs <;> omega
  have hk' : (if n = 1 then 0 else k) = k := by split_ifs <;> omega
  rw [hop]
  unfold matFwd SR.matmul
  congr 1
  apply List.ext_getElem
  · simp
  · intro l h4 h5
    simp only [List.length_map, List.length_range] at h4
    simp [chartTensor, bidx, hb', hk', h4]

/-- `CheckpointShardSemiring` does not always differentiate: if neither a leading dimension of `a` nor its number of rows is one, and there is more than one shard,
the backward pass adds up *every* dimension and fails, although the plain semiring has a gradient. -/
theorem shard_backward_rejects (op : MatOp) (maxSize : ℕ) (a b g : Tensor) (hab : Compatible a.shape b.shape) (hc : a.cols = b.rows)
    (h1 : ¬ (1 ∈ a.shape ∨ a.rows = 1)) (hstep : shardStep maxSize a b ≤ g.shape.prod * g.rows * g.cols) :
    shardBackward (autograd op) maxSize a b g = .error .runtime ∧ ∃ r, autograd op a b g = .ok r := by
  constructor
  · unfold shardBackward
    split_ifs with h2
    · rfl
    · unfold unaccumulate
      simp only
      rw [if_neg (by omega)]
      split_ifs with h4
      · obtain ⟨acc, r1, -, -⟩ := unloop_eq op (shardStep maxSize a b) g.shape.prod a b (flat g.shape a) (flat g.shape b)
          (flat g.shape g) hc ((g.shape.prod + shardStep maxSize a b - 1) / shardStep maxSize a b)
        unfold starts
        rw [r1]
        change (gradSum g.shape a acc.1 >>= _) = _
        unfold gradSum
        rw [if_neg h1]
        rfl
      · rfl
  · unfold autograd
    rw [if_pos ⟨hab, hc⟩]
    exact ⟨_, rfl⟩

example : ∃ a b g : Tensor, Compatible a.shape b.shape ∧ a.cols = b.rows ∧ ¬ (1 ∈ a.shape ∨ a.rows = 1) ∧
    shardStep 4 a b ≤ g.shape.prod * g.rows * g.cols :=
  ⟨⟨[3], 2, 2, fun _ _ _ => 0⟩, ⟨[3], 2, 2, fun _ _ _ => 0⟩, ⟨[3], 2, 2, fun _ _ _ => 0⟩, compatible_refl _, rfl, by simp, by simp [shardStep]⟩

/-- The hypotheses of `log_shard_gradient` with several shards: the loop runs for `p = 0, 3, 6`, and the second operand is broadcast. -/
example : ∃ a b g : Tensor, Compatible a.shape b.shape ∧ a.cols = b.rows ∧ (∀ d ∈ a.shape, 0 < d) ∧ (∀ d ∈ b.shape, 0 < d) ∧ 0 < a.cols ∧
    g.shape = List.zipWith (fun d e => if d = 1 then e else d) a.shape b.shape ∧ (1 ∈ a.shape ∨ a.rows = 1) ∧ (1 ∈ b.shape ∨ b.rows = 1) ∧
    shardStep 4 a b ≤ g.shape.prod * a.rows * b.cols ∧ starts g.shape.prod (shardStep 4 a b) = [0, 3, 6] :=
  ⟨⟨[1, 4, 2], 2, 2, fun _ _ _ => 0⟩, ⟨[1, 1, 2], 2, 2, fun _ _ _ => 0⟩, ⟨[1, 4, 2], 2, 2, fun _ _ _ => 0⟩,
    .cons (Or.inl rfl) (.cons (Or.inr (Or.inr rfl)) (.cons (Or.inl rfl) .nil)), rfl, by simp, by simp, by simp, by simp, by simp, by simp,
    by simp [shardStep], by simp [shardStep, starts, List.range_succ]⟩

/-! ### Semirings with more than one slot -/

/-- Operands with two slots and a batch of two; the log-values of the second row are `log 3` and `0`, everything else is `0`. -/
def entA : Tensor := ⟨[2, 2], 1, 2, fun idx _ k => if idx = [0, 1] ∧ k = 0 then Real.log 3 else 0⟩

def entB : Tensor := ⟨[2, 2], 2, 1, fun _ _ _ => 0⟩

/-- The entry of `EntropySemiring.matmul` that comes from the slots `0 :: ia`, `1 :: ia` of `a` and `0 :: ib`, `1 :: ib` of `b`. -/
def entEntry (a b : Tensor) (ia ib : List ℕ) (i j : ℕ) : ℝ × ℝ :=
  Semirings.entropy.sum ((List.range a.cols).map fun k =>
    (a.get (0 :: ia) i k + b.get (0 :: ib) k j, a.get (1 :: ia) i k + b.get (1 :: ib) k j))

theorem entropyMatmul_eq (ds : List ℕ) (r m c : ℕ) (f g : List ℕ → ℕ → ℕ → ℝ) :
    entropyMatmul ⟨2 :: ds, r, m, f⟩ ⟨2 :: ds, m, c, g⟩ =
      .ok ⟨2 :: List.zipWith (fun d e => if d = 1 then e else d) ds ds, r, c, fun idx i j =>
        let e := entEntry ⟨2 :: ds, r, m, f⟩ ⟨2 :: ds, m, c, g⟩ (bidx ds idx.tail) (bidx ds idx.tail) i j
        if idx.headD 0 = 0 then e.1 else e.2⟩ := by
  unfold entropyMatmul
  simp only
  rw [if_neg (by omega), if_pos ⟨compatible_refl _, rfl⟩]
  rfl

theorem entropy_two (x y u v : ℝ) : Semirings.entropy.sum [(x, u), (y, v)] =
    (Real.log (Real.exp x + Real.exp y),
      (u * Real.exp (x - Real.log (Real.exp x + Real.exp y)) -
        (x - Real.log (Real.exp x + Real.exp y)) * Real.exp (x - Real.log (Real.exp x + Real.exp y))) +
      (v * Real.exp (y - Real.log (Real.exp x + Real.exp y)) -
        (y - Real.log (Real.exp x + Real.exp y)) * Real.exp (y - Real.log (Real.exp x + Real.exp y)))) := by
  simp [Semirings.entropy, entropyZ, lse]

theorem ent_plain : ∃ out, entropyMatmul entA entB = .ok out ∧ out.shape = [2, 2] ∧ out.get [0, 1] 0 0 = Real.log 4 := by
  refine ⟨_, entropyMatmul_eq [2] 1 2 1 _ _, rfl, ?_⟩
  simp only [entEntry, bidx, List.range_succ, List.range_zero]
  simp [entropy_two]
  rw [Real.exp_log (by norm_num)]
  norm_num

theorem ent_step (a2 b2 : ℕ → Mat) (ret : ℕ → Mat) (p : ℕ) (hp : p = 0 ∨ p = 2) :
    ∃ ret', accumulateStep entropyMatmul 2 4 entA entB a2 b2 ret p = .ok ret' ∧
      ∀ q, ret' q = if p ≤ q ∧ q < p + 2 then fun i j =>
        let e := Semirings.entropy.sum ((List.range 2).map fun k => (a2 p i k + b2 p k j, a2 (p + 1) i k + b2 (p + 1) k j))
        if q = p then e.1 else e.2 else ret q := by
  have hm : min 2 (4 - p) = 2 := by omega
  have e := entropyMatmul_eq [] 1 2 1 (fun idx => a2 (p + idx.headD 0)) (fun idx => b2 (p + idx.headD 0))
  unfold accumulateStep slice
  rw [hm]
  change ∃ ret', (entropyMatmul ⟨[2], 1, 2, fun idx => a2 (p + idx.headD 0)⟩ ⟨[2], 2, 1, fun idx => b2 (p + idx.headD 0)⟩ >>= _) = _ ∧ _
  rw [e]
  generalize hC : (Tensor.mk _ _ _ _) = C
  have hsh : C.shape = [2] := by rw [← hC]; rfl
  refine ⟨fun q => if p ≤ q ∧ q < p + 2 then C.get (bidx C.shape [q - p]) else ret q, if_pos (Or.inl hsh), ?_⟩
  intro q
  subst hC
  by_cases h : p ≤ q ∧ q < p + 2
  · simp only [if_pos h]
    funext i j
    have : (bidx (2 :: List.zipWith (fun d e => if d = 1 then e else d) [] []) [q - p]).headD 0 = q - p := by simp [bidx]
    rw [this]
    have h0 : (q - p = 0) ↔ q = p := by omega
    simp only [h0]
    rfl
  · simp only [if_neg h]

/-- **C40 is false for `EntropySemiring`.**  `CheckpointShardSemiring(EntropySemiring, 1)` flattens the slots together with the batch: with a batch of two
it takes the log-values of the two batch rows for the log-value and the entropy of one row. -/
theorem shard_entropy_wrong : ∃ out plain, shardMatmul entropyMatmul 1 0 entA entB = .ok out ∧ entropyMatmul entA entB = .ok plain ∧
    out.shape = plain.shape ∧ out.get [0, 1] 0 0 ≠ plain.get [0, 1] 0 0 := by
  obtain ⟨plain, p1, p2, p3⟩ := ent_plain
  have hsize : matmulSize entA entB = [2, 2] := by simp [matmulSize, entA, entB]
  obtain ⟨r1, s1, t1⟩ := ent_step (flat [2, 2] entA) (flat [2, 2] entB) (fun _ _ _ => 0) 0 (Or.inl rfl)
  obtain ⟨r2, s2, t2⟩ := ent_step (flat [2, 2] entA) (flat [2, 2] entB) r1 2 (Or.inr rfl)
  refine ⟨⟨[2, 2], 1, 1, fun idx => r2 (ravel [2, 2] idx)⟩, plain, ?_, p1, p2.symm, ?_⟩
  · unfold shardMatmul accumulate
    have hstep : shardStep 1 entA entB = 2 := by simp [shardStep, entA, entB]
    have he : Expandable [2, 2] [2, 2] := .cons (Or.inl rfl) (.cons (Or.inl rfl) .nil)
    rw [if_neg (by omega), if_neg (by simp [entA, entB])]
    simp only [hsize, hstep]
    rw [if_neg (by simp [entA, entB]), if_pos (show Expandable entA.shape (matmulSize entA entB) ∧ Expandable entB.shape (matmulSize entA entB) from
      hsize ▸ ⟨he, he⟩)]
    have hst : starts [2, 2].prod 2 = [0, 2] := by decide
    rw [hst]
    change ((accumulateStep entropyMatmul 2 4 entA entB (flat [2, 2] entA) (flat [2, 2] entB) (fun _ _ _ => 0) 0 >>= fun r =>
      accumulateStep entropyMatmul 2 4 entA entB (flat [2, 2] entA) (flat [2, 2] entB) r 2 >>= fun r' => pure r') >>= _) = _
    rw [s1]
    change ((accumulateStep entropyMatmul 2 4 entA entB (flat [2, 2] entA) (flat [2, 2] entB) r1 2 >>= fun r' => pure r') >>= _) = _
    rw [s2]
    rfl
  · rw [p3]
    have hr : ravel [2, 2] [0, 1] = 1 := by simp [ravel]
    change r2 (ravel [2, 2] [0, 1]) 0 0 ≠ _
    rw [hr, t2, if_neg (by omega), t1, if_pos (by omega)]
    simp only [flat, unravel, bidx, List.range_succ, List.range_zero]
    simp [entA, entB, entropy_two]
    intro h
    have h2 : (1 : ℝ) + 1 = 2 := by norm_num
    have h4 : Real.log 4 = 2 * Real.log 2 := by
      rw [show (4 : ℝ) = 2 ^ 2 by norm_num, Real.log_pow]; norm_num
    have h3 : Real.log 3 < Real.log 4 := Real.log_lt_log (by norm_num) (by norm_num)
    rw [h2, Real.exp_neg, Real.exp_log (by norm_num)] at h
    linarith

end Props.Checkpoint
