import Verif.Model.FastSemirings
import Verif.Props.CheckpointUse

/-! **C68.**  The fast semirings: what they need and what they compute. -/

noncomputable section
namespace Props.FastSemirings
open _root_.FastSemirings _root_.Checkpoint Spec.Checkpoint Props.Checkpoint

/-- The documented behaviour of a product of `genbmm`, the module outside this repository: the `q`-th matrix of the result is the
product of the `q`-th matrices in the semiring `S`. -/
def Computes (f : Bmm) (S : SR ℝ) : Prop :=
  ∀ n r m c (a b : ℕ → Mat), ∀ q < n, ∀ i < r, ∀ j < c, f n r m c a b q i j = S.sum ((List.range m).map fun k => S.mul (a q i k) (b q k j))

/-- `genbmm` is installed and does what it documents. -/
structure Works (g : Genbmm) : Prop where
  log : Computes g.logbmm Semirings.log
  max : Computes g.maxbmm Semirings.max
  sample : Computes g.samplebmm Semirings.log

theorem broadcast_ok (a b : Tensor) (hab : Compatible a.shape b.shape) (ha : ∀ d ∈ a.shape, 0 < d) (hb : ∀ d ∈ b.shape, 0 < d) :
    broadcast a b = .ok (flat (matmulSize a b) a, flat (matmulSize a b) b, matmulSize a b) := by
  obtain ⟨-, e2, e3⟩ := compatible_size hab ha hb
  unfold broadcast
  simp only
  rw [if_pos ⟨e2, e3⟩]

theorem call_same (f : Bmm) (S : SR ℝ) (hf : Computes f S) (op : MatOp) (hop : op.fwd = matFwd S) (a b : Tensor)
    (hab : Compatible a.shape b.shape) (hc : a.cols = b.rows) (ha : ∀ d ∈ a.shape, 0 < d) (hb : ∀ d ∈ b.shape, 0 < d) :
    SameResult (call f a b (flat (matmulSize a b) a, flat (matmulSize a b) b, matmulSize a b)) (batched op a b) := by
  obtain ⟨e1, -, -⟩ := compatible_size hab ha hb
  unfold call batched
  rw [if_pos hc, if_pos ⟨hab, hc⟩]
  refine ⟨_, _, rfl, rfl, e1, rfl, rfl, ?_⟩
  intro idx i j hi h1 h2
  change InShape (matmulSize a b) idx at hi
  have hl := ravel_lt _ _ hi
  change f _ _ _ _ _ _ _ i j = op.fwd _ _ _ i j
  rw [hf _ _ _ _ _ _ _ hl _ h1 _ h2, hop]
  unfold flat matFwd
  dsimp only
  rw [unravel_ravel _ _ hi]

/-- **C68.**  With `genbmm`, `FastLogSemiring.matmul` is the product of `LogSemiring`, for all operands that can be broadcast. -/
theorem log_matmul (g : Genbmm) (hg : Works g) (op : MatOp) (hop : op.fwd = matFwd Semirings.log) (a b : Tensor)
    (hab : Compatible a.shape b.shape) (hc : a.cols = b.rows) (ha : ∀ d ∈ a.shape, 0 < d) (hb : ∀ d ∈ b.shape, 0 < d) :
    SameResult (logMatmul (some g) a b) (batched op a b) := by
  unfold logMatmul
  simp only
  rw [broadcast_ok a b hab ha hb]
  exact call_same _ _ hg.log op hop a b hab hc ha hb

/-- **C68.**  With `genbmm`, `FastMaxSemiring.matmul` is the product of `MaxSemiring`. -/
theorem max_matmul (g : Genbmm) (hg : Works g) (op : MatOp) (hop : op.fwd = matFwd Semirings.max) (a b : Tensor)
    (hab : Compatible a.shape b.shape) (hc : a.cols = b.rows) (ha : ∀ d ∈ a.shape, 0 < d) (hb : ∀ d ∈ b.shape, 0 < d) :
    SameResult (maxMatmul (some g) a b) (batched op a b) := by
  unfold maxMatmul
  rw [broadcast_ok a b hab ha hb]
  exact call_same _ _ hg.max op hop a b hab hc ha hb

/-- **C68.**  With `genbmm`, the forward value of `FastSampleSemiring.matmul` is the product of `LogSemiring`, hence of `SampledSemiring`. -/
theorem sample_matmul (g : Genbmm) (hg : Works g) (op : MatOp) (hop : op.fwd = matFwd Semirings.log) (a b : Tensor)
    (hab : Compatible a.shape b.shape) (hc : a.cols = b.rows) (ha : ∀ d ∈ a.shape, 0 < d) (hb : ∀ d ∈ b.shape, 0 < d) :
    SameResult (sampleMatmul (some g) a b) (batched op a b) := by
  unfold sampleMatmul
  rw [broadcast_ok a b hab ha hb]
  exact call_same _ _ hg.sample op hop a b hab hc ha hb

/-- **C68.**  Without `genbmm` no product is computed: every call of `FastLogSemiring.matmul` raises `NameError`. -/
theorem log_needs_genbmm (a b : Tensor) : logMatmul none a b = .error .name := rfl

/-- **C68.**  Without `genbmm`, `FastMaxSemiring.matmul` and `FastSampleSemiring.matmul` raise `NameError` on every pair of operands that
`MaxSemiring` accepts, and never return. -/
theorem max_needs_genbmm (a b : Tensor) :
    (∀ x, maxMatmul none a b ≠ .ok x) ∧ (∀ x, sampleMatmul none a b ≠ .ok x) ∧
    (Compatible a.shape b.shape → (∀ d ∈ a.shape, 0 < d) → (∀ d ∈ b.shape, 0 < d) →
      maxMatmul none a b = .error .name ∧ sampleMatmul none a b = .error .name) := by
  refine ⟨?_, ?_, ?_⟩
  · intro x
    unfold maxMatmul
    cases broadcast a b <;> exact fun h => nomatch h
  · intro x
    unfold sampleMatmul
    cases broadcast a b <;> exact fun h => nomatch h
  · intro hab ha hb
    unfold maxMatmul sampleMatmul
    rw [broadcast_ok a b hab ha hb]
    exact ⟨rfl, rfl⟩

/-- **C68.**  With the products of a fast semiring, one step of the chain algorithm (linearchain.py:83) computes what it computes with the plain
semiring, for every batch, length and number of classes. -/
theorem chain_fast (g : Genbmm) (hg : Works g) {C : ℕ} (batch n : ℕ) (hB : 0 < batch) (hn : 0 < n)
    (chart : ℕ → ℕ → Fin C → Fin C → ℝ) :
    (∃ out, logMatmul (some g) (chartTensor batch n 1 chart) (chartTensor batch n 0 chart) = .ok out ∧
      out.shape = [1, batch, n] ∧ out.rows = C ∧ out.cols = C ∧
      ∀ b < batch, ∀ k < n, ∀ i j : Fin C, out.get [0, b, k] i j = Semirings.log.matmul (chart b (2 * k + 1)) (chart b (2 * k)) i j) ∧
    (∃ out, maxMatmul (some g) (chartTensor batch n 1 chart) (chartTensor batch n 0 chart) = .ok out ∧
      out.shape = [1, batch, n] ∧ out.rows = C ∧ out.cols = C ∧
      ∀ b < batch, ∀ k < n, ∀ i j : Fin C, out.get [0, b, k] i j = Semirings.max.matmul (chart b (2 * k + 1)) (chart b (2 * k)) i j) := by
  have hpos : ∀ d ∈ [1, batch, n], 0 < d := by
    intro d hd; simp at hd; omega
  have key : ∀ (S : SR ℝ) (r : Except PyErr Tensor),
      SameResult r (batched ⟨matFwd S, fun _ _ _ _ _ _ => fun _ _ => 0, fun _ _ _ _ _ _ => fun _ _ => 0⟩ (chartTensor batch n 1 chart) (chartTensor batch n 0 chart)) →
      ∃ out, r = .ok out ∧ out.shape = [1, batch, n] ∧ out.rows = C ∧ out.cols = C ∧
        ∀ b < batch, ∀ k < n, ∀ i j : Fin C, out.get [0, b, k] i j = S.matmul (chart b (2 * k + 1)) (chart b (2 * k)) i j := by
    rintro S r ⟨x, y, h1, h2, h3⟩
    unfold batched at h2
    rw [if_pos ⟨compatible_refl _, rfl⟩] at h2
    obtain rfl := Except.ok.inj h2
    have hsh : x.shape = [1, batch, n] := by rw [h3.shape]; simp [chartTensor]
    refine ⟨x, h1, hsh, h3.rows, h3.cols, ?_⟩
    intro b hb k hk i j
    rw [h3.get [0, b, k] i j (by rw [hsh]; exact .cons (by omega) (.cons hb (.cons hk .nil))) (by rw [h3.rows]; exact i.2)
      (by rw [h3.cols]; exact j.2)]
    change matFwd S C _ _ i j = _
    have hb' : (if batch = 1 then 0 else b) = b := by split_ifs <;> omega
    have hk' : (if n = 1 then 0 else k) = k := by split_ifs <;> omega
    unfold matFwd SR.matmul
    congr 1
    apply List.ext_getElem
    · simp
    · intro l h4 h5
      simp only [List.length_map, List.length_range] at h4
      simp [chartTensor, bidx, hb', hk', h4]
  exact ⟨key _ _ (log_matmul g hg _ rfl _ _ (compatible_refl _) rfl hpos hpos),
    key _ _ (max_matmul g hg _ rfl _ _ (compatible_refl _) rfl hpos hpos)⟩

/-- **C68.**  `FastLogSemiring.dot` and `FastMaxSemiring.dot`, which the tree and dependency algorithms call: position by position they are the `dot` of
`LogSemiring` and `MaxSemiring`. -/
theorem dot_fast (g : Genbmm) (hg : Works g) (a b : Vec) (hab : Compatible a.shape b.shape) (hc : a.len = b.len)
    (ha : ∀ d ∈ a.shape, 0 < d) (hb : ∀ d ∈ b.shape, 0 < d) :
    (∃ out, dot (logMatmul (some g)) a b = .ok out ∧ out.1 = List.zipWith (fun d e => if d = 1 then e else d) a.shape b.shape ∧
      ∀ idx, InShape out.1 idx → out.2 idx =
        Semirings.log.dot ((List.range a.len).map (a.get (bidx a.shape idx))) ((List.range a.len).map (b.get (bidx b.shape idx)))) ∧
    (∃ out, dot (maxMatmul (some g)) a b = .ok out ∧ out.1 = List.zipWith (fun d e => if d = 1 then e else d) a.shape b.shape ∧
      ∀ idx, InShape out.1 idx → out.2 idx =
        Semirings.max.dot ((List.range a.len).map (a.get (bidx a.shape idx))) ((List.range a.len).map (b.get (bidx b.shape idx)))) := by
  have key : ∀ (S : SR ℝ) (mm : Tensor → Tensor → Except PyErr Tensor),
      SameResult (mm a.row b.col) (batched ⟨matFwd S, fun _ _ _ _ _ _ => fun _ _ => 0, fun _ _ _ _ _ _ => fun _ _ => 0⟩ a.row b.col) →
      ∃ out, dot mm a b = .ok out ∧ out.1 = List.zipWith (fun d e => if d = 1 then e else d) a.shape b.shape ∧
      ∀ idx, InShape out.1 idx → out.2 idx =
        S.dot ((List.range a.len).map (a.get (bidx a.shape idx))) ((List.range a.len).map (b.get (bidx b.shape idx))) := by
    rintro S mm ⟨x, y, h1, h2, h3⟩
    unfold batched at h2
    rw [if_pos ⟨hab, hc⟩] at h2
    obtain rfl := Except.ok.inj h2
    refine ⟨(x.shape, fun idx => x.get idx 0 0), ?_, h3.shape, ?_⟩
    · unfold dot
      rw [h1]
      rfl
    · intro idx hi
      change x.get idx 0 0 = _
      rw [h3.get idx 0 0 hi (by rw [h3.rows]; exact Nat.one_pos) (by rw [h3.cols]; exact Nat.one_pos)]
      change matFwd S a.len _ _ 0 0 = _
      unfold matFwd SR.dot
      rw [List.zipWith_map, List.zipWith_self]
      rfl
  exact ⟨key _ _ (log_matmul g hg _ rfl a.row b.col hab hc ha hb), key _ _ (max_matmul g hg _ rfl a.row b.col hab hc ha hb)⟩

/-- Matrices that do not fit are rejected by both. -/
theorem mismatch (g : Option Genbmm) (op : MatOp) (a b : Tensor) (hc : a.cols ≠ b.rows) :
    batched op a b = .error .runtime ∧ (∀ x, logMatmul g a b ≠ .ok x) ∧ (∀ x, maxMatmul g a b ≠ .ok x) := by
  refine ⟨by unfold batched; rw [if_neg (fun h => hc h.2)], ?_, ?_⟩
  · intro x
    cases g with
    | none => exact fun h => nomatch h
    | some g =>
      unfold logMatmul
      simp only
      cases broadcast a b with
      | error e => exact fun h => nomatch h
      | ok y =>
        change call _ a b y ≠ _
        unfold call
        rw [if_neg hc]
        exact fun h => nomatch h
  · intro x
    unfold maxMatmul
    cases broadcast a b with
    | error e => exact fun h => nomatch h
    | ok y =>
      cases g with
      | none => exact fun h => nomatch h
      | some g =>
        change call _ a b y ≠ _
        unfold call
        rw [if_neg hc]
        exact fun h => nomatch h

/-- A module that does what `genbmm` documents. -/
def reference : Genbmm where
  logbmm _ _ m _ a b q := matFwd Semirings.log m (a q) (b q)
  maxbmm _ _ m _ a b q := matFwd Semirings.max m (a q) (b q)
  samplebmm _ _ m _ a b q := matFwd Semirings.log m (a q) (b q)

theorem reference_works : Works reference :=
  ⟨fun _ _ _ _ _ _ _ _ _ _ _ _ => rfl, fun _ _ _ _ _ _ _ _ _ _ _ _ => rfl, fun _ _ _ _ _ _ _ _ _ _ _ _ => rfl⟩

/-- The hypotheses with a broadcast dimension. -/
example : ∃ a b : Tensor, Compatible a.shape b.shape ∧ a.cols = b.rows ∧ (∀ d ∈ a.shape, 0 < d) ∧ (∀ d ∈ b.shape, 0 < d) ∧
    a.shape ≠ b.shape :=
  ⟨⟨[1, 4, 2], 2, 3, fun _ _ _ => 0⟩, ⟨[1, 1, 2], 3, 2, fun _ _ _ => 0⟩,
    .cons (Or.inl rfl) (.cons (Or.inr (Or.inr rfl)) (.cons (Or.inl rfl) .nil)), rfl, by simp, by simp, by simp⟩

end Props.FastSemirings
