import Verif.Spec.ChainProb

/-! Forward and backward sums over tag sequences, and the sums over the sequences that use an edge. -/

open Finset Spec

noncomputable section
namespace ChainMarkov

variable {C : ℕ}

/-- The sum over the first `n` edges, with weights `f` for the first tag. -/
def fwd (w : ℕ → Fin C → Fin C → ℝ) (f : Fin C → ℝ) : ℕ → Fin C → ℝ
  | 0, c => f c
  | n + 1, i => ∑ c, w n i c * fwd w f n c

/-- The sum over the sequences that begin with `c`. -/
def bwd (w : ℕ → Fin C → Fin C → ℝ) (m : ℕ) (c : Fin C) : ℝ := ∑ y : Tags m C, if y 0 = c then seqProd w y else 0

theorem sum_cons (m : ℕ) (F : Tags (m + 1) C → ℝ) : ∑ y, F y = ∑ c : Fin C, ∑ y : Tags m C, F (Fin.cons c y) := by
  rw [← (Fin.consEquiv fun _ : Fin (m + 2) => Fin C).sum_comp, Fintype.sum_prod_type]
  rfl

theorem seqProd_cons (w : ℕ → Fin C → Fin C → ℝ) (m : ℕ) (c : Fin C) (y : Tags m C) :
    seqProd w (Fin.cons c y : Tags (m + 1) C) = w 0 (y 0) c * seqProd (fun n => w (n + 1)) y := by
  unfold seqProd
  rw [Fin.prod_univ_succ]
  congr 1

theorem bwd_zero (w : ℕ → Fin C → Fin C → ℝ) (c : Fin C) : bwd w 0 c = 1 := by
  unfold bwd
  rw [sum_eq_single (fun _ => c)]
  · simp [seqProd]
  · intro y _ hy
    rw [if_neg fun h => hy (funext fun k => by rw [← h]; congr 1; exact Fin.ext (by have := k.2; simp only [Fin.val_zero]; omega))]
  · simp

theorem bwd_succ (w : ℕ → Fin C → Fin C → ℝ) (m : ℕ) (c : Fin C) : bwd w (m + 1) c = ∑ i, w 0 i c * bwd (fun n => w (n + 1)) m i := by
  unfold bwd
  rw [sum_cons, sum_eq_single c]
  · simp only [mul_sum]
    rw [sum_comm]
    refine sum_congr rfl fun y _ => ?_
    rw [sum_eq_single (y 0)]
    · rw [seqProd_cons]
      simp
    · intro i _ hi
      rw [if_neg fun h => hi h.symm, mul_zero]
    · simp
  · intro d _ hd
    refine sum_eq_zero fun y _ => ?_
    simp [hd]
  · simp

theorem fwd_shift (w : ℕ → Fin C → Fin C → ℝ) (f : Fin C → ℝ) : ∀ n, fwd w f (n + 1) = fwd (fun n => w (n + 1)) (fun i => ∑ c, w 0 i c * f c) n
  | 0 => rfl
  | n + 1 => by
    funext i
    rw [fwd, fwd_shift w f n]
    rfl

/-- The sequences that use an edge. -/
theorem sum_uses (n : ℕ) : ∀ (m : ℕ), n < m → ∀ (w : ℕ → Fin C → Fin C → ℝ) (f : Fin C → ℝ) (i j : Fin C),
    (∑ y : Tags m C, if UsesEdge y n i j then f (y 0) * seqProd w y else 0) = fwd w f n j * w n i j * bwd (fun k => w (n + 1 + k)) (m - (n + 1)) i := by
  induction n with
  | zero =>
    intro m hm w f i j
    obtain ⟨m, rfl⟩ : ∃ k, m = k + 1 := ⟨m - 1, by omega⟩
    rw [sum_cons, sum_eq_single j]
    · rw [fwd, bwd, mul_sum]
      refine sum_congr rfl fun y _ => ?_
      have : UsesEdge (Fin.cons j y : Tags (m + 1) C) 0 i j ↔ y 0 = i := ⟨fun h => h.2.1, fun h => ⟨hm, h, rfl⟩⟩
      by_cases hy : y 0 = i
      · rw [if_pos (this.2 hy), if_pos hy, seqProd_cons, hy]
        have e : (fun k => w (0 + 1 + k)) = fun n => w (n + 1) := by funext k; rw [Nat.zero_add, Nat.add_comm]
        rw [e, ← mul_assoc]
        rfl
      · rw [if_neg fun h => hy (this.1 h), if_neg hy, mul_zero]
    · intro d _ hd
      refine sum_eq_zero fun y _ => if_neg fun h => hd h.2.2
    · simp
  | succ n ih =>
    intro m hm w f i j
    obtain ⟨m, rfl⟩ : ∃ k, m = k + 1 := ⟨m - 1, by omega⟩
    rw [sum_cons, sum_comm]
    have e : ∀ y : Tags m C, (∑ c : Fin C, if UsesEdge (Fin.cons c y : Tags (m + 1) C) (n + 1) i j then
        f ((Fin.cons c y : Tags (m + 1) C) 0) * seqProd w (Fin.cons c y : Tags (m + 1) C) else 0) =
        if UsesEdge y n i j then (∑ c, w 0 (y 0) c * f c) * seqProd (fun n => w (n + 1)) y else 0 := by
      intro y
      have : ∀ c, UsesEdge (Fin.cons c y : Tags (m + 1) C) (n + 1) i j ↔ UsesEdge y n i j := fun c =>
        ⟨fun h => ⟨by omega, h.2.1, h.2.2⟩, fun h => ⟨hm, h.2.1, h.2.2⟩⟩
      by_cases hy : UsesEdge y n i j
      · rw [if_pos hy, sum_mul]
        refine sum_congr rfl fun c _ => ?_
        rw [if_pos ((this c).2 hy), seqProd_cons, Fin.cons_zero]
        ring
      · rw [if_neg hy]
        exact sum_eq_zero fun c _ => if_neg fun h => hy ((this c).1 h)
    rw [sum_congr rfl fun y _ => e y, ih m (by omega) (fun n => w (n + 1)) (fun i => ∑ c, w 0 i c * f c) i j, ← fwd_shift, Nat.add_sub_add_right]
    have e2 : (fun k => w (n + 1 + k + 1)) = fun k => w (n + 1 + 1 + k) := by funext k; congr 1; omega
    rw [e2]

theorem fwd_pos (hC : 0 < C) {w : ℕ → Fin C → Fin C → ℝ} (hw : ∀ n i j, 0 < w n i j) : ∀ n c, 0 < fwd w (fun _ => 1) n c
  | 0, _ => one_pos
  | n + 1, i => sum_pos (fun c _ => mul_pos (hw n i c) (fwd_pos hC hw n c)) ⟨⟨0, hC⟩, mem_univ _⟩

theorem bwd_pos (hC : 0 < C) : ∀ (m : ℕ) {w : ℕ → Fin C → Fin C → ℝ} (_ : ∀ n i j, 0 < w n i j) (c : Fin C), 0 < bwd w m c
  | 0, w, _, c => by rw [bwd_zero]; exact one_pos
  | m + 1, w, hw, c => by
    rw [bwd_succ]
    exact sum_pos (fun i _ => mul_pos (hw 0 i c) (bwd_pos hC m (fun n i j => hw (n + 1) i j) i)) ⟨⟨0, hC⟩, mem_univ _⟩

/-- The backward sum at position `k` of `m` edges. -/
def back (w : ℕ → Fin C → Fin C → ℝ) (m k : ℕ) (c : Fin C) : ℝ := bwd (fun n => w (k + n)) (m - k) c

theorem back_last (w : ℕ → Fin C → Fin C → ℝ) (m : ℕ) (c : Fin C) : back w m m c = 1 := by rw [back, Nat.sub_self, bwd_zero]

theorem back_step (w : ℕ → Fin C → Fin C → ℝ) (m k : ℕ) (hk : k < m) (c : Fin C) : back w m k c = ∑ i, w k i c * back w m (k + 1) i := by
  obtain ⟨d, hd⟩ : ∃ d, m - k = d + 1 := ⟨m - k - 1, by omega⟩
  have e : m - (k + 1) = d := by omega
  simp only [back]
  rw [hd, bwd_succ, e]
  refine sum_congr rfl fun i _ => ?_
  rw [Nat.add_zero]
  congr 2
  funext n
  rw [Nat.add_assoc, Nat.add_comm 1 n]

theorem back_pos (hC : 0 < C) {w : ℕ → Fin C → Fin C → ℝ} (hw : ∀ n i j, 0 < w n i j) (m k : ℕ) (c : Fin C) : 0 < back w m k c :=
  bwd_pos hC _ (fun n i j => hw (k + n) i j) c

/-- The sum over the sequences that use an edge: forward sum, weight, backward sum. -/
theorem uses_eq (w : ℕ → Fin C → Fin C → ℝ) {m n : ℕ} (hn : n < m) (i j : Fin C) :
    (∑ y : Tags m C, if UsesEdge y n i j then seqProd w y else 0) = fwd w (fun _ => 1) n j * w n i j * back w m (n + 1) i := by
  simpa [back] using sum_uses n m hn w (fun _ => 1) i j

theorem telescope {L : ℕ} (hL : 1 ≤ L) (g : Fin (L + 1) → ℝ) :
    ∑ n : Fin L, g n.succ - ∑ n : Fin L, (if (n : ℕ) = 0 then 0 else g n.castSucc) = g (Fin.last L) := by
  obtain ⟨L, rfl⟩ : ∃ k, L = k + 1 := ⟨L - 1, by omega⟩
  have h1 : ∑ n : Fin (L + 1), (if (n : ℕ) = 0 then 0 else g n.castSucc) = ∑ n : Fin (L + 1), g n.castSucc - g 0 := by
    rw [Fin.sum_univ_succ, Fin.sum_univ_succ]
    simp
  have h2 := Fin.sum_univ_succ g
  have h3 := Fin.sum_univ_castSucc g
  rw [h1]
  linarith

theorem first {L : ℕ} (hL : 1 ≤ L) (a : Fin (L + 1) → ℝ) : ∑ n : Fin L, a n.castSucc - ∑ n : Fin L, (if (n : ℕ) = 0 then 0 else a n.castSucc) = a 0 := by
  obtain ⟨L, rfl⟩ : ∃ k, L = k + 1 := ⟨L - 1, by omega⟩
  rw [Fin.sum_univ_succ, Fin.sum_univ_succ (fun n : Fin (L + 1) => if (n : ℕ) = 0 then 0 else a n.castSucc)]
  simp

/-- Edge terms minus tag terms, in logarithms.  `v` are the weights without, `w` those with the stand-in. -/
theorem log_factor (hC : 0 < C) {L : ℕ} (hL : 1 ≤ L) {w v : ℕ → Fin C → Fin C → ℝ} (hw : ∀ n i j, 0 < w n i j) (hv : ∀ n i j, 0 < v n i j) {Z : ℝ} (hZ : 0 < Z)
    (y : Tags L C) :
    ∑ n : Fin L, Real.log (fwd w (fun _ => 1) n (y n.castSucc) * v n (y n.succ) (y n.castSucc) * back w L (n + 1) (y n.succ) / Z) -
      ∑ n : Fin L, (if (n : ℕ) = 0 then 0 else Real.log (fwd w (fun _ => 1) n (y n.castSucc) * back w L n (y n.castSucc) / Z)) =
      ∑ n : Fin L, Real.log (v n (y n.succ) (y n.castSucc)) - Real.log Z := by
  have e1 : ∀ n : Fin L, Real.log (fwd w (fun _ => 1) n (y n.castSucc) * v n (y n.succ) (y n.castSucc) * back w L (n + 1) (y n.succ) / Z) =
      (Real.log (fwd w (fun _ => 1) n (y n.castSucc)) - Real.log Z) + Real.log (v n (y n.succ) (y n.castSucc)) + Real.log (back w L (n + 1) (y n.succ)) := fun n => by
    have h1 := fwd_pos hC hw n (y n.castSucc)
    have h2 := hv n (y n.succ) (y n.castSucc)
    have h3 := back_pos hC hw L (n + 1) (y n.succ)
    rw [Real.log_div (by positivity) hZ.ne', Real.log_mul (by positivity) h3.ne', Real.log_mul h1.ne' h2.ne']
    ring
  have e2 : ∀ n : Fin L, (if (n : ℕ) = 0 then 0 else Real.log (fwd w (fun _ => 1) n (y n.castSucc) * back w L n (y n.castSucc) / Z)) =
      (if (n : ℕ) = 0 then 0 else Real.log (fwd w (fun _ => 1) n (y n.castSucc)) - Real.log Z) + (if (n : ℕ) = 0 then 0 else Real.log (back w L n (y n.castSucc))) := fun n => by
    have h1 := fwd_pos hC hw n (y n.castSucc)
    have h3 := back_pos hC hw L n (y n.castSucc)
    rw [Real.log_div (by positivity) hZ.ne', Real.log_mul h1.ne' h3.ne']
    split_ifs
    · ring
    · ring
  rw [sum_congr rfl fun n _ => e1 n, sum_congr rfl fun n _ => e2 n, sum_add_distrib, sum_add_distrib, sum_add_distrib]
  have h1 := first hL fun k => Real.log (fwd w (fun _ => 1) k (y k)) - Real.log Z
  have h2 := telescope hL fun k => Real.log (back w L k (y k))
  simp only [Fin.val_castSucc, Fin.val_succ, Fin.val_zero, Fin.val_last, back_last, fwd, Real.log_one] at h1 h2
  linarith

end ChainMarkov
