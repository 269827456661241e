import Verif.Proofs.RoundedArgmax
import Verif.Props.Rounding
import Verif.Props.LinearChainBest
import Verif.Props.Dependency

/-! C90: `argmax` on a machine that rounds.

`argmax` is run on potentials `q` within `δ` of the intended potentials `p`, with additions that have an error of at most `ε` each (`Spec.RoundedAdd`); comparisons are exact.  What it returns
is still the indicator of the parts of ONE valid structure of the row, and the exact score of that structure under `p` is within `2 E` of the best, `E` being the error of a score (linear in the
length).  In particular a structure that is better than all others by more than `2 E` is the one returned. -/

open Finset Spec Generic
open Rounding hiding fst_rel err_rel mag_rel

noncomputable section
namespace Props.RoundedArgmax
open Props.Rounding

variable {add : ℝ → ℝ → ℝ} {R ε δ B : ℝ} {pick : List (Autograd.Grad (List ℕ)) → Autograd.Grad (List ℕ)}

/-! ### `TreeCRF` -/

/-- **C90.** `argmax` of `TreeCRF`, rounded. -/
theorem tree_argmax_rounded {p q : T4 ℝ} {lengths : Option (List ℕ)} (h : TreeCRF.Valid p lengths) (hrows : 0 < p.d0) (H : RoundedAdd add R ε) (hε : 0 ≤ ε) (hδ : 0 ≤ δ) (hB : 100000 ≤ B)
    (hpq : Near4 δ p q) (hp : Within4 B p) (hR : (2 * p.d1 - 1) * δ + 2 * p.d1 * ε + (2 * p.d1 - 1) * B ≤ R) (hpick : Autograd.IsArgmax Prod.fst pick) :
    ∃ μ, Dist.argmaxWith add CKYCRF.algo q lengths pick = .ok μ ∧ ∀ b < p.d0, ∃ t : Trees p.d3 (TreeCRF.len p lengths b),
      (∀ t' : Trees p.d3 (TreeCRF.len p lengths b), treeScore (TreeCRF.row p b) t' ≤ treeScore (TreeCRF.row p b) t + 2 * ((2 * p.d1 - 1) * δ + 2 * p.d1 * ε)) ∧
      ∀ i j (a : Fin p.d3), μ [b, i, j, (a : ℕ)] = if (i, j, a) ∈ t.1.spans 0 then 1 else 0 := by
  obtain ⟨p0, p1, p2, p3, pg⟩ := p
  obtain ⟨q0, q1, q2, q3, qg⟩ := q
  obtain ⟨⟨h0, h1, h2, h3⟩, hd⟩ := hpq
  simp only at h0 h1 h2 h3
  subst h0 h1 h2 h3
  have hq : CKYCRFProofs.Valid (⟨q0, q1, q2, q3, qg⟩ : T4 ℝ) lengths := ⟨h.square, h.words, h.labels, h.lens⟩
  obtain ⟨μ, e1, e2⟩ := (CKYCRFProofs.batchDP (⟨q0, q1, q2, q3, qg⟩ : T4 ℝ) lengths hq).argmax_near_real CKYCRF.parametric ⟨h.labels, hrows⟩ H hε hpick
    (v := CKYCRFProofs.at4 (⟨q0, q1, q2, q3, pg⟩ : T4 ℝ)) (d := fun _ => δ) (m := fun _ => B) (fun _ => hδ) (fun _ => by linarith) (fun b hb e he => by
      obtain ⟨i, j, a, rfl, hij, hj, ha⟩ := he
      have hl := (CKYCRFProofs.len_in h.words h.lens b hb).2
      have hsq : q1 = q2 := h.square
      have hj1 : j < q1 := lt_of_lt_of_le hj hl
      exact ⟨hd b hb i (by show i < q1; omega) j (by show j < q2; omega) a ha, hp b hb i (by show i < q1; omega) j (by show j < q2; omega) a ha⟩)
    (Er := (2 * q1 - 1) * δ + 2 * q1 * ε) (M := (2 * q1 - 1) * B)
    (by
      have := cost_tree (z := 0) (ε := ε) (w := fun _ => 0) (W := 0) (D := δ) (Q := q1 + q3)
        (p := CKYCRF.algo.map (fun x : ℝ × List ℕ => δ) (CKYCRF.algo.index (⟨q0, q1, q2, q3, qg⟩ : T4 ℝ))) h.labels le_rfl hδ hε le_rfl (fun _ _ _ _ => le_rfl) (fun _ _ => le_rfl)
        (Nat.le_add_right _ _) (Nat.le_add_left _ _) lengths
      refine AllE.mono (fun x hx => hx.trans (le_of_eq ?_)) this
      show (2 * (q1 : ℝ) - 1) * (δ + 0) + q1 * (2 * ε + 0) = _
      ring)
    (by
      have := cost_tree (z := 100000) (ε := 0) (w := fun _ => 0) (W := 0) (D := B) (Q := q1 + q3)
        (p := CKYCRF.algo.map (fun x : ℝ × List ℕ => B) (CKYCRF.algo.index (⟨q0, q1, q2, q3, qg⟩ : T4 ℝ))) h.labels (by norm_num) hB le_rfl le_rfl (fun _ _ _ _ => le_rfl) (fun _ _ => le_rfl)
        (Nat.le_add_right _ _) (Nat.le_add_left _ _) lengths
      refine AllE.mono (fun x hx => hx.trans (le_of_eq ?_)) this
      show (2 * (q1 : ℝ) - 1) * (B + 0) + q1 * (2 * 0 + 0) = _
      ring)
    hR (fun b _ t => t.elim)
  refine ⟨μ, e1, fun b hb => ?_⟩
  obtain ⟨t, e3, e4⟩ := e2 b hb
  simp only [TreeCRF.realScore_eq] at e3
  refine ⟨t, e3, fun i j a => ?_⟩
  rw [e4 _ rfl, TreeCRF.count_parts]
  push_cast; rfl

/-! ### `DependencyCRF` -/

open DepTree DepTreeProofs in
/-- The two tables, entry by entry. -/
theorem arcs_near {p q : DepTree.Arcs ℝ} {mr : Bool} {lengths : Option (List ℕ)} (h : DepTreeProofs.Valid mr p lengths) (hpq : NearArcs δ p q) (hp : WithinArcs B p) {b : ℕ} (hb : b < p.d0)
    {e : List ℕ} (he : Entry (decide p.labeled) p.labels (lenOf p.d1 lengths b) b e) :
    |atQ negBig q e - atQ negBig p e| ≤ δ ∧ |atQ negBig p e| ≤ B := by
  obtain ⟨i, k, l, rfl, hi, hk, hne, hl⟩ := he
  have hlab : p.labeled ∨ l = 0 := by
    rcases h.rank with h3 | h4
    · rw [labels_one h3] at hl; right; omega
    · left; exact h4
  have hq : q.labeled = p.labeled := by show (q.rank = 4) = (p.rank = 4); rw [hpq.1.1]
  have e1 := atQ_cell negBig p b (arcCell i k).1 (arcCell i k).2 l hlab
  have e2 := atQ_cell negBig q b (arcCell i k).1 (arcCell i k).2 l (by rw [hq]; exact hlab)
  have e3 : decide q.labeled = decide p.labeled := by simp only [hq]
  rw [e3] at e2
  rw [e1, e2]
  have hle := (len_le h hb).1
  have hsq := h.square
  have h1 : (arcCell i k).1 < p.d1 ∧ (arcCell i k).2 < p.d2 := by
    unfold arcCell
    split_ifs
    · constructor <;> (try dsimp only) <;> omega
    · constructor <;> (try dsimp only) <;> omega
  exact ⟨hpq.2 b hb _ h1.1 _ h1.2 l hl, hp b hb _ h1.1 _ h1.2 l hl⟩

open DepTree DepTreeProofs in
/-- The bounds of the errors and of the magnitudes. -/
theorem arcs_cost (mr : Bool) {q : DepTree.Arcs ℝ} (hl : 0 < q.labels) {z ε D : ℝ} (hz : 0 ≤ z) (hzD : z ≤ D) (hε : 0 ≤ ε) (lengths : Option (List ℕ)) :
    AllE (· ≤ q.d1 * (D + 3 * ε)) ((algo mr).run (cost z ε fun _ => 0) ((algo mr).map (fun _ : ℝ × List ℕ => D) ((algo mr).index (conv negBig q))) lengths) := by
  have := cost_dep mr (z := z) (ε := ε) (w := fun _ => 0) (W := 0) (D := D) (Q := q.d1 + q.labels)
    (p := (algo mr).map (fun _ : ℝ × List ℕ => D) ((algo mr).index (conv negBig q))) hl hz hzD hε le_rfl (fun _ _ _ _ => le_rfl) (fun _ _ => le_rfl)
    (by show q.d1 + 1 ≤ _; omega) (by show q.labels ≤ _; omega) lengths
  refine AllE.mono (fun x hx => hx.trans (le_of_eq ?_)) this
  show ((q.d1 + 1 - 1 : ℕ) : ℝ) * (D + 3 * ε + 3 * 0) = _
  rw [Nat.add_sub_cancel]; ring

open Classical in
/-- **C90.** `argmax` of `DependencyCRF`, rounded. -/
theorem dependency_argmax_rounded (mr : Bool) {p q : DepTree.Arcs ℝ} {lengths : Option (List ℕ)} (h : Dependency.Valid mr p lengths) (H : RoundedAdd add R ε) (hε : 0 ≤ ε) (hδ : 0 ≤ δ)
    (hB : 100000 ≤ B) (hpq : NearArcs δ p q) (hp : WithinArcs B p) (hR : p.d1 * (δ + 3 * ε) + p.d1 * B ≤ R) (hpick : Autograd.IsArgmax Prod.fst pick) :
    ∃ μ, DepTree.argmaxWith add mr q lengths pick = .ok μ ∧ ∀ b < p.d0, ∃ t : ProjTrees mr (Dependency.len p lengths b),
      (∀ t' : ProjTrees mr (Dependency.len p lengths b), depScore (Dependency.row p b) t'.1 ≤ depScore (Dependency.row p b) t.1 + 2 * (p.d1 * (δ + 3 * ε))) ∧
      ∀ i j, μ [b, i, j] = if HasArc t.1 i j then 1 else 0 := by
  have near := fun b hb e he => arcs_near h.toValid hpq hp (b := b) hb (e := e) he
  obtain ⟨pr, p0, p1, p2, p3, pg⟩ := p
  obtain ⟨qr, q0, q1, q2, q3, qg⟩ := q
  obtain ⟨⟨hr, h0, h1, h2, h3⟩, hd⟩ := hpq
  simp only at hr h0 h1 h2 h3
  subst hr h0 h1 h2 h3
  have hq : Dependency.Valid mr (⟨qr, q0, q1, q2, q3, qg⟩ : DepTree.Arcs ℝ) lengths := ⟨h.rank, h.square, h.batch, h.words, h.lens⟩
  have hlab : 0 < (⟨qr, q0, q1, q2, q3, qg⟩ : DepTree.Arcs ℝ).labels := hq.toValid.labels
  rw [DepTree.argmaxWith, Dependency.conv_eq DepTree.negBig hq]
  obtain ⟨μ, e1, e2⟩ := (DepTreeProofs.batchDP3 mr DepTree.negBig _ lengths hq.toValid hq.rank).argmax_near_real (DepTree.parametric mr) hlab H hε hpick
    (v := DepTreeProofs.atQ DepTree.negBig (⟨qr, q0, q1, q2, q3, pg⟩ : DepTree.Arcs ℝ)) (d := fun _ => δ) (m := fun _ => B) (fun _ => hδ) (fun _ => by linarith) near
    (arcs_cost mr hlab le_rfl hδ hε lengths) (arcs_cost mr hlab (by norm_num) hB le_rfl lengths) (by simpa using hR) (fun b _ t => t.elim)
  refine ⟨μ, e1, fun b hb => ?_⟩
  obtain ⟨t, e3, e4⟩ := e2 b hb
  simp only [Dependency.realScore_eq] at e3
  refine ⟨t, e3, fun i j => ?_⟩
  rw [e4 _ rfl, Dependency.count_parts]
  push_cast; rfl

open Classical in
/-- **C90.** `argmax` of `DependencyCRF` with labels, rounded. -/
theorem labelled_argmax_rounded (mr : Bool) {p q : DepTree.Arcs ℝ} {lengths : Option (List ℕ)} (h : LabelledDependency.Valid mr p lengths) (H : RoundedAdd add R ε) (hε : 0 ≤ ε) (hδ : 0 ≤ δ)
    (hB : 100000 ≤ B) (hpq : NearArcs δ p q) (hp : WithinArcs B p) (hR : p.d1 * (δ + 3 * ε) + p.d1 * B ≤ R) (hpick : Autograd.IsArgmax Prod.fst pick) :
    ∃ μ, DepTree.argmaxWith add mr q lengths pick = .ok μ ∧ ∀ b < p.d0, ∃ t : LabelledTrees mr (LabelledDependency.len p lengths b) p.d3,
      (∀ t' : LabelledTrees mr (LabelledDependency.len p lengths b) p.d3,
        labScore (LabelledDependency.row p b) t' ≤ labScore (LabelledDependency.row p b) t + 2 * (p.d1 * (δ + 3 * ε))) ∧
      ∀ i j l, μ [b, i, j, l] = if HasLabArc t i j l then 1 else 0 := by
  have near := fun b hb e he => arcs_near h.toValid hpq hp (b := b) hb (e := e) he
  rw [DepTreeProofs.is_labeled h.rank, DepTreeProofs.labels_four h.rank] at near
  obtain ⟨pr, p0, p1, p2, p3, pg⟩ := p
  obtain ⟨qr, q0, q1, q2, q3, qg⟩ := q
  obtain ⟨⟨hr, h0, h1, h2, h3⟩, hd⟩ := hpq
  simp only at hr h0 h1 h2 h3
  subst hr h0 h1 h2 h3
  have hq : LabelledDependency.Valid mr (⟨qr, q0, q1, q2, q3, qg⟩ : DepTree.Arcs ℝ) lengths := ⟨h.rank, h.labels, h.square, h.batch, h.words, h.lens⟩
  have hlab : 0 < (⟨qr, q0, q1, q2, q3, qg⟩ : DepTree.Arcs ℝ).labels := hq.toValid.labels
  rw [DepTree.argmaxWith, LabelledDependency.conv_eq DepTree.negBig hq]
  obtain ⟨μ, e1, e2⟩ := (DepTreeProofs.batchDP4 mr DepTree.negBig _ lengths hq.toValid hq.rank).argmax_near_real (DepTree.parametric mr) hlab H hε hpick
    (v := DepTreeProofs.atQ DepTree.negBig (⟨qr, q0, q1, q2, q3, pg⟩ : DepTree.Arcs ℝ)) (d := fun _ => δ) (m := fun _ => B) (fun _ => hδ) (fun _ => by linarith) near
    (arcs_cost mr hlab le_rfl hδ hε lengths) (arcs_cost mr hlab (by norm_num) hB le_rfl lengths) (by simpa using hR) (fun b _ t => t.elim)
  refine ⟨μ, e1, fun b hb => ?_⟩
  obtain ⟨t, e3, e4⟩ := e2 b hb
  simp only [LabelledDependency.realScore_eq DepTree.negBig _ _ h.rank] at e3
  refine ⟨t, e3, fun i j l => ?_⟩
  rw [e4 _ rfl, LabelledDependency.count_parts]
  push_cast; rfl

/-! ### `SemiMarkovCRF` -/

/-- **C90.** `argmax` of `SemiMarkovCRF`, rounded; scores must stay clear of the stand-in `-1e5`, by twice the error. -/
theorem semimarkov_argmax_rounded {p q : T5 ℝ} {lengths : Option (List ℕ)} (h : SemiMarkovProofs.Valid p lengths) (H : RoundedAdd add R ε) (hε : 0 ≤ ε) (hδ : 0 ≤ δ)
    (hpq : Near5 δ p q) (hB : SemiMarkov.Bounded p lengths B) (hsmall : 2 * p.d1 * B + 2 * (p.d1 * (δ + 2 * ε)) < 100000) (hR : p.d1 * (δ + 2 * ε) + 2 * p.d1 * 100000 ≤ R)
    (hpick : Autograd.IsArgmax Prod.fst pick) :
    ∃ μ, Dist.argmaxWith add SemiMarkov.algo q lengths pick = .ok μ ∧ ∀ b < p.d0, ∃ y : SemiMarkov.Seg p lengths b,
      (∀ y' : SemiMarkov.Seg p lengths b, segScore (SemiMarkov.row p b) y' ≤ segScore (SemiMarkov.row p b) y + 2 * (p.d1 * (δ + 2 * ε))) ∧
      ∀ n k (c c' : Fin p.d3), μ [b, n, k, (c : ℕ), (c' : ℕ)] = if (n, k, c, c') ∈ segEdges 0 y.1 y.2.1 then 1 else 0 := by
  obtain ⟨p0, p1, p2, p3, p4, pg⟩ := p
  obtain ⟨q0, q1, q2, q3, q4, qg⟩ := q
  obtain ⟨⟨h0, h1, h2, h3, h4⟩, hd⟩ := hpq
  simp only at h0 h1 h2 h3 h4
  subst h0 h1 h2 h3 h4
  have hq : SemiMarkovProofs.Valid (⟨q0, q1, q2, q3, q4, qg⟩ : T5 ℝ) lengths := ⟨h.rows, h.square, h.classes, h.positions, h.segs, h.lens⟩
  have hpos : (1 : ℝ) ≤ q1 := by exact_mod_cast h.positions
  have hclog : (2 : ℝ) ^ Nat.clog 2 q1 ≤ 2 * q1 := pow_clog h.positions
  have hB0 := hB.nonneg
  have hsmall' : 2 * (q1 : ℝ) * B + 2 * (q1 * (δ + 2 * ε)) < 100000 := hsmall
  have hBle : B ≤ 100000 := by nlinarith [mul_nonneg (by linarith : (0 : ℝ) ≤ q1) (by linarith : 0 ≤ δ + 2 * ε)]
  obtain ⟨μ, e1, e2⟩ := (SemiMarkovProofs.batchDP (⟨q0, q1, q2, q3, q4, qg⟩ : T5 ℝ) lengths hq (SemiMarkov.hK hq)).argmax_near_real SemiMarkov.parametric h.classes H hε hpick
    (v := SemiMarkovProofs.at5 (⟨q0, q1, q2, q3, q4, pg⟩ : T5 ℝ)) (d := fun _ => δ) (m := fun _ => 100000) (fun _ => hδ) (fun _ => by norm_num) (fun b hb e he => by
      obtain ⟨n, k, c, c', rfl, hn, hk1, hk⟩ := he
      have hl := (SemiMarkovProofs.steps_le h b).1
      have hc' : (c' : ℕ) < q4 := lt_of_lt_of_eq c'.2 h.square
      exact ⟨hd b hb n (lt_of_lt_of_le hn hl) k hk c c.2 c' hc', (hB.bound b hb n k c c' hn hk1 hk c.2 c'.2).trans hBle⟩)
    (Er := q1 * (δ + 2 * ε)) (M := 2 * q1 * 100000)
    (by
      have := cost_semi (z := 0) (ε := ε) (w := fun _ => 0) (W := 0) (D := δ) (Q := (q2 - 1) * q3 + 2)
        (p := SemiMarkov.algo.map (fun x : ℝ × List ℕ => δ) (SemiMarkov.algo.index (⟨q0, q1, q2, q3, q4, qg⟩ : T5 ℝ))) h.classes le_rfl hδ le_rfl (fun _ _ _ _ _ => le_rfl) (fun _ _ => le_rfl)
        (Nat.le_add_left _ _) (Nat.le_add_right _ _) lengths
      refine AllE.mono (fun x hx => hx.trans ?_) this
      show (q1 : ℝ) * δ + (2 ^ Nat.clog 2 q1 - q1) * 0 + 2 ^ Nat.clog 2 q1 * 0 + (2 ^ Nat.clog 2 q1 - 1) * (ε + 0) + 2 * 0 ≤ _
      nlinarith)
    (by
      have := cost_semi (z := 100000) (ε := 0) (w := fun _ => 0) (W := 0) (D := 100000) (Q := (q2 - 1) * q3 + 2)
        (p := SemiMarkov.algo.map (fun x : ℝ × List ℕ => 100000) (SemiMarkov.algo.index (⟨q0, q1, q2, q3, q4, qg⟩ : T5 ℝ))) h.classes (by norm_num) le_rfl le_rfl (fun _ _ _ _ _ => le_rfl)
        (fun _ _ => le_rfl) (Nat.le_add_left _ _) (Nat.le_add_right _ _) lengths
      refine AllE.mono (fun x hx => hx.trans ?_) this
      show (q1 : ℝ) * 100000 + (2 ^ Nat.clog 2 q1 - q1) * 100000 + 2 ^ Nat.clog 2 q1 * 0 + (2 ^ Nat.clog 2 q1 - 1) * (0 + 0) + 2 * 0 ≤ _
      linarith)
    hR (fun b hb x => by
      obtain ⟨y⟩ := SemiMarkov.seg_nonempty h b
      refine ⟨y, ?_⟩
      rw [SemiMarkov.realScore_eq]
      have a1 := (SemiMarkov.ph_le h hB b hb x).1
      have a2 := (abs_le.1 (SemiMarkov.real_le hB b hb y)).1
      have a3 : (SemiMarkov.steps (⟨q0, q1, q2, q3, q4, pg⟩ : T5 ℝ) lengths b : ℝ) * B ≤ q1 * B :=
        mul_le_mul_of_nonneg_right (by exact_mod_cast (SemiMarkovProofs.steps_le h b).1) hB.nonneg
      change phScore _ _ _ _ ≤ -100000 + (SemiMarkov.steps (⟨q0, q1, q2, q3, q4, pg⟩ : T5 ℝ) lengths b : ℝ) * B at a1
      refine lt_of_le_of_lt (add_le_add_left a1 _) (lt_of_lt_of_le ?_ a2)
      linarith)
  refine ⟨μ, e1, fun b hb => ?_⟩
  obtain ⟨y, e3, e4⟩ := e2 b hb
  simp only [SemiMarkov.realScore_eq] at e3
  refine ⟨y, e3, fun n k c c' => ?_⟩
  rw [e4 _ rfl, SemiMarkov.count_parts]
  push_cast; rfl

/-! ### `SentCFG` -/

open CKYProofs in
/-- **C90.** `argmax` of `SentCFG`, rounded; scores must stay clear of the stand-in `-1e5`, by twice the error. -/
theorem cfg_argmax_rounded {p q : CKY.Scores ℝ} {lengths : Option (List ℕ)} (h : SentCFG.Valid p lengths) (hl : SentCFG.Long p lengths) (H : RoundedAdd add R ε) (hε : 0 ≤ ε) (hδ : 0 ≤ δ)
    (hpq : NearCfg δ p q) (hB : SentCFG.Bounded p lengths B) (hsmall : 4 * p.N * B + 2 * (p.N * (2 * δ + 3 * ε)) < 100000) (hR : p.N * (2 * δ + 3 * ε) + 2 * p.N * 100000 ≤ R)
    (hpick : Autograd.IsArgmax Prod.fst pick) :
    ∃ μ, CKY.argmaxWith add q lengths pick = .ok μ ∧ ∀ b < p.batch, ∃ d : SentCFG.Der p lengths b,
      (∀ d' : SentCFG.Der p lengths b, SentCFG.dscore p b d' ≤ SentCFG.dscore p b d + 2 * (p.N * (2 * δ + 3 * ε))) ∧ SentCFG.IsParts μ b d := by
  obtain ⟨p0, pN, pT, pNT, pS, pt, pr, po, pm⟩ := p
  obtain ⟨q0, qN, qT, qNT, qS, qt, qr, qo, qm⟩ := q
  obtain ⟨⟨h0, h1, h2, h3, h4, h5, h6⟩, hdt, hdr, hdo⟩ := hpq
  simp only at h0 h1 h2 h3 h4 h5 h6
  subst h0 h1 h2 h3 h4 h5 h6
  set P : CKY.Scores ℝ := ⟨q0, qN, qT, qNT, qS, pt, pr, po, none⟩ with hP
  set T : CKY.Scores ℝ := ⟨q0, qN, qT, qNT, qS, qt, qr, qo, none⟩ with hT
  have hq : SentCFG.Valid T lengths := ⟨h.symbols, h.nonterminals, h.preterminals, h.rows, h.words, h.lens, rfl⟩
  have hpos : (1 : ℝ) ≤ qN := by exact_mod_cast h.words
  have hB0 := hB.nonneg
  have hsmall' : 4 * (qN : ℝ) * B + 2 * (qN * (2 * δ + 3 * ε)) < 100000 := hsmall
  have hBle : B ≤ 100000 := by nlinarith [mul_nonneg (by linarith : (0 : ℝ) ≤ qN) (by linarith : 0 ≤ 2 * δ + 3 * ε)]
  have hlen : ∀ b < q0, lenOf qN lengths b ≤ qN := fun b hb => SentCFG.len_le h b hb
  obtain ⟨μ, e1, e2⟩ := (batchDP (CKY.marked T) lengths hq.marked).argmax_near_real CKY.parametric trivial H hε hpick
    (v := atS (CKY.marked P)) (d := fun e => if e.getD 1 0 = 3 then 0 else δ) (m := fun e => if e.getD 1 0 = 3 then 0 else 100000)
    (fun e => by split_ifs <;> first | exact le_rfl | exact hδ) (fun e => by split_ifs <;> norm_num) (fun b hb e he => by
      rcases he with ⟨n, t, rfl, h1, h2⟩ | ⟨X, y, z, rfl, h1, h2, h3⟩ | ⟨X, rfl, h1⟩ | ⟨-, w, i, X, rfl, -⟩
      · exact ⟨hdt b hb n (lt_of_lt_of_le h1 (hlen b hb)) t h2, (hB.term b hb n h1 t h2).trans hBle⟩
      · exact ⟨hdr b hb X h1 y h2 z h3, (hB.rule b hb X h1 y h2 z h3).trans hBle⟩
      · exact ⟨hdo b hb X h1, (hB.root b hb X h1).trans hBle⟩
      · exact ⟨show |(0 : ℝ) - 0| ≤ 0 by simp, show |(0 : ℝ)| ≤ 0 by simp⟩)
    (Er := qN * (2 * δ + 3 * ε)) (M := 2 * qN * 100000)
    (by
      have := cost_cfg_marked (z := 0) (ε := ε) (w := fun _ => 0) (W := 0) (D := δ) (Q := qN + 4 + qS * qS) (m := 0) le_rfl (f := fun _ _ _ _ => 0)
        (p := CKY.algo.map (fun x : ℝ × List ℕ => if x.2.getD 1 0 = 3 then 0 else δ) (CKY.algo.index (CKY.marked T))) rfl (fun _ _ _ _ => le_rfl) le_rfl hδ hε le_rfl
        (fun _ _ _ => le_rfl) (fun _ _ _ _ => le_rfl) (fun _ _ => le_rfl) (fun _ _ => le_rfl)
        (by show qN ≤ _; omega) (by omega) (by show qS * qS ≤ _; omega) lengths
      refine AllE.mono (fun x hx => hx.trans (le_of_eq ?_)) this
      show 2 * (qN : ℝ) * δ + qN * (2 * ε + 3 * 0 + (0 + ε)) = _
      ring)
    (by
      have := cost_cfg_marked (z := 100000) (ε := 0) (w := fun _ => 0) (W := 0) (D := 100000) (Q := qN + 4 + qS * qS) (m := 0) le_rfl (f := fun _ _ _ _ => 0)
        (p := CKY.algo.map (fun x : ℝ × List ℕ => if x.2.getD 1 0 = 3 then 0 else 100000) (CKY.algo.index (CKY.marked T))) rfl (fun _ _ _ _ => le_rfl) (by norm_num) le_rfl le_rfl le_rfl
        (fun _ _ _ => le_rfl) (fun _ _ _ _ => le_rfl) (fun _ _ => le_rfl) (fun _ _ => le_rfl)
        (by show qN ≤ _; omega) (by omega) (by show qS * qS ≤ _; omega) lengths
      refine AllE.mono (fun x hx => hx.trans (le_of_eq ?_)) this
      show 2 * (qN : ℝ) * 100000 + qN * (2 * 0 + 3 * 0 + (0 + 0)) = _
      ring)
    hR (fun b hb x => by
      obtain ⟨d⟩ := SentCFG.der_nonempty h hl b hb
      refine ⟨d, ?_⟩
      have a1 := SentCFG.ph_le (SentCFG.bound_marked hB b hb) x
      have a2 := (abs_le.1 (SentCFG.real_le h hB b hb d)).1
      have a3 : (lenOf qN lengths b : ℝ) * B ≤ qN * B := mul_le_mul_of_nonneg_right (by exact_mod_cast hlen b hb) hB0
      refine lt_of_lt_of_eq ?_ (congrFun (SentCFG.realScore_marked P b) d).symm
      refine lt_of_le_of_lt (add_le_add_left a1 _) (lt_of_lt_of_le ?_ a2)
      show -100000 + 2 * (lenOf qN lengths b : ℝ) * B + _ < -(2 * (lenOf qN lengths b : ℝ) * B)
      linarith)
  refine ⟨CKY.arrange qN μ, (if_neg (SentCFG.N_ne h hl)).trans (congrArg (Except.map (CKY.arrange qN)) e1 :), fun b hb => ?_⟩
  obtain ⟨d, e3, e4⟩ := e2 b hb
  refine ⟨d, fun d' => ?_, SentCFG.arrange_isParts μ b (SentCFG.len_le h b hb) d e4⟩
  exact (congrFun (SentCFG.realScore_marked P b) d').symm.trans_le ((e3 d').trans_eq (congrArg (· + 2 * (qN * (2 * δ + 3 * ε))) (congrFun (SentCFG.realScore_marked P b) d)))

/-! ### `LinearChainCRF` -/

open LinearChainProofs ChainTop LinearChainLog _root_.RoundedArgmax in
/-- One row. -/
theorem chain_row {C N logN : ℕ} (H : RoundedAdd add R ε) (hε : 0 ≤ ε) (hpick : Autograd.IsArgmax Prod.fst pick) (hC : 0 < C) (hN : N - 1 ≤ 2 ^ logN) (lens : ℕ → ℕ)
    (p q : ℕ → ℕ → Fin C → Fin C → ℝ) {m Er M : ℝ} (hδ : 0 ≤ δ) (hm : 0 ≤ m) (b : ℕ) (hl : lens b ≤ N)
    (hpq : ∀ n < lens b - 1, ∀ i j, |q b n i j - p b n i j| ≤ δ ∧ |p b n i j| ≤ m) (hp : ∀ n < lens b - 1, ∀ i j, -100000 + 2 * Er < p b n i j) (hsmall : 2 * Er < 100000)
    (hE : (LinearChain.core (trip add ε pick) N logN lens (fun b n i j => (leafRow q b n i j, δ, m)) b).2.1 ≤ Er)
    (hM : (LinearChain.core (trip add ε pick) N logN lens (fun b n i j => (leafRow q b n i j, δ, m)) b).2.2 ≤ M) (hR : Er + M ≤ R) :
    ∃ y : Tags (lens b - 1) C, (LinearChain.core (trip add ε pick) N logN lens (fun b n i j => (leafRow q b n i j, δ, m)) b).1.2 = LinearChain.ind b y ∧
      ∀ y' : Tags (lens b - 1) C, seqScore (p b) y' ≤ seqScore (p b) y + 2 * Er := by
  set S := Autograd.max pick
  have z : ∀ g : List ℕ → ℝ, Ok R (((Semirings.negInf, g) : Autograd.Grad (List ℕ)), (0 : ℝ), (100000 : ℝ)) (Bag.single (Semirings.negInf, g)) := fun g =>
    ok_single le_rfl (by norm_num) (by simp) (by norm_num [Semirings.negInf])
  have o : Ok R (((0, 0) : Autograd.Grad (List ℕ)), (0 : ℝ), (0 : ℝ)) (Bag.single (0, 0)) := ok_single le_rfl le_rfl (by simp) (by simp)
  have kc : ∀ (n : ℕ) (i j : Fin C), Ok R (maskedC (trip add ε pick) (lens b) n i j) (Bag.single (maskedC S (lens b) n i j)) := by
    intro n i j
    by_cases h : n ≥ lens b - 1
    · by_cases hij : i = j
      · have e1 : maskedC (trip add ε pick) (lens b) n i j = ((0, 0), 0, 0) := by simp [maskedC, SR.fill, h, hij, trip, Consistency.prod, cost, Autograd.maxWith, Autograd.max, Autograd.detach, Autograd.setData]
        have e2 : maskedC S (lens b) n i j = (0, 0) := by simp [maskedC, SR.fill, h, hij, S, Autograd.max, Autograd.detach, Autograd.setData]
        rw [e1, e2]; exact o
      · have e1 : maskedC (trip add ε pick) (lens b) n i j = ((Semirings.negInf, 0), 0, 100000) := by simp [maskedC, SR.fill, h, hij, trip, Consistency.prod, cost, Autograd.maxWith, Autograd.max, Autograd.detach, Autograd.setData]
        have e2 : maskedC S (lens b) n i j = (Semirings.negInf, 0) := by simp [maskedC, SR.fill, h, hij, S, Autograd.max, Autograd.detach, Autograd.setData]
        rw [e1, e2]; exact z 0
    · have e1 : maskedC (trip add ε pick) (lens b) n i j = ((Semirings.negInf, 0), 0, 100000) := by simp [maskedC, SR.fill, h, trip, Consistency.prod, cost, Autograd.maxWith, Autograd.max, Autograd.detach, Autograd.setData]
      have e2 : maskedC S (lens b) n i j = (Semirings.negInf, 0) := by simp [maskedC, SR.fill, h, S, Autograd.max, Autograd.detach, Autograd.setData]
      rw [e1, e2]; exact z 0
  have kl : ∀ (n : ℕ) (i j : Fin C), Ok R (maskedL (trip add ε pick) N (lens b) (fun n i j => (leafRow q b n i j, δ, m)) n i j) (Bag.single (maskedL S N (lens b) (leafRow p b) n i j)) := by
    intro n i j
    by_cases h : n ≥ lens b - 1
    · by_cases hn : n < N - 1
      · have e1 : maskedL (trip add ε pick) N (lens b) (fun n i j => (leafRow q b n i j, δ, m)) n i j = ((Semirings.negInf, (leafRow q b n i j).2), 0, 100000) := by
          simp [maskedL, SR.fill, h, hn, trip, Consistency.prod, cost, Autograd.maxWith, Autograd.max, Autograd.detach, Autograd.setData]
        have e2 : maskedL S N (lens b) (leafRow p b) n i j = (Semirings.negInf, (leafRow q b n i j).2) := by simp [maskedL, SR.fill, h, hn, S, Autograd.max, Autograd.detach, Autograd.setData, leafRow, Autograd.leaf]
        rw [e1, e2]; exact z _
      · have e1 : maskedL (trip add ε pick) N (lens b) (fun n i j => (leafRow q b n i j, δ, m)) n i j = ((Semirings.negInf, 0), 0, 100000) := by
          simp [maskedL, SR.fill, h, hn, trip, Consistency.prod, cost, Autograd.maxWith, Autograd.max, Autograd.detach, Autograd.setData]
        have e2 : maskedL S N (lens b) (leafRow p b) n i j = (Semirings.negInf, 0) := by simp [maskedL, SR.fill, h, hn, S, Autograd.max, Autograd.detach, Autograd.setData]
        rw [e1, e2]; exact z _
    · have hn : n < N - 1 := by omega
      have e1 : maskedL (trip add ε pick) N (lens b) (fun n i j => (leafRow q b n i j, δ, m)) n i j = (leafRow q b n i j, δ, m) := by
        simp [maskedL, SR.fill, h, hn, trip, Consistency.prod, cost, Autograd.maxWith, Autograd.max, Autograd.detach, Autograd.setData]
      have e2 : maskedL S N (lens b) (leafRow p b) n i j = leafRow p b n i j := by simp [maskedL, SR.fill, h, hn, S, Autograd.max, Autograd.detach, Autograd.setData]
      rw [e1, e2]
      have := hpq n (by omega) i j
      exact ok_single hδ hm this.1 this.2
  have hrel := core_rel (ok_rel H hε hpick) hC N logN lens (fun b n i j => (leafRow q b n i j, δ, m)) b
    (fun n i j => Bag.single (maskedC S (lens b) n i j) + Bag.single (maskedL S N (lens b) (leafRow p b) n i j))
    (fun n hn i j => (ok_rel H hε hpick).sum2 (kc n i j) (kl n i j))
  obtain ⟨hE0, -, hok⟩ := hrel
  obtain ⟨⟨u, hu, hug, hue⟩, hbest⟩ := hok (by linarith)
  have hz : Semirings.negInf = -100000 := rfl
  have hEr : 0 ≤ 2 * Er := by linarith
  have hl1 : ∀ n < lens b - 1, ∀ i j, maskedL S N (lens b) (leafRow p b) n i j = leafRow p b n i j := by
    intro n hn i j
    have h2 : ¬ n ≥ lens b - 1 := by omega
    have h3 : n < N - 1 := by omega
    simp only [maskedL, SR.fill, S, Autograd.max, Autograd.detach, Autograd.setData, h2, h3, decide_false, if_true]
    simp
  have hc1 : ∀ n < lens b - 1, ∀ i j : Fin C, (maskedC S (lens b) n i j).1 + 2 * Er < (leafRow p b n i j).1 := by
    intro n hn i j
    have h2 : ¬ n ≥ lens b - 1 := by omega
    simp only [maskedC, SR.fill, S, Autograd.max, Autograd.detach, Autograd.setData, h2, decide_false, Bool.not_false, if_true]
    exact hp n hn i j
  have hpad : ∀ n, lens b - 1 ≤ n → n < 2 ^ logN → ∀ i j : Fin C,
      (maskedC S (lens b) n i j = 0 ∨ (maskedC S (lens b) n i j).1 + 2 * Er < 0) ∧
      (maskedL S N (lens b) (leafRow p b) n i j = 0 ∨ (maskedL S N (lens b) (leafRow p b) n i j).1 + 2 * Er < 0) := by
    intro n hn hM i j
    have h2 : n ≥ lens b - 1 := by omega
    constructor
    · simp only [maskedC, SR.fill, S, Autograd.max, Autograd.detach, Autograd.setData, h2, decide_true, Bool.not_true]
      by_cases h : i = j
      · left; simp [h]
      · right; simp only [h, hz, decide_false, Bool.false_eq_true, if_false]; linarith
    · right
      simp only [maskedL, SR.fill, S, Autograd.max, Autograd.detach, Autograd.setData, h2, decide_true, if_true, hz]
      linarith
  have hid : ∀ n, lens b - 1 ≤ n → n < 2 ^ logN → ∀ i : Fin C, maskedC S (lens b) n i i = 0 := by
    intro n hn hM i
    have h2 : n ≥ lens b - 1 := by omega
    simp [maskedC, SR.fill, S, Autograd.max, Autograd.detach, Autograd.setData, h2]
  obtain ⟨⟨y, hy⟩, hall⟩ := near_chain (score := Prod.fst) hEr (fun _ _ => rfl) rfl (L := lens b - 1) (M := 2 ^ logN) (by omega)
    (fun n i j => maskedC S (lens b) n i j) (fun n i j => maskedL S N (lens b) (leafRow p b) n i j)
    (fun n i j => leafRow p b n i j) hl1 hc1 hpad hid hu (fun w hw => by
      have h1 := (hbest w hw).1
      have h2 := (abs_le.1 hue).2
      linarith)
  have hs : ∀ y : Tags (lens b - 1) C, ∑ n : Fin (lens b - 1), leafRow p b n (y n.succ) (y n.castSucc) = (seqScore (p b) y, LinearChain.ind b y) := by
    intro y; exact LinearChain.sum_pair _ _
  refine ⟨y, ?_, fun y' => ?_⟩
  · rw [← hug, hy, hs]
  · have := hall y'
    rw [hs, hy, hs] at this
    exact this

open LinearChainProofs _root_.RoundedArgmax LinearChainLog in
/-- **C90.** `argmax` of `LinearChainCRF`, rounded; potentials must exceed the stand-in `-1e5` by more than twice the error. -/
theorem chain_argmax_rounded {p q : T4 ℝ} {lengths : Option (List ℕ)} (h : LinearChain.Valid p lengths) (H : RoundedAdd add R ε) (hε : 0 ≤ ε) (hδ : 0 ≤ δ) (hB : 100000 ≤ B)
    (hpq : Near4 δ p q) (hp : Within4 B p) (hlow : ∀ b < p.d0, ∀ n < LinearChain.numEdges p lengths b, ∀ i j : Fin p.d2, -100000 + 2 * (p.d1 * (δ + 2 * ε)) < LinearChain.row p b n i j)
    (hsmall : 2 * (p.d1 * (δ + 2 * ε)) < 100000) (hR : p.d1 * (δ + 2 * ε) + 2 * p.d1 * B ≤ R) (hpick : Autograd.IsArgmax Prod.fst pick) :
    ∃ μ, Dist.argmaxWith add LinearChain.algo q lengths pick = .ok μ ∧ ∀ b < p.d0, ∃ y : Tags (LinearChain.numEdges p lengths b) p.d2,
      (∀ y' : Tags (LinearChain.numEdges p lengths b) p.d2, seqScore (LinearChain.row p b) y' ≤ seqScore (LinearChain.row p b) y + 2 * (p.d1 * (δ + 2 * ε))) ∧
      ∀ n < p.d1, ∀ i j : Fin p.d2, μ [b, n, i, j] = if UsesEdge y n i j then 1 else 0 := by
  obtain ⟨p0, p1, p2, p3, pg⟩ := p
  obtain ⟨q0, q1, q2, q3, qg⟩ := q
  obtain ⟨⟨h0, h1, h2, h3⟩, hd⟩ := hpq
  simp only at h0 h1 h2 h3
  subst h0 h1 h2 h3
  set Q : T4 ℝ := ⟨q0, q1, q2, q3, qg⟩ with hQ
  have hpos : (1 : ℝ) ≤ q1 := by exact_mod_cast h.edges
  have hclog : (2 : ℝ) ^ Nat.clog 2 q1 ≤ 2 * q1 := pow_clog h.edges
  have hE : AllE (· ≤ q1 * (δ + 2 * ε)) (LinearChain.algo.run (cost 0 ε fun _ => 0) (LinearChain.algo.map (fun x : ℝ × List ℕ => δ) (LinearChain.algo.index Q)) lengths) := by
    have := cost_chain (z := 0) (ε := ε) (w := fun _ => 0) (W := 0) (D := δ) (Q := q2 + 2)
      (p := LinearChain.algo.map (fun x : ℝ × List ℕ => δ) (LinearChain.algo.index Q)) h.classes le_rfl hδ (fun _ _ _ _ => le_rfl) (fun _ _ => le_rfl)
      (Nat.le_add_left _ _) (Nat.le_add_right _ _) lengths
    refine AllE.mono (fun x hx => hx.trans ?_) this
    show (q1 : ℝ) * δ + (2 ^ Nat.clog 2 q1 - q1) * 0 + 2 ^ Nat.clog 2 q1 * 0 + (2 ^ Nat.clog 2 q1 - 1) * (ε + 0) + 2 * 0 ≤ _
    nlinarith
  have hM : AllE (· ≤ 2 * q1 * B) (LinearChain.algo.run (cost 100000 0 fun _ => 0) (LinearChain.algo.map (fun x : ℝ × List ℕ => B) (LinearChain.algo.index Q)) lengths) := by
    have := cost_chain (z := 100000) (ε := 0) (w := fun _ => 0) (W := 0) (D := B) (Q := q2 + 2)
      (p := LinearChain.algo.map (fun x : ℝ × List ℕ => B) (LinearChain.algo.index Q)) h.classes (by norm_num) hB (fun _ _ _ _ => le_rfl) (fun _ _ => le_rfl)
      (Nat.le_add_left _ _) (Nat.le_add_right _ _) lengths
    refine AllE.mono (fun x hx => hx.trans ?_) this
    show (q1 : ℝ) * B + (2 ^ Nat.clog 2 q1 - q1) * 100000 + 2 ^ Nat.clog 2 q1 * 0 + (2 ^ Nat.clog 2 q1 - 1) * (0 + 0) + 2 * 0 ≤ _
    have hge : (q1 : ℝ) ≤ 2 ^ Nat.clog 2 q1 := by exact_mod_cast Nat.le_pow_clog (by norm_num) q1
    nlinarith
  have P := LinearChain.parametric
  have hok := logpartition_ok (trip add ε pick) (LinearChain.algo.map (fun x : ℝ × List ℕ => (Autograd.leaf x.1 x.2, δ, B)) (LinearChain.algo.index Q)) lengths h.square h.edges h.lens
  have r1 := RelE.map_eq (f := Prod.fst) (P.run (fst_rel (add := add) (ε := ε) (pick := pick)) (LinearChain.algo.index Q) h.classes (fun x => (Autograd.leaf x.1 x.2, δ, B)) (fun x => Autograd.leaf x.1 x.2) (fun _ => rfl) lengths)
  have r2 := RelE.map_eq (f := fun a : Autograd.Grad (List ℕ) × ℝ × ℝ => a.2.1) (P.run (err_rel (add := add) (ε := ε) (pick := pick)) (LinearChain.algo.index Q) h.classes (fun x => (Autograd.leaf x.1 x.2, δ, B)) (fun x => δ) (fun _ => rfl) lengths)
  have r3 := RelE.map_eq (f := fun a : Autograd.Grad (List ℕ) × ℝ × ℝ => a.2.2) (P.run (mag_rel (add := add) (ε := ε) (pick := pick)) (LinearChain.algo.index Q) h.classes (fun x => (Autograd.leaf x.1 x.2, δ, B)) (fun x => B) (fun _ => rfl) lengths)
  have hrun : LinearChain.algo.run (trip add ε pick) (LinearChain.algo.map (fun x : ℝ × List ℕ => (Autograd.leaf x.1 x.2, δ, B)) (LinearChain.algo.index Q)) lengths =
      .ok ((List.range q0).map fun b => LinearChain.core (trip add ε pick) (C := q2) (q1 + 1) (Nat.clog 2 q1) (lenOf (q1 + 1) lengths)
        (fun b n i j => (leafRow (fun b n i j => qg b n i j) b n i j, δ, B)) b) := hok
  rw [hrun] at r1 r2 r3
  rw [← r2] at hE
  rw [← r3] at hM
  have key := fun b (hb : b < q0) => chain_row H hε hpick h.classes (N := q1 + 1) (logN := Nat.clog 2 q1) (by simpa using LinearChainProofs.le_two_pow_clog q1) (lenOf (q1 + 1) lengths)
    (fun b n i j => pg b n i j) (fun b n i j => qg b n i j) hδ (by linarith : (0 : ℝ) ≤ B) b (lenOf_le h.lens b) (fun n hn i j => by
      have hn' : n < q1 := by have : lenOf (q1 + 1) lengths b ≤ q1 + 1 := lenOf_le h.lens b; omega
      have hj : (j : ℕ) < q3 := lt_of_lt_of_eq j.2 h.square
      exact ⟨hd b hb n hn' i i.2 j hj, hp b hb n hn' i i.2 j hj⟩) (hlow b hb) hsmall
    (hE _ rfl _ (List.mem_map.2 ⟨_, List.mem_map.2 ⟨b, List.mem_range.2 hb, rfl⟩, rfl⟩)) (hM _ rfl _ (List.mem_map.2 ⟨_, List.mem_map.2 ⟨b, List.mem_range.2 hb, rfl⟩, rfl⟩)) hR
  refine ⟨_, congrArg (Except.map Dist.gradOfSum) r1.symm, fun b hb => ?_⟩
  obtain ⟨y, hy, hbest⟩ := key b hb
  refine ⟨y, hbest, fun n hn i j => ?_⟩
  rw [List.map_map]
  refine (LinearChain.gradOfSum_row q0 _ b hb n i j ?_).trans ?_
  · intro b' hb' hne
    obtain ⟨y', hy', -⟩ := key b' hb'
    exact (congrFun hy' _).trans (LinearChain.ind_other b b' y' hne n i j)
  · exact (congrFun hy _).trans (LinearChain.ind_apply b y n i j)

/-! ### A clear winner is returned -/

/-- A structure that is better than all others by more than the tolerance is the only one within the tolerance of the best. -/
theorem near_unique {ι : Type} {s : ι → ℝ} {y z : ι} {e : ℝ} (hy : ∀ y', s y' ≤ s y + e) (hz : ∀ y', y' ≠ z → s y' + e < s z) : y = z := by
  by_contra hne
  have h1 := hz y hne
  have h2 := hy z
  linarith

/-- **C90.** If one sequence of row `b` is better than all others by more than twice the error of a score, `argmax` returns it. -/
theorem chain_argmax_robust {p q : T4 ℝ} {lengths : Option (List ℕ)} (h : LinearChain.Valid p lengths) (H : RoundedAdd add R ε) (hε : 0 ≤ ε) (hδ : 0 ≤ δ) (hB : 100000 ≤ B)
    (hpq : Near4 δ p q) (hp : Within4 B p) (hlow : ∀ b < p.d0, ∀ n < LinearChain.numEdges p lengths b, ∀ i j : Fin p.d2, -100000 + 2 * (p.d1 * (δ + 2 * ε)) < LinearChain.row p b n i j)
    (hsmall : 2 * (p.d1 * (δ + 2 * ε)) < 100000) (hR : p.d1 * (δ + 2 * ε) + 2 * p.d1 * B ≤ R) (hpick : Autograd.IsArgmax Prod.fst pick)
    {b : ℕ} (hb : b < p.d0) {t : Tags (LinearChain.numEdges p lengths b) p.d2} (hbest : ∀ t' : Tags (LinearChain.numEdges p lengths b) p.d2, t' ≠ t → seqScore (LinearChain.row p b) t' + 2 * (p.d1 * (δ + 2 * ε)) < seqScore (LinearChain.row p b) t) :
    ∃ μ, Dist.argmaxWith add LinearChain.algo q lengths pick = .ok μ ∧ ∀ n < p.d1, ∀ i j : Fin p.d2, μ [b, n, i, j] = if UsesEdge t n i j then 1 else 0 := by
  obtain ⟨μ, h1, h2⟩ := chain_argmax_rounded h H hε hδ hB hpq hp hlow hsmall hR hpick
  obtain ⟨t', h3, h4⟩ := h2 b hb
  obtain rfl := near_unique h3 hbest
  exact ⟨μ, h1, h4⟩

/-- **C90.** The same for segmentations. -/
theorem semimarkov_argmax_robust {p q : T5 ℝ} {lengths : Option (List ℕ)} (h : SemiMarkovProofs.Valid p lengths) (H : RoundedAdd add R ε) (hε : 0 ≤ ε) (hδ : 0 ≤ δ)
    (hpq : Near5 δ p q) (hB : SemiMarkov.Bounded p lengths B) (hsmall : 2 * p.d1 * B + 2 * (p.d1 * (δ + 2 * ε)) < 100000) (hR : p.d1 * (δ + 2 * ε) + 2 * p.d1 * 100000 ≤ R)
    (hpick : Autograd.IsArgmax Prod.fst pick)
    {b : ℕ} (hb : b < p.d0) {t : SemiMarkov.Seg p lengths b} (hbest : ∀ t' : SemiMarkov.Seg p lengths b, t' ≠ t → segScore (SemiMarkov.row p b) t' + 2 * (p.d1 * (δ + 2 * ε)) < segScore (SemiMarkov.row p b) t) :
    ∃ μ, Dist.argmaxWith add SemiMarkov.algo q lengths pick = .ok μ ∧ ∀ n k (c c' : Fin p.d3), μ [b, n, k, (c : ℕ), (c' : ℕ)] = if (n, k, c, c') ∈ segEdges 0 t.1 t.2.1 then 1 else 0 := by
  obtain ⟨μ, h1, h2⟩ := semimarkov_argmax_rounded h H hε hδ hpq hB hsmall hR hpick
  obtain ⟨t', h3, h4⟩ := h2 b hb
  obtain rfl := near_unique h3 hbest
  exact ⟨μ, h1, h4⟩

/-- **C90.** The same for the trees of `TreeCRF`. -/
theorem tree_argmax_robust {p q : T4 ℝ} {lengths : Option (List ℕ)} (h : TreeCRF.Valid p lengths) (hrows : 0 < p.d0) (H : RoundedAdd add R ε) (hε : 0 ≤ ε) (hδ : 0 ≤ δ) (hB : 100000 ≤ B)
    (hpq : Near4 δ p q) (hp : Within4 B p) (hR : (2 * p.d1 - 1) * δ + 2 * p.d1 * ε + (2 * p.d1 - 1) * B ≤ R) (hpick : Autograd.IsArgmax Prod.fst pick)
    {b : ℕ} (hb : b < p.d0) {t : Trees p.d3 (TreeCRF.len p lengths b)} (hbest : ∀ t' : Trees p.d3 (TreeCRF.len p lengths b), t' ≠ t → treeScore (TreeCRF.row p b) t' + 2 * ((2 * p.d1 - 1) * δ + 2 * p.d1 * ε) < treeScore (TreeCRF.row p b) t) :
    ∃ μ, Dist.argmaxWith add CKYCRF.algo q lengths pick = .ok μ ∧ ∀ i j (a : Fin p.d3), μ [b, i, j, (a : ℕ)] = if (i, j, a) ∈ t.1.spans 0 then 1 else 0 := by
  obtain ⟨μ, h1, h2⟩ := tree_argmax_rounded h hrows H hε hδ hB hpq hp hR hpick
  obtain ⟨t', h3, h4⟩ := h2 b hb
  obtain rfl := near_unique h3 hbest
  exact ⟨μ, h1, h4⟩

open Classical in
/-- **C90.** The same for dependency trees. -/
theorem dependency_argmax_robust (mr : Bool) {p q : DepTree.Arcs ℝ} {lengths : Option (List ℕ)} (h : Dependency.Valid mr p lengths) (H : RoundedAdd add R ε) (hε : 0 ≤ ε) (hδ : 0 ≤ δ)
    (hB : 100000 ≤ B) (hpq : NearArcs δ p q) (hp : WithinArcs B p) (hR : p.d1 * (δ + 3 * ε) + p.d1 * B ≤ R) (hpick : Autograd.IsArgmax Prod.fst pick)
    {b : ℕ} (hb : b < p.d0) {t : ProjTrees mr (Dependency.len p lengths b)} (hbest : ∀ t' : ProjTrees mr (Dependency.len p lengths b), t' ≠ t → depScore (Dependency.row p b) t'.1 + 2 * (p.d1 * (δ + 3 * ε)) < depScore (Dependency.row p b) t.1) :
    ∃ μ, DepTree.argmaxWith add mr q lengths pick = .ok μ ∧ ∀ i j, μ [b, i, j] = if HasArc t.1 i j then 1 else 0 := by
  obtain ⟨μ, h1, h2⟩ := dependency_argmax_rounded mr h H hε hδ hB hpq hp hR hpick
  obtain ⟨t', h3, h4⟩ := h2 b hb
  obtain rfl := near_unique h3 hbest
  exact ⟨μ, h1, h4⟩

/-- **C90.** The same for derivations of `SentCFG`. -/
theorem cfg_argmax_robust {p q : CKY.Scores ℝ} {lengths : Option (List ℕ)} (h : SentCFG.Valid p lengths) (hl : SentCFG.Long p lengths) (H : RoundedAdd add R ε) (hε : 0 ≤ ε) (hδ : 0 ≤ δ)
    (hpq : NearCfg δ p q) (hB : SentCFG.Bounded p lengths B) (hsmall : 4 * p.N * B + 2 * (p.N * (2 * δ + 3 * ε)) < 100000) (hR : p.N * (2 * δ + 3 * ε) + 2 * p.N * 100000 ≤ R)
    (hpick : Autograd.IsArgmax Prod.fst pick)
    {b : ℕ} (hb : b < p.batch) {t : SentCFG.Der p lengths b} (hbest : ∀ t' : SentCFG.Der p lengths b, t' ≠ t → SentCFG.dscore p b t' + 2 * (p.N * (2 * δ + 3 * ε)) < SentCFG.dscore p b t) :
    ∃ μ, CKY.argmaxWith add q lengths pick = .ok μ ∧ SentCFG.IsParts μ b t := by
  obtain ⟨μ, h1, h2⟩ := cfg_argmax_rounded h hl H hε hδ hpq hB hsmall hR hpick
  obtain ⟨t', h3, h4⟩ := h2 b hb
  obtain rfl := near_unique h3 hbest
  exact ⟨μ, h1, h4⟩

/-! ### The hypotheses are met -/

/-- Fixed-point addition. -/
def gridAdd (g : ℝ) (a b : ℝ) : ℝ := round ((a + b) / g) * g

theorem gridAdd_rounded {g : ℝ} (hg : 0 < g) (R : ℝ) : RoundedAdd (gridAdd g) R (g / 2) := fun _ _ _ => grid_error hg _

/-- Floating-point addition: a relative error of at most `u` is an instance with `ε = u * R`. -/
theorem relativeAdd_rounded {add : ℝ → ℝ → ℝ} {u : ℝ} (hu : 0 ≤ u) (h : ∀ a b, |add a b - (a + b)| ≤ u * |a + b|) (R : ℝ) : RoundedAdd add R (u * R) :=
  fun a b hab => (h a b).trans (mul_le_mul_of_nonneg_left hab hu)

/-- Six digits after the point and a table that is off by 1/1000: the sequence that is returned is within 0.01 of the best. -/
example {pick : List (Autograd.Grad (List ℕ)) → Autograd.Grad (List ℕ)} (hpick : Autograd.IsArgmax Prod.fst pick) :
    ∃ μ, Dist.argmaxWith (gridAdd (1 / 1000000)) LinearChain.algo (moved LinearChain.sample) (some [3, 2]) pick = .ok μ ∧ ∀ b < 2,
      ∃ y : Tags (LinearChain.numEdges LinearChain.sample (some [3, 2]) b) 2, (∀ y' : Tags (LinearChain.numEdges LinearChain.sample (some [3, 2]) b) 2, seqScore (LinearChain.row LinearChain.sample b) y' ≤ seqScore (LinearChain.row LinearChain.sample b) y + 0.01) ∧
        ∀ n < 2, ∀ i j : Fin 2, μ [b, n, i, j] = if UsesEdge y n i j then 1 else 0 := by
  have e : (LinearChain.sample.d1 : ℝ) = 2 := by norm_num [LinearChain.sample]
  obtain ⟨μ, h1, h2⟩ := chain_argmax_rounded (p := LinearChain.sample) (q := moved LinearChain.sample) (ε := 1 / 1000000 / 2) LinearChain.sample_valid
    (gridAdd_rounded (by norm_num) 1000000) (by norm_num) (by norm_num) (le_refl _) (near_moved _) sample_within (fun b hb n hn i j => by
      have hj : ((j : ℕ) : ℝ) ≤ 2 := by exact_mod_cast j.2.le
      have h1 : (0 : ℝ) ≤ b := Nat.cast_nonneg _
      have h2 : (0 : ℝ) ≤ n := Nat.cast_nonneg _
      have h3 : (0 : ℝ) ≤ (i : ℕ) := Nat.cast_nonneg _
      rw [e]
      show _ < (b : ℝ) + n + 2 * (i : ℕ) - (j : ℕ)
      linarith) (by rw [e]; norm_num) (by rw [e]; norm_num) hpick
  refine ⟨μ, h1, fun b hb => ?_⟩
  obtain ⟨y, h3, h4⟩ := h2 b hb
  exact ⟨y, fun y' => (h3 y').trans (by rw [e]; norm_num), h4⟩

end Props.RoundedArgmax
