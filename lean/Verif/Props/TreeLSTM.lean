import Mathlib.Analysis.SpecialFunctions.Artanh
import Verif.Proofs.TreeLSTM
import Verif.Props.SelfCritical

/-! Property theorems C106: the tree network of the examples computes a binary tree-LSTM of every tree of the batch. -/

open Finset Spec CellProofs
open Props.SentCFGEvents (Sub cell4)

noncomputable section
open TreeLSTM TreeLSTMProofs
namespace Props.TreeLSTM
variable {NT T : ℕ}

/-! ### Rows with further leaves -/

/-- The tree with the further leaves on its right; only its subtrees matter. -/
def ext (X : Fin NT) (d : Deriv NT T) (w : ℕ → Fin T) : ℕ → Deriv NT T
  | 0 => d
  | m + 1 => .node X (ext X d w m) (.leaf (w (d.size + m)))

theorem ext_size (X : Fin NT) (d : Deriv NT T) (w : ℕ → Fin T) : ∀ m, (ext X d w m).size = d.size + m
  | 0 => rfl
  | m + 1 => by rw [ext, GTree.size, ext_size X d w m]; rfl

/-- The subtrees of a padded row. -/
def RowSub (N : ℕ) (d : Deriv NT T) (w : ℕ → Fin T) (x : ℕ × Deriv NT T) : Prop := x ∈ d.subs 0 ∨ ∃ i, d.size ≤ i ∧ i < N ∧ x = (i, .leaf (w i))

theorem ext_mem (X : Fin NT) (d : Deriv NT T) (w : ℕ → Fin T) : ∀ (m : ℕ) (x : ℕ × Deriv NT T), RowSub (d.size + m) d w x → x ∈ (ext X d w m).subs 0
  | 0, x, h => by
    rcases h with h | ⟨i, h1, h2, -⟩
    · exact h
    · omega
  | m + 1, x, h => by
    rw [ext, Deriv.subs, List.mem_cons, List.mem_append]
    rcases h with h | ⟨i, h1, h2, rfl⟩
    · exact .inr (.inl (ext_mem X d w m x (.inl h)))
    · by_cases hc : i < d.size + m
      · exact .inr (.inl (ext_mem X d w m _ (.inr ⟨i, h1, hc, rfl⟩)))
      · obtain rfl : i = d.size + m := by omega
        rw [ext_size, Nat.zero_add]
        exact .inr (.inr (by simp [Deriv.subs]))

theorem padded_ne_zero {N : ℕ} (d : Deriv NT T) (w : ℕ → Fin T) (c : CKY.Cell) :
    TreeLSTM.padded N d w c.1 c.2.1 c.2.2 ≠ 0 ↔ ∃ x, RowSub N d w x ∧ c = Deriv.cell x := by
  obtain ⟨i, j, A⟩ := c
  unfold TreeLSTM.padded
  rw [ne_eq, ite_eq_right_iff, Classical.not_imp]
  simp only [one_ne_zero, not_false_eq_true, and_true]
  constructor
  · rintro (h | ⟨h1, h2, rfl, rfl⟩)
    · obtain ⟨x, hx, he⟩ := List.mem_map.1 h
      exact ⟨x, .inl hx, he.symm⟩
    · exact ⟨(j, .leaf (w j)), .inr ⟨j, h1, h2, rfl⟩, by rw [cell_leaf]⟩
  · rintro ⟨x, h | ⟨i', h1, h2, rfl⟩, he⟩
    · exact .inl (List.mem_map.2 ⟨x, h, he.symm⟩)
    · rw [cell_leaf] at he
      simp only [Prod.mk.injEq] at he
      obtain ⟨rfl, rfl, rfl⟩ := he
      exact .inr ⟨h1, h2, rfl, rfl⟩

theorem cell_lt {N : ℕ} {d : Deriv NT T} (hd : d.size ≤ N) {w : ℕ → Fin T} {x : ℕ × Deriv NT T} (h : RowSub N d w x) :
    (Deriv.cell x).1 < N ∧ (Deriv.cell x).2.1 < N ∧ (Deriv.cell x).2.2 < NT + T := by
  refine ⟨?_, ?_, sym_bound _⟩ <;>
  · rcases h with h | ⟨i, h1, h2, rfl⟩
    · have := bounds d 0 x h
      have := x.2.size_pos
      simp only [Deriv.cell]
      omega
    · rw [cell_leaf]
      exact h2

theorem mem_cover {N C : ℕ} {f : ℕ → ℕ → ℕ → ℝ} {c : CKY.Cell} : c ∈ CKY.cover N C f ↔ c.1 < N ∧ c.2.1 < N ∧ c.2.2 < C ∧ f c.1 c.2.1 c.2.2 ≠ 0 := by
  obtain ⟨i, j, A⟩ := c
  simp [CKY.cover]
  tauto

theorem mem_cover4 {batch N : ℕ} (D : ℕ → Deriv NT T) (w : ℕ → ℕ → Fin T) (hD : ∀ b < batch, (D b).size ≤ N) (f : ℕ → ℕ → ℕ → ℕ → ℝ)
    (hf : ∀ b < batch, ∀ i < N, ∀ j < N, ∀ A < NT + T, f b i j A = TreeLSTM.padded N (D b) (w b) i j A) (c : CKY.Cell4) :
    c ∈ CKY.cover4 batch N (NT + T) f ↔ ∃ b < batch, ∃ x, RowSub N (D b) (w b) x ∧ c = cell4 (b, x) := by
  rw [CKY.cover4, List.mem_flatMap]
  simp only [List.mem_range, List.mem_map, mem_cover]
  constructor
  · rintro ⟨b, hb, c, ⟨h1, h2, h3, h4⟩, rfl⟩
    rw [hf b hb _ h1 _ h2 _ h3] at h4
    obtain ⟨x, hx, rfl⟩ := (padded_ne_zero (D b) (w b) c).1 h4
    exact ⟨b, hb, x, hx, rfl⟩
  · rintro ⟨b, hb, x, hx, rfl⟩
    obtain ⟨h1, h2, h3⟩ := cell_lt (hD b hb) hx
    refine ⟨b, hb, Deriv.cell x, ⟨h1, h2, h3, ?_⟩, rfl⟩
    rw [hf b hb _ h1 _ h2 _ h3]
    exact (padded_ne_zero (D b) (w b) _).2 ⟨x, hx, rfl⟩

theorem nNodes_eq {batch N : ℕ} (D : ℕ → Deriv NT T) (w : ℕ → ℕ → Fin T) (f : ℕ → ℕ → ℕ → ℕ → ℝ)
    (hf : ∀ b < batch, ∀ i < N, ∀ j < N, ∀ A < NT + T, f b i j A = TreeLSTM.padded N (D b) (w b) i j A) :
    CKY.nNodes batch N (NT + T) f = (CKY.cover4 batch N (NT + T) f).length := by
  rw [CKY.nNodes, CKY.cover4, List.length_flatMap, Nat.cast_list_sum, List.map_map]
  refine congrArg List.sum (List.map_congr_left fun b hb => ?_)
  have hb := List.mem_range.1 hb
  have e : ∀ l : List CKY.Cell, (∀ c ∈ l, f b c.1 c.2.1 c.2.2 = TreeLSTM.padded N (D b) (w b) c.1 c.2.1 c.2.2) →
      (l.map fun c => f b c.1 c.2.1 c.2.2).sum = (l.filter fun c => decide (f b c.1 c.2.1 c.2.2 ≠ 0)).length := by
    intro l hl
    rw [List.map_congr_left hl, SentCFGEvents.sum_indicator _ (fun c => by unfold TreeLSTM.padded; split_ifs <;> simp)]
    rw [List.filter_congr (q := fun c => decide (f b c.1 c.2.1 c.2.2 ≠ 0)) fun c hc => by rw [hl c hc]]
  rw [e _ (fun c hc => by
    simp only [List.mem_flatMap, List.mem_map, List.mem_range] at hc
    obtain ⟨i, hi, j, hj, A, hA, rfl⟩ := hc
    exact hf b hb i hi j hj A hA), Function.comp_apply, List.length_map]
  rfl

/-- The graph of a batch of padded rows. -/
theorem graph_spec (hNT : 0 < NT) (batch N : ℕ) (D : ℕ → Deriv NT T) (w : ℕ → ℕ → Fin T) (hD : ∀ b < batch, (D b).size ≤ N) (f : ℕ → ℕ → ℕ → ℕ → ℝ)
    (hf : ∀ b < batch, ∀ i < N, ∀ j < N, ∀ A < NT + T, f b i j A = TreeLSTM.padded N (D b) (w b) i j A) (ordered : List CKY.Cell4)
    (hperm : ordered.Perm (CKY.cover4 batch N (NT + T) f)) (hsort : ordered.Pairwise fun c c' => c.2.2.1 - c.2.1 ≤ c'.2.2.1 - c'.2.1) :
    ∃ (xs : List (Sub NT T)) (s : CKY.NxState), CKY.toNetworkx N ordered = .ok s ∧ ordered = xs.map cell4 ∧ Props.SentCFGEvents.Inv xs s ∧
      ∀ x, x ∈ xs ↔ x.1 < batch ∧ RowSub N (D x.1) (w x.1) x.2 := by
  obtain ⟨xs, rfl, hxs⟩ := SentCFGEvents.exists_subs (fun x : Sub NT T => x.1 < batch ∧ RowSub N (D x.1) (w x.1) x.2) ordered fun c hc => by
    obtain ⟨b, hb, x, hx, rfl⟩ := (mem_cover4 D w hD f hf c).1 (hperm.mem_iff.1 hc)
    exact ⟨(b, x), ⟨hb, hx⟩, rfl⟩
  have hext : ∀ b < batch, ∀ x, RowSub N (D b) (w b) x → x ∈ (ext ⟨0, hNT⟩ (D b) (w b) (N - (D b).size)).subs 0 := fun b hb x hx =>
    ext_mem _ _ _ _ _ (by rw [Nat.add_sub_cancel' (hD b hb)]; exact hx)
  have hnd : xs.Nodup := ((hperm.nodup_iff).2 (SentCFGEvents.cover4_nodup _ _ _ _)).of_map
  have hall : ∀ x, x ∈ xs ↔ x.1 < batch ∧ RowSub N (D x.1) (w x.1) x.2 := by
    refine fun x => ⟨hxs x, fun ⟨hb, hx⟩ => ?_⟩
    have : cell4 x ∈ xs.map cell4 := hperm.mem_iff.2 ((mem_cover4 D w hD f hf _).2 ⟨x.1, hb, x.2, hx, rfl⟩)
    obtain ⟨y, hy, he⟩ := List.mem_map.1 this
    obtain ⟨b, y⟩ := y
    obtain ⟨b', x⟩ := x
    simp only [cell4, Prod.mk.injEq] at he
    obtain ⟨rfl, he⟩ := he
    have := cell_inj (hext b hb y (hxs _ hy).2) (hext b hb x hx) (by rw [he]) (by rw [he])
    exact (congrArg (fun z => ((b, z) : Sub NT T)) this) ▸ hy
  obtain ⟨s, h1, h2⟩ := SentCFGEvents.loop_inv (N := N) (fun b => ext ⟨0, hNT⟩ (D b) (w b) (N - (D b).size)) xs [] ⟨fun _ => none, fun _ => none, [], [], fun _ => [], 0⟩
    ⟨rfl, fun b i => ⟨by simp, by simp⟩, fun b e => ⟨by simp, by simp⟩, ⟨[], rfl, rfl, rfl, by simp⟩, fun h => rfl⟩
    (fun y hy => ⟨hext _ (hxs y hy).1 _ (hxs y hy).2, by rw [ext_size, Nat.add_sub_cancel' (hD _ (hxs y hy).1)]⟩) hnd
    (fun x hx X l r he => by
      obtain ⟨b, i, t⟩ := x
      simp only at he
      subst he
      obtain ⟨hb, h | ⟨i', -, -, hc⟩⟩ := hxs _ hx
      · exact ⟨(hall _).2 ⟨hb, .inl (left_mem h)⟩, (hall _).2 ⟨hb, .inl (right_mem h)⟩⟩
      · simp at hc)
    (by
      rw [List.nil_append]
      refine (List.pairwise_map.1 hsort).imp fun {x y} h => ?_
      have := x.2.2.size_pos
      have := y.2.2.size_pos
      simp only [cell4, Deriv.cell] at h
      omega)
  exact ⟨xs, s, h1, rfl, h2, hall⟩

/-! ### The network -/

variable (θ : Params)

/-- The input vectors of the words: row `NT + t` of the embedding, the channel of word `t`. -/
def inputs (NT T : ℕ) (t : Fin T) (j : Fin θ.hidden) : ℝ := θ.emb (NT + t) j

/-- What the specification gives for a tree: the class log-probabilities from the hidden state at its root. -/
def classes (d : Deriv NT T) (k : Fin θ.outSize) : ℝ :=
  TreeLSTM.logProbs (fun k j => θ.out k j) (fun k => θ.outBias k) (TreeLSTM.state (weights θ) 2 (inputs θ NT T) d).h k

theorem result_eq (h : Vec) (y : Fin θ.hidden → ℝ) (hy : ∀ j : Fin θ.hidden, h j = y j) (k : Fin θ.outSize) :
    logSoftmax θ.outSize (fun k => linear θ.hidden θ.out h k + θ.outBias k) k = TreeLSTM.logProbs (fun k j => θ.out k j) (fun k => θ.outBias k) y k := by
  unfold logSoftmax TreeLSTM.logProbs
  rw [sum_range_fin]
  simp only [linear_eq, hy]

/-- **C106.** For every batch of trees of any shapes and sizes, and every order in which the cells of equal width are listed, the network returns for every row the class
log-probabilities of a binary tree-LSTM of the tree of this row, with the cell states of the leaves counted twice: the other rows, the lengths and the words beyond the
tree do not matter. -/
theorem network_spec (hNT : 0 < NT) (hin : NT + T ≤ θ.inSize) (batch N : ℕ) (D : ℕ → Deriv NT T) (w : ℕ → ℕ → Fin T) (hD : ∀ b < batch, (D b).size ≤ N)
    (f : ℕ → ℕ → ℕ → ℕ → ℝ) (hf : ∀ b < batch, ∀ i < N, ∀ j < N, ∀ A < NT + T, f b i j A = TreeLSTM.padded N (D b) (w b) i j A) (ordered : List CKY.Cell4)
    (hperm : ordered.Perm (CKY.cover4 batch N (NT + T) f)) (hsort : ordered.Pairwise fun c c' => c.2.2.1 - c.2.1 ≤ c'.2.2.1 - c'.2.1)
    (lengths : List ℕ) (hl : lengths ≠ []) (hlb : lengths.length ≤ batch) :
    ∃ outs, network θ N ⌊CKY.nNodes batch N (NT + T) f⌋₊ ordered lengths = .ok outs ∧ outs.length = lengths.length ∧
      ∀ b (hb : b < outs.length), ∀ k : Fin θ.outSize, outs[b] k = classes θ (D b) k := by
  obtain ⟨xs, s, h1, rfl, h2, h3⟩ := graph_spec hNT batch N D w hD f hf ordered hperm hsort
  have hn : ⌊CKY.nNodes batch N (NT + T) f⌋₊ = xs.length := by
    rw [nNodes_eq D w f hf, Nat.floor_natCast, ← hperm.length_eq, List.length_map]
  have hg := graph_of_inv h2
  have hlen : s.a.length = s.b.length := by
    obtain ⟨ts, ha, hb, -, -⟩ := h2.edges
    rw [ha, hb]
    simp [List.length_flatMap]
  have hlt : ∀ v ∈ s.a ++ s.b, v < xs.length := by
    intro v hv
    obtain ⟨ts, ha, hb, -, hts⟩ := h2.edges
    have : ∃ t ∈ ts, v = t.1 ∨ v = t.2.1 ∨ v = t.2.2 := by
      rw [ha, hb, List.mem_append, List.mem_flatMap, List.mem_flatMap] at hv
      rcases hv with ⟨t, ht, hv⟩ | ⟨t, ht, hv⟩
      · exact ⟨t, ht, by simp at hv; tauto⟩
      · exact ⟨t, ht, by simp at hv; tauto⟩
    obtain ⟨t, ht, hv⟩ := this
    obtain ⟨b', i', X', l', r', e1, e2, e3⟩ := hts t ht
    rcases hv with rfl | rfl | rfl
    · exact (List.getElem?_eq_some_iff.1 e1).1
    · exact (List.getElem?_eq_some_iff.1 e2).1
    · exact (List.getElem?_eq_some_iff.1 e3).1
  have hheight : ∀ (v : ℕ) (x : Sub NT T), xs[v]? = some x → x.2.2.height < N := by
    intro v x hx
    obtain ⟨hb, hr⟩ := (h3 x).1 (List.mem_of_getElem? hx)
    have e1 := CellProofs.height_lt x.2.2
    rcases hr with hr | ⟨i, hi1, hi2, hx2⟩
    · have := bounds _ 0 x.2 hr
      have := hD _ hb
      omega
    · rw [hx2]
      show 0 < N
      omega
  obtain ⟨h, h4, h5⟩ := run_spec θ hg (fun t => linear θ.hidden θ.wIou (θ.emb (NT + t)))
    (fun v => linear θ.hidden θ.wIou (θ.emb ((((xs.map cell4).map fun c => c.2.2.2)).getD v 0))) (fun _ _ => 0)
    (fun v x hx t ht => by
      have : (((xs.map cell4).map fun c => c.2.2.2)).getD v 0 = NT + t := by
        rw [List.getD_eq_getElem?_getD, List.getElem?_map, List.getElem?_map, hx]
        show Deriv.sym x.2.2 = _
        rw [ht]
        rfl
      rw [this]) (some ((List.range N).map s.topo))
    (fun Fs hFs => by
      obtain rfl := Option.some.inj hFs
      refine ⟨fun j hj v => ?_, fun v x hx => by simpa using hheight v x hx⟩
      rw [List.getElem_map, List.getElem_range, h2.topo j, List.mem_filter, List.mem_range]
      constructor
      · rintro ⟨hv, he⟩
        rw [List.getElem?_eq_getElem hv] at he
        exact ⟨_, List.getElem?_eq_getElem hv, by simpa using he⟩
      · rintro ⟨x, hx, he⟩
        rw [hx]
        exact ⟨(List.getElem?_eq_some_iff.1 hx).1, by simpa using he⟩)
  have hres : ∀ b < batch, ∃ n ht, s.left (b, 0) = some (n, ht) ∧ xs[n]? = some (b, 0, D b) := by
    intro b hb
    have hroot : ((b, 0, D b) : Sub NT T) ∈ xs := (h3 _).2 ⟨hb, .inl (mem_self 0 (D b))⟩
    obtain ⟨e1, e2⟩ := h2.left b 0
    cases hs : s.left (b, 0) with
    | none => exact absurd ⟨rfl, rfl⟩ (e1 hs _ hroot)
    | some y =>
      obtain ⟨n, ht⟩ := y
      obtain ⟨t, ht1, ht2, ht3⟩ := e2 n ht hs
      have hle := ht3 _ hroot rfl rfl
      obtain ⟨-, hr⟩ := (h3 _).1 (List.mem_of_getElem? ht1)
      rcases hr with hr | ⟨i, hi1, hi2, hx2⟩
      · have hb2 := bounds _ 0 _ hr
        have := extent_unique (D b) 0 _ hr _ (mem_self 0 (D b)) rfl (by simp only at hb2 hle ⊢; omega)
        simp only [Prod.mk.injEq, true_and] at this
        exact ⟨n, ht, rfl, by rw [ht1, this]⟩
      · simp only [Prod.mk.injEq] at hx2
        have := (D b).size_pos
        have hi1 : (D b).size ≤ i := hi1
        omega
  choose! root hroot using hres
  have hmap : (List.range lengths.length).mapM (result θ h s.left) =
      .ok ((List.range lengths.length).map fun b => logSoftmax θ.outSize fun k => linear θ.hidden θ.out (h (root b)) k + θ.outBias k) := by
    refine mapM_map_ok _ _ _ fun b hb => ?_
    obtain ⟨ht, e1, -⟩ := hroot b (lt_of_lt_of_le (List.mem_range.1 hb) hlb)
    simp only [result, e1]
  refine ⟨(List.range lengths.length).map fun b => logSoftmax θ.outSize fun k => linear θ.hidden θ.out (h (root b)) k + θ.outBias k, ?_,
    by rw [List.length_map, List.length_range], fun b hb k => ?_⟩
  · unfold network
    rw [h1]
    show (if _ then _ else _) = _
    rw [hn, if_neg (not_not.2 hlt)]
    unfold forward
    rw [if_neg (not_not.2 fun l hl => ?_), if_neg (by simp)]
    · show (do let h ← run θ _ _ _ _ _ _; _) = _
      rw [h4]
      show (if lengths = [] then _ else _) = _
      rw [if_neg hl]
      exact hmap
    · obtain ⟨c, hc, rfl⟩ := List.mem_map.1 hl
      obtain ⟨x, -, rfl⟩ := List.mem_map.1 hc
      exact lt_of_lt_of_le (sym_bound _) hin
  · have hb' : b < lengths.length := by simpa using hb
    rw [List.getElem_map, List.getElem_range]
    obtain ⟨ht, -, e2⟩ := hroot b (by omega)
    refine result_eq θ _ _ (fun j => ?_) k
    rw [h5 _ _ e2]
    exact (val_eq θ _ _ (fun _ => rfl) (inputs θ NT T) (fun t o => linear_eq _ _ _ _) (D b) j).1

/-- **C106.** The two passes of `run` matter: already for one word the result is not that of the tree-LSTM whose leaves count once. -/
theorem twice_differs : ∃ θ : Params, ∃ j : Fin θ.hidden, (TreeLSTM.state (weights θ) 2 (inputs θ 1 1) (.leaf 0 : Deriv 1 1)).h j ≠
    (TreeLSTM.state (weights θ) 1 (inputs θ 1 1) (.leaf 0 : Deriv 1 1)).h j := by
  refine ⟨⟨1, 2, 1, fun _ _ => 1, fun _ _ => 1, fun _ _ => 0, fun _ => 0, fun _ _ => 0, fun _ => 0, fun _ _ => 1, fun _ => 0⟩, ⟨0, Nat.one_pos⟩, fun h => ?_⟩
  simp only [TreeLSTM.state, TreeLSTM.leafState, weights, inputs] at h
  have hσ : ∀ x, 0 < TreeLSTM.σ x := fun x => by unfold TreeLSTM.σ; positivity
  have h1 := Real.tanh_injective (mul_left_cancel₀ (hσ _).ne' h)
  have h2 : TreeLSTM.σ (∑ _j : Fin 1, (1 : ℝ) * 1 + 0) * Real.tanh (∑ _j : Fin 1, (1 : ℝ) * 1 + 0) = 0 := by linarith
  rcases mul_eq_zero.1 h2 with h3 | h3
  · exact (hσ _).ne' h3
  · have h4 := Real.tanh_injective (h3.trans Real.tanh_zero.symm)
    simp at h4

/-! ### The reward of the example -/

/-- The derivation of a tree of one label whose leaves are the words `w`. -/
def wordTree {V : ℕ} (w : ℕ → Fin V) : ℕ → LTree 1 → Deriv 1 V
  | i, .leaf _ => .leaf (w i)
  | i, .node _ l r => .node 0 (wordTree w i l) (wordTree w (i + l.size) r)

theorem wordTree_size {V : ℕ} (w : ℕ → Fin V) : ∀ (t : LTree 1) (i : ℕ), (wordTree w i t).size = t.size
  | .leaf _, _ => rfl
  | .node _ l r, i => by rw [wordTree, GTree.size, wordTree_size w l, wordTree_size w r]; rfl

theorem wordTree_cells {V : ℕ} (w : ℕ → Fin V) : ∀ (t : LTree 1) (s i j c : ℕ), (i, j, c) ∈ ((wordTree w s t).subs s).map Deriv.cell ↔
    (i ≠ j ∧ c = 0 ∧ (i, j, (0 : Fin 1)) ∈ t.spans s) ∨ (i = j ∧ s ≤ i ∧ i < s + t.size ∧ c = w i + 1)
  | .leaf a, s, i, j, c => by
    simp only [wordTree, Deriv.subs, List.map_cons, List.map_nil, List.mem_singleton, cell_leaf, LTree.spans, LTree.size, Prod.mk.injEq]
    constructor
    · rintro ⟨rfl, rfl, rfl⟩
      exact .inr ⟨rfl, le_rfl, by omega, by omega⟩
    · rintro (⟨h1, -, h2, h3, -⟩ | ⟨rfl, h1, h2, h3⟩)
      · omega
      · obtain rfl : i = s := by omega
        exact ⟨rfl, rfl, by omega⟩
  | .node a l r, s, i, j, c => by
    have hl := l.size_pos
    have hr := r.size_pos
    rw [wordTree, Deriv.subs, List.map_cons, List.mem_cons, List.map_append, List.mem_append, wordTree_size, wordTree_cells w l, wordTree_cells w r, cell_node, wordTree_size,
      wordTree_size]
    simp only [LTree.spans, LTree.size, List.mem_cons, List.mem_append, Prod.mk.injEq, Subsingleton.elim (0 : Fin 1) a, and_true, Fin.val_zero]
    constructor
    · rintro (⟨rfl, rfl, h⟩ | (⟨h1, h2, h3⟩ | ⟨h1, h2, h3, h4⟩) | (⟨h1, h2, h3⟩ | ⟨h1, h2, h3, h4⟩))
      · refine .inl ⟨by omega, by simpa using h, .inl ⟨rfl, by omega⟩⟩
      · exact .inl ⟨h1, h2, .inr (.inl h3)⟩
      · exact .inr ⟨h1, h2, by omega, h4⟩
      · exact .inl ⟨h1, h2, .inr (.inr h3)⟩
      · exact .inr ⟨h1, by omega, by omega, h4⟩
    · rintro (⟨h1, h2, ⟨rfl, rfl⟩ | h3 | h3⟩ | ⟨h1, h2, h3, h4⟩)
      · exact .inl ⟨rfl, by omega, by simp [h2]⟩
      · exact .inr (.inl (.inl ⟨h1, h2, h3⟩))
      · exact .inr (.inr (.inl ⟨h1, h2, h3⟩))
      · by_cases hc : i < s + l.size
        · exact .inr (.inl (.inr ⟨h1, h2, hc, h4⟩))
        · exact .inr (.inr (.inr ⟨h1, by omega, by omega, h4⟩))

/-- The row that `expand_spans` makes of a tree over the first words of a sentence is the table of the tree of these words, with the other words as further leaves. -/
theorem expanded_eq {V N L : ℕ} (w : List ℕ) (w' : ℕ → Fin V) (hw : ∀ i < N, w.getD i 0 = w' i) (t : Trees 1 L) (hL : L ≤ N) (i j c : ℕ) (hi : i < N) (hj : j < N) :
    SelfCritical.expanded N w (TreeCRF.event t) i j c = TreeLSTM.padded N (wordTree w' 0 t.1) w' i j c := by
  have key : ((i, j, c) ∈ ((wordTree w' 0 t.1).subs 0).map Deriv.cell ∨ ((wordTree w' 0 t.1).size ≤ i ∧ i < N ∧ j = i ∧ c = 1 + w' i)) ↔
      (i ≠ j ∧ c = 0 ∧ (i, j, (0 : Fin 1)) ∈ t.1.spans 0) ∨ (i = j ∧ c = w' i + 1) := by
    rw [wordTree_cells, wordTree_size, t.2]
    constructor
    · rintro ((h | ⟨h1, -, -, h4⟩) | ⟨-, -, h3, h4⟩)
      · exact .inl h
      · exact .inr ⟨h1, h4⟩
      · exact .inr ⟨h3.symm, by omega⟩
    · rintro (h | ⟨h1, h2⟩)
      · exact .inl (.inl h)
      · by_cases hc : i < L
        · exact .inl (.inr ⟨h1, Nat.zero_le _, by omega, h2⟩)
        · exact .inr ⟨by omega, hi, h1.symm, by omega⟩
  unfold SelfCritical.expanded TreeLSTM.padded
  rw [if_neg (not_not.2 ⟨hi, hj⟩), if_congr key rfl rfl, hw i hi]
  by_cases hc : c = 0
  · subst hc
    rw [if_pos rfl]
    by_cases hij : i = j
    · rw [if_pos hij, if_neg]
      rintro (⟨h, -⟩ | ⟨-, h⟩)
      · exact h hij
      · omega
    · rw [if_neg hij]
      have := TreeCRF.event_apply t i j 0
      simp only [Fin.val_zero] at this
      rw [this]
      refine if_congr ⟨fun h => .inl ⟨hij, rfl, h⟩, ?_⟩ rfl rfl
      rintro (⟨-, -, h⟩ | ⟨h, -⟩)
      · exact h
      · exact absurd h hij
  · rw [if_neg hc]
    refine if_congr ⟨fun h => .inr ⟨h.1, h.2.symm⟩, ?_⟩ rfl rfl
    rintro (⟨-, h, -⟩ | ⟨h1, h2⟩)
    · exact absurd h hc
    · exact ⟨h1, h2.symm⟩

/-- A row that is the table of a tree, with the other words as further leaves. -/
def TreeRow (NT T N : ℕ) (s : ℕ → ℕ → ℕ → ℝ) : Prop :=
  ∃ (d : Deriv NT T) (w : ℕ → Fin T), d.size ≤ N ∧ ∀ i < N, ∀ j < N, ∀ A < NT + T, s i j A = TreeLSTM.padded N d w i j A

/-- A sort by width: what `torch.argsort` is used for. -/
def SortsByWidth (order : List CKY.Cell4 → List CKY.Cell4) : Prop :=
  ∀ cs, (order cs).Perm cs ∧ (order cs).Pairwise fun c c' => c.2.2.1 - c.2.1 ≤ c'.2.2.1 - c'.2.1

/-- **C106.** The network treats the rows of a batch separately: for every batch of trees its result for a row is its result for that row alone. -/
theorem rows_separate (hNT : 0 < NT) (hin : NT + T ≤ θ.inSize) (N : ℕ) {order : List CKY.Cell4 → List CKY.Cell4} (ho : SortsByWidth order)
    (rows : List (ℕ → ℕ → ℕ → ℝ)) (lengths : List ℕ) (hl : rows.length = lengths.length) (hne : lengths ≠ []) (hrows : ∀ s ∈ rows, TreeRow NT T N s) :
    ∃ outs, lstm θ N (NT + T) order rows lengths = .ok outs ∧ outs.length = rows.length ∧
      ∀ n (h1 : n < outs.length) (h2 : n < rows.length) (l : ℕ), ∃ out, lstm θ N (NT + T) order [rows[n]] [l] = .ok [out] ∧
        ∀ k : Fin θ.outSize, outs[n] k = out k := by
  have hex : ∀ b : ℕ, ∃ (d : Deriv NT T) (w : ℕ → Fin T), b < rows.length → d.size ≤ N ∧ ∀ i < N, ∀ j < N, ∀ A < NT + T, rows.getD b 0 i j A = TreeLSTM.padded N d w i j A := by
    intro b
    by_cases hb : b < rows.length
    · obtain ⟨d, w, h⟩ := hrows _ (List.getElem_mem hb)
      exact ⟨d, w, fun _ => by rw [List.getD_eq_getElem _ _ hb]; exact h⟩
    · have h0 : 0 < rows.length := by rw [hl]; exact List.length_pos_iff.2 hne
      obtain ⟨d, w, -⟩ := hrows _ (List.getElem_mem h0)
      exact ⟨d, w, fun hc => absurd hc hb⟩
  choose D w hDw using hex
  obtain ⟨outs, e1, e2, e3⟩ := network_spec θ hNT hin rows.length N D w (fun b hb => (hDw b hb).1) (fun b => rows.getD b 0) (fun b hb => (hDw b hb).2) _
    (ho _).1 (ho _).2 lengths hne hl.ge
  refine ⟨outs, e1, e2.trans hl.symm, fun n h1 h2 l => ?_⟩
  obtain ⟨outs', e1', e2', e3'⟩ := network_spec θ hNT hin 1 N (fun _ => D n) (fun _ => w n) (fun _ _ => (hDw n h2).1) (fun b => [rows[n]].getD b 0)
    (fun b hb => by
      obtain rfl : b = 0 := by omega
      have := (hDw n h2).2
      rw [List.getD_eq_getElem _ _ h2] at this
      exact this) _ (ho _).1 (ho _).2 [l] (by simp) le_rfl
  obtain ⟨out, rfl⟩ := List.length_eq_one_iff.1 e2'
  exact ⟨out, e1', fun k => by rw [e3 n h1 k]; exact (e3' 0 (by simp) k).symm⟩

open _root_.SelfCritical Props.SelfCritical in
/-- **C106.** The reward of examples/tree.py on trees: for every number of samples, the score of a sample of row `b` is minus the log-probability of the label of the row
under the tree-LSTM of this sample's tree over the words of the row. -/
theorem reward_spec {V : ℕ} (hin : 1 + V ≤ θ.inSize) (N : ℕ) {order : List CKY.Cell4 → List CKY.Cell4} (ho : SortsByWidth order) (words : List (List ℕ)) (hne : words ≠ [])
    (lengths label : List ℕ) (hl : lengths.length = words.length) (hw : ∀ w ∈ words, ∀ v ∈ w, v < V) (word : ℕ → ℕ → Fin V)
    (hword : ∀ b < words.length, ∀ i < N, (words.getD b []).getD i 0 = word b i) (hlab : ∀ b < words.length, label.getD b 0 < θ.outSize) :
    ∃ R : ℕ → Row → ℝ, (∀ b (hb : b < words.length), ∀ L ≤ N, ∀ t : Trees 1 L, R b (TreeCRF.event t) = - classes θ (wordTree (word b) 0 t.1) ⟨label.getD b 0, hlab b hb⟩) ∧
      Rowwise (fun _ s => ∃ L ≤ N, ∃ t : Trees 1 L, s = TreeCRF.event t) words.length (treeReward 1 N words lengths label V (lstm θ N (1 + V) order)) R := by
  have hrow : ∀ b < words.length, ∀ L ≤ N, ∀ t : Trees 1 L, TreeRow 1 V N (expanded N (words.getD b []) (TreeCRF.event t)) := fun b hb L hL t =>
    ⟨wordTree (word b) 0 t.1, word b, by rw [wordTree_size, t.2]; exact hL, fun i hi j hj A _ => expanded_eq _ _ (hword b hb) t hL i j A hi hj⟩
  have halone : ∀ s : Row, ∃ out : Vec, TreeRow 1 V N s → ∀ l, ∃ out', lstm θ N (1 + V) order [s] [l] = .ok [out'] ∧ ∀ k : Fin θ.outSize, out k = out' k := by
    intro s
    by_cases hs : TreeRow 1 V N s
    · obtain ⟨outs, e1, e2, e3⟩ := rows_separate θ Nat.one_pos hin N ho [s] [0] rfl (by simp) (by simpa using hs)
      exact ⟨outs[0]'(by rw [e2]; simp), fun _ l => e3 0 _ (by simp) l⟩
    · exact ⟨0, fun hc => absurd hc hs⟩
  choose net hnet using halone
  refine ⟨fun b s => - net (expanded N (words.getD b []) s) (label.getD b 0), fun b hb L hL t => ?_, fun K rows hK hr hP => (treeReward_rowwise N words hne lengths label hl V hw (TreeRow 1 V N) (fun s _ => net s)
    (lstm θ N (1 + V) order) θ.outSize hlab fun rows lens h1 h2 h3 => ?_) K rows hK hr fun k hk b hb => ?_⟩
  · have hD := hrow b hb L hL t
    obtain ⟨out', f1, f2⟩ := hnet _ hD 0
    obtain ⟨outs', e1', e2', e3'⟩ := network_spec θ Nat.one_pos hin 1 N (fun _ => wordTree (word b) 0 t.1) (fun _ => word b)
      (fun _ _ => by rw [wordTree_size, t.2]; exact hL) (fun c => [expanded N (words.getD b []) (TreeCRF.event t)].getD c 0)
      (fun c hc i hi j hj A _ => by
        obtain rfl : c = 0 := by omega
        exact expanded_eq _ _ (hword b hb) t hL i j A hi hj) _ (ho _).1 (ho _).2 [0] (by simp) le_rfl
    have e4 : outs' = [out'] := Except.ok.inj (e1'.symm.trans f1)
    subst e4
    have := e3' 0 (by simp) ⟨label.getD b 0, hlab b hb⟩
    exact congrArg Neg.neg ((f2 ⟨label.getD b 0, hlab b hb⟩).trans this)
  · obtain ⟨outs, e1, e2, e3⟩ := rows_separate θ Nat.one_pos hin N ho rows lens h1 h2 h3
    refine ⟨outs, e1, e2, fun n g1 g2 g3 k hk => ?_⟩
    obtain ⟨out, e4, e5⟩ := e3 n g1 g2 0
    obtain ⟨out', f1, f2⟩ := hnet rows[n] (h3 _ (List.getElem_mem g2)) 0
    have : [out] = [out'] := Except.ok.inj (e4.symm.trans f1)
    rw [List.cons.injEq] at this
    rw [e5 ⟨k, hk⟩, this.1]
    exact (f2 ⟨k, hk⟩).symm
  · obtain ⟨L, hL, t, ht⟩ := hP k hk b hb
    rw [ht]
    exact hrow b hb L hL t

open _root_.SelfCritical Props.SelfCritical in
/-- **C106.** So the policy objective of examples/tree.py with this network is unbiased: with `n` samples that are trees, its gradient with respect to every potential is on
average the gradient of the expected reward, where the reward of a tree of row `b` is minus the log-probability of the label of the row under the tree-LSTM of this
tree. -/
theorem policy_gradient {V : ℕ} (hin : 1 + V ≤ θ.inSize) (N : ℕ) {order : List CKY.Cell4 → List CKY.Cell4} (ho : SortsByWidth order) (words : List (List ℕ))
    (hne : words ≠ []) (lengths label : List ℕ) (hl : lengths.length = words.length) (hw : ∀ w ∈ words, ∀ v ∈ w, v < V) (word : ℕ → ℕ → Fin V)
    (hword : ∀ b < words.length, ∀ i < N, (words.getD b []).getD i 0 = word b i) (hlab : ∀ b < words.length, label.getD b 0 < θ.outSize)
    (g : ℕ → ℕ → ℕ → ℕ → ℝ) (lens : Option (List ℕ)) (h : TreeCRF.Valid (⟨words.length, N, N, 1, g⟩ : T4 ℝ) lens) (argmax : List ℕ → ℝ)
    (hA : ∀ b < words.length, ∃ L ≤ N, ∃ t : Trees 1 L, (rows words.length argmax).getD b 0 = TreeCRF.event t) {n : ℕ} (hn : 0 < n)
    (b : ℕ) (hb : b < words.length) (i j : ℕ) (hi : i < N) (hj : j < N) :
    ∃ R : ℕ → Row → ℝ, (∀ b (hb : b < words.length), ∀ L ≤ N, ∀ t : Trees 1 L, R b (TreeCRF.event t) = - classes θ (wordTree (word b) 0 t.1) ⟨label.getD b 0, hlab b hb⟩) ∧
      ∃ es, Sampling.record CKYCRF.algo (-100000) (⟨words.length, N, N, 1, g⟩ : T4 ℝ) lens = .ok es ∧ ∃ (grad : List (List ℕ → ℕ) → ℝ) (D : ℝ),
        (∀ smp : List (List ℕ → ℕ), smp.length = n → (∀ e ∈ smp, ∀ b < words.length, ∃ L ≤ N, ∃ t : Trees 1 L, rowOf b e = TreeCRF.event t) →
          ∃ out, _root_.SelfCritical.forward (treeReward 1 N words lengths label V (lstm θ N (1 + V) order)) (smp.map (rowsOf words.length)) (rows words.length argmax) n = .ok out ∧
            LogProbGradient.HasNumDeriv (fun x => objective (CKYCRF.logProb (Gradient.nudge4 (⟨words.length, N, N, 1, g⟩ : T4 ℝ) b i j 0 x) lens) out.rewards out.structs)
              (grad smp)) ∧
        SampleMean es n grad D ∧ HasDerivAt (fun x => expectedReward (Gradient.nudge4 (⟨words.length, N, N, 1, g⟩ : T4 ℝ) b i j 0 x) lens R) D 0 := by
  obtain ⟨R, hR1, hR2⟩ := reward_spec θ hin N ho words hne lengths label hl hw word hword hlab
  exact ⟨R, hR1, reinforce _ lens h hR2 argmax hA hn b hb i j hi hj (0 : Fin 1)⟩

/-- A sort by width. -/
theorem mergeSort_sorts : SortsByWidth fun cs => cs.mergeSort fun c c' => decide (c.2.2.1 - c.2.1 ≤ c'.2.2.1 - c'.2.1) := by
  refine fun cs => ⟨List.mergeSort_perm _ _, ?_⟩
  have := List.pairwise_mergeSort (le := fun c c' : CKY.Cell4 => decide (c.2.2.1 - c.2.1 ≤ c'.2.2.1 - c'.2.1)) (fun a b c h1 h2 => by
    simp only [decide_eq_true_eq] at h1 h2 ⊢; omega) (fun a b => by simp only [Bool.or_eq_true, decide_eq_true_eq]; omega) cs
  exact this.imp fun h => by simpa using h

/-- The network of the examples: states of size 2, an embedding of 103 rows, two classes. -/
def sampleParams : Params :=
  ⟨2, 103, 2, fun v j => v - 2 * j, fun o j => o + j, fun o j => 1 - o * j, fun o => o, fun o j => 2 * o - j, fun o => - o, fun o j => o - j, fun o => o⟩

/-- A batch of two trees, over three and over one of three words. -/
example : ∃ outs, network sampleParams 3 ⌊CKY.nNodes 2 3 (1 + 2) fun b => if b = 0
      then TreeLSTM.padded 3 (.node 0 (.leaf 0) (.node 0 (.leaf 1) (.leaf 1)) : Deriv 1 2) (fun _ => 0) else TreeLSTM.padded 3 (.leaf 1 : Deriv 1 2) fun _ => 0⌋₊
    ((CKY.cover4 2 3 (1 + 2) fun b => if b = 0
      then TreeLSTM.padded 3 (.node 0 (.leaf 0) (.node 0 (.leaf 1) (.leaf 1)) : Deriv 1 2) (fun _ => 0) else TreeLSTM.padded 3 (.leaf 1 : Deriv 1 2) fun _ => 0).mergeSort
      fun c c' => decide (c.2.2.1 - c.2.1 ≤ c'.2.2.1 - c'.2.1)) [3, 1] = .ok outs ∧ outs.length = 2 := by
  obtain ⟨outs, h1, h2, -⟩ := network_spec sampleParams (NT := 1) (T := 2) Nat.one_pos (by decide) 2 3
    (fun b => if b = 0 then .node 0 (.leaf 0) (.node 0 (.leaf 1) (.leaf 1)) else .leaf 1) (fun _ _ => 0)
    (fun b _ => by by_cases h : b = 0 <;> simp [h, GTree.size]) (fun b => if b = 0
      then TreeLSTM.padded 3 (.node 0 (.leaf 0) (.node 0 (.leaf 1) (.leaf 1)) : Deriv 1 2) (fun _ => 0) else TreeLSTM.padded 3 (.leaf 1 : Deriv 1 2) fun _ => 0)
    (fun b _ i _ j _ A _ => by by_cases h : b = 0 <;> simp [h]) _ (mergeSort_sorts _).1 (mergeSort_sorts _).2 [3, 1] (by simp) (by simp)
  exact ⟨outs, h1, h2⟩

/-- Two sentences of three words over a vocabulary of two words, whose labels are 0 and 1. -/
example : ∃ R : ℕ → _root_.SelfCritical.Row → ℝ, R 1 (TreeCRF.event (⟨.node 0 (.leaf 0) (.node 0 (.leaf 0) (.leaf 0)), rfl⟩ : Trees 1 3)) =
      - classes sampleParams (.node 0 (.leaf 1) (.node 0 (.leaf 1) (.leaf 0)) : Deriv 1 2) ⟨1, by decide⟩ ∧
    SelfCritical.Rowwise (fun _ s => ∃ L ≤ 3, ∃ t : Trees 1 L, s = TreeCRF.event t) 2 (_root_.SelfCritical.treeReward 1 3 [[0, 1, 1], [1, 1, 0]] [3, 3] [0, 1] 2
      (lstm sampleParams 3 (1 + 2) fun cs => cs.mergeSort fun c c' => decide (c.2.2.1 - c.2.1 ≤ c'.2.2.1 - c'.2.1))) R := by
  obtain ⟨R, h1, h2⟩ := reward_spec sampleParams (V := 2) (by decide) 3 mergeSort_sorts [[0, 1, 1], [1, 1, 0]] (by simp) [3, 3] [0, 1] rfl (by decide)
    (fun b i => Fin.ofNat 2 (([[0, 1, 1], [1, 1, 0]].getD b []).getD i 0)) (by decide) (by decide)
  exact ⟨R, h1 1 (by decide) 3 le_rfl _, h2⟩

end Props.TreeLSTM
