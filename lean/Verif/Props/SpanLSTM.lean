import Mathlib.Analysis.SpecialFunctions.Artanh
import Verif.Model.SpanLSTM
import Verif.Props.TreeLabels

/-! Property theorems C109: the span network of examples/networks/SpanLSTM.py, whose output is the table of a `TreeCRF`. -/

open Finset Spec SpanLSTM

noncomputable section
namespace Props.SpanLSTM
variable {NT V H : ℕ}

/-- The hidden state of an LSTM that started in the zero state and has read `xs`. -/
def after (c : Cell H) (xs : List (Fin H → ℝ)) : Fin H → ℝ := (xs.foldl c.step 0).1

theorem outputs_getD (c : Cell H) : ∀ (xs : List (Fin H → ℝ)) (s : (Fin H → ℝ) × (Fin H → ℝ)) (n : ℕ), n < xs.length →
    (c.outputs s xs).getD n 0 = ((xs.take (n + 1)).foldl c.step s).1
  | [], _, _, h => absurd h (by simp)
  | x :: xs, s, 0, _ => by simp [Cell.outputs]
  | x :: xs, s, n + 1, h => by
    rw [Cell.outputs, List.getD_cons_succ, outputs_getD c xs _ n (by simpa using h), List.take_succ_cons, List.foldl_cons]

/-- What the network accepts: two rows in the embedding, words in the vocabulary, at least one column. -/
structure Valid (V : ℕ) (words : T2 ℕ) : Prop where
  vocab : 2 ≤ V
  known : ∀ b < words.d0, ∀ n < words.d1, words.get b n < V
  columns : 1 ≤ words.d1

/-- The vector of word `w`: the embedding, but zero for word 1 (the padding). -/
def vec (θ : Params NT V H) (w : ℕ) : Fin H → ℝ := if w = 1 then 0 else θ.embed w

/-- The vectors of the words `i, …, j` of row `b`, from left to right. -/
def seg (θ : Params NT V H) (words : T2 ℕ) (b i j : ℕ) : List (Fin H → ℝ) := (List.range' i (j + 1 - i)).map fun n => vec θ (words.get b n)

/-- The scores that the network makes of what it has read on the left and on the right of a span. -/
def scores (θ : Params NT V H) (x y : Fin H → ℝ) : Fin NT → ℝ := θ.proj (θ.res.forward (cat x y))

theorem embed_cleared (θ : Params NT V H) (w : ℕ) : θ.cleared.embed w = vec θ w := by
  unfold Params.embed vec Params.cleared
  by_cases h : w < V
  · simp only [dif_pos h]
    split_ifs <;> simp_all [Params.embed]
  · simp [Params.embed, h]

theorem ahead_eq (θ : Params NT V H) (words : T2 ℕ) (b n : ℕ) (hn : n < words.d1) :
    ahead θ.cleared words b n = after θ.forward (seg θ words b 0 n) := by
  rw [ahead, outputs_getD _ _ _ _ (by simpa using hn), ← List.map_take, List.take_range, min_eq_left (by omega), after, seg, List.range_eq_range']
  simp only [embed_cleared]
  rfl

theorem behind_eq (θ : Params NT V H) (words : T2 ℕ) (b n : ℕ) (hn : n < words.d1) :
    behind θ.cleared words b n = after θ.backward (seg θ words b n (words.d1 - 1)).reverse := by
  rw [behind, outputs_getD _ _ _ _ (by simp; omega), ← List.map_take, List.take_range, min_eq_left (by omega), after, seg, ← List.map_reverse, List.reverse_range',
    List.range_eq_range']
  simp only [embed_cleared]
  refine congrArg Prod.fst (congrArg (List.foldl _ _) ?_)
  rw [List.map_map, List.range_eq_range', show words.d1 - 1 + 1 - n = words.d1 - 1 - n + 1 by omega]
  refine List.map_congr_left fun i hi => ?_
  have : i < words.d1 - 1 - n + 1 := by simpa using hi
  simp only [Function.comp]
  congr 2
  omega

/-- **C109.** The scores of the span from word `i` to word `j`: made of the change of the forward state from word `i` to word `j + 1`, and of the change of the backward
state from word `j` to word `i - 1`; at the ends of the table the changes are zero.  The forward LSTM has read the words from the first one, the backward LSTM from the
last column of the table, padding included.  The only parameter that changes is the vector of the padding, which is zero from then on.  The lengths are not looked at. -/
theorem span_scores (θ : Params NT V H) (words : T2 ℕ) (hv : Valid V words) (lengths : List ℕ) : ∃ θ' p, SpanLSTM.forward θ words lengths = .ok (θ', p) ∧
    (p.d0 = words.d0 ∧ p.d1 = words.d1 ∧ p.d2 = words.d1 ∧ p.d3 = NT) ∧
    (θ' = { θ with emb := fun v => if (v : ℕ) = 1 then 0 else θ.emb v }) ∧
    ∀ b i j (c : Fin NT), i < words.d1 → j < words.d1 → p.get b i j c = scores θ
      (if j + 1 < words.d1 then after θ.forward (seg θ words b 0 (j + 1)) - after θ.forward (seg θ words b 0 i) else 0)
      (if 0 < i then after θ.backward (seg θ words b (i - 1) (words.d1 - 1)).reverse - after θ.backward (seg θ words b j (words.d1 - 1)).reverse else 0) c := by
  have h1 := hv.vocab
  have h2 := hv.known
  have h3 := hv.columns
  refine ⟨θ.cleared, _, (if_neg (by omega)).trans ((if_neg (not_not.2 h2)).trans (if_neg (by omega))), ⟨rfl, rfl, rfl, rfl⟩, rfl, fun b i j c hi hj => ?_⟩
  simp only [Fin.is_lt, dite_true, Fin.eta]
  have e1 : tableA θ.cleared words b i j = if j + 1 < words.d1 then after θ.forward (seg θ words b 0 (j + 1)) - after θ.forward (seg θ words b 0 i) else 0 := by
    rw [tableA]
    by_cases h : j + 1 < words.d1
    · rw [if_pos (by omega), if_pos h, ahead_eq θ words b _ h, ahead_eq θ words b _ hi]
    · rw [if_neg (by omega), if_neg h]
  have e2 : tableB θ.cleared words b i j = if 0 < i then after θ.backward (seg θ words b (i - 1) (words.d1 - 1)).reverse -
      after θ.backward (seg θ words b j (words.d1 - 1)).reverse else 0 := by
    rw [tableB]
    by_cases h : 0 < i
    · rw [if_pos (by omega), if_pos h, behind_eq θ words b _ (by omega), behind_eq θ words b _ hj]
    · rw [if_neg (by omega), if_neg h]
  rw [e1, e2]
  rfl

/-- The batch with the single row `b`. -/
def single (words : T2 ℕ) (b : ℕ) : T2 ℕ := ⟨1, words.d1, fun _ n => words.get b n⟩

theorem single_valid {words : T2 ℕ} (hv : Valid V words) {b : ℕ} (hb : b < words.d0) : Valid V (single words b) :=
  ⟨hv.vocab, fun _ _ n hn => hv.known b hb n hn, hv.columns⟩

/-- **C109.** Rows are scored separately: if all sentences of a batch have the same length, every query of the `TreeCRF` over the scores answers for each of them what
it answers for the sentence alone. -/
theorem rows_separate (θ : Params NT V H) (hNT : 1 ≤ NT) (words : T2 ℕ) (hv : Valid V words) (lengths lengths' : List ℕ) {b : ℕ} (hb : b < words.d0) :
    ∃ θ' θ'' p p', SpanLSTM.forward θ words lengths = .ok (θ', p) ∧ SpanLSTM.forward θ (single words b) lengths' = .ok (θ'', p') ∧ θ' = θ'' ∧
      (∀ i j c, i < words.d1 → j < words.d1 → c < NT → p.get b i j c = p'.get 0 i j c) ∧
      (∃ zs z, Dist.partition CKYCRF.algo p none = .ok zs ∧ Dist.partition CKYCRF.algo p' none = .ok [z] ∧ zs.getD b 0 = z) ∧
      (∃ es e, Dist.entropy CKYCRF.algo p none = .ok es ∧ Dist.entropy CKYCRF.algo p' none = .ok [e] ∧ es.getD b 0 = e) ∧
      ∃ μ μ', Dist.marginals CKYCRF.algo p none = .ok μ ∧ Dist.marginals CKYCRF.algo p' none = .ok μ' ∧ ∀ i j (c : Fin NT), μ [b, i, j, (c : ℕ)] = μ' [0, i, j, (c : ℕ)] := by
  obtain ⟨θ', p, h1, ⟨hd0, hd1, hd2, hd3⟩, h2, h3⟩ := span_scores θ words hv lengths
  obtain ⟨θ'', p', h1', ⟨hd0', hd1', hd2', hd3'⟩, h2', h3'⟩ := span_scores θ (single words b) (single_valid hv hb) lengths'
  have hsame : ∀ i j c, i < words.d1 → j < words.d1 → c < NT → p.get b i j c = p'.get 0 i j c := by
    intro i j c hi hj hc
    rw [h3 b i j ⟨c, hc⟩ hi hj, h3' 0 i j ⟨c, hc⟩ hi hj]
    rfl
  refine ⟨θ', θ'', p, p', h1, h1', h2.trans h2'.symm, hsame, ?_⟩
  clear h1 h1' h3 h3'
  obtain ⟨d0, d1, d2, d3, g⟩ := p
  obtain ⟨d0', d1', d2', d3', g'⟩ := p'
  dsimp only at *
  subst hd0 hd1 hd2 hd3 hd0' hd1'
  obtain rfl : d3' = d3 := hd3'
  obtain rfl : d2' = words.d1 := hd2'
  have hp : TreeCRF.Valid (⟨words.d0, words.d1, words.d1, d3', g⟩ : T4 ℝ) none := ⟨rfl, hv.columns, hNT, trivial⟩
  have hp' : TreeCRF.Valid (⟨1, words.d1, words.d1, d3', g'⟩ : T4 ℝ) none := ⟨rfl, hv.columns, hNT, trivial⟩
  have hscore : (treeScore (TreeCRF.row (⟨words.d0, words.d1, words.d1, d3', g⟩ : T4 ℝ) b) : Trees d3' words.d1 → ℝ) =
      treeScore (TreeCRF.row (⟨1, words.d1, words.d1, d3', g'⟩ : T4 ℝ) 0) := by
    funext t
    rw [treeScore, treeScore]
    congr 1
    refine List.map_congr_left fun x hx => ?_
    have := TreeLabels.spans_bounds t.1 0 x hx
    rw [t.2] at this
    exact hsame _ _ _ (by omega) (by omega) x.2.2.2
  refine ⟨?_, ?_, ?_⟩
  · refine ⟨_, _, TreeCRF.partition_spec _ none hp, (TreeCRF.partition_spec _ none hp').trans rfl, ?_⟩
    rw [List.getD_eq_getElem _ _ (by simpa using hb), List.getElem_map, List.getElem_range]
    exact congrArg (fun f : Trees d3' words.d1 → ℝ => Real.log (∑ t, Real.exp (f t))) hscore
  · refine ⟨_, _, TreeCRF.entropy_spec _ none hp, (TreeCRF.entropy_spec _ none hp').trans rfl, ?_⟩
    rw [List.getD_eq_getElem _ _ (by simpa using hb), List.getElem_map, List.getElem_range]
    exact congrArg Gibbs.entropy hscore
  · obtain ⟨μ, e1, e2⟩ := TreeCRF.marginals_spec _ none hp
    obtain ⟨μ', e1', e2'⟩ := TreeCRF.marginals_spec _ none hp'
    refine ⟨μ, μ', e1, e1', fun i j c => ?_⟩
    rw [e2 b hb i j c, e2' 0 Nat.one_pos i j c]
    exact congrArg (fun f : Trees d3' words.d1 → ℝ => ∑ t, if (i, j, c) ∈ t.1.spans 0 then Gibbs.prob f t else 0) hscore

/-- **C109.** The label of a whole sentence that fills its row has the same distribution for all sentences: the span from the first to the last column gets the scores
the network makes of two zero vectors. -/
theorem root_is_blind (θ : Params NT V H) (hNT : 1 ≤ NT) (words : T2 ℕ) (hv : Valid V words) (lengths : List ℕ) (lens : Option (List ℕ))
    (hl : LengthsIn words.d0 words.d1 lens) :
    ∃ θ' p μ, SpanLSTM.forward θ words lengths = .ok (θ', p) ∧ Dist.marginals CKYCRF.algo p lens = .ok μ ∧
      ∀ b < words.d0, TreeCRF.len p lens b = words.d1 → ∀ c : Fin NT,
        μ [b, 0, words.d1 - 1, (c : ℕ)] = Real.exp (scores θ 0 0 c) / ∑ c' : Fin NT, Real.exp (scores θ 0 0 c') := by
  obtain ⟨θ', p, h1, ⟨hd0, hd1, hd2, hd3⟩, h2, h3⟩ := span_scores θ words hv lengths
  have hN := hv.columns
  obtain ⟨d0, d1, d2, d3, g⟩ := p
  dsimp only at *
  subst hd0 hd1 hd2 hd3
  obtain ⟨μ, e1, e2⟩ := TreeLabels.root_label (⟨words.d0, words.d1, words.d1, d3, g⟩ : T4 ℝ) lens ⟨rfl, hN, hNT, hl⟩
  refine ⟨θ', _, μ, h1, e1, fun b hb hfull c => ?_⟩
  have := e2 b hb c
  rw [hfull] at this
  have hz : ∀ c : Fin d3, g b 0 (words.d1 - 1) c = scores θ 0 0 c := by
    intro c
    rw [h3 b 0 (words.d1 - 1) c (by omega) (by omega), if_neg (by omega), if_neg (by omega)]
  rw [this, softmaxLabel]
  dsimp only
  rw [hz c, sum_congr rfl fun c' _ => by rw [hz c']]

/-! ### Padding matters -/

/-- A small network: the forward LSTM counts the words it has read, the label 0 is scored with the first half of the vector of the span. -/
def small : Params 2 2 1 where
  emb := 0
  forward := ⟨0, 0, fun gate _ => if gate = 2 then 1 else 0, 0⟩
  backward := ⟨0, 0, 0, 0⟩
  res := ⟨⟨0, 0⟩, ⟨0, 0⟩, ⟨0, 0⟩, ⟨0, 0⟩, ⟨fun i j => if i = j then 1 else 0, 0⟩⟩
  projWeight := fun c k => if c = 0 ∧ k = 0 then 1 else 0
  projBias := 0

theorem small_scores (x y : Fin 1 → ℝ) (c : Fin 2) : scores small x y c = if c = 0 then x 0 else 0 := by
  have hr : small.res.forward (cat x y) = cat x y := by
    funext k
    simp only [NeuralCFG.Res.forward, NeuralCFG.Linear.forward, NeuralCFG.relu, small, Pi.add_apply]
    simp
  rw [scores, hr, Params.proj]
  fin_cases c <;> simp [small, Fin.sum_univ_two, cat]

theorem small_step (s : (Fin 1 → ℝ) × (Fin 1 → ℝ)) (x : Fin 1 → ℝ) :
    small.forward.step s x = (fun k => 1 / 2 * Real.tanh (1 / 2 * s.2 k + 1 / 2 * Real.tanh 1), fun k => 1 / 2 * s.2 k + 1 / 2 * Real.tanh 1) := by
  have h0 : TreeLSTM.sigmoid 0 = 1 / 2 := by norm_num [TreeLSTM.sigmoid]
  have hp : ∀ gate k, small.forward.pre gate s.1 x k = if gate = 2 then 1 else 0 := by
    intro gate k
    simp [small, Cell.pre]
  simp only [Cell.step, hp]
  simp [h0]

/-- **C109.** Padding changes the distribution of a sentence: the same sentence of one word, alone and in a batch with a sentence of two words. -/
theorem padding_matters : ∃ (θ : Params 2 2 1) (p p' : T4 ℝ) (θ' θ'' : Params 2 2 1) (μ μ' : List ℕ → ℝ),
    SpanLSTM.forward θ ⟨1, 1, fun _ _ => 0⟩ [1] = .ok (θ', p) ∧ Dist.marginals CKYCRF.algo p (some [1]) = .ok μ ∧
    -- the first row is the word 0 followed by the padding 1
    SpanLSTM.forward θ ⟨2, 2, fun b n => if b = 0 ∧ n = 1 then 1 else 0⟩ [1, 2] = .ok (θ'', p') ∧ Dist.marginals CKYCRF.algo p' (some [1, 2]) = .ok μ' ∧
    μ [0, 0, 0, 0] ≠ μ' [0, 0, 0, 0] := by
  have v1 : Valid 2 (⟨1, 1, fun _ _ => 0⟩ : T2 ℕ) := ⟨le_refl 2, fun b _ n _ => by simp, le_refl 1⟩
  have v2 : Valid 2 (⟨2, 2, fun b n => if b = 0 ∧ n = 1 then 1 else 0⟩ : T2 ℕ) := ⟨le_refl 2, fun b _ n _ => by dsimp only; split_ifs <;> omega, by norm_num⟩
  obtain ⟨θ', p, h1, ⟨hd0, hd1, hd2, hd3⟩, -, h3⟩ := span_scores small _ v1 [1]
  obtain ⟨θ'', p', h1', ⟨hd0', hd1', hd2', hd3'⟩, -, h3'⟩ := span_scores small _ v2 [1, 2]
  obtain ⟨d0, d1, d2, d3, g⟩ := p
  obtain ⟨d0', d1', d2', d3', g'⟩ := p'
  dsimp only at *
  subst hd0 hd1 hd2 hd3 hd0' hd1' hd2' hd3'
  obtain ⟨μ, e1, e2⟩ := TreeLabels.root_label (⟨1, 1, 1, 2, g⟩ : T4 ℝ) (some [1]) ⟨rfl, le_refl 1, by norm_num, rfl, by simp⟩
  obtain ⟨μ', e1', e2'⟩ := TreeLabels.root_label (⟨2, 2, 2, 2, g'⟩ : T4 ℝ) (some [1, 2]) ⟨rfl, by norm_num, by norm_num, rfl, by simp⟩
  refine ⟨small, _, _, θ', θ'', μ, μ', h1, e1, h1', e1', ?_⟩
  have q1 : μ [0, 0, 0, 0] = softmaxLabel (n := 2) (g 0 0 0) 0 := e2 0 (by norm_num) (0 : Fin 2)
  have q2 : μ' [0, 0, 0, 0] = softmaxLabel (n := 2) (g' 0 0 0) 0 := e2' 0 (by norm_num) (0 : Fin 2)
  have s1 : ∀ c : Fin 2, g 0 0 0 c = 0 := by
    intro c
    rw [h3 0 0 0 c (by norm_num) (by norm_num), small_scores]
    simp
  have s2 : ∀ c : Fin 2, g' 0 0 0 c = if c = 0 then 1 / 2 * Real.tanh (3 / 4 * Real.tanh 1) - 1 / 2 * Real.tanh (1 / 2 * Real.tanh 1) else 0 := by
    intro c
    rw [h3' 0 0 0 c (by norm_num) (by norm_num), small_scores]
    congr 1
    simp only [after, seg, List.range'_succ, List.range'_zero]
    simp [small_step]
    ring_nf
  have hpos : 1 / 2 * Real.tanh (3 / 4 * Real.tanh 1) - 1 / 2 * Real.tanh (1 / 2 * Real.tanh 1) ≠ 0 := by
    have h1 : Real.tanh 1 ≠ 0 := by
      intro h
      exact one_ne_zero (Real.tanh_injective (h.trans Real.tanh_zero.symm))
    intro h
    have := Real.tanh_injective (show Real.tanh (3 / 4 * Real.tanh 1) = Real.tanh (1 / 2 * Real.tanh 1) by linarith)
    exact h1 (by linarith)
  rw [q1, q2, softmaxLabel, softmaxLabel, Fin.sum_univ_two, Fin.sum_univ_two]
  have a0 := s1 0; have a1 := s1 1; have b0 := s2 0; have b1 := s2 1
  simp only [Fin.val_zero, Fin.val_one] at a0 a1 b0 b1
  simp only [Fin.val_zero, Fin.val_one, a0, a1, b0, b1]
  set d := 1 / 2 * Real.tanh (3 / 4 * Real.tanh 1) - 1 / 2 * Real.tanh (1 / 2 * Real.tanh 1)
  have hd : Real.exp d ≠ 1 := fun h => hpos (Real.exp_eq_one_iff d |>.1 h)
  simp only [if_true, Real.exp_zero]
  intro he
  rw [if_neg (by decide), Real.exp_zero, div_eq_div_iff (by norm_num) (by positivity)] at he
  exact hd (by linarith)

/-- The hypotheses are met: a batch of two rows, one padded. -/
example := span_scores small ⟨2, 2, fun b n => if b = 0 ∧ n = 1 then 1 else 0⟩ ⟨le_refl 2, fun b _ n _ => by dsimp only; split_ifs <;> omega, by norm_num⟩ [1, 2]

end Props.SpanLSTM
