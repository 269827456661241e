import Verif.Model.TreeEval
import Verif.Props.SpanLSTM
import Verif.Props.TreeLSTM

/-! Property theorems C110: `valid_sup` of the tree example is the fraction of the sentences of the first 26 batches whose label is the most probable class of the tree
network on a best tree of the span network. -/

open Finset Spec TreeEval

noncomputable section
namespace Props.TreeEval
variable {V H : ℕ}

/-- A batch the example can evaluate: at least one sentence, words in the vocabulary, lengths between 1 and the number of columns, one label for every sentence. -/
structure Good (V : ℕ) (ex : Batch) : Prop where
  valid : SpanLSTM.Valid V ex.words
  sentences : 0 < ex.words.d0
  lens : LengthsIn ex.words.d0 ex.words.d1 (some ex.lengths)
  labels : ex.label.length = ex.words.d0

/-- `top` returns the position of a largest entry. -/
def IsTop (top : List ℝ → ℕ) : Prop := ∀ xs : List ℝ, xs ≠ [] → top xs < xs.length ∧ ∀ x ∈ xs, x ≤ xs.getD (top xs) 0

/-- The words of row `b`. -/
def word (ex : Batch) (hV : 0 < V) (b i : ℕ) : Fin V := if h : ex.words.get b i < V then ⟨ex.words.get b i, h⟩ else ⟨0, hV⟩

/-- `c` is a prediction for row `b`: a most probable class of the tree network on a best tree of the span network. -/
def Predicts (span : _root_.SpanLSTM.Params 1 V H) (θ : _root_.TreeLSTM.Params) (hV : 0 < V) (ex : Batch) (b c : ℕ) : Prop :=
  ∃ span' p, _root_.SpanLSTM.forward span ex.words ex.lengths = .ok (span', p) ∧
    ∃ t : Trees 1 (ex.lengths.getD b 0), (∀ t' : Trees 1 (ex.lengths.getD b 0), treeScore (TreeCRF.row p b) t' ≤ treeScore (TreeCRF.row p b) t) ∧
      ∃ hc : c < θ.outSize, ∀ k : Fin θ.outSize, TreeLSTM.classes θ (TreeLSTM.wordTree (word ex hV b) 0 t.1) k ≤ TreeLSTM.classes θ (TreeLSTM.wordTree (word ex hV b) 0 t.1) ⟨c, hc⟩

theorem cleared_cleared (span : _root_.SpanLSTM.Params 1 V H) : span.cleared.cleared = span.cleared := by
  unfold _root_.SpanLSTM.Params.cleared
  congr 1
  funext v
  by_cases h : (v : ℕ) = 1 <;> simp [h]

theorem forward_cleared (span : _root_.SpanLSTM.Params 1 V H) (words : T2 ℕ) (lengths : List ℕ) :
    _root_.SpanLSTM.forward span.cleared words lengths = _root_.SpanLSTM.forward span words lengths := by
  unfold _root_.SpanLSTM.forward
  rw [cleared_cleared]

theorem count_eq : ∀ l a : List ℕ, l.length = a.length →
    (List.zipWith (fun l a => if l = a then 1 else 0) l a).sum = ((range l.length).filter fun b => l.getD b 0 = a.getD b 0).card
  | [], _, _ => by simp
  | _ :: _, [], h => by simp at h
  | x :: l, y :: a, h => by
    have ih := count_eq l a (by simpa using h)
    rw [card_filter] at ih ⊢
    rw [List.length_cons, sum_range_succ', List.zipWith_cons_cons, List.sum_cons, ih, add_comm]
    rfl

variable (span : _root_.SpanLSTM.Params 1 V H) (θ : _root_.TreeLSTM.Params)
  {pick : List (Autograd.Grad (List ℕ)) → Autograd.Grad (List ℕ)} (hp : Autograd.IsArgmax Prod.fst pick)
  {order : List CKY.Cell4 → List CKY.Cell4} (ho : TreeLSTM.SortsByWidth order) {top : List ℝ → ℕ} (ht : IsTop top)

include hp ho ht in
/-- One batch: the number of rows whose label is the prediction. -/
theorem batch_spec (hV : 0 < V) (hin : 1 + V ≤ θ.inSize) (hout : 0 < θ.outSize) (ex : Batch) (hg : Good V ex) :
    ∃ pred : ℕ → ℕ, (∀ b < ex.words.d0, Predicts span θ hV ex b (pred b)) ∧
      evalBatch span θ pick order top ex = .ok (span.cleared, ((range ex.words.d0).filter fun b => ex.label.getD b 0 = pred b).card, ex.words.d0) := by
  obtain ⟨span', p, h1, ⟨hd0, hd1, hd2, hd3⟩, h2, -⟩ := SpanLSTM.span_scores span ex.words hg.valid ex.lengths
  have hsp : span' = span.cleared := h2
  subst hsp
  obtain ⟨d0, d1, d2, d3, g⟩ := p
  dsimp only at hd0 hd1 hd2 hd3
  subst hd0 hd1 hd2 hd3
  obtain ⟨hlen, hlens⟩ := hg.lens
  have hval : TreeCRF.Valid (⟨ex.words.d0, ex.words.d1, ex.words.d1, 1, g⟩ : T4 ℝ) (some ex.lengths) := ⟨rfl, hg.valid.columns, le_refl 1, hg.lens⟩
  obtain ⟨μ, e1, e2⟩ := TreeCRF.argmax_spec _ (some ex.lengths) hval hp
  have hL : ∀ b, TreeCRF.len (⟨ex.words.d0, ex.words.d1, ex.words.d1, 1, g⟩ : T4 ℝ) (some ex.lengths) b = ex.lengths.getD b 0 := fun b => rfl
  have hLN : ∀ b < ex.words.d0, ex.lengths.getD b 0 ≤ ex.words.d1 := fun b hb => by
    have := CKYCRFProofs.len_in hg.valid.columns hg.lens b hb
    exact this.2
  choose t ht1 ht2 using fun b : Fin ex.words.d0 => e2 b b.2
  -- the trees of all rows, any tree outside of the batch
  let T : ℕ → LTree 1 := fun b => if h : b < ex.words.d0 then (t ⟨b, h⟩).1 else .leaf 0
  have hT : ∀ b (hb : b < ex.words.d0), T b = (t ⟨b, hb⟩).1 := fun b hb => dif_pos hb
  have hTs : ∀ b (hb : b < ex.words.d0), (T b).size = ex.lengths.getD b 0 := fun b hb => by rw [hT b hb]; exact (t ⟨b, hb⟩).2
  have hrows : ex.rows.length = ex.words.d0 := by simp [Batch.rows]
  have hword : ∀ b < ex.words.d0, ∀ i < ex.words.d1, (ex.rows.getD b []).getD i 0 = word ex hV b i := by
    intro b hb i hi
    have : ex.words.get b i < V := hg.valid.known b hb i hi
    simp [Batch.rows, List.getElem?_range hb, List.getElem?_range hi, word, this]
  let new : List (ℕ → ℕ → ℕ → ℝ) := (List.range ex.words.d0).map fun b => SelfCritical.expanded ex.words.d1 (ex.rows.getD b []) fun i j a => μ [b, i, j, a]
  have hexp : _root_.SelfCritical.expandSpans 1 ex.words.d1 (_root_.SelfCritical.rows ex.words.d0 μ) ex.rows 1 V = .ok new := by
    unfold _root_.SelfCritical.expandSpans
    rw [if_neg (by simp [_root_.SelfCritical.rows, hrows]), if_neg]
    · congr 1
      rw [hrows, List.range_one, List.flatMap_singleton]
      refine List.map_congr_left fun b hb => ?_
      have hb := List.mem_range.1 hb
      funext i j c
      simp [SelfCritical.expanded, _root_.SelfCritical.rows, List.getElem?_range hb]
    · rw [not_not]
      intro w hw v hv
      obtain ⟨b, hb, rfl⟩ := List.mem_map.1 hw
      obtain ⟨i, hi, rfl⟩ := List.mem_map.1 hv
      exact hg.valid.known b (List.mem_range.1 hb) i (List.mem_range.1 hi)
  have hnew : new.length = ex.words.d0 := by simp [new]
  obtain ⟨outs, f1, f2, f3⟩ := TreeLSTM.network_spec θ Nat.one_pos hin new.length ex.words.d1 (fun b => TreeLSTM.wordTree (word ex hV b) 0 (T b)) (word ex hV)
    (fun b hb => by rw [hnew] at hb; rw [TreeLSTM.wordTree_size, hTs b hb]; exact hLN b hb) (fun b => new.getD b 0)
    (fun b hb i hi j hj A _ => by
      rw [hnew] at hb
      have e : new.getD b 0 = SelfCritical.expanded ex.words.d1 (ex.rows.getD b []) fun i j a => μ [b, i, j, a] := by
        simp [new, List.getElem?_range hb]
      rw [e, hT b hb, ← TreeLSTM.expanded_eq _ _ (hword b hb) (t ⟨b, hb⟩) (hLN b hb) i j A hi hj]
      unfold SelfCritical.expanded
      have := ht2 ⟨b, hb⟩ i j (0 : Fin 1)
      have h0 := TreeCRF.event_apply (t ⟨b, hb⟩) i j (0 : Fin 1)
      simp only [Fin.val_zero] at this h0
      beta_reduce
      have h3 : μ [b, i, j, 0] = TreeCRF.event (t ⟨b, hb⟩) i j 0 := this.trans h0.symm
      rw [h3]) _ (ho _).1 (ho _).2 ex.lengths
    (fun h => by have := hg.sentences; rw [h] at hlen; simp at hlen; omega) (by rw [hnew, hlen])
  have hlstm : _root_.TreeLSTM.lstm θ ex.words.d1 (1 + V) order new ex.lengths = .ok outs := f1
  have hol : outs.length = ex.words.d0 := f2.trans hlen
  refine ⟨fun b => top ((List.range θ.outSize).map (outs.getD b 0)), fun b hb => ⟨_, _, h1, t ⟨b, hb⟩, ht1 ⟨b, hb⟩, ?_⟩, ?_⟩
  · have hb' : b < outs.length := by omega
    obtain ⟨g1, g2⟩ := ht ((List.range θ.outSize).map (outs.getD b 0)) (by simp; omega)
    rw [List.length_map, List.length_range] at g1
    refine ⟨g1, fun k => ?_⟩
    have := g2 (outs.getD b 0 k) (List.mem_map.2 ⟨k, List.mem_range.2 k.2, rfl⟩)
    rw [List.getD_eq_getElem ((List.range θ.outSize).map _) _ (by rw [List.length_map, List.length_range]; exact g1), List.getElem_map, List.getElem_range] at this
    have e : ∀ k : Fin θ.outSize, outs.getD b 0 k = TreeLSTM.classes θ (TreeLSTM.wordTree (word ex hV b) 0 (t ⟨b, hb⟩).1) k := fun k => by
      rw [List.getD_eq_getElem _ _ hb', f3 b hb' k, hT b hb]
    rw [e k] at this
    exact this.trans (e ⟨_, g1⟩).le
  · unfold evalBatch
    rw [h1]
    change (do let argmax ← Dist.argmax CKYCRF.algo _ _ pick; _) = _
    rw [e1]
    change (do let newSpans ← _root_.SelfCritical.expandSpans _ _ _ _ _ _; _) = _
    rw [hexp]
    change (do let outs ← _root_.TreeLSTM.lstm _ _ _ _ _ _; _) = _
    rw [hlstm]
    change (if θ.outSize = 0 then _ else if _ then _ else _) = _
    rw [if_neg (by omega), if_neg (by rw [List.length_map, hol, hg.labels]; simp), hg.labels]
    congr 3
    rw [count_eq _ _ (by rw [List.length_map, hol, hg.labels]), hg.labels]
    congr 1
    refine filter_congr fun b hb => ?_
    have hb' : b < outs.length := by rw [hol]; exact mem_range.1 hb
    beta_reduce
    rw [List.getD_eq_getElem (outs.map _) _ (by simpa using hb'), List.getElem_map, List.getD_eq_getElem outs _ hb']

include hp ho ht in
/-- The loop: after `26 - i` more batches at most. -/
theorem loop_spec (hV : 0 < V) (hin : 1 + V ≤ θ.inSize) (hout : 0 < θ.outSize) : ∀ (exs : List Batch) (span : _root_.SpanLSTM.Params 1 V H) (i total : ℕ) (correct : Option ℕ),
    i ≤ 25 → (∀ ex ∈ exs.take (26 - i), Good V ex) → ∃ pred : ℕ → ℕ → ℕ,
      (∀ k (hk : k < (exs.take (26 - i)).length), ∀ b < (exs.take (26 - i))[k].words.d0, Predicts span θ hV (exs.take (26 - i))[k] b (pred k b)) ∧
      loop θ pick order top span i total correct exs = .ok (total + ∑ k ∈ range (exs.take (26 - i)).length, (exs.getD k default).words.d0,
        if exs = [] then correct else some (correct.getD 0 + ∑ k ∈ range (exs.take (26 - i)).length,
          ((range (exs.getD k default).words.d0).filter fun b => (exs.getD k default).label.getD b 0 = pred k b).card))
  | [], span, i, total, correct, _, _ => ⟨fun _ _ => 0, fun k hk => by simp at hk, by simp [loop]⟩
  | ex :: exs, span, i, total, correct, hi, hg => by
    obtain ⟨n, hn⟩ : ∃ n, 26 - i = n + 1 := ⟨25 - i, by omega⟩
    rw [hn, List.take_succ_cons] at hg ⊢
    obtain ⟨p0, h1, h2⟩ := batch_spec span θ hp ho ht hV hin hout ex (hg _ List.mem_cons_self)
    rw [loop, h2]
    change ∃ pred : ℕ → ℕ → ℕ, _ ∧ (if i = 25 then _ else _) = _
    by_cases h25 : i = 25
    · obtain rfl : n = 0 := by omega
      refine ⟨fun _ => p0, ?_, ?_⟩
      · intro k hk b hb
        obtain rfl : k = 0 := by simpa using hk
        exact h1 b hb
      · rw [if_pos h25]
        simp
    · have hn' : 26 - (i + 1) = n := by omega
      obtain ⟨p1, h3, h4⟩ := loop_spec hV hin hout exs span.cleared (i + 1) (total + ex.words.d0)
        (some (correct.getD 0 + ((range ex.words.d0).filter fun b => ex.label.getD b 0 = p0 b).card)) (by omega)
        (by rw [hn']; exact fun e he => hg e (List.mem_cons_of_mem _ he))
      rw [hn'] at h3 h4
      refine ⟨fun k => match k with | 0 => p0 | k + 1 => p1 k, ?_, ?_⟩
      · rintro (_ | k) hk b hb
        · exact h1 b hb
        · have hk' : k < (exs.take n).length := by simpa using hk
          obtain ⟨s, p, e1, e2⟩ := h3 k hk' b hb
          exact ⟨s, p, (forward_cleared span _ _).symm.trans e1, e2⟩
      · rw [if_neg h25, h4]
        rw [List.length_cons, sum_range_succ', sum_range_succ']
        simp only [List.getD_cons_zero, List.getD_cons_succ, Option.getD_some, reduceCtorEq, if_false]
        by_cases he : exs = []
        · subst he; simp
        · rw [if_neg he]
          refine congrArg Except.ok (Prod.ext ?_ (congrArg some ?_))
          · change total + _ + _ = total + (_ + _); ring
          · change _ + _ + _ = _ + (_ + _); ring

include hp ho ht in
/-- **C110.**  `valid_sup` returns the number of sentences of the first 26 batches whose label is the predicted class, divided by the number of these sentences; a
predicted class is a most probable class of the tree network on a best tree of the span network.  Later batches are not looked at. -/
theorem accuracy_spec (hV : 0 < V) (hin : 1 + V ≤ θ.inSize) (hout : 0 < θ.outSize) (batches : List Batch) (hne : batches ≠ []) (hg : ∀ ex ∈ batches.take 26, Good V ex) :
    ∃ pred : ℕ → ℕ → ℕ, (∀ k (hk : k < (batches.take 26).length), ∀ b < (batches.take 26)[k].words.d0, Predicts span θ hV (batches.take 26)[k] b (pred k b)) ∧
      validSup span θ pick order top batches = .ok
        ((∑ k ∈ range (min 26 batches.length), (((range (batches.getD k default).words.d0).filter fun b => (batches.getD k default).label.getD b 0 = pred k b).card : ℝ)) /
          ∑ k ∈ range (min 26 batches.length), ((batches.getD k default).words.d0 : ℝ)) := by
  obtain ⟨pred, h1, h2⟩ := loop_spec θ hp ho ht hV hin hout batches span 0 0 none (by omega) hg
  refine ⟨pred, h1, ?_⟩
  unfold validSup
  rw [h2, if_neg hne]
  have hlen : (batches.take (26 - 0)).length = min 26 batches.length := List.length_take
  rw [hlen]
  have hpos : 0 < ∑ k ∈ range (min 26 batches.length), (batches.getD k default).words.d0 := by
    cases batches with
    | nil => exact absurd rfl hne
    | cons ex exs =>
      refine lt_of_lt_of_le ?_ (single_le_sum (f := fun k => ((ex :: exs).getD k default).words.d0) (fun _ _ => Nat.zero_le _) (mem_range.2 (by simp : 0 < min 26 (ex :: exs).length)))
      exact (hg ex (by simp)).sentences
  change (if 0 + _ = 0 then _ else Except.ok _) = _
  rw [if_neg (by omega)]
  congr 2
  · simp
  · simp

theorem loop_append : ∀ (exs more : List Batch) (span : _root_.SpanLSTM.Params 1 V H) (i total : ℕ) (correct : Option ℕ), i ≤ 25 → exs.length = 26 - i →
    loop θ pick order top span i total correct (exs ++ more) = loop θ pick order top span i total correct exs
  | [], _, _, i, _, _, hi, h => by simp at h; omega
  | ex :: exs, more, span, i, total, correct, hi, h => by
    rw [List.cons_append, loop, loop]
    by_cases h25 : i = 25
    · simp only [h25, if_true]
    · simp only [if_neg h25]
      congr 1
      funext r
      exact loop_append exs more r.1 (i + 1) _ _ (by omega) (by simp at h; omega)

/-- Without batches there is an error. -/
theorem no_batches : validSup span θ pick order top [] = .error .attribute := rfl

include hp ho ht in
/-- The accuracy lies between 0 and 1. -/
theorem accuracy_bounds (hV : 0 < V) (hin : 1 + V ≤ θ.inSize) (hout : 0 < θ.outSize) (batches : List Batch) (hne : batches ≠ []) (hg : ∀ ex ∈ batches.take 26, Good V ex) :
    ∃ a, validSup span θ pick order top batches = .ok a ∧ 0 ≤ a ∧ a ≤ 1 := by
  obtain ⟨pred, -, h⟩ := accuracy_spec span θ hp ho ht hV hin hout batches hne hg
  refine ⟨_, h, ?_, ?_⟩
  · positivity
  · refine div_le_one_of_le₀ (sum_le_sum fun k _ => ?_) (by positivity)
    exact_mod_cast (card_filter_le _ _).trans (by rw [card_range])

/-- The batches after the 26th are never evaluated: they may be anything. -/
theorem later_ignored (batches more : List Batch) (h : batches.length = 26) :
    validSup span θ pick order top (batches ++ more) = validSup span θ pick order top batches := by
  unfold validSup
  rw [loop_append θ batches more span 0 0 none (by omega) (by omega)]

/-! ### The hypotheses are met -/

theorem exists_max {α : Type} (f : α → ℝ) : ∀ xs : List α, xs ≠ [] → ∃ x ∈ xs, ∀ y ∈ xs, f y ≤ f x
  | [], h => absurd rfl h
  | [x], _ => ⟨x, by simp, by simp⟩
  | x :: y :: ys, _ => by
    obtain ⟨z, h1, h2⟩ := exists_max f (y :: ys) (by simp)
    rcases le_total (f x) (f z) with h | h
    · exact ⟨z, List.mem_cons_of_mem _ h1, fun w hw => by
        rcases List.mem_cons.1 hw with rfl | hw
        · exact h
        · exact h2 w hw⟩
    · exact ⟨x, List.mem_cons_self, fun w hw => by
        rcases List.mem_cons.1 hw with rfl | hw
        · exact le_rfl
        · exact (h2 w hw).trans h⟩

theorem exists_pick : ∃ pick : List (Autograd.Grad (List ℕ)) → Autograd.Grad (List ℕ), Autograd.IsArgmax Prod.fst pick := by
  have h : ∀ xs : List (Autograd.Grad (List ℕ)), ∃ x, xs ≠ [] → x ∈ xs ∧ ∀ y ∈ xs, y.1 ≤ x.1 := fun xs => by
    by_cases hx : xs = []
    · exact ⟨(0, 0), fun h => absurd hx h⟩
    · obtain ⟨x, h⟩ := exists_max Prod.fst xs hx
      exact ⟨x, fun _ => h⟩
  choose pick h using h
  exact ⟨pick, h⟩

theorem exists_top : ∃ top : List ℝ → ℕ, IsTop top := by
  have h : ∀ xs : List ℝ, ∃ n, xs ≠ [] → n < xs.length ∧ ∀ x ∈ xs, x ≤ xs.getD n 0 := fun xs => by
    by_cases hx : xs = []
    · exact ⟨0, fun h => absurd hx h⟩
    · obtain ⟨x, h1, h2⟩ := exists_max id xs hx
      obtain ⟨n, h3, rfl⟩ := List.getElem_of_mem h1
      exact ⟨n, fun _ => ⟨h3, fun y hy => by rw [List.getD_eq_getElem _ _ h3]; exact h2 y hy⟩⟩
  choose top h using h
  exact ⟨top, h⟩

/-- A span network over two words with states of size 1. -/
def sampleSpan : _root_.SpanLSTM.Params 1 2 1 := ⟨fun v _ => v, SpanLSTM.small.forward, SpanLSTM.small.backward, SpanLSTM.small.res, fun _ _ => 1, fun _ => 1⟩

/-- Thirty batches of two sentences, of one and of two words, over a vocabulary of two words: 26 of them are evaluated, that is 52 sentences. -/
example : ∃ pick order top, ∃ correct : ℝ,
    validSup sampleSpan TreeLSTM.sampleParams pick order top (List.replicate 30 ⟨⟨2, 2, fun b n => if b = 0 ∧ n = 1 then 1 else 0⟩, [1, 2], [0, 1]⟩) = .ok (correct / 52) := by
  obtain ⟨pick, hp⟩ := exists_pick
  obtain ⟨top, ht⟩ := exists_top
  obtain ⟨pred, -, h⟩ := accuracy_spec sampleSpan TreeLSTM.sampleParams hp TreeLSTM.mergeSort_sorts ht (by decide) (by decide) (by decide)
    (List.replicate 30 ⟨⟨2, 2, fun b n => if b = 0 ∧ n = 1 then 1 else 0⟩, [1, 2], [0, 1]⟩) (by simp) (fun ex hex => by
      obtain rfl := List.eq_of_mem_replicate (List.mem_of_mem_take hex)
      exact ⟨⟨le_refl 2, fun b _ n _ => by dsimp only; split_ifs <;> omega, by norm_num⟩, by decide, ⟨rfl, by simp⟩, rfl⟩)
  have h52 : ∑ k ∈ range (min 26 (List.replicate 30 (⟨⟨2, 2, fun b n => if b = 0 ∧ n = 1 then 1 else 0⟩, [1, 2], [0, 1]⟩ : Batch)).length),
      ((((List.replicate 30 (⟨⟨2, 2, fun b n => if b = 0 ∧ n = 1 then 1 else 0⟩, [1, 2], [0, 1]⟩ : Batch)).getD k default).words.d0 : ℕ) : ℝ) = 52 := by
    rw [sum_congr rfl (g := fun _ => (2 : ℝ)) fun k hk => by
      have hk' : k < 30 := lt_of_lt_of_le (mem_range.1 hk) ((min_le_right _ _).trans (by simp))
      rw [List.getD_eq_getElem _ _ (by simpa using hk'), List.getElem_replicate]; norm_num, sum_const]
    simp
    norm_num
  rw [h52] at h
  exact ⟨pick, _, top, _, h⟩

end Props.TreeEval
