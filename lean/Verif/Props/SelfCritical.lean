import Verif.Model.SelfCritical
import Verif.Proofs.Mean
import Verif.Props.LogProbGradient
import Verif.Props.Covariance
import Verif.Props.SampleMarginals

/-! Property theorems C99: the policy-gradient objective of the examples.  Its gradient, averaged over what `sample` may return, is the gradient of the expected reward,
whatever baseline is subtracted. -/

open Finset Spec Generic

noncomputable section
open SelfCritical
namespace Props.SelfCritical
open Props.LogProbGradient (HasNumDeriv)

/-! ### `SelfCritical.forward` -/

/-- On the structures of kind `P`, the reward function scores every row of the stacked batches on its own: entry `[k][b]` is `R b` of row `k * B + b`. -/
def Rowwise (P : ℕ → Row → Prop) (B : ℕ) (fn : List Row → ℕ → Except PyErr (List (List ℝ))) (R : ℕ → Row → ℝ) : Prop :=
  ∀ (K : ℕ) (rows : List Row), 0 < K → rows.length = K * B → (∀ k < K, ∀ b < B, P b (rows.getD (k * B + b) 0)) →
    fn rows K = .ok ((List.range K).map fun k => (List.range B).map fun b => R b (rows.getD (k * B + b) 0))

theorem mapM_ok {α β : Type} (f : α → Except PyErr β) (g : α → β) : ∀ (xs : List α), (∀ x ∈ xs, f x = .ok (g x)) → xs.mapM f = .ok (xs.map g)
  | [], _ => rfl
  | x :: xs, h => by
    rw [List.mapM_cons, h x List.mem_cons_self, mapM_ok f g xs fun y hy => h y (List.mem_cons_of_mem _ hy)]
    rfl

theorem flatten_length {B : ℕ} : ∀ (l : List (List Row)), (∀ s ∈ l, s.length = B) → l.flatten.length = l.length * B
  | [], _ => by simp
  | s :: l, h => by
    rw [List.flatten_cons, List.length_append, h s List.mem_cons_self, flatten_length l fun t ht => h t (List.mem_cons_of_mem _ ht), List.length_cons]
    ring

theorem flatten_getD {B : ℕ} {b : ℕ} (hb : b < B) : ∀ (l : List (List Row)), (∀ s ∈ l, s.length = B) → ∀ k < l.length,
    l.flatten.getD (k * B + b) 0 = (l.getD k []).getD b 0
  | [], _, k, hk => by simp at hk
  | s :: l, h, 0, _ => by
    rw [List.flatten_cons, Nat.zero_mul, Nat.zero_add, List.getD_append _ _ _ _ (by rw [h s List.mem_cons_self]; exact hb)]
    rfl
  | s :: l, h, k + 1, hk => by
    have hs := h s List.mem_cons_self
    rw [List.flatten_cons, List.getD_append_right _ _ _ _ (by rw [hs]; nlinarith), hs, show (k + 1) * B + b - B = k * B + b by rw [Nat.succ_mul]; omega,
      flatten_getD hb l (fun t ht => h t (List.mem_cons_of_mem _ ht)) k (by simpa using hk)]
    rfl

/-- What `forward` computes: the samples as given, and for every sample and row its reward minus the reward of the row's best structure. -/
theorem forward_spec {P : ℕ → Row → Prop} {B : ℕ} {fn : List Row → ℕ → Except PyErr (List (List ℝ))} {R : ℕ → Row → ℝ} (hR : Rowwise P B fn R)
    (samples : List (List Row)) (argmax : List Row) (hn : samples ≠ []) (hs : ∀ s ∈ samples, s.length = B) (ha : argmax.length = B)
    (hP : ∀ s ∈ samples ++ [argmax], ∀ b < B, P b (s.getD b 0)) :
    forward fn samples argmax samples.length = .ok {
      structs := samples
      rewards := samples.map fun s => (List.range B).map fun b => R b (s.getD b 0) - R b (argmax.getD b 0)
      total := (List.range B).map fun b => meanOf (samples.map fun s => R b (s.getD b 0))
      maxScore := (List.range B).map fun b => R b (argmax.getD b 0) } := by
  have h1 : (List.range samples.length).mapM (_root_.SelfCritical.get samples) = .ok samples := by
    rw [mapM_ok _ (fun k => samples.getD k [])]
    · congr 1
      refine List.ext_getElem (by simp) fun k h1 h2 => ?_
      simp [List.getElem?_eq_getElem h2]
    · intro k hk
      have hk := List.mem_range.1 hk
      simp [_root_.SelfCritical.get, List.getElem?_eq_getElem hk]
  have hall : ∀ s ∈ samples ++ [argmax], s.length = B := by
    intro s hs'
    rcases List.mem_append.1 hs' with h | h
    · exact hs s h
    · rw [List.mem_singleton.1 h, ha]
  have h2 := hR (samples.length + 1) (samples ++ [argmax]).flatten (Nat.succ_pos _) (by rw [flatten_length _ hall]; simp) fun k hk b hb => by
    have hk : k < (samples ++ [argmax]).length := by simpa using hk
    rw [flatten_getD hb _ hall k hk, List.getD_eq_getElem _ _ hk]
    exact hP _ (List.getElem_mem _) b hb
  have h3 : ((List.range (samples.length + 1)).map fun k => (List.range B).map fun b => R b ((samples ++ [argmax]).flatten.getD (k * B + b) 0)) =
      (samples.map fun s => (List.range B).map fun b => R b (s.getD b 0)) ++ [(List.range B).map fun b => R b (argmax.getD b 0)] := by
    refine List.ext_getElem (by simp) fun k h1 h2 => ?_
    have hk : k < samples.length + 1 := by simpa using h1
    rw [List.getElem_map, List.getElem_range]
    have e : ∀ b ∈ List.range B, R b ((samples ++ [argmax]).flatten.getD (k * B + b) 0) = R b (((samples ++ [argmax]).getD k []).getD b 0) := fun b hb => by
      rw [flatten_getD (List.mem_range.1 hb) _ hall k (by simpa using hk)]
    rw [List.map_congr_left e]
    by_cases hc : k < samples.length
    · rw [List.getElem_append_left (by simpa using hc), List.getElem_map, List.getD_append _ _ _ _ hc, List.getD_eq_getElem _ _ hc]
    · obtain rfl : k = samples.length := by omega
      rw [List.getElem_append_right (by simp)]
      simp
  have hne : samples.isEmpty = false := by
    cases samples with
    | nil => exact absurd rfl hn
    | cons a l => rfl
  unfold forward
  rw [h1]
  show (if samples.isEmpty = true then _ else _) = _
  rw [hne, if_neg (by decide), h2, h3]
  show (match ((samples.map fun s => (List.range B).map fun b => R b (s.getD b 0)) ++ [(List.range B).map fun b => R b (argmax.getD b 0)]).getLast? with
    | none => _ | some maxScore => _) = _
  rw [List.getLast?_concat]
  simp only [List.dropLast_concat, List.map_map, List.length_map, List.length_range]
  congr 2
  · refine List.map_congr_left fun s _ => ?_
    simp only [Function.comp_apply, CKYCRFProofs.zipWith_map]
  · refine List.map_congr_left fun b hb => ?_
    congr 1
    refine List.map_congr_left fun s _ => ?_
    have hb := List.mem_range.1 hb
    simp [List.getElem?_range hb]

theorem meanOf_neg {α : Type} (l : List α) (f : α → ℝ) : meanOf (l.map fun a => - f a) = - meanOf (l.map f) := by
  rw [meanOf, meanOf, List.length_map, List.length_map, ← neg_div]
  congr 1
  induction l with
  | nil => simp
  | cons a l ih => simp only [List.map_cons, List.sum_cons, ih]; ring

/-! ### The objective -/

theorem hasDerivAt_list {α : Type} {f : α → ℝ → ℝ} {d : α → ℝ} : ∀ l : List α, (∀ a ∈ l, HasDerivAt (f a) (d a) 0) →
    HasDerivAt (fun x => (l.map fun a => f a x).sum) (l.map d).sum 0
  | [], _ => by simpa using hasDerivAt_const (0 : ℝ) (0 : ℝ)
  | a :: l, h => by
    simpa using (h a List.mem_cons_self).fun_add (hasDerivAt_list l fun b hb => h b (List.mem_cons_of_mem _ hb))

theorem hasDerivAt_meanOf {α : Type} {f : α → ℝ → ℝ} {d : α → ℝ} (l : List α) (h : ∀ a ∈ l, HasDerivAt (f a) (d a) 0) :
    HasDerivAt (fun x => meanOf (l.map fun a => f a x)) (meanOf (l.map d)) 0 := by
  simp only [meanOf, List.length_map]
  exact (hasDerivAt_list l h).div_const _

/-- The derivative of the objective, from the derivatives of the rows of `log_prob`. -/
theorem objective_deriv {B : ℕ} {lp : ℝ → ℕ → Row → Except PyErr ℝ} {D : ℕ → Row → ℝ} (h : ∀ b < B, ∀ v, HasNumDeriv (fun x => lp x b v) (D b v))
    (rw : ℕ → Row → ℝ) (structs : List (List Row)) (hs : ∀ s ∈ structs, s.length = B) :
    HasNumDeriv (fun x => objective (lp x) (structs.map fun s => (List.range B).map fun b => rw b (s.getD b 0)) structs)
      (meanOf (structs.map fun s => meanOf ((List.range B).map fun b => rw b (s.getD b 0) * D b (s.getD b 0)))) := by
  have h' : ∀ b v, ∃ F : ℝ → ℝ, b < B → (∀ x, lp x b v = .ok (F x)) ∧ HasDerivAt F (D b v) 0 := by
    intro b v
    by_cases hb : b < B
    · obtain ⟨F, h1, h2⟩ := h b hb v
      exact ⟨F, fun _ => ⟨h1, h2⟩⟩
    · exact ⟨fun _ => 0, fun hc => absurd hc hb⟩
  choose F hF using h'
  refine ⟨fun x => meanOf (structs.map fun s => meanOf ((List.range B).map fun b => rw b (s.getD b 0) * F b (s.getD b 0) x)), fun x => ?_, ?_⟩
  · simp only [objective]
    rw [mapM_ok _ (fun s => (List.range B).map fun b => F b (s.getD b 0) x)]
    · show Except.ok _ = _
      rw [CKYCRFProofs.zipWith_map]
      simp only [CKYCRFProofs.zipWith_map]
    · intro s hs'
      rw [hs s hs']
      exact mapM_ok _ _ _ fun b hb => (hF b _ (List.mem_range.1 hb)).1 x
  · refine hasDerivAt_meanOf _ fun s _ => hasDerivAt_meanOf _ fun b hb => ?_
    exact ((hF b _ (List.mem_range.1 hb)).2).const_mul _

/-! ### `TreeCRF` -/

section Tree
open Props.TreeCRF CKYCRF

/-- Row `b` of a sampled event. -/
def rowOf (b : ℕ) (e : List ℕ → ℕ) : Row := fun i j a => (e [b, i, j, a] : ℝ)

/-- The rows of the sampled event. -/
def rowsOf (B : ℕ) (e : List ℕ → ℕ) : List Row := rows B fun id => (e id : ℝ)

theorem rowsOf_length (B : ℕ) (e : List ℕ → ℕ) : (rowsOf B e).length = B := by simp [rowsOf, rows]

theorem rowsOf_getD (B : ℕ) (e : List ℕ → ℕ) (b : ℕ) (hb : b < B) : (rowsOf B e).getD b 0 = rowOf b e := by
  rw [rowsOf, rows, List.getD_eq_getElem _ _ (by simpa using hb), List.getElem_map, List.getElem_range]
  rfl

theorem samples_kind {P : ℕ → Row → Prop} {B : ℕ} {smp : List (List ℕ → ℕ)} {argmax : List ℕ → ℝ} (hS : ∀ e ∈ smp, ∀ b < B, P b (rowOf b e))
    (hA : ∀ b < B, P b ((rows B argmax).getD b 0)) : ∀ s ∈ smp.map (rowsOf B) ++ [rows B argmax], ∀ b < B, P b (s.getD b 0) := by
  intro s hs b hb
  rcases List.mem_append.1 hs with hs | hs
  · obtain ⟨e, he, rfl⟩ := List.mem_map.1 hs
    rw [rowsOf_getD _ _ _ hb]
    exact hS e he b hb
  · rw [List.mem_singleton.1 hs]
    exact hA b hb

/-- Row `b` of the batch of events of a batch of trees is the event of the tree of row `b`. -/
theorem rowOf_batchEvent {B NT : ℕ} {L : Fin B → ℕ} (Y : ∀ b, Trees NT (L b)) (b : Fin B) : rowOf b (batchEvent Y) = event (Y b) := by
  funext i j a
  rw [rowOf, batchEvent, event]
  have : (∃ (b' : Fin B) (i' j' : ℕ) (a' : Fin NT), [(b : ℕ), i, j, a] = [(b' : ℕ), i', j', (a' : ℕ)] ∧ (i', j', a') ∈ (Y b').1.spans 0) ↔
      (i, j, a) ∈ ((Y b).1.spans 0).map fun s => (s.1, s.2.1, (s.2.2 : ℕ)) := by
    constructor
    · rintro ⟨b', i', j', a', he, hm⟩
      simp only [List.cons.injEq, and_true] at he
      obtain ⟨e1, rfl, rfl, rfl⟩ := he
      obtain rfl : b = b' := Fin.ext e1
      exact List.mem_map.2 ⟨_, hm, rfl⟩
    · intro h
      obtain ⟨⟨i', j', a'⟩, hm, he⟩ := List.mem_map.1 h
      simp only [Prod.mk.injEq] at he
      obtain ⟨rfl, rfl, rfl⟩ := he
      exact ⟨b, i', j', a', rfl, hm⟩
  by_cases hc : (i, j, a) ∈ ((Y b).1.spans 0).map fun s => (s.1, s.2.1, (s.2.2 : ℕ))
  · rw [if_pos (this.2 hc), if_pos hc]; simp
  · rw [if_neg (mt this.1 hc), if_neg hc]; simp

/-- The reward of one row that a tree drawn from the distribution earns on average. -/
def rowReward (p : T4 ℝ) (lengths : Option (List ℕ)) (R : ℕ → Row → ℝ) (b : ℕ) : ℝ :=
  ∑ t : Trees p.d3 (len p lengths b), Gibbs.prob (treeScore (row p b)) t * R b (event t)

/-- The expected reward, averaged over the rows of the batch. -/
def expectedReward (p : T4 ℝ) (lengths : Option (List ℕ)) (R : ℕ → Row → ℝ) : ℝ := (∑ b ∈ range p.d0, rowReward p lengths R b) / p.d0

/-- Averages over the samples of a function of one row. -/
theorem tree_mean (p : T4 ℝ) (lengths : Option (List ℕ)) (h : TreeCRF.Valid p lengths) {n : ℕ} (hn : 0 < n) (b : ℕ) (hb : b < p.d0) (f : Row → ℝ) :
    ∃ es, Sampling.record CKYCRF.algo (-100000) p lengths = .ok es ∧
      SampleMean es n (fun smp => meanOf (smp.map fun e => f (rowOf b e))) (∑ t : Trees p.d3 (len p lengths b), Gibbs.prob (treeScore (row p b)) t * f (event t)) := by
  obtain ⟨es, h1, -, h2⟩ := sample_law p lengths h
  refine ⟨es, h1, ?_⟩
  exact h2.row_mean (q := fun b => Gibbs.prob (treeScore (row p b))) (fun b => by have := trees_nonempty p lengths h b b.2; exact Gibbs.sum_prob _)
    batchEvent_injective hn ⟨b, hb⟩ (fun e => f (rowOf b e)) (fun t => f (event t)) fun Y => congrArg f (rowOf_batchEvent Y ⟨b, hb⟩)

theorem sum_ind (m : Multiset (List ℕ)) (e : List ℕ) : (m.map fun y => if y = e then (1 : ℝ) else 0).sum = (m.count e : ℕ) := by
  induction m using Multiset.induction with
  | empty => simp
  | cons a m ih =>
    rw [Multiset.map_cons, Multiset.sum_cons, ih, Multiset.count_cons]
    by_cases h : a = e
    · subst h; push_cast; simp; ring
    · rw [if_neg h, if_neg (Ne.symm h)]; simp

/-- The score of a tree moves with the potential of a span by the span's indicator. -/
theorem treeScore_nudge (p : T4 ℝ) (b i j : ℕ) (a : Fin p.d3) (x : ℝ) {L : ℕ} (t : Trees p.d3 L) :
    treeScore (row (Gradient.nudge4 p b i j a x) b) t = treeScore (row p b) t + x * event t i j a := by
  rw [← realScore_eq, ← realScore_eq, realScore, realScore]
  have e : ∀ y ∈ CKYCRFProofs.treeParts b t, CKYCRFProofs.at4 (Gradient.nudge4 p b i j a x) y = CKYCRFProofs.at4 p y + x * if y = [b, i, j, (a : ℕ)] then 1 else 0 := by
    intro y hy
    rw [CKYCRFProofs.treeParts, Multiset.mem_coe, List.mem_map] at hy
    obtain ⟨s, -, rfl⟩ := hy
    simp [CKYCRFProofs.at4, Gradient.nudge4]
  rw [Multiset.map_congr rfl e, Multiset.sum_map_add, Multiset.sum_map_mul_left]
  rw [sum_ind, count_parts, event_apply]
  push_cast
  rfl

/-- Moving a potential of row `b` does not change row `b'`. -/
theorem row_nudge (p : T4 ℝ) (b i j a : ℕ) (x : ℝ) {b' : ℕ} (hb : b' ≠ b) : row (Gradient.nudge4 p b i j a x) b' = row p b' := by
  funext i' j' a'
  simp [row, Gradient.nudge4, hb]

/-- The derivative of the expected reward. -/
theorem expectedReward_deriv (p : T4 ℝ) (lengths : Option (List ℕ)) (h : TreeCRF.Valid p lengths) (R : ℕ → Row → ℝ) (b : ℕ) (hb : b < p.d0) (i j : ℕ) (a : Fin p.d3) :
    HasDerivAt (fun x => expectedReward (Gradient.nudge4 p b i j a x) lengths R)
      (Gibbs.cov (treeScore (row p b) : Trees p.d3 (len p lengths b) → ℝ) (fun t => R b (event t)) (fun t => event t i j a) / p.d0) 0 := by
  have hne := trees_nonempty p lengths h b hb
  have e : ∀ x, expectedReward (Gradient.nudge4 p b i j a x) lengths R =
      (∑ b' ∈ (range p.d0).erase b, rowReward p lengths R b' + Gibbs.expect (fun t : Trees p.d3 (len p lengths b) => treeScore (row p b) t + x * event t i j a)
        fun t => R b (event t)) / p.d0 := by
    intro x
    unfold expectedReward
    show (∑ b' ∈ range p.d0, _) / (p.d0 : ℝ) = _
    rw [← sum_erase_add _ _ (mem_range.2 hb)]
    congr 2
    · refine sum_congr rfl fun b' hb' => ?_
      have hc := ne_of_mem_erase hb'
      show ∑ t : Trees p.d3 (len p lengths b'), Gibbs.prob (treeScore (row (Gradient.nudge4 p b i j a x) b')) t * _ = _
      rw [row_nudge p b i j a x hc]
      rfl
    · show ∑ t : Trees p.d3 (len p lengths b), Gibbs.prob (treeScore (row (Gradient.nudge4 p b i j a x) b)) t * _ = _
      rw [show (treeScore (row (Gradient.nudge4 p b i j a x) b) : Trees p.d3 (len p lengths b) → ℝ) = fun t => treeScore (row p b) t + x * event t i j a from
        funext fun t => treeScore_nudge p b i j a x t]
      rfl
  simp only [e]
  exact ((Gibbs.hasDerivAt_expect (ι := Trees p.d3 (len p lengths b)) (treeScore (row p b)) (fun t => event t i j a) (fun t => R b (event t))).const_add _).div_const _

/-- The derivatives of the rows of `log_prob`. -/
theorem logProb_rows (p : T4 ℝ) (lengths : Option (List ℕ)) (h : TreeCRF.Valid p lengths) (b : ℕ) (hb : b < p.d0) (i j : ℕ) (hi : i < p.d1) (hj : j < p.d1) (a : Fin p.d3)
    (b' : ℕ) (hb' : b' < p.d0) (v : Row) : HasNumDeriv (fun x => CKYCRF.logProb (Gradient.nudge4 p b i j a x) lengths b' v)
      (if b' = b then v i j a - spanProb (row p b) (len p lengths b) i j a else 0) := by
  by_cases hc : b' = b
  · subst hc
    rw [if_pos rfl]
    obtain ⟨μ, h1, h2⟩ := LogProbGradient.tree_logProb_grad p lengths h
    obtain ⟨μ', h3, h4⟩ := marginals_spec p lengths h
    rw [h1] at h3
    cases h3
    rw [← h4 b' hb' i j a]
    exact h2 b' hb' v i hi j hj a a.2
  · rw [if_neg hc]
    obtain ⟨μ, -, h2⟩ := Gradient.tree_marginals p lengths h
    have h3 := h2 b hb i j a b' hb'
    rw [if_neg hc] at h3
    have := LogProbGradient.of_row h3 (hasDerivAt_const (0 : ℝ) (Struct.score
      (((List.range p.d1).flatMap fun i => (List.range p.d2).flatMap fun j => (List.range p.d3).map fun a => (i, j, a)).map fun x => p.get b' x.1 x.2.1 x.2.2)
      (((List.range p.d1).flatMap fun i => (List.range p.d2).flatMap fun j => (List.range p.d3).map fun a => (i, j, a)).map fun x => v x.1 x.2.1 x.2.2)))
    rw [sub_zero] at this
    refine (iff_of_eq (congrArg (fun f => HasNumDeriv f _) (funext fun t => ?_))).mp this
    unfold CKYCRF.logProb
    simp [Gradient.nudge4, hc]

/-- **C99.** The gradient of the policy objective that `SelfCritical.forward` and the training loop build from `n` samples is an unbiased estimate of the gradient of the
expected reward: for every reward function that scores rows of some kind `P` separately (samples and `argmax` are of this kind), every `argmax` tensor used as baseline, every row and every potential. -/
theorem reinforce (p : T4 ℝ) (lengths : Option (List ℕ)) (h : TreeCRF.Valid p lengths) {P : ℕ → Row → Prop} {fn : List Row → ℕ → Except PyErr (List (List ℝ))} {R : ℕ → Row → ℝ}
    (hR : Rowwise P p.d0 fn R) (argmax : List ℕ → ℝ) (hA : ∀ b < p.d0, P b ((rows p.d0 argmax).getD b 0)) {n : ℕ} (hn : 0 < n) (b : ℕ) (hb : b < p.d0) (i j : ℕ) (hi : i < p.d1) (hj : j < p.d1) (a : Fin p.d3) :
    ∃ es, Sampling.record CKYCRF.algo (-100000) p lengths = .ok es ∧ ∃ (g : List (List ℕ → ℕ) → ℝ) (D : ℝ),
      (∀ smp : List (List ℕ → ℕ), smp.length = n → (∀ e ∈ smp, ∀ b < p.d0, P b (rowOf b e)) → ∃ out, forward fn (smp.map (rowsOf p.d0)) (rows p.d0 argmax) n = .ok out ∧
        HasNumDeriv (fun x => objective (CKYCRF.logProb (Gradient.nudge4 p b i j a x) lengths) out.rewards out.structs) (g smp)) ∧
      SampleMean es n g D ∧ HasDerivAt (fun x => expectedReward (Gradient.nudge4 p b i j a x) lengths R) D 0 := by
  have hne := trees_nonempty p lengths h b hb
  have hd0 : (p.d0 : ℝ) ≠ 0 := by exact_mod_cast (Nat.pos_of_ne_zero (by omega)).ne'
  obtain ⟨es, h1, h2⟩ := tree_mean p lengths h hn b hb
    fun v => (R b v - R b ((rows p.d0 argmax).getD b 0)) * (v i j a - spanProb (row p b) (len p lengths b) i j a) / p.d0
  refine ⟨es, h1, fun smp => meanOf (smp.map fun e =>
    (R b (rowOf b e) - R b ((rows p.d0 argmax).getD b 0)) * (rowOf b e i j a - spanProb (row p b) (len p lengths b) i j a) / p.d0), _, fun smp hl hS => ?_, h2, ?_⟩
  · have hs : ∀ s ∈ smp.map (rowsOf p.d0), s.length = p.d0 := by
      intro s hs
      obtain ⟨e, -, rfl⟩ := List.mem_map.1 hs
      exact rowsOf_length _ _
    have hf := forward_spec hR (smp.map (rowsOf p.d0)) (rows p.d0 argmax) (by
      intro hc
      rw [List.map_eq_nil_iff] at hc
      rw [hc] at hl
      simp at hl
      omega) hs (by simp [rows]) (samples_kind hS hA)
    rw [List.length_map, hl] at hf
    refine ⟨_, hf, ?_⟩
    have := objective_deriv (B := p.d0) (lp := fun x => CKYCRF.logProb (Gradient.nudge4 p b i j a x) lengths) (logProb_rows p lengths h b hb i j hi hj a)
      (fun b v => R b v - R b ((rows p.d0 argmax).getD b 0)) (smp.map (rowsOf p.d0)) hs
    refine (iff_of_eq (congrArg (HasNumDeriv _) ?_)).mp this
    rw [List.map_map]
    congr 1
    refine List.map_congr_left fun e _ => ?_
    rw [Function.comp_apply, meanOf, LogProbGradient.sum_range_list, List.length_map, List.length_range, sum_eq_single b]
    · rw [if_pos rfl, rowsOf_getD _ _ _ hb]
    · intro b' hb' hc
      rw [if_neg hc, mul_zero]
    · intro hc; exact absurd (mem_range.2 hb) hc
  · have := expectedReward_deriv p lengths h R b hb i j a
    refine (iff_of_eq (congrArg (fun d => HasDerivAt _ d _) ?_)).mp this
    rw [← Gibbs.sum_prob_baseline _ _ _ (R b ((rows p.d0 argmax).getD b 0)), sum_div]
    refine sum_congr rfl fun t _ => ?_
    rw [mul_div_assoc]
    congr 3
    rw [Gibbs.expect, spanProb]
    refine congrArg _ (sum_congr rfl fun t _ => ?_)
    rw [event_apply, mul_ite, mul_one, mul_zero]

/-- **C99.** The second result of `forward` that is used, `total`: row `b` is an unbiased estimate of the expected reward of the row. -/
theorem total_mean (p : T4 ℝ) (lengths : Option (List ℕ)) (h : TreeCRF.Valid p lengths) {P : ℕ → Row → Prop} {fn : List Row → ℕ → Except PyErr (List (List ℝ))} {R : ℕ → Row → ℝ}
    (hR : Rowwise P p.d0 fn R) (argmax : List ℕ → ℝ) (hA : ∀ b < p.d0, P b ((rows p.d0 argmax).getD b 0)) {n : ℕ} (hn : 0 < n) (b : ℕ) (hb : b < p.d0) :
    ∃ es, Sampling.record CKYCRF.algo (-100000) p lengths = .ok es ∧ ∃ g : List (List ℕ → ℕ) → ℝ,
      (∀ smp : List (List ℕ → ℕ), smp.length = n → (∀ e ∈ smp, ∀ b < p.d0, P b (rowOf b e)) → ∃ out, forward fn (smp.map (rowsOf p.d0)) (rows p.d0 argmax) n = .ok out ∧ out.total[b]? = some (g smp)) ∧
      SampleMean es n g (rowReward p lengths R b) := by
  obtain ⟨es, h1, h2⟩ := tree_mean p lengths h hn b hb (R b)
  refine ⟨es, h1, _, fun smp hl hS => ?_, h2⟩
  have hs : ∀ s ∈ smp.map (rowsOf p.d0), s.length = p.d0 := by
    intro s hs
    obtain ⟨e, -, rfl⟩ := List.mem_map.1 hs
    exact rowsOf_length _ _
  have hf := forward_spec hR (smp.map (rowsOf p.d0)) (rows p.d0 argmax) (by
    intro hc
    rw [List.map_eq_nil_iff] at hc
    rw [hc] at hl
    simp at hl
    omega) hs (by simp [rows]) (samples_kind hS hA)
  rw [List.length_map, hl] at hf
  refine ⟨_, hf, ?_⟩
  simp only [List.getElem?_map, List.getElem?_range hb, Option.map_some, List.map_map]
  congr 2
  refine List.map_congr_left fun e _ => ?_
  rw [Function.comp_apply, rowsOf_getD _ _ _ hb]

/-- **C99.** Averaging `- log_prob` over the samples of a row is an unbiased estimate of `entropy`. -/
theorem entropy_mean (p : T4 ℝ) (lengths : Option (List ℕ)) (h : TreeCRF.Valid p lengths) {n : ℕ} (hn : 0 < n) (b : ℕ) (hb : b < p.d0) :
    ∃ es H, Sampling.record CKYCRF.algo (-100000) p lengths = .ok es ∧ Dist.entropy CKYCRF.algo p lengths = .ok H ∧ ∃ lp : (List ℕ → ℕ) → ℝ,
      (∀ e, CKYCRF.logProb p lengths b (rowOf b e) = .ok (lp e)) ∧ SampleMean es n (fun smp => - meanOf (smp.map lp)) (H.getD b 0) := by
  have hne := trees_nonempty p lengths h b hb
  have hlp : ∃ f : Row → ℝ, ∀ v, CKYCRF.logProb p lengths b v = .ok (f v) := by
    have : ∀ v : Row, ∃ y, CKYCRF.logProb p lengths b v = .ok y := by
      intro v
      unfold CKYCRF.logProb
      rw [partition_spec p lengths h]
      exact ⟨_, rfl⟩
    choose f hf using this
    exact ⟨f, hf⟩
  obtain ⟨f, hf⟩ := hlp
  obtain ⟨es, h1, h2⟩ := tree_mean p lengths h hn b hb fun v => - f v
  refine ⟨es, _, h1, entropy_spec p lengths h, fun e => f (rowOf b e), fun e => hf _, ?_⟩
  rw [funext fun smp => meanOf_neg smp fun e => f (rowOf b e)] at h2
  refine (iff_of_eq (congrArg (SampleMean es n _) ?_)).mp h2
  rw [List.getD_eq_getElem _ _ (by simpa using hb), List.getElem_map, List.getElem_range, Gibbs.entropy, ← sum_neg_distrib]
  refine sum_congr rfl fun t _ => ?_
  have := (hf (event t)).symm.trans (logProb_spec p lengths h b hb t)
  rw [Except.ok.inj this, mul_neg]

end Tree

/-! ### `DependencyCRF` -/

section Dependency
open Props.Dependency DepTree

/-- Row `b` of a sampled event of `DependencyCRF` without labels. -/
def arcRowOf (b : ℕ) (e : List ℕ → ℕ) : Row := fun i j _ => (e [b, i, j] : ℝ)

theorem arcRowOf_batchEvent {B : ℕ} {mr : Bool} {n : Fin B → ℕ} (Y : ∀ b, ProjTrees mr (n b)) (b : Fin B) : arcRowOf b (batchEvent Y) = event (Y b) := by
  funext i j l
  rw [arcRowOf, batchEvent, event]
  have : (∃ (b' : Fin B) (i' j' : ℕ), [(b : ℕ), i, j] = [(b' : ℕ), i', j'] ∧ HasArc (Y b').1 i' j') ↔ HasArc (Y b).1 i j := by
    constructor
    · rintro ⟨b', i', j', he, hm⟩
      simp only [List.cons.injEq, and_true] at he
      obtain ⟨e1, rfl, rfl⟩ := he
      obtain rfl : b = b' := Fin.ext e1
      exact hm
    · intro h; exact ⟨b, i, j, rfl, h⟩
  by_cases hc : HasArc (Y b).1 i j
  · rw [if_pos (this.2 hc), if_pos hc]; simp
  · rw [if_neg (mt this.1 hc), if_neg hc]; simp

theorem dep_mean (mr : Bool) (q : Arcs ℝ) (lengths : Option (List ℕ)) (h : Dependency.Valid mr q lengths) {n : ℕ} (hn : 0 < n) (b : ℕ) (hb : b < q.d0) (f : Row → ℝ) :
    ∃ es, (convert negBig q).bind (fun p => Sampling.record (algo mr) (-100000) p lengths) = .ok es ∧
      SampleMean es n (fun smp => meanOf (smp.map fun e => f (arcRowOf b e)))
        (∑ t : ProjTrees mr (len q lengths b), Gibbs.prob (fun t : ProjTrees mr (len q lengths b) => depScore (row q b) t.1) t * f (event t)) := by
  obtain ⟨es, h1, -, h2⟩ := sample_law mr q lengths h
  exact ⟨es, h1, h2.row_mean (q := fun b => Gibbs.prob fun t : ProjTrees mr (len q lengths b) => depScore (row q b) t.1)
    (fun b => by have := trees_nonempty h b b.2; exact Gibbs.sum_prob _)
    batchEvent_injective hn ⟨b, hb⟩ (fun e => f (arcRowOf b e)) (fun t => f (event t)) fun Y => congrArg f (arcRowOf_batchEvent Y ⟨b, hb⟩)⟩

theorem depScore_nudge (q : Arcs ℝ) (b i j : ℕ) (x : ℝ) {mr : Bool} {n : ℕ} (t : ProjTrees mr n) :
    depScore (row (Gradient.nudgeArc q b i j 0 x) b) t.1 = depScore (row q b) t.1 + x * event t i j 0 := by
  have e1 := congrFun (realScore_eq negBig (Gradient.nudgeArc q b i j 0 x) b (mr := mr) (n := n)) t
  have e2 := congrFun (realScore_eq negBig q b (mr := mr) (n := n)) t
  rw [← e1, ← e2, realScore, realScore]
  have e : ∀ y ∈ DepTreeProofs.depParts b t, DepTreeProofs.atQ negBig (Gradient.nudgeArc q b i j 0 x) y = DepTreeProofs.atQ negBig q y +
      x * if y = [b, i, j] then 1 else 0 := by
    intro y hy
    obtain ⟨i', j', rfl, -⟩ := (DepTreeProofs.mem_depParts _ _ _).1 hy
    simp [DepTreeProofs.atQ, Gradient.nudgeArc]
  rw [Multiset.map_congr rfl e, Multiset.sum_map_add, Multiset.sum_map_mul_left, sum_ind, count_parts, event]
  push_cast
  rfl

/-- The reward of one row that a tree drawn from the distribution earns on average. -/
def depReward (mr : Bool) (q : Arcs ℝ) (lengths : Option (List ℕ)) (R : Row → ℝ) (b : ℕ) : ℝ :=
  ∑ t : ProjTrees mr (len q lengths b), Gibbs.prob (fun t : ProjTrees mr (len q lengths b) => depScore (row q b) t.1) t * R (event t)

/-- **C99 for `DependencyCRF` without labels**, in both root modes.  Rewards minus any baseline, times the gradient of `log_prob` of the samples: an unbiased estimate of
the gradient of the expected reward. -/
theorem dependency_reinforce (mr : Bool) (q : Arcs ℝ) (lengths : Option (List ℕ)) (h : Dependency.Valid mr q lengths) (R : Row → ℝ) (c : ℝ) {n : ℕ} (hn : 0 < n)
    (b : ℕ) (hb : b < q.d0) (i j : ℕ) (hi : i < q.d1) (hj : j < q.d1) :
    ∃ es, (convert negBig q).bind (fun p => Sampling.record (algo mr) (-100000) p lengths) = .ok es ∧ ∃ (g : Row → ℝ) (D : ℝ),
      (∀ v, HasNumDeriv (fun x => DepTree.logProb mr (Gradient.nudgeArc q b i j 0 x) lengths b v) (g v)) ∧
      SampleMean es n (fun smp => meanOf (smp.map fun e => (R (arcRowOf b e) - c) * g (arcRowOf b e))) D ∧
      HasDerivAt (fun x => depReward mr (Gradient.nudgeArc q b i j 0 x) lengths R b) D 0 := by
  have hne := trees_nonempty h b hb
  obtain ⟨μ, h1, h2⟩ := LogProbGradient.dependency_logProb_grad mr q lengths h
  obtain ⟨μ', h3, h4⟩ := marginals_spec mr q lengths h
  rw [h1] at h3
  cases h3
  obtain ⟨es, h5, h6⟩ := dep_mean mr q lengths h hn b hb fun v => (R v - c) * (v i j 0 - μ [b, i, j])
  refine ⟨es, h5, fun v => v i j 0 - μ [b, i, j], _, fun v => h2 b hb v i hi j hj, h6, ?_⟩
  have e : ∀ x, depReward mr (Gradient.nudgeArc q b i j 0 x) lengths R b =
      Gibbs.expect (fun t : ProjTrees mr (len q lengths b) => depScore (row q b) t.1 + x * event t i j 0) fun t => R (event t) := by
    intro x
    show ∑ t : ProjTrees mr (len q lengths b), Gibbs.prob (fun t : ProjTrees mr (len q lengths b) => depScore (row (Gradient.nudgeArc q b i j 0 x) b) t.1) t * _ = _
    simp only [depScore_nudge]
    rfl
  simp only [e]
  have := Gibbs.hasDerivAt_expect (ι := ProjTrees mr (len q lengths b)) (fun t => depScore (row q b) t.1) (fun t => event t i j 0) (fun t => R (event t))
  refine (iff_of_eq (congrArg (fun d => HasDerivAt _ d _) ?_)).mp this
  rw [← Gibbs.sum_prob_baseline _ _ _ c, h4 b hb i j, arcProb]
  refine sum_congr rfl fun t _ => ?_
  congr 3
  refine sum_congr rfl fun t _ => ?_
  simp only [event, mul_ite, mul_one, mul_zero]

/-- **C99 for `DependencyCRF` without labels.** Averaging `- log_prob` over the samples is an unbiased estimate of `entropy`. -/
theorem dependency_entropy_mean (mr : Bool) (q : Arcs ℝ) (lengths : Option (List ℕ)) (h : Dependency.Valid mr q lengths) {n : ℕ} (hn : 0 < n) (b : ℕ) (hb : b < q.d0) :
    ∃ es H, (convert negBig q).bind (fun p => Sampling.record (algo mr) (-100000) p lengths) = .ok es ∧ DepTree.entropy mr q lengths = .ok H ∧ ∃ lp : (List ℕ → ℕ) → ℝ,
      (∀ e, DepTree.logProb mr q lengths b (arcRowOf b e) = .ok (lp e)) ∧ SampleMean es n (fun smp => - meanOf (smp.map lp)) (H.getD b 0) := by
  have hne := trees_nonempty h b hb
  have hlp : ∀ v : Row, ∃ y, DepTree.logProb mr q lengths b v = .ok y := by
    intro v
    unfold DepTree.logProb
    rw [partition_spec mr q lengths h]
    exact ⟨_, rfl⟩
  choose f hf using hlp
  obtain ⟨es, h1, h2⟩ := dep_mean mr q lengths h hn b hb fun v => - f v
  refine ⟨es, _, h1, entropy_spec mr q lengths h, fun e => f (arcRowOf b e), fun e => hf _, ?_⟩
  rw [funext fun smp => meanOf_neg smp fun e => f (arcRowOf b e)] at h2
  refine (iff_of_eq (congrArg (SampleMean es n _) ?_)).mp h2
  rw [List.getD_eq_getElem _ _ (by simpa using hb), List.getElem_map, List.getElem_range, Gibbs.entropy, ← sum_neg_distrib]
  refine sum_congr rfl fun t _ => ?_
  have := (hf (event t)).symm.trans (logProb_spec mr q lengths h b hb t)
  rw [Except.ok.inj this, mul_neg]

end Dependency

section Labelled
open Props.LabelledDependency DepTree

theorem labRowOf_batchEvent {B L : ℕ} {mr : Bool} {n : Fin B → ℕ} (Y : ∀ b, LabelledTrees mr (n b) L) (b : Fin B) : rowOf b (batchEvent Y) = event (Y b) := by
  funext i j l
  rw [rowOf, batchEvent, event]
  have : (∃ (b' : Fin B) (i' j' l' : ℕ), [(b : ℕ), i, j, l] = [(b' : ℕ), i', j', l'] ∧ HasLabArc (Y b') i' j' l') ↔ HasLabArc (Y b) i j l := by
    constructor
    · rintro ⟨b', i', j', l', he, hm⟩
      simp only [List.cons.injEq, and_true] at he
      obtain ⟨e1, rfl, rfl, rfl⟩ := he
      obtain rfl : b = b' := Fin.ext e1
      exact hm
    · intro h; exact ⟨b, i, j, l, rfl, h⟩
  by_cases hc : HasLabArc (Y b) i j l
  · rw [if_pos (this.2 hc), if_pos hc]; simp
  · rw [if_neg (mt this.1 hc), if_neg hc]; simp

theorem lab_mean (mr : Bool) (q : Arcs ℝ) (lengths : Option (List ℕ)) (h : LabelledDependency.Valid mr q lengths) {n : ℕ} (hn : 0 < n) (b : ℕ) (hb : b < q.d0) (f : Row → ℝ) :
    ∃ es, (convert negBig q).bind (fun p => Sampling.record (algo mr) (-100000) p lengths) = .ok es ∧
      SampleMean es n (fun smp => meanOf (smp.map fun e => f (rowOf b e)))
        (∑ t : LabelledTrees mr (len q lengths b) q.d3, Gibbs.prob (labScore (row q b)) t * f (event t)) := by
  obtain ⟨es, h1, -, h2⟩ := sample_law mr q lengths h
  exact ⟨es, h1, h2.row_mean (q := fun b => Gibbs.prob (labScore (row q b) : LabelledTrees mr (len q lengths b) q.d3 → ℝ))
    (fun b => by have := trees_nonempty h b b.2; exact Gibbs.sum_prob _)
    batchEvent_injective hn ⟨b, hb⟩ (fun e => f (rowOf b e)) (fun t => f (event t)) fun Y => congrArg f (labRowOf_batchEvent Y ⟨b, hb⟩)⟩

theorem labScore_nudge {q : Arcs ℝ} (hq : q.labeled) (b i j l : ℕ) (x : ℝ) {mr : Bool} {n L : ℕ} (t : LabelledTrees mr n L) :
    labScore (row (Gradient.nudgeArc q b i j l x) b) t = labScore (row q b) t + x * event t i j l := by
  have e1 := congrFun (realScore_eq negBig (Gradient.nudgeArc q b i j l x) b (mr := mr) (n := n) (L := L) hq) t
  have e2 := congrFun (realScore_eq negBig q b (mr := mr) (n := n) (L := L) hq) t
  rw [← e1, ← e2, realScore, realScore]
  have e : ∀ y ∈ DepTreeProofs.labParts true b t, DepTreeProofs.atQ negBig (Gradient.nudgeArc q b i j l x) y = DepTreeProofs.atQ negBig q y +
      x * if y = [b, i, j, l] then 1 else 0 := by
    intro y hy
    obtain ⟨i', j', l', rfl, -⟩ := (DepTreeProofs.mem_labParts _ _ _).1 hy
    simp [DepTreeProofs.atQ, Gradient.nudgeArc]
  rw [Multiset.map_congr rfl e, Multiset.sum_map_add, Multiset.sum_map_mul_left, sum_ind, count_parts, event]
  push_cast
  rfl

/-- The reward of one row that a labelled tree drawn from the distribution earns on average. -/
def labReward (mr : Bool) (q : Arcs ℝ) (lengths : Option (List ℕ)) (R : Row → ℝ) (b : ℕ) : ℝ :=
  ∑ t : LabelledTrees mr (len q lengths b) q.d3, Gibbs.prob (labScore (row q b)) t * R (event t)

/-- **C99 for `DependencyCRF` with labels**, in both root modes. -/
theorem labelled_reinforce (mr : Bool) (q : Arcs ℝ) (lengths : Option (List ℕ)) (h : LabelledDependency.Valid mr q lengths) (R : Row → ℝ) (c : ℝ) {n : ℕ} (hn : 0 < n)
    (b : ℕ) (hb : b < q.d0) (i j l : ℕ) (hi : i < q.d1) (hj : j < q.d1) (hl : l < q.d3) :
    ∃ es, (convert negBig q).bind (fun p => Sampling.record (algo mr) (-100000) p lengths) = .ok es ∧ ∃ (g : Row → ℝ) (D : ℝ),
      (∀ v, HasNumDeriv (fun x => DepTree.logProb mr (Gradient.nudgeArc q b i j l x) lengths b v) (g v)) ∧
      SampleMean es n (fun smp => meanOf (smp.map fun e => (R (rowOf b e) - c) * g (rowOf b e))) D ∧
      HasDerivAt (fun x => labReward mr (Gradient.nudgeArc q b i j l x) lengths R b) D 0 := by
  have hne := trees_nonempty h b hb
  obtain ⟨μ, h1, h2⟩ := LogProbGradient.labelled_logProb_grad mr q lengths h
  obtain ⟨μ', h3, h4⟩ := marginals_spec mr q lengths h
  rw [h1] at h3
  cases h3
  obtain ⟨es, h5, h6⟩ := lab_mean mr q lengths h hn b hb fun v => (R v - c) * (v i j l - μ [b, i, j, l])
  refine ⟨es, h5, fun v => v i j l - μ [b, i, j, l], _, fun v => h2 b hb v i hi j hj l (by rw [DepTreeProofs.labels_four h.rank]; exact hl), h6, ?_⟩
  have e : ∀ x, labReward mr (Gradient.nudgeArc q b i j l x) lengths R b =
      Gibbs.expect (fun t : LabelledTrees mr (len q lengths b) q.d3 => labScore (row q b) t + x * event t i j l) fun t => R (event t) := by
    intro x
    show ∑ t : LabelledTrees mr (len q lengths b) q.d3, Gibbs.prob (labScore (row (Gradient.nudgeArc q b i j l x) b)) t * _ = _
    rw [show (labScore (row (Gradient.nudgeArc q b i j l x) b) : LabelledTrees mr (len q lengths b) q.d3 → ℝ) = fun t => labScore (row q b) t + x * event t i j l from
      funext fun t => labScore_nudge h.rank b i j l x t]
    rfl
  simp only [e]
  have := Gibbs.hasDerivAt_expect (ι := LabelledTrees mr (len q lengths b) q.d3) (labScore (row q b)) (fun t => event t i j l) (fun t => R (event t))
  refine (iff_of_eq (congrArg (fun d => HasDerivAt _ d _) ?_)).mp this
  rw [← Gibbs.sum_prob_baseline _ _ _ c, h4 b hb i j l, arcProb]
  refine sum_congr rfl fun t _ => ?_
  congr 3
  refine sum_congr rfl fun t _ => ?_
  simp only [event, mul_ite, mul_one, mul_zero]

/-- **C99 for `DependencyCRF` with labels.** Averaging `- log_prob` over the samples is an unbiased estimate of `entropy`. -/
theorem labelled_entropy_mean (mr : Bool) (q : Arcs ℝ) (lengths : Option (List ℕ)) (h : LabelledDependency.Valid mr q lengths) {n : ℕ} (hn : 0 < n) (b : ℕ) (hb : b < q.d0) :
    ∃ es H, (convert negBig q).bind (fun p => Sampling.record (algo mr) (-100000) p lengths) = .ok es ∧ DepTree.entropy mr q lengths = .ok H ∧ ∃ lp : (List ℕ → ℕ) → ℝ,
      (∀ e, DepTree.logProb mr q lengths b (rowOf b e) = .ok (lp e)) ∧ SampleMean es n (fun smp => - meanOf (smp.map lp)) (H.getD b 0) := by
  have hne := trees_nonempty h b hb
  have hlp : ∀ v : Row, ∃ y, DepTree.logProb mr q lengths b v = .ok y := by
    intro v
    unfold DepTree.logProb
    rw [partition_spec mr q lengths h]
    exact ⟨_, rfl⟩
  choose f hf using hlp
  obtain ⟨es, h1, h2⟩ := lab_mean mr q lengths h hn b hb fun v => - f v
  refine ⟨es, _, h1, entropy_spec mr q lengths h, fun e => f (rowOf b e), fun e => hf _, ?_⟩
  rw [funext fun smp => meanOf_neg smp fun e => f (rowOf b e)] at h2
  refine (iff_of_eq (congrArg (SampleMean es n _) ?_)).mp h2
  rw [List.getD_eq_getElem _ _ (by simpa using hb), List.getElem_map, List.getElem_range, Gibbs.entropy, ← sum_neg_distrib]
  refine sum_congr rfl fun t _ => ?_
  have := (hf (event t)).symm.trans (logProb_spec mr q lengths h b hb t)
  rw [Except.ok.inj this, mul_neg]

end Labelled

/-! ### The reward of the example -/

theorem block_getD {α : Type} (f : ℕ → ℕ → α) (d : α) (B : ℕ) : ∀ (K k b : ℕ), k < K → b < B →
    ((List.range K).flatMap fun k => (List.range B).map fun b => f k b).getD (k * B + b) d = f k b := by
  intro K
  induction K with
  | zero => intro k b hk; omega
  | succ K ih =>
    intro k b hk hb
    have hlen : ((List.range K).flatMap fun k => (List.range B).map fun b => f k b).length = K * B := by
      simp [List.length_flatMap]
    rw [List.range_succ, List.flatMap_append]
    by_cases hc : k < K
    · rw [List.getD_append _ _ _ _ (by rw [hlen]; calc k * B + b < k * B + B := by omega
        _ = (k + 1) * B := by ring
        _ ≤ K * B := Nat.mul_le_mul_right _ hc)]
      exact ih k b hc hb
    · obtain rfl : k = K := by omega
      rw [List.getD_append_right _ _ _ _ (by rw [hlen]; omega), hlen, Nat.add_sub_cancel_left]
      simp [List.getElem?_range hb]

/-- The row that the tree network is given for row `b`: the spans above the words in channel 0 (nothing on the diagonal), and on the diagonal the words, word `v` in
channel `v + 1`. -/
def expanded (N : ℕ) (w : List ℕ) (s : Row) : Row := fun i j c =>
  if ¬ (i < N ∧ j < N) then 0
  else if c = 0 then if i = j then 0 else s i j 0
  else if i = j ∧ w.getD i 0 + 1 = c then 1 else 0

/-- **C99.** The reward of the example scores rows separately, if the tree network does on the rows of some kind `Q`: the score of sample `k` of row `b` is computed from that sample with the words,
length and label of row `b`. -/
theorem treeReward_rowwise (N : ℕ) (words : List (List ℕ)) (hne : words ≠ []) (lengths label : List ℕ) (hl : lengths.length = words.length) (V : ℕ) (hw : ∀ w ∈ words, ∀ v ∈ w, v < V)
    (Q : Row → Prop)
    (net : Row → ℕ → ℕ → ℝ) (lstm : List Row → List ℕ → Except PyErr (List (ℕ → ℝ)))
    (C : ℕ) (hC : ∀ b < words.length, label.getD b 0 < C)
    (hlstm : ∀ rows lens, rows.length = lens.length → lens ≠ [] → (∀ s ∈ rows, Q s) → ∃ outs, lstm rows lens = .ok outs ∧ outs.length = rows.length ∧
      ∀ n (h1 : n < outs.length) (h2 : n < rows.length) (h3 : n < lens.length), ∀ k < C, outs[n] k = net rows[n] lens[n] k) :
    Rowwise (fun b s => Q (expanded N (words.getD b []) s)) words.length (treeReward 1 N words lengths label V lstm)
      fun b s => - net (expanded N (words.getD b []) s) (lengths.getD b 0) (label.getD b 0) := by
  intro K rows hK hr hQ
  unfold treeReward expandSpans
  rw [if_neg (by omega), if_neg (by simpa using hw)]
  have hlens : ((List.range K).flatMap fun _ => lengths) = (List.range K).flatMap fun _ => (List.range words.length).map fun b => lengths.getD b 0 := by
    congr 1
    funext _
    refine List.ext_getElem (by simp [hl]) fun k h1 h2 => ?_
    simp [List.getElem?_eq_getElem h1]
  show (do let ret ← lstm _ _; _) = _
  obtain ⟨outs, ho1, ho2, ho3⟩ := hlstm ((List.range K).flatMap fun k => (List.range words.length).map fun b i j c =>
      if ¬ (i < N ∧ j < N) then (0 : ℝ) else if c = 0 then if i = j then 0 else rows.getD (k * words.length + b) 0 i j 0
      else if i = j ∧ (words.getD b []).getD i 0 + 1 = c then 1 else 0) ((List.range K).flatMap fun _ => (List.range words.length).map fun b => lengths.getD b 0)
    (by simp [List.length_flatMap]) (fun hc => by
      have := congrArg List.length hc
      simp only [List.length_flatMap, List.length_map, List.length_range, List.map_const', List.sum_replicate, smul_eq_mul, List.length_nil, Nat.mul_eq_zero] at this
      rcases this with h | h
      · omega
      · exact hne (List.length_eq_zero_iff.1 h)) (fun s hs => by
      obtain ⟨k, hk, hs⟩ := List.mem_flatMap.1 hs
      obtain ⟨b, hb, rfl⟩ := List.mem_map.1 hs
      exact hQ k (List.mem_range.1 hk) b (List.mem_range.1 hb))
  have ho2' : outs.length = K * words.length := by rw [ho2]; simp [List.length_flatMap]
  rw [hlens, ho1]
  show (if _ then _ else _) = _
  rw [if_neg (not_not.2 ho2')]
  congr 1
  refine List.map_congr_left fun k hk => List.map_congr_left fun b hb => ?_
  have hk := List.mem_range.1 hk
  have hb := List.mem_range.1 hb
  have e1 := block_getD (fun k b i j c => if ¬ (i < N ∧ j < N) then (0 : ℝ) else if c = 0 then if i = j then 0 else rows.getD (k * words.length + b) 0 i j 0
    else if i = j ∧ (words.getD b []).getD i 0 + 1 = c then 1 else 0) 0 words.length K k b hk hb
  have e2 := block_getD (fun _ b => lengths.getD b 0) 0 words.length K k b hk hb
  have hlt : k * words.length + b < K * words.length := calc
    k * words.length + b < k * words.length + words.length := by omega
    _ = (k + 1) * words.length := by ring
    _ ≤ K * words.length := Nat.mul_le_mul_right _ hk
  have hlt1 : k * words.length + b < outs.length := by rw [ho2']; exact hlt
  rw [List.getD_eq_getElem _ _ hlt1, ho3 _ hlt1 (by simpa [List.length_flatMap] using hlt) (by simpa [List.length_flatMap] using hlt) _ (hC b hb)]
  rw [List.getD_eq_getElem _ _ (by simpa [List.length_flatMap] using hlt)] at e1 e2
  rw [e1, e2]
  rfl

/-- The hypotheses are met by two rows of lengths 3 and 2, a reward that counts the spans of the first word, and four samples. -/
example : ∃ es, Sampling.record CKYCRF.algo (-100000) TreeCRF.sample (some [3, 2]) = .ok es ∧ ∃ (g : List (List ℕ → ℕ) → ℝ) (D : ℝ),
    SampleMean es 4 g D ∧ HasDerivAt (fun x => expectedReward (Gradient.nudge4 TreeCRF.sample 1 0 1 1 x) (some [3, 2])
      fun _ s => s 0 1 0 + s 0 2 0 + s 0 1 1 + s 0 2 1) D 0 := by
  obtain ⟨es, h1, g, D, -, h2, h3⟩ := reinforce TreeCRF.sample (some [3, 2]) TreeCRF.sample_valid
    (fn := fun rows K => .ok ((List.range K).map fun k => (List.range 2).map fun b =>
      (fun s : Row => s 0 1 0 + s 0 2 0 + s 0 1 1 + s 0 2 1) (rows.getD (k * 2 + b) 0))) (R := fun _ s => s 0 1 0 + s 0 2 0 + s 0 1 1 + s 0 2 1)
    (P := fun _ _ => True) (fun _ _ _ _ _ => rfl) (fun _ => 0) (fun _ _ => trivial) (n := 4) (by decide) 1 (by decide) 0 1 (by decide) (by decide) ⟨1, by decide⟩
  exact ⟨es, h1, g, D, h2, h3⟩

/-- A tree network that scores rows separately, two rows of two words. -/
example : Rowwise (fun _ _ => True) 2 (treeReward 1 2 [[0, 1], [1, 1]] [2, 2] [0, 1] 2
    fun rows lens => .ok (List.zipWith (fun (s : Row) (l c : ℕ) => s 0 1 0 + l + c) rows lens)) fun b s =>
      - (expanded 2 ([[0, 1], [1, 1]].getD b []) s 0 1 0 + ([2, 2].getD b 0 : ℕ) + ([0, 1].getD b 0 : ℕ)) :=
  treeReward_rowwise 2 [[0, 1], [1, 1]] (by decide) [2, 2] [0, 1] rfl 2 (by decide) (fun _ => True) (fun (s : Row) (l c : ℕ) => s 0 1 0 + l + c) _ 2 (by decide)
    fun rows lens h _ _ => ⟨_, rfl, by simp [h], fun n h1 h2 h3 k _ => by rw [List.getElem_zipWith]⟩

end Props.SelfCritical
