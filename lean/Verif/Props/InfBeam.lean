import Verif.Proofs.InfBeam
import Verif.Props.BeamSearch

/-! Property theorems about `Autoregressive` with classes forbidden by logits `-inf`: C131. -/

open Spec

noncomputable section
namespace Props.InfBeam
open _root_.InfBeam Semirings
open _root_.Autoregressive (Tok Classes paths quiet)
open _root_.BeamSearch (hist hist_length paths_hist)
open Props.Autoregressive (rowOf)

variable {St : Type}

/-- **C131, `log_prob`.**  For every sequence: if at some position all classes are forbidden and `normalize` is on, the result is NaN; otherwise it is `-inf` if
a class of the sequence is forbidden, and else the chain-rule score with the softmax over the allowed classes. -/
theorem log_prob (D : ARE St) {step : ARStepE St} (hD : IsCausalE D step) (v : Classes) (h1 : 1 ≤ v.sample) (hb : v.batch = D.init.length)
    (hv : ∀ s < v.sample, ∀ b < v.batch, ∀ t < v.len, v.get s b t < D.nClasses) (d : St) :
    ∃ score : ℕ → ℕ → IEEE, D.logProbSparse v = .ok ((List.range v.sample).map fun s => (List.range v.batch).map fun b => score s b) ∧
      ∀ s < v.sample, ∀ b < v.batch, ∀ y, y = (List.range v.len).map (fun t => v.get s b t) →
        (D.normalize = true → PassesStuck step (D.init.getD b d) (.hard D.startClass) y → score s b = .nan) ∧
        (¬ (D.normalize = true ∧ PassesStuck step (D.init.getD b d) (.hard D.startClass) y) → ¬ Permitted step (D.init.getD b d) (.hard D.startClass) y →
          score s b = some ⊥) ∧
        (Permitted step (D.init.getD b d) (.hard D.startClass) y → score s b = .ofReal (allowedScore D.normalize step (D.init.getD b d) (.hard D.startClass) y)) := by
  refine ⟨_, logProb_rows D hD v h1 hb hv d, fun s hs b hb' y hy => ?_⟩
  subst hy
  have h := row_spec D hD (rowOf v s b) (D.init.getD b d) D.startClass fun c hc => by
    obtain ⟨t, ht, rfl⟩ := List.mem_map.1 hc
    exact hv s hs b hb' t (List.mem_range.1 ht)
  exact ⟨h.nan, h.bot, h.real⟩

/-- **C131, `greedy_max`.**  If the network always leaves a class, the path consists of allowed classes, each with the largest logit at its turn, and the value is
the score of the path. -/
theorem greedy (D : ARE St) {step : ARStepE St} (hD : IsCausalE D step) (hl : NeverStuck step) (hN : 1 ≤ D.nLength) {pick : List IEEE → ℕ} (hp : IsArgmaxIdxE pick)
    (d : St) :
    ∃ path value, D.greedyMax pick = .ok (path, value) ∧ ∀ b < D.init.length, ∃ y, IsSeq D.nClasses D.nLength y ∧
      Permitted step (D.init.getD b d) (.hard D.startClass) y ∧ IsGreedyE D.nClasses step (D.init.getD b d) (.hard D.startClass) y ∧
      (∀ t < D.nLength, ∀ c < D.nClasses, path b t c = if y.getD t 0 = c then 1 else 0) ∧
      value b = .ofReal (allowedScore D.normalize step (D.init.getD b d) (.hard D.startClass) y) := by
  obtain ⟨s, hs, hlen, hinv⟩ := searchE_inv hD hl (quiet := True) (max_sumSpecE hp (classes_pos hD hl d)) hN d quiet (fun _ _ => rfl)
  refine ⟨_, _, by rw [ARE.greedyMax, hs]; rfl, fun b hb => ⟨(hist s.rounds 0 b).2, ⟨by rw [hist_length, hlen], (hinv.row b hb).classes 0 Nat.zero_lt_one⟩,
    (hinv.row b hb).permitted 0 Nat.zero_lt_one, (hinv.row b hb).greedy trivial rfl, fun t ht c _ => ?_, ?_⟩⟩
  · exact paths_hist s.rounds (hinv.row b hb).ok Nat.zero_lt_one (by rw [hlen]; exact ht) c
  · rw [(hinv.row b hb).score trivial 0 Nat.zero_lt_one]; simp [maxSRE]

/-- **C131, `beam_topk`.**  If the network always leaves a class, every path consists of allowed classes; its value is its score, plus `-1e5` if it descends from
one of the initial slots `1, ..., K - 1`; the values do not increase; two slots with the same path descend from different initial slots. -/
theorem beam (D : ARE St) {step : ARStepE St} (hD : IsCausalE D step) (hl : NeverStuck step) (hN : 1 ≤ D.nLength) {K : ℕ} (hK : 1 ≤ K) {sel : List IEEE → List ℕ}
    (hs : IsTopkIdxE K sel) (d : St) :
    ∃ path value, D.beamTopk K sel = .ok (path, value) ∧ ∃ (origin : ℕ → ℕ → ℕ) (y : ℕ → ℕ → List ℕ) (r : ℕ → ℕ → ℝ), ∀ b < D.init.length,
      (∀ k < K, IsSeq D.nClasses D.nLength (y k b) ∧ origin k b < K ∧ Permitted step (D.init.getD b d) (.hard D.startClass) (y k b) ∧
        (∀ t < D.nLength, ∀ c < D.nClasses, path k b t c = if (y k b).getD t 0 = c then 1 else 0) ∧ value k b = .ofReal (r k b) ∧
        r k b = (if origin k b = 0 then 0 else -100000) + allowedScore D.normalize step (D.init.getD b d) (.hard D.startClass) (y k b)) ∧
      (∀ k k', k ≤ k' → k' < K → r k' b ≤ r k b) ∧
      (∀ k < K, ∀ k' < K, y k b = y k' b → origin k b = origin k' b → k = k') := by
  obtain ⟨s, hsr, hlen, hinv⟩ := searchE_inv hD hl (quiet := True) (kmax_sumSpecE hK hs (classes_pos hD hl d)) hN d quiet (fun _ _ => rfl)
  refine ⟨_, _, by rw [ARE.beamTopk, hsr]; rfl, fun k b => (hist s.rounds k b).1, fun k b => (hist s.rounds k b).2,
    fun k b => (if (hist s.rounds k b).1 = 0 then 0 else -100000) + allowedScore D.normalize step (D.init.getD b d) (.hard D.startClass) (hist s.rounds k b).2,
    fun b hb => ⟨fun k hk => ⟨⟨by rw [hist_length, hlen], (hinv.row b hb).classes k hk⟩, (hinv.row b hb).origin k hk, (hinv.row b hb).permitted k hk,
      fun t ht c _ => paths_hist s.rounds (hinv.row b hb).ok hk (by rw [hlen]; exact ht) c, (hinv.row b hb).score trivial k hk, rfl⟩,
      fun k k' h1 h2 => ?_, fun k hk k' hk' h1 h2 => (hinv.row b hb).inj k hk k' hk' (Prod.ext h2 h1)⟩⟩
  exact (hinv.row b hb).sorted (by omega) k k' h1 h2 _ _ ((hinv.row b hb).score trivial k (show k < K by omega)) ((hinv.row b hb).score trivial k' h2)

theorem guard_of_close {nm : Bool} {step : ARStepE St} {C : ℕ} {s : St} {x : Tok} {n : ℕ} (h : CloseScores nm step C s x n) : GuardE nm step C s x n :=
  fun t ht y y' hy hy' => by have := h t ht y y' hy.1 hy.2 hy'.1 hy'.2; rw [negInf]; linarith

/-- **C133.**  If the sequences of allowed classes of length `N - 1` are at most `K`, and equally long ones never differ by `1e5` or more in score, then the first path of
`beam_topk(K)` is a sequence of allowed classes with the largest score among all of them; and if there are at least `K` such sequences of length `N`, the `K` paths are different, have
their scores as values, and every other sequence of allowed classes scores at most as much as each of them. -/
theorem beam_exact (D : ARE St) {step : ARStepE St} (hD : IsCausalE D step) (hl : NeverStuck step) (hN : 1 ≤ D.nLength) {K : ℕ} (hK : 1 ≤ K) {sel : List IEEE → List ℕ}
    (hs : IsTopkIdxE K sel) (d : St) (hclose : ∀ b < D.init.length, CloseScores D.normalize step D.nClasses (D.init.getD b d) (.hard D.startClass) D.nLength)
    (hwide : ∀ b < D.init.length, {y | IsSeq D.nClasses (D.nLength - 1) y ∧ Permitted step (D.init.getD b d) (.hard D.startClass) y}.ncard ≤ K) :
    ∃ path value, D.beamTopk K sel = .ok (path, value) ∧ ∃ y : ℕ → ℕ → List ℕ, ∀ b < D.init.length,
      (∀ k < K, IsSeq D.nClasses D.nLength (y k b) ∧ Permitted step (D.init.getD b d) (.hard D.startClass) (y k b) ∧
        ∀ t < D.nLength, ∀ c < D.nClasses, path k b t c = if (y k b).getD t 0 = c then 1 else 0) ∧
      value 0 b = .ofReal (allowedScore D.normalize step (D.init.getD b d) (.hard D.startClass) (y 0 b)) ∧
      (∀ y', IsSeq D.nClasses D.nLength y' → Permitted step (D.init.getD b d) (.hard D.startClass) y' →
        allowedScore D.normalize step (D.init.getD b d) (.hard D.startClass) y' ≤ allowedScore D.normalize step (D.init.getD b d) (.hard D.startClass) (y 0 b)) ∧
      (K ≤ {y | IsSeq D.nClasses D.nLength y ∧ Permitted step (D.init.getD b d) (.hard D.startClass) y}.ncard →
        (∀ k < K, value k b = .ofReal (allowedScore D.normalize step (D.init.getD b d) (.hard D.startClass) (y k b))) ∧
        (∀ k < K, ∀ k' < K, y k b = y k' b → k = k') ∧
        ∀ y', IsSeq D.nClasses D.nLength y' → Permitted step (D.init.getD b d) (.hard D.startClass) y' → (∃ k < K, y k b = y') ∨
          ∀ k < K, allowedScore D.normalize step (D.init.getD b d) (.hard D.startClass) y' ≤ allowedScore D.normalize step (D.init.getD b d) (.hard D.startClass) (y k b)) := by
  have hS := kmax_sumSpecE hK hs (classes_pos hD hl d)
  obtain ⟨s, hsr, hlen, hinv⟩ := searchE_inv hD hl (quiet := True) hS hN d quiet (fun _ _ => rfl)
  refine ⟨_, _, by rw [ARE.beamTopk, hsr]; rfl, fun k b => (hist s.rounds k b).2, fun b hb => ?_⟩
  have hrow := hinv.row b hb
  have hg := guard_of_close (hclose b hb)
  have hc : ∀ k < K, Cand D.nClasses step (D.init.getD b d) (.hard D.startClass) D.nLength (hist s.rounds k b).2 := fun k hk =>
    ⟨⟨by rw [hist_length, hlen], hrow.classes k hk⟩, hrow.permitted k hk⟩
  have hex := hrow.exact trivial (by rw [hlen]; exact hg) (by omega) (by rw [hlen]; exact hwide b hb)
  rw [hlen] at hex
  have hsc : ∀ k < K, s.beam k b = .ofReal ((kmaxSRE K sel).one (hist s.rounds k b).1 +
      allowedScore D.normalize step (D.init.getD b d) (.hard D.startClass) (hist s.rounds k b).2) := fun k hk => hrow.score trivial k hk
  have hsc0 : ∀ k < K, (hist s.rounds k b).1 = 0 → s.beam k b = .ofReal (allowedScore D.normalize step (D.init.getD b d) (.hard D.startClass) (hist s.rounds k b).2) :=
    fun k hk h0 => by rw [hsc k hk, h0, hS.one_zero, zero_add]
  have h0 : (hist s.rounds 0 b).1 = 0 := by
    by_contra hne
    have h1 := hsc 0 hK
    rw [hS.one_pos _ hne (hrow.origin 0 hK)] at h1
    have hgd := hg D.nLength le_rfl _ _ (hc 0 hK) (hc 0 hK)
    rcases hex _ (hc 0 hK) with ⟨k, hk, he⟩ | hall
    · have h2 := hsc0 k hk (by rw [he])
      rw [he] at h2
      have := hrow.sorted (by omega) 0 k (by omega) hk _ _ h1 h2
      linarith
    · have := hall 0 hK _ h1
      linarith
  refine ⟨fun k hk => ⟨(hc k hk).1, (hc k hk).2, fun t ht c _ => paths_hist s.rounds hrow.ok hk (by rw [hlen]; exact ht) c⟩, hsc0 0 hK h0, fun y' hy' hp' => ?_, fun hle => ?_⟩
  · rcases hex y' ⟨hy', hp'⟩ with ⟨k, hk, he⟩ | hall
    · have h2 := hsc0 k hk (by rw [he])
      rw [he] at h2
      exact hrow.sorted (by omega) 0 k (by omega) hk _ _ (hsc0 0 hK h0) h2
    · exact hall 0 hK _ (hsc0 0 hK h0)
  · have horig : ∀ k < K, (hist s.rounds k b).1 = 0 := by
      rcases hrow.complete trivial (by rw [hlen]; exact hg) with h | h
      · exact h
      · by_contra hcon
        push Not at hcon
        obtain ⟨k0, hk0, hko⟩ := hcon
        rw [hlen] at h
        -- every sequence has a slot other than `k0`
        have hsub : {y | Cand D.nClasses step (D.init.getD b d) (.hard D.startClass) D.nLength y} ⊆ (fun k => (hist s.rounds k b).2) '' ((Finset.range K).erase k0 : Set ℕ) := by
          intro y hy
          obtain ⟨k, hk, he⟩ := h y hy
          refine ⟨k, ?_, by simp only [he]⟩
          rw [Finset.coe_erase, Set.mem_diff, Finset.mem_coe, Finset.mem_range]
          exact ⟨hk, fun hkk => hko (by rw [← (show k = k0 from hkk), he])⟩
        have h1 := (Set.ncard_le_ncard hsub (Set.toFinite _)).trans (Set.ncard_image_le (Finset.finite_toSet _))
        rw [Set.ncard_coe_finset, Finset.card_erase_of_mem (Finset.mem_range.2 hk0), Finset.card_range] at h1
        have h2 : K ≤ {y | Cand D.nClasses step (D.init.getD b d) (.hard D.startClass) D.nLength y}.ncard := hle
        omega
    refine ⟨fun k hk => hsc0 k hk (horig k hk), fun k hk k' hk' he => hrow.inj k hk k' hk' (Prod.ext ((horig k hk).trans (horig k' hk').symm) he), fun y' hy' hp' => ?_⟩
    rcases hex y' ⟨hy', hp'⟩ with ⟨k, hk, he⟩ | hall
    · exact Or.inl ⟨k, hk, congrArg Prod.snd he⟩
    · exact Or.inr fun k hk => hall k hk _ (hsc0 k hk (horig k hk))

/-- **C131, `sample_without_replacement`.**  Whatever the noise, every sample consists of allowed classes, if the network always leaves one. -/
theorem sample_without_replacement (D : ARE St) {step : ARStepE St} (hD : IsCausalE D step) (hl : NeverStuck step) (hN : 1 ≤ D.nLength) {K : ℕ} (hK : 1 ≤ K)
    {sel : List IEEE → List ℕ} (hs : IsTopkIdxE K sel) (gumbel : ℕ → ℕ → ℕ → ℕ → ℝ) (d : St) :
    ∃ path, D.sampleWithoutReplacement K sel gumbel = .ok path ∧ ∀ b < D.init.length, ∀ k < K, ∃ y, IsSeq D.nClasses D.nLength y ∧
      Permitted step (D.init.getD b d) (.hard D.startClass) y ∧ ∀ t < D.nLength, ∀ c < D.nClasses, path k b t c = if y.getD t 0 = c then 1 else 0 := by
  obtain ⟨s, hsr, hlen, hinv⟩ := searchE_inv hD hl (quiet := False) (kmax_sumSpecE hK hs (classes_pos hD hl d)) hN d (fun t => some (gumbel t)) (fun h => h.elim)
  exact ⟨_, by rw [ARE.sampleWithoutReplacement, hsr]; rfl, fun b hb k hk => ⟨(hist s.rounds k b).2, ⟨by rw [hist_length, hlen], (hinv.row b hb).classes k hk⟩,
    (hinv.row b hb).permitted k hk, fun t ht c _ => paths_hist s.rounds (hinv.row b hb).ok hk (by rw [hlen]; exact ht) c⟩⟩

/-! ### A network that leaves no class -/

/-- **C131, no class left.**  If all classes are forbidden at the first step of batch row `b` and `normalize` is on, a value that `greedy_max` returns for the row is NaN,
whatever `torch.max` does with NaN. -/
theorem greedy_stuck (D : ARE St) {step : ARStepE St} (hD : IsCausalE D step) (hn : D.normalize = true) (pick : List IEEE → ℕ) (d : St) {b : ℕ} (hb : b < D.init.length)
    (hst : Stuck (step (D.init.getD b d) (.hard D.startClass)).1) {path : ℕ → ℕ → ℕ → ℕ} {value : ℕ → IEEE} (h : D.greedyMax pick = .ok (path, value)) :
    value b = .nan := by
  have hround : ∀ (s s' : LoopE St), D.round (maxSRE pick) none s = .ok s' → ∃ c, s'.beam 0 b =
      IEEE.add (s.beam 0 b) ((D.roundLogits none (D.model (s.tokens.map fun x => [x]) s.state).1 0 b).getD c .nan) := by
    intro s s' hr
    rw [ARE.round] at hr
    dsimp only at hr
    split at hr
    · cases hr
    split at hr
    · cases hr
    simp only [bind, Except.bind] at hr
    split at hr
    · cases hr
    rename_i r he
    split at hr
    · cases hr
    cases hr
    simp only [maxSRE] at he
    split at he
    · cases he
    cases he
    exact ⟨_, rfl⟩
  have hloop : ∀ n, ∀ s, (List.range (n + 1)).foldlM (fun s t => D.round (maxSRE pick) (quiet t) s)
      (⟨fun k _ => .ofReal ((maxSRE pick).one k), List.replicate ((maxSRE pick).size * D.init.length) (.hard D.startClass), D.expand (maxSRE pick).size, []⟩ : LoopE St) = .ok s →
      s.beam 0 b = .nan := by
    intro n
    induction n with
    | zero =>
      intro s hs
      simp only [List.range_succ, List.range_zero, List.nil_append, List.foldlM_cons, List.foldlM_nil, bind, Except.bind] at hs
      split at hs
      · cases hs
      · rename_i s' he
        cases hs
        obtain ⟨c, hc⟩ := hround _ _ he
        rw [hc]
        have hmodel : ((D.model ((List.replicate ((maxSRE pick).size * D.init.length) (Tok.hard D.startClass)).map fun x => [x]) (D.expand (maxSRE pick).size)).1.getD
            (0 * D.init.length + b) []).getD 0 [] = (step (D.init.getD b d) (.hard D.startClass)).1 := by
          rw [hD.run _ _ (by simp [ARE.expand, maxSRE])]
          simp [ARE.expand, maxSRE, runStepE, List.getD_eq_getElem?_getD, List.getElem?_zipWith, hb]
        unfold ARE.roundLogits
        simp only [hmodel]
        rw [norm_stuck D hn hst]
        rfl
    | succ n ih =>
      intro s hs
      rw [List.range_succ, List.foldlM_append] at hs
      simp only [bind, Except.bind] at hs
      split at hs
      · cases hs
      · rename_i s' he
        simp only [List.foldlM_cons, List.foldlM_nil, bind, Except.bind] at hs
        split at hs
        · cases hs
        · rename_i s'' he'
          cases hs
          obtain ⟨c, hc⟩ := hround _ _ he'
          rw [hc, ih s' he]
          rfl
  unfold ARE.greedyMax ARE.search at h
  split_ifs at h with h0
  · cases h
  · obtain ⟨n, hn'⟩ : ∃ n, D.nLength = n + 1 := ⟨D.nLength - 1, by omega⟩
    rw [hn'] at h
    rcases he : (List.range (n + 1)).foldlM (fun s t => D.round (maxSRE pick) (quiet t) s)
      (⟨fun k _ => .ofReal ((maxSRE pick).one k), List.replicate ((maxSRE pick).size * D.init.length) (.hard D.startClass), D.expand (maxSRE pick).size, []⟩ : LoopE St) with e | s
    · rw [he] at h; cases h
    · rw [he] at h
      cases h
      exact hloop n s he

/-! ### An instance -/

/-- A network that never allows the class it has just been given. -/
def noRepeat (C : ℕ) : ARStepE Unit := fun _ x => ((List.range C).map fun c => match x with
  | .hard c' => if c = c' then ⊥ else 0
  | .soft _ => 0, ())

/-- Sequences of `n` out of `C` classes without a repetition. -/
def noRepeatAR (C n : ℕ) (normalize : Bool) : ARE Unit :=
  ⟨fun rows states => (List.zipWith (fun row s => (runStepE (noRepeat C) s row).1) rows states, List.zipWith (fun row s => (runStepE (noRepeat C) s row).2) rows states),
    [(), ()], C, n, normalize, 0⟩

theorem noRepeat_causal (C n : ℕ) (nm : Bool) : IsCausalE (noRepeatAR C n nm) (noRepeat C) := by
  refine ⟨fun _ _ _ => rfl, fun _ _ => by simp [noRepeat, noRepeatAR], fun s x e he => ?_⟩
  obtain ⟨c, _, rfl⟩ := List.mem_map.1 he
  cases x
  · dsimp only
    split_ifs <;> simp
  · simp

theorem noRepeat_leaves {C : ℕ} (hC : 2 ≤ C) : NeverStuck (noRepeat C) := by
  intro s x h
  cases x with
  | hard c' =>
    have := h 0 (List.mem_map.2 ⟨if c' = 0 then 1 else 0, List.mem_range.2 (by split_ifs <;> omega), by
      dsimp only; rw [if_neg]; split_ifs <;> omega⟩)
    simp at this
  | soft w =>
    have := h 0 (List.mem_map.2 ⟨0, List.mem_range.2 (by omega), rfl⟩)
    simp at this

theorem noRepeat_getD {C : ℕ} (u : Unit) {x y : ℕ} (hy : y < C) : (noRepeat C u (.hard x)).1.getD y 0 = if y = x then ⊥ else 0 := by
  rw [noRepeat, List.getD_eq_getElem _ _ (by simpa using hy), List.getElem_map, List.getElem_range]

/-- What `Permitted` says here: no class equals its predecessor. -/
theorem noRepeat_permitted {C : ℕ} : ∀ (y : List ℕ) (u : Unit) (x : ℕ), (∀ c ∈ y, c < C) → (Permitted (noRepeat C) u (.hard x) y ↔ (x :: y).IsChain (· ≠ ·))
  | [], _, _, _ => by simp [Permitted]
  | c :: y, u, x, h => by
    rw [Permitted, noRepeat_permitted y _ c fun d hd => h d (List.mem_cons_of_mem _ hd), noRepeat_getD u (h c List.mem_cons_self), List.isChain_cons_cons]
    refine and_congr_left fun _ => ?_
    by_cases e : c = x
    · simp [e]
    · simp [e, Ne.symm e]

open Classical in
/-- `torch.topk` by a stable sort (NaN counts as 0). -/
def sortSelE (k : ℕ) (xs : List IEEE) : List ℕ :=
  ((List.range xs.length).mergeSort fun i j => decide ((xs.getD j (some 0)).getD 0 ≤ (xs.getD i (some 0)).getD 0)).take k

theorem sortSelE_topk (k : ℕ) : IsTopkIdxE k (sortSelE k) := by
  have hget : ∀ (xs : List EReal) (i : ℕ), Option.getD ((xs.map (some : EReal → IEEE)).getD i (some 0)) 0 = xs.getD i 0 := by
    intro xs i
    by_cases hi : i < xs.length
    · rw [List.getD_eq_getElem _ _ (by simpa using hi), List.getElem_map, List.getD_eq_getElem _ _ hi]; rfl
    · rw [List.getD_eq_default _ _ (by simpa using hi), List.getD_eq_default _ _ (by simpa using hi)]; rfl
  have hdef : ∀ xs : List EReal, sortSelE k (xs.map some) = ((List.range xs.length).mergeSort fun i j => decide (xs.getD j 0 ≤ xs.getD i 0)).take k := by
    intro xs
    rw [sortSelE]
    simp only [hget, List.length_map]
  have hperm : ∀ xs : List EReal, ((List.range xs.length).mergeSort fun i j => decide (xs.getD j 0 ≤ xs.getD i 0)).Perm (List.range xs.length) :=
    fun xs => List.mergeSort_perm _ _
  have hsort : ∀ xs : List EReal, ((List.range xs.length).mergeSort fun i j => decide (xs.getD j 0 ≤ xs.getD i 0)).Pairwise fun i j => xs.getD j 0 ≤ xs.getD i 0 := by
    intro xs
    have := List.pairwise_mergeSort (le := fun i j => decide (xs.getD j 0 ≤ xs.getD i 0)) (fun a b c h1 h2 => by
      simp only [decide_eq_true_eq] at h1 h2 ⊢; exact h2.trans h1) (fun a b => by
      simp only [Bool.or_eq_true, decide_eq_true_eq]; exact le_total _ _) (List.range xs.length)
    exact this.imp fun h => by simpa using h
  refine ⟨fun xs h => ?_, fun xs h i hi => ?_, fun xs h => ?_, fun xs h => ?_, fun xs h i hi j hj hnot => ?_⟩
  · rw [hdef, List.length_take, (hperm xs).length_eq, List.length_range]; omega
  · rw [hdef] at hi
    exact List.mem_range.1 ((hperm xs).mem_iff.1 (List.mem_of_mem_take hi))
  · rw [hdef]
    exact ((hperm xs).nodup_iff.2 List.nodup_range).sublist (List.take_sublist _ _)
  · rw [hdef]
    exact (hsort xs).sublist (List.take_sublist _ _)
  · rw [hdef] at hi hnot
    have hj' : j ∈ (List.range xs.length).mergeSort fun i j => decide (xs.getD j 0 ≤ xs.getD i 0) := (hperm xs).mem_iff.2 (List.mem_range.2 hj)
    rw [← List.take_append_drop k ((List.range xs.length).mergeSort _)] at hj'
    rcases List.mem_append.1 hj' with h1 | h1
    · exact absurd h1 hnot
    · have := hsort xs
      rw [← List.take_append_drop k ((List.range xs.length).mergeSort _)] at this
      exact (List.pairwise_append.1 this).2.2 i hi j h1

/-- The hypotheses of `beam` and `sample_without_replacement` hold for it: no sample repeats a class, whatever the noise. -/
example (gumbel : ℕ → ℕ → ℕ → ℕ → ℝ) : ∃ path, (noRepeatAR 3 4 true).sampleWithoutReplacement 5 (sortSelE 5) gumbel = .ok path ∧ ∀ b < 2, ∀ k < 5, ∃ y, IsSeq 3 4 y ∧
    (0 :: y).IsChain (· ≠ ·) ∧ ∀ t < 4, ∀ c < 3, path k b t c = if y.getD t 0 = c then 1 else 0 := by
  obtain ⟨path, h1, h2⟩ := sample_without_replacement (noRepeatAR 3 4 true) (noRepeat_causal 3 4 true) (noRepeat_leaves (by norm_num)) (by norm_num [noRepeatAR]) (by norm_num)
    (sortSelE_topk 5) gumbel ()
  refine ⟨path, h1, fun b hb k hk => ?_⟩
  obtain ⟨y, g1, g2, g3⟩ := h2 b hb k hk
  exact ⟨y, g1, (noRepeat_permitted y _ _ g1.2).1 g2, g3⟩

theorem noRepeat_score {C : ℕ} : ∀ (y : List ℕ) (u : Unit) (x : ℕ), (∀ c ∈ y, c < C) → Permitted (noRepeat C) u (.hard x) y → allowedScore false (noRepeat C) u (.hard x) y = 0
  | [], _, _, _, _ => rfl
  | c :: y, u, x, h, hp => by
    have h1 := hp.1
    rw [noRepeat_getD u (h c List.mem_cons_self)] at h1
    have h2 : c ≠ x := fun e => h1 (if_pos e)
    rw [allowedScore, noRepeat_score y _ c (fun d hd => h d (List.mem_cons_of_mem _ hd)) hp.2, allowedNorm, noRepeat_getD u (h c List.mem_cons_self), if_neg h2]
    simp

/-- There are `2 * 2` sequences of two out of three classes without a repetition. -/
theorem noRepeat_few (u : Unit) : {y | IsSeq 3 2 y ∧ Permitted (noRepeat 3) u (.hard 0) y}.ncard ≤ 4 := by
  have hsub : {y | IsSeq 3 2 y ∧ Permitted (noRepeat 3) u (.hard 0) y} ⊆ (({[1, 0], [1, 2], [2, 0], [2, 1]} : Finset (List ℕ)) : Set (List ℕ)) := by
    rintro y ⟨hy, hp⟩
    rw [noRepeat_permitted y u 0 hy.2] at hp
    obtain ⟨a, c, rfl⟩ : ∃ a c, y = [a, c] := List.length_eq_two.1 hy.1
    have ha : a < 3 := hy.2 a (by simp)
    have hc : c < 3 := hy.2 c (by simp)
    simp only [List.isChain_cons_cons, List.isChain_singleton, and_true] at hp
    interval_cases a <;> interval_cases c <;> simp_all
  exact (Set.ncard_le_ncard hsub (Finset.finite_toSet _)).trans (by rw [Set.ncard_coe_finset]; decide)

/-- The hypotheses of `beam_exact` hold for it with 4 slots, for sequences of length 3. -/
example : ∃ path value, (noRepeatAR 3 3 false).beamTopk 4 (sortSelE 4) = .ok (path, value) ∧ value 0 0 = .ofReal 0 := by
  obtain ⟨path, value, h1, y, h2⟩ := beam_exact (noRepeatAR 3 3 false) (noRepeat_causal 3 3 false) (noRepeat_leaves (by norm_num)) (by norm_num [noRepeatAR]) (by norm_num)
    (sortSelE_topk 4) () (fun b _ t _ y y' hy hp hy' hp' => by
      have e1 := noRepeat_score (C := 3) y _ _ hy.2 hp
      have e2 := noRepeat_score (C := 3) y' _ _ hy'.2 hp'
      change allowedScore false (noRepeat 3) _ _ y' - allowedScore false (noRepeat 3) _ _ y < _
      rw [e1, e2]; norm_num) (fun b _ => noRepeat_few _)
  obtain ⟨g1, g2, _⟩ := h2 0 (by simp [noRepeatAR])
  refine ⟨path, value, h1, g2.trans ?_⟩
  exact congrArg IEEE.ofReal (noRepeat_score (y 0 0) _ _ (g1 0 (by norm_num)).1.2 (g1 0 (by norm_num)).2.1)

/-- With one class it leaves none after the start class: the value of `greedy_max` is NaN. -/
example (pick : List IEEE → ℕ) {path : ℕ → ℕ → ℕ → ℕ} {value : ℕ → IEEE} (h : (noRepeatAR 1 2 true).greedyMax pick = .ok (path, value)) : value 0 = .nan :=
  greedy_stuck (noRepeatAR 1 2 true) (noRepeat_causal 1 2 true) rfl pick () (b := 0) (by simp [noRepeatAR]) (by
    intro e he
    have : e = ⊥ := by simpa [noRepeat, noRepeatAR] using he
    exact this) h

end Props.InfBeam
