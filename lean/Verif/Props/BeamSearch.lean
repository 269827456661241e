import Verif.Proofs.BeamSearch
import Mathlib.Data.List.Sort
import Mathlib.Tactic.NormNum
import Mathlib.Tactic.IntervalCases

/-! Property theorems about `greedy_max`, `beam_topk`, `sample_without_replacement` and `greedy_tempmax`: C35, C36, C37, C55. -/

open Spec

noncomputable section
namespace Props.BeamSearch
open _root_.Autoregressive Semirings _root_.BeamSearch Props.Autoregressive

variable {St : Type}

/-- A `sample x batch x N x C` result of the beam search as an argument of `log_prob`. -/
def asValue (D : AR St) (K : ℕ) (path : ℕ → ℕ → ℕ → ℕ → ℕ) : OneHot := ⟨K, D.init.length, D.nLength, D.nClasses, path⟩

theorem seq_map {C n : ℕ} {y : List ℕ} (h : IsSeq C n y) : (List.range n).map (fun t => y.getD t 0) = y := by
  refine List.ext_getElem (by simp [h.1]) fun i h1 h2 => ?_
  rw [List.getElem_map, List.getElem_range, List.getD_eq_getElem _ _ h2]

theorem seq_lt {C n : ℕ} {y : List ℕ} (h : IsSeq C n y) {t : ℕ} (ht : t < n) : y.getD t 0 < C := by
  rw [List.getD_eq_getElem _ _ (by rw [h.1]; exact ht)]; exact h.2 _ (List.getElem_mem _)

/-- `log_prob` of paths that are one-hot encodings of classes. -/
theorem logProb_path (D : AR St) {step : ARStep St} (hD : IsCausal D step) {K : ℕ} (hK : 1 ≤ K) {path : ℕ → ℕ → ℕ → ℕ → ℕ} {y : ℕ → ℕ → List ℕ}
    (hy : ∀ k < K, ∀ b < D.init.length, IsSeq D.nClasses D.nLength (y k b))
    (hp : ∀ k < K, ∀ b < D.init.length, ∀ t < D.nLength, ∀ c < D.nClasses, path k b t c = if (y k b).getD t 0 = c then 1 else 0) (d : St) :
    D.logProb (asValue D K path) = .ok ((List.range K).map fun k => (List.range D.init.length).map fun b =>
      arScore D.normalize step (D.init.getD b d) (.hard D.startClass) (y k b)) := by
  rw [logProb_spec D hD (asValue D K path) (fun k b t => (y k b).getD t 0) ?_ hK rfl rfl d]
  · congr 1
    refine List.map_congr_left fun k hk => List.map_congr_left fun b hb => ?_
    congr 1
    exact seq_map (hy k (List.mem_range.1 hk) b (List.mem_range.1 hb))
  · exact fun k hk b hb t ht => ⟨seq_lt (hy k hk b hb) ht, fun c hc => hp k hk b hb t ht c hc⟩

/-! ### `greedy_max` -/

/-- **C35.**  `greedy_max()` returns, for every batch row, the one-hot encoding of a sequence that takes a class with the largest logit at every step given its
own prefix; the second result is the `log_prob` of the path; the third holds the (normalised) logits along the path. -/
theorem greedy_spec (D : AR St) {step : ARStep St} (hD : IsCausal D step) (hN : 1 ≤ D.nLength) (hC : 1 ≤ D.nClasses) {pick : List ℝ → ℕ} (hp : IsArgmaxIdx pick)
    (d : St) :
    ∃ path value logits, D.greedyMax pick = .ok (path, value, logits) ∧
      D.logProb (asValue D 1 fun _ => path) = .ok [(List.range D.init.length).map value] ∧
      ∀ b < D.init.length, ∃ y, IsSeq D.nClasses D.nLength y ∧ IsGreedy D.nClasses step (D.init.getD b d) (.hard D.startClass) y ∧
        (∀ t < D.nLength, ∀ c < D.nClasses, path b t c = if y.getD t 0 = c then 1 else 0) ∧
        value b = arScore D.normalize step (D.init.getD b d) (.hard D.startClass) y ∧
        ∀ t < D.nLength, ∀ c < D.nClasses, logits b t c = ((arTable D.normalize step (D.init.getD b d) (.hard D.startClass) y).getD t fun _ => 0) c := by
  obtain ⟨s, hs, hlen, hinv⟩ := search_inv hD (quiet := True) (max_sumSpec hp hC) hN d quiet (fun _ _ => rfl)
  have hrow := hinv.row
  have hseq : ∀ b < D.init.length, IsSeq D.nClasses D.nLength (hist s.rounds 0 b).2 := fun b hb => by
    rw [← hlen]; exact isSeq_hist (hrow b hb) Nat.zero_lt_one
  have hpath : ∀ b < D.init.length, ∀ t < D.nLength, ∀ c, paths 1 D.nClasses s.rounds 0 b t c = if (hist s.rounds 0 b).2.getD t 0 = c then 1 else 0 :=
    fun b hb t ht c => paths_hist s.rounds (hrow b hb).ok Nat.zero_lt_one (by rw [hlen]; exact ht) c
  have hval : ∀ b < D.init.length, s.beam 0 b = arScore D.normalize step (D.init.getD b d) (.hard D.startClass) (hist s.rounds 0 b).2 := fun b hb => by
    rw [(hrow b hb).score trivial 0 Nat.zero_lt_one]; simp [maxSR]
  refine ⟨_, _, _, by rw [AR.greedyMax, hs]; rfl, ?_, fun b hb => ⟨(hist s.rounds 0 b).2, hseq b hb, (hrow b hb).greedy trivial rfl, fun t ht c _ => hpath b hb t ht c,
    hval b hb, fun t ht c hc => ?_⟩⟩
  · rw [logProb_path D hD (K := 1) le_rfl (y := fun _ b => (hist s.rounds 0 b).2) (fun _ _ => hseq) (fun _ _ b hb t ht c _ => hpath b hb t ht c) d]
    refine congrArg Except.ok (congrArg (fun l => [l]) (List.map_congr_left fun b hb => ?_))
    exact (hval b (List.mem_range.1 hb)).symm
  · have := (hrow b hb).table trivial rfl c hc
    refine (congrArg (fun l : List ℝ => l.getD t 0) this).trans ?_
    exact List.getD_map _ (fun _ => (0 : ℝ)) (fun g : ℕ → ℝ => g c)

/-- The value cannot be beaten at any single step: in particular it is the best score for sequences of length 1. -/
theorem greedy_optimal_one (D : AR St) {step : ARStep St} {s0 : St} {c y : ℕ} (h : IsGreedy D.nClasses step s0 (.hard D.startClass) [y]) (hc : c < D.nClasses) :
    arScore D.normalize step s0 (.hard D.startClass) [c] ≤ arScore D.normalize step s0 (.hard D.startClass) [y] := by
  simp only [arScore, add_zero]
  exact (arNorm_le _ _ _ _).2 (h.1 c hc)

/-! ### `beam_topk` -/

/-- What is true of every result: slot `k` of row `b` holds the one-hot encoding of `y k b`; its value is the score of `y k b`, plus `-1e5` if it
descends from one of the initial slots `1, ..., K - 1`; the values do not increase; and two slots with the same path descend from different
initial slots. -/
theorem beam_general (D : AR St) {step : ARStep St} (hD : IsCausal D step) (hN : 1 ≤ D.nLength) (hC : 1 ≤ D.nClasses) {K : ℕ} (hK : 1 ≤ K) {sel : List ℝ → List ℕ}
    (hs : IsTopkIdx K sel) (d : St) :
    ∃ path value, D.beamTopk K sel = .ok (path, value) ∧ ∃ (origin : ℕ → ℕ → ℕ) (y : ℕ → ℕ → List ℕ),
      D.logProb (asValue D K path) = .ok ((List.range K).map fun k => (List.range D.init.length).map fun b =>
        arScore D.normalize step (D.init.getD b d) (.hard D.startClass) (y k b)) ∧
      ∀ b < D.init.length, (∀ k < K, IsSeq D.nClasses D.nLength (y k b) ∧ origin k b < K ∧
        (∀ t < D.nLength, ∀ c < D.nClasses, path k b t c = if (y k b).getD t 0 = c then 1 else 0) ∧
        value k b = (if origin k b = 0 then 0 else -100000) + arScore D.normalize step (D.init.getD b d) (.hard D.startClass) (y k b)) ∧
        (∀ k k', k ≤ k' → k' < K → value k' b ≤ value k b) ∧
        (∀ k < K, ∀ k' < K, y k b = y k' b → origin k b = origin k' b → k = k') ∧
        (Guard D.normalize step D.nClasses (D.init.getD b d) (.hard D.startClass) D.nLength → K ≤ D.nClasses ^ D.nLength → ∀ k < K, origin k b = 0) ∧
        (Guard D.normalize step D.nClasses (D.init.getD b d) (.hard D.startClass) D.nLength → (D.nClasses ^ (D.nLength - 1) ≤ K ∨
            PrefixMonotone D.normalize step D.nClasses (D.init.getD b d) (.hard D.startClass) D.nLength) → origin 0 b = 0 ∧
          ∀ y', IsSeq D.nClasses D.nLength y' →
            (∃ k < K, origin k b = 0 ∧ y k b = y') ∨ ∀ k < K, arScore D.normalize step (D.init.getD b d) (.hard D.startClass) y' ≤ value k b) := by
  obtain ⟨s, hsr, hlen, hinv⟩ := search_inv hD (quiet := True) (kmax_sumSpec hK hs hC) hN d quiet (fun _ _ => rfl)
  have hrow := hinv.row
  have hseq : ∀ k < K, ∀ b < D.init.length, IsSeq D.nClasses D.nLength (hist s.rounds k b).2 := fun k hk b hb => by
    rw [← hlen]; exact isSeq_hist (hrow b hb) hk
  have hpath : ∀ k < K, ∀ b < D.init.length, ∀ t < D.nLength, ∀ c, paths K D.nClasses s.rounds k b t c = if (hist s.rounds k b).2.getD t 0 = c then 1 else 0 :=
    fun k hk b hb t ht c => paths_hist s.rounds (hrow b hb).ok hk (by rw [hlen]; exact ht) c
  refine ⟨_, _, by rw [AR.beamTopk, hsr]; rfl, fun k b => (hist s.rounds k b).1, fun k b => (hist s.rounds k b).2,
    logProb_path D hD hK hseq (fun k hk b hb t ht c _ => hpath k hk b hb t ht c) d, fun b hb => ⟨fun k hk => ⟨hseq k hk b hb, (hrow b hb).origin k hk,
      fun t ht c _ => hpath k hk b hb t ht c, ?_⟩, (hrow b hb).sorted (by omega), fun k hk k' hk' h1 h2 => (hrow b hb).inj k hk k' hk' (Prod.ext h2 h1), ?_, ?_⟩⟩
  · exact (hrow b hb).score trivial k hk
  · intro hg hle
    have hcomp := (hrow b hb).complete trivial (by rw [hlen]; exact hg)
    rcases hcomp with h | h
    · exact h
    · by_contra hcon
      push Not at hcon
      obtain ⟨k0, hk0, hko⟩ := hcon
      -- a slot for every sequence, and one more
      rw [hlen] at h
      have hex : ∀ f : Fin D.nLength → Fin D.nClasses, ∃ k : Fin K, hist s.rounds k b = (0, List.ofFn fun t => (f t : ℕ)) := fun f => by
        obtain ⟨k, hk, he⟩ := h (List.ofFn fun t => (f t : ℕ)) ⟨by simp, fun c hc => by
          obtain ⟨t, rfl⟩ := (List.mem_ofFn' _ _).1 hc; exact (f t).2⟩
        exact ⟨⟨k, hk⟩, he⟩
      choose g hg' using hex
      have hinj : Function.Injective fun o : Option (Fin D.nLength → Fin D.nClasses) => o.elim (⟨k0, hk0⟩ : Fin K) g := by
        rintro (_ | f) (_ | f') he
        · rfl
        · exfalso; apply hko
          have : (⟨k0, hk0⟩ : Fin K) = g f' := he
          have h2 := hg' f'
          rw [← this] at h2
          exact congrArg Prod.fst h2
        · exfalso; apply hko
          have : g f = (⟨k0, hk0⟩ : Fin K) := he
          have h2 := hg' f
          rw [this] at h2
          exact congrArg Prod.fst h2
        · congr 1
          have : g f = g f' := he
          have h1 := hg' f
          rw [this, hg' f', Prod.mk.injEq] at h1
          funext t
          exact Fin.ext (congrFun (List.ofFn_injective h1.2) t).symm
      have := Fintype.card_le_of_injective _ hinj
      simp at this
      omega
  · intro hg hle
    have hex : ∀ y, IsSeq D.nClasses s.rounds.length y →
        (∃ k < K, hist s.rounds k b = (0, y)) ∨ ∀ k < K, arScore D.normalize step (D.init.getD b d) (.hard D.startClass) y ≤ s.beam k b := by
      rcases hle with hle | hmono
      · exact (hrow b hb).exact trivial (by rw [hlen]; exact hg) (by omega) (by rw [hlen]; exact hle)
      · exact (hrow b hb).optimal trivial (by rw [hlen]; exact hg) (by rw [hlen]; exact hmono)
    rw [hlen] at hex
    have h0 : (hist s.rounds 0 b).1 = 0 := by
      by_contra hne
      -- the best slot is a phantom: then it is worse than any sequence
      have hy := hseq 0 hK b hb
      have hsc := (hrow b hb).score trivial 0 hK
      rw [(kmax_sumSpec hK hs hC).one_pos _ hne ((hrow b hb).origin 0 hK)] at hsc
      have hgd := hg D.nLength le_rfl _ _ hy hy
      rcases hex _ hy with ⟨k, hk, he⟩ | hall
      · have h1 := (hrow b hb).sorted (by omega) 0 k (by omega) hk
        have h2 := (hrow b hb).score trivial k hk
        rw [he, (kmax_sumSpec hK hs hC).one_zero, zero_add] at h2
        rw [hsc, h2] at h1
        linarith
      · have := hall 0 hK
        rw [hsc] at this
        linarith
    refine ⟨h0, fun y' hy' => ?_⟩
    rcases hex y' hy' with ⟨k, hk, he⟩ | hall
    · exact Or.inl ⟨k, hk, congrArg Prod.fst he, congrArg Prod.snd he⟩
    · exact Or.inr hall

/-- **C36.**  If equally long sequences never differ by `1e5` or more in score and there are at least `K` sequences, then `beam_topk(K)` returns one-hot encodings of
`K` different sequences per batch row, and `_beam_max(K)` their `log_prob`s, which do not increase. -/
theorem beam_spec (D : AR St) {step : ARStep St} (hD : IsCausal D step) (hN : 1 ≤ D.nLength) (hC : 1 ≤ D.nClasses) {K : ℕ} (hK : 1 ≤ K)
    (hle : K ≤ D.nClasses ^ D.nLength) {sel : List ℝ → List ℕ} (hs : IsTopkIdx K sel) (d : St)
    (hg : ∀ b < D.init.length, Guard D.normalize step D.nClasses (D.init.getD b d) (.hard D.startClass) D.nLength) :
    ∃ path value, D.beamTopk K sel = .ok (path, value) ∧
      D.logProb (asValue D K path) = .ok ((List.range K).map fun k => (List.range D.init.length).map fun b => value k b) ∧
      ∃ y : ℕ → ℕ → List ℕ, ∀ b < D.init.length,
        (∀ k < K, IsSeq D.nClasses D.nLength (y k b) ∧ (∀ t < D.nLength, ∀ c < D.nClasses, path k b t c = if (y k b).getD t 0 = c then 1 else 0) ∧
          value k b = arScore D.normalize step (D.init.getD b d) (.hard D.startClass) (y k b)) ∧
        (∀ k k', k ≤ k' → k' < K → value k' b ≤ value k b) ∧
        (∀ k < K, ∀ k' < K, y k b = y k' b → k = k') := by
  obtain ⟨path, value, h1, origin, y, h2, h3⟩ := beam_general D hD hN hC hK hs d
  have hval : ∀ k < K, ∀ b < D.init.length, value k b = arScore D.normalize step (D.init.getD b d) (.hard D.startClass) (y k b) := fun k hk b hb => by
    rw [((h3 b hb).1 k hk).2.2.2, if_pos ((h3 b hb).2.2.2.1 (hg b hb) hle k hk), zero_add]
  refine ⟨path, value, h1, ?_, y, fun b hb => ⟨fun k hk => ⟨((h3 b hb).1 k hk).1, ((h3 b hb).1 k hk).2.2.1, hval k hk b hb⟩, (h3 b hb).2.1, fun k hk k' hk' he => ?_⟩⟩
  · rw [h2]
    refine congrArg Except.ok (List.map_congr_left fun k hk => List.map_congr_left fun b hb => ?_)
    exact (hval k (List.mem_range.1 hk) b (List.mem_range.1 hb)).symm
  · exact (h3 b hb).2.2.1 k hk k' hk' he (((h3 b hb).2.2.2.1 (hg b hb) hle k hk).trans ((h3 b hb).2.2.2.1 (hg b hb) hle k' hk').symm)

/-- **C36, exactness.**  With `K ≥ C^(N-1)` slots the first path is a global maximiser, and (if there are at least `K` sequences) the `K` paths are the `K` best:
every other sequence scores at most as much as each of them. -/
theorem beam_exact (D : AR St) {step : ARStep St} (hD : IsCausal D step) (hN : 1 ≤ D.nLength) (hC : 1 ≤ D.nClasses) {K : ℕ} (hK : 1 ≤ K)
    (hwide : D.nClasses ^ (D.nLength - 1) ≤ K) {sel : List ℝ → List ℕ} (hs : IsTopkIdx K sel) (d : St)
    (hg : ∀ b < D.init.length, Guard D.normalize step D.nClasses (D.init.getD b d) (.hard D.startClass) D.nLength) :
    ∃ path value, D.beamTopk K sel = .ok (path, value) ∧ ∃ y : ℕ → ℕ → List ℕ, ∀ b < D.init.length,
      (∀ k < K, IsSeq D.nClasses D.nLength (y k b) ∧ ∀ t < D.nLength, ∀ c < D.nClasses, path k b t c = if (y k b).getD t 0 = c then 1 else 0) ∧
      value 0 b = arScore D.normalize step (D.init.getD b d) (.hard D.startClass) (y 0 b) ∧
      (∀ y', IsSeq D.nClasses D.nLength y' → arScore D.normalize step (D.init.getD b d) (.hard D.startClass) y' ≤
        arScore D.normalize step (D.init.getD b d) (.hard D.startClass) (y 0 b)) ∧
      (K ≤ D.nClasses ^ D.nLength → ∀ y', IsSeq D.nClasses D.nLength y' → (∃ k < K, y k b = y') ∨
        ∀ k < K, arScore D.normalize step (D.init.getD b d) (.hard D.startClass) y' ≤ arScore D.normalize step (D.init.getD b d) (.hard D.startClass) (y k b)) := by
  obtain ⟨path, value, h1, origin, y, h2, h3⟩ := beam_general D hD hN hC hK hs d
  refine ⟨path, value, h1, y, fun b hb => ?_⟩
  obtain ⟨g1, g2, g3, g4, g5⟩ := h3 b hb
  obtain ⟨g0, gex⟩ := g5 (hg b hb) (Or.inl hwide)
  have hv0 : value 0 b = arScore D.normalize step (D.init.getD b d) (.hard D.startClass) (y 0 b) := by
    rw [(g1 0 hK).2.2.2, if_pos g0, zero_add]
  refine ⟨fun k hk => ⟨(g1 k hk).1, (g1 k hk).2.2.1⟩, hv0, fun y' hy' => ?_, fun hle y' hy' => ?_⟩
  · rw [← hv0]
    rcases gex y' hy' with ⟨k, hk, ho, he⟩ | hall
    · have := g2 0 k (by omega) hk
      rw [(g1 k hk).2.2.2, if_pos ho, zero_add, he] at this
      exact this
    · exact hall 0 hK
  · rcases gex y' hy' with ⟨k, hk, ho, he⟩ | hall
    · exact Or.inl ⟨k, hk, he⟩
    · refine Or.inr fun k hk => ?_
      have := hall k hk
      rw [(g1 k hk).2.2.2, if_pos (g4 (hg b hb) hle k hk), zero_add] at this
      exact this

theorem arScore_nonpos {C : ℕ} {step : ARStep St} (hstep : ∀ s x, (step s x).1.length = C) : ∀ (y : List ℕ) (s : St) (x : Tok), (∀ c ∈ y, c < C) →
    arScore true step s x y ≤ 0
  | [], _, _, _ => le_rfl
  | c :: y, s, x, h => by
    have h1 := arScore_nonpos hstep y (step s x).2 (.hard c) fun d hd => h d (List.mem_cons_of_mem _ hd)
    have h2 := norm_nonpos (step s x).1 (c := c) (by rw [hstep]; exact h c List.mem_cons_self)
    rw [arScore]; linarith

theorem arScore_append (nm : Bool) (step : ARStep St) : ∀ (y z : List ℕ) (s : St) (x : Tok),
    arScore nm step s x (y ++ z) = arScore nm step s x y + arScore nm step (arState step s x y).1 (arState step s x y).2 z
  | [], z, s, x => by simp [arScore, arState]
  | c :: y, z, s, x => by rw [List.cons_append, arScore, arScore, arScore_append nm step y, add_assoc]; rfl

/-- The guard for `normalize=True`: every sequence of full length has a log-probability above `-1e5`. -/
theorem guard_normalised {C : ℕ} (hC : 1 ≤ C) {step : ARStep St} (hstep : ∀ s x, (step s x).1.length = C) {s0 : St} {x0 : Tok} {n : ℕ}
    (h : ∀ y, IsSeq C n y → -100000 < arScore true step s0 x0 y) : Guard true step C s0 x0 n := by
  intro t ht y y' hy hy'
  have h1 := arScore_nonpos hstep y' s0 x0 hy'.2
  have hfull : IsSeq C n (y ++ List.replicate (n - t) 0) := ⟨by simp [hy.1]; omega, fun c hc => by
    rcases List.mem_append.1 hc with hc | hc
    · exact hy.2 c hc
    · rw [(List.mem_replicate.1 hc).2]; exact hC⟩
  have h2 := h _ hfull
  rw [arScore_append] at h2
  have h3 := arScore_nonpos hstep (List.replicate (n - t) 0) (arState step s0 x0 y).1 (arState step s0 x0 y).2 fun c hc => by rw [(List.mem_replicate.1 hc).2]; exact hC
  rw [negInf]; linarith

/-- The guard in terms of the logits: with `normalize=False`, if all logits have absolute value at most `M` and `2 n M < 1e5`. -/
theorem guard_bounded {C : ℕ} {step : ARStep St} (hstep : ∀ s x, (step s x).1.length = C) {s0 : St} {x0 : Tok} {n : ℕ} {M : ℝ}
    (hM : ∀ s x, ∀ c < C, |(step s x).1.getD c 0| ≤ M) (hM0 : 0 ≤ M) (hn : 2 * n * M < 100000) : Guard false step C s0 x0 n := by
  have hb : ∀ (y : List ℕ) (s : St) (x : Tok), (∀ c ∈ y, c < C) → |arScore false step s x y| ≤ y.length * M := by
    intro y
    induction y with
    | nil => intro s x _; simp [arScore]
    | cons c y ih =>
      intro s x h
      have h1 := ih (step s x).2 (.hard c) fun d hd => h d (List.mem_cons_of_mem _ hd)
      have h2 := hM s x c (h c List.mem_cons_self)
      rw [arScore, List.length_cons]
      push_cast
      refine (abs_add_le _ _).trans ?_
      have : |arNorm false (step s x).1 c| ≤ M := h2
      linarith
  intro t ht y y' hy hy'
  have h1 := hb y s0 x0 hy.2
  have h2 := hb y' s0 x0 hy'.2
  rw [hy.1] at h1
  rw [hy'.1] at h2
  have h3 : (t : ℝ) * M ≤ n * M := mul_le_mul_of_nonneg_right (by exact_mod_cast ht) hM0
  have := abs_le.1 h1
  have := abs_le.1 h2
  rw [negInf]; linarith

/-! ### An instance -/

/-- `torch.topk` by a stable sort: it has the properties assumed of `topk`. -/
def sortSel (k : ℕ) (xs : List ℝ) : List ℕ := ((List.range xs.length).mergeSort fun i j => decide (xs.getD j 0 ≤ xs.getD i 0)).take k

theorem sortSel_topk (k : ℕ) : IsTopkIdx k (sortSel k) := by
  have hperm : ∀ xs : List ℝ, ((List.range xs.length).mergeSort fun i j => decide (xs.getD j 0 ≤ xs.getD i 0)).Perm (List.range xs.length) :=
    fun xs => List.mergeSort_perm _ _
  have hsort : ∀ xs : List ℝ, ((List.range xs.length).mergeSort fun i j => decide (xs.getD j 0 ≤ xs.getD i 0)).Pairwise fun i j => xs.getD j 0 ≤ xs.getD i 0 := by
    intro xs
    have := List.pairwise_mergeSort (le := fun i j => decide (xs.getD j 0 ≤ xs.getD i 0)) (fun a b c h1 h2 => by
      simp only [decide_eq_true_eq] at h1 h2 ⊢; exact h2.trans h1) (fun a b => by
      simp only [Bool.or_eq_true, decide_eq_true_eq]; exact le_total _ _) (List.range xs.length)
    exact this.imp fun h => by simpa using h
  refine ⟨fun xs h => ?_, fun xs h i hi => ?_, fun xs h => ?_, fun xs h => ?_, fun xs h i hi j hj hnot => ?_⟩
  · rw [sortSel, List.length_take, (hperm xs).length_eq, List.length_range]; omega
  · exact List.mem_range.1 ((hperm xs).mem_iff.1 (List.mem_of_mem_take hi))
  · exact ((hperm xs).nodup_iff.2 List.nodup_range).sublist (List.take_sublist _ _)
  · exact (hsort xs).sublist (List.take_sublist _ _)
  · have hj' : j ∈ (List.range xs.length).mergeSort fun i j => decide (xs.getD j 0 ≤ xs.getD i 0) := (hperm xs).mem_iff.2 (List.mem_range.2 hj)
    rw [← List.take_append_drop k ((List.range xs.length).mergeSort _)] at hj'
    rcases List.mem_append.1 hj' with h1 | h1
    · exact absurd h1 hnot
    · have := hsort xs
      rw [← List.take_append_drop k ((List.range xs.length).mergeSort _)] at this
      exact (List.pairwise_append.1 this).2.2 i hi j h1

/-- A network without memory: the logits are 0. -/
def flatStep (C : ℕ) : ARStep Unit := fun _ _ => (List.replicate C 0, ())

/-- The uniform distribution on sequences of `n` out of `C` classes. -/
def uniform (C n : ℕ) (normalize : Bool) : AR Unit :=
  ⟨fun rows states => (List.zipWith (fun row s => (runStep (flatStep C) s row).1) rows states, List.zipWith (fun row s => (runStep (flatStep C) s row).2) rows states),
    [(), ()], C, n, normalize, 0⟩

theorem uniform_causal (C n : ℕ) (nm : Bool) : IsCausal (uniform C n nm) (flatStep C) := ⟨fun _ _ _ => rfl, fun _ _ => by simp [flatStep, uniform]⟩

/-- The hypotheses of `beam_spec` and `beam_exact` hold for it, with 5 slots for 9 sequences. -/
example : ∃ sel, IsTopkIdx 5 sel ∧ IsCausal (uniform 3 2 false) (flatStep 3) ∧ 5 ≤ 3 ^ 2 ∧ 3 ^ (2 - 1) ≤ 5 ∧
    Guard false (flatStep 3) 3 () (.hard 0) 2 :=
  ⟨sortSel 5, sortSel_topk 5, uniform_causal 3 2 false, by norm_num, by norm_num,
    guard_bounded (M := 0) (fun _ _ => by simp [flatStep])
      (fun _ _ c hc => by interval_cases c <;> simp [flatStep]) le_rfl (by norm_num)⟩

/-- Why `K ≤ C^N` is needed in `beam_spec`: with one class and one step, both slots of `beam_topk(2)` hold the same path, and the second value is `-1e5` instead of the
`log_prob` 0. -/
theorem beam_phantom {sel : List ℝ → List ℕ} (hs : IsTopkIdx 2 sel) : ∃ path value, (uniform 1 1 false).beamTopk 2 sel = .ok (path, value) ∧
    (∀ c < 1, path 0 0 0 c = path 1 0 0 c) ∧ value 0 0 = 0 ∧ value 1 0 = -100000 := by
  obtain ⟨path, value, h1, origin, y, h2, h3⟩ := beam_general (uniform 1 1 false) (uniform_causal 1 1 false) le_rfl le_rfl (by norm_num) hs ()
  obtain ⟨g1, g2, g3, g4, g5⟩ := h3 0 (by simp [uniform])
  have hy : ∀ k < 2, y k 0 = [0] := fun k hk => by
    have h := (g1 k hk).1
    obtain ⟨a, ha⟩ := List.length_eq_one_iff.1 (show (y k 0).length = 1 from h.1)
    have : a < 1 := h.2 a (by rw [ha]; simp)
    rw [ha]; congr 1; omega
  have hsc : arScore false (flatStep 1) ((uniform 1 1 false).init.getD 0 ()) (.hard 0) [0] = 0 := by simp [arScore, arNorm, flatStep]
  have ho : origin 0 0 = 0 := (g5 (guard_bounded (M := 0) (fun _ _ => by simp [flatStep, uniform]) (fun _ _ c hc => by simp [flatStep]) le_rfl (by norm_num))
    (Or.inl (by norm_num [uniform]))).1
  have ho1 : origin 1 0 ≠ 0 := fun h => by
    have := g3 0 (by norm_num) 1 (by norm_num) (by rw [hy 0 (by norm_num), hy 1 (by norm_num)]) (by rw [ho, h])
    omega
  refine ⟨path, value, h1, fun c hc => ?_, ?_, ?_⟩
  · rw [(g1 0 (by norm_num)).2.2.1 0 (by simp [uniform]) c (by simpa [uniform] using hc), (g1 1 (by norm_num)).2.2.1 0 (by simp [uniform]) c (by simpa [uniform] using hc),
      hy 0 (by norm_num), hy 1 (by norm_num)]
  · rw [(g1 0 (by norm_num)).2.2.2, if_pos ho, hy 0 (by norm_num), zero_add]; exact hsc
  · rw [(g1 1 (by norm_num)).2.2.2, if_neg ho1, hy 1 (by norm_num)]
    have : arScore (uniform 1 1 false).normalize (flatStep 1) ((uniform 1 1 false).init.getD 0 ()) (.hard (uniform 1 1 false).startClass) [0] = 0 := hsc
    rw [this, add_zero]

/-! ### `sample_without_replacement` -/

/-- **C55.**  Whatever the noise, `sample_without_replacement((K,))` returns one-hot encodings of sequences; with `normalize=True`, any two slots whose
(perturbed) values are above `-1e5` hold different sequences. -/
theorem without_replacement (D : AR St) {step : ARStep St} (hD : IsCausal D step) (hN : 1 ≤ D.nLength) (hC : 1 ≤ D.nClasses) {K : ℕ} (hK : 1 ≤ K) {sel : List ℝ → List ℕ}
    (hs : IsTopkIdx K sel) (gumbel : ℕ → ℕ → ℕ → ℕ → ℝ) (d : St) :
    ∃ path value, D.sampleWithoutReplacement K sel gumbel = .ok (path, value) ∧ ∃ y : ℕ → ℕ → List ℕ, ∀ b < D.init.length,
      (∀ k < K, IsSeq D.nClasses D.nLength (y k b) ∧ ∀ t < D.nLength, ∀ c < D.nClasses, path k b t c = if (y k b).getD t 0 = c then 1 else 0) ∧
      (D.normalize = true → ∀ k < K, ∀ k' < K, -100000 < value k b → -100000 < value k' b → y k b = y k' b → k = k') := by
  obtain ⟨s, hsr, hlen, hinv⟩ := search_inv hD (quiet := False) (kmax_sumSpec hK hs hC) hN d (fun t => some (gumbel t)) (fun h => h.elim)
  have hrow := hinv.row
  refine ⟨_, _, by rw [AR.sampleWithoutReplacement, hsr]; rfl, fun k b => (hist s.rounds k b).2, fun b hb => ⟨fun k hk => ⟨?_, fun t ht c _ => ?_⟩, ?_⟩⟩
  · rw [← hlen]; exact isSeq_hist (hrow b hb) hk
  · exact paths_hist s.rounds (hrow b hb).ok hk (by rw [hlen]; exact ht) c
  · intro hn k hk k' hk' h1 h2 he
    have horig : ∀ k < K, -100000 < s.beam k b → (hist s.rounds k b).1 = 0 := fun k hk h => by
      by_contra hne
      have := (hrow b hb).bound hn k hk
      rw [(kmax_sumSpec hK hs hC).one_pos _ hne ((hrow b hb).origin k hk), negInf] at this
      linarith
    exact (hrow b hb).inj k hk k' hk' (Prod.ext ((horig k hk h1).trans (horig k' hk' h2).symm) he)

end Props.BeamSearch
