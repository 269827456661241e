import Verif.Props.Autoregressive
import Mathlib.Data.Fintype.Card
import Mathlib.Data.Fintype.Pi
import Mathlib.Data.Fintype.BigOperators
import Mathlib.Data.Fintype.EquivFin

/-! The beam search of autoregressive.py:120-191: what every slot of the beam holds. -/

open Spec

noncomputable section
namespace BeamSearch
open _root_.Autoregressive Semirings Props.Autoregressive

variable {St : Type}

/-! ### The chain rule, from the right -/

/-- The state and the next token after the classes `y`. -/
def arState (step : ARStep St) : St → Tok → List ℕ → St × Tok
  | s, x, [] => (s, x)
  | s, x, y :: ys => arState step (step s x).2 (.hard y) ys

/-- The logits after the classes `y`. -/
def arLogits (step : ARStep St) (s : St) (x : Tok) (y : List ℕ) : List ℝ := (step (arState step s x y).1 (arState step s x y).2).1

theorem arState_snoc (step : ARStep St) : ∀ (ys : List ℕ) (s : St) (x : Tok) (y : ℕ),
    arState step s x (ys ++ [y]) = ((step (arState step s x ys).1 (arState step s x ys).2).2, .hard y)
  | [], _, _, _ => rfl
  | _ :: ys, s, x, y => arState_snoc step ys _ _ y

theorem arScore_snoc (nm : Bool) (step : ARStep St) : ∀ (ys : List ℕ) (s : St) (x : Tok) (y : ℕ),
    arScore nm step s x (ys ++ [y]) = arScore nm step s x ys + arNorm nm (arLogits step s x ys) y
  | [], s, x, y => by simp [arScore, arLogits, arState]
  | c :: ys, s, x, y => by
    rw [List.cons_append, arScore, arScore, arScore_snoc nm step ys, add_assoc]; rfl

theorem isGreedy_snoc (C : ℕ) (step : ARStep St) : ∀ (ys : List ℕ) (s : St) (x : Tok) (y : ℕ),
    IsGreedy C step s x (ys ++ [y]) ↔ IsGreedy C step s x ys ∧ ∀ c < C, (arLogits step s x ys).getD c 0 ≤ (arLogits step s x ys).getD y 0
  | [], s, x, y => by simp [IsGreedy, arLogits, arState]
  | c :: ys, s, x, y => by
    rw [List.cons_append, IsGreedy, IsGreedy, isGreedy_snoc C step ys, and_assoc]; rfl

theorem arTable_snoc (nm : Bool) (step : ARStep St) : ∀ (ys : List ℕ) (s : St) (x : Tok) (y : ℕ),
    arTable nm step s x (ys ++ [y]) = arTable nm step s x ys ++ [arNorm nm (arLogits step s x ys)]
  | [], s, x, y => by simp [arTable, arLogits, arState]
  | c :: ys, s, x, y => by
    rw [List.cons_append, arTable, arTable, arTable_snoc nm step ys, List.cons_append]; rfl

theorem arNorm_le (nm : Bool) (xs : List ℝ) (a b : ℕ) : arNorm nm xs a ≤ arNorm nm xs b ↔ xs.getD a 0 ≤ xs.getD b 0 := by
  rw [arNorm, arNorm]; split_ifs
  · exact sub_le_sub_iff_right _
  · exact Iff.rfl

/-! ### What `sparse_sum` has to do -/

/-- What the two `sparse_sum` methods have in common. -/
structure SumSpec (S : BeamSR) (C : ℕ) : Prop where
  size : 1 ≤ S.size
  one_zero : S.one 0 = 0
  one_pos : ∀ o, o ≠ 0 → o < S.size → S.one o = negInf
  sum : ∀ ex : ℕ → ℕ → ℕ → ℝ, ∃ r, S.sparseSum C ex = .ok r ∧
    (∀ k < S.size, ∀ b, r.2.1 k b < S.size ∧ ∃ c < C, r.2.2 k b = .hard c ∧ r.1 k b = ex (r.2.1 k b) b c) ∧
    (∀ k < S.size, ∀ k' < S.size, ∀ b, r.2.1 k b = r.2.1 k' b → r.2.2 k b = r.2.2 k' b → k = k') ∧
    (∀ k k' b, k ≤ k' → k' < S.size → r.1 k' b ≤ r.1 k b) ∧
    (∀ j < S.size, ∀ c < C, ∀ b, (∃ k < S.size, r.2.1 k b = j ∧ r.2.2 k b = .hard c) ∨ ∀ k < S.size, ex j b c ≤ r.1 k b)

theorem max_sumSpec {pick : List ℝ → ℕ} (hp : IsArgmaxIdx pick) {C : ℕ} (hC : 1 ≤ C) : SumSpec (maxSR pick) C := by
  refine ⟨le_rfl, rfl, fun o h0 h1 => by have : o < 1 := h1; omega, fun ex => ⟨_, if_neg (by omega), ?_, ?_, ?_, ?_⟩⟩
  all_goals simp only [maxSR]
  · intro k hk b
    refine ⟨by omega, _, ?_, rfl, ?_⟩
    · have := (hp ((List.range C).map fun c => ex k b c) (by simp; omega)).1
      simpa using this
    · have : k = 0 := by omega
      rw [this]
  · intro k hk k' hk' b _ _; omega
  · intro k k' b h1 h2
    have : k = k' := by omega
    rw [this]
  · intro j hj c hc b
    right
    intro k hk
    have h0 : j = 0 := by omega
    have h0' : k = 0 := by omega
    subst h0 h0'
    obtain ⟨h1, h2⟩ := hp ((List.range C).map fun c => ex 0 b c) (by simp; omega)
    have := h2 (ex 0 b c) (List.mem_map.2 ⟨c, List.mem_range.2 hc, rfl⟩)
    rw [List.getD_eq_getElem _ _ h1, List.getElem_map, List.getElem_range] at this
    exact this

theorem flatRow_getD (K C : ℕ) (ex : ℕ → ℕ → ℕ → ℝ) (b : ℕ) {i : ℕ} (hi : i < C * K) : (flatRow K C ex b).getD i 0 = ex (i % K) b (i / K) := by
  rw [flatRow, List.getD_eq_getElem _ _ (by simpa using hi), List.getElem_map, List.getElem_range]

theorem kmax_sumSpec {K : ℕ} (hK : 1 ≤ K) {sel : List ℝ → List ℕ} (hs : IsTopkIdx K sel) {C : ℕ} (hC : 1 ≤ C) : SumSpec (kmaxSR K sel) C := by
  have hCK : K ≤ C * K := Nat.le_mul_of_pos_left K hC
  have hlen : ∀ ex b, (flatRow K C ex b).length = C * K := fun ex b => by rw [flatRow]; simp
  have hl : ∀ ex b, K ≤ (flatRow K C ex b).length := fun ex b => by rw [hlen]; exact hCK
  have hsel : ∀ ex b, (sel (flatRow K C ex b)).length = K := fun ex b => hs.length _ (hl ex b)
  have hmem : ∀ ex, ∀ k < K, ∀ b, (sel (flatRow K C ex b)).getD k 0 ∈ sel (flatRow K C ex b) := fun ex k hk b => by
    rw [List.getD_eq_getElem _ _ (by rw [hsel]; exact hk)]; exact List.getElem_mem _
  have hlt : ∀ ex, ∀ k < K, ∀ b, (sel (flatRow K C ex b)).getD k 0 < C * K := fun ex k hk b => by
    rw [← hlen ex b]; exact hs.lt _ (hl ex b) _ (hmem ex k hk b)
  refine ⟨hK, by simp [kmaxSR], fun o h0 _ => by simp [kmaxSR, h0], fun ex => ⟨_, if_neg (by omega), ?_, ?_, ?_, ?_⟩⟩
  all_goals simp only [kmaxSR]
  · intro k hk b
    have h := hlt ex k hk b
    exact ⟨Nat.mod_lt _ hK, _, (Nat.div_lt_iff_lt_mul hK).2 h, rfl, flatRow_getD K C ex b h⟩
  · intro k hk k' hk' b h1 h2
    have h3 : (sel (flatRow K C ex b)).getD k 0 = (sel (flatRow K C ex b)).getD k' 0 := by
      rw [← Nat.div_add_mod ((sel (flatRow K C ex b)).getD k 0) K, h1, Tok.hard.inj h2, Nat.div_add_mod]
    rw [List.getD_eq_getElem _ _ (by rw [hsel]; exact hk), List.getD_eq_getElem _ _ (by rw [hsel]; exact hk')] at h3
    exact (List.Nodup.getElem_inj_iff (hs.nodup _ (hl ex b))).1 h3
  · intro k k' b h1 h2
    rcases h1.lt_or_eq with h | rfl
    · have := List.pairwise_iff_getElem.1 (hs.sorted _ (hl ex b)) k k' (by rw [hsel]; omega) (by rw [hsel]; exact h2) h
      rw [List.getD_eq_getElem (sel _) _ (show k < _ by rw [hsel]; omega), List.getD_eq_getElem (sel _) _ (show k' < _ by rw [hsel]; exact h2)]
      exact this
    · exact le_rfl
  · intro j hj c hc b
    have hi : c * K + j < C * K := by
      have := Nat.mul_le_mul_right K (show c + 1 ≤ C from hc)
      rw [Nat.add_mul, one_mul] at this; omega
    have e1 : (c * K + j) % K = j := by rw [mul_comm, Nat.mul_add_mod, Nat.mod_eq_of_lt hj]
    have e2 : (c * K + j) / K = c := by rw [mul_comm, Nat.mul_add_div hK, Nat.div_eq_of_lt hj, add_zero]
    by_cases h : c * K + j ∈ sel (flatRow K C ex b)
    · left
      obtain ⟨k, hk, he⟩ := List.getElem_of_mem h
      refine ⟨k, by rw [← hsel ex b]; exact hk, ?_⟩
      rw [List.getD_eq_getElem _ _ hk, he]
      exact ⟨e1, by rw [e2]⟩
    · right
      intro k hk
      have := hs.best _ (hl ex b) _ (hmem ex k hk b) (c * K + j) (by rw [hlen]; exact hi) h
      rw [flatRow_getD K C ex b hi, e1, e2] at this
      exact this

/-! ### Paths -/

/-- The class of a token. -/
def cls : Tok → ℕ
  | .hard c => c
  | .soft _ => 0

/-- The initial slot and the classes that slot `k` of row `b` stands for after the rounds. -/
def hist (rounds : List Round) : ℕ → ℕ → ℕ × List ℕ :=
  rounds.foldl (fun h r k b => ((h (r.pos k b) b).1, (h (r.pos k b) b).2 ++ [cls (r.tok k b)])) fun k _ => (k, [])

theorem hist_nil (k b : ℕ) : hist [] k b = (k, []) := rfl

theorem hist_snoc (rounds : List Round) (r : Round) (k b : ℕ) :
    hist (rounds ++ [r]) k b = ((hist rounds (r.pos k b) b).1, (hist rounds (r.pos k b) b).2 ++ [cls (r.tok k b)]) := by
  rw [hist, List.foldl_append]; rfl

/-- The positions and tokens of a round are in range. -/
def Round.Ok (K C : ℕ) (r : Round) (b : ℕ) : Prop := ∀ k < K, r.pos k b < K ∧ ∃ c < C, r.tok k b = .hard c

theorem hist_length (rounds : List Round) (k b : ℕ) : (hist rounds k b).2.length = rounds.length := by
  induction rounds using List.reverseRecOn generalizing k with
  | nil => rfl
  | append_singleton rs r ih => rw [hist_snoc]; simp [ih]

theorem backward_snoc (K C : ℕ) (rs : List Round) (r : Round) (g : ℕ → ℕ → ℕ) :
    backward K C (rs ++ [r]) g = ((backward K C rs fun k b => ((List.range C).map fun c => exGrad K r g k b c).sum).1,
      (backward K C rs fun k b => ((List.range C).map fun c => exGrad K r g k b c).sum).2 ++ [exGrad K r g]) := by
  have h : ∀ (rs : List Round) (g : ℕ → ℕ → ℕ) (l : List (ℕ → ℕ → ℕ → ℕ)),
      rs.foldr (fun r acc => (fun k b => ((List.range C).map fun c => exGrad K r acc.1 k b c).sum, exGrad K r acc.1 :: acc.2)) (g, l) =
        ((backward K C rs g).1, (backward K C rs g).2 ++ l) := by
    intro rs
    induction rs with
    | nil => intro g l; rfl
    | cons r rs ih => intro g l; rw [List.foldr_cons, ih]; rfl
  rw [backward, List.foldr_append]
  exact h rs _ _

theorem backward_length (K C : ℕ) (rs : List Round) (g : ℕ → ℕ → ℕ) : (backward K C rs g).2.length = rs.length := by
  induction rs with
  | nil => rfl
  | cons r rs ih => rw [backward, List.foldr_cons, List.length_cons, List.length_cons]; exact congrArg (· + 1) ih

open Classical in
theorem exGrad_unit {K C : ℕ} {r : Round} {b : ℕ} {g : ℕ → ℕ → ℕ} {k : ℕ} (hk : k < K) (hg : ∀ k' < K, g k' b = if k' = k then 1 else 0) (j c : ℕ) :
    exGrad K r g j b c = if r.pos k b = j ∧ r.tok k b = .hard c then 1 else 0 := by
  change (∑ k' ∈ Finset.range K, if r.pos k' b = j ∧ r.tok k' b = .hard c then g k' b else 0) = _
  rw [Finset.sum_eq_single k]
  · rw [hg k hk, if_pos rfl]
  · intro k' hk' hne
    rw [hg k' (Finset.mem_range.1 hk'), if_neg hne, ite_self]
  · intro h; exact absurd (Finset.mem_range.2 hk) h

theorem backward_path {K C : ℕ} {b : ℕ} (rounds : List Round) (hok : ∀ r ∈ rounds, Round.Ok K C r b) {k : ℕ} (hk : k < K) (g : ℕ → ℕ → ℕ)
    (hg : ∀ k' < K, g k' b = if k' = k then 1 else 0) {t : ℕ} (ht : t < rounds.length) (c : ℕ) :
    ((List.range K).map fun j => ((backward K C rounds g).2.getD t fun _ _ _ => 0) j b c).sum = if (hist rounds k b).2.getD t 0 = c then 1 else 0 := by
  classical
  induction rounds using List.reverseRecOn generalizing k g with
  | nil => simp at ht
  | append_singleton rs r ih =>
    obtain ⟨hpos, c', hc', htok⟩ := hok r (by simp) k hk
    have hex := exGrad_unit (C := C) (r := r) hk hg
    rw [backward_snoc, hist_snoc]
    by_cases hlt : t < rs.length
    · rw [List.getD_append _ _ _ _ (by rw [backward_length]; exact hlt), List.getD_append _ _ _ _ (by rw [hist_length]; exact hlt)]
      refine ih (fun r' hr' => hok r' (by simp [hr'])) hpos _ (fun j hj => ?_) hlt
      change (∑ c ∈ Finset.range C, exGrad K r g j b c) = _
      simp only [hex, htok]
      by_cases hj' : j = r.pos k b
      · rw [if_pos hj', Finset.sum_eq_single c']
        · rw [if_pos ⟨hj'.symm, rfl⟩]
        · intro d _ hd
          rw [if_neg]
          rintro ⟨_, he⟩
          exact hd (Tok.hard.inj he).symm
        · intro h; exact absurd (Finset.mem_range.2 hc') h
      · rw [if_neg hj']
        exact Finset.sum_eq_zero fun d _ => if_neg fun h => hj' h.1.symm
    · have : t = rs.length := by simp at ht; omega
      subst this
      rw [List.getD_append_right _ _ _ _ (by rw [backward_length]), List.getD_append_right _ _ _ _ (by rw [hist_length]), backward_length, hist_length, Nat.sub_self]
      change (∑ j ∈ Finset.range K, exGrad K r g j b c) = _
      simp only [hex, htok, List.getD_cons_zero, cls]
      rw [Finset.sum_eq_single (r.pos k b)]
      · by_cases h : c' = c
        · rw [if_pos h, if_pos ⟨rfl, by rw [h]⟩]
        · rw [if_neg h, if_neg]
          rintro ⟨_, he⟩
          exact h (Tok.hard.inj he)
      · intro j _ hj
        exact if_neg fun h => hj h.1.symm
      · intro h; exact absurd (Finset.mem_range.2 hpos) h

/-- The gradients are the one-hot encoding of the classes. -/
theorem paths_hist {K C : ℕ} {b : ℕ} (rounds : List Round) (hok : ∀ r ∈ rounds, Round.Ok K C r b) {k : ℕ} (hk : k < K) {t : ℕ} (ht : t < rounds.length) (c : ℕ) :
    paths K C rounds k b t c = if (hist rounds k b).2.getD t 0 = c then 1 else 0 := by
  rw [paths]
  exact backward_path rounds hok hk _ (fun _ _ => rfl) ht c

/-! ### The invariant -/

/-- Equally long sequences have scores that differ by less than `1e5`. -/
def Guard (nm : Bool) (step : ARStep St) (C : ℕ) (s0 : St) (x0 : Tok) (n : ℕ) : Prop :=
  ∀ t ≤ n, ∀ y y', IsSeq C t y → IsSeq C t y' → negInf + arScore nm step s0 x0 y' < arScore nm step s0 x0 y

/-- What holds after some rounds, for batch row `b`.  `quiet` says that there is no noise. -/
structure RowInv (D : AR St) (step : ARStep St) (S : BeamSR) (quiet : Prop) (s0 : St) (s : Loop St) (b : ℕ) : Prop where
  ok : ∀ r ∈ s.rounds, Round.Ok S.size D.nClasses r b
  origin : ∀ k < S.size, (hist s.rounds k b).1 < S.size
  classes : ∀ k < S.size, ∀ c ∈ (hist s.rounds k b).2, c < D.nClasses
  inj : ∀ k < S.size, ∀ k' < S.size, hist s.rounds k b = hist s.rounds k' b → k = k'
  bound : D.normalize = true → ∀ k < S.size, s.beam k b ≤ S.one (hist s.rounds k b).1
  score : quiet → ∀ k < S.size, s.beam k b = S.one (hist s.rounds k b).1 + arScore D.normalize step s0 (.hard D.startClass) (hist s.rounds k b).2
  sorted : 0 < s.rounds.length → ∀ k k', k ≤ k' → k' < S.size → s.beam k' b ≤ s.beam k b
  greedy : quiet → S.size = 1 → IsGreedy D.nClasses step s0 (.hard D.startClass) (hist s.rounds 0 b).2
  table : quiet → S.size = 1 → ∀ c < D.nClasses, s.rounds.map (fun r => r.logits 0 b c) =
    (arTable D.normalize step s0 (.hard D.startClass) (hist s.rounds 0 b).2).map (· c)
  complete : quiet → Guard D.normalize step D.nClasses s0 (.hard D.startClass) s.rounds.length → (∀ k < S.size, (hist s.rounds k b).1 = 0) ∨
    ∀ y, IsSeq D.nClasses s.rounds.length y → ∃ k < S.size, hist s.rounds k b = (0, y)
  exact : quiet → Guard D.normalize step D.nClasses s0 (.hard D.startClass) s.rounds.length → 0 < s.rounds.length → D.nClasses ^ (s.rounds.length - 1) ≤ S.size →
    ∀ y, IsSeq D.nClasses s.rounds.length y →
      (∃ k < S.size, hist s.rounds k b = (0, y)) ∨ ∀ k < S.size, arScore D.normalize step s0 (.hard D.startClass) y ≤ s.beam k b
  optimal : quiet → Guard D.normalize step D.nClasses s0 (.hard D.startClass) s.rounds.length →
    PrefixMonotone D.normalize step D.nClasses s0 (.hard D.startClass) s.rounds.length → ∀ y, IsSeq D.nClasses s.rounds.length y →
      (∃ k < S.size, hist s.rounds k b = (0, y)) ∨ ∀ k < S.size, arScore D.normalize step s0 (.hard D.startClass) y ≤ s.beam k b

/-- The whole invariant: also, the tokens and states are those of the slots' histories. -/
structure Inv (D : AR St) (step : ARStep St) (S : BeamSR) (quiet : Prop) (d : St) (s : Loop St) : Prop where
  tokens : s.tokens = (List.range S.size).flatMap fun k => (List.range D.init.length).map fun b =>
    (arState step (D.init.getD b d) (.hard D.startClass) (hist s.rounds k b).2).2
  state : s.state = (List.range S.size).flatMap fun k => (List.range D.init.length).map fun b =>
    (arState step (D.init.getD b d) (.hard D.startClass) (hist s.rounds k b).2).1
  row : ∀ b < D.init.length, RowInv D step S quiet (D.init.getD b d) s b

theorem isSeq_hist {D : AR St} {step : ARStep St} {S : BeamSR} {quiet : Prop} {s0 : St} {s : Loop St} {b : ℕ} (h : RowInv D step S quiet s0 s b) {k : ℕ}
    (hk : k < S.size) : IsSeq D.nClasses s.rounds.length (hist s.rounds k b).2 := ⟨hist_length _ _ _, h.classes k hk⟩

theorem card_seq (C n : ℕ) {m : ℕ} (f : Fin m → List ℕ) (hf : Function.Injective f) (hs : ∀ i, IsSeq C n (f i)) : m ≤ C ^ n := by
  have := Fintype.card_le_of_injective (fun (i : Fin m) (t : Fin n) => (⟨(f i).get (t.cast (hs i).1.symm), (hs i).2 _ (List.get_mem _ _)⟩ : Fin C)) fun i j h => by
    refine hf (List.ext_get ((hs i).1.trans (hs j).1.symm) fun t h1 h2 => ?_)
    have := congrArg Fin.val (congrFun h ⟨t, by rw [← (hs i).1]; exact h1⟩)
    exact this
  simpa using this

theorem complete_of_card (C n : ℕ) {m : ℕ} (hm : C ^ n ≤ m) (f : Fin m → List ℕ) (hf : Function.Injective f) (hs : ∀ i, IsSeq C n (f i)) {y : List ℕ}
    (hy : IsSeq C n y) : ∃ i, f i = y := by
  let g : Fin m → (Fin n → Fin C) := fun i t => ⟨(f i).get (t.cast (hs i).1.symm), (hs i).2 _ (List.get_mem _ _)⟩
  have hg : Function.Injective g := fun i j h => by
    refine hf (List.ext_get ((hs i).1.trans (hs j).1.symm) fun t h1 h2 => ?_)
    have := congrArg Fin.val (congrFun h ⟨t, by rw [← (hs i).1]; exact h1⟩)
    exact this
  have hcard : Fintype.card (Fin m) = Fintype.card (Fin n → Fin C) := by
    refine le_antisymm (Fintype.card_le_of_injective g hg) ?_
    simpa using hm
  obtain ⟨i, hi⟩ := ((Fintype.bijective_iff_injective_and_card g).2 ⟨hg, hcard⟩).2 fun t => ⟨y.get (t.cast hy.1.symm), hy.2 _ (List.get_mem _ _)⟩
  refine ⟨i, List.ext_get ((hs i).1.trans hy.1.symm) fun t h1 h2 => ?_⟩
  have := congrArg Fin.val (congrFun hi ⟨t, by rw [← (hs i).1]; exact h1⟩)
  exact this

/-- The new beam, by batch row. -/
theorem rowInv_step {D : AR St} {step : ARStep St} {S : BeamSR} {quiet : Prop} {s0 : St} {s : Loop St} {b : ℕ} (hS : SumSpec S D.nClasses) (h : RowInv D step S quiet s0 s b)
    (logits : ℕ → ℕ → ℕ → ℝ) (hbound : D.normalize = true → ∀ k < S.size, ∀ c < D.nClasses, logits k b c ≤ 0)
    (hlog : quiet → ∀ k < S.size, ∀ c < D.nClasses,
      logits k b c = arNorm D.normalize (arLogits step s0 (.hard D.startClass) (hist s.rounds k b).2) c)
    (beam : ℕ → ℕ → ℝ) (pos : ℕ → ℕ → ℕ) (tok : ℕ → ℕ → Tok) (tokens : List Tok) (state : List St)
    (h1 : ∀ k < S.size, pos k b < S.size ∧ ∃ c < D.nClasses, tok k b = .hard c ∧ beam k b = s.beam (pos k b) b + logits (pos k b) b c)
    (h2 : ∀ k < S.size, ∀ k' < S.size, pos k b = pos k' b → tok k b = tok k' b → k = k')
    (h3 : ∀ k k', k ≤ k' → k' < S.size → beam k' b ≤ beam k b)
    (h4 : ∀ j < S.size, ∀ c < D.nClasses, (∃ k < S.size, pos k b = j ∧ tok k b = .hard c) ∨ ∀ k < S.size, s.beam j b + logits j b c ≤ beam k b) :
    RowInv D step S quiet s0 ⟨beam, tokens, state, s.rounds ++ [⟨logits, pos, tok⟩]⟩ b := by
  have hh : ∀ k, hist (s.rounds ++ [⟨logits, pos, tok⟩]) k b = ((hist s.rounds (pos k b) b).1, (hist s.rounds (pos k b) b).2 ++ [cls (tok k b)]) :=
    fun k => hist_snoc _ _ _ _
  have hscore : quiet → ∀ k < S.size, beam k b = S.one (hist (s.rounds ++ [⟨logits, pos, tok⟩]) k b).1 +
      arScore D.normalize step s0 (.hard D.startClass) (hist (s.rounds ++ [⟨logits, pos, tok⟩]) k b).2 := by
    intro hq k hk
    obtain ⟨hp, c, hc, ht, hb⟩ := h1 k hk
    rw [hb, h.score hq _ hp, hlog hq _ hp c hc, hh k, ht, cls, arScore_snoc, add_assoc]
  have hclasses : ∀ k < S.size, ∀ c ∈ (hist (s.rounds ++ [⟨logits, pos, tok⟩]) k b).2, c < D.nClasses := by
    intro k hk c hc
    obtain ⟨hp, c', hc', ht, _⟩ := h1 k hk
    rw [hh k, List.mem_append, List.mem_singleton, ht] at hc
    rcases hc with hc | rfl
    · exact h.classes _ hp c hc
    · exact hc'
  have hinj : ∀ k < S.size, ∀ k' < S.size, hist (s.rounds ++ [⟨logits, pos, tok⟩]) k b = hist (s.rounds ++ [⟨logits, pos, tok⟩]) k' b → k = k' := by
    intro k hk k' hk' he
    obtain ⟨hp, c, _, ht, _⟩ := h1 k hk
    obtain ⟨hp', c', _, ht', _⟩ := h1 k' hk'
    rw [hh k, hh k', Prod.mk.injEq] at he
    obtain ⟨e1, e2⟩ := he
    have e3 := List.append_inj' e2 rfl
    have hpp : pos k b = pos k' b := h.inj _ hp _ hp' (Prod.ext e1 e3.1)
    refine h2 k hk k' hk' hpp ?_
    have := List.cons.inj e3.2
    rw [ht, ht', cls, cls] at this
    rw [ht, ht', this.1]
  -- a genuine sequence whose prefix is in the beam is selected or not better than what is selected
  have hcand : quiet → ∀ y, IsSeq D.nClasses (s.rounds.length + 1) y → (∀ y', IsSeq D.nClasses s.rounds.length y' → ∃ k < S.size, hist s.rounds k b = (0, y')) →
      (∃ k < S.size, hist (s.rounds ++ [⟨logits, pos, tok⟩]) k b = (0, y)) ∨ ∀ k < S.size, arScore D.normalize step s0 (.hard D.startClass) y ≤ beam k b := by
    intro hq y hy hcomp
    obtain ⟨y', c, rfl⟩ : ∃ y' c, y = y' ++ [c] := by
      have hne : y ≠ [] := by intro h0; have := hy.1; rw [h0] at this; simp at this
      exact ⟨_, _, (List.dropLast_append_getLast hne).symm⟩
    have hc : c < D.nClasses := hy.2 c (by simp)
    obtain ⟨j, hj, hjh⟩ := hcomp y' ⟨by have := hy.1; simp at this; exact this, fun x hx => hy.2 x (by simp [hx])⟩
    rcases h4 j hj c hc with ⟨k, hk, hkp, hkt⟩ | hle
    · left
      refine ⟨k, hk, ?_⟩
      rw [hh k, hkp, hjh, hkt, cls]
    · right
      intro k hk
      have := hle k hk
      rw [h.score hq j hj, hlog hq j hj c hc, hjh, hS.one_zero, zero_add, ← arScore_snoc] at this
      exact this
  refine ⟨?_, ?_, hclasses, hinj, ?_, hscore, fun _ => h3, ?_, ?_, ?_, ?_, ?_⟩
  · intro r hr
    rcases List.mem_append.1 hr with hr | hr
    · exact h.ok r hr
    · rw [List.mem_singleton] at hr
      subst hr
      intro k hk
      obtain ⟨hp, c, hc, ht, _⟩ := h1 k hk
      exact ⟨hp, c, hc, ht⟩
  · intro k hk
    obtain ⟨hp, _⟩ := h1 k hk
    change (hist (s.rounds ++ [_]) k b).1 < _
    rw [hh k]; exact h.origin _ hp
  · intro hn k hk
    obtain ⟨hp, c, hc, ht, hb⟩ := h1 k hk
    change beam k b ≤ S.one (hist (s.rounds ++ [_]) k b).1
    rw [hh k, hb]
    have e1 := h.bound hn _ hp
    have e2 := hbound hn _ hp c hc
    simp only
    linarith
  · intro hq h0
    obtain ⟨hp, c, hc, ht, hb⟩ := h1 0 (by omega)
    have hp0 : pos 0 b = 0 := by omega
    change IsGreedy _ _ _ _ (hist (s.rounds ++ [_]) 0 b).2
    rw [hh 0, hp0, ht, cls, isGreedy_snoc]
    refine ⟨h.greedy hq h0, fun c' hc' => ?_⟩
    have hle : s.beam 0 b + logits 0 b c' ≤ beam 0 b := by
      rcases h4 0 (by omega) c' hc' with ⟨k, hk, hkp, hkt⟩ | hle
      · have hk0 : k = 0 := by omega
        rw [hk0, ht] at hkt
        rw [hb, hp0, Tok.hard.inj hkt]
      · exact hle 0 (by omega)
    rw [hb, hp0, add_le_add_iff_left, hlog hq 0 (by omega) c' hc', hlog hq 0 (by omega) c hc, arNorm_le] at hle
    exact hle
  · intro hq h0 c hc
    obtain ⟨hp, c', hc', ht, hb⟩ := h1 0 (by omega)
    have hp0 : pos 0 b = 0 := by omega
    change (s.rounds ++ [_]).map _ = (arTable _ _ _ _ (hist (s.rounds ++ [_]) 0 b).2).map _
    rw [hh 0, hp0, ht, cls, arTable_snoc, List.map_append, List.map_append, h.table hq h0 c hc]
    congr 1
    change [logits 0 b c] = [arNorm _ _ c]
    rw [hlog hq 0 (by omega) c hc]
  · intro hq hg
    simp only [List.length_append, List.length_singleton] at hg ⊢
    by_contra hcon
    rw [not_or] at hcon
    obtain ⟨hc1, hc2⟩ := hcon
    push Not at hc1 hc2
    obtain ⟨k, hk, hko⟩ := hc1
    obtain ⟨y, hy, hyn⟩ := hc2
    have hprev := h.complete hq fun t ht => hg t (by omega)
    rcases hprev with hall | hcomp
    · rw [hh k] at hko
      exact hko (hall _ (h1 k hk).1)
    · rcases hcand hq y hy hcomp with ⟨k', hk', hkh⟩ | hle
      · exact hyn k' hk' hkh
      · have := hle k hk
        rw [hscore hq k hk, hS.one_pos _ hko ?_] at this
        · have hgd := hg _ le_rfl y (hist (s.rounds ++ [⟨logits, pos, tok⟩]) k b).2 hy ⟨by rw [hist_length]; simp, hclasses k hk⟩
          linarith
        · rw [hh k]; exact h.origin _ (h1 k hk).1
  · intro hq hg _ hcard y hy
    simp only [List.length_append, List.length_singleton, Nat.add_sub_cancel] at hg hcard hy
    refine hcand hq y hy ?_
    rcases h.complete hq fun t ht => hg t (by omega) with hall | hcomp
    · intro y' hy'
      obtain ⟨i, hi⟩ := complete_of_card D.nClasses s.rounds.length hcard (fun i : Fin S.size => (hist s.rounds i b).2) (fun i j hij => by
        refine Fin.ext (h.inj i i.2 j j.2 (Prod.ext ?_ hij))
        rw [hall i i.2, hall j j.2]) (fun i => isSeq_hist h i.2) hy'
      exact ⟨i, i.2, Prod.ext (hall i i.2) hi⟩
    · exact hcomp
  · intro hq hg hmono y hy
    simp only [List.length_append, List.length_singleton] at hg hmono hy
    obtain ⟨y', c, rfl⟩ : ∃ y' c, y = y' ++ [c] := by
      have hne : y ≠ [] := by intro h0; have := hy.1; rw [h0] at this; simp at this
      exact ⟨_, _, (List.dropLast_append_getLast hne).symm⟩
    have hc : c < D.nClasses := hy.2 c (by simp)
    have hy' : IsSeq D.nClasses s.rounds.length y' := ⟨by have := hy.1; simp at this; exact this, fun x hx => hy.2 x (by simp [hx])⟩
    rcases h.optimal hq (fun t ht => hg t (by omega)) (fun t ht => hmono t (by omega)) y' hy' with ⟨j, hj, hjh⟩ | hle
    · rcases h4 j hj c hc with ⟨k, hk, hkp, hkt⟩ | hle
      · left
        refine ⟨k, hk, ?_⟩
        change hist (s.rounds ++ [_]) k b = _
        rw [hh k, hkp, hjh, hkt, cls]
      · right
        intro k hk
        have := hle k hk
        rw [h.score hq j hj, hlog hq j hj c hc, hjh, hS.one_zero, zero_add, ← arScore_snoc] at this
        exact this
    · right
      -- no slot is a phantom, and the extension by `c` of every slot is at least as good
      have hext : ∀ j < S.size, arScore D.normalize step s0 (.hard D.startClass) (y' ++ [c]) ≤ s.beam j b + logits j b c := by
        intro j hj
        have hz := isSeq_hist h hj
        have h0 : (hist s.rounds j b).1 = 0 := by
          by_contra hne
          have e1 := hle j hj
          rw [h.score hq j hj, hS.one_pos _ hne (h.origin j hj)] at e1
          have e2 := hg _ (by omega) y' _ hy' hz
          linarith
        have e1 := hle j hj
        rw [h.score hq j hj, h0, hS.one_zero, zero_add] at e1
        rw [h.score hq j hj, hlog hq j hj c hc, h0, hS.one_zero, zero_add, ← arScore_snoc]
        exact hmono _ (by omega) y' _ c hy' hz hc e1
      by_cases hall : ∀ j < S.size, ∃ k < S.size, pos k b = j ∧ tok k b = .hard c
      · -- every slot is extended by `c`: these are all the new slots
        choose f hf1 hf2 hf3 using hall
        have hfinj : Function.Injective fun j : Fin S.size => (⟨f j j.2, hf1 j j.2⟩ : Fin S.size) := by
          intro i j hij
          have e : f i i.2 = f j j.2 := congrArg Fin.val hij
          refine Fin.ext ?_
          rw [← hf2 i i.2, ← hf2 j j.2, e]
        intro k hk
        obtain ⟨j, hj⟩ := (Finite.injective_iff_surjective.1 hfinj) ⟨k, hk⟩
        have e : f j j.2 = k := congrArg Fin.val hj
        obtain ⟨_, c', _, ht, hb⟩ := h1 k hk
        have ec : c' = c := Tok.hard.inj (ht.symm.trans (by rw [← e]; exact hf3 j j.2))
        have ep : pos k b = j := by rw [← e]; exact hf2 j j.2
        change _ ≤ beam k b
        rw [hb, ec, ep]
        exact hext j j.2
      · push Not at hall
        obtain ⟨j, hj, hno⟩ := hall
        intro k hk
        rcases h4 j hj c hc with ⟨k', hk', hkp, hkt⟩ | hle'
        · exact absurd hkt (hno k' hk' hkp)
        · exact (hext j hj).trans (hle' k hk)

theorem mapM_ok {α β : Type} (f : α → Except PyErr β) (g : α → β) : ∀ (xs : List α), (∀ x ∈ xs, f x = .ok (g x)) → xs.mapM f = .ok (xs.map g)
  | [], _ => rfl
  | x :: xs, h => by
    rw [List.mapM_cons, h x List.mem_cons_self, mapM_ok f g xs fun y hy => h y (List.mem_cons_of_mem _ hy)]; rfl

theorem take_flat (K B : ℕ) (f : ℕ → ℕ → St) (pos : ℕ → ℕ → ℕ) (hpos : ∀ k < K, ∀ b < B, pos k b < K) :
    take K B ((List.range K).flatMap fun k => (List.range B).map (f k)) pos = .ok ((List.range K).flatMap fun k => (List.range B).map fun b => f (pos k b) b) := by
  by_cases hne : ∃ k < K, ∃ b < B, True
  · obtain ⟨k0, _, b0, _, _⟩ := hne
    rw [take, mapM_ok _ fun i => ((List.range K).flatMap fun k => (List.range B).map (f k)).getD i (f k0 b0), map_flat]
    · congr 1
      refine List.flatMap_congr fun k hk => List.map_congr_left fun b hb => ?_
      exact flat_index K B f _ (hpos k (List.mem_range.1 hk) b (List.mem_range.1 hb)) (List.mem_range.1 hb)
    · intro i hi
      obtain ⟨k, hk, b, hb, rfl⟩ := mem_flat hi
      have hp := hpos k hk b hb
      have hlt : pos k b * B + b < ((List.range K).flatMap fun k => (List.range B).map (f k)).length := by
        rw [flat_length]
        have := Nat.mul_le_mul_right B (show pos k b + 1 ≤ K from hp)
        rw [Nat.add_mul, one_mul] at this; omega
      rw [List.getElem?_eq_getElem hlt, List.getD_eq_getElem _ _ hlt]
  · have : ∀ g : ℕ → ℕ → St, ((List.range K).flatMap fun k => (List.range B).map (g k)) = [] := by
      intro g
      rw [List.eq_nil_iff_forall_not_mem]
      intro x hx
      obtain ⟨k, hk, b, hb, _⟩ := mem_flat hx
      exact hne ⟨k, hk, b, hb, trivial⟩
    have h2 : ((List.range K).flatMap fun k => (List.range B).map fun b => pos k b * B + b) = [] := by
      rw [List.eq_nil_iff_forall_not_mem]
      intro x hx
      obtain ⟨k, hk, b, hb, _⟩ := mem_flat hx
      exact hne ⟨k, hk, b, hb, trivial⟩
    rw [take, this, this, h2]
    rfl

/-- The logits of a slot with the noise of the round. -/
def noisy (C : ℕ) (noise : Option (ℕ → ℕ → ℕ → ℝ)) (k b : ℕ) (xs : List ℝ) : List ℝ :=
  match noise with
  | none => xs
  | some z => (List.range C).map fun c => xs.getD c 0 + z k b c

/-- What one round does to batch row `b`: `s` and `s'` are the variables of the loop before and after it. -/
structure RoundFacts (D : AR St) (step : ARStep St) (S : BeamSR) (noise : Option (ℕ → ℕ → ℕ → ℝ)) (s0 : St) (s s' : Loop St) (r : Round) (b : ℕ) : Prop where
  pick : ∀ k < S.size, r.pos k b < S.size ∧ ∃ c < D.nClasses, r.tok k b = .hard c ∧ s'.beam k b = s.beam (r.pos k b) b + r.logits (r.pos k b) b c
  inj : ∀ k < S.size, ∀ k' < S.size, r.pos k b = r.pos k' b → r.tok k b = r.tok k' b → k = k'
  sorted : ∀ k k', k ≤ k' → k' < S.size → s'.beam k' b ≤ s'.beam k b
  best : ∀ j < S.size, ∀ c < D.nClasses, (∃ k < S.size, r.pos k b = j ∧ r.tok k b = .hard c) ∨ ∀ k < S.size, s.beam j b + r.logits j b c ≤ s'.beam k b
  logits : ∀ k < S.size, ∀ c < D.nClasses,
    r.logits k b c = arNorm D.normalize (noisy D.nClasses noise k b (arLogits step s0 (.hard D.startClass) (hist s.rounds k b).2)) c

/-- One round keeps the invariant. -/
theorem inv_round {D : AR St} {step : ARStep St} (hD : IsCausal D step) {S : BeamSR} {quiet : Prop} (hS : SumSpec S D.nClasses) (d : St)
    (noise : Option (ℕ → ℕ → ℕ → ℝ)) (hq : quiet → noise = none) {s : Loop St} (h : Inv D step S quiet d s) :
    ∃ s', D.round S noise s = .ok s' ∧ s'.rounds.length = s.rounds.length + 1 ∧ Inv D step S quiet d s' ∧
      ∃ r, s'.rounds = s.rounds ++ [r] ∧ ∀ b < D.init.length, RoundFacts D step S noise (D.init.getD b d) s s' r b := by
  obtain ⟨htok, hst, hrow⟩ := h
  set st : ℕ → ℕ → St × Tok := fun k b => arState step (D.init.getD b d) (.hard D.startClass) (hist s.rounds k b).2 with hstdef
  have hmodel : D.model (s.tokens.map fun x => [x]) s.state =
      ((List.range S.size).flatMap fun k => (List.range D.init.length).map fun b => [(step (st k b).1 (st k b).2).1],
       (List.range S.size).flatMap fun k => (List.range D.init.length).map fun b => (step (st k b).1 (st k b).2).2) := by
    rw [htok, hst, map_flat, hD.run _ _ (by rw [flat_length, flat_length]), zipWith_flat, zipWith_flat]
    rfl
  have hraw : ∀ k < S.size, ∀ b < D.init.length,
      (((List.range S.size).flatMap fun k => (List.range D.init.length).map fun b => [(step (st k b).1 (st k b).2).1]).getD (k * D.init.length + b) []).getD 0 [] =
        (step (st k b).1 (st k b).2).1 := by
    intro k hk b hb
    rw [flat_index S.size D.init.length (fun k b => [(step (st k b).1 (st k b).2).1]) [] hk hb]; rfl
  rw [AR.round]
  simp only [hmodel]
  rw [if_neg, if_neg]
  · obtain ⟨r, hr, r1, r2, r3, r4⟩ := hS.sum fun k b c => s.beam k b + (D.roundLogits noise
      ((List.range S.size).flatMap fun k => (List.range D.init.length).map fun b => [(step (st k b).1 (st k b).2).1]) k b).getD c 0
    rw [hr]
    have htake := take_flat S.size D.init.length (fun k b => (step (st k b).1 (st k b).2).2) r.2.1 fun k hk b _ => (r1 k hk b).1
    refine ⟨_, by simp only [bind, Except.bind]; rw [htake]; rfl, by simp, ⟨?_, ?_, fun b hb => ?_⟩, _, rfl, fun b hb => ⟨fun k hk => r1 k hk b,
      fun k hk k' hk' => r2 k hk k' hk' b, fun k k' => r3 k k' b, fun j hj c hc => r4 j hj c hc b, fun k hk c hc => ?_⟩⟩
    · refine List.flatMap_congr fun k hk => List.map_congr_left fun b hb => ?_
      obtain ⟨_, c, _, ht, _⟩ := r1 k (List.mem_range.1 hk) b
      rw [hist_snoc, arState_snoc]
      simp only [ht, cls]
    · refine List.flatMap_congr fun k hk => List.map_congr_left fun b hb => ?_
      rw [hist_snoc, arState_snoc]
    · refine rowInv_step hS (hrow b hb) _ ?_ ?_ _ _ _ _ _ (fun k hk => r1 k hk b) (fun k hk k' hk' => r2 k hk k' hk' b) (fun k k' => r3 k k' b) fun j hj c hc => r4 j hj c hc b
      · intro hn k hk c hc
        have hle : ∀ xs : List ℝ, xs.length = D.nClasses → (D.norm xs).getD c 0 ≤ 0 := fun xs hx => by
          rw [norm_getD D xs (by rw [hx]; exact hc), hn]; exact norm_nonpos xs (by rw [hx]; exact hc)
        refine hle _ ?_
        cases noise with
        | none => rw [hraw k hk b hb]; exact hD.classes _ _
        | some z => simp
      · intro hqt k hk c hc
        rw [hq hqt]
        change (D.norm ((List.getD _ (k * D.init.length + b) []).getD 0 [])).getD c 0 = _
        rw [hraw k hk b hb, norm_getD D _ (by rw [hD.classes]; exact hc)]
        rfl
    · cases noise with
      | none =>
        change (D.norm ((List.getD _ (k * D.init.length + b) []).getD 0 [])).getD c 0 = _
        rw [hraw k hk b hb, norm_getD D _ (by rw [hD.classes]; exact hc)]
        rfl
      | some z =>
        change (D.norm ((List.range D.nClasses).map fun c => ((List.getD _ (k * D.init.length + b) []).getD 0 []).getD c 0 + z k b c)).getD c 0 = _
        rw [hraw k hk b hb, norm_getD D _ (by simpa using hc)]
        rfl
  · rw [flat_length]; simp
  · rw [not_not]
    refine ⟨by rw [hmodel]; exact flat_length _ _ _, fun row hr => ?_⟩
    rw [hmodel] at hr
    obtain ⟨k, _, b, _, rfl⟩ := mem_flat hr
    refine ⟨rfl, fun x hx => ?_⟩
    rw [List.mem_singleton] at hx
    rw [hx]; exact hD.classes _ _

theorem inv_init (D : AR St) (step : ARStep St) {S : BeamSR} (hS : SumSpec S D.nClasses) (quiet : Prop) (d : St) :
    Inv D step S quiet d ⟨fun k _ => S.one k, List.replicate (S.size * D.init.length) (.hard D.startClass), D.expand S.size, []⟩ := by
  refine ⟨?_, ?_, fun b _ => ?_⟩
  · simp only [hist_nil, arState]
    refine List.ext_getElem (by rw [flat_length]; simp) fun i h1 h2 => ?_
    rw [List.getElem_replicate]
    obtain ⟨k, _, b, _, hx⟩ := mem_flat (List.getElem_mem h2)
    exact hx
  · simp only [hist_nil, arState]
    rw [AR.expand, replicate_flatten _ d]
  · refine ⟨fun r hr => by simp at hr, fun k hk => hk, fun k _ c hc => by simp [hist_nil] at hc, fun k _ k' _ he => congrArg Prod.fst he, fun _ k _ => le_rfl,
      fun _ k _ => by simp [hist_nil, arScore], fun h0 => by simp at h0, fun _ _ => trivial, fun _ _ c _ => rfl, fun _ _ => Or.inr fun y hy => ?_, fun _ _ h0 => by simp at h0,
      fun _ _ _ y hy => Or.inl ?_⟩
    all_goals
      have : y = [] := List.length_eq_zero_iff.1 hy.1
      exact ⟨0, hS.size, by rw [this]; rfl⟩

/-- The whole search. -/
theorem search_inv {D : AR St} {step : ARStep St} (hD : IsCausal D step) {S : BeamSR} {quiet : Prop} (hS : SumSpec S D.nClasses) (hN : 1 ≤ D.nLength) (d : St)
    (noise : ℕ → Option (ℕ → ℕ → ℕ → ℝ)) (hq : quiet → ∀ t, noise t = none) :
    ∃ s, D.search S noise = .ok s ∧ s.rounds.length = D.nLength ∧ Inv D step S quiet d s := by
  have hloop : ∀ n, ∃ s, (List.range n).foldlM (fun s t => D.round S (noise t) s)
      (⟨fun k _ => S.one k, List.replicate (S.size * D.init.length) (.hard D.startClass), D.expand S.size, []⟩ : Loop St) = .ok s ∧
      s.rounds.length = n ∧ Inv D step S quiet d s := by
    intro n
    induction n with
    | zero => exact ⟨_, rfl, rfl, inv_init D step hS quiet d⟩
    | succ n ih =>
      obtain ⟨s, h1, h2, h3⟩ := ih
      obtain ⟨s', g1, g2, g3, _⟩ := inv_round hD hS d (noise n) (fun h => hq h n) h3
      refine ⟨s', ?_, by rw [g2, h2], g3⟩
      rw [List.range_succ, List.foldlM_append, h1]
      simp only [bind, Except.bind, List.foldlM_cons, List.foldlM_nil, g1]
      rfl
  rw [AR.search, if_neg (by have := hS.size; omega)]
  exact hloop D.nLength

end BeamSearch
