import Verif.Proofs.InfEntropy
import Verif.Proofs.ChainMask
import Verif.Props.LinearChainEntropy

/-! `cross_entropy` and `kl` of chains when potentials may be `-inf`: where the value is `+inf`, and what it is otherwise. -/

open Finset Spec SemiringRel Semirings InfEntropy LinearChainProofs ChainProofs

noncomputable section
namespace InfCross

/-- A number that is `+inf` if the flag is set and real if not. -/
def Half (a : IEEE) (flag : Prop) : Prop := (flag → a = some ⊤) ∧ (¬ flag → ∃ h : ℝ, a = .ofReal h)

theorem Half.congr {a : IEEE} {f g : Prop} (h : Half a f) (e : f ↔ g) : Half a g := by rwa [propext e] at h

theorem half_real (r : ℝ) : Half (.ofReal r) False := ⟨fun h => h.elim, fun _ => ⟨r, rfl⟩⟩

theorem half_top : Half (some ⊤) True := ⟨fun _ => rfl, fun h => absurd trivial h⟩

theorem top_add (r : ℝ) : IEEE.add (some ⊤) (.ofReal r) = some ⊤ := by simp [IEEE.add, IEEE.ofReal]

theorem add_top (r : ℝ) : IEEE.add (.ofReal r) (some ⊤) = some ⊤ := by simp [IEEE.add, IEEE.ofReal]

theorem top_add_top : IEEE.add (some ⊤) (some ⊤) = some ⊤ := by simp [IEEE.add]

theorem top_sub (r : ℝ) : IEEE.sub (some ⊤) (.ofReal r) = some ⊤ := by
  have : IEEE.sub (some ⊤) (.ofReal r) = IEEE.add (some ⊤) (.ofReal (-r)) := by simp [IEEE.sub, IEEE.ofReal]
  rw [this, top_add]

theorem sub_bot (r : ℝ) : IEEE.sub (.ofReal r) (some ⊥) = some ⊤ := by simp [IEEE.sub, IEEE.add, IEEE.ofReal]

theorem top_mul {r : ℝ} (h : 0 < r) : IEEE.mul (some ⊤) (.ofReal r) = some ⊤ := by
  have h1 : (r : EReal) ≠ 0 := by exact_mod_cast h.ne'
  simp [IEEE.mul, IEEE.ofReal, h1, EReal.top_mul_coe_of_pos h]

theorem bot_mul {r : ℝ} (h : 0 < r) : IEEE.mul (some ⊥) (.ofReal r) = some ⊥ := by
  have h1 : (r : EReal) ≠ 0 := by exact_mod_cast h.ne'
  simp [IEEE.mul, IEEE.ofReal, h1, EReal.bot_mul_coe_of_pos h]

theorem Half.add {a b : IEEE} {f g : Prop} (ha : Half a f) (hb : Half b g) : Half (IEEE.add a b) (f ∨ g) := by
  by_cases hf : f
  · refine ⟨fun _ => ?_, fun h => absurd (Or.inl hf) h⟩
    rw [ha.1 hf]
    by_cases hg : g
    · rw [hb.1 hg, top_add_top]
    · obtain ⟨r, hr⟩ := hb.2 hg
      rw [hr, top_add]
  · obtain ⟨r, hr⟩ := ha.2 hf
    rw [hr]
    by_cases hg : g
    · refine ⟨fun _ => ?_, fun h => absurd (Or.inr hg) h⟩
      rw [hb.1 hg, add_top]
    · obtain ⟨s, hs⟩ := hb.2 hg
      refine ⟨fun h => absurd h (by tauto), fun _ => ⟨r + s, ?_⟩⟩
      rw [hs, ieee_add]

abbrev Triple := EReal × EReal × IEEE

/-- What the two semirings have in common: `t` is the term of one element, given the two totals. -/
structure Cross (S : SR Triple) (t : Triple → EReal → EReal → IEEE) : Prop where
  mul : ∀ a b, S.mul a b = (a.1 + b.1, a.2.1 + b.2.1, IEEE.add a.2.2 b.2.2)
  sum : ∀ xs, S.sum xs = (lseE (xs.map fun x => x.1), lseE (xs.map fun x => x.2.1),
    ChainBackward.addAll (xs.map fun x => t x (lseE (xs.map fun x => x.1)) (lseE (xs.map fun x => x.2.1))))
  real : ∀ p q h P Q : ℝ, ∃ r : ℝ, t ((p : EReal), (q : EReal), .ofReal h) P Q = .ofReal r
  top : ∀ p q P Q : ℝ, t ((p : EReal), (q : EReal), some ⊤) P Q = some ⊤
  forbidden : ∀ p P Q : ℝ, t ((p : EReal), ⊥, .ofReal 0) P Q = some ⊤
  zero : S.zero = (((negInf : ℝ) : EReal), ((negInf : ℝ) : EReal), IEEE.ofReal 0)
  one : S.one = (((0 : ℝ) : EReal), ((0 : ℝ) : EReal), IEEE.ofReal 0)
  plain : Plain S

theorem logSm_coe (x y : ℝ) : logSmE (x : EReal) (y : EReal) = .ofReal (x - y) := ieee_sub x y

theorem logSm_bot_coe (y : ℝ) : logSmE ⊥ (y : EReal) = some ⊥ := by simp [logSmE, IEEE.sub, IEEE.add]

theorem exp_bot : IEEE.exp (some ⊥) = .ofReal 0 := by simp [IEEE.exp, IEEE.ofReal]

theorem ce_cross : Cross crossEntropyE fun x P Q => IEEE.sub (IEEE.mul x.2.2 (IEEE.exp (logSmE x.1 P))) (IEEE.mul (logSmE x.2.1 Q) (IEEE.exp (logSmE x.1 P))) where
  mul _ _ := rfl
  sum _ := rfl
  real p q h P Q := by
    simp only [logSm_coe, ieee_exp, ieee_mul, ieee_sub]
    exact ⟨_, rfl⟩
  top p q P Q := by
    simp only [logSm_coe, ieee_exp, ieee_mul]
    rw [top_mul (Real.exp_pos _), top_sub]
  forbidden p P Q := by
    simp only [logSm_coe, logSm_bot_coe, ieee_exp, ieee_mul]
    rw [bot_mul (Real.exp_pos _), sub_bot]
  zero := rfl
  one := rfl
  plain := ⟨fun _ => rfl, fun _ _ => rfl⟩

theorem kl_cross : Cross klE fun x P Q => IEEE.add (IEEE.sub (IEEE.mul x.2.2 (IEEE.exp (logSmE x.1 P))) (IEEE.mul (logSmE x.2.1 Q) (IEEE.exp (logSmE x.1 P))))
    (IEEE.mul (logSmE x.1 P) (IEEE.exp (logSmE x.1 P))) where
  mul _ _ := rfl
  sum _ := rfl
  real p q h P Q := by
    simp only [logSm_coe, ieee_exp, ieee_mul, ieee_sub, ieee_add]
    exact ⟨_, rfl⟩
  top p q P Q := by
    simp only [logSm_coe, ieee_exp, ieee_mul]
    rw [top_mul (Real.exp_pos _), top_sub, top_add]
  forbidden p P Q := by
    simp only [logSm_coe, logSm_bot_coe, ieee_exp, ieee_mul]
    rw [bot_mul (Real.exp_pos _), sub_bot, top_add]
  zero := rfl
  one := rfl
  plain := ⟨fun _ => rfl, fun _ _ => rfl⟩

/-- The totals are real; the expectation is `+inf` exactly if some structure of the bag uses a part that the second model forbids. -/
def Marks (a : Triple) (x : Bag ℕ) : Prop :=
  (∃ P Q : ℝ, a.1 = P ∧ a.2.1 = Q) ∧ (∃ s, s ∈ x.ms) ∧ Half a.2.2 (∃ s ∈ x.ms, s ≠ 0)

variable {S : SR Triple} {t : Triple → EReal → EReal → IEEE}

theorem terms (H : Cross S t) {as : List Triple} {xs : List (Bag ℕ)} (hf : List.Forall₂ Marks as xs) (P Q : ℝ) :
    Half (ChainBackward.addAll (as.map fun x => t x P Q)) (∃ s ∈ xs.sum.ms, s ≠ 0) := by
  induction hf with
  | nil => exact (half_real 0).congr ⟨fun h => h.elim, by rintro ⟨s, hs, -⟩; simp at hs⟩
  | @cons a x as xs h _ ih =>
    obtain ⟨⟨p, q, hp, hq⟩, -, h1⟩ := h
    obtain ⟨a1, a2, a3⟩ := a
    simp only at hp hq h1
    subst hp hq
    have ht : Half (t ((p : EReal), (q : EReal), a3) P Q) (∃ s ∈ x.ms, s ≠ 0) := by
      refine ⟨fun hs => ?_, fun hs => ?_⟩
      · rw [h1.1 hs, H.top]
      · obtain ⟨r, hr⟩ := h1.2 hs
        rw [hr]
        exact H.real _ _ _ _ _
    refine (ht.add ih).congr ?_
    rw [List.sum_cons, Bag.ms_add]
    simp only [Multiset.mem_add]
    constructor
    · rintro (⟨s, h, h'⟩ | ⟨s, h, h'⟩)
      exacts [⟨s, Or.inl h, h'⟩, ⟨s, Or.inr h, h'⟩]
    · rintro ⟨s, h | h, h'⟩
      exacts [Or.inl ⟨s, h, h'⟩, Or.inr ⟨s, h, h'⟩]

theorem totals {X : Type} {xs : List X} (hne : xs ≠ []) (f : X → EReal) (h : ∀ x ∈ xs, ∃ r : ℝ, f x = r) : ∃ r : ℝ, lseE (xs.map f) = r := by
  have e : xs.map f = xs.map fun x => (((f x).toReal : ℝ) : EReal) := by
    refine List.map_congr_left fun x hx => ?_
    obtain ⟨r, hr⟩ := h x hx
    rw [hr, EReal.toReal_coe]
  exact ⟨_, (congrArg lseE e).trans (lseE_coe (fun x => (f x).toReal) hne)⟩

theorem Cross.rel (H : Cross S t) : SRRel S Marks where
  mul := by
    rintro a b x y ⟨⟨P, Q, hP, hQ⟩, ⟨s, hs⟩, h1⟩ ⟨⟨P', Q', hP', hQ'⟩, ⟨s', hs'⟩, h2⟩
    rw [H.mul]
    refine ⟨⟨P + P', Q + Q', ?_, ?_⟩, ⟨s + s', Bag.mem_mul.2 ⟨s, hs, s', hs', rfl⟩⟩, (h1.add h2).congr ?_⟩
    · rw [hP, hP', EReal.coe_add]
    · rw [hQ, hQ', EReal.coe_add]
    · constructor
      · rintro (⟨u, hu, h0⟩ | ⟨u, hu, h0⟩)
        · exact ⟨u + s', Bag.mem_mul.2 ⟨u, hu, s', hs', rfl⟩, by omega⟩
        · exact ⟨s + u, Bag.mem_mul.2 ⟨s, hs, u, hu, rfl⟩, by omega⟩
      · rintro ⟨u, hu, h0⟩
        obtain ⟨v, hv, w, hw, rfl⟩ := Bag.mem_mul.1 hu
        by_cases hv0 : v = 0
        · exact Or.inr ⟨w, hw, by omega⟩
        · exact Or.inl ⟨v, hv, hv0⟩
  sum := by
    intro as xs hne hf
    obtain ⟨P, hP⟩ := totals hne (fun x : Triple => x.1) fun a ha => by
      obtain ⟨x, -, ⟨P, Q, h, -⟩, -⟩ := InfArgmax.forall₂_left hf a ha
      exact ⟨P, h⟩
    obtain ⟨Q, hQ⟩ := totals hne (fun x : Triple => x.2.1) fun a ha => by
      obtain ⟨x, -, ⟨P, Q, -, h⟩, -⟩ := InfArgmax.forall₂_left hf a ha
      exact ⟨Q, h⟩
    rw [H.sum, hP, hQ]
    refine ⟨⟨P, Q, rfl, rfl⟩, ?_, terms H hf P Q⟩
    obtain ⟨a, ha⟩ := List.exists_mem_of_ne_nil _ hne
    obtain ⟨x, hx, -, ⟨s, hs⟩, -⟩ := InfArgmax.forall₂_left hf a ha
    exact ⟨s, Bag.mem_list_sum.2 ⟨x, hx, hs⟩⟩

theorem marks_real {a : Triple} (P Q h : ℝ) (e : a = ((P : EReal), (Q : EReal), .ofReal h)) : Marks a (Bag.single 0) := by
  subst e
  refine ⟨⟨P, Q, rfl, rfl⟩, ⟨0, by simp⟩, (half_real h).congr ⟨fun h => h.elim, ?_⟩⟩
  rintro ⟨s, hs, h0⟩
  exact h0 (by simpa using hs)

theorem lse_forbidden (z : ℝ) : lseE [(z : EReal), ⊥] = z := by simp [lseE, Real.exp_pos]

/-- The entry of the chart at a transition that only the second model forbids. -/
theorem Cross.cell (H : Cross S t) (p : ℝ) : Marks (S.sum [S.zero, ((p : EReal), ⊥, .ofReal 0)]) (Bag.single 1) := by
  obtain ⟨P, hP⟩ := totals (xs := [(negInf : ℝ), p]) (by simp) (fun x => (x : EReal)) fun x _ => ⟨x, rfl⟩
  simp only [List.map_cons, List.map_nil] at hP
  rw [H.sum, H.zero]
  simp only [List.map_cons, List.map_nil, hP, lse_forbidden]
  refine ⟨⟨P, _, rfl, rfl⟩, ⟨1, by simp⟩, ⟨fun _ => ?_, fun h => absurd ⟨1, by simp, by simp⟩ h⟩⟩
  obtain ⟨r, hr⟩ := H.real negInf negInf 0 P negInf
  simp only [ChainBackward.addAll, List.foldr_cons, List.foldr_nil]
  rw [H.forbidden, hr, top_add, add_top]

variable {C : ℕ}

/-- The chart of a row, from its entries. -/
theorem core_cells {α R : Type} [CommSemiring R] {S : SR α} {ρ : α → R → Prop} (H : SRRel S ρ) (P : Plain S) (hC : 0 < C) {N logN : ℕ}
    {lens : ℕ → ℕ} {lp : ℕ → ℕ → Fin C → Fin C → α} {b : ℕ} (hl : lens b ≤ N) {ζ ω : R} (hz : ρ S.zero ζ) (h1 : ρ S.one ω) (w : ℕ → Fin C → Fin C → R)
    (hw : ∀ n < lens b - 1, ∀ i j, ρ (S.sum [S.zero, lp b n i j]) (w n i j)) :
    ρ (LinearChain.core S N logN lens lp b) (chainSum (2 ^ logN) fun n i j => if n < lens b - 1 then w n i j else (if i = j then ω else ζ) + ζ) := by
  apply core_rel H hC
  intro n hn i j
  simp only [maskedC, maskedL, P.detach, P.setData, SR.fill]
  by_cases hlt : n < lens b - 1
  · have : ¬ (n ≥ lens b - 1) := by omega
    simp only [hlt, this, decide_false, Bool.not_false, if_true, if_pos (show n < N - 1 by omega)]
    exact hw n hlt i j
  · have : n ≥ lens b - 1 := by omega
    simp only [hlt, this, decide_true, Bool.not_true, if_true, if_false]
    refine H.sum2 ?_ hz
    by_cases hij : i = j
    · simpa [hij] using h1
    · simpa [hij] using hz

open Classical in
/-- One transition that only the second model forbids makes the row `+inf`. -/
theorem Cross.core_top (H : Cross S t) (hC : 0 < C) {N logN : ℕ} (lens : ℕ → ℕ) (lp : ℕ → ℕ → Fin C → Fin C → Triple) (b : ℕ) (hl : lens b ≤ N)
    (hlog : N - 1 ≤ 2 ^ logN) (bad : ℕ → Fin C → Fin C → Prop)
    (hw : ∀ n < lens b - 1, ∀ i j, Marks (S.sum [S.zero, lp b n i j]) (Bag.single (if bad n i j then 1 else 0)))
    (hbad : ∃ n < lens b - 1, ∃ i j, bad n i j) : (LinearChain.core S N logN lens lp b).2.2 = some ⊤ := by
  have k := core_cells H.rel H.plain hC (logN := logN) hl (ζ := Bag.single 0) (ω := Bag.single 0) (marks_real _ _ _ H.zero) (marks_real 0 0 0 H.one)
    (fun n i j => Bag.single (if bad n i j then 1 else 0)) hw
  refine k.2.2.1 ?_
  obtain ⟨n, hn, i, j, hb⟩ := hbad
  have hn' : n < 2 ^ logN := by omega
  set y : Tags (2 ^ logN) C := fun m => if (m : ℕ) = n + 1 then i else j with hy
  refine ⟨_, Bag.mem_sum.2 ⟨y, mem_univ y, Bag.mem_prod.2
    ⟨fun m : Fin (2 ^ logN) => if (m : ℕ) < lens b - 1 then (if bad m (y m.succ) (y m.castSucc) then 1 else 0) else 0, fun m _ => ?_, rfl⟩⟩, ?_⟩
  · by_cases hm : (m : ℕ) < lens b - 1
    · simp only [hm, if_true, Bag.ms_single, Multiset.mem_singleton]
    · simp only [hm, if_false, Bag.ms_add, Multiset.mem_add, Bag.ms_single, Multiset.mem_singleton]
      exact Or.inr trivial
  · refine ne_of_gt (lt_of_lt_of_le zero_lt_one (le_trans (le_of_eq ?_) (single_le_sum (fun _ _ => Nat.zero_le _) (mem_univ (⟨n, hn'⟩ : Fin (2 ^ logN))))))
    simp [hn, hy, hb]

/-! ### Transitions that only the first model forbids -/

open ChainBounds ChainMask LinearChainLog

/-- The entry of the chart at a transition that only the first model forbids. -/
theorem ce_cell (q : ℝ) : crossEntropyE.sum [crossEntropyE.zero, (⊥, (q : EReal), .ofReal 0)] =
    embPair (negInf, lse [negInf, q], lse [negInf, q] - negInf) := by
  have hQ : lseE [((negInf : ℝ) : EReal), (q : EReal)] = (lse [negInf, q] : ℝ) := lseE_coe (fun x : ℝ => x) (xs := [negInf, q]) (by simp)
  rw [ce_cross.sum, ce_cross.zero]
  simp only [List.map_cons, List.map_nil, hQ, lse_forbidden, embPair, ChainBackward.addAll, List.foldr_cons, List.foldr_nil]
  have hb : logSmE ⊥ ((negInf : ℝ) : EReal) = some ⊥ := logSm_bot_coe _
  simp only [hb, exp_bot, logSm_coe, ieee_exp, ieee_mul, ieee_sub, ieee_add, sub_self, Real.exp_zero]
  congr 3
  ring

theorem exp_lse2 (x y : ℝ) : Real.exp (lse [x, y]) = Real.exp x + Real.exp y := by
  rw [lse, Real.exp_log] <;> simp <;> positivity

theorem map_chainSum {R R' : Type} [CommSemiring R] [CommSemiring R'] (g : R →+* R') (M : ℕ) (w : ℕ → Fin C → Fin C → R) :
    g (chainSum M w) = chainSum M fun n i j => g (w n i j) := by
  simp only [chainSum, seqProd, map_sum, map_prod]

open Classical in
/-- The two totals of a row, when only the first model forbids transitions. -/
theorem ce_total (hC : 0 < C) {N logN : ℕ} (lens : ℕ → ℕ) (A : ℕ → Fin C → Fin C → Prop) (φ ψ : ℕ → Fin C → Fin C → ℝ)
    (lp : ℕ → ℕ → Fin C → Fin C → Triple) (b : ℕ) (hl : lens b ≤ N)
    (hlp : ∀ n < lens b - 1, ∀ i j, lp b n i j = (if A n i j then (φ n i j : EReal) else ⊥, (ψ n i j : EReal), .ofReal 0)) :
    ∃ r : ℝ × ℝ × ℝ, LinearChain.core crossEntropyE N logN lens lp b = embPair r ∧
      dual (Real.exp r.1) (r.2.1 - r.2.2) = chainSum (2 ^ logN) (fun n i j => if n < lens b - 1 then
        dual (Real.exp negInf) negInf + (if A n i j then dual (Real.exp (φ n i j)) (ψ n i j) else 0) else
        (if i = j then 1 else dual (Real.exp negInf) negInf) + dual (Real.exp negInf) negInf) ∧
      Real.exp r.2.1 = chainSum (2 ^ logN) (fun n i j => cw negInf (lens b - 1) n i j + lw negInf ψ (lens b - 1) n i j) := by
  have hz : ceDual (negInf, negInf, 0) = (dual (Real.exp negInf) negInf, Real.exp negInf) := by simp [ceDual]
  have h1 : ceDual (0, 0, 0) = 1 := by simp [ceDual, dual_one]
  have R := ce_hom.rel (crossEntropyZ_rel negInf)
  obtain ⟨r, hr, hd⟩ := core_cells R ce_cross.plain hC (logN := logN) (lp := lp) hl (ζ := (dual (Real.exp negInf) negInf, Real.exp negInf)) (ω := 1)
    ⟨(negInf, negInf, 0), rfl, hz⟩ ⟨(0, 0, 0), rfl, h1⟩
    (fun n i j => (dual (Real.exp negInf) negInf, Real.exp negInf) + (if A n i j then dual (Real.exp (φ n i j)) (ψ n i j) else 0, Real.exp (ψ n i j)))
    (fun n hn i j => by
      rw [hlp n hn i j]
      by_cases hA : A n i j
      · simp only [hA, if_true]
        refine R.sum2 ⟨(negInf, negInf, 0), rfl, hz⟩ ⟨(φ n i j, ψ n i j, 0), rfl, ?_⟩
        simp [ceDual]
      · simp only [hA, if_false]
        refine ⟨_, ce_cell _, ?_⟩
        simp [ceDual, exp_lse2])
  refine ⟨r, hr, ?_, ?_⟩
  · have := congrArg (RingHom.fst (TrivSqZeroExt ℝ ℝ) ℝ) hd
    rw [map_chainSum] at this
    refine Eq.trans ?_ (this.trans (chainSum_congr fun n _ i j => ?_))
    · rfl
    · simp only [RingHom.coe_fst]
      split_ifs <;> simp
  · have := congrArg (RingHom.snd (TrivSqZeroExt ℝ ℝ) ℝ) hd
    rw [map_chainSum] at this
    refine Eq.trans ?_ (this.trans (chainSum_congr fun n _ i j => ?_))
    · rfl
    · simp only [RingHom.coe_snd, cw, lw]
      split_ifs <;> simp

theorem near_self (w g K : ℝ) (hw : 0 ≤ w) (hg : |g| ≤ K) : Near K (dual w g) (dual w g) := ⟨by simpa using hw, le_rfl, by
  simp only [snd_dual, fst_dual]
  rw [abs_mul, abs_of_nonneg hw, mul_comm]
  exact mul_le_mul_of_nonneg_right hg hw, by simp⟩

theorem near_zero (w g K : ℝ) (hw : 0 ≤ w) (hg : |g| ≤ K) : Near K 0 (dual w g) := ⟨by simp, by simpa using hw, by simp, by
  simp only [snd_dual, fst_dual, TrivSqZeroExt.snd_zero, TrivSqZeroExt.fst_zero, sub_zero]
  rw [abs_mul, abs_of_nonneg hw, mul_comm]
  exact mul_le_mul_of_nonneg_right hg hw⟩

open Classical in
theorem mask_dual (L : ℕ) (A : ℕ → Fin C → Fin C → Prop) (φ ψ : ℕ → Fin C → Fin C → ℝ) :
    chainSum L (fun n i j => if A n i j then dual (Real.exp (φ n i j)) (ψ n i j) else 0) =
      ∑ y : AllowedTags L A, dual (Real.exp (seqScore φ y.1)) (seqScore ψ y.1) := by
  rw [chainSum_mask]
  refine sum_congr rfl fun y _ => ?_
  rw [seqProd, prod_dual, ← Real.exp_sum]
  rfl

theorem maskCE_eq (hC : 0 < C) (L : ℕ) (A : ℕ → Fin C → Fin C → Prop) (φ ψ : ℕ → Fin C → Fin C → ℝ) (hne : Nonempty (AllowedTags L A)) :
    maskCE L A φ ψ = Real.log (chainZ L ψ) - (∑ y : AllowedTags L A, dual (Real.exp (seqScore φ y.1)) (seqScore ψ y.1)).snd /
      (∑ y : AllowedTags L A, dual (Real.exp (seqScore φ y.1)) (seqScore ψ y.1)).fst := by
  have hZ := maskZ_pos hne φ
  have e1 : (∑ y : AllowedTags L A, dual (Real.exp (seqScore φ y.1)) (seqScore ψ y.1)).fst = maskZ L A φ := by
    rw [ChainBounds.fst_sum]; simp [maskZ]
  have e2 : ∑ y : AllowedTags L A, Real.exp (seqScore φ y.1) / maskZ L A φ = 1 := by
    rw [← sum_div]; exact div_self hZ.ne'
  rw [e1, ChainBounds.snd_sum, sum_div, maskCE]
  simp only [log_chainP hC, snd_dual, mul_sub, sum_sub_distrib]
  rw [← sum_mul, e2]
  have e3 : ∀ y : AllowedTags L A, Real.exp (seqScore φ y.1) / maskZ L A φ * seqScore ψ y.1 = Real.exp (seqScore φ y.1) * seqScore ψ y.1 / maskZ L A φ := fun y => by ring
  simp only [e3]
  ring

open Classical in
/-- A row none of whose transitions is forbidden by the second model. -/
theorem ce_row (hC : 0 < C) {N logN : ℕ} (lens : ℕ → ℕ) (A : ℕ → Fin C → Fin C → Prop) (φ ψ : ℕ → Fin C → Fin C → ℝ)
    (lp : ℕ → ℕ → Fin C → Fin C → Triple) (b : ℕ) (hl : lens b ≤ N) (hlog : N - 1 ≤ 2 ^ logN)
    (hlp : ∀ n < lens b - 1, ∀ i j, lp b n i j = (if A n i j then (φ n i j : EReal) else ⊥, (ψ n i j : EReal), .ofReal 0)) :
    ∃ v : ℝ, (LinearChain.core crossEntropyE N logN lens lp b).2.2 = .ofReal v ∧
      ∀ B : ℝ, 0 ≤ B → 2 * (lens b - 1 : ℕ) * B < -negInf → (∀ n < lens b - 1, ∀ i j, A n i j → |φ n i j| ≤ B) → (∀ n < lens b - 1, ∀ i j, |ψ n i j| ≤ B) →
        Nonempty (AllowedTags (lens b - 1) A) → |v - maskCE (lens b - 1) A φ ψ| ≤ slack negInf (-B) (lens b - 1) (2 ^ logN - (lens b - 1)) C +
          2 * ((2 ^ logN : ℕ) * (|negInf| + B)) * slackM negInf B (lens b - 1) (2 ^ logN - (lens b - 1)) C := by
  obtain ⟨r, h1, h2, h3⟩ := ce_total hC (logN := logN) lens A φ ψ lp b hl hlp
  refine ⟨r.2.2, by rw [h1]; rfl, fun B hB hs hφ hψ hne => ?_⟩
  set L := lens b - 1
  set M := 2 ^ logN
  have hLM : L ≤ M := by omega
  have hz0 : (negInf : ℝ) ≤ 0 := by norm_num [negInf]
  have keyQ := Props.LinearChain.log_total hC negInf (-B) L M hLM ψ (fun n hn i j => (abs_le.1 (hψ n hn i j)).1) r.2.1 (h3.trans (chainSum_w hC _ _ _ _ hLM))
  set K := |(negInf : ℝ)| + B
  have hK : 0 ≤ K := by positivity
  have hzK : |(negInf : ℝ)| ≤ K := by simp only [K]; linarith
  set a := chainSum M (fun (n : ℕ) (i j : Fin C) => if n < L then
        dual (Real.exp negInf) negInf + (if A n i j then dual (Real.exp (φ n i j)) (ψ n i j) else 0) else
        (if i = j then 1 else dual (Real.exp negInf) negInf) + dual (Real.exp negInf) negInf) with ha
  have hd := near_zero (Real.exp negInf) negInf K (Real.exp_pos _).le hzK
  have hnear : Near (M * K) (chainSum M fun n i j => if n < L then (if A n i j then dual (Real.exp (φ n i j)) (ψ n i j) else 0) else if i = j then 1 else 0) a := by
    refine Near.chainSum fun n _ i j => ?_
    have h1 : Near K 1 1 := Near.one.mono hK
    by_cases hn : n < L
    · simp only [hn, if_true]
      by_cases hA : A n i j
      · simp only [hA, if_true]
        have := hd.add (near_self (Real.exp (φ n i j)) (ψ n i j) K (Real.exp_pos _).le (by have := hψ n hn i j; have := abs_nonneg (negInf : ℝ); simp only [K]; linarith))
        simpa using this
      · simpa [hA] using hd
    · simp only [hn, if_false]
      by_cases hij : i = j
      · simpa [hij] using h1.add hd
      · simpa [hij] using hd.add hd
  rw [chainSum_idpad hC (fun n i j => if A n i j then dual (Real.exp (φ n i j)) (ψ n i j) else 0) L M hLM, mask_dual] at hnear
  have hZ := maskZ_pos hne φ
  set t := ∑ y : AllowedTags L A, dual (Real.exp (seqScore φ y.1)) (seqScore ψ y.1) with ht
  have et : t.fst = maskZ L A φ := by rw [ht, ChainBounds.fst_sum]; simp [maskZ]
  have hr := hnear.ratio (by positivity) (by rw [et]; exact hZ)
  -- the share of the sequences that are not allowed
  set φ' : ℕ → Fin C → Fin C → ℝ := fun n i j => if A n i j then φ n i j else negInf with hφ'
  have hm : RowMask negInf L A φ' B := ⟨hB, fun n hn i j hA => by simp only [hφ', hA, if_true]; exact hφ n hn i j hA,
    fun n hn i j hA => by simp only [hφ', hA, if_false]; exact le_rfl, hs⟩
  have eZ : maskZ L A φ' = maskZ L A φ := by
    refine sum_congr rfl fun y _ => congrArg Real.exp (sum_congr rfl fun n _ => ?_)
    simp only [hφ', if_pos (y.2 n)]
  have hg := growthM_le hC hz0 hLM hm hne
  rw [eZ] at hg
  have hafst : a.fst ≤ chainSum M (fun n i j => cw negInf L n i j + lw negInf φ' L n i j) := by
    rw [ha, fst_chainSum]
    refine chainSum_mono (fun n _ i j => ?_) fun n _ i j => ?_
    · split_ifs <;> simp <;> positivity
    · simp only [cw, lw, hφ']
      split_ifs <;> simp [Real.exp_nonneg]
  have ha0 : 0 < a.fst := by have := hnear.le; rw [et] at this; exact hZ.trans_le this
  have hshare : (a.fst - t.fst) / a.fst ≤ slackM negInf B L (M - L) C := by
    refine le_trans ?_ hg
    rw [et, sub_div, sub_div, div_self ha0.ne', div_self (ha0.trans_le hafst).ne']
    have := div_le_div_of_nonneg_left hZ.le ha0 hafst
    linarith
  have e2 : a.snd / a.fst = r.2.1 - r.2.2 := by
    rw [← h2]
    simp only [snd_dual, fst_dual]; field_simp
  have hfin := hr.trans (mul_le_mul_of_nonneg_left hshare (by positivity))
  rw [e2] at hfin
  rw [maskCE_eq hC L A φ ψ hne]
  rw [abs_le] at keyQ hfin ⊢
  constructor <;> linarith

end InfCross
