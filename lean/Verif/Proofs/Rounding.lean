import Verif.Proofs.Consistency
import Verif.Spec.Rounding

/-! Error analysis: every dynamic program is run at the same time on the exact values, on bounds of the errors and on bounds of the magnitudes. -/

open Finset Semirings Spec Consistency

noncomputable section
namespace Rounding

/-- Bounds as a semiring: `ε` is added for every product, `w n` for every sum of `n` terms. -/
def cost (z ε : ℝ) (w : ℕ → ℝ) : SR ℝ where
  zero := z
  one := 0
  mul a b := a + b + ε
  sum xs := listMax xs + w xs.length
  raw0 := 0
  detach x := x
  setData _ v := v

/-- What the analysis needs of `LogSemiring` and `MaxSemiring`. -/
structure Lip (S : SR ℝ) : Prop where
  zero : S.zero = negInf
  one : S.one = 0
  raw0 : S.raw0 = 0
  mul : ∀ a b, S.mul a b = a + b
  detach : ∀ a, S.detach a = a
  setData : ∀ a b, S.setData a b = b
  close : ∀ {c : ℝ} {as xs : List ℝ}, as ≠ [] → List.Forall₂ (fun a x => |a - x| ≤ c) as xs → |S.sum as - S.sum xs| ≤ c
  small : ∀ {M : ℝ} {xs : List ℝ}, xs ≠ [] → (∀ x ∈ xs, |x| ≤ M) → |S.sum xs| ≤ M + Real.log xs.length

theorem listMax_le {xs : List ℝ} (hne : xs ≠ []) {c : ℝ} (h : ∀ x ∈ xs, x ≤ c) : listMax xs ≤ c := h _ (Bag.listMax_spec xs hne).1

theorem lse_shift {as : List ℝ} (hne : as ≠ []) (c : ℝ) : lse (as.map fun a => a + c) = lse as + c := by
  have h2 : as.map (fun a => a + c) ≠ [] := by simpa using hne
  apply Real.exp_injective
  rw [SemiringRel.exp_lse h2, Real.exp_add, SemiringRel.exp_lse hne, List.map_map, ← List.sum_map_mul_right]
  congr 1
  exact List.map_congr_left fun a _ => Real.exp_add a c

theorem lip_log : Lip log where
  zero := rfl
  one := rfl
  raw0 := rfl
  mul _ _ := rfl
  detach _ := rfl
  setData _ _ := rfl
  close := by
    intro c as xs hne h
    have hx := forall₂_ne h hne
    have h1 : lse as ≤ lse xs + c := by
      rw [← lse_shift hx]
      refine lse_mono hne ?_
      rw [List.forall₂_map_right_iff]
      exact h.imp fun a b h => by have := abs_le.1 h; linarith
    have h2 : lse xs ≤ lse as + c := by
      rw [← lse_shift hne]
      refine lse_mono hx ?_
      rw [List.forall₂_map_right_iff]
      exact (h.imp fun a b h => by have := abs_le.1 h; linarith : List.Forall₂ (fun a b => b ≤ a + c) as xs).flip
    show |lse as - lse xs| ≤ c
    rw [abs_le]; constructor <;> linarith
  small := by
    intro M xs hne h
    have hlen : 0 < (xs.length : ℝ) := by exact_mod_cast List.length_pos_iff.2 hne
    have hlog : 0 ≤ Real.log xs.length := Real.log_nonneg (by exact_mod_cast List.length_pos_iff.2 hne)
    have hup : lse xs ≤ M + Real.log xs.length := by
      rw [← Real.exp_le_exp, SemiringRel.exp_lse hne, Real.exp_add, Real.exp_log hlen, mul_comm]
      have := List.sum_le_card_nsmul (xs.map Real.exp) (Real.exp M) (by
        intro y hy; obtain ⟨x, hx, rfl⟩ := List.mem_map.1 hy; exact Real.exp_le_exp.2 (abs_le.1 (h x hx)).2)
      simpa using this
    obtain ⟨x, hx⟩ := List.exists_mem_of_ne_nil xs hne
    have hlow := (abs_le.1 (h x hx)).1.trans (le_lse hx)
    show |lse xs| ≤ _
    rw [abs_le]; constructor <;> linarith

theorem lip_max : Lip Semirings.max where
  zero := rfl
  one := rfl
  raw0 := rfl
  mul _ _ := rfl
  detach _ := rfl
  setData _ _ := rfl
  close := by
    intro c as xs hne h
    have hx := forall₂_ne h hne
    show |listMax as - listMax xs| ≤ c
    rw [abs_le]
    constructor
    · obtain ⟨a, ha, hb⟩ := exists_rel h.flip (Bag.listMax_spec xs hx).1
      have h1 := (Bag.listMax_spec as hne).2 a ha
      have := abs_le.1 hb
      linarith
    · obtain ⟨a, ha, hb⟩ := exists_rel h (Bag.listMax_spec as hne).1
      have h1 := (Bag.listMax_spec xs hx).2 a ha
      have := abs_le.1 hb
      linarith
  small := by
    intro M xs hne h
    have hlog : 0 ≤ Real.log xs.length := Real.log_nonneg (by exact_mod_cast List.length_pos_iff.2 hne)
    have := h _ (Bag.listMax_spec xs hne).1
    show |listMax xs| ≤ _
    linarith

/-- Exact value, error bound and magnitude bound. -/
def triple (S : SR ℝ) (ε : ℝ) : SR (ℝ × ℝ × ℝ) := prod S (prod (cost 0 ε fun _ => ε) (cost 100000 0 fun n => Real.log n))

/-- The bounds hold, if the magnitudes are in range. -/
def Good (R : ℝ) (a : ℝ) (x : ℝ × ℝ × ℝ) : Prop := 0 ≤ x.2.1 ∧ 0 ≤ x.2.2 ∧ (x.2.1 + x.2.2 ≤ R → |a - x.1| ≤ x.2.1 ∧ |x.1| ≤ x.2.2)

theorem srp {S' S : SR ℝ} {R ε : ℝ} (L : Lip S) (H : Rounded S' S R ε) (h1 : 0 ≤ ε) : SRP S' (triple S ε) (Good R) where
  zero := by
    refine ⟨le_refl (0 : ℝ), by norm_num [triple, prod, cost], fun _ => ?_⟩
    rw [H.zero]
    simp only [triple, prod, cost, L.zero, sub_self, abs_zero]
    exact ⟨le_refl _, by norm_num [negInf]⟩
  one := by
    refine ⟨le_refl (0 : ℝ), le_refl (0 : ℝ), fun _ => ?_⟩
    rw [H.one]
    simp only [triple, prod, cost, L.one, sub_self, abs_zero]
    exact ⟨le_refl _, le_refl _⟩
  raw0 := by
    refine ⟨le_refl (0 : ℝ), le_refl (0 : ℝ), fun _ => ?_⟩
    rw [H.raw0]
    simp only [triple, prod, cost, L.raw0, sub_self, abs_zero]
    exact ⟨le_refl _, le_refl _⟩
  mul := by
    rintro a b x y ⟨ha1, ha2, ha⟩ ⟨hb1, hb2, hb⟩
    simp only [Good, triple, prod, cost, L.mul] at *
    refine ⟨by linarith, by linarith, fun hR => ?_⟩
    obtain ⟨a1, a2⟩ := ha (by linarith)
    obtain ⟨b1, b2⟩ := hb (by linarith)
    have hxy : |x.1 + y.1| ≤ x.2.2 + y.2.2 := (abs_add_le _ _).trans (add_le_add a2 b2)
    have hd : |a + b - (x.1 + y.1)| ≤ x.2.1 + y.2.1 := by
      rw [show a + b - (x.1 + y.1) = (a - x.1) + (b - y.1) by ring]
      exact (abs_add_le _ _).trans (add_le_add a1 b1)
    have hab : |a + b| ≤ R := by
      have := abs_add_le (a + b - (x.1 + y.1)) (x.1 + y.1)
      rw [sub_add_cancel] at this
      linarith
    have hr := H.mul a b (by rw [L.mul]; exact hab)
    rw [L.mul] at hr
    refine ⟨?_, by linarith⟩
    have := abs_add_le (S'.mul a b - (a + b)) (a + b - (x.1 + y.1))
    rw [sub_add_sub_cancel] at this
    linarith
  sum := by
    intro as xs hne h
    have hx := forall₂_ne h hne
    have hx1 : xs.map (fun x => x.2.1) ≠ [] := by simpa using hx
    have hx2 : xs.map (fun x => x.2.2) ≠ [] := by simpa using hx
    have hlen : 1 ≤ xs.length := List.length_pos_iff.2 hx
    have hlog : 0 ≤ Real.log xs.length := Real.log_nonneg (by exact_mod_cast hlen)
    have e1 : (xs.map Prod.snd).map Prod.fst = xs.map fun x => x.2.1 := by rw [List.map_map]; rfl
    have e2 : (xs.map Prod.snd).map Prod.snd = xs.map fun x => x.2.2 := by rw [List.map_map]; rfl
    have m1 := Bag.listMax_spec _ hx1
    have m2 := Bag.listMax_spec _ hx2
    have nonneg : ∀ x ∈ xs, 0 ≤ x.2.1 ∧ 0 ≤ x.2.2 := by
      intro x hxm
      obtain ⟨a, -, hr⟩ := exists_rel h.flip hxm
      exact ⟨hr.1, hr.2.1⟩
    have p1 : 0 ≤ listMax (xs.map fun x => x.2.1) := by
      obtain ⟨x, hxm, he⟩ := List.mem_map.1 m1.1
      rw [← he]; exact (nonneg x hxm).1
    have p2 : 0 ≤ listMax (xs.map fun x => x.2.2) := by
      obtain ⟨x, hxm, he⟩ := List.mem_map.1 m2.1
      rw [← he]; exact (nonneg x hxm).2
    simp only [Good, triple, prod, cost, e1, e2, List.length_map]
    refine ⟨by linarith, by linarith, fun hR => ?_⟩
    set E := listMax (xs.map fun x => x.2.1)
    set M := listMax (xs.map fun x => x.2.2)
    have hE : ∀ x ∈ xs, x.2.1 ≤ E := fun x hxm => m1.2 _ (List.mem_map.2 ⟨x, hxm, rfl⟩)
    have hM : ∀ x ∈ xs, x.2.2 ≤ M := fun x hxm => m2.2 _ (List.mem_map.2 ⟨x, hxm, rfl⟩)
    have hrel : List.Forall₂ (fun a x => |a - x| ≤ E) as (xs.map Prod.fst) := by
      rw [List.forall₂_map_right_iff]
      have : List.Forall₂ (fun a x => Good R a x ∧ x ∈ xs) as xs := by
        clear * - h
        have key : ∀ ys, (∀ y ∈ ys, y ∈ xs) → ∀ as, List.Forall₂ (Good R) as ys → List.Forall₂ (fun a x => Good R a x ∧ x ∈ xs) as ys := by
          intro ys hys as hf
          induction hf with
          | nil => exact .nil
          | cons h _ ih => exact .cons ⟨h, hys _ (by simp)⟩ (ih fun y hy => hys y (by simp [hy]))
        exact key xs (fun y hy => hy) as h
      refine this.imp fun a x hax => ?_
      have := hax.1.2.2 (by have := hE x hax.2; have := hM x hax.2; linarith)
      exact this.1.trans (hE x hax.2)
    have hsmall : ∀ y ∈ xs.map Prod.fst, |y| ≤ M := by
      intro y hy
      obtain ⟨x, hxm, rfl⟩ := List.mem_map.1 hy
      obtain ⟨a, -, hr⟩ := exists_rel h.flip hxm
      exact (hr.2.2 (by have := hE x hxm; have := hM x hxm; linarith)).2.trans (hM x hxm)
    have k1 := L.close hne hrel
    have k2 := L.small (by simpa using hx) hsmall
    rw [List.length_map] at k2
    have hin : |S.sum as| ≤ R := by
      have := abs_add_le (S.sum as - S.sum (xs.map Prod.fst)) (S.sum (xs.map Prod.fst))
      rw [sub_add_cancel] at this
      linarith
    have k3 := H.sum as hne hin
    refine ⟨?_, k2⟩
    have := abs_add_le (S'.sum as - S.sum as) (S.sum as - S.sum (xs.map Prod.fst))
    rw [sub_add_sub_cancel] at this
    linarith
  detach := by
    rintro a x ⟨h1, h2, h3⟩
    refine ⟨h1, h2, fun hR => ?_⟩
    have := h3 hR
    rw [H.detach, L.detach]
    simp only [triple, prod, L.detach]
    exact this
  setData := by
    rintro a b x y - ⟨h1, h2, h3⟩
    refine ⟨h1, h2, fun hR => ?_⟩
    have := h3 hR
    rw [H.setData, L.setData]
    simp only [triple, prod, L.setData]
    exact this

/-- All returned values satisfy `P`. -/
def AllE {α : Type} (P : α → Prop) (r : Except PyErr (List α)) : Prop := ∀ vs, r = .ok vs → ∀ v ∈ vs, P v

theorem fst_rel (S : SR ℝ) (ε : ℝ) : SRP (triple S ε) S fun a b => a.1 = b := prod_fst _ _

theorem err_rel (S : SR ℝ) (ε : ℝ) : SRP (triple S ε) (cost 0 ε fun _ => ε) fun a b => a.2.1 = b where
  zero := rfl
  one := rfl
  raw0 := rfl
  mul := by rintro a b _ _ rfl rfl; rfl
  sum := by intro as xs _ h; rw [← forall₂_map h]; simp only [triple, prod, List.map_map]; rfl
  detach := by rintro a _ rfl; rfl
  setData := by rintro a b _ _ rfl rfl; rfl

theorem mag_rel (S : SR ℝ) (ε : ℝ) : SRP (triple S ε) (cost 100000 0 fun n => Real.log n) fun a b => a.2.2 = b where
  zero := rfl
  one := rfl
  raw0 := rfl
  mul := by rintro a b _ _ rfl rfl; rfl
  sum := by intro as xs _ h; rw [← forall₂_map h]; simp only [triple, prod, List.map_map]; rfl
  detach := by rintro a _ rfl; rfl
  setData := by rintro a b _ _ rfl rfl; rfl

/-- How the four runs are put together. -/
theorem combine {R E M : ℝ} {x u v w : Except PyErr (List ℝ)} {y : Except PyErr (List (ℝ × ℝ × ℝ))} (h1 : RelE (Good R) x y) (h2 : RelE (fun a b => a.1 = b) y u)
    (h3 : RelE (fun a b => a.2.1 = b) y v) (h4 : RelE (fun a b => a.2.2 = b) y w) (hv : AllE (· ≤ E) v) (hw : AllE (· ≤ M) w) (hR : E + M ≤ R) :
    RelE (fun a b => |a - b| ≤ E) x u := by
  have h2 := RelE.map_eq h2
  have h3 := RelE.map_eq h3
  have h4 := RelE.map_eq h4
  subst h2 h3 h4
  rcases x with e | as <;> rcases y with e' | bs
  · exact h1
  · exact h1
  · exact h1
  · have hv : ∀ b ∈ bs, b.2.1 ≤ E := fun b hb => hv _ rfl _ (List.mem_map.2 ⟨b, hb, rfl⟩)
    have hw : ∀ b ∈ bs, b.2.2 ≤ M := fun b hb => hw _ rfl _ (List.mem_map.2 ⟨b, hb, rfl⟩)
    have h1 : List.Forall₂ (Good R) as bs := h1
    show List.Forall₂ _ as (bs.map _)
    rw [List.forall₂_map_right_iff]
    clear * - h1 hv hw hR
    induction h1 with
    | nil => exact .nil
    | cons h _ ih =>
      refine .cons ?_ (ih (fun b hb => hv b (by simp [hb])) fun b hb => hw b (by simp [hb]))
      have e1 := hv _ (List.mem_cons_self)
      have e2 := hw _ (List.mem_cons_self)
      exact (h.2.2 (by linarith)).1.trans e1

/-! ### Bounds of the bounds -/

variable {z ε D W : ℝ} {w : ℕ → ℝ}

theorem cost_sum_le {xs : List ℝ} (hne : xs ≠ []) {c : ℝ} (h : ∀ x ∈ xs, x ≤ c) (hw : w xs.length ≤ W) : (cost z ε w).sum xs ≤ c + W :=
  add_le_add (listMax_le hne h) hw

theorem cost_sum_range {n : ℕ} (hn : 0 < n) {f : ℕ → ℝ} {c : ℝ} (h : ∀ i < n, f i ≤ c) (hw : w n ≤ W) : (cost z ε w).sum ((List.range n).map f) ≤ c + W := by
  refine cost_sum_le (by intro hc; have := congrArg List.length hc; simp at this; omega) ?_ (by simpa using hw)
  intro x hx
  obtain ⟨i, hi, rfl⟩ := List.mem_map.1 hx
  exact h i (List.mem_range.1 hi)

theorem cost_sum_ofFn {n : ℕ} (hn : 0 < n) {f : Fin n → ℝ} {c : ℝ} (h : ∀ i, f i ≤ c) (hw : w n ≤ W) : (cost z ε w).sum (List.ofFn f) ≤ c + W := by
  refine cost_sum_le (by intro hc; have := congrArg List.length hc; simp at this; omega) ?_ (by simpa using hw)
  intro x hx
  obtain ⟨i, rfl⟩ := List.mem_ofFn.1 hx
  exact h i

theorem cost_dot_range {n : ℕ} (hn : 0 < n) {f g : ℕ → ℝ} {c : ℝ} (h : ∀ i < n, f i + g i ≤ c) (hw : w n ≤ W) :
    (cost z ε w).dot ((List.range n).map f) ((List.range n).map g) ≤ c + ε + W := by
  rw [SR.dot, List.zipWith_map, List.zipWith_self]
  exact cost_sum_range hn (fun i hi => by show f i + g i + ε ≤ c + ε; linarith [h i hi]) hw

theorem cost_fill {a b : ℝ} {m : Bool} {c : ℝ} (ha : a ≤ c) (hb : b ≤ c) : SR.fill a m b ≤ c := by unfold SR.fill; split <;> assumption

/-- The scan. -/
theorem cost_scan {m : ℕ} (hm : 0 < m) (hw : w m ≤ W) (k : ℕ) : ∀ {c : ℕ → Fin m → Fin m → ℝ} {g : ℕ → ℝ}, (∀ n < 2 ^ k, ∀ i j, c n i j ≤ g n) →
    ∀ i j, LinearChain.scan (cost z ε w) k c 0 i j ≤ ∑ n ∈ range (2 ^ k), g n + (2 ^ k - 1) * (ε + W) := by
  induction k with
  | zero =>
    intro c g h i j
    have := h 0 (by simp) i j
    simpa [LinearChain.scan] using this
  | succ k ih =>
    intro c g h i j
    have := ih (c := LinearChain.scanStep (cost z ε w) c) (g := fun n => g (2 * n + 1) + g (2 * n) + (ε + W)) ?_ i j
    · refine this.trans (le_of_eq ?_)
      rw [sum_add_distrib, sum_const, card_range, nsmul_eq_mul]
      have e : ∀ q : ℕ, ∑ n ∈ range (2 * q), g n = ∑ n ∈ range q, (g (2 * n + 1) + g (2 * n)) := by
        intro q
        induction q with
        | zero => simp
        | succ q ihq => rw [show 2 * (q + 1) = 2 * q + 1 + 1 by ring, sum_range_succ, sum_range_succ, ihq, sum_range_succ]; ring
      rw [pow_succ, mul_comm (2 ^ k) 2, e]
      push_cast
      ring
    · intro n hn i j
      have h1 : 2 * n + 1 < 2 ^ (k + 1) := by rw [Nat.pow_succ]; omega
      have h2 : 2 * n < 2 ^ (k + 1) := by rw [Nat.pow_succ]; omega
      have := cost_sum_ofFn (z := z) (ε := ε) (w := w) (W := W) hm (f := fun l => (cost z ε w).mul (c (2 * n + 1) i l) (c (2 * n) l j)) (c := g (2 * n + 1) + g (2 * n) + ε)
        (fun l => by show c _ _ _ + c _ _ _ + ε ≤ _; linarith [h _ h1 i l, h _ h2 l j]) hw
      exact this.trans (by linarith)

/-! #### LinearChain -/

theorem masked_le {C N binN : ℕ} (hz : 0 ≤ z) (hzD : z ≤ D) (lens : ℕ → ℕ) {lp : ℕ → ℕ → Fin C → Fin C → ℝ} (hp : ∀ b n i j, lp b n i j ≤ D) (hw2 : w 2 ≤ W) {b n : ℕ}
    (hn : n < binN) (i j : Fin C) : LinearChain.masked (cost z ε w) N binN lens lp b n i j ≤ (if n < N - 1 then D else z) + W := by
  have hmod : (b * binN + n) % binN = n := by rw [Nat.add_comm, Nat.add_mul_mod_self_right, Nat.mod_eq_of_lt hn]
  have hD : z ≤ if n < N - 1 then D else z := by split <;> linarith
  refine cost_sum_le (by simp) ?_ hw2
  intro x hx
  simp only [List.mem_cons, List.not_mem_nil, or_false] at hx
  rcases hx with rfl | rfl
  · show SR.fill _ _ _ ≤ _
    refine cost_fill ?_ hD
    show SR.fill _ _ _ ≤ _
    exact cost_fill hD (hz.trans hD)
  · show SR.fill _ _ _ ≤ _
    refine cost_fill ?_ hD
    show LinearChain.big _ _ _ _ _ _ _ ≤ _
    unfold LinearChain.big
    rw [hmod]
    split
    · exact hp _ _ _ _
    · exact hz

theorem cost_chain {p : T4 ℝ} {Q : ℕ} (hC : 0 < p.d2) (hz : 0 ≤ z) (hzD : z ≤ D) (hp : ∀ b n i j, p.get b n i j ≤ D) (hw : ∀ n ≤ Q, w n ≤ W) (hQ2 : 2 ≤ Q) (hQ : p.d2 ≤ Q)
    (lengths : Option (List ℕ)) :
    AllE (· ≤ p.d1 * D + (2 ^ Nat.clog 2 p.d1 - p.d1) * z + 2 ^ Nat.clog 2 p.d1 * W + (2 ^ Nat.clog 2 p.d1 - 1) * (ε + W) + 2 * W)
      (LinearChain.logpartition (cost z ε w) p lengths) := by
  intro vs hvs v hv
  unfold LinearChain.logpartition at hvs
  rcases hc : LinearChain.checkPotentials p lengths with e | lens
  · rw [hc] at hvs; cases hvs
  rw [hc] at hvs
  unfold Struct.binLength at hvs
  by_cases h0 : p.d1 = 0
  · rw [if_pos h0] at hvs; cases hvs
  rw [if_neg h0] at hvs
  replace hvs : (if lens.length = p.d0 then (.ok ((List.range p.d0).map fun b =>
      LinearChain.core (cost z ε w) (C := p.d2) (p.d1 + 1) (Nat.clog 2 p.d1) (fun b => lens.getD b 0) (fun b n i j => p.get b n i j) b) : Except PyErr (List ℝ)) else .error .runtime) = .ok vs := hvs
  split at hvs
  swap
  · cases hvs
  simp only [Except.ok.injEq] at hvs
  subst hvs
  obtain ⟨b, -, rfl⟩ := List.mem_map.1 hv
  set k := Nat.clog 2 p.d1
  have hk : p.d1 ≤ 2 ^ k := Nat.le_pow_clog (by norm_num) _
  have hsc := cost_scan (z := z) (ε := ε) (w := w) (W := W) hC (hw _ hQ) k
    (c := LinearChain.masked (cost z ε w) (C := p.d2) (p.d1 + 1) (2 ^ k) (fun b => lens.getD b 0) (fun b n i j => p.get b n i j) b)
    (g := fun n => (if n < p.d1 then D else z) + W)
    (fun n hn i j => masked_le hz hzD _ (fun b n i j => hp b n i j) (hw _ hQ2) hn i j)
  have hsum : ∑ n ∈ range (2 ^ k), ((if n < p.d1 then D else z) + W) = p.d1 * D + (2 ^ k - p.d1) * z + 2 ^ k * W := by
    rw [sum_add_distrib, sum_const, card_range, nsmul_eq_mul]
    obtain ⟨q, hq⟩ := Nat.exists_eq_add_of_le hk
    have hq' : (2 : ℝ) ^ k = p.d1 + q := by exact_mod_cast hq
    rw [hq, sum_range_add, sum_congr rfl (g := fun _ => D) (fun n hn => if_pos (mem_range.1 hn)), sum_congr rfl (g := fun _ => z) (fun n _ => if_neg (by omega))]
    rw [hq']
    simp
  rw [hsum] at hsc
  have := cost_sum_ofFn (z := z) (ε := ε) (w := w) (W := W) hC (fun i => cost_sum_ofFn (z := z) (ε := ε) (w := w) (W := W) hC (fun j => hsc i j) (hw _ hQ)) (hw _ hQ)
  exact this.trans (by linarith)

/-! #### SemiMarkov -/

theorem semi_le {K1 C N binN : ℕ} (hz : 0 ≤ z) (hzD : z ≤ D) (hW : 0 ≤ W) (lens : ℕ → ℕ) {lp : ℕ → ℕ → ℕ → ℕ → ℕ → ℝ} (hp : ∀ b n k i j, lp b n k i j ≤ D) (hw2 : w 2 ≤ W) {b n : ℕ}
    (hn : n < binN) (i j : Fin (K1 * C)) : SemiMarkov.chart (cost z ε w) K1 C N binN lens lp b n i j ≤ (if n < N - 1 then D else z) + W := by
  have hmod : (b * binN + n) % binN = n := by rw [Nat.add_comm, Nat.add_mul_mod_self_right, Nat.mod_eq_of_lt hn]
  have hD : z ≤ if n < N - 1 then D else z := by split <;> linarith
  have hp' : ∀ b' n' k c1 c2, n' = n → SemiMarkov.big (cost z ε w) N lp b' n' k c1 c2 ≤ if n < N - 1 then D else z := by
    rintro b' _ k c1 c2 rfl
    unfold SemiMarkov.big
    split
    · exact hp _ _ _ _ _
    · exact hz
  generalize (if n < N - 1 then D else z) = T at hD hp'
  have hc : ∀ r k1 k2 c1 c2, Struct.flat binN (SemiMarkov.chartInit (cost z ε w)) r k1 k2 c1 c2 ≤ T := fun r k1 k2 c1 c2 => by
    show SR.fill _ _ _ ≤ _
    exact cost_fill hD (hz.trans hD)
  show SR.fill _ _ _ ≤ _
  refine cost_fill ?_ (by show (0 : ℝ) ≤ _; linarith)
  show (if _ then _ else _) ≤ _
  split_ifs with h
  · refine cost_sum_le (by simp) ?_ hw2
    intro x hx
    simp only [List.mem_cons, List.not_mem_nil, or_false] at hx
    rcases hx with rfl | rfl
    · rw [if_pos h]
      exact cost_fill (c := T) (hc 0 _ _ _ _) hD
    · exact cost_fill (c := T) (hp' _ _ _ _ _ hmod) hD
  · exact (hc _ _ _ _ _).trans (by linarith)

theorem cost_semi {p : T5 ℝ} {Q : ℕ} (hC : 0 < p.d3) (hz : 0 ≤ z) (hzD : z ≤ D) (hW : 0 ≤ W) (hp : ∀ b n k i j, p.get b n k i j ≤ D) (hw : ∀ n ≤ Q, w n ≤ W) (hQ2 : 2 ≤ Q)
    (hQ : (p.d2 - 1) * p.d3 ≤ Q) (lengths : Option (List ℕ)) :
    AllE (· ≤ p.d1 * D + (2 ^ Nat.clog 2 p.d1 - p.d1) * z + 2 ^ Nat.clog 2 p.d1 * W + (2 ^ Nat.clog 2 p.d1 - 1) * (ε + W) + 2 * W)
      (SemiMarkov.logpartition (cost z ε w) p lengths) := by
  intro vs hvs v hv
  unfold SemiMarkov.logpartition at hvs
  rcases hc : SemiMarkov.checkPotentials p lengths with e | lens
  · rw [hc] at hvs; cases hvs
  rw [hc] at hvs
  unfold Struct.binLength at hvs
  by_cases h0 : p.d1 = 0
  · rw [if_pos h0] at hvs; cases hvs
  rw [if_neg h0] at hvs
  replace hvs : (if p.d2 = 0 then .error .runtime else if hK : 0 < p.d2 - 1 then
      if lens.length = p.d0 then (.ok ((List.range p.d0).map fun b =>
      SemiMarkov.core (cost z ε w) p.d3 hK (p.d1 + 1) (Nat.clog 2 p.d1) (fun b => lens.getD b 0) p.get b) : Except PyErr (List ℝ)) else .error .runtime else .error .index) = .ok vs := hvs
  split at hvs
  · cases hvs
  split at hvs
  swap
  · cases hvs
  rename_i hK
  split at hvs
  swap
  · cases hvs
  simp only [Except.ok.injEq] at hvs
  subst hvs
  obtain ⟨b, -, rfl⟩ := List.mem_map.1 hv
  set k := Nat.clog 2 p.d1
  have hk : p.d1 ≤ 2 ^ k := Nat.le_pow_clog (by norm_num) _
  have hsc := cost_scan (z := z) (ε := ε) (w := w) (W := W) (Nat.mul_pos hK hC) (hw _ hQ) k
    (c := SemiMarkov.chart (cost z ε w) (p.d2 - 1) p.d3 (p.d1 + 1) (2 ^ k) (fun b => lens.getD b 0) p.get b)
    (g := fun n => (if n < p.d1 then D else z) + W)
    (fun n hn i j => semi_le hz hzD hW _ (fun b n k i j => hp b n k i j) (hw _ hQ2) hn i j)
  have hsum : ∑ n ∈ range (2 ^ k), ((if n < p.d1 then D else z) + W) = p.d1 * D + (2 ^ k - p.d1) * z + 2 ^ k * W := by
    rw [sum_add_distrib, sum_const, card_range, nsmul_eq_mul]
    obtain ⟨q, hq⟩ := Nat.exists_eq_add_of_le hk
    have hq' : (2 : ℝ) ^ k = p.d1 + q := by exact_mod_cast hq
    rw [hq, sum_range_add, sum_congr rfl (g := fun _ => D) (fun n hn => if_pos (mem_range.1 hn)), sum_congr rfl (g := fun _ => z) (fun n _ => if_neg (by omega))]
    rw [hq']
    simp
  rw [hsum] at hsc
  have hwC := hw p.d3 ((Nat.le_mul_of_pos_left _ hK).trans hQ)
  have := cost_sum_ofFn (z := z) (ε := ε) (w := w) (W := W) hC
    (f := fun i : Fin p.d3 => (cost z ε w).sum (List.ofFn fun j : Fin p.d3 => LinearChain.scan (cost z ε w) k
      (SemiMarkov.chart (cost z ε w) (p.d2 - 1) p.d3 (p.d1 + 1) (2 ^ k) (fun b => lens.getD b 0) p.get b) 0
      ⟨i, Nat.lt_of_lt_of_le i.2 (Nat.le_mul_of_pos_left p.d3 hK)⟩ ⟨j, Nat.lt_of_lt_of_le j.2 (Nat.le_mul_of_pos_left p.d3 hK)⟩))
    (fun i => cost_sum_ofFn (z := z) (ε := ε) (w := w) (W := W) hC (fun j => hsc _ _) hwC) hwC
  exact this.trans (by linarith)

/-! #### TreeCRF -/

theorem tree_le {N Q : ℕ} {red : ℕ → ℕ → ℕ → ℝ} (hz : 0 ≤ z) (hzD : z ≤ D) (hε : 0 ≤ ε) (hW : 0 ≤ W) (hr : ∀ b i j, red b i j ≤ D) (hw : ∀ n ≤ Q, w n ≤ W) (hQ : N ≤ Q) :
    ∀ b i v, (CKYCRF.charts (cost z ε w) N red).1 b i v ≤ (2 * v + 1) * D + v * (2 * ε + W) ∧
      (CKYCRF.charts (cost z ε w) N red).2 b i v ≤ (2 * (N - 1 - v : ℕ) + 1) * D + (N - 1 - v : ℕ) * (2 * ε + W) := by
  unfold CKYCRF.charts
  have hD : 0 ≤ D := hz.trans hzD
  have hl : ∀ w ∈ List.range (N - 1), w + 1 < N := fun w hw => by have := List.mem_range.1 hw; omega
  have hzle : ∀ v : ℕ, z ≤ (2 * (v : ℝ) + 1) * D + v * (2 * ε + W) := fun v => by
    have h1 : 0 ≤ 2 * (v : ℝ) * D := by positivity
    have h2 : 0 ≤ (v : ℝ) * (2 * ε + W) := by positivity
    linarith
  have base : ∀ b i v, (CKYCRF.init (cost z ε w) N red).1 b i v ≤ (2 * v + 1) * D + v * (2 * ε + W) ∧
      (CKYCRF.init (cost z ε w) N red).2 b i v ≤ (2 * (N - 1 - v : ℕ) + 1) * D + (N - 1 - v : ℕ) * (2 * ε + W) := by
    intro b i v
    constructor
    · simp only [CKYCRF.init]
      split
      · rename_i h; rw [h.2]; simpa using hr b i i
      · exact hzle v
    · simp only [CKYCRF.init]
      split
      · rename_i h; rw [h.2]; simpa using hr b i i
      · exact hzle _
  revert hl base
  generalize CKYCRF.init (cost z ε w) N red = st
  generalize List.range (N - 1) = l
  induction l generalizing st with
  | nil => intro _ base; exact base
  | cons k l ih =>
    intro hl base
    rw [List.foldl_cons]
    refine ih _ (fun w hw => hl w (by simp [hw])) ?_
    have hk : k + 1 < N := hl k (by simp)
    have new : ∀ b i, (cost z ε w).times ((cost z ε w).dot ((List.range (k + 1)).map fun u => st.1 b i u) ((List.range (k + 1)).map fun u => st.2 b (k + 1 + i) (N - (k + 1) + u)))
        [red b i (i + (k + 1))] ≤ (2 * (k + 1 : ℕ) + 1) * D + (k + 1 : ℕ) * (2 * ε + W) := by
      intro b i
      have hdot := cost_dot_range (z := z) (ε := ε) (w := w) (W := W) (n := k + 1) (by omega) (f := fun u => st.1 b i u) (g := fun u => st.2 b (k + 1 + i) (N - (k + 1) + u))
        (c := (2 * k + 2) * D + k * (2 * ε + W)) ?_ (hw _ (by omega))
      · show _ + red b i (i + (k + 1)) + ε ≤ _
        have := hr b i (i + (k + 1))
        push_cast
        linarith
      · intro u hu
        have h1 := (base b i u).1
        have h2 := (base b (k + 1 + i) (N - (k + 1) + u)).2
        have e : N - 1 - (N - (k + 1) + u) = k - u := by omega
        rw [e] at h2
        have e2 : ((k - u : ℕ) : ℝ) = k - u := by rw [Nat.cast_sub (by omega)]
        rw [e2] at h2
        beta_reduce
        linarith
    intro b i v
    constructor
    · simp only [CKYCRF.step]
      split
      · rename_i h; rw [h.2]; exact new b i
      · exact (base b i v).1
    · simp only [CKYCRF.step]
      split
      · rename_i h
        rw [h.2.2, show N - 1 - (N - (k + 1) - 1) = k + 1 by omega]; exact new b _
      · exact (base b i v).2

theorem gather_all {P : ℝ → Prop} {batch N : ℕ} {final : ℕ → ℕ → ℝ} {lens : List ℕ} (hN : 0 < N) (h : ∀ b, ∀ v < N, P (final b v)) :
    AllE P (CKYCRF.gather batch N final lens) := by
  intro vs hvs v hv
  unfold CKYCRF.gather at hvs
  split at hvs
  swap
  · cases hvs
  rename_i hl
  have hlast : ∀ l ≤ N, CKYCRF.lastIndex N l < N := fun l hl => by unfold CKYCRF.lastIndex; split <;> omega
  have hget : ∀ i, CKYCRF.lastIndex N (lens.getD i 0) < N := by
    intro i
    by_cases hi : i < lens.length
    · rw [List.getD_eq_getElem _ _ hi]; exact hlast _ (hl _ (List.getElem_mem hi))
    · rw [List.getD_eq_default _ _ (by omega)]; exact hlast 0 (by omega)
  split at hvs
  · simp only [Except.ok.injEq] at hvs
    subst hvs
    obtain ⟨b, -, rfl⟩ := List.mem_map.1 hv
    exact h _ _ (hget b)
  split at hvs
  · simp only [Except.ok.injEq] at hvs
    subst hvs
    obtain ⟨b, -, rfl⟩ := List.mem_map.1 hv
    exact h _ _ (hget 0)
  split at hvs
  · simp only [Except.ok.injEq] at hvs
    subst hvs
    obtain ⟨l, hlm, rfl⟩ := List.mem_map.1 hv
    exact h _ _ (hlast _ (hl l hlm))
  · cases hvs

theorem cost_tree {p : T4 ℝ} {Q : ℕ} (hC : 0 < p.d3) (hz : 0 ≤ z) (hzD : z ≤ D) (hε : 0 ≤ ε) (hW : 0 ≤ W) (hp : ∀ b i j a, p.get b i j a ≤ D) (hw : ∀ n ≤ Q, w n ≤ W)
    (hQ : p.d1 ≤ Q) (hQ3 : p.d3 ≤ Q) (lengths : Option (List ℕ)) :
    AllE (· ≤ (2 * p.d1 - 1) * (D + W) + p.d1 * (2 * ε + W)) (CKYCRF.logpartition (cost z ε w) p lengths) := by
  unfold CKYCRF.logpartition
  split
  · intro vs hvs; cases hvs
  split
  · intro vs hvs; cases hvs
  rename_i h0
  refine gather_all (by omega) fun b v hv => ?_
  have hr : ∀ b i j, CKYCRF.reduced (cost z ε w) p b i j ≤ D + W := fun b i j => cost_sum_range hC (fun a _ => hp b i j a) (hw _ hQ3)
  have h := (tree_le (w := w) (N := p.d1) (D := D + W) hz (by linarith) hε hW hr hw hQ b 0 v).1
  refine h.trans ?_
  have hv' : (v : ℝ) + 1 ≤ p.d1 := by exact_mod_cast hv
  have hD : 0 ≤ D + W := by linarith
  have h1 : (2 * (v : ℝ) + 1) * (D + W) ≤ (2 * p.d1 - 1) * (D + W) := mul_le_mul_of_nonneg_right (by linarith) hD
  have h2 : (v : ℝ) * (2 * ε + W) ≤ p.d1 * (2 * ε + W) := mul_le_mul_of_nonneg_right (by linarith) (by linarith)
  linarith

/-! #### DependencyCRF -/

/-- The invariant of the charts: complete spans of width `v` cost `v * c`, incomplete ones `I` more than those of width `v - 1`. -/
structure DepLe (N : ℕ) (c I : ℝ) (st : DepTree.Charts ℝ) : Prop where
  acl : ∀ b i v, st.acl b i v ≤ v * c
  acr : ∀ b i v, st.acr b i v ≤ v * c
  bcl : ∀ b i v, v < N → st.bcl b i v ≤ (N - 1 - v : ℕ) * c
  bcr : ∀ b i v, v < N → st.bcr b i v ≤ (N - 1 - v : ℕ) * c
  ail : ∀ b i v, st.ail b i (v + 1) ≤ v * c + I
  air : ∀ b i v, st.air b i (v + 1) ≤ v * c + I
  bil : ∀ b i v, v + 1 < N → st.bil b i v ≤ (N - 1 - (v + 1) : ℕ) * c + I
  bir : ∀ b i v, v + 1 < N → st.bir b i v ≤ (N - 1 - (v + 1) : ℕ) * c + I

theorem writeA_le {s N k : ℕ} {new : ℕ → ℕ → ℝ} {old : ℕ → ℕ → ℕ → ℝ} {b i v : ℕ} {c : ℝ} (h1 : old b i v ≤ c) (h2 : v = k → new b i ≤ c) : DepTree.writeA s N k new old b i v ≤ c := by
  unfold DepTree.writeA
  split
  · rename_i h; exact h2 h.2.2
  · exact h1

theorem writeB_le {s N k : ℕ} {new : ℕ → ℕ → ℝ} {old : ℕ → ℕ → ℕ → ℝ} {b i v : ℕ} {c : ℝ} (h1 : old b i v ≤ c) (h2 : v = N - k - 1 → new b (i - k) ≤ c) :
    DepTree.writeB s N k new old b i v ≤ c := by
  unfold DepTree.writeB
  split
  · rename_i h; exact h2 h.2.2
  · exact h1

theorem dep_step_le {s N Q k : ℕ} {arc : ℕ → ℕ → ℕ → ℝ} (ha : ∀ b h m, arc b h m ≤ D) (hw : ∀ n ≤ Q, w n ≤ W) (hQ : N ≤ Q + 1) (hk : k + 1 < N) {st : DepTree.Charts ℝ}
    (h : DepLe N (D + 3 * ε + 2 * W) (D + 2 * ε + W) st) : DepLe N (D + 3 * ε + 2 * W) (D + 2 * ε + W) (DepTree.step (cost z ε w) s N arc st (k + 1)) := by
  set c := D + 3 * ε + 2 * W with hc
  have hx : ∀ b i, (cost z ε w).dot ((List.range (k + 1)).map fun u => st.acr b i u) ((List.range (k + 1)).map fun u => st.bcl b (k + 1 + i) (N - (k + 1) + u)) ≤ k * c + ε + W := by
    intro b i
    refine cost_dot_range (by omega) (fun u hu => ?_) (hw _ (by omega))
    have h1 := h.acr b i u
    have h2 := h.bcl b (k + 1 + i) (N - (k + 1) + u) (by omega)
    rw [show N - 1 - (N - (k + 1) + u) = k - u by omega, Nat.cast_sub (by omega)] at h2
    linarith
  have hI : ∀ b i a, a ≤ D → (cost z ε w).times ((cost z ε w).dot ((List.range (k + 1)).map fun u => st.acr b i u) ((List.range (k + 1)).map fun u => st.bcl b (k + 1 + i) (N - (k + 1) + u)))
      [a] ≤ k * c + (D + 2 * ε + W) := by
    intro b i a ha
    show _ + a + ε ≤ _
    linarith [hx b i]
  have hstI : DepLe N c (D + 2 * ε + W) (DepTree.stepI (cost z ε w) s N arc st (k + 1)) := by
    refine ⟨h.acl, h.acr, h.bcl, h.bcr, fun b i v => ?_, fun b i v => ?_, fun b i v hv => ?_, fun b i v hv => ?_⟩
    · simp only [DepTree.stepI]
      refine writeA_le (h.ail b i v) ?_
      intro e
      rw [Nat.add_right_cancel e]
      exact hI _ _ _ (ha _ _ _)
    · simp only [DepTree.stepI]
      refine writeA_le (h.air b i v) ?_
      intro e
      rw [Nat.add_right_cancel e]
      exact hI _ _ _ (ha _ _ _)
    · simp only [DepTree.stepI]
      refine writeB_le (h.bil b i v hv) ?_
      intro e
      rw [show N - 1 - (v + 1) = k by omega]
      exact hI _ _ _ (ha _ _ _)
    · simp only [DepTree.stepI]
      refine writeB_le (h.bir b i v hv) ?_
      intro e
      rw [show N - 1 - (v + 1) = k by omega]
      exact hI _ _ _ (ha _ _ _)
  show DepLe _ _ _ (DepTree.stepC _ _ _ (DepTree.stepI _ _ _ _ _ _) _)
  generalize DepTree.stepI (cost z ε w) s N arc st (k + 1) = st' at hstI ⊢
  have hL : ∀ b i, (cost z ε w).dot ((List.range (k + 1)).map fun u => st'.acl b i u) ((List.range (k + 1)).map fun u => st'.bil b (k + 1 + i) (N - (k + 1) - 1 + u)) ≤ (k + 1 : ℕ) * c := by
    intro b i
    refine (cost_dot_range (W := W) (c := k * c + (D + 2 * ε + W)) (by omega) (fun u hu => ?_) (hw _ (by omega))).trans (by push_cast; linarith)
    have h1 := hstI.acl b i u
    have h2 := hstI.bil b (k + 1 + i) (N - (k + 1) - 1 + u) (by omega)
    rw [show N - 1 - (N - (k + 1) - 1 + u + 1) = k - u by omega, Nat.cast_sub (by omega)] at h2
    linarith
  have hR : ∀ b i, (cost z ε w).dot ((List.range (k + 1)).map fun u => st'.air b i (1 + u)) ((List.range (k + 1)).map fun u => st'.bcr b (k + 1 + i) (N - (k + 1) + u)) ≤ (k + 1 : ℕ) * c := by
    intro b i
    refine (cost_dot_range (W := W) (c := k * c + (D + 2 * ε + W)) (by omega) (fun u hu => ?_) (hw _ (by omega))).trans (by push_cast; linarith)
    have h1 := hstI.air b i u
    have h2 := hstI.bcr b (k + 1 + i) (N - (k + 1) + u) (by omega)
    rw [show N - 1 - (N - (k + 1) + u) = k - u by omega, Nat.cast_sub (by omega)] at h2
    rw [Nat.add_comm 1 u]
    linarith
  refine ⟨fun b i v => ?_, fun b i v => ?_, fun b i v hv => ?_, fun b i v hv => ?_, hstI.ail, hstI.air, hstI.bil, hstI.bir⟩
  · simp only [DepTree.stepC]
    refine writeA_le (hstI.acl b i v) ?_
    intro e
    rw [e]
    exact hL _ _
  · simp only [DepTree.stepC]
    refine writeA_le (hstI.acr b i v) ?_
    intro e
    rw [e]
    exact hR _ _
  · simp only [DepTree.stepC]
    refine writeB_le (hstI.bcl b i v hv) ?_
    intro e
    rw [show N - 1 - v = k + 1 by omega]
    exact hL _ _
  · simp only [DepTree.stepC]
    refine writeB_le (hstI.bcr b i v hv) ?_
    intro e
    rw [show N - 1 - v = k + 1 by omega]
    exact hR _ _

theorem dep_charts_le {s N Q : ℕ} {arc : ℕ → ℕ → ℕ → ℝ} (hz : 0 ≤ z) (hzD : z ≤ D) (hε : 0 ≤ ε) (hW : 0 ≤ W) (ha : ∀ b h m, arc b h m ≤ D) (hw : ∀ n ≤ Q, w n ≤ W) (hQ : N ≤ Q + 1) :
    DepLe N (D + 3 * ε + 2 * W) (D + 2 * ε + W) (DepTree.charts (cost z ε w) s N arc) := by
  unfold DepTree.charts
  have hl : ∀ k ∈ List.range (N - s - 1), k + 1 < N := fun k hk => by have := List.mem_range.1 hk; omega
  have hc : z ≤ D + 3 * ε + 2 * W := by linarith
  have base : DepLe N (D + 3 * ε + 2 * W) (D + 2 * ε + W) (DepTree.init (cost z ε w) N) := by
    have hc0 : 0 ≤ D + 3 * ε + 2 * W := hz.trans hc
    have hA : ∀ v : ℕ, SR.fill z (v == 0) 0 ≤ v * (D + 3 * ε + 2 * W) := by
      intro v
      unfold SR.fill
      split
      · positivity
      · rename_i h
        have : 1 ≤ v := by simp at h; omega
        have : (1 : ℝ) ≤ v := by exact_mod_cast this
        nlinarith
    have hB : ∀ v < N, SR.fill z (v == N - 1) 0 ≤ (N - 1 - v : ℕ) * (D + 3 * ε + 2 * W) := by
      intro v hv
      unfold SR.fill
      split
      · positivity
      · rename_i h
        have : 1 ≤ N - 1 - v := by simp at h; omega
        have : (1 : ℝ) ≤ (N - 1 - v : ℕ) := by exact_mod_cast this
        nlinarith
    have hI : ∀ v : ℕ, z ≤ v * (D + 3 * ε + 2 * W) + (D + 2 * ε + W) := fun v => by
      have : 0 ≤ (v : ℝ) * (D + 3 * ε + 2 * W) := by positivity
      linarith
    exact ⟨fun _ _ v => hA v, fun _ _ v => hA v, fun _ _ v hv => hB v hv, fun _ _ v hv => hB v hv, fun _ _ v => hI v, fun _ _ v => hI v, fun _ _ v _ => hI _, fun _ _ v _ => hI _⟩
  revert hl base
  generalize DepTree.init (cost z ε w) N = st
  generalize List.range (N - s - 1) = l
  induction l generalizing st with
  | nil => intro _ base; exact base
  | cons k l ih =>
    intro hl base
    rw [List.foldl_cons]
    exact ih _ (fun w hw => hl w (by simp [hw])) (dep_step_le ha hw hQ (hl k (by simp)) base)

theorem dep_root_le {N Q : ℕ} {arc : ℕ → ℕ → ℕ → ℝ} (hε : 0 ≤ ε) (hW : 0 ≤ W) (ha : ∀ b h m, arc b h m ≤ D) (hw : ∀ n ≤ Q, w n ≤ W) (hQ : N ≤ Q + 1) {st : DepTree.Charts ℝ}
    (h : DepLe N (D + 3 * ε + 2 * W) (D + 2 * ε + W) st) : DepLe N (D + 3 * ε + 2 * W) (D + 2 * ε + W) (DepTree.rootCharts (cost z ε w) N arc st) := by
  set c := D + 3 * ε + 2 * W with hc
  have hspan : ∀ b m, (cost z ε w).times (st.acl b 1 m) [arc b 0 (1 + m)] ≤ m * c + D + ε := fun b m => by
    show _ + arc b 0 (1 + m) + ε ≤ _
    linarith [h.acl b 1 m, ha b 0 (1 + m)]
  have hl : ∀ k ∈ List.range (N - 1), k + 1 < N := fun k hk => by have := List.mem_range.1 hk; omega
  unfold DepTree.rootCharts
  show DepLe _ _ _ (List.foldl (fun st k => DepTree.rootStep (cost z ε w) N (fun b m => (cost z ε w).times (DepTree.Charts.acl _ b 1 m) [arc b 0 (1 + m)]) st (k + 1)) st (List.range (N - 1)))
  have hspan' : ∃ span : ℕ → ℕ → ℝ, span = (fun b m => (cost z ε w).times (st.acl b 1 m) [arc b 0 (1 + m)]) := ⟨_, rfl⟩
  obtain ⟨span, hsp⟩ := hspan'
  rw [← hsp]
  replace hspan : ∀ b m, span b m ≤ m * c + D + ε := fun b m => by rw [hsp]; exact hspan b m
  clear hsp
  revert hl h
  generalize List.range (N - 1) = l
  clear_value c
  induction l generalizing st with
  | nil => intro base _; exact base
  | cons k l ih =>
    intro h hl
    rw [List.foldl_cons]
    refine ih (st := DepTree.rootStep (cost z ε w) N span st (k + 1)) ?_ (fun w hw => hl w (by simp [hw]))
    have hk := hl k (by simp)
    refine ⟨h.acl, fun b i v => ?_, h.bcl, h.bcr, h.ail, h.air, h.bil, h.bir⟩
    show (if _ then _ else _) ≤ _
    split
    · rename_i hv
      rw [hv.2]
      refine (cost_dot_range (W := W) (c := k * c + D + ε) (by omega) (fun u hu => ?_) (hw _ (by omega))).trans (by push_cast; linarith)
      have h1 := hspan b u
      have h2 := h.bcr b (k + 1) (N - (k + 1) + u) (by omega)
      rw [show N - 1 - (N - (k + 1) + u) = k - u by omega, Nat.cast_sub (by omega)] at h2
      linarith
    · exact h.acr b i v

theorem cost_dep {p : DepTree.Arcs ℝ} {Q : ℕ} (mr : Bool) (hC : 0 < p.labels) (hz : 0 ≤ z) (hzD : z ≤ D) (hε : 0 ≤ ε) (hW : 0 ≤ W) (hp : ∀ b i j a, p.get b i j a ≤ D)
    (hw : ∀ n ≤ Q, w n ≤ W) (hQ : p.d1 ≤ Q + 1) (hQ3 : p.labels ≤ Q) (lengths : Option (List ℕ)) :
    AllE (· ≤ (p.d1 - 1 : ℕ) * (D + 3 * ε + 3 * W)) (DepTree.logpartition mr (cost z ε w) p lengths) := by
  intro vs hvs v hv
  unfold DepTree.logpartition at hvs
  dsimp only at hvs
  have hm : ∀ lens b h m l, DepTree.masked (cost z ε w) p lens b h m l ≤ D := fun lens b h m l => by
    unfold DepTree.masked
    split
    · exact hzD
    · exact hp _ _ _ _
  have ha : ∀ lens b h m, DepTree.arcScores (cost z ε w) p lens b h m ≤ D + W := fun lens b h m => by
    unfold DepTree.arcScores
    unfold DepTree.Arcs.labels at hC hQ3
    split
    · rename_i hlab
      rw [if_pos hlab] at hC hQ3
      exact cost_sum_range hC (fun l _ => hm _ _ _ _ _) (hw _ hQ3)
    · linarith [hm lens b h m 0]
  split at hvs
  · cases hvs
  split at hvs
  · cases hvs
  split at hvs
  · cases hvs
  split at hvs
  · cases hvs
  split at hvs
  · cases hvs
  split at hvs
  · cases hvs
  rename_i hgood
  simp only [Except.ok.injEq] at hvs
  subst hvs
  obtain ⟨b, -, rfl⟩ := List.mem_map.1 hv
  set lens := DepTree.lensOr p.d0 p.d1 lengths
  push Not at hgood
  by_cases hN : p.d1 = 0
  · exfalso
    have hne : DepTree.lensOr p.d0 p.d1 lengths ≠ [] := by assumption
    obtain ⟨l, hl⟩ := List.exists_mem_of_ne_nil _ hne
    have := hgood.2 l hl
    omega
  have hlen : lens.getD b 0 ≤ p.d1 - 1 := by
    by_cases hi : b < lens.length
    · rw [List.getD_eq_getElem _ _ hi]; have := hgood.2 _ (List.getElem_mem hi); omega
    · rw [List.getD_eq_default _ _ (by omega)]; omega
  have hst : ∀ s, DepLe p.d1 (D + W + 3 * ε + 2 * W) (D + W + 2 * ε + W) (DepTree.charts (cost z ε w) s p.d1 (DepTree.arcScores (cost z ε w) p lens)) :=
    fun s => dep_charts_le hz (by linarith) hε hW (ha lens) hw hQ
  have key : DepTree.final mr (cost z ε w) p.d1 (DepTree.arcScores (cost z ε w) p lens) b (lens.getD b 0) ≤ (lens.getD b 0 : ℕ) * (D + W + 3 * ε + 2 * W) := by
    cases mr
    · exact (dep_root_le hε hW (ha lens) hw hQ (hst 1)).acr b 0 _
    · exact (hst 0).acr b 0 _
  refine key.trans ?_
  rw [show D + W + 3 * ε + 2 * W = D + 3 * ε + 3 * W by ring]
  exact mul_le_mul_of_nonneg_right (by exact_mod_cast hlen) (by linarith)

/-! #### SentCFG -/

theorem block_le {m n Q : ℕ} (hm : 0 < m) (hn : 0 < n) {M : ℕ → ℕ → ℝ} {r : ℕ → ℕ → ℝ} {oy oz : ℕ} {c : ℝ} (hM : ∀ y z, M y z ≤ c) (hr : ∀ y z, r y z ≤ D) (hw : ∀ n ≤ Q, w n ≤ W)
    (hQ : m * n ≤ Q) : CKY.block (cost z ε w) m n M r oy oz ≤ c + D + ε + W := by
  have hlen : (CKY.pairs m n).length = m * n := by simp [CKY.pairs, List.length_flatMap]
  refine cost_sum_le ?_ ?_ (by rw [List.length_map, hlen]; exact hw _ hQ)
  · intro hc
    have := congrArg List.length hc
    rw [List.length_map, hlen] at this
    have := Nat.mul_pos hm hn
    simp at *
    omega
  · intro x hx
    obtain ⟨yz, -, rfl⟩ := List.mem_map.1 hx
    show _ + _ + ε ≤ _
    linarith [hM yz.1 yz.2, hr (oy + yz.1) (oz + yz.2)]

/-- The bound for spans of `v + 1` words. -/
def cfgB (D ε W K : ℝ) (v : ℕ) : ℝ := (2 * v + 1) * D + v * (2 * ε + 3 * W + K)

theorem cfg_le {p : CKY.Scores ℝ} {Q : ℕ} {K : ℝ} (hK : 0 ≤ K) (hmark : ∀ s b i X x, CKY.touch (cost z ε w) p s b i X x ≤ x + K) (hNT : 0 < p.NT) (hT : 0 < p.T) (hz : 0 ≤ z) (hzD : z ≤ D) (hε : 0 ≤ ε) (hW : 0 ≤ W)
    (ht : ∀ b n t, p.term b n t ≤ D) (hr : ∀ b x y z, p.rule b x y z ≤ D) (hw : ∀ n ≤ Q, w n ≤ W) (hQ : p.N ≤ Q) (hQ4 : 4 ≤ Q) (hQS : (p.NT + p.T) * (p.NT + p.T) ≤ Q) :
    ∀ b i v X, (CKY.charts (cost z ε w) p).1 b i v X ≤ cfgB D ε W K v ∧ (CKY.charts (cost z ε w) p).2 b i v X ≤ cfgB D ε W K (p.N - 1 - v) := by
  unfold CKY.charts
  have hD : 0 ≤ D := hz.trans hzD
  have hzle : ∀ v : ℕ, D ≤ cfgB D ε W K v := fun v => by
    unfold cfgB
    have h1 : 0 ≤ 2 * (v : ℝ) * D := by positivity
    have h2 : 0 ≤ (v : ℝ) * (2 * ε + 3 * W + K) := by positivity
    linarith
  have hl : ∀ w ∈ List.range (p.N - 1), w + 1 < p.N := fun w hw => by have := List.mem_range.1 hw; omega
  have base : ∀ b i v X, (CKY.init (cost z ε w)).1 b i v X ≤ cfgB D ε W K v ∧ (CKY.init (cost z ε w)).2 b i v X ≤ cfgB D ε W K (p.N - 1 - v) :=
    fun b i v X => ⟨hzD.trans (hzle _), hzD.trans (hzle _)⟩
  revert hl base
  generalize CKY.init (cost z ε w) = st
  generalize List.range (p.N - 1) = l
  induction l generalizing st with
  | nil => intro _ base; exact base
  | cons k l ih =>
    intro hl base
    rw [List.foldl_cons]
    refine ih _ (fun w hw => hl w (by simp [hw])) ?_
    have hk : k + 1 < p.N := hl k (by simp)
    have q1 : p.NT * p.NT ≤ Q := le_trans (by nlinarith) hQS
    have q2 : p.NT * p.T ≤ Q := le_trans (by nlinarith) hQS
    have q3 : p.T * p.NT ≤ Q := le_trans (by nlinarith) hQS
    have q4 : p.T * p.T ≤ Q := le_trans (by nlinarith) hQS
    have e : cfgB D ε W K (k + 1) = cfgB D ε W K k + 2 * D + 2 * ε + 3 * W + K := by unfold cfgB; push_cast; ring
    have new : ∀ b i X, CKY.touch (cost z ε w) p (k + 1) b i X (CKY.spanOf (cost z ε w) p st (k + 1) b i X) ≤ cfgB D ε W K (k + 1) := by
      intro b i X
      refine (hmark _ _ _ _ _).trans ?_
      have h1 : CKY.x1 (cost z ε w) p st (k + 1) b i X ≤ cfgB D ε W K k + 2 * D + 2 * ε + 2 * W := by
        refine (block_le (c := cfgB D ε W K k + D + ε + W) hNT hNT (fun y z' => ?_) (fun y z => hr b X y z) hw q1).trans (by linarith)
        refine (cost_sum_range (c := cfgB D ε W K k + D + ε) (by omega) (fun u hu => ?_) (hw _ (by omega)))
        show _ + _ + ε ≤ _
        have a1 := (base b i u y).1
        have a2 := (base b (k + 1 + i) (p.N - (k + 1) + u) z').2
        rw [show p.N - 1 - (p.N - (k + 1) + u) = k - u by omega] at a2
        unfold cfgB at *
        rw [Nat.cast_sub (by omega)] at a2
        linarith
      have h2 : CKY.x2 (cost z ε w) p st (k + 1) b i X ≤ cfgB D ε W K k + 2 * D + 2 * ε + 2 * W := by
        refine (block_le (c := cfgB D ε W K k + D + ε) hNT hT (fun y z' => ?_) (fun y z => hr b X y z) hw q2).trans (by linarith)
        show st.1 b i (k + 1 - 1) y + _ + ε ≤ _
        have a1 := (base b i (k + 1 - 1) y).1
        rw [Nat.add_sub_cancel] at a1
        rw [Nat.add_sub_cancel]
        linarith [ht b (k + 1 + i) z']
      have h3 : CKY.x3 (cost z ε w) p st (k + 1) b i X ≤ cfgB D ε W K k + 2 * D + 2 * ε + 2 * W := by
        refine (block_le (c := cfgB D ε W K k + D + ε) hT hNT (fun y z' => ?_) (fun y z => hr b X y z) hw q3).trans (by linarith)
        show p.term b i y + _ + ε ≤ _
        have a1 := (base b (k + 1 + i) (p.N - (k + 1)) z').2
        rw [show p.N - 1 - (p.N - (k + 1)) = k by omega] at a1
        linarith [ht b i y]
      have h4 : CKY.x4 (cost z ε w) p (k + 1) b i X ≤ cfgB D ε W K k + 2 * D + 2 * ε + 2 * W := by
        refine (block_le (c := D + D + ε) hT hT (fun y z' => ?_) (fun y z => hr b X y z) hw q4).trans (by linarith [hzle k])
        show p.term b i y + p.term b (k + 1 + i) z' + ε ≤ _
        linarith [ht b i y, ht b (k + 1 + i) z']
      rw [e]
      have : CKY.spanOf (cost z ε w) p st (k + 1) b i X ≤ cfgB D ε W K k + 2 * D + 2 * ε + 2 * W + W := by
        unfold CKY.spanOf
        split
        · refine cost_sum_le (by simp) ?_ (hw _ (by simpa using hQ4))
          intro x hx
          simp only [List.cons_append, List.nil_append, List.mem_cons, List.not_mem_nil, or_false] at hx
          rcases hx with rfl | rfl | rfl | rfl <;> assumption
        · refine cost_sum_le (by simp) ?_ (hw _ (by simp; omega))
          intro x hx
          simp only [List.append_nil, List.mem_cons, List.not_mem_nil, or_false] at hx
          rcases hx with rfl | rfl | rfl <;> assumption
      linarith
    intro b i v X
    constructor
    · simp only [CKY.step]
      split
      · rename_i h; rw [h.2]; exact new b i X
      · exact (base b i v X).1
    · simp only [CKY.step]
      split
      · rename_i h
        rw [h.2.2, show p.N - 1 - (p.N - (k + 1) - 1) = k + 1 by omega]; exact new b _ X
      · exact (base b i v X).2

theorem cost_cfgK {p : CKY.Scores ℝ} {Q : ℕ} {K : ℝ} (hK : 0 ≤ K) (hmark : ∀ s b i X x, CKY.touch (cost z ε w) p s b i X x ≤ x + K) (hz : 0 ≤ z) (hzD : z ≤ D) (hε : 0 ≤ ε) (hW : 0 ≤ W)
    (ht : ∀ b n t, p.term b n t ≤ D) (hr : ∀ b x y z, p.rule b x y z ≤ D) (hroot : ∀ b x, p.root b x ≤ D) (hw : ∀ n ≤ Q, w n ≤ W) (hQ : p.N ≤ Q) (hQ4 : 4 ≤ Q)
    (hQS : p.S * p.S ≤ Q) (lengths : Option (List ℕ)) :
    AllE (· ≤ 2 * p.N * D + p.N * (2 * ε + 3 * W + K)) (CKY.logpartition (cost z ε w) p lengths) := by
  intro vs hvs v hv
  unfold CKY.logpartition at hvs
  split at hvs
  · cases hvs
  rename_i hsh
  push Not at hsh
  obtain ⟨hS, hNT, hT, -⟩ := hsh
  split at hvs
  · cases hvs
  rename_i hN
  dsimp only at hvs
  split at hvs
  swap
  · cases hvs
  rename_i hl
  set lens := CKYCRF.lensOr p.batch p.N lengths
  have hlast : ∀ l ≤ p.N, CKYCRF.lastIndex p.N l < p.N := fun l hl => by unfold CKYCRF.lastIndex; split <;> omega
  have hget : ∀ i, CKYCRF.lastIndex p.N (lens.getD i 0) < p.N := by
    intro i
    by_cases hi : i < lens.length
    · rw [List.getD_eq_getElem _ _ hi]; exact hlast _ (hl _ (List.getElem_mem hi))
    · rw [List.getD_eq_default _ _ (by omega)]; exact hlast 0 (by omega)
  have hD : 0 ≤ D := hz.trans hzD
  have key : ∀ c b, CKY.logZ (cost z ε w) p lens c b ≤ 2 * p.N * D + p.N * (2 * ε + 3 * W + K) := by
    intro c b
    refine (cost_dot_range (W := W) (c := (2 * p.N - 1) * D + (p.N - 1) * (2 * ε + 3 * W + K) + D) (by omega) (fun X _ => ?_) (hw _ ?_)).trans (by linarith)
    · have h := (cfg_le (w := w) hK hmark (by omega) (by omega) hz hzD hε hW ht hr hw hQ hQ4 (by rw [← hS]; exact hQS) c 0 (CKYCRF.lastIndex p.N (lens.getD c 0)) X).1
      have hv' : (CKYCRF.lastIndex p.N (lens.getD c 0) : ℝ) + 1 ≤ p.N := by exact_mod_cast hget c
      unfold cfgB at h
      have h1 : (2 * (CKYCRF.lastIndex p.N (lens.getD c 0) : ℝ) + 1) * D ≤ (2 * p.N - 1) * D := mul_le_mul_of_nonneg_right (by linarith) hD
      have h2 : (CKYCRF.lastIndex p.N (lens.getD c 0) : ℝ) * (2 * ε + 3 * W + K) ≤ (p.N - 1) * (2 * ε + 3 * W + K) := mul_le_mul_of_nonneg_right (by linarith) (by linarith)
      have h3 : CKY.top (cost z ε w) p lens c X ≤ (2 * p.N - 1) * D + (p.N - 1) * (2 * ε + 3 * W + K) := h.trans (by linarith)
      linarith [hroot b X]
    · refine le_trans ?_ hQS
      rw [hS]; nlinarith [Nat.pos_of_ne_zero hNT, Nat.pos_of_ne_zero hT]
  split at hvs
  · simp only [Except.ok.injEq] at hvs
    subst hvs
    obtain ⟨b, -, rfl⟩ := List.mem_map.1 hv
    exact key _ _
  split at hvs
  · simp only [Except.ok.injEq] at hvs
    subst hvs
    obtain ⟨b, -, rfl⟩ := List.mem_map.1 hv
    exact key _ _
  split at hvs <;> cases hvs

theorem cost_cfg {p : CKY.Scores ℝ} {Q : ℕ} (hmark : p.mark = none) (hz : 0 ≤ z) (hzD : z ≤ D) (hε : 0 ≤ ε) (hW : 0 ≤ W)
    (ht : ∀ b n t, p.term b n t ≤ D) (hr : ∀ b x y z, p.rule b x y z ≤ D) (hroot : ∀ b x, p.root b x ≤ D) (hw : ∀ n ≤ Q, w n ≤ W) (hQ : p.N ≤ Q) (hQ4 : 4 ≤ Q)
    (hQS : p.S * p.S ≤ Q) (lengths : Option (List ℕ)) :
    AllE (· ≤ 2 * p.N * D + p.N * (2 * ε + 3 * W)) (CKY.logpartition (cost z ε w) p lengths) := by
  have h := cost_cfgK (K := 0) (p := p) (ε := ε) (w := w) le_rfl (fun s b i X x => by unfold CKY.touch; rw [hmark]; simp) hz hzD hε hW ht hr hroot hw hQ hQ4 hQS lengths
  simpa only [add_zero] using h

/-- The table with marks for the constituents. -/
theorem cost_cfg_marked {p : CKY.Scores ℝ} {Q : ℕ} {m : ℝ} (hm : 0 ≤ m) {f : ℕ → ℕ → ℕ → ℕ → ℝ} (hmark : p.mark = some f) (hf : ∀ b w i X, f b w i X ≤ m)
    (hz : 0 ≤ z) (hzD : z ≤ D) (hε : 0 ≤ ε) (hW : 0 ≤ W)
    (ht : ∀ b n t, p.term b n t ≤ D) (hr : ∀ b x y z, p.rule b x y z ≤ D) (hroot : ∀ b x, p.root b x ≤ D) (hw : ∀ n ≤ Q, w n ≤ W) (hQ : p.N ≤ Q) (hQ4 : 4 ≤ Q)
    (hQS : p.S * p.S ≤ Q) (lengths : Option (List ℕ)) :
    AllE (· ≤ 2 * p.N * D + p.N * (2 * ε + 3 * W + (m + ε))) (CKY.logpartition (cost z ε w) p lengths) := by
  refine cost_cfgK (K := m + ε) (by linarith) (fun s b i X x => ?_) hz hzD hε hW ht hr hroot hw hQ hQ4 hQS lengths
  unfold CKY.touch
  rw [hmark]
  show _ + _ + ε ≤ _
  linarith [hf b (s - 1) i X]

/-! ### The four runs put together -/

theorem together {A : Algo} {good : ∀ {γ : Type}, A.T γ → Prop} (P : Parametric A good) {S' S : SR ℝ} {R ε δ B E M : ℝ} {p q : A.T ℝ} (hp : good p) (lengths : Option (List ℕ))
    (h1 : RelE (Good R) (A.run S' q lengths) (A.run (triple S ε) (A.map (fun v => (v, δ, B)) p) lengths))
    (hE : AllE (· ≤ E) (A.run (cost 0 ε fun _ => ε) (A.map (fun _ => δ) p) lengths))
    (hM : AllE (· ≤ M) (A.run (cost 100000 0 fun n => Real.log n) (A.map (fun _ => B) p) lengths)) (hR : E + M ≤ R) :
    RelE (fun a b => |a - b| ≤ E) (A.run S' q lengths) (A.run S p lengths) := by
  have h2 := P.run (fst_rel S ε) p hp (fun v => (v, δ, B)) (fun v => v) (fun _ => rfl) lengths
  have h3 := P.run (err_rel S ε) p hp (fun v => (v, δ, B)) (fun _ => δ) (fun _ => rfl) lengths
  have h4 := P.run (mag_rel S ε) p hp (fun v => (v, δ, B)) (fun _ => B) (fun _ => rfl) lengths
  rw [P.map_id] at h2
  exact combine h1 h2 h3 h4 hE hM hR

theorem AllE.mono {α : Type} {P Q : α → Prop} (h : ∀ a, P a → Q a) {r : Except PyErr (List α)} (H : AllE P r) : AllE Q r := fun vs e v hv => h _ (H vs e v hv)

theorem log_le {Q : ℕ} (hQ : 1 ≤ Q) : ∀ n ≤ Q, Real.log n ≤ Real.log Q := by
  intro n hn
  rcases Nat.eq_zero_or_pos n with rfl | h
  · simpa using Real.log_nonneg (by exact_mod_cast hQ : (1 : ℝ) ≤ Q)
  · exact Real.log_le_log (by exact_mod_cast h) (by exact_mod_cast hn)

theorem log_nonneg {Q : ℕ} (hQ : 1 ≤ Q) : 0 ≤ Real.log Q := Real.log_nonneg (by exact_mod_cast hQ)

theorem good_of {R δ B a b : ℝ} (hδ : 0 ≤ δ) (hB : 100000 ≤ B) (h1 : |a - b| ≤ δ) (h2 : |b| ≤ B) : Good R a (b, δ, B) := ⟨hδ, (by norm_num : (0:ℝ) ≤ 100000).trans hB, fun _ => ⟨h1, h2⟩⟩

theorem pow_clog {n : ℕ} (hn : 0 < n) : (2 : ℝ) ^ Nat.clog 2 n ≤ 2 * n := by
  have : 2 ^ Nat.clog 2 n ≤ 2 * n := by
    rcases Nat.lt_or_ge 1 n with h | h
    · have h1 := Nat.pow_pred_clog_lt_self (b := 2) (by norm_num) h
      have h2 : 0 < Nat.clog 2 n := Nat.clog_pos (by norm_num) h
      obtain ⟨k, hk⟩ := Nat.exists_eq_succ_of_ne_zero h2.ne'
      rw [hk] at h1 ⊢
      rw [Nat.succ_eq_add_one, pow_succ]
      simp at h1
      omega
    · have : n = 1 := by omega
      subst this
      simp
  exact_mod_cast this

variable {S' S : SR ℝ} {R δ B : ℝ}

theorem chain_rounded (L : Lip S) (H : Rounded S' S R ε) {p q : T4 ℝ} {Q : ℕ} (hε : 0 ≤ ε) (hδ : 0 ≤ δ) (hB : 100000 ≤ B)
    (h0 : q.d0 = p.d0) (h1 : q.d1 = p.d1) (h2 : q.d2 = p.d2) (h3 : q.d3 = p.d3) (hC : 0 < p.d2)
    (hd : ∀ b < p.d0, ∀ n < p.d1, ∀ i < p.d2, ∀ j < p.d3, |q.get b n i j - p.get b n i j| ≤ δ ∧ |p.get b n i j| ≤ B) (hQ2 : 2 ≤ Q) (hQ : p.d2 ≤ Q)
    (hR : p.d1 * (δ + 6 * ε) + p.d1 * (2 * B + 5 * Real.log Q) ≤ R) (lengths : Option (List ℕ)) :
    RelE (fun a b => |a - b| ≤ p.d1 * (δ + 6 * ε)) (LinearChain.algo.run S' q lengths) (LinearChain.algo.run S p lengths) := by
  rcases Nat.eq_zero_or_pos p.d1 with hd1 | hd1
  · -- both calls raise
    have hq := H
    have : RelE (fun (_ _ : ℝ) => True) (LinearChain.algo.run S' q lengths) (LinearChain.algo.run S p lengths) :=
      SRP.chain (S := S') (S' := S) (ρ := fun _ _ => True) ⟨trivial, trivial, trivial, fun _ _ => trivial, fun _ _ => trivial, fun _ => trivial, fun _ _ => trivial⟩
        (p := q) (p' := p) h0.symm h1.symm h2.symm h3.symm (by omega) (fun _ _ _ _ _ _ _ _ => trivial) lengths
    have he : ∀ vs, LinearChain.algo.run S p lengths ≠ .ok vs := by
      intro vs hvs
      change LinearChain.logpartition S p lengths = _ at hvs
      unfold LinearChain.logpartition at hvs
      rcases hc : LinearChain.checkPotentials p lengths with e | lens
      · rw [hc] at hvs; cases hvs
      rw [hc] at hvs
      unfold Struct.binLength at hvs
      rw [if_pos hd1] at hvs; cases hvs
    rcases hx : LinearChain.algo.run S' q lengths with e | as <;> rcases hy : LinearChain.algo.run S p lengths with e' | bs
    · rw [hx, hy] at this; exact this
    · exact absurd hy (he _)
    · rw [hx, hy] at this; exact this
    · exact absurd hy (he _)
  have hpow := pow_clog hd1
  have hpow1 : (1 : ℝ) ≤ p.d1 := by exact_mod_cast hd1
  have hlog := log_nonneg (by omega : 1 ≤ Q)
  have hle : (p.d1 : ℝ) ≤ 2 ^ Nat.clog 2 p.d1 := by exact_mod_cast Nat.le_pow_clog (by norm_num) p.d1
  refine together LinearChain.parametric (ε := ε) (δ := δ) (B := B) (M := p.d1 * (2 * B + 5 * Real.log Q)) hC lengths ?_ ?_ ?_ hR
  · exact (srp L H hε).chain (p := q) (p' := LinearChain.algo.map (fun v => (v, δ, B)) p) h0.symm h1.symm h2.symm h3.symm (by omega)
      (fun b hb n hn i hi j hj => good_of hδ hB (hd b (h0 ▸ hb) n (h1 ▸ hn) i (h2 ▸ hi) j (h3 ▸ hj)).1 (hd b (h0 ▸ hb) n (h1 ▸ hn) i (h2 ▸ hi) j (h3 ▸ hj)).2) lengths
  · refine (cost_chain (p := LinearChain.algo.map (fun _ => δ) p) (D := δ) (W := ε) (Q := Q) hC (le_refl _) hδ (fun _ _ _ _ => le_refl _) (fun _ _ => le_refl _) hQ2 hQ lengths).mono ?_
    intro a ha
    refine ha.trans ?_
    show (p.d1 : ℝ) * δ + (2 ^ Nat.clog 2 p.d1 - p.d1) * 0 + 2 ^ Nat.clog 2 p.d1 * ε + (2 ^ Nat.clog 2 p.d1 - 1) * (ε + ε) + 2 * ε ≤ _
    nlinarith
  · refine (cost_chain (p := LinearChain.algo.map (fun _ => B) p) (D := B) (W := Real.log Q) (Q := Q) hC (by norm_num) hB (fun _ _ _ _ => le_refl _) (log_le (by omega)) hQ2 hQ lengths).mono ?_
    intro a ha
    refine ha.trans ?_
    show (p.d1 : ℝ) * B + (2 ^ Nat.clog 2 p.d1 - p.d1) * 100000 + 2 ^ Nat.clog 2 p.d1 * Real.log Q + (2 ^ Nat.clog 2 p.d1 - 1) * (0 + Real.log Q) + 2 * Real.log Q ≤ _
    nlinarith

theorem semi_rounded (L : Lip S) (H : Rounded S' S R ε) {p q : T5 ℝ} {Q : ℕ} (hε : 0 ≤ ε) (hδ : 0 ≤ δ) (hB : 100000 ≤ B)
    (h0 : q.d0 = p.d0) (h1 : q.d1 = p.d1) (h2 : q.d2 = p.d2) (h3 : q.d3 = p.d3) (h4 : q.d4 = p.d4) (hC : 0 < p.d3)
    (hd : ∀ b < p.d0, ∀ n < p.d1, ∀ k < p.d2, ∀ i < p.d3, ∀ j < p.d4, |q.get b n k i j - p.get b n k i j| ≤ δ ∧ |p.get b n k i j| ≤ B) (hQ2 : 2 ≤ Q) (hQ : (p.d2 - 1) * p.d3 ≤ Q)
    (hR : p.d1 * (δ + 6 * ε) + p.d1 * (2 * B + 5 * Real.log Q) ≤ R) (lengths : Option (List ℕ)) :
    RelE (fun a b => |a - b| ≤ p.d1 * (δ + 6 * ε)) (SemiMarkov.algo.run S' q lengths) (SemiMarkov.algo.run S p lengths) := by
  rcases Nat.eq_zero_or_pos p.d1 with hd1 | hd1
  · have : RelE (fun (_ _ : ℝ) => True) (SemiMarkov.algo.run S' q lengths) (SemiMarkov.algo.run S p lengths) :=
      SRP.semi (S := S') (S' := S) (ρ := fun _ _ => True) ⟨trivial, trivial, trivial, fun _ _ => trivial, fun _ _ => trivial, fun _ => trivial, fun _ _ => trivial⟩
        (p := q) (p' := p) h0.symm h1.symm h2.symm h3.symm h4.symm (by omega) (fun _ _ _ _ _ _ _ _ _ _ => trivial) lengths
    have he : ∀ vs, SemiMarkov.algo.run S p lengths ≠ .ok vs := by
      intro vs hvs
      change SemiMarkov.logpartition S p lengths = _ at hvs
      unfold SemiMarkov.logpartition at hvs
      rcases hc : SemiMarkov.checkPotentials p lengths with e | lens
      · rw [hc] at hvs; cases hvs
      rw [hc] at hvs
      unfold Struct.binLength at hvs
      rw [if_pos hd1] at hvs; cases hvs
    rcases hx : SemiMarkov.algo.run S' q lengths with e | as <;> rcases hy : SemiMarkov.algo.run S p lengths with e' | bs
    · rw [hx, hy] at this; exact this
    · exact absurd hy (he _)
    · rw [hx, hy] at this; exact this
    · exact absurd hy (he _)
  have hpow := pow_clog hd1
  have hpow1 : (1 : ℝ) ≤ p.d1 := by exact_mod_cast hd1
  have hlog := log_nonneg (by omega : 1 ≤ Q)
  have hle : (p.d1 : ℝ) ≤ 2 ^ Nat.clog 2 p.d1 := by exact_mod_cast Nat.le_pow_clog (by norm_num) p.d1
  refine together SemiMarkov.parametric (ε := ε) (δ := δ) (B := B) (M := p.d1 * (2 * B + 5 * Real.log Q)) hC lengths ?_ ?_ ?_ hR
  · exact (srp L H hε).semi (p := q) (p' := SemiMarkov.algo.map (fun v => (v, δ, B)) p) h0.symm h1.symm h2.symm h3.symm h4.symm (by omega)
      (fun b hb n hn k hk i hi j hj => good_of hδ hB (hd b (h0 ▸ hb) n (h1 ▸ hn) k (h2 ▸ hk) i (h3 ▸ hi) j (h4 ▸ hj)).1
        (hd b (h0 ▸ hb) n (h1 ▸ hn) k (h2 ▸ hk) i (h3 ▸ hi) j (h4 ▸ hj)).2) lengths
  · refine (cost_semi (p := SemiMarkov.algo.map (fun _ => δ) p) (D := δ) (W := ε) (Q := Q) hC (le_refl _) hδ hε (fun _ _ _ _ _ => le_refl _) (fun _ _ => le_refl _) hQ2 hQ lengths).mono ?_
    intro a ha
    refine ha.trans ?_
    show (p.d1 : ℝ) * δ + (2 ^ Nat.clog 2 p.d1 - p.d1) * 0 + 2 ^ Nat.clog 2 p.d1 * ε + (2 ^ Nat.clog 2 p.d1 - 1) * (ε + ε) + 2 * ε ≤ _
    nlinarith
  · refine (cost_semi (p := SemiMarkov.algo.map (fun _ => B) p) (D := B) (W := Real.log Q) (Q := Q) hC (by norm_num) hB hlog (fun _ _ _ _ _ => le_refl _) (log_le (by omega)) hQ2 hQ lengths).mono ?_
    intro a ha
    refine ha.trans ?_
    show (p.d1 : ℝ) * B + (2 ^ Nat.clog 2 p.d1 - p.d1) * 100000 + 2 ^ Nat.clog 2 p.d1 * Real.log Q + (2 ^ Nat.clog 2 p.d1 - 1) * (0 + Real.log Q) + 2 * Real.log Q ≤ _
    nlinarith

theorem tree_rounded (L : Lip S) (H : Rounded S' S R ε) {p q : T4 ℝ} {Q : ℕ} (hε : 0 ≤ ε) (hδ : 0 ≤ δ) (hB : 100000 ≤ B)
    (h0 : q.d0 = p.d0) (h1 : q.d1 = p.d1) (h2 : q.d2 = p.d2) (h3 : q.d3 = p.d3) (hC : 0 < p.d3) (hb : 0 < p.d0)
    (hd : ∀ b < p.d0, ∀ n < p.d1, ∀ i < p.d2, ∀ j < p.d3, |q.get b n i j - p.get b n i j| ≤ δ ∧ |p.get b n i j| ≤ B) (hQ1 : p.d1 ≤ Q) (hQ : p.d3 ≤ Q)
    (hR : ((2 * p.d1 - 1) * δ + 5 * p.d1 * ε) + p.d1 * (2 * B + 3 * Real.log Q) ≤ R) (lengths : Option (List ℕ)) :
    RelE (fun a b => |a - b| ≤ (2 * p.d1 - 1) * δ + 5 * p.d1 * ε) (CKYCRF.algo.run S' q lengths) (CKYCRF.algo.run S p lengths) := by
  have hlog := log_nonneg (by omega : 1 ≤ Q)
  have hn : (0 : ℝ) ≤ p.d1 := Nat.cast_nonneg _
  refine together CKYCRF.parametric (ε := ε) (δ := δ) (B := B) (M := p.d1 * (2 * B + 3 * Real.log Q)) ⟨hC, hb⟩ lengths ?_ ?_ ?_ hR
  · by_cases hsq : p.d1 = p.d2
    · exact (srp L H hε).tree (p := q) (p' := CKYCRF.algo.map (fun v => (v, δ, B)) p) h0.symm h1.symm h2.symm h3.symm (by omega)
        (fun b hb n hn i hi j hj => good_of hδ hB (hd b (h0 ▸ hb) n (h1 ▸ hn) i (hsq ▸ h1 ▸ hi) j (h3 ▸ hj)).1 (hd b (h0 ▸ hb) n (h1 ▸ hn) i (hsq ▸ h1 ▸ hi) j (h3 ▸ hj)).2) lengths (by omega)
    · have e1 : CKYCRF.algo.run S' q lengths = .error .runtime := by
        show (if _ then _ else _) = _
        rw [if_pos (by omega)]
      have e2 : CKYCRF.algo.run (triple S ε) (CKYCRF.algo.map (fun v => (v, δ, B)) p) lengths = .error .runtime := by
        show (if p.d1 ≠ p.d2 then _ else _) = _
        rw [if_pos hsq]
      rw [e1, e2]
      rfl
  · refine (cost_tree (p := CKYCRF.algo.map (fun _ => δ) p) (D := δ) (W := ε) (Q := Q) hC (le_refl _) hδ hε hε (fun _ _ _ _ => le_refl _) (fun _ _ => le_refl _) hQ1 hQ lengths).mono ?_
    intro a ha
    refine ha.trans ?_
    show (2 * (p.d1 : ℝ) - 1) * (δ + ε) + p.d1 * (2 * ε + ε) ≤ _
    nlinarith
  · refine (cost_tree (p := CKYCRF.algo.map (fun _ => B) p) (D := B) (W := Real.log Q) (Q := Q) hC (by norm_num) hB (le_refl _) hlog (fun _ _ _ _ => le_refl _) (log_le (by omega)) hQ1 hQ lengths).mono ?_
    intro a ha
    refine ha.trans ?_
    show (2 * (p.d1 : ℝ) - 1) * (B + Real.log Q) + p.d1 * (2 * 0 + Real.log Q) ≤ _
    nlinarith

theorem dep_rounded (mr : Bool) (L : Lip S) (H : Rounded S' S R ε) {p q : DepTree.Arcs ℝ} {Q : ℕ} (hε : 0 ≤ ε) (hδ : 0 ≤ δ) (hB : 1000000000 ≤ B)
    (hr : q.rank = p.rank) (h0 : q.d0 = p.d0) (h1 : q.d1 = p.d1) (h2 : q.d2 = p.d2) (h3 : q.d3 = p.d3) (hC : 0 < p.labels)
    (hd : ∀ b < p.d0, ∀ i < p.d1, ∀ j < p.d2, ∀ l < p.labels, |q.get b i j l - p.get b i j l| ≤ δ ∧ |p.get b i j l| ≤ B) (hQ1 : p.d1 ≤ Q) (hQ : p.labels ≤ Q)
    (hR : p.d1 * (δ + 6 * ε) + p.d1 * (B + 3 * Real.log Q) ≤ R) (lengths : Option (List ℕ)) :
    RelE (fun a b => |a - b| ≤ p.d1 * (δ + 6 * ε)) (DepTree.sum mr S' DepTree.negBig q lengths) (DepTree.sum mr S DepTree.negBig p lengths) := by
  have hlog := log_nonneg (by omega : 1 ≤ Q)
  obtain ⟨rank, d0, d1, d2, d3, get⟩ := p
  obtain ⟨rank', d0', d1', d2', d3', get'⟩ := q
  dsimp only at hr h0 h1 h2 h3 hd hQ1 hR ⊢
  subst hr h0 h1 h2 h3
  unfold DepTree.sum DepTree.convert
  dsimp only
  split_ifs with c1 c2 c3 c4
  · rfl
  · rfl
  · rfl
  · rfl
  have hsq : d1' = d2' := by omega
  subst hsq
  show RelE _ ((DepTree.algo mr).run S' ⟨rank', d0', d1' + 1, d1' + 1, d3', DepTree.convertCell DepTree.negBig get'⟩ lengths)
    ((DepTree.algo mr).run S ⟨rank', d0', d1' + 1, d1' + 1, d3', DepTree.convertCell DepTree.negBig get⟩ lengths)
  have hcell : ∀ b < d0', ∀ i < d1' + 1, ∀ j < d1' + 1, ∀ l < (⟨rank', d0', d1', d1', d3', get⟩ : DepTree.Arcs ℝ).labels,
      Good R (DepTree.convertCell DepTree.negBig get' b i j l) (DepTree.convertCell DepTree.negBig get b i j l, δ, B) := by
    intro b hb i hi j hj l hl
    have hB' : (100000 : ℝ) ≤ B := le_trans (by norm_num) hB
    have hneg : Good R DepTree.negBig (DepTree.negBig, δ, B) := good_of hδ hB' (by simpa using hδ) (by unfold DepTree.negBig; rw [abs_neg, abs_of_nonneg (by norm_num)]; exact hB)
    unfold DepTree.convertCell
    split_ifs
    · exact hneg
    · have := hd b hb (j - 1) (by omega) (j - 1) (by omega) l hl
      exact good_of hδ hB' this.1 this.2
    · exact hneg
    · have := hd b hb (i - 1) (by omega) (j - 1) (by omega) l hl
      exact good_of hδ hB' this.1 this.2
  refine together (DepTree.parametric mr) (ε := ε) (δ := δ) (B := B) (M := d1' * (B + 3 * Real.log Q))
    (p := (⟨rank', d0', d1' + 1, d1' + 1, d3', DepTree.convertCell DepTree.negBig get⟩ : DepTree.Arcs ℝ)) hC lengths ?_ ?_ ?_ hR
  · exact (srp L H hε).dep mr (p := ⟨rank', d0', d1' + 1, d1' + 1, d3', DepTree.convertCell DepTree.negBig get'⟩)
      (p' := (DepTree.algo mr).map (fun v => (v, δ, B)) ⟨rank', d0', d1' + 1, d1' + 1, d3', DepTree.convertCell DepTree.negBig get⟩) rfl rfl rfl rfl rfl hC hcell lengths
  · refine (cost_dep mr (p := (DepTree.algo mr).map (fun _ => δ) ⟨rank', d0', d1' + 1, d1' + 1, d3', DepTree.convertCell DepTree.negBig get⟩) (D := δ) (W := ε) (Q := Q) hC (le_refl _) hδ hε hε
      (fun _ _ _ _ => le_refl _) (fun _ _ => le_refl _) (Nat.succ_le_succ hQ1) hQ lengths).mono ?_
    intro a ha
    refine ha.trans (le_of_eq ?_)
    show ((d1' + 1 - 1 : ℕ) : ℝ) * (δ + 3 * ε + 3 * ε) = _
    rw [Nat.add_sub_cancel]
    ring
  · refine (cost_dep mr (p := (DepTree.algo mr).map (fun _ => B) ⟨rank', d0', d1' + 1, d1' + 1, d3', DepTree.convertCell DepTree.negBig get⟩) (D := B) (W := Real.log Q) (Q := Q) hC
      (by norm_num) (le_trans (by norm_num) hB) (le_refl _) hlog (fun _ _ _ _ => le_refl _) (log_le (by omega)) (Nat.succ_le_succ hQ1) hQ lengths).mono ?_
    intro a ha
    refine ha.trans (le_of_eq ?_)
    show ((d1' + 1 - 1 : ℕ) : ℝ) * (B + 3 * 0 + 3 * Real.log Q) = _
    rw [Nat.add_sub_cancel]
    ring

theorem cfg_rounded (L : Lip S) (H : Rounded S' S R ε) {p q : CKY.Scores ℝ} {Q : ℕ} (hε : 0 ≤ ε) (hδ : 0 ≤ δ) (hB : 100000 ≤ B)
    (h0 : q.batch = p.batch) (h1 : q.N = p.N) (h2 : q.T = p.T) (h3 : q.NT = p.NT) (h4 : q.S = p.S) (m1 : p.mark = none) (m2 : q.mark = none)
    (ht : ∀ b < p.batch, ∀ n < p.N, ∀ t < p.T, |q.term b n t - p.term b n t| ≤ δ ∧ |p.term b n t| ≤ B)
    (hu : ∀ b < p.batch, ∀ x < p.NT, ∀ y < p.NT + p.T, ∀ z < p.NT + p.T, |q.rule b x y z - p.rule b x y z| ≤ δ ∧ |p.rule b x y z| ≤ B)
    (ho : ∀ b < p.batch, ∀ x < p.NT, |q.root b x - p.root b x| ≤ δ ∧ |p.root b x| ≤ B) (hQ1 : p.N ≤ Q) (hQ4 : 4 ≤ Q) (hQ : p.S * p.S ≤ Q)
    (hR : (2 * p.N * δ + 5 * p.N * ε) + p.N * (2 * B + 3 * Real.log Q) ≤ R) (lengths : Option (List ℕ)) :
    RelE (fun a b => |a - b| ≤ 2 * p.N * δ + 5 * p.N * ε) (CKY.algo.run S' q lengths) (CKY.algo.run S p lengths) := by
  have hlog := log_nonneg (by omega : 1 ≤ Q)
  have hmk : ∀ {β : Type} (f : ℝ → β), (CKY.algo.map f p).mark = none := fun f => by show Option.map _ p.mark = none; rw [m1]; rfl
  refine together CKY.parametric (ε := ε) (δ := δ) (B := B) (M := p.N * (2 * B + 3 * Real.log Q)) trivial lengths ?_ ?_ ?_ hR
  · refine (srp L H hε).cfg (p := q) (p' := CKY.algo.map (fun v => (v, δ, B)) p) ⟨h0.symm, h1.symm, h2.symm, h3.symm, h4.symm, ?_, ?_, ?_, ?_⟩ lengths
    · intro b hb n hn t htt
      have := ht b (h0 ▸ hb) n (h1 ▸ hn) t (h2 ▸ htt)
      exact good_of hδ hB this.1 this.2
    · intro b hb x hx y hy z hz
      rw [h0] at hb; rw [h3] at hx; rw [h3, h2] at hy hz
      have := hu b hb x hx y hy z hz
      exact good_of hδ hB this.1 this.2
    · intro b hb x hx
      have := ho b (h0 ▸ hb) x (h3 ▸ hx)
      exact good_of hδ hB this.1 this.2
    · rw [m2, hmk]; trivial
  · refine (cost_cfg (p := CKY.algo.map (fun _ => δ) p) (D := δ) (W := ε) (Q := Q) (hmk _) (le_refl _) hδ hε hε (fun _ _ _ => le_refl _) (fun _ _ _ _ => le_refl _) (fun _ _ => le_refl _)
      (fun _ _ => le_refl _) hQ1 hQ4 hQ lengths).mono ?_
    intro a ha
    refine ha.trans (le_of_eq ?_)
    show 2 * (p.N : ℝ) * δ + p.N * (2 * ε + 3 * ε) = _
    ring
  · refine (cost_cfg (p := CKY.algo.map (fun _ => B) p) (D := B) (W := Real.log Q) (Q := Q) (hmk _) (by norm_num) hB (le_refl _) hlog (fun _ _ _ => le_refl _) (fun _ _ _ _ => le_refl _)
      (fun _ _ => le_refl _) (log_le (by omega)) hQ1 hQ4 hQ lengths).mono ?_
    intro a ha
    refine ha.trans (le_of_eq ?_)
    show 2 * (p.N : ℝ) * B + p.N * (2 * 0 + 3 * Real.log Q) = _
    ring

end Rounding
