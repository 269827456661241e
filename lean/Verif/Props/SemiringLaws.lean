import Verif.Spec.SemiringLaws
import Verif.Proofs.Bag

/-! The semirings of the library obey the laws of commutative semirings. -/

noncomputable section
namespace Props.SemiringLaws
open Spec Semirings SemiringRel

/-- A raw semiring whose elements are determined by related elements of a commutative semiring obeys the laws. -/
theorem of_rel {α R : Type} [CommSemiring R] {S : SR α} {ρ : α → R → Prop} (H : SRRel S ρ)
    (inj : ∀ {a b x}, ρ a x → ρ b x → a = b) : SemiringLaws S fun a => ∃ x, ρ a x := by
  have lift : ∀ xs : List α, (∀ x ∈ xs, ∃ y, ρ x y) → ∃ ys, List.Forall₂ ρ xs ys := by
    intro xs
    induction xs with
    | nil => intro _; exact ⟨[], .nil⟩
    | cons a xs ih =>
      intro h
      obtain ⟨y, hy⟩ := h a (List.mem_cons_self ..)
      obtain ⟨ys, hys⟩ := ih fun x hx => h x (List.mem_cons_of_mem _ hx)
      exact ⟨y :: ys, .cons hy hys⟩
  refine ⟨?_, ?_, ?_, ?_, ?_, ?_, ?_, ?_⟩
  · rintro a b ⟨x, hx⟩ ⟨y, hy⟩
    exact ⟨_, H.mul hx hy⟩
  · intro xs hne h
    obtain ⟨ys, hys⟩ := lift xs h
    exact ⟨_, H.sum hne hys⟩
  · intro xs ys h hp
    by_cases hne : xs = []
    · subst hne
      rw [List.nil_perm.1 hp]
    · obtain ⟨us, hus⟩ := lift xs h
      obtain ⟨vs, hvs, hpv⟩ := List.perm_comp_forall₂ hp.symm hus
      have hne' : ys ≠ [] := by rintro rfl; exact hne (List.perm_nil.1 hp)
      have h2 := H.sum hne' hvs
      rw [hpv.sum_eq] at h2
      exact inj (H.sum hne hus) h2
  · intro xss hne h
    have key : ∀ xss : List (List α), (∀ xs ∈ xss, xs ≠ [] ∧ ∀ x ∈ xs, ∃ y, ρ x y) →
        ∃ us vs, List.Forall₂ ρ (xss.map S.sum) us ∧ List.Forall₂ ρ xss.flatten vs ∧ us.sum = vs.sum := by
      intro xss
      induction xss with
      | nil => intro _; exact ⟨[], [], .nil, .nil, rfl⟩
      | cons xs xss ih =>
        intro h
        obtain ⟨us, vs, h1, h2, h3⟩ := ih fun x hx => h x (List.mem_cons_of_mem _ hx)
        obtain ⟨g1, g2⟩ := h xs (List.mem_cons_self ..)
        obtain ⟨ys, hys⟩ := lift xs g2
        refine ⟨ys.sum :: us, ys ++ vs, .cons (H.sum g1 hys) h1, ?_, ?_⟩
        · rw [List.flatten_cons]
          exact List.rel_append hys h2
        · rw [List.sum_cons, List.sum_append, h3]
    obtain ⟨us, vs, h1, h2, h3⟩ := key xss h
    have e1 : xss.map S.sum ≠ [] := by simpa using hne
    have e2 : xss.flatten ≠ [] := by
      obtain ⟨xs, l, rfl⟩ := List.exists_cons_of_ne_nil hne
      have := (h xs (List.mem_cons_self ..)).1
      simp [this]
    have := H.sum e1 h1
    rw [h3] at this
    exact inj this (H.sum e2 h2)
  · rintro a ⟨x, hx⟩
    have := H.sum (as := [a]) (xs := [x]) (by simp) (.cons hx .nil)
    rw [List.sum_singleton] at this
    exact inj this hx
  · rintro a b ⟨x, hx⟩ ⟨y, hy⟩
    have := H.mul hy hx
    rw [mul_comm] at this
    exact inj (H.mul hx hy) this
  · rintro a b c ⟨x, hx⟩ ⟨y, hy⟩ ⟨z, hz⟩
    have := H.mul (H.mul hx hy) hz
    rw [mul_assoc] at this
    exact inj this (H.mul hx (H.mul hy hz))
  · rintro a xs hne ⟨x, hx⟩ h
    obtain ⟨ys, hys⟩ := lift xs h
    have h1 := H.mul hx (H.sum hne hys)
    have h2 : List.Forall₂ ρ (xs.map (S.mul a)) (ys.map (x * ·)) := by
      rw [List.forall₂_map_left_iff, List.forall₂_map_right_iff]
      exact hys.imp fun _ _ h => H.mul hx h
    have h3 := H.sum (by simpa using hne) h2
    rw [List.sum_map_mul_left] at h3
    simp only [List.map_id'] at h3
    exact inj h1 h3

theorem SemiringLaws.mono {α : Type} {S : SR α} {P Q : α → Prop} (h : SemiringLaws S P) (hPQ : ∀ a, P a ↔ Q a) : SemiringLaws S Q := by
  have : P = Q := funext fun a => propext (hPQ a)
  exact this ▸ h

/-- An injective map into a commutative semiring that respects `mul` and sums gives the laws for all elements. -/
theorem of_hom {α R : Type} [CommSemiring R] {S : SR α} {h : α → R} (H : SRRel S fun a x => h a = x)
    (inj : Function.Injective h) : SemiringLaws S fun _ => True :=
  SemiringLaws.mono (of_rel H fun h1 h2 => inj (h1.trans h2.symm)) fun a => ⟨fun _ => trivial, fun _ => ⟨_, rfl⟩⟩

/-- **C41, `StdSemiring`**, over any commutative semiring of numbers. -/
theorem std_laws (R : Type) [CommSemiring R] : SemiringLaws (std R) (fun _ => True) ∧ OneLaw (std R) fun _ => True :=
  ⟨of_hom std_rel fun _ _ h => h, fun a _ => ⟨mul_one a, one_mul a⟩⟩

/-- **C41, `LogSemiring`.** -/
theorem log_laws : SemiringLaws log (fun _ => True) ∧ OneLaw log fun _ => True :=
  ⟨of_hom (log_rel negInf) Real.exp_injective, fun a _ => ⟨add_zero a, zero_add a⟩⟩

/-- **C41, `MaxSemiring`.** -/
theorem max_laws : SemiringLaws Semirings.max (fun _ => True) ∧ OneLaw Semirings.max fun _ => True := by
  refine ⟨SemiringLaws.mono (of_rel Bag.max_isMaxSR.rel ?_) fun a => ⟨fun _ => trivial, fun _ => ⟨Bag.single a, ?_⟩⟩,
    fun a _ => ⟨add_zero a, zero_add a⟩⟩
  · rintro a b x ⟨h1, h2⟩ ⟨h3, h4⟩
    exact le_antisymm (h4 _ h1) (h2 _ h3)
  · exact ⟨by simp, by simp⟩

theorem dual_inj {M : Type} [AddCommGroup M] [Module ℝ M] {w w' : ℝ} {g g' : M} (hw : 0 < w) (h : dual w g = dual w' g') : w = w' ∧ g = g' := by
  have h1 := congrArg TrivSqZeroExt.fst h
  have h2 := congrArg TrivSqZeroExt.snd h
  simp only [dual, TrivSqZeroExt.fst_add, TrivSqZeroExt.fst_inl, TrivSqZeroExt.fst_inr, add_zero, TrivSqZeroExt.snd_add, TrivSqZeroExt.snd_inl,
    TrivSqZeroExt.snd_inr, zero_add] at h1 h2
  subst h1
  exact ⟨rfl, (smul_right_injective M hw.ne') h2⟩

/-- **C41, `EntropySemiring`.** -/
theorem entropy_laws : SemiringLaws entropy (fun _ => True) ∧ OneLaw entropy fun _ => True := by
  refine ⟨of_hom (entropyZ_rel negInf) ?_, fun a _ => ⟨Prod.ext (add_zero _) (add_zero _), Prod.ext (zero_add _) (zero_add _)⟩⟩
  intro a b h
  obtain ⟨h1, h2⟩ := dual_inj (Real.exp_pos _) h
  have h3 := Real.exp_injective h1
  exact Prod.ext h3 (by linarith)

/-- **C41, `CrossEntropySemiring`.** -/
theorem crossEntropy_laws : SemiringLaws crossEntropy (fun _ => True) ∧ OneLaw crossEntropy fun _ => True := by
  refine ⟨of_hom (crossEntropyZ_rel negInf) ?_, fun a _ => ⟨Prod.ext (add_zero _) (Prod.ext (add_zero _) (add_zero _)),
    Prod.ext (zero_add _) (Prod.ext (zero_add _) (zero_add _))⟩⟩
  intro a b h
  have hq := Real.exp_injective (congrArg Prod.snd h)
  obtain ⟨h1, h2⟩ := dual_inj (Real.exp_pos _) (congrArg Prod.fst h)
  exact Prod.ext (Real.exp_injective h1) (Prod.ext hq (by linarith))

/-- **C41, `KLDivergenceSemiring`.** -/
theorem kl_laws : SemiringLaws kl (fun _ => True) ∧ OneLaw kl fun _ => True := by
  refine ⟨of_hom (klZ_rel negInf) ?_, fun a _ => ⟨Prod.ext (add_zero _) (Prod.ext (add_zero _) (add_zero _)),
    Prod.ext (zero_add _) (Prod.ext (zero_add _) (zero_add _))⟩⟩
  intro a b h
  have hq := Real.exp_injective (congrArg Prod.snd h)
  obtain ⟨h1, h2⟩ := dual_inj (Real.exp_pos _) (congrArg Prod.fst h)
  have h3 := Real.exp_injective h1
  exact Prod.ext h3 (Prod.ext hq (by linarith))

theorem isTop_unique {k : ℕ} {l l' : List ℝ} {x : Bag ℝ} (h : Bag.IsTop (fun x : ℝ => x) k l x) (h' : Bag.IsTop (fun x : ℝ => x) k l' x) :
    l = l' := by
  have key : ∀ {l : List ℝ}, Bag.IsTop (fun x : ℝ => x) k l x → l = (x.ms.sort (· ≥ ·)).take k := by
    rintro l ⟨rest, hx, hlen, hs, hr⟩
    have : x.ms.sort (· ≥ ·) = l ++ rest.sort (· ≥ ·) := by
      apply List.Perm.eq_of_pairwise (le := (· ≥ ·))
      · intro a b _ _ h1 h2; exact le_antisymm h2 h1
      · exact Multiset.pairwise_sort _ _
      · rw [List.pairwise_append]
        refine ⟨hs.imp fun h => h, Multiset.pairwise_sort _ _, ?_⟩
        intro a ha b hb
        exact hr a ha b (by simpa using hb)
      · rw [← Multiset.coe_eq_coe, ← Multiset.coe_add, Multiset.sort_eq, Multiset.sort_eq, hx]
    rw [this, List.take_append_of_le_length (by omega), List.take_of_length_le (by omega)]
  rw [key h, key h']

/-- The elements of `KMaxSemiring(k)`: `k` slots in non-increasing order. -/
def IsSlots (k : ℕ) (a : List ℝ) : Prop := a.length = k ∧ a.Pairwise (· ≥ ·)

/-- **C41, `KMaxSemiring(k)`.** -/
theorem kmax_laws (k : ℕ) (hk : 0 < k) : SemiringLaws (kmax k) (IsSlots k) := by
  refine SemiringLaws.mono (of_rel (Bag.kmax_isTopSR hk).rel isTop_unique) fun a => ⟨?_, ?_⟩
  · rintro ⟨x, rest, -, h1, h2, -⟩
    exact ⟨h1, h2.imp fun h => h⟩
  · rintro ⟨h1, h2⟩
    exact ⟨Bag.ofList a, 0, by simp, h1, h2.imp fun h => h, by simp⟩

theorem kmax_one_eq (k : ℕ) : (kmax (k + 1)).one = 0 :: List.replicate k negInf := by
  change (List.range (k + 1)).map _ = _
  rw [List.range_succ_eq_map, List.map_cons, List.map_map]
  congr 1
  apply List.ext_getElem <;> simp

/-- `one` of `KMaxSemiring(k)` is neutral for slots that differ by at most `1e5`. -/
theorem kmax_one_law_partial (k : ℕ) (hk : 0 < k) : OneLaw (kmax k) fun a => IsSlots k a ∧ ∀ x ∈ a, ∀ y ∈ a, x - y ≤ 100000 := by
  obtain ⟨k, rfl⟩ : ∃ j, k = j + 1 := ⟨k - 1, by omega⟩
  have hone : IsSlots (k + 1) (kmax (k + 1)).one := by
    rw [kmax_one_eq]
    refine ⟨by simp, ?_⟩
    rw [List.pairwise_cons]
    refine ⟨?_, List.pairwise_replicate.2 (Or.inr le_rfl)⟩
    intro b hb
    rw [List.eq_of_mem_replicate hb]
    norm_num [negInf]
  have main : ∀ a, (IsSlots (k + 1) a ∧ ∀ x ∈ a, ∀ y ∈ a, x - y ≤ 100000) → (kmax (k + 1)).mul a (kmax (k + 1)).one = a := by
    rintro a ⟨⟨h1, h2⟩, h3⟩
    have e1 := (Bag.kmax_isTopSR hk).mul a (kmax (k + 1)).one h1 hone.1
    refine isTop_unique e1 ?_
    refine ⟨((a : Multiset ℝ).bind fun x => ((List.replicate k negInf : List ℝ) : Multiset ℝ).map fun y => x + y), ?_, h1, h2.imp fun h => h, ?_⟩
    · rw [Bag.ms_mul, kmax_one_eq]
      simp only [Bag.ms_ofList, ← Multiset.cons_coe, Multiset.map_cons, add_zero, Multiset.bind_cons, Multiset.map_id']
    · intro x hx b hb
      rw [Multiset.mem_bind] at hb
      obtain ⟨y, hy, hb⟩ := hb
      rw [Multiset.mem_map] at hb
      obtain ⟨z, hz, rfl⟩ := hb
      rw [List.eq_of_mem_replicate (Multiset.mem_coe.1 hz)]
      have := h3 y hy x hx
      simp only [negInf]
      linarith
  intro a ha
  exact ⟨main a ha, by rw [(kmax_laws (k + 1) hk).mul_comm _ _ hone ha.1, main a ha]⟩

/-- Without that bound it is not: the second slot of `[0, -2e5]` is lost. -/
theorem kmax_one_fails : IsSlots 2 [0, -200000] ∧ (kmax 2).mul [0, -200000] (kmax 2).one = [0, -100000] := by
  refine ⟨⟨rfl, by norm_num⟩, ?_⟩
  have e1 := (Bag.kmax_isTopSR (k := 2) (by omega)).mul [0, -200000] (kmax 2).one rfl (by simp [kmax])
  refine isTop_unique e1 ⟨(([-200000, -300000] : List ℝ) : Multiset ℝ), ?_, rfl, by norm_num, by norm_num⟩
  rw [Bag.ofList_mul, kmax_one_eq, Bag.ms_ofList, Multiset.coe_add, Multiset.coe_eq_coe]
  have : ([0, -200000] : List ℝ).flatMap (fun x => (0 :: List.replicate 1 negInf).map fun y => x + y) = [0, -100000, -200000, -300000] := by
    norm_num [negInf]
  rw [this]
  rfl

/-- `zero` of `LogSemiring` is not neutral: it adds between nothing and `exp(-1e5 - a)`, always a positive amount. -/
theorem log_zero (a : ℝ) : a < log.plus a log.zero ∧ log.plus a log.zero ≤ a + Real.exp (-100000 - a) := by
  have h : log.plus a log.zero = Real.log (Real.exp a + Real.exp (-100000)) := by
    simp [SR.plus, log, logZ, lse, negInf]
  have e : Real.exp a + Real.exp (-100000) = Real.exp a * (1 + Real.exp (-100000 - a)) := by
    rw [mul_add, mul_one, ← Real.exp_add]; congr 2; ring
  rw [h]
  constructor
  · rw [Real.lt_log_iff_exp_lt (by positivity)]
    linarith [Real.exp_pos (-100000)]
  · rw [e, Real.log_mul (Real.exp_ne_zero _) (by positivity), Real.log_exp]
    have := Real.log_le_sub_one_of_pos (show 0 < 1 + Real.exp (-100000 - a) by positivity)
    linarith

/-- `zero` of `MaxSemiring` is neutral exactly for the elements that are not smaller. -/
theorem max_zero (a : ℝ) : Semirings.max.plus a Semirings.max.zero = a ↔ -100000 ≤ a := by
  simp [SR.plus, Semirings.max, listMax, negInf]

/-- The laws are not vacuous: a sum in two groups. -/
example : log.sum [log.sum [0, 1], log.sum [2]] = log.sum [2, 1, 0] := by
  have h := (log_laws.1.sum_group [[0, 1], [2]] (by simp) (by simp)).trans
    (log_laws.1.sum_perm [0, 1, 2] [2, 1, 0] (by simp) (List.reverse_perm [2, 1, 0]))
  exact h

example : IsSlots 2 [3, 1] ∧ ∀ x ∈ [(3 : ℝ), 1], ∀ y ∈ [(3 : ℝ), 1], x - y ≤ 100000 := by
  refine ⟨⟨rfl, by norm_num⟩, by norm_num⟩

end Props.SemiringLaws
