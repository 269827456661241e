import Verif.Proofs.Enumerate
import Verif.Props.NonCrossing

/-! `DepTreeTest.enumerate` (tests/extensions.py) lists every dependency tree exactly once. -/

open Finset Spec

namespace EnumerateProofs
open Enumerate

/-! ### `itertools.product` -/

theorem mem_product (m : ℕ) : ∀ (n : ℕ) (l : List ℕ), l ∈ product m n ↔ l.length = n ∧ ∀ x ∈ l, x < m
  | 0, l => by
    rw [product, List.mem_singleton]
    constructor
    · rintro rfl; simp
    · rintro ⟨h, _⟩; exact List.length_eq_zero_iff.1 h
  | n + 1, l => by
    rw [product, List.mem_flatMap]
    constructor
    · rintro ⟨a, ha, hl⟩
      obtain ⟨l', hl', rfl⟩ := List.mem_map.1 hl
      obtain ⟨h1, h2⟩ := (mem_product m n l').1 hl'
      refine ⟨by simp [h1], fun x hx => ?_⟩
      rcases List.mem_cons.1 hx with rfl | hx
      · exact List.mem_range.1 ha
      · exact h2 x hx
    · rintro ⟨h1, h2⟩
      cases l with
      | nil => simp at h1
      | cons a l =>
        exact ⟨a, List.mem_range.2 (h2 a List.mem_cons_self), List.mem_map.2 ⟨l, (mem_product m n l).2
          ⟨by simpa using h1, fun x hx => h2 x (List.mem_cons_of_mem _ hx)⟩, rfl⟩⟩

theorem product_nodup (m : ℕ) : ∀ n, (product m n).Nodup
  | 0 => List.nodup_singleton _
  | n + 1 => by
    rw [product, List.nodup_flatMap]
    refine ⟨fun a _ => (product_nodup m n).map fun l l' h => (List.cons.inj h).2, List.nodup_range.imp fun {a a'} hne => ?_⟩
    rw [Function.onFun, List.disjoint_left]
    intro x hx hx'
    obtain ⟨l, _, rfl⟩ := List.mem_map.1 hx
    obtain ⟨l', _, h⟩ := List.mem_map.1 hx'
    exact hne (List.cons.inj h).1.symm

/-! ### `_is_spanning` -/

section spanning
variable (mid : List ℕ)

theorem parse_length : (parseOf mid).length = mid.length + 1 := by simp [parseOf]

theorem parse_zero : (parseOf mid).getD 0 0 = -1 := rfl

theorem parse_succ {m : ℕ} (hm : m < mid.length) : (parseOf mid).getD (m + 1) 0 = (mid.getD m 0 : ℤ) := by
  rw [parseOf, List.getD_cons_succ, List.getD_eq_getElem _ _ (by simpa using hm), List.getElem_map, List.getD_eq_getElem _ _ hm]
  rfl

theorem mem_kids (cur m : ℕ) : m ∈ kids (parseOf mid) cur ↔ 1 ≤ m ∧ m ≤ mid.length ∧ mid.getD (m - 1) 0 = cur := by
  rw [kids, List.mem_filter, List.mem_range, parse_length, beq_iff_eq]
  cases m with
  | zero => rw [parse_zero]; constructor <;> rintro ⟨h1, h2⟩ <;> omega
  | succ m =>
    constructor
    · rintro ⟨h1, h2⟩
      rw [parse_succ mid (by omega)] at h2
      exact ⟨by omega, by omega, by exact_mod_cast h2⟩
    · rintro ⟨_, h1, h2⟩
      refine ⟨by omega, ?_⟩
      rw [parse_succ mid (by omega)]
      exact_mod_cast h2

theorem kids_nodup (cur : ℕ) : (kids (parseOf mid) cur).Nodup := List.nodup_range.filter _

/-- The nodes below node 0. -/
inductive Reach : ℕ → Prop
  | root : Reach 0
  | step {x m : ℕ} : Reach x → m ∈ kids (parseOf mid) x → Reach m

theorem Reach.le {m : ℕ} (h : Reach mid m) : m ≤ mid.length := by
  cases h with
  | root => exact Nat.zero_le _
  | step _ h => exact ((mem_kids mid _ _).1 h).2.1

/-- The invariant of the loop. -/
structure Inv (seen stack : List ℕ) : Prop where
  nodup : (seen ++ stack).Nodup
  reach : ∀ x ∈ seen ++ stack, Reach mid x
  closed : ∀ x ∈ seen, ∀ m ∈ kids (parseOf mid) x, m ∈ seen ++ stack
  origin : ∀ x ∈ seen ++ stack, x = 0 ∨ mid.getD (x - 1) 0 ∈ seen
  zero : 0 ∈ seen ++ stack

theorem Inv.start : Inv mid [] [0] where
  nodup := by simp
  reach x hx := by simp at hx; subst hx; exact .root
  closed x hx := by simp at hx
  origin x hx := by simp at hx; exact Or.inl hx
  zero := by simp

theorem Inv.length {seen stack : List ℕ} (h : Inv mid seen stack) : (seen ++ stack).length ≤ mid.length + 1 := by
  have h1 : (seen ++ stack) ⊆ List.range (mid.length + 1) := fun x hx => List.mem_range.2 (by have := (h.reach x hx).le; omega)
  simpa using (h.nodup.subperm h1).length_le

theorem Inv.step {seen stack : List ℕ} {cur : ℕ} (h : Inv mid seen (cur :: stack)) : cur ∉ seen ∧ Inv mid (cur :: seen) (kids (parseOf mid) cur ++ stack) := by
  have hcur : cur ∉ seen := fun hc => (List.nodup_append.1 h.nodup).2.2 cur hc cur List.mem_cons_self rfl
  have hold : ∀ x, x ∈ seen ++ cur :: stack ↔ x = cur ∨ x ∈ seen ∨ x ∈ stack := by intro x; simp only [List.mem_append, List.mem_cons]; tauto
  have hnew : ∀ x, x ∈ (cur :: seen) ++ (kids (parseOf mid) cur ++ stack) ↔ (x = cur ∨ x ∈ seen ∨ x ∈ stack) ∨ x ∈ kids (parseOf mid) cur := by
    intro x; simp only [List.mem_append, List.mem_cons]; tauto
  have hfresh : ∀ m ∈ kids (parseOf mid) cur, m ∉ seen ++ cur :: stack := by
    intro m hm hc
    obtain ⟨h1, _, h3⟩ := (mem_kids mid cur m).1 hm
    rcases h.origin m hc with h0 | h0
    · omega
    · rw [h3] at h0; exact hcur h0
  refine ⟨hcur, ⟨?_, ?_, ?_, ?_, ?_⟩⟩
  · have hp : ((cur :: seen) ++ (kids (parseOf mid) cur ++ stack)).Perm (kids (parseOf mid) cur ++ (seen ++ cur :: stack)) := by
      rw [← List.append_assoc]
      refine (List.Perm.append_right stack List.perm_append_comm).trans ?_
      rw [List.append_assoc]
      refine List.Perm.append_left _ ?_
      exact (List.perm_middle (a := cur) (l₁ := seen) (l₂ := stack)).symm
    rw [hp.nodup_iff, List.nodup_append]
    exact ⟨kids_nodup mid cur, h.nodup, fun a ha b hb hab => hfresh a ha (hab ▸ hb)⟩
  · intro x hx
    rcases (hnew x).1 hx with hx | hx
    · exact h.reach x ((hold x).2 hx)
    · exact .step (h.reach cur (by simp)) hx
  · intro x hx m hm
    rw [hnew]
    rcases List.mem_cons.1 hx with rfl | hx
    · exact Or.inr hm
    · exact Or.inl ((hold m).1 (h.closed x hx m hm))
  · intro x hx
    rcases (hnew x).1 hx with hx | hx
    · rcases h.origin x ((hold x).2 hx) with h0 | h0
      · exact Or.inl h0
      · exact Or.inr (List.mem_cons_of_mem _ h0)
    · rw [((mem_kids mid cur x).1 hx).2.2]
      exact Or.inr List.mem_cons_self
  · rw [hnew]; exact Or.inl ((hold 0).1 h.zero)

/-- The loop ends after at most one round per node, and never meets a node twice. -/
theorem walk_ok : ∀ (fuel : ℕ) (stack seen : List ℕ), Inv mid seen stack → mid.length + 1 ≤ seen.length + fuel →
    ∃ seen', walk (parseOf mid) fuel stack seen = some seen' ∧ Inv mid seen' []
  | fuel, [], seen, h, _ => ⟨seen, by cases fuel <;> rfl, h⟩
  | 0, cur :: stack, seen, h, hf => by
    have := h.length
    simp only [List.length_append, List.length_cons] at this
    omega
  | fuel + 1, cur :: stack, seen, h, hf => by
    obtain ⟨h1, h2⟩ := h.step
    obtain ⟨s, h3, h4⟩ := walk_ok fuel _ _ h2 (by simp only [List.length_cons]; omega)
    refine ⟨s, ?_, h4⟩
    rw [walk, if_neg h1, h3]

theorem Inv.final {seen : List ℕ} (h : Inv mid seen []) (m : ℕ) : m ∈ seen ↔ Reach mid m := by
  have e : seen ++ [] = seen := List.append_nil _
  constructor
  · intro hm; exact h.reach m (by rwa [e])
  · intro hm
    induction hm with
    | root => have := h.zero; rwa [e] at this
    | step _ hk ih => have := h.closed _ ih _ hk; rwa [e] at this

theorem spanning_iff_reach : isSpanning (parseOf mid) = true ↔ ∀ m ≤ mid.length, Reach mid m := by
  obtain ⟨seen, h1, h2⟩ := walk_ok mid ((parseOf mid).length + 1) [0] [] (Inv.start mid) (by rw [parse_length]; simp)
  have hl : seen.length = (parseOf mid).length ↔ ∀ m ≤ mid.length, Reach mid m := by
    have hnd : seen.Nodup := by have := h2.nodup; rwa [List.append_nil] at this
    have hsub : seen ⊆ List.range (mid.length + 1) := fun x hx => List.mem_range.2 (by have := ((h2.final mid x).1 hx).le; omega)
    rw [parse_length]
    constructor
    · intro hl m hm
      have hp : seen.Perm (List.range (mid.length + 1)) := (hnd.subperm hsub).perm_of_length_le (by simp [hl])
      exact (h2.final mid m).1 (hp.mem_iff.2 (List.mem_range.2 (by omega)))
    · intro ha
      have hp : seen.Perm (List.range (mid.length + 1)) := by
        rw [List.perm_ext_iff_of_nodup hnd List.nodup_range]
        intro x
        refine ⟨fun hx => hsub hx, fun hx => (h2.final mid x).2 (ha x ?_)⟩
        have := List.mem_range.1 hx
        omega
      simpa using hp.length_eq
  rw [isSpanning]
  by_cases hloop : ((List.range (parseOf mid).length).any fun m => (parseOf mid).getD m 0 == (m : ℤ)) = true
  · rw [if_pos hloop]
    refine ⟨fun h => by simp at h, fun ha => ?_⟩
    obtain ⟨m, hm, hmm⟩ := List.any_eq_true.1 hloop
    rw [beq_iff_eq] at hmm
    rw [List.mem_range, parse_length] at hm
    exfalso
    cases m with
    | zero => rw [parse_zero] at hmm; simp at hmm
    | succ m =>
      rw [parse_succ mid (by omega)] at hmm
      have hmm' : mid.getD m 0 = m + 1 := by exact_mod_cast hmm
      have key : ∀ x, Reach mid x → x ≠ m + 1 := by
        intro x hx
        induction hx with
        | root => omega
        | step _ hk ih =>
          rintro rfl
          have := ((mem_kids mid _ _).1 hk).2.2
          rw [Nat.add_sub_cancel, hmm'] at this
          exact ih this.symm
      exact key _ (ha (m + 1) (by omega)) rfl
  · rw [if_neg hloop, h1]
    simp only [beq_iff_eq]
    exact hl

end spanning

/-! ### Head vectors -/

/-- The heads of the words, as the enumeration lists them. -/
def headCode {n : ℕ} (h : Heads n) : List ℕ := List.ofFn fun k => (h k : ℕ)

theorem headCode_injective {n : ℕ} : Function.Injective (headCode (n := n)) := by
  intro h h' e
  funext k
  exact Fin.ext (congrFun (List.ofFn_injective e) k)

theorem headCode_length {n : ℕ} (h : Heads n) : (headCode h).length = n := by simp [headCode]

theorem headCode_get {n : ℕ} (h : Heads n) (k : Fin n) : (headCode h).getD k 0 = h k := by
  rw [headCode, List.getD_eq_getElem _ _ (by simp), List.getElem_ofFn]

theorem kids_headOf {n : ℕ} (h : Heads n) (x m : ℕ) : m ∈ kids (parseOf (headCode h)) x ↔ 1 ≤ m ∧ m ≤ n ∧ headOf h m = x := by
  rw [mem_kids, headCode_length]
  refine and_congr_right fun h1 => and_congr_right fun h2 => ?_
  have := headCode_get h ⟨m - 1, by omega⟩
  rw [this, headOf, dif_pos ⟨h1, h2⟩]

theorem reach_iff {n : ℕ} (h : Heads n) {m : ℕ} (hm : m ≤ n) : Reach (headCode h) m ↔ Dominates h 0 m := by
  constructor
  · intro hr
    clear hm
    induction hr with
    | root => exact ⟨0, rfl⟩
    | step _ hk ih =>
      obtain ⟨t, ht⟩ := ih
      refine ⟨t + 1, ?_⟩
      rw [Function.iterate_succ_apply, ((kids_headOf h _ _).1 hk).2.2, ht]
  · rintro ⟨t, ht⟩
    induction t generalizing m with
    | zero => have : m = 0 := ht; subst this; exact .root
    | succ t ih =>
      rw [Function.iterate_succ_apply] at ht
      rcases Nat.eq_zero_or_pos m with rfl | hp
      · exact .root
      · have hle : headOf h m ≤ n := by
          rw [headOf, dif_pos ⟨hp, hm⟩]
          have := (h ⟨m - 1, by omega⟩).2
          omega
        exact .step (ih hle ht) ((kids_headOf h _ _).2 ⟨hp, hm, rfl⟩)

/-- `_is_spanning` accepts exactly the head vectors of trees. -/
theorem spanning_iff_tree {n : ℕ} (h : Heads n) : isSpanning (parseOf (headCode h)) = true ↔ IsDepTree h := by
  rw [spanning_iff_reach, headCode_length]
  constructor
  · intro ha k
    exact (reach_iff h (by omega)).1 (ha (k + 1) (by omega))
  · intro ht m hm
    rcases Nat.eq_zero_or_pos m with rfl | hp
    · exact .root
    · have := ht ⟨m - 1, by omega⟩
      rw [show ((⟨m - 1, by omega⟩ : Fin n) : ℕ) + 1 = m by simp only; omega] at this
      exact (reach_iff h hm).2 this

/-- A list that `_is_spanning` accepts has no head outside the sentence. -/
theorem spanning_heads (mid : List ℕ) (h : isSpanning (parseOf mid) = true) : ∀ x ∈ mid, x ≤ mid.length := by
  intro x hx
  obtain ⟨i, hi, rfl⟩ := List.getElem_of_mem hx
  have hr := (spanning_iff_reach mid).1 h (i + 1) (by omega)
  cases hr with
  | step hr hk =>
    have := ((mem_kids mid _ _).1 hk).2.2
    rw [Nat.add_sub_cancel, List.getD_eq_getElem _ _ hi] at this
    rw [this]
    exact hr.le

theorem exists_heads {n : ℕ} (mid : List ℕ) (hl : mid.length = n) (hb : ∀ x ∈ mid, x ≤ n) : ∃ h : Heads n, mid = headCode h := by
  refine ⟨fun k => ⟨mid[(k : ℕ)]'(by omega), Nat.lt_succ_of_le (hb _ (List.getElem_mem _))⟩, ?_⟩
  refine List.ext_getElem (by rw [headCode_length, hl]) fun i h1 h2 => ?_
  simp [headCode]

/-! ### `_is_projective`, `_is_multi_root` -/

theorem crossing_iff (m h m2 h2 : ℕ) : crossing m h m2 h2 = true ↔ Crosses m h m2 h2 ∨ Crosses m2 h2 m h := by
  simp only [crossing, Bool.or_eq_true, Bool.and_eq_true, decide_eq_true_eq, Crosses]
  omega

theorem crossing_root (h2 m2 : ℕ) : crossing 0 (-1) m2 h2 = false ∧ crossing m2 h2 0 (-1) = false := by
  constructor <;> rw [Bool.eq_false_iff] <;> intro hc <;>
    simp only [crossing, Bool.or_eq_true, Bool.and_eq_true, decide_eq_true_eq] at hc <;> omega

theorem parse_head {n : ℕ} (h : Heads n) (k : Fin n) : (parseOf (headCode h)).getD (k + 1) 0 = ((h k : ℕ) : ℤ) := by
  rw [parse_succ _ (by rw [headCode_length]; exact k.2), headCode_get]

/-- `_is_projective` accepts exactly the head vectors without crossing arcs. -/
theorem projective_iff_nonCrossing {n : ℕ} (h : Heads n) : isProjective (parseOf (headCode h)) = true ↔ NonCrossing h := by
  simp only [isProjective, List.all_eq_true, List.mem_range, parse_length, headCode_length, Bool.or_eq_true, beq_iff_eq, Bool.not_eq_true']
  constructor
  · intro ha k l hc
    rcases ha (k + 1) (by omega) (l + 1) (by omega) with h1 | h1
    · have : l = k := Fin.ext (by omega)
      subst this
      obtain ⟨h2, _, _⟩ := hc
      omega
    · rw [parse_head, parse_head] at h1
      have := (crossing_iff (k + 1) (h k) (l + 1) (h l)).2 (Or.inl hc)
      push_cast at this h1
      rw [h1] at this
      simp at this
  · intro hn m hm m2 hm2
    by_cases he : m2 = m
    · exact Or.inl he
    refine Or.inr ?_
    rcases Nat.eq_zero_or_pos m with rfl | hp <;> rcases Nat.eq_zero_or_pos m2 with rfl | hp2
    · exact absurd rfl he
    · obtain ⟨l, rfl⟩ : ∃ l, m2 = l + 1 := ⟨m2 - 1, by omega⟩
      have := parse_head h ⟨l, by omega⟩
      simp only at this
      rw [parse_zero, this]
      exact (crossing_root _ (l + 1)).1
    · obtain ⟨k, rfl⟩ : ∃ k, m = k + 1 := ⟨m - 1, by omega⟩
      have := parse_head h ⟨k, by omega⟩
      simp only at this
      rw [parse_zero, this]
      exact (crossing_root _ (k + 1)).2
    · obtain ⟨k, rfl⟩ : ∃ k, m = k + 1 := ⟨m - 1, by omega⟩
      obtain ⟨l, rfl⟩ : ∃ l, m2 = l + 1 := ⟨m2 - 1, by omega⟩
      have e1 := parse_head h ⟨k, by omega⟩
      have e2 := parse_head h ⟨l, by omega⟩
      simp only at e1 e2
      rw [e1, e2, Bool.eq_false_iff]
      intro hc
      rcases (crossing_iff (k + 1) _ (l + 1) _).1 hc with hc | hc
      · exact hn ⟨k, by omega⟩ ⟨l, by omega⟩ hc
      · exact hn ⟨l, by omega⟩ ⟨k, by omega⟩ hc

theorem root_count {n : ℕ} (h : Heads n) : ((parseOf (headCode h)).filter fun x => x == 0).length = #{k : Fin n | h k = 0} := by
  have e : (parseOf (headCode h)).filter (fun x => x == 0) = ((headCode h).map Int.ofNat).filter fun x => x == 0 := by
    rw [parseOf, List.filter_cons_of_neg (by decide)]
  rw [e, headCode, List.map_ofFn, ← List.countP_eq_length_filter, List.ofFn_eq_map, List.countP_map, List.countP_eq_length_filter]
  have e2 : ({k : Fin n | h k = 0} : Finset (Fin n)) = ((List.finRange n).filter fun k => h k = 0).toFinset := by
    ext k; simp
  rw [e2, List.toFinset_card_of_nodup ((List.nodup_finRange n).filter _)]
  congr 1
  refine List.filter_congr fun k _ => ?_
  by_cases hk : h k = 0
  · simp [hk]
  · have h0 : (h k : ℕ) ≠ 0 := fun hc => hk (Fin.ext hc)
    have h1 : Int.ofNat (h k) ≠ 0 := fun hc => h0 (Int.ofNat.inj hc)
    simp only [Function.comp_apply, hk, decide_false, beq_eq_false_iff_ne]
    exact h1

theorem tree_has_root {n : ℕ} {h : Heads n} (ht : IsDepTree h) (hn : 1 ≤ n) : ∃ k, h k = 0 := by
  by_contra hc
  push Not at hc
  have key : ∀ (t m : ℕ), 1 ≤ m → m ≤ n → (headOf h)^[t] m ≠ 0 := by
    intro t
    induction t with
    | zero => intro m h1 _; simpa using by omega
    | succ t ih =>
      intro m h1 h2
      rw [Function.iterate_succ_apply]
      have e : headOf h m = h ⟨m - 1, by omega⟩ := by rw [headOf, dif_pos ⟨h1, h2⟩]
      have h3 := hc ⟨m - 1, by omega⟩
      have h4 : (h ⟨m - 1, by omega⟩ : ℕ) ≠ 0 := fun hh => h3 (Fin.ext hh)
      have h5 := (h ⟨m - 1, by omega⟩).2
      refine ih _ ?_ ?_
      · rw [e]; omega
      · rw [e]; omega
  obtain ⟨t, h1⟩ := ht ⟨0, by omega⟩
  exact key t 1 le_rfl hn h1

theorem multiRoot_iff {n : ℕ} {h : Heads n} (ht : IsDepTree h) (hn : 1 ≤ n) : isMultiRoot (parseOf (headCode h)) = false ↔ IsSingleRoot h := by
  rw [isMultiRoot, root_count, decide_eq_false_iff_not]
  obtain ⟨k, hk⟩ := tree_has_root ht hn
  have hpos : 0 < #{k : Fin n | h k = 0} := card_pos.2 ⟨k, by simpa using hk⟩
  have : ¬ 1 < #{k : Fin n | h k = 0} ↔ #{k : Fin n | h k = 0} = 1 := by omega
  rw [this, card_eq_one]
  constructor
  · rintro ⟨a, ha⟩
    have hm : ∀ x, h x = 0 ↔ x = a := fun x => by
      have := Finset.ext_iff.1 ha x
      simpa using this
    exact ⟨a, (hm a).2 rfl, fun x hx => (hm x).1 hx⟩
  · rintro ⟨a, h1, h2⟩
    refine ⟨a, Finset.ext fun x => ?_⟩
    simp only [mem_filter, mem_univ, true_and, mem_singleton]
    exact ⟨h2 x, fun hx => hx ▸ h1⟩

/-- The trees that `DepTreeTest.enumerate` is asked for. -/
def Wanted (nonProj multiRoot : Bool) {n : ℕ} (h : Heads n) : Prop :=
  IsDepTree h ∧ (nonProj = false → Spec.IsProjective h) ∧ (multiRoot = false → IsSingleRoot h)

theorem keep_iff (nonProj multiRoot : Bool) {n : ℕ} (hn : 1 ≤ n) (h : Heads n) :
    (isSpanning (parseOf (headCode h)) && !(!nonProj && !isProjective (parseOf (headCode h))) && !(!multiRoot && isMultiRoot (parseOf (headCode h)))) = true ↔
      Wanted nonProj multiRoot h := by
  rw [Bool.and_eq_true, Bool.and_eq_true, Wanted, spanning_iff_tree, and_assoc]
  refine and_congr_right fun ht => ?_
  have h1 : (!(!nonProj && !isProjective (parseOf (headCode h)))) = true ↔ (nonProj = false → Spec.IsProjective h) := by
    rw [Props.NonCrossing.projective_iff ht, ← projective_iff_nonCrossing]
    cases nonProj <;> simp
  have h2 : (!(!multiRoot && isMultiRoot (parseOf (headCode h)))) = true ↔ (multiRoot = false → IsSingleRoot h) := by
    rw [← multiRoot_iff ht hn]
    cases multiRoot <;> simp
  rw [h1, h2]

/-- The enumeration keeps exactly the trees that are asked for. -/
theorem mem_parses (nonProj multiRoot : Bool) {n : ℕ} (hn : 1 ≤ n) (mid : List ℕ) :
    mid ∈ parses nonProj multiRoot (n + 1) ↔ ∃ h : Heads n, mid = headCode h ∧ Wanted nonProj multiRoot h := by
  rw [parses, List.mem_filter, mem_product, Nat.add_sub_cancel]
  constructor
  · rintro ⟨⟨hl, _⟩, hk⟩
    have hs : isSpanning (parseOf mid) = true := by
      rw [Bool.and_eq_true, Bool.and_eq_true] at hk; exact hk.1.1
    obtain ⟨h, rfl⟩ := exists_heads mid hl (by rw [← hl]; exact spanning_heads mid hs)
    exact ⟨h, rfl, (keep_iff nonProj multiRoot hn h).1 hk⟩
  · rintro ⟨h, rfl, hw⟩
    refine ⟨⟨headCode_length h, fun x hx => ?_⟩, (keep_iff nonProj multiRoot hn h).2 hw⟩
    obtain ⟨k, hk⟩ := (List.mem_ofFn' _ _).1 hx
    have := (h k).2
    simp only at hk
    omega

theorem parses_nodup (nonProj multiRoot : Bool) (N : ℕ) : (parses nonProj multiRoot N).Nodup := (product_nodup _ _).filter _

end EnumerateProofs
