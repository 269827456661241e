import Verif.Model.CKYCRF
import Verif.Spec.Lengths
import Verif.Spec.Tree
import Verif.Proofs.ExactDP

/-! `CKY_CRF.logpartition` sums over the labelled binary trees. -/

open Finset Spec

noncomputable section
namespace CKYCRFProofs
variable {NT : ℕ}

/-! ### Sums over trees -/

theorem sum_trees_one {R : Type} [AddCommMonoid R] (f : LTree NT → R) : ∑ t : Trees NT 1, f t.1 = ∑ a, f (.leaf a) := by
  symm
  refine Fintype.sum_bijective (fun a : Fin NT => (⟨.leaf a, rfl⟩ : Trees NT 1)) ⟨?_, ?_⟩ _ _ fun _ => rfl
  · intro a a' h
    exact LTree.leaf.inj (congrArg Subtype.val h)
  · rintro ⟨t, ht⟩
    cases t with
    | leaf a => exact ⟨a, rfl⟩
    | node a l r =>
      have h1 := l.size_pos
      have h2 := r.size_pos
      simp only [LTree.size] at ht
      omega

theorem sum_trees_node {R : Type} [AddCommMonoid R] (n : ℕ) (f : LTree NT → R) : ∑ t : Trees NT (n + 2), f t.1 =
    ∑ a, ∑ k : Fin (n + 1), ∑ l : Trees NT (k + 1), ∑ r : Trees NT (n + 1 - k), f (.node a l.1 r.1) := by
  let T := Σ _ : Fin NT, Σ k : Fin (n + 1), Σ _ : Trees NT (k + 1), Trees NT (n + 1 - k)
  have h : ∑ a, ∑ k : Fin (n + 1), ∑ l : Trees NT (k + 1), ∑ r : Trees NT (n + 1 - k), f (.node a l.1 r.1) =
      ∑ x : T, f (.node x.1 x.2.2.1.1 x.2.2.2.1) := by
    simp only [T, Fintype.sum_sigma]
  rw [h]
  symm
  refine Fintype.sum_bijective (fun x : T => (⟨.node x.1 x.2.2.1.1 x.2.2.2.1, ?_⟩ : Trees NT (n + 2))) ⟨?_, ?_⟩ _ _ fun _ => rfl
  · have h1 := x.2.2.1.2
    have h2 := x.2.2.2.2
    have h3 := x.2.1.2
    simp only [LTree.size, h1, h2]; omega
  · rintro ⟨a, ⟨k, hk⟩, ⟨l, hl⟩, ⟨r, hr⟩⟩ ⟨a', ⟨k', hk'⟩, ⟨l', hl'⟩, ⟨r', hr'⟩⟩ h
    simp only [Subtype.mk.injEq, LTree.node.injEq] at h
    obtain ⟨rfl, rfl, rfl⟩ := h
    have : k = k' := by
      have h1 : l.size = k + 1 := hl
      have h2 : l.size = k' + 1 := hl'
      omega
    subst this
    rfl
  · rintro ⟨t, ht⟩
    cases t with
    | leaf a => simp [LTree.size] at ht
    | node a l r =>
      have h1 := l.size_pos
      have h2 := r.size_pos
      simp only [LTree.size] at ht
      refine ⟨⟨a, ⟨l.size - 1, by omega⟩, ⟨l, ?_⟩, ⟨r, ?_⟩⟩, rfl⟩
      · simp only; omega
      · simp only; omega

/-- The inside weight of the span of `w + 1` words starting at `i`. -/
def inside {R : Type} [CommSemiring R] (NT : ℕ) (x : ℕ → ℕ → ℕ → R) (i w : ℕ) : R :=
  ∑ t : Trees NT (w + 1), ((t.1.spans i).map fun s => x s.1 s.2.1 s.2.2).prod

theorem inside_zero {R : Type} [CommSemiring R] (x : ℕ → ℕ → ℕ → R) (i : ℕ) : inside NT x i 0 = ∑ a ∈ range NT, x i i a := by
  rw [inside, sum_trees_one fun t => ((t.spans i).map fun s => x s.1 s.2.1 s.2.2).prod, sum_range]
  simp [LTree.spans]

theorem inside_succ {R : Type} [CommSemiring R] (x : ℕ → ℕ → ℕ → R) (i w : ℕ) : inside NT x i (w + 1) =
    (∑ u ∈ range (w + 1), inside NT x i u * inside NT x (i + u + 1) (w - u)) * ∑ a ∈ range NT, x i (i + (w + 1)) a := by
  rw [inside, sum_trees_node w fun t => ((t.spans i).map fun s => x s.1 s.2.1 s.2.2).prod, sum_range, sum_range, mul_comm, sum_mul]
  refine sum_congr rfl fun a _ => ?_
  rw [mul_sum]
  refine sum_congr rfl fun k _ => ?_
  have hk := k.2
  have e : w - (k : ℕ) + 1 = w + 1 - k := by omega
  unfold inside
  rw [e, sum_mul_sum, mul_sum]
  refine sum_congr rfl fun l _ => ?_
  rw [mul_sum]
  refine sum_congr rfl fun r _ => ?_
  have hl : l.1.size = k + 1 := l.2
  have hr : r.1.size = w + 1 - k := r.2
  simp only [LTree.spans, List.map_cons, List.map_append, List.prod_cons, List.prod_append, hl, hr]
  have e2 : i + (↑k + 1) + (w + 1 - ↑k) - 1 = i + (w + 1) := by omega
  rw [e2, add_assoc]

/-! ### The charts -/

variable {α R : Type} [CommSemiring R] {S : SR α} {ρ : α → R → Prop}

/-- All spans of at most `w` words inside the first `L` words are correct in both charts. -/
def Inv (ρ : α → R → Prop) (N NT L b : ℕ) (x : ℕ → ℕ → ℕ → R) (w : ℕ) (st : CKYCRF.Charts α) : Prop :=
  ∀ u < w, ∀ i, i + u < L → ρ (st.1 b i u) (inside NT x i u) ∧ ρ (st.2 b (i + u) (N - 1 - u)) (inside NT x i u)

theorem zipWith_map {β γ δ ε : Type} (f : β → γ → δ) (l : List ε) (g : ε → β) (h : ε → γ) :
    List.zipWith f (l.map g) (l.map h) = l.map fun a => f (g a) (h a) := by
  induction l with
  | nil => rfl
  | cons a l ih => simp [ih]

theorem step_inv (H : SRRel S ρ) {N L b : ℕ} (hL : L ≤ N) (red : ℕ → ℕ → ℕ → α) (x : ℕ → ℕ → ℕ → R)
    (hred : ∀ i j, i ≤ j → j < L → ρ (red b i j) (∑ a ∈ range NT, x i j a)) {w : ℕ} (hw : w + 1 < N) {st : CKYCRF.Charts α}
    (hst : Inv ρ N NT L b x (w + 1) st) : Inv ρ N NT L b x (w + 2) (CKYCRF.step S N red st (w + 1)) := by
  have hnew : ∀ i, i + (w + 1) < L → ρ (S.times (S.dot ((List.range (w + 1)).map fun u => st.1 b i u)
      ((List.range (w + 1)).map fun u => st.2 b (w + 1 + i) (N - (w + 1) + u))) [red b i (i + (w + 1))]) (inside NT x i (w + 1)) := by
    intro i hi
    rw [inside_succ]
    refine H.mul ?_ (hred _ _ (by omega) hi)
    rw [SR.dot, zipWith_map]
    refine H.sum_range (by omega) fun u hu => H.mul (hst u hu i (by omega)).1 ?_
    have := (hst (w - u) (by omega) (i + u + 1) (by omega)).2
    have e1 : i + u + 1 + (w - u) = w + 1 + i := by omega
    have e2 : N - 1 - (w - u) = N - (w + 1) + u := by omega
    rwa [e1, e2] at this
  intro u hu i hi
  by_cases h : u = w + 1
  · subst h
    constructor
    · simp only [CKYCRF.step]
      rw [if_pos ⟨by omega, trivial⟩]
      exact hnew i hi
    · simp only [CKYCRF.step]
      rw [if_pos ⟨by omega, by omega, by omega⟩]
      have := hnew i hi
      rwa [Nat.add_sub_cancel]
  · have := hst u (by omega) i hi
    constructor
    · simp only [CKYCRF.step]
      rw [if_neg (by omega)]
      exact this.1
    · simp only [CKYCRF.step]
      rw [if_neg (by omega)]
      exact this.2

theorem charts_inv (H : SRRel S ρ) {N L b : ℕ} (hN : 0 < N) (hL : L ≤ N) (red : ℕ → ℕ → ℕ → α) (x : ℕ → ℕ → ℕ → R)
    (hred : ∀ i j, i ≤ j → j < L → ρ (red b i j) (∑ a ∈ range NT, x i j a)) :
    Inv ρ N NT L b x N (CKYCRF.charts S N red) := by
  have key : ∀ m ≤ N - 1, Inv ρ N NT L b x (m + 1) ((List.range m).foldl (fun st w => CKYCRF.step S N red st (w + 1)) (CKYCRF.init S N red)) := by
    intro m
    induction m with
    | zero =>
      intro _ u hu i hi
      obtain rfl : u = 0 := by omega
      simp only [List.range_zero, List.foldl_nil, CKYCRF.init]
      rw [if_pos ⟨by omega, trivial⟩, if_pos ⟨by omega, by omega⟩, inside_zero]
      exact ⟨hred i i le_rfl (by omega), hred i i le_rfl (by omega)⟩
    | succ m ih =>
      intro hm
      rw [List.range_succ, List.foldl_append]
      simp only [List.foldl_cons, List.foldl_nil]
      exact step_inv H hL red x hred (by omega) (ih (by omega))
  have := key (N - 1) le_rfl
  rwa [Nat.sub_add_cancel hN] at this

/-- The value of the whole row. -/
theorem row_rel (H : SRRel S ρ) {N L b NT : ℕ} (hNT : 0 < NT) (hL0 : 0 < L) (hL : L ≤ N) (p : ℕ → ℕ → ℕ → ℕ → α) (x : ℕ → ℕ → ℕ → R)
    (hx : ∀ i j a, i ≤ j → j < L → a < NT → ρ (p b i j a) (x i j a)) :
    ρ ((CKYCRF.charts S N fun b i j => S.sum ((List.range NT).map fun a => p b i j a)).1 b 0 (L - 1)) (∑ t : Trees NT L, treeProd x t) := by
  have := (charts_inv (NT := NT) H (by omega) hL (fun b i j => S.sum ((List.range NT).map fun a => p b i j a)) x (b := b) fun i j hij hj => H.sum_range hNT fun a ha => hx i j a hij hj ha) (L - 1) (by omega) 0
    (by omega)
  have e : inside NT x 0 (L - 1) = ∑ t : Trees NT L, treeProd x t := by
    unfold inside
    have : L - 1 + 1 = L := by omega
    rw [this]; rfl
  rw [e] at this
  exact this.1

/-! ### Spans of a tree -/

theorem spans_mem : ∀ (t : LTree NT) (i : ℕ), ∀ s ∈ t.spans i, i ≤ s.1 ∧ s.1 ≤ s.2.1 ∧ s.2.1 < i + t.size
  | .leaf a, i, s, h => by
    simp only [LTree.spans, List.mem_singleton] at h
    subst h; simp [LTree.size]
  | .node a l r, i, s, h => by
    have h1 := l.size_pos
    have h2 := r.size_pos
    simp only [LTree.spans, List.mem_cons, List.mem_append] at h
    simp only [LTree.size]
    rcases h with rfl | h | h
    · simp only; omega
    · have := spans_mem l i s h; omega
    · have := spans_mem r _ s h; omega

theorem spans_length : ∀ (t : LTree NT) (i : ℕ), (t.spans i).length = 2 * t.size - 1
  | .leaf a, i => rfl
  | .node a l r, i => by
    have h1 := l.size_pos
    have h2 := r.size_pos
    simp only [LTree.spans, List.length_cons, List.length_append, spans_length l, spans_length r, LTree.size]; omega

/-- No two nodes of a tree have the same span. -/
theorem spans_pos_nodup : ∀ (t : LTree NT) (i : ℕ), ((t.spans i).map fun s => (s.1, s.2.1)).Nodup
  | .leaf a, i => by simp [LTree.spans]
  | .node a l r, i => by
    have h1 := l.size_pos
    have h2 := r.size_pos
    simp only [LTree.spans, List.map_cons, List.map_append, List.nodup_cons, List.nodup_append, List.mem_append, List.mem_map, not_or]
    refine ⟨⟨?_, ?_⟩, spans_pos_nodup l i, spans_pos_nodup r _, ?_⟩
    · rintro ⟨s, hs, he⟩
      have := spans_mem l i s hs
      simp only [Prod.mk.injEq] at he
      omega
    · rintro ⟨s, hs, he⟩
      have := spans_mem r _ s hs
      simp only [Prod.mk.injEq] at he
      omega
    · rintro _ ⟨s, hs, rfl⟩ _ ⟨s', hs', rfl⟩ he
      have := spans_mem l i s hs
      have := spans_mem r _ s' hs'
      simp only [Prod.mk.injEq] at he
      omega

theorem spans_nodup (t : LTree NT) (i : ℕ) : (t.spans i).Nodup := List.Nodup.of_map _ (spans_pos_nodup t i)

/-! ### The batch -/

/-- Reading a table by index. -/
def at4 {γ : Type} (p : T4 γ) (e : List ℕ) : γ := p.get (e.getD 0 0) (e.getD 1 0) (e.getD 2 0) (e.getD 3 0)

/-- The shape of the inputs. -/
structure Valid {γ : Type} (p : T4 γ) (lengths : Option (List ℕ)) : Prop where
  square : p.d1 = p.d2
  words : 1 ≤ p.d1
  labels : 1 ≤ p.d3
  lens : LengthsIn p.d0 p.d1 lengths

theorem len_in {B N : ℕ} {lengths : Option (List ℕ)} (hN : 1 ≤ N) (h : LengthsIn B N lengths) (b : ℕ) (hb : b < B) :
    1 ≤ lenOf N lengths b ∧ lenOf N lengths b ≤ N := by
  cases lengths with
  | none => exact ⟨hN, le_rfl⟩
  | some l =>
    simp only [LengthsIn] at h
    simp only [lenOf]
    rw [List.getD_eq_getElem _ _ (by omega)]
    exact h.2 _ (List.getElem_mem _)

theorem gather_ok {α : Type} {B N : ℕ} (final : ℕ → ℕ → α) {lengths : Option (List ℕ)} (hN : 1 ≤ N) (h : LengthsIn B N lengths) :
    CKYCRF.gather B N final (CKYCRF.lensOr B N lengths) = .ok ((List.range B).map fun b => final b (lenOf N lengths b - 1)) := by
  have h1 : ∀ l ∈ CKYCRF.lensOr B N lengths, l ≤ N := by
    cases lengths with
    | none => intro l hl; exact (List.eq_of_mem_replicate hl).le
    | some l => exact fun x hx => (h.2 x hx).2
  have h2 : (CKYCRF.lensOr B N lengths).length = B := by
    cases lengths with
    | none => exact List.length_replicate
    | some l => exact h.1
  rw [CKYCRF.gather, if_pos h1, if_pos h2]
  congr 1
  refine List.map_congr_left fun b hb => ?_
  have hb := List.mem_range.1 hb
  have e : (CKYCRF.lensOr B N lengths).getD b 0 = lenOf N lengths b := by
    cases lengths with
    | none => simp [CKYCRF.lensOr, lenOf, hb]
    | some l => rfl
  rw [e, CKYCRF.lastIndex, if_neg (by have := (len_in hN h b hb).1; omega)]

theorem logpartition_ok {α : Type} (S : SR α) (p : T4 α) (lengths : Option (List ℕ)) (h : Valid p lengths) :
    CKYCRF.logpartition S p lengths =
      .ok ((List.range p.d0).map fun b => (CKYCRF.charts S p.d1 (CKYCRF.reduced S p)).1 b 0 (lenOf p.d1 lengths b - 1)) := by
  have h2 := h.words
  rw [CKYCRF.logpartition, if_neg (not_not.2 h.square), if_neg (by omega)]
  exact gather_ok _ h.words h.lens

/-- The entries of the potentials that a tree of row `b` uses. -/
def treeParts (b : ℕ) {NT L : ℕ} (t : Trees NT L) : Multiset (List ℕ) :=
  ((t.1.spans 0).map fun s => [b, s.1, s.2.1, (s.2.2 : ℕ)] : List (List ℕ))

/-- The entries of the potentials of row `b`. -/
def Entry (N NT : ℕ) (lengths : Option (List ℕ)) (b : ℕ) (e : List ℕ) : Prop :=
  ∃ i j a, e = [b, i, j, a] ∧ i ≤ j ∧ j < lenOf N lengths b ∧ a < NT

theorem batchDP {γ : Type} (p : T4 γ) (lengths : Option (List ℕ)) (h : Valid p lengths) :
    Generic.BatchDP CKYCRF.algo p lengths p.d0 (at4 p) (Entry p.d1 p.d3 lengths) (ι := fun b => Trees p.d3 (lenOf p.d1 lengths b))
      (π := fun _ => Empty) (fun b => treeParts b) (fun _ _ => 0) (fun _ y => y.elim) where
  rows := by
    refine ⟨fun b α S x => (CKYCRF.charts S p.d1 fun b i j => S.sum ((List.range p.d3).map fun a => x [b, i, j, a])).1 b 0
      (lenOf p.d1 lengths b - 1), ?_, ?_⟩
    · intro α S f
      exact logpartition_ok S (⟨p.d0, p.d1, p.d2, p.d3, fun b i j a => f (p.get b i j a) [b, i, j, a]⟩ : T4 α) lengths
        ⟨h.square, h.words, h.labels, h.lens⟩
    · intro b hb
      have hl := len_in h.words h.lens b hb
      refine ⟨?_, ?_, fun y => y.elim, ?_, fun y => y.elim, fun y => y.elim⟩
      · intro α R _ S ρ ζ ω H _ x wp wm hp _
        have := row_rel H (b := b) h.labels hl.1 hl.2 (fun b i j a => x [b, i, j, a]) (fun i j a => wp [b, i, j, a])
          fun i j a hij hj ha => hp _ ⟨i, j, a, rfl, hij, hj, ha⟩
        simp only [univ_eq_empty, sum_empty, add_zero, pow_zero, mul_one]
        convert this using 3 with t
        rw [treeParts, Multiset.map_coe, Multiset.prod_coe, List.map_map]
        rfl
      · intro t e he
        rw [treeParts, Multiset.mem_coe, List.mem_map] at he
        obtain ⟨s, hs, rfl⟩ := he
        have h1 := spans_mem t.1 0 s hs
        have h2 := t.2
        exact ⟨s.1, s.2.1, s.2.2, rfl, h1.2.1, by omega, s.2.2.2⟩
      · rintro e ⟨i, j, a, rfl, -⟩; rfl
  map_fst _ := rfl
  map_id := rfl

theorem treeParts_nodup (b : ℕ) {NT L : ℕ} (t : Trees NT L) : (treeParts b t).Nodup := by
  rw [treeParts, Multiset.coe_nodup]
  refine List.Nodup.map ?_ (spans_nodup t.1 0)
  rintro ⟨i, j, a⟩ ⟨i', j', a'⟩ h
  simp only [List.cons.injEq, and_true, true_and] at h
  obtain ⟨rfl, rfl, h⟩ := h
  rw [Fin.ext h]

theorem treeParts_card (b : ℕ) {NT L : ℕ} (t : Trees NT L) : Multiset.card (treeParts b t) = 2 * L - 1 := by
  rw [treeParts, Multiset.coe_card, List.length_map, spans_length, t.2]

theorem nonempty_trees {NT : ℕ} (hNT : 1 ≤ NT) : ∀ {L : ℕ}, 1 ≤ L → Nonempty (Trees NT L)
  | 1, _ => ⟨⟨.leaf ⟨0, hNT⟩, rfl⟩⟩
  | L + 2, _ => by
    obtain ⟨t⟩ := nonempty_trees hNT (L := L + 1) (by omega)
    exact ⟨⟨.node ⟨0, hNT⟩ (.leaf ⟨0, hNT⟩) t.1, by simp only [LTree.size, t.2]; omega⟩⟩

end CKYCRFProofs
