import Verif.Model.InfGumbel
import Verif.Proofs.InfSample

/-! `gumbel_crf` when potentials may be `-inf`: which events can be returned. -/

open Finset Spec SemiringRel Semirings

noncomputable section
namespace InfGumbel
open InfEntropy (lseE_ne_bot add_ne_bot)
open InfSample (lseE_bot lseE_ne_top fst_sum_zero snd_sum Dead4 Dead5)

variable {temp : ℝ}

/-! ### One call of `max` -/

theorem select_iff (ht : 0 < temp) {ls : List EReal} (h : ∀ x ∈ ls, x ≠ ⊤) {k : ℕ} (hk : k < ls.length) :
    CanSelect temp ls k ↔ ls[k] ≠ ⊥ ∨ ∀ x ∈ ls, x = ⊥ := by
  have hbot : ∀ g : ℝ, ((⊥ : EReal) + (g : EReal)) / (temp : EReal) = ⊥ := fun g => by
    rw [EReal.bot_add, EReal.bot_div_of_pos_ne_top (EReal.coe_pos.2 ht) (EReal.coe_ne_top _)]
  constructor
  · rintro ⟨_, g, hg⟩
    by_contra hc
    push Not at hc
    obtain ⟨h0, x, hx, hx0⟩ := hc
    obtain ⟨j, hj, rfl⟩ := List.getElem_of_mem hx
    have := hg j hj
    rw [h0, hbot, le_bot_iff] at this
    generalize hy : ls[j] = y at this hx0
    have hyt : y ≠ ⊤ := hy ▸ h _ hx
    lift y to ℝ using ⟨hyt, hx0⟩
    rw [← EReal.coe_add, ← EReal.coe_div] at this
    exact EReal.coe_ne_bot _ this
  · rintro (h0 | h0)
    · have hkt := h _ (List.getElem_mem hk)
      generalize hy : ls[k] = y at h0 hkt
      lift y to ℝ using ⟨hkt, h0⟩
      refine ⟨hk, fun j => if j = k then 0 else y - (ls.getD j 0).toReal, fun j hj => ?_⟩
      by_cases hjk : j = k
      · subst hjk; exact le_rfl
      · have hjt := h _ (List.getElem_mem hj)
        simp only [if_neg hjk, if_true, hy]
        rw [List.getD_eq_getElem _ _ hj]
        generalize ls[j] = z at hjt
        by_cases hz : z = ⊥
        · rw [hz, hbot]; exact bot_le
        · lift z to ℝ using ⟨hjt, hz⟩
          rw [EReal.toReal_coe, ← EReal.coe_add, add_sub_cancel, EReal.coe_zero, add_zero]
    · refine ⟨hk, fun _ => 0, fun j hj => ?_⟩
      rw [h0 _ (List.getElem_mem hk), h0 _ (List.getElem_mem hj)]

theorem vals_top {xs : List Drawn} (h : ∀ x ∈ xs, x.val ≠ ⊤) : ∀ y ∈ xs.map Drawn.val, y ≠ ⊤ := by
  intro y hy
  obtain ⟨x, hx, rfl⟩ := List.mem_map.1 hy
  exact h x hx

/-- What a sum can return. -/
theorem mem_sum (ht : 0 < temp) {xs : List Drawn} (h : ∀ x ∈ xs, x.val ≠ ⊤) (e : List ℕ →₀ ℕ) :
    e ∈ ((gumbelE temp).sum xs).events ↔ ∃ x ∈ xs, (x.val ≠ ⊥ ∨ ∀ y ∈ xs, y.val = ⊥) ∧ e ∈ x.events := by
  have key : ∀ k (hk : k < xs.length), CanSelect temp (xs.map Drawn.val) k ↔ (xs[k].val ≠ ⊥ ∨ ∀ y ∈ xs, y.val = ⊥) := by
    intro k hk
    rw [select_iff ht (vals_top h) (by simpa using hk)]
    simp
  constructor
  · rintro ⟨k, hk, hs, he⟩
    exact ⟨_, List.getElem_mem hk, (key k hk).1 hs, he⟩
  · rintro ⟨x, hx, hs, he⟩
    obtain ⟨k, hk, rfl⟩ := List.getElem_of_mem hx
    exact ⟨k, hk, (key k hk).2 hs, he⟩

/-- The value is a number. -/
def Live (a : Drawn) : Prop := a.val ≠ ⊥ ∧ a.val ≠ ⊤

theorem sum_live {xs : List Drawn} (h : ∀ x ∈ xs, x.val ≠ ⊤) (hx : ∃ x ∈ xs, x.val ≠ ⊥) : Live ((gumbelE temp).sum xs) := by
  obtain ⟨x, hx, h0⟩ := hx
  exact ⟨lseE_ne_bot ⟨x.val, List.mem_map_of_mem hx, h0⟩, lseE_ne_top (vals_top h)⟩

theorem zero_live : Live (gumbelE temp).zero := ⟨EReal.coe_ne_bot _, EReal.coe_ne_top _⟩

theorem one_live : Live (gumbelE temp).one := ⟨EReal.zero_ne_bot, EReal.zero_ne_top⟩

theorem fill_live {mask : Bool} {a b : Drawn} (ha : Live a) (hb : Live b) : Live (SR.fill a mask b) := by
  cases mask
  · exact ha
  · exact hb

/-! ### What can be returned -/

/-- The bag holds, for every structure, the number of its parts with potential `-inf`, and its event. -/
def Can (a : Drawn) (x : Bag (ℕ × (List ℕ →₀ ℕ))) : Prop :=
  a.val ≠ ⊤ ∧ (a.val = ⊥ ↔ ∀ s ∈ x.ms, s.1 ≠ 0) ∧ a.events.Nonempty ∧ (∀ e ∈ a.events, ∃ n, (n, e) ∈ x.ms) ∧ (a.val ≠ ⊥ → ∀ e ∈ a.events, (0, e) ∈ x.ms)

theorem can_rel (ht : 0 < temp) : SRRel (gumbelE temp) Can where
  mul := by
    rintro a b x y ⟨ha, ha1, ⟨u₀, hu₀⟩, ha3, ha2⟩ ⟨hb, hb1, ⟨v₀, hv₀⟩, hb3, hb2⟩
    have hv : ((gumbelE temp).mul a b).val = ⊥ ↔ a.val = ⊥ ∨ b.val = ⊥ := EReal.add_eq_bot_iff
    refine ⟨EReal.add_ne_top ha hb, ?_, ⟨u₀ + v₀, u₀, hu₀, v₀, hv₀, rfl⟩, ?_, ?_⟩
    · rw [hv, ha1, hb1]
      constructor
      · rintro h s hs h0
        obtain ⟨u, hu, v, hv, rfl⟩ := Bag.mem_mul.1 hs
        rw [Prod.fst_add] at h0
        rcases h with h | h
        · exact h u hu (by omega)
        · exact h v hv (by omega)
      · intro h
        by_contra hc
        push Not at hc
        obtain ⟨⟨u, hu, hu0⟩, v, hv, hv0⟩ := hc
        exact h (u + v) (Bag.mem_mul.2 ⟨u, hu, v, hv, rfl⟩) (by rw [Prod.fst_add, hu0, hv0])
    · rintro _ ⟨u, hu, v, hv, rfl⟩
      obtain ⟨m, hm⟩ := ha3 u hu
      obtain ⟨n, hn⟩ := hb3 v hv
      exact ⟨m + n, Bag.mem_mul.2 ⟨_, hm, _, hn, rfl⟩⟩
    · intro h
      have h' : ¬ (a.val = ⊥ ∨ b.val = ⊥) := fun hc => h (hv.2 hc)
      push Not at h'
      rintro _ ⟨u, hu, v, hv, rfl⟩
      exact Bag.mem_mul.2 ⟨_, ha2 h'.1 u hu, _, hb2 h'.2 v hv, rfl⟩
  sum := by
    intro as xs hne hf
    have hl := InfArgmax.forall₂_left hf
    have hr := InfEntropy.forall₂_right hf
    have hv : ∀ a ∈ as, a.val ≠ ⊤ := fun a ha => by
      obtain ⟨x, -, h, -⟩ := hl a ha
      exact h
    have hbot : ((gumbelE temp).sum as).val = ⊥ ↔ ∀ a ∈ as, a.val = ⊥ := by
      change lseE _ = ⊥ ↔ _
      rw [lseE_bot]; simp
    refine ⟨lseE_ne_top (vals_top hv), ?_, ?_, ?_, ?_⟩
    · rw [hbot]
      constructor
      · intro h s hs
        obtain ⟨x, hx, hs⟩ := Bag.mem_list_sum.1 hs
        obtain ⟨a, ha, -, h1, -⟩ := hr x hx
        exact h1.1 (h a ha) s hs
      · intro h a ha
        obtain ⟨x, hx, -, h1, -⟩ := hl a ha
        exact h1.2 fun s hs => h s (Bag.mem_list_sum.2 ⟨x, hx, hs⟩)
    · by_cases h : ∀ a ∈ as, a.val = ⊥
      · obtain ⟨a, ha⟩ := List.exists_mem_of_ne_nil _ hne
        obtain ⟨x, -, -, -, ⟨e, he⟩, -⟩ := hl a ha
        exact ⟨e, (mem_sum ht hv e).2 ⟨a, ha, Or.inr h, he⟩⟩
      · push Not at h
        obtain ⟨a, ha, h0⟩ := h
        obtain ⟨x, -, -, -, ⟨e, he⟩, -⟩ := hl a ha
        exact ⟨e, (mem_sum ht hv e).2 ⟨a, ha, Or.inl h0, he⟩⟩
    · intro e he
      obtain ⟨a, ha, -, he⟩ := (mem_sum ht hv e).1 he
      obtain ⟨x, hx, -, -, -, h3, -⟩ := hl a ha
      obtain ⟨n, hn⟩ := h3 e he
      exact ⟨n, Bag.mem_list_sum.2 ⟨x, hx, hn⟩⟩
    · intro h e he
      obtain ⟨a, ha, h0, he⟩ := (mem_sum ht hv e).1 he
      obtain ⟨x, hx, -, -, -, -, h3⟩ := hl a ha
      exact Bag.mem_list_sum.2 ⟨x, hx, h3 (h0.resolve_right fun hc => h (hbot.2 hc)) e he⟩

open Classical in
theorem can_leaf {v : EReal} (hv : v ≠ ⊤) (e : List ℕ) : Can (drawLeaf v e) (Bag.single (if v = ⊥ then 1 else 0, Finsupp.single e 1)) := by
  refine ⟨hv, ?_, ⟨_, rfl⟩, ?_, ?_⟩
  · simp [drawLeaf]
  · rintro _ rfl
    exact ⟨if v = ⊥ then 1 else 0, by simp⟩
  · rintro h _ rfl
    have h : ¬ v = ⊥ := h
    simp [h]

theorem can_const {r : ℝ} {p : Prop} : Can ⟨(r : EReal), p, {0}⟩ 1 := by
  refine ⟨EReal.coe_ne_top _, ?_, ⟨_, rfl⟩, ?_, ?_⟩
  · simp
  · rintro _ rfl
    exact ⟨0, by simp⟩
  · rintro _ _ rfl
    simp

theorem can_one : Can ⟨0, True, {0}⟩ 1 := by simpa using can_const (r := 0) (p := True)

theorem can_tame : Generic.Tame (gumbelE temp) Can 1 1 where
  zero := can_const
  one := can_one
  keep h := h
  raw := can_const
  dzz := can_const
  doz := can_const
  dzk := can_const
  dok := can_one

end InfGumbel

namespace Generic
open InfGumbel Semirings
open InfSample (fst_sum_zero snd_sum)

namespace RowDP
variable {row : (α : Type) → SR α → (List ℕ → α) → α} {b : ℕ} {E : List ℕ → Prop} {ι π : Type} [Fintype ι] [Fintype π]
  {parts : ι → Multiset (List ℕ)} {ones : ι → ℕ} {atoms : π → Multiset Atom} (D : RowDP row b E parts ones atoms)
include D

open Classical in
/-- Without phantoms, something is returned, and it is the event of a structure, without parts of potential `-inf` if there is such a structure. -/
theorem picked [IsEmpty π] {temp : ℝ} (ht : 0 < temp) (v : List ℕ → EReal) (hv : ∀ e, v e ≠ ⊤) :
    (row _ (gumbelE temp) fun e => drawLeaf (v e) e).events.Nonempty ∧
    ∀ u ∈ (row _ (gumbelE temp) fun e => drawLeaf (v e) e).events, ∃ y, u = ev parts y ∧ ((∃ y', ∀ e ∈ parts y', v e ≠ ⊥) → ∀ e ∈ parts y, v e ≠ ⊥) := by
  have h := D.rel (can_rel ht) can_tame (x := fun e => drawLeaf (v e) e) (wp := fun e => Bag.single (if v e = ⊥ then 1 else 0, Finsupp.single e 1))
    (wm := fun e => Bag.single (0, Finsupp.single e 1)) (fun e _ => can_leaf (hv e) e) (fun e => by
      refine ⟨EReal.coe_ne_top _, ?_, ⟨_, rfl⟩, ?_, ?_⟩
      · simp [gumbelE]
      · rintro _ rfl
        exact ⟨0, by simp⟩
      · rintro _ _ rfl
        simp)
  have h2 : ∀ y, ((parts y).map fun e => Bag.single ((if v e = ⊥ then 1 else 0 : ℕ), (Finsupp.single e 1 : List ℕ →₀ ℕ))).prod =
      Bag.single ((parts y).map fun e => ((if v e = ⊥ then 1 else 0 : ℕ), (Finsupp.single e 1 : List ℕ →₀ ℕ))).sum := fun y => prod_single_bag _ _
  simp only [h2, univ_eq_empty, sum_empty, add_zero, one_pow, mul_one] at h
  obtain ⟨-, h3, h4, h5, h6⟩ := h
  have hz : ∀ y, ((parts y).map fun e => ((if v e = ⊥ then 1 else 0 : ℕ), (Finsupp.single e 1 : List ℕ →₀ ℕ))).sum.1 = 0 ↔ ∀ e ∈ parts y, v e ≠ ⊥ := by
    intro y
    rw [fst_sum_zero]
    refine forall₂_congr fun e _ => ?_
    by_cases hc : v e = ⊥ <;> simp [hc]
  refine ⟨h4, fun u hu => ?_⟩
  by_cases h0 : (row _ (gumbelE temp) fun e => drawLeaf (v e) e).val = ⊥
  · obtain ⟨n, hn⟩ := h5 u hu
    obtain ⟨y, -, hy⟩ := Bag.mem_sum.1 hn
    rw [Bag.ms_single, Multiset.mem_singleton, Prod.ext_iff, snd_sum] at hy
    refine ⟨y, hy.2, ?_⟩
    rintro ⟨y', hy'⟩
    refine absurd ((hz y').2 hy') (h3.1 h0 _ (Bag.mem_sum.2 ⟨y', mem_univ y', ?_⟩))
    rw [Bag.ms_single, Multiset.mem_singleton]
  · obtain ⟨y, -, hy⟩ := Bag.mem_sum.1 (h6 h0 u hu)
    rw [Bag.ms_single, Multiset.mem_singleton, Prod.ext_iff, snd_sum] at hy
    exact ⟨y, hy.2, fun _ => (hz y).1 hy.1.symm⟩

end RowDP

/-- Without phantoms, something is returned, and it is the event of a structure, without parts of potential `-inf` if there is such a structure. -/
theorem BatchDP.picked {A : Algo} {lengths : Option (List ℕ)} {B : ℕ} {E : ℕ → List ℕ → Prop} {ι π : ℕ → Type} [∀ b, Fintype (ι b)] [∀ b, Fintype (π b)]
    [∀ b, IsEmpty (π b)] {parts : ∀ b, ι b → Multiset (List ℕ)} {ones : ∀ b, ι b → ℕ} {atoms : ∀ b, π b → Multiset Atom} {p : A.T EReal}
    {val : List ℕ → EReal} (D : BatchDP A p lengths B val E parts ones atoms) {temp : ℝ} (ht : 0 < temp) (hv : ∀ e, val e ≠ ⊤) :
    ∃ vs, Dist.gumbelE A p lengths temp = .ok vs ∧ vs.length = B ∧ ∀ b (hb : b < vs.length), vs[b].Nonempty ∧
      ∀ u ∈ vs[b], ∃ y, (∀ e, u e = (parts b y).count e) ∧ ((∃ y', ∀ e ∈ parts b y', val e ≠ ⊥) → ∀ e ∈ parts b y, val e ≠ ⊥) := by
  obtain ⟨row, h1, h2⟩ := D.rows
  refine ⟨_, by rw [Dist.gumbelE, h1 (gumbelE temp) drawLeaf]; rfl, by simp, fun b hb => ?_⟩
  simp only [List.getElem_map, List.getElem_range]
  obtain ⟨h3, h4⟩ := (h2 b (by simpa using hb)).picked ht val hv
  refine ⟨h3, fun u hu => ?_⟩
  obtain ⟨y, h5, h6⟩ := h4 u hu
  exact ⟨y, fun e => by rw [h5, ev_apply], h6⟩

end Generic

namespace InfGumbel
open InfEntropy (add_ne_bot)
open InfSample (lseE_bot lseE_ne_top Dead4 Dead5)

/-! ### `LinearChainCRF` and `SemiMarkovCRF` -/

/-- The value is a number and something is returned. -/
def Full (a : Drawn) : Prop := Live a ∧ a.events.Nonempty

theorem sum_full (ht : 0 < temp) {xs : List Drawn} (h : ∀ x ∈ xs, x.val ≠ ⊤) (hx : ∃ x ∈ xs, x.val ≠ ⊥ ∧ x.events.Nonempty) : Full ((gumbelE temp).sum xs) := by
  obtain ⟨x, hx, h0, u, hu⟩ := hx
  exact ⟨sum_live h ⟨x, hx, h0⟩, u, (mem_sum ht h u).2 ⟨x, hx, Or.inl h0, hu⟩⟩

theorem full_rel (ht : 0 < temp) : SRRel (gumbelE temp) fun a (_ : ℕ) => Full a where
  mul := by
    rintro a b _ _ ⟨ha, u, hu⟩ ⟨hb, v, hv⟩
    exact ⟨⟨add_ne_bot ha.1 hb.1, EReal.add_ne_top ha.2 hb.2⟩, u + v, u, hu, v, hv, rfl⟩
  sum := by
    intro as xs hne hf
    have h : ∀ a ∈ as, Full a := fun a ha => by
      obtain ⟨x, -, h⟩ := InfArgmax.forall₂_left hf a ha
      exact h
    obtain ⟨a, ha⟩ := List.exists_mem_of_ne_nil _ hne
    exact sum_full ht (fun a ha => (h a ha).1.2) ⟨a, ha, (h a ha).1.1, (h a ha).2⟩

theorem zero_full : Full (gumbelE temp).zero := ⟨zero_live, 0, rfl⟩

theorem one_full : Full (gumbelE temp).one := ⟨one_live, 0, rfl⟩

theorem scan_full (hT : 0 < temp) {m : ℕ} (hm : 0 < m) (k : ℕ) (chart : ℕ → Fin m → Fin m → Drawn) (h : ∀ n i j, Full (chart n i j)) :
    ∀ n i j, Full (LinearChain.scan (gumbelE temp) k chart n i j) := by
  induction k generalizing chart with
  | zero => exact h
  | succ k ih => exact ih _ fun n i j => (full_rel hT).sum_ofFn hm (g := fun _ => 0) fun c => (full_rel hT).mul (x := 0) (y := 0) (h _ i c) (h _ c j)

/-- No drawn event uses an entry that satisfies `Q`. -/
def Avoids (Q : List ℕ → Prop) (a : Drawn) : Prop := a.val ≠ ⊤ ∧ (a.val ≠ ⊥ → ∀ u ∈ a.events, ∀ e, Q e → u e = 0)

theorem avoids_rel (ht : 0 < temp) (Q : List ℕ → Prop) : SRRel (gumbelE temp) fun a (_ : ℕ) => Avoids Q a where
  mul := by
    rintro a b _ _ ⟨ha, ha'⟩ ⟨hb, hb'⟩
    refine ⟨EReal.add_ne_top ha hb, fun h => ?_⟩
    have hv : ¬ (a.val = ⊥ ∨ b.val = ⊥) := fun hc => h (EReal.add_eq_bot_iff.2 hc)
    push Not at hv
    rintro _ ⟨u, hu, v, hv', rfl⟩ e he
    rw [Finsupp.add_apply, ha' hv.1 u hu e he, hb' hv.2 v hv' e he]
  sum := by
    intro as xs hne hf
    have hl : ∀ a ∈ as, Avoids Q a := fun a ha => by
      obtain ⟨x, -, h⟩ := InfArgmax.forall₂_left hf a ha
      exact h
    have hv : ∀ a ∈ as, a.val ≠ ⊤ := fun a ha => (hl a ha).1
    refine ⟨lseE_ne_top (vals_top hv), fun h => ?_⟩
    intro u hu e he
    obtain ⟨a, ha, h0, hu⟩ := (mem_sum ht hv u).1 hu
    refine (hl a ha).2 (h0.resolve_right fun hc => h (lseE_bot.2 fun y hy => ?_)) u hu e he
    obtain ⟨a, ha, rfl⟩ := List.mem_map.1 hy
    exact hc a ha

theorem scan_avoids (hT : 0 < temp) {Q : List ℕ → Prop} {m : ℕ} (hm : 0 < m) (k : ℕ) (chart : ℕ → Fin m → Fin m → Drawn) (h : ∀ n i j, Avoids Q (chart n i j)) :
    ∀ n i j, Avoids Q (LinearChain.scan (gumbelE temp) k chart n i j) := by
  induction k generalizing chart with
  | zero => exact h
  | succ k ih => exact ih _ fun n i j => (avoids_rel hT Q).sum_ofFn hm (g := fun _ => 0) fun c => (avoids_rel hT Q).mul (x := 0) (y := 0) (h _ i c) (h _ c j)

theorem avoids_const {Q : List ℕ → Prop} {v : EReal} {p : Prop} (hv : v ≠ ⊤) : Avoids Q ⟨v, p, {0}⟩ := by
  refine ⟨hv, ?_⟩
  rintro _ u rfl e _
  rfl

theorem avoids_single {Q : List ℕ → Prop} {v : EReal} {p : Prop} (hv : v ≠ ⊤) {e : List ℕ} (h : Q e → v = ⊥) : Avoids Q ⟨v, p, {Finsupp.single e 1}⟩ := by
  refine ⟨hv, ?_⟩
  rintro h0 u rfl e' he'
  rw [Finsupp.single_apply, if_neg]
  rintro rfl
  exact h0 (h he')

/-- An entry of a chart after the mask: the sum of the entry of the initial chart and of the potential. -/
theorem cell_spec (hT : 0 < temp) (Q : List ℕ → Prop) (c l : Drawn) (mask : Bool) (hc : Live c) (hl : l.val ≠ ⊤) (hQ : Avoids Q l)
    (hm : mask = true → ∀ u ∈ l.events, ∀ e, Q e → u e = 0) :
    let x := (gumbelE temp).sum [(gumbelE temp).detach ((gumbelE temp).setData c (SR.fill ((gumbelE temp).detach c) (!mask) (gumbelE temp).zero)),
      (gumbelE temp).setData l (SR.fill ((gumbelE temp).detach l) mask (gumbelE temp).zero)]
    Full x ∧ Avoids Q x := by
  have h1 : Live ((gumbelE temp).detach ((gumbelE temp).setData c (SR.fill ((gumbelE temp).detach c) (!mask) (gumbelE temp).zero))) := by
    cases mask
    · exact ⟨EReal.coe_ne_bot _, EReal.coe_ne_top _⟩
    · exact hc
  have h2 : ((gumbelE temp).setData l (SR.fill ((gumbelE temp).detach l) mask (gumbelE temp).zero)).val ≠ ⊤ := by
    cases mask
    · exact hl
    · exact EReal.coe_ne_top _
  refine ⟨sum_full hT ?_ ⟨_, List.mem_cons_self, h1.1, 0, rfl⟩, ?_⟩
  · intro x hx
    rcases List.mem_cons.1 hx with rfl | hx
    · exact h1.2
    · rw [List.mem_singleton.1 hx]; exact h2
  · refine (avoids_rel hT Q).sum2 (x := 0) (y := 0) (avoids_const h1.2) ⟨h2, ?_⟩
    cases mask
    · exact hQ.2
    · exact fun _ => hm rfl

theorem fill_full {mask : Bool} {a b : Drawn} (ha : Full a) (hb : Full b) : Full (SR.fill a mask b) := by
  cases mask
  · exact ha
  · exact hb

theorem fill_avoids {Q : List ℕ → Prop} {mask : Bool} {a b : Drawn} (ha : Avoids Q a) (hb : Avoids Q b) : Avoids Q (SR.fill a mask b) := by
  cases mask
  · exact ha
  · exact hb

theorem chain_cell (hT : 0 < temp) {C : ℕ} (p : T4 EReal) (ht : ∀ b n i j, p.get b n i j ≠ ⊤) (N binN : ℕ) (lens : ℕ → ℕ) (b n : ℕ) (i j : Fin C) :
    let x := LinearChain.masked (gumbelE temp) N binN lens (fun b n i j => drawLeaf (p.get b n i j) [b, n, i, j]) b n i j
    Full x ∧ Avoids (Dead4 p lens) x := by
  refine cell_spec hT _ _ _ _ ?_ ?_ ?_ ?_
  · exact fill_live zero_live one_live
  · simp only [Struct.flat, LinearChain.big]
    split_ifs
    · exact ht _ _ _ _
    · exact EReal.zero_ne_top
  · simp only [Struct.flat, LinearChain.big]
    split_ifs
    · refine avoids_single (ht _ _ _ _) ?_
      rintro ⟨b', n', i', j', he, -, hv⟩
      simp only [List.cons.injEq, and_true] at he
      obtain ⟨rfl, rfl, rfl, rfl⟩ := he
      exact hv
    · exact avoids_const EReal.zero_ne_top
  · intro hm
    simp only [LinearChain.lengthMask, Struct.flat, decide_eq_true_eq] at hm
    simp only [Struct.flat, LinearChain.big]
    split_ifs
    · rintro u rfl e ⟨b', n', i', j', rfl, hn, -⟩
      rw [Finsupp.single_apply, if_neg]
      intro he
      simp only [List.cons.injEq, and_true] at he
      obtain ⟨rfl, rfl, -⟩ := he
      omega
    · rintro u rfl e _
      rfl

theorem total_full (hT : 0 < temp) {m : ℕ} (hm : 0 < m) {x : Fin m → Fin m → Drawn} (h : ∀ i j, Full (x i j)) : Full (LinearChain.total (gumbelE temp) x) :=
  (full_rel hT).sum_ofFn hm (g := fun _ => 0) fun i => (full_rel hT).sum_ofFn hm (g := fun _ => 0) fun j => h i j

theorem total_avoids (hT : 0 < temp) {Q : List ℕ → Prop} {m : ℕ} (hm : 0 < m) {x : Fin m → Fin m → Drawn} (h : ∀ i j, Avoids Q (x i j)) : Avoids Q (LinearChain.total (gumbelE temp) x) :=
  (avoids_rel hT Q).sum_ofFn hm (g := fun _ => 0) fun i => (avoids_rel hT Q).sum_ofFn hm (g := fun _ => 0) fun j => h i j

theorem chain_row (hT : 0 < temp) {C : ℕ} (hC : 0 < C) (p : T4 EReal) (ht : ∀ b n i j, p.get b n i j ≠ ⊤) (N logN : ℕ) (lens : ℕ → ℕ) (b : ℕ) :
    Full (LinearChain.core (C := C) (gumbelE temp) N logN lens (fun b n i j => drawLeaf (p.get b n i j) [b, n, i, j]) b) ∧
    Avoids (Dead4 p lens) (LinearChain.core (C := C) (gumbelE temp) N logN lens (fun b n i j => drawLeaf (p.get b n i j) [b, n, i, j]) b) := by
  have hs := fun k => scan_full hT hC k _ fun n i j => (chain_cell hT (C := C) p ht N (2 ^ logN) lens b n i j).1
  have ha := scan_avoids hT hC logN _ fun n i j => (chain_cell hT (C := C) p ht N (2 ^ logN) lens b n i j).2
  have h := total_full hT hC fun i j => hs logN 0 i j
  exact ⟨h, total_avoids hT hC fun i j => ha 0 i j⟩

theorem semi_cell (hT : 0 < temp) {K1 C : ℕ} (p : T5 EReal) (ht : ∀ b n k i j, p.get b n k i j ≠ ⊤) (N binN : ℕ) (lens : ℕ → ℕ) (b n : ℕ) (i j : Fin (K1 * C)) :
    let x := SemiMarkov.chart (gumbelE temp) K1 C N binN lens (fun b n k i j => drawLeaf (p.get b n k i j) [b, n, k, i, j]) b n i j
    Full x ∧ Avoids (Dead5 p lens) x := by
  have hone : Avoids (Dead5 p lens) (gumbelE temp).one := avoids_const EReal.zero_ne_top
  have hzero : Avoids (Dead5 p lens) (gumbelE temp).zero := avoids_const (EReal.coe_ne_top _)
  suffices h : Full (SemiMarkov.written (gumbelE temp) N binN lens (fun b n k i j => drawLeaf (p.get b n k i j) [b, n, k, i, j]) b n i.divNat j.divNat i.modNat j.modNat) ∧
      Avoids (Dead5 p lens) (SemiMarkov.written (gumbelE temp) N binN lens (fun b n k i j => drawLeaf (p.get b n k i j) [b, n, k, i, j]) b n i.divNat j.divNat i.modNat j.modNat) from
    ⟨fill_full h.1 one_full, fill_avoids h.2 hone⟩
  by_cases hk : (j.divNat : ℕ) = 0
  · simp only [SemiMarkov.written, Struct.unflat, hk, if_true]
    refine cell_spec hT _ _ _ _ ?_ ?_ ?_ ?_
    · exact fill_live zero_live one_live
    · simp only [Struct.flat, SemiMarkov.big]
      split_ifs
      · exact ht _ _ _ _ _
      · exact EReal.zero_ne_top
    · simp only [Struct.flat, SemiMarkov.big]
      split_ifs
      · refine avoids_single (ht _ _ _ _ _) ?_
        rintro ⟨b', n', k', i', j', he, -, hv⟩
        simp only [List.cons.injEq, and_true] at he
        obtain ⟨rfl, rfl, rfl, rfl, rfl⟩ := he
        exact hv
      · exact avoids_const EReal.zero_ne_top
    · intro hm
      simp only [LinearChain.lengthMask, Struct.flat, decide_eq_true_eq] at hm
      simp only [Struct.flat, SemiMarkov.big]
      split_ifs
      · rintro u rfl e ⟨b', n', k', i', j', rfl, hn, -⟩
        rw [Finsupp.single_apply, if_neg]
        intro he
        simp only [List.cons.injEq, and_true] at he
        obtain ⟨rfl, rfl, -⟩ := he
        omega
      · rintro u rfl e _
        rfl
  · simp only [SemiMarkov.written, Struct.unflat, hk, if_false]
    exact ⟨fill_full zero_full one_full, fill_avoids hzero hone⟩

theorem semi_row (hT : 0 < temp) {K1 C : ℕ} (hK : 0 < K1) (hC : 0 < C) (p : T5 EReal) (ht : ∀ b n k i j, p.get b n k i j ≠ ⊤) (N logN : ℕ) (lens : ℕ → ℕ) (b : ℕ) :
    Full (SemiMarkov.core (gumbelE temp) C hK N logN lens (fun b n k i j => drawLeaf (p.get b n k i j) [b, n, k, i, j]) b) ∧
    Avoids (Dead5 p lens) (SemiMarkov.core (gumbelE temp) C hK N logN lens (fun b n k i j => drawLeaf (p.get b n k i j) [b, n, k, i, j]) b) := by
  have hm : 0 < K1 * C := Nat.mul_pos hK hC
  have hs := fun k => scan_full hT hm k _ fun n i j => (semi_cell hT (K1 := K1) (C := C) p ht N (2 ^ logN) lens b n i j).1
  have ha := scan_avoids hT hm logN _ fun n i j => (semi_cell hT (K1 := K1) (C := C) p ht N (2 ^ logN) lens b n i j).2
  have h : Full (SemiMarkov.core (gumbelE temp) C hK N logN lens (fun b n k i j => drawLeaf (p.get b n k i j) [b, n, k, i, j]) b) :=
    (full_rel hT).sum_ofFn hC (g := fun _ => 0) fun i => (full_rel hT).sum_ofFn hC (g := fun _ => 0) fun j => hs logN 0 _ _
  exact ⟨h,
    (avoids_rel hT _).sum_ofFn hC (g := fun _ => 0) fun i => (avoids_rel hT _).sum_ofFn hC (g := fun _ => 0) fun j => ha 0 _ _⟩

end InfGumbel
