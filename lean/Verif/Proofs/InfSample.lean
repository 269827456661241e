import Verif.Model.InfSample
import Verif.Proofs.InfEntropy
import Verif.Proofs.CKYCRF
import Verif.Proofs.DepTree

/-! `sample` when potentials may be `-inf`: where `torch.multinomial` raises and which events can be drawn. -/

open Finset Spec SemiringRel Semirings

noncomputable section
namespace InfSample
open InfEntropy (lseE_ne_bot add_ne_bot logSm_bot)

/-! ### One call of `torch.multinomial` -/

theorem lseE_bot {xs : List EReal} : lseE xs = ⊥ ↔ ∀ x ∈ xs, x = ⊥ := by
  constructor
  · intro h x hx
    by_contra hc
    exact lseE_ne_bot ⟨x, hx, hc⟩ h
  · intro h
    rw [lseE, ENNReal.log_eq_bot_iff, List.sum_eq_zero_iff]
    rintro _ hx
    obtain ⟨y, hy, rfl⟩ := List.mem_map.1 hx
    rw [h y hy, EReal.exp_bot]

theorem lseE_ne_top {xs : List EReal} (h : ∀ x ∈ xs, x ≠ ⊤) : lseE xs ≠ ⊤ := by
  have : (xs.map EReal.exp).sum ≠ ⊤ := by
    induction xs with
    | nil => simp
    | cons a l ih =>
      rw [List.map_cons, List.sum_cons]
      refine ENNReal.add_ne_top.2 ⟨?_, ih fun x hx => h x (List.mem_cons_of_mem _ hx)⟩
      rw [Ne, EReal.exp_eq_top_iff]
      exact h a List.mem_cons_self
  rw [lseE, Ne, ENNReal.log_eq_top_iff]
  exact this

theorem prob_bot (x : EReal) (hx : x = ⊥) : drawProb x ⊥ = none := by
  subst hx
  simp [drawProb, logSmE, IEEE.sub, IEEE.add, IEEE.exp]

theorem prob_live {x r : EReal} (hx : x ≠ ⊤) (hr : r ≠ ⊥) (hr' : r ≠ ⊤) : drawProb x r ≠ none ∧ (drawProb x r = some 0 ↔ x = ⊥) := by
  lift r to ℝ using ⟨hr', hr⟩
  by_cases h : x = ⊥
  · subst h
    rcases logSm_bot (r : EReal) with ⟨h1, -⟩ | ⟨-, h2⟩
    · simp [logSmE, IEEE.sub, IEEE.add] at h1
    · rw [drawProb, h2]; simp
  · lift x to ℝ using ⟨hx, h⟩
    have : drawProb (x : EReal) r = .ofReal (Real.exp (x - r)) := by
      rw [drawProb, ← InfEntropy.ieee_exp, ← InfEntropy.ieee_sub]; rfl
    rw [this]
    refine ⟨by simp [IEEE.ofReal], ?_⟩
    simp [IEEE.ofReal, (Real.exp_pos (x - r)).ne']

/-- The value is a number and the backward pass below it does not raise. -/
def Live (a : Drawn) : Prop := a.ok ∧ a.val ≠ ⊥ ∧ a.val ≠ ⊤

/-- The value is a number or `-inf` and the backward pass below it does not raise. -/
def Fine (a : Drawn) : Prop := a.ok ∧ a.val ≠ ⊤

theorem Live.fine {a : Drawn} (h : Live a) : Fine a := ⟨h.1, h.2.2⟩

theorem sum_live {xs : List Drawn} (h : ∀ x ∈ xs, Fine x) (hx : ∃ x ∈ xs, x.val ≠ ⊥) : Live (drawE.sum xs) := by
  have h1 : lseE (xs.map Drawn.val) ≠ ⊥ := by
    obtain ⟨x, hx, h0⟩ := hx
    exact lseE_ne_bot ⟨x.val, List.mem_map_of_mem hx, h0⟩
  have h2 : lseE (xs.map Drawn.val) ≠ ⊤ := lseE_ne_top fun y hy => by
    obtain ⟨x, hx, rfl⟩ := List.mem_map.1 hy
    exact (h x hx).2
  exact ⟨⟨fun x hx => (h x hx).1, fun x hx => (prob_live (h x hx).2 h1 h2).1⟩, h1, h2⟩

theorem sum_bad {xs : List Drawn} (hne : xs ≠ []) (h : ∀ x ∈ xs, x.val = ⊥) : ¬ (drawE.sum xs).ok := by
  rintro ⟨-, h1⟩
  obtain ⟨x, hx⟩ := List.exists_mem_of_ne_nil _ hne
  have : lseE (xs.map Drawn.val) = ⊥ := lseE_bot.2 fun y hy => by
    obtain ⟨x, hx, rfl⟩ := List.mem_map.1 hy
    exact h x hx
  refine h1 x hx ?_
  rw [this]
  exact prob_bot _ (h x hx)

theorem mul_fine {a b : Drawn} (ha : Fine a) (hb : Fine b) : Fine (drawE.mul a b) :=
  ⟨⟨ha.1, hb.1⟩, EReal.add_ne_top ha.2 hb.2⟩

theorem mul_live {a b : Drawn} (ha : Live a) (hb : Live b) : Live (drawE.mul a b) :=
  ⟨⟨ha.1, hb.1⟩, add_ne_bot ha.2.1 hb.2.1, EReal.add_ne_top ha.2.2 hb.2.2⟩

theorem live_rel : SRRel drawE fun a (_ : ℕ) => Live a where
  mul ha hb := mul_live ha hb
  sum := by
    intro as xs hne hf
    have h : ∀ a ∈ as, Live a := fun a ha => by
      obtain ⟨x, -, h⟩ := InfArgmax.forall₂_left hf a ha
      exact h
    obtain ⟨a, ha⟩ := List.exists_mem_of_ne_nil _ hne
    exact sum_live (fun a ha => (h a ha).fine) ⟨a, ha, (h a ha).2.1⟩

theorem zero_live : Live drawE.zero := ⟨trivial, EReal.coe_ne_bot _, EReal.coe_ne_top _⟩

theorem one_live : Live drawE.one := ⟨trivial, EReal.zero_ne_bot, EReal.zero_ne_top⟩

/-! ### What can be drawn -/

/-- The bag holds, for every structure, the number of its parts with potential `-inf`, and its event. -/
def Can (a : Drawn) (x : Bag (ℕ × (List ℕ →₀ ℕ))) : Prop :=
  a.val ≠ ⊤ ∧ (a.val = ⊥ ↔ ∀ s ∈ x.ms, s.1 ≠ 0) ∧ (a.val ≠ ⊥ → ∀ e, e ∈ a.events ↔ (0, e) ∈ x.ms)

theorem can_rel : SRRel drawE Can where
  mul := by
    rintro a b x y ⟨ha, ha1, ha2⟩ ⟨hb, hb1, hb2⟩
    have hv : (drawE.mul a b).val = ⊥ ↔ a.val = ⊥ ∨ b.val = ⊥ := EReal.add_eq_bot_iff
    refine ⟨EReal.add_ne_top ha hb, ?_, ?_⟩
    · rw [hv, ha1, hb1]
      constructor
      · rintro h s hs h0
        obtain ⟨u, hu, v, hv, rfl⟩ := Bag.mem_mul.1 hs
        rw [Prod.fst_add] at h0
        rcases h with h | h
        · exact h u hu (by omega)
        · exact h v hv (by omega)
      · intro h
        by_contra hc
        push Not at hc
        obtain ⟨⟨u, hu, hu0⟩, v, hv, hv0⟩ := hc
        exact h (u + v) (Bag.mem_mul.2 ⟨u, hu, v, hv, rfl⟩) (by rw [Prod.fst_add, hu0, hv0])
    · intro h e
      have h' : ¬ (a.val = ⊥ ∨ b.val = ⊥) := fun hc => h (hv.2 hc)
      push Not at h'
      change (∃ u ∈ a.events, ∃ v ∈ b.events, e = u + v) ↔ _
      rw [Bag.mem_mul]
      constructor
      · rintro ⟨u, hu, v, hv, rfl⟩
        exact ⟨_, (ha2 h'.1 u).1 hu, _, (hb2 h'.2 v).1 hv, rfl⟩
      · rintro ⟨⟨m, u⟩, hu, ⟨n, v⟩, hv, he⟩
        rw [Prod.mk_add_mk, Prod.mk.injEq] at he
        obtain ⟨rfl, rfl⟩ : m = 0 ∧ n = 0 := by omega
        exact ⟨u, (ha2 h'.1 u).2 hu, v, (hb2 h'.2 v).2 hv, he.2.symm⟩
  sum := by
    intro as xs hne hf
    have hl := InfArgmax.forall₂_left hf
    have hr := InfEntropy.forall₂_right hf
    have htop : lseE (as.map Drawn.val) ≠ ⊤ := lseE_ne_top fun y hy => by
      obtain ⟨a, ha, rfl⟩ := List.mem_map.1 hy
      obtain ⟨x, -, h, -⟩ := hl a ha
      exact h
    have hbot : lseE (as.map Drawn.val) = ⊥ ↔ ∀ a ∈ as, a.val = ⊥ := by
      rw [lseE_bot]; simp
    refine ⟨htop, ?_, ?_⟩
    · change lseE (as.map Drawn.val) = ⊥ ↔ _
      rw [hbot]
      constructor
      · intro h s hs
        obtain ⟨x, hx, hs⟩ := Bag.mem_list_sum.1 hs
        obtain ⟨a, ha, -, h1, -⟩ := hr x hx
        exact h1.1 (h a ha) s hs
      · intro h a ha
        obtain ⟨x, hx, -, h1, -⟩ := hl a ha
        exact h1.2 fun s hs => h s (Bag.mem_list_sum.2 ⟨x, hx, hs⟩)
    · intro h e
      change (∃ a ∈ as, drawProb a.val (lseE (as.map Drawn.val)) ≠ some 0 ∧ e ∈ a.events) ↔ _
      rw [Bag.mem_list_sum]
      constructor
      · rintro ⟨a, ha, h0, he⟩
        obtain ⟨x, hx, ht, -, h2⟩ := hl a ha
        have := (prob_live ht h htop).2
        exact ⟨x, hx, (h2 (fun hc => h0 (this.2 hc)) e).1 he⟩
      · rintro ⟨x, hx, he⟩
        obtain ⟨a, ha, ht, h1, h2⟩ := hr x hx
        have hnb : a.val ≠ ⊥ := fun hc => h1.1 hc _ he rfl
        exact ⟨a, ha, fun hc => hnb ((prob_live ht h htop).2.1 hc), (h2 hnb e).2 he⟩

theorem can_leaf {v : EReal} (hv : v ≠ ⊤) (e : List ℕ) : Can (drawLeaf v e) (Bag.single (open Classical in if v = ⊥ then 1 else 0, Finsupp.single e 1)) := by
  classical
  refine ⟨hv, ?_, ?_⟩
  · simp [drawLeaf]
  · intro h u
    have h : ¬ v = ⊥ := h
    simp [drawLeaf, h]

theorem can_const {r : ℝ} {p : Prop} : Can ⟨(r : EReal), p, {0}⟩ 1 := by
  refine ⟨EReal.coe_ne_top _, ?_, ?_⟩
  · simp
  · intro _ e
    simp

theorem can_one : Can ⟨0, True, {0}⟩ 1 := by simpa using can_const (r := 0) (p := True)

theorem can_tame : Generic.Tame drawE Can 1 1 where
  zero := can_const
  one := can_one
  keep h := h
  raw := can_const
  dzz := can_const
  doz := can_const
  dzk := can_const
  dok := can_one

theorem fst_sum_zero {X : Type} (m : Multiset X) (f : X → ℕ × (List ℕ →₀ ℕ)) : (m.map f).sum.1 = 0 ↔ ∀ a ∈ m, (f a).1 = 0 := by
  induction m using Multiset.induction_on with
  | empty => simp
  | cons a m ih =>
    rw [Multiset.map_cons, Multiset.sum_cons, Prod.fst_add, Nat.add_eq_zero_iff, ih]
    simp

theorem snd_sum {X : Type} (m : Multiset X) (f : X → ℕ × (List ℕ →₀ ℕ)) : (m.map f).sum.2 = (m.map fun a => (f a).2).sum := by
  induction m using Multiset.induction_on with
  | empty => simp
  | cons a m ih => rw [Multiset.map_cons, Multiset.sum_cons, Prod.snd_add, ih, Multiset.map_cons, Multiset.sum_cons]

end InfSample

namespace Generic
open InfSample

namespace RowDP
variable {row : (α : Type) → SR α → (List ℕ → α) → α} {b : ℕ} {E : List ℕ → Prop} {ι π : Type} [Fintype ι] [Fintype π]
  {parts : ι → Multiset (List ℕ)} {ones : ι → ℕ} {atoms : π → Multiset Atom} (D : RowDP row b E parts ones atoms)
include D

open Classical in
/-- Without phantoms, the events that can be drawn are those of the structures without parts of potential `-inf`. -/
theorem drawn [IsEmpty π] (v : List ℕ → EReal) (hv : ∀ e, v e ≠ ⊤) (h0 : (row _ drawE fun e => drawLeaf (v e) e).val ≠ ⊥) (u : List ℕ →₀ ℕ) :
    u ∈ (row _ drawE fun e => drawLeaf (v e) e).events ↔ ∃ y, (∀ e ∈ parts y, v e ≠ ⊥) ∧ u = ev parts y := by
  have h := D.rel can_rel can_tame (x := fun e => drawLeaf (v e) e) (wp := fun e => Bag.single (if v e = ⊥ then 1 else 0, Finsupp.single e 1))
    (wm := fun e => Bag.single (0, Finsupp.single e 1)) (fun e _ => can_leaf (hv e) e) (fun e => by
      refine ⟨EReal.coe_ne_top _, ?_, ?_⟩
      · simp [drawE]
      · intro _ u
        simp [drawE, drawLeaf])
  have h2 : ∀ y, ((parts y).map fun e => Bag.single ((if v e = ⊥ then 1 else 0 : ℕ), (Finsupp.single e 1 : List ℕ →₀ ℕ))).prod =
      Bag.single ((parts y).map fun e => ((if v e = ⊥ then 1 else 0 : ℕ), (Finsupp.single e 1 : List ℕ →₀ ℕ))).sum := fun y => prod_single_bag _ _
  rw [h.2.2 h0 u]
  simp only [h2, univ_eq_empty, sum_empty, add_zero, one_pow, mul_one]
  refine Bag.mem_sum.trans ?_
  refine exists_congr fun y => ?_
  rw [Bag.ms_single, Multiset.mem_singleton, Prod.ext_iff, snd_sum]
  refine ⟨fun ⟨_, h3, h4⟩ => ⟨fun e he => ?_, h4⟩, fun ⟨h3, h4⟩ => ⟨mem_univ y, ?_, h4⟩⟩
  · have := (fst_sum_zero _ _).1 h3.symm e he
    intro hc
    simp [hc] at this
  · refine ((fst_sum_zero _ _).2 fun e he => ?_).symm
    simp [h3 e he]

end RowDP

/-- Without phantoms, the events that can be drawn are those of the structures without parts of potential `-inf`. -/
theorem BatchDP.drawn {A : Algo} {lengths : Option (List ℕ)} {B : ℕ} {E : ℕ → List ℕ → Prop} {ι π : ℕ → Type} [∀ b, Fintype (ι b)] [∀ b, Fintype (π b)]
    [∀ b, IsEmpty (π b)] {parts : ∀ b, ι b → Multiset (List ℕ)} {ones : ∀ b, ι b → ℕ} {atoms : ∀ b, π b → Multiset Atom} {p : A.T EReal}
    {val : List ℕ → EReal} (D : BatchDP A p lengths B val E parts ones atoms) (hv : ∀ e, val e ≠ ⊤) :
    ∃ vs, A.run drawE (A.map (fun x : EReal × List ℕ => drawLeaf x.1 x.2) (A.index p)) lengths = .ok vs ∧ vs.length = B ∧ ∀ b (hb : b < vs.length),
      vs[b].val ≠ ⊥ → ∀ u, u ∈ vs[b].events ↔ ∃ y, (∀ e ∈ parts b y, val e ≠ ⊥) ∧ ∀ e, u e = (parts b y).count e := by
  obtain ⟨row, h1, h2⟩ := D.rows
  refine ⟨_, h1 drawE drawLeaf, by simp, fun b hb => ?_⟩
  simp only [List.getElem_map, List.getElem_range]
  intro h0 u
  rw [(h2 b (by simpa using hb)).drawn val hv h0 u]
  refine exists_congr fun y => and_congr_right fun _ => ?_
  rw [Finsupp.ext_iff]
  exact forall_congr' fun e => by rw [ev_apply]

end Generic

namespace InfSample

/-! ### `TreeCRF` -/

theorem tree_ok {p : T4 EReal} (hsq : p.d1 = p.d2) (hd : 1 ≤ p.d1) (hl : 1 ≤ p.d3) (ht : ∀ b i j a, p.get b i j a ≠ ⊤) :
    CKYCRF.sampleOk (CKYCRF.algo.map (fun x : EReal × List ℕ => drawLeaf x.1 x.2) (CKYCRF.algo.index p)) ↔
      ∀ b < p.d0, ∀ i < p.d1, ∀ j < p.d1, ∃ a < p.d3, p.get b i j a ≠ ⊥ := by
  set q := CKYCRF.algo.map (fun x : EReal × List ℕ => drawLeaf x.1 x.2) (CKYCRF.algo.index p) with hq
  have hne : (List.range p.d3) ≠ [] := by rw [Ne, List.range_eq_nil]; omega
  constructor
  · rintro ⟨h, -⟩ b hb i hi j hj
    by_contra hc
    push Not at hc
    refine sum_bad ?_ ?_ (h b hb i hi j hj)
    · exact fun hc => hne (List.map_eq_nil_iff.1 hc)
    · rintro x hx
      obtain ⟨a, ha, rfl⟩ := List.mem_map.1 hx
      exact hc a (List.mem_range.1 ha)
  · intro h
    have hred : ∀ b < p.d0, ∀ i < p.d1, ∀ j < p.d1, Live (CKYCRF.reduced drawE q b i j) := by
      intro b hb i hi j hj
      obtain ⟨a, ha, h0⟩ := h b hb i hi j hj
      refine sum_live ?_ ⟨drawLeaf (p.get b i j a) [b, i, j, a], List.mem_map.2 ⟨a, List.mem_range.2 ha, rfl⟩, h0⟩
      rintro x hx
      obtain ⟨a, ha, rfl⟩ := List.mem_map.1 hx
      exact ⟨trivial, ht b i j a⟩
    refine ⟨fun b hb i hi j hj => (hred b hb i hi j hj).1, fun b hb i w hw => ?_⟩
    exact ((CKYCRFProofs.charts_inv (NT := 0) live_rel hd le_rfl (CKYCRF.reduced drawE q) (fun _ _ _ => 0) (b := b)
      fun i j hij hj => hred b hb i (lt_of_le_of_lt hij hj) j hj) w (lt_of_le_of_lt (Nat.le_add_left w i) hw) i hw).1.1

theorem sum_val {xs : List Drawn} (hne : xs ≠ []) (h : (drawE.sum xs).ok) : (drawE.sum xs).val ≠ ⊥ := fun hc =>
  sum_bad hne (fun x hx => lseE_bot.1 hc _ (List.mem_map_of_mem hx)) h

theorem tree_live {p : T4 EReal} (hsq : p.d1 = p.d2) (hd : 1 ≤ p.d1) (hl : 1 ≤ p.d3) (ht : ∀ b i j a, p.get b i j a ≠ ⊤)
    (h : CKYCRF.sampleOk (CKYCRF.algo.map (fun x : EReal × List ℕ => drawLeaf x.1 x.2) (CKYCRF.algo.index p))) {b w : ℕ} (hb : b < p.d0) (hw : w < p.d1) :
    ((CKYCRF.charts drawE p.d1 (CKYCRF.reduced drawE (CKYCRF.algo.map (fun x : EReal × List ℕ => drawLeaf x.1 x.2) (CKYCRF.algo.index p)))).1 b 0 w).val ≠ ⊥ := by
  set q := CKYCRF.algo.map (fun x : EReal × List ℕ => drawLeaf x.1 x.2) (CKYCRF.algo.index p) with hq
  have hred : ∀ i j, i ≤ j → j < p.d1 → Live (CKYCRF.reduced drawE q b i j) := by
    intro i j hij hj
    have h1 := h.1 b hb i (lt_of_le_of_lt hij hj) j hj
    refine ⟨h1, sum_val ?_ h1, lseE_ne_top ?_⟩
    · intro hc
      have h2 : (List.range p.d3) = [] := List.map_eq_nil_iff.1 hc
      rw [List.range_eq_nil] at h2
      omega
    · intro x hx
      obtain ⟨y, hy, rfl⟩ := List.mem_map.1 hx
      obtain ⟨a, ha, rfl⟩ := List.mem_map.1 hy
      exact ht b i j a
  exact ((CKYCRFProofs.charts_inv (NT := 0) live_rel hd le_rfl (CKYCRF.reduced drawE q) (fun _ _ _ => 0) (b := b) hred) w hw 0 (by omega)).1.2.1

/-! ### `DependencyCRF` -/

open DepTree

/-- Chart cells of width at most `kc` (complete) and `ki` (incomplete) below which nothing raises; the incomplete spans of two words are numbers. -/
structure DInv (s N b kc ki : ℕ) (st : Charts Drawn) : Prop where
  acr : ∀ v ≤ kc, ∀ i, s ≤ i → i + v < N → Live (st.acr b i v)
  acl : ∀ v ≤ kc, ∀ i, s ≤ i → i + v < N → Live (st.acl b i v)
  bcr : ∀ v ≤ kc, ∀ i, s ≤ i → i + v < N → Live (st.bcr b (i + v) (N - 1 - v))
  bcl : ∀ v ≤ kc, ∀ i, s ≤ i → i + v < N → Live (st.bcl b (i + v) (N - 1 - v))
  air : ∀ v, 1 ≤ v → v ≤ ki → ∀ i, s ≤ i → i + v < N → Fine (st.air b i v) ∧ (v = 1 → Live (st.air b i v))
  ail : ∀ v, 1 ≤ v → v ≤ ki → ∀ i, s ≤ i → i + v < N → Fine (st.ail b i v)
  bil : ∀ v, 1 ≤ v → v ≤ ki → ∀ i, s ≤ i → i + v < N → Fine (st.bil b (i + v) (N - 1 - v)) ∧ (v = 1 → Live (st.bil b (i + v) (N - 1 - v)))

theorem dot_live {n : ℕ} {f g : ℕ → Drawn} (hn : 0 < n) (hf : ∀ u < n, Fine (f u) ∧ Fine (g u)) (hu : ∃ u < n, Live (f u) ∧ Live (g u)) :
    Live (drawE.dot ((List.range n).map f) ((List.range n).map g)) := by
  rw [SR.dot, CKYCRFProofs.zipWith_map]
  obtain ⟨u, hu, h1, h2⟩ := hu
  refine sum_live ?_ ⟨_, List.mem_map.2 ⟨u, List.mem_range.2 hu, rfl⟩, (mul_live h1 h2).2.1⟩
  intro x hx
  obtain ⟨u, hu, rfl⟩ := List.mem_map.1 hx
  have := hf u (List.mem_range.1 hu)
  exact mul_fine this.1 this.2

variable {s N b : ℕ} {arc : ℕ → ℕ → ℕ → Drawn}

theorem stepI_live {k : ℕ} (hk : k + 1 < N) (hf : ∀ h m, h < N → m < N → Fine (arc b h m))
    (ha : ∀ i, s ≤ i → i + 1 < N → Live (arc b i (i + 1)) ∧ Live (arc b (i + 1) i)) {st : Charts Drawn} (H : DInv s N b k k st) :
    DInv s N b k (k + 1) (stepI drawE s N arc st (k + 1)) := by
  have hx : ∀ i, s ≤ i → i + (k + 1) < N → Live (drawE.dot ((List.range (k + 1)).map fun u => st.acr b i u)
      ((List.range (k + 1)).map fun u => st.bcl b (k + 1 + i) (N - (k + 1) + u))) := by
    intro i hi hN
    have h : ∀ u < k + 1, Live (st.acr b i u) ∧ Live (st.bcl b (k + 1 + i) (N - (k + 1) + u)) := by
      intro u hu
      refine ⟨H.acr u (by omega) i hi (by omega), ?_⟩
      have := H.bcl (k - u) (by omega) (i + u + 1) (by omega) (by omega)
      rwa [show i + u + 1 + (k - u) = k + 1 + i by omega, show N - 1 - (k - u) = N - (k + 1) + u by omega] at this
    exact dot_live (by omega) (fun u hu => ⟨(h u hu).1.fine, (h u hu).2.fine⟩) ⟨0, by omega, h 0 (by omega)⟩
  refine ⟨H.acr, H.acl, H.bcr, H.bcl, ?_, ?_, ?_⟩
  · intro v h1 hv i hi hN
    rcases Nat.lt_or_ge k v with h | h
    · obtain rfl : v = k + 1 := by omega
      simp only [stepI]
      rw [DepTreeProofs.writeA_new _ _ hi hN]
      refine ⟨mul_fine (hx i hi hN).fine (hf _ _ (by omega) (by omega)), fun h0 => mul_live (hx i hi hN) ?_⟩
      have := (ha i hi (by omega)).1
      rwa [show k + 1 = 1 from h0]
    · simp only [stepI]
      rw [DepTreeProofs.writeA_old _ _ (by omega)]
      exact H.air v h1 h i hi hN
  · intro v h1 hv i hi hN
    rcases Nat.lt_or_ge k v with h | h
    · obtain rfl : v = k + 1 := by omega
      simp only [stepI]
      rw [DepTreeProofs.writeA_new _ _ hi hN]
      exact mul_fine (hx i hi hN).fine (hf _ _ (by omega) (by omega))
    · simp only [stepI]
      rw [DepTreeProofs.writeA_old _ _ (by omega)]
      exact H.ail v h1 h i hi hN
  · intro v h1 hv i hi hN
    rcases Nat.lt_or_ge k v with h | h
    · obtain rfl : v = k + 1 := by omega
      simp only [stepI]
      rw [DepTreeProofs.writeB_new _ _ hi hN]
      refine ⟨mul_fine (hx i hi hN).fine (hf _ _ (by omega) (by omega)), fun h0 => mul_live (hx i hi hN) ?_⟩
      have := (ha i hi (by omega)).2
      rwa [show k + 1 = 1 from h0]
    · simp only [stepI]
      rw [DepTreeProofs.writeB_old _ _ (by omega)]
      exact H.bil v h1 h i hi hN

theorem stepC_live {k : ℕ} (hk : k + 1 < N) {st : Charts Drawn} (H : DInv s N b k (k + 1) st) :
    DInv s N b (k + 1) (k + 1) (stepC drawE s N st (k + 1)) := by
  have hL : ∀ i, s ≤ i → i + (k + 1) < N → Live (drawE.dot ((List.range (k + 1)).map fun u => st.acl b i u)
      ((List.range (k + 1)).map fun u => st.bil b (k + 1 + i) (N - (k + 1) - 1 + u))) := by
    intro i hi hN
    have hc : ∀ u < k + 1, Live (st.acl b i u) := fun u hu => H.acl u (by omega) i hi (by omega)
    have hb : ∀ u < k + 1, Fine (st.bil b (k + 1 + i) (N - (k + 1) - 1 + u)) ∧ (u = k → Live (st.bil b (k + 1 + i) (N - (k + 1) - 1 + u))) := by
      intro u hu
      have := H.bil (k + 1 - u) (by omega) (by omega) (i + u) (by omega) (by omega)
      rw [show i + u + (k + 1 - u) = k + 1 + i by omega, show N - 1 - (k + 1 - u) = N - (k + 1) - 1 + u by omega] at this
      exact ⟨this.1, fun h => this.2 (by omega)⟩
    exact dot_live (by omega) (fun u hu => ⟨(hc u hu).fine, (hb u hu).1⟩) ⟨k, by omega, hc k (by omega), (hb k (by omega)).2 rfl⟩
  have hR : ∀ i, s ≤ i → i + (k + 1) < N → Live (drawE.dot ((List.range (k + 1)).map fun u => st.air b i (1 + u))
      ((List.range (k + 1)).map fun u => st.bcr b (k + 1 + i) (N - (k + 1) + u))) := by
    intro i hi hN
    have hc : ∀ u < k + 1, Live (st.bcr b (k + 1 + i) (N - (k + 1) + u)) := by
      intro u hu
      have := H.bcr (k - u) (by omega) (i + u + 1) (by omega) (by omega)
      rwa [show i + u + 1 + (k - u) = k + 1 + i by omega, show N - 1 - (k - u) = N - (k + 1) + u by omega] at this
    have hb : ∀ u < k + 1, Fine (st.air b i (1 + u)) ∧ (u = 0 → Live (st.air b i (1 + u))) := by
      intro u hu
      have := H.air (1 + u) (by omega) (by omega) i hi (by omega)
      exact ⟨this.1, fun h => this.2 (by omega)⟩
    exact dot_live (by omega) (fun u hu => ⟨(hb u hu).1, (hc u hu).fine⟩) ⟨0, by omega, (hb 0 (by omega)).2 rfl, hc 0 (by omega)⟩
  refine ⟨?_, ?_, ?_, ?_, H.air, H.ail, H.bil⟩
  · intro v hv i hi hN
    rcases Nat.lt_or_ge k v with h | h
    · obtain rfl : v = k + 1 := by omega
      simp only [stepC]
      rw [DepTreeProofs.writeA_new _ _ hi hN]
      exact hR i hi hN
    · simp only [stepC]
      rw [DepTreeProofs.writeA_old _ _ (by omega)]
      exact H.acr v h i hi hN
  · intro v hv i hi hN
    rcases Nat.lt_or_ge k v with h | h
    · obtain rfl : v = k + 1 := by omega
      simp only [stepC]
      rw [DepTreeProofs.writeA_new _ _ hi hN]
      exact hL i hi hN
    · simp only [stepC]
      rw [DepTreeProofs.writeA_old _ _ (by omega)]
      exact H.acl v h i hi hN
  · intro v hv i hi hN
    rcases Nat.lt_or_ge k v with h | h
    · obtain rfl : v = k + 1 := by omega
      simp only [stepC]
      rw [DepTreeProofs.writeB_new _ _ hi hN]
      exact hR i hi hN
    · simp only [stepC]
      rw [DepTreeProofs.writeB_old _ _ (by omega)]
      exact H.bcr v h i hi hN
  · intro v hv i hi hN
    rcases Nat.lt_or_ge k v with h | h
    · obtain rfl : v = k + 1 := by omega
      simp only [stepC]
      rw [DepTreeProofs.writeB_new _ _ hi hN]
      exact hL i hi hN
    · simp only [stepC]
      rw [DepTreeProofs.writeB_old _ _ (by omega)]
      exact H.bcl v h i hi hN

theorem charts_live (hf : ∀ h m, h < N → m < N → Fine (arc b h m)) (ha : ∀ i, s ≤ i → i + 1 < N → Live (arc b i (i + 1)) ∧ Live (arc b (i + 1) i)) :
    DInv s N b (N - s - 1) (N - s - 1) (charts drawE s N arc) := by
  have key : ∀ m ≤ N - s - 1, DInv s N b m m ((List.range m).foldl (fun st k => step drawE s N arc st (k + 1)) (init drawE N)) := by
    intro m
    induction m with
    | zero =>
      intro _
      simp only [List.range_zero, List.foldl_nil]
      refine ⟨?_, ?_, ?_, ?_, fun v h1 h2 => by omega, fun v h1 h2 => by omega, fun v h1 h2 => by omega⟩ <;>
      · intro v hv i _ _
        obtain rfl : v = 0 := by omega
        simp only [init, SR.fill, Nat.sub_zero, beq_self_eq_true, if_true]
        exact one_live
    | succ m ih =>
      intro hm
      rw [List.range_succ, List.foldl_append]
      simp only [List.foldl_cons, List.foldl_nil]
      exact stepC_live (by omega) (stepI_live (by omega) hf ha (ih (by omega)))
  exact key _ le_rfl

/-- Cells that no round writes. -/
theorem charts_old {i w : ℕ} (h : i < s ∨ w = 0) : let st := charts drawE s N arc
    st.ail b i w = (init drawE N).ail b i w ∧ st.air b i w = (init drawE N).air b i w ∧ st.acl b i w = (init drawE N).acl b i w ∧
      st.acr b i w = (init drawE N).acr b i w := by
  unfold charts
  generalize N - s - 1 = m
  induction m with
  | zero => exact ⟨rfl, rfl, rfl, rfl⟩
  | succ m ih =>
    rw [List.range_succ, List.foldl_append]
    simp only [List.foldl_cons, List.foldl_nil] at ih ⊢
    generalize (List.range m).foldl (fun st k => step drawE s N arc st (k + 1)) (init drawE N) = st at ih ⊢
    have hw : ∀ (new : ℕ → ℕ → Drawn) (old : ℕ → ℕ → ℕ → Drawn), writeA s N (m + 1) new old b i w = old b i w := fun new old => if_neg (by omega)
    simp only [step, stepC, stepI, hw]
    exact ih

theorem init_ok (i w : ℕ) : ((init drawE N).ail b i w).ok ∧ ((init drawE N).air b i w).ok ∧ ((init drawE N).acl b i w).ok ∧ ((init drawE N).acr b i w).ok := by
  simp only [init, SR.fill]
  refine ⟨trivial, trivial, ?_, ?_⟩ <;> split_ifs <;> trivial

theorem charts_ok (hf : ∀ h m, h < N → m < N → Fine (arc b h m)) (ha : ∀ i, s ≤ i → i + 1 < N → Live (arc b i (i + 1)) ∧ Live (arc b (i + 1) i))
    {i w : ℕ} (hw : i + w < N) : let st := charts drawE s N arc
    (st.ail b i w).ok ∧ (st.air b i w).ok ∧ (st.acl b i w).ok ∧ (st.acr b i w).ok := by
  by_cases h : i < s ∨ w = 0
  · obtain ⟨h1, h2, h3, h4⟩ := charts_old (N := N) (arc := arc) (b := b) h
    simp only [h1, h2, h3, h4]
    exact init_ok i w
  · have H := charts_live hf ha
    exact ⟨(H.ail w (by omega) (by omega) i (by omega) hw).1, (H.air w (by omega) (by omega) i (by omega) hw).1.1, (H.acl w (by omega) i (by omega) hw).1,
      (H.acr w (by omega) i (by omega) hw).1⟩

/-- The complete spans of two words. -/
theorem charts_two {i : ℕ} (hs : s ≤ i) (hN : i + 1 < N) : let st := charts drawE s N arc
    ∃ x y z z', st.acr b i 1 = drawE.sum [drawE.mul (drawE.mul x (arc b i (i + 1))) y] ∧ st.acl b i 1 = drawE.sum [drawE.mul z (drawE.mul z' (arc b (i + 1) i))] := by
  unfold charts
  obtain ⟨m, hm⟩ : ∃ m, N - s - 1 = m + 1 := ⟨N - s - 2, by omega⟩
  rw [hm]
  clear hm
  induction m with
  | zero =>
    have e1 : 1 + i = i + 1 := by omega
    have e2 : N - 1 - 1 + 0 = N - 1 - 1 := by omega
    simp only [zero_add, List.range_one, List.foldl_cons, List.foldl_nil, step, stepC, stepI, SR.dot, SR.times, List.map_cons, List.map_nil, List.zipWith_cons_cons,
      List.zipWith_nil_left, add_zero]
    rw [DepTreeProofs.writeA_new _ _ hs hN, DepTreeProofs.writeA_new _ _ hs hN, DepTreeProofs.writeA_new _ _ hs hN, e1, DepTreeProofs.writeB_new _ _ hs hN]
    exact ⟨_, _, _, _, rfl, rfl⟩
  | succ m ih =>
    rw [List.range_succ, List.foldl_append]
    simp only [List.foldl_cons, List.foldl_nil] at ih ⊢
    generalize (List.range (m + 1)).foldl (fun st k => step drawE s N arc st (k + 1)) (init drawE N) = st at ih ⊢
    have hw : ∀ (new : ℕ → ℕ → Drawn) (old : ℕ → ℕ → ℕ → Drawn), writeA s N (m + 1 + 1) new old b i 1 = old b i 1 := fun new old => if_neg (by omega)
    simp only [step, stepC, stepI, hw]
    exact ih

theorem add_bot' (x : EReal) : x + ⊥ = ⊥ := EReal.add_bot x

theorem charts_bad {i : ℕ} (hs : s ≤ i) (hN : i + 1 < N) :
    (((charts drawE s N arc).acr b i 1).ok → (arc b i (i + 1)).val ≠ ⊥) ∧ (((charts drawE s N arc).acl b i 1).ok → (arc b (i + 1) i).val ≠ ⊥) := by
  obtain ⟨x, y, z, z', h1, h2⟩ := charts_two (arc := arc) (b := b) hs hN
  rw [h1, h2]
  constructor
  · intro h hc
    refine sum_bad (by simp) ?_ h
    intro u hu
    rw [List.mem_singleton.1 hu]
    simp [drawE, hc]
  · intro h hc
    refine sum_bad (by simp) ?_ h
    intro u hu
    rw [List.mem_singleton.1 hu]
    simp [drawE, hc]

theorem root_keep {span : ℕ → ℕ → Drawn} (st : Charts Drawn) (m : ℕ) : let st' := (List.range m).foldl (fun st k => rootStep drawE N span st (k + 1)) st
    st'.ail = st.ail ∧ st'.air = st.air ∧ st'.acl = st.acl ∧ ∀ b i w, i ≠ 0 ∨ w = 0 ∨ m < w → st'.acr b i w = st.acr b i w := by
  induction m with
  | zero => exact ⟨rfl, rfl, rfl, fun _ _ _ _ => rfl⟩
  | succ m ih =>
    rw [List.range_succ, List.foldl_append]
    simp only [List.foldl_cons, List.foldl_nil] at ih ⊢
    obtain ⟨h1, h2, h3, h4⟩ := ih
    refine ⟨h1, h2, h3, fun b i w hi => ?_⟩
    rw [← h4 b i w (by omega)]
    exact if_neg (by omega)

/-- When no call raises for the spans. -/
theorem last_ok (mr : Bool) (hN : 2 ≤ N ∨ mr = true) (hf : ∀ h m, h < N → m < N → Fine (arc b h m)) (h10 : Live (arc b 1 0)) :
    (∀ i w, i + w < N → let st := lastCharts mr drawE N arc; (st.ail b i w).ok ∧ (st.air b i w).ok ∧ (st.acl b i w).ok ∧ (st.acr b i w).ok) ↔
      (2 ≤ N → Live (arc b 0 1)) ∧ ∀ i, 1 ≤ i → i + 1 < N → Live (arc b i (i + 1)) ∧ Live (arc b (i + 1) i) := by
  have hlive : ∀ h m, h < N → m < N → (arc b h m).val ≠ ⊥ → Live (arc b h m) := fun h m h1 h2 h3 => ⟨(hf h m h1 h2).1, h3, (hf h m h1 h2).2⟩
  cases mr with
  | true =>
    simp only [lastCharts, if_true]
    constructor
    · intro h
      refine ⟨fun h2 => ?_, fun i h1 hi => ?_⟩
      · exact hlive _ _ (by omega) (by omega) ((charts_bad (Nat.zero_le _) (by omega)).1 (h 0 1 (by omega)).2.2.2)
      · have := h i 1 hi
        exact ⟨hlive _ _ (by omega) (by omega) ((charts_bad (Nat.zero_le _) hi).1 this.2.2.2), hlive _ _ (by omega) (by omega) ((charts_bad (Nat.zero_le _) hi).2 this.2.2.1)⟩
    · rintro ⟨h1, h2⟩ i w hw
      refine charts_ok hf (fun j _ hj => ?_) hw
      rcases Nat.eq_zero_or_pos j with rfl | h0
      · exact ⟨h1 (by omega), h10⟩
      · exact h2 j h0 hj
  | false =>
    have hN : 2 ≤ N := by simpa using hN
    have hroot := fun st : Charts Drawn => root_keep (N := N) (span := fun b m => drawE.times (st.acl b 1 m) [arc b 0 (1 + m)]) st (N - 1)
    have hfold := fun st : Charts Drawn => DepTreeProofs.root_fold (S := drawE) (N := N) (span := fun b m => drawE.times (st.acl b 1 m) [arc b 0 (1 + m)]) st (N - 1)
    simp only [lastCharts, Bool.false_eq_true, if_false]
    obtain ⟨k1, k2, k3, k4⟩ := hroot (charts drawE 1 N arc)
    obtain ⟨-, k5⟩ := hfold (charts drawE 1 N arc)
    change (∀ i w, i + w < N → (((rootCharts drawE N arc (charts drawE 1 N arc)).ail b i w).ok ∧ ((rootCharts drawE N arc (charts drawE 1 N arc)).air b i w).ok ∧
      ((rootCharts drawE N arc (charts drawE 1 N arc)).acl b i w).ok ∧ ((rootCharts drawE N arc (charts drawE 1 N arc)).acr b i w).ok)) ↔ _
    rw [show (rootCharts drawE N arc (charts drawE 1 N arc)).ail = _ from k1, show (rootCharts drawE N arc (charts drawE 1 N arc)).air = _ from k2,
      show (rootCharts drawE N arc (charts drawE 1 N arc)).acl = _ from k3]
    constructor
    · intro h
      refine ⟨fun h2 => ?_, fun i h1 hi => ?_⟩
      · have := (h 0 1 (by omega)).2.2.2
        rw [show (rootCharts drawE N arc (charts drawE 1 N arc)).acr b 0 1 = _ from k5 b 1 le_rfl (by omega)] at this
        refine hlive _ _ (by omega) (by omega) fun hc => sum_bad ?_ ?_ this
        · simp
        · intro u hu
          simp only [List.range_one, List.map_cons, List.map_nil, List.zipWith_cons_cons, List.zipWith_nil_left, List.mem_singleton] at hu
          rw [hu]
          simp [drawE, SR.times, hc]
      · have := h i 1 hi
        rw [show (rootCharts drawE N arc (charts drawE 1 N arc)).acr b i 1 = _ from k4 b i 1 (Or.inl (by omega))] at this
        exact ⟨hlive _ _ (by omega) (by omega) ((charts_bad h1 hi).1 this.2.2.2), hlive _ _ (by omega) (by omega) ((charts_bad h1 hi).2 this.2.2.1)⟩
    · rintro ⟨h1, h2⟩ i w hw
      obtain ⟨a1, a2, a3, a4⟩ := charts_ok (s := 1) hf h2 hw
      refine ⟨a1, a2, a3, ?_⟩
      by_cases h : i ≠ 0 ∨ w = 0
      · rw [show (rootCharts drawE N arc (charts drawE 1 N arc)).acr b i w = _ from k4 b i w (by omega)]
        exact a4
      · obtain rfl : i = 0 := by omega
        rw [show (rootCharts drawE N arc (charts drawE 1 N arc)).acr b 0 w = _ from k5 b w (by omega) (by omega)]
        have H := charts_live (s := 1) hf h2
        have hc : ∀ u < w, Live ((charts drawE 1 N arc).acl b 1 u) := fun u hu => H.acl u (by omega) 1 le_rfl (by omega)
        have hb : ∀ u < w, Live ((charts drawE 1 N arc).bcr b w (N - w + u)) := by
          intro u hu
          have := H.bcr (w - 1 - u) (by omega) (u + 1) (by omega) (by omega)
          rwa [show u + 1 + (w - 1 - u) = w by omega, show N - 1 - (w - 1 - u) = N - w + u by omega] at this
        exact (dot_live (f := fun u => drawE.times ((charts drawE 1 N arc).acl b 1 u) [arc b 0 (1 + u)]) (by omega)
          (fun u hu => ⟨mul_fine (hc u hu).fine (hf _ _ (by omega) (by omega)), (hb u hu).fine⟩)
          ⟨0, by omega, mul_live (hc 0 (by omega)) (h1 hN), hb 0 (by omega)⟩).1

theorem fill_live {mask : Bool} {a b : Drawn} (ha : Live a) (hb : Live b) : Live (SR.fill a mask b) := by
  cases mask
  · exact ha
  · exact hb

theorem last_live (mr : Bool) (hN : 2 ≤ N ∨ mr = true) (hf : ∀ h m, h < N → m < N → Fine (arc b h m)) (h10 : Live (arc b 1 0))
    (hok : ∀ i w, i + w < N → let st := lastCharts mr drawE N arc; (st.ail b i w).ok ∧ (st.air b i w).ok ∧ (st.acl b i w).ok ∧ (st.acr b i w).ok)
    {w : ℕ} (hw : w < N) : ((lastCharts mr drawE N arc).acr b 0 w).val ≠ ⊥ := by
  obtain ⟨h1, h2⟩ := (last_ok mr hN hf h10).1 hok
  cases mr with
  | true =>
    have H := charts_live (s := 0) hf fun j _ hj => by
      rcases Nat.eq_zero_or_pos j with rfl | h0
      · exact ⟨h1 (by omega), h10⟩
      · exact h2 j h0 hj
    exact (H.acr w (by omega) 0 le_rfl (by omega)).2.1
  | false =>
    have hN : 2 ≤ N := by simpa using hN
    have k4 := (root_keep (N := N) (span := fun b m => drawE.times ((charts drawE 1 N arc).acl b 1 m) [arc b 0 (1 + m)]) (charts drawE 1 N arc) (N - 1)).2.2.2
    have k5 := (DepTreeProofs.root_fold (S := drawE) (N := N) (span := fun b m => drawE.times ((charts drawE 1 N arc).acl b 1 m) [arc b 0 (1 + m)]) (charts drawE 1 N arc) (N - 1)).2
    rcases Nat.eq_zero_or_pos w with rfl | h0
    · change ((rootCharts drawE N arc (charts drawE 1 N arc)).acr b 0 0).val ≠ ⊥
      rw [show (rootCharts drawE N arc (charts drawE 1 N arc)).acr b 0 0 = _ from k4 b 0 0 (by omega), (charts_old (N := N) (arc := arc) (b := b) (Or.inr rfl)).2.2.2]
      simp only [init]
      exact (fill_live zero_live one_live).2.1
    · have := (hok 0 w (by omega)).2.2.2
      change ((rootCharts drawE N arc (charts drawE 1 N arc)).acr b 0 w).ok at this
      change ((rootCharts drawE N arc (charts drawE 1 N arc)).acr b 0 w).val ≠ ⊥
      rw [show (rootCharts drawE N arc (charts drawE 1 N arc)).acr b 0 w = _ from k5 b w (by omega) (by omega)] at this ⊢
      refine sum_val ?_ this
      intro hc
      have := congrArg List.length hc
      simp at this
      omega

/-- The table that the sampler sees. -/
def drawArcs (mr : Bool) (p : Arcs EReal) : Arcs Drawn := (algo mr).map (fun x : EReal × List ℕ => drawLeaf x.1 x.2) ((algo mr).index p)

theorem masked_live {p : Arcs Drawn} {lens : List ℕ} {b h m l : ℕ} (hp : (p.get b h m l).ok ∧ (p.get b h m l).val ≠ ⊤) :
    Fine (masked drawE p lens b h m l) ∧ (Live (masked drawE p lens b h m l) ↔ (h ≤ lens.getD b 0 ∧ m ≤ lens.getD b 0 → (p.get b h m l).val ≠ ⊥)) := by
  rw [masked]
  split_ifs with hc
  · have : Live (drawE.setData (p.get b h m l) drawE.zero) := ⟨hp.1, EReal.coe_ne_bot _, EReal.coe_ne_top _⟩
    exact ⟨this.fine, fun _ hc' => by omega, fun _ => this⟩
  · exact ⟨hp, fun hl _ => hl.2.1, fun hl => ⟨hp.1, hl (by omega), hp.2⟩⟩

/-- `DependencyCRF` without labels: `sample` raises only if an arc between neighbours, or the root arc of the first word, has potential `-inf`. -/
theorem dep_ok (mr : Bool) {neg : ℝ} {q : Arcs EReal} {lengths : Option (List ℕ)} (h : DepTreeProofs.Valid mr q lengths) (h3 : q.rank = 3) (ht : ∀ b i j l, q.get b i j l ≠ ⊤) :
    DepTree.sampleOk mr (drawArcs mr (DepTreeProofs.conv (neg : EReal) q)) (lensOr q.d0 (q.d1 + 1) lengths) ↔
      ∀ b < q.d0, (0 < lenOf q.d1 lengths b → q.get b 0 0 0 ≠ ⊥) ∧
        ∀ j, j + 1 < lenOf q.d1 lengths b → q.get b j (j + 1) 0 ≠ ⊥ ∧ q.get b (j + 1) j 0 ≠ ⊥ := by
  set p := drawArcs mr (DepTreeProofs.conv (neg : EReal) q) with hp
  set lens := lensOr q.d0 (q.d1 + 1) lengths with hlens
  have hlab : ¬ p.labeled := by
    change ¬ (q.rank = 4); omega
  have hcell : ∀ b h m l, (p.get b h m l).ok ∧ (p.get b h m l).val ≠ ⊤ := by
    intro b h m l
    refine ⟨trivial, ?_⟩
    change convertCell (neg : EReal) q.get b h m l ≠ ⊤
    unfold convertCell
    split_ifs <;> first | exact EReal.coe_ne_top _ | exact ht _ _ _ _
  have harc : ∀ b h m, arcScores drawE p lens b h m = masked drawE p lens b h m 0 := fun b h m => if_neg hlab
  have hfine : ∀ b h m, Fine (arcScores drawE p lens b h m) := fun b h m => by rw [harc]; exact (masked_live (hcell b h m 0)).1
  have hlive : ∀ b < q.d0, ∀ h m, Live (arcScores drawE p lens b h m) ↔
      (h ≤ lenOf q.d1 lengths b ∧ m ≤ lenOf q.d1 lengths b → convertCell (neg : EReal) q.get b h m 0 ≠ ⊥) := fun b hb h m => by
    rw [harc, (masked_live (hcell b h m 0)).2, hlens, DepTreeProofs.lensOr_getD hb]; rfl
  have hlen := fun b (hb : b < q.d0) => DepTreeProofs.len_le h hb
  have hsame : ∀ b < q.d0, (∀ i w, i + w < q.d1 + 1 → let st := lastCharts mr drawE (q.d1 + 1) (arcScores drawE p lens)
      (st.ail b i w).ok ∧ (st.air b i w).ok ∧ (st.acl b i w).ok ∧ (st.acr b i w).ok) ↔ (0 < lenOf q.d1 lengths b → q.get b 0 0 0 ≠ ⊥) ∧
        ∀ j, j + 1 < lenOf q.d1 lengths b → q.get b j (j + 1) 0 ≠ ⊥ ∧ q.get b (j + 1) j 0 ≠ ⊥ := by
    intro b hb
    have hl := hlen b hb
    rw [last_ok mr (by cases mr with
      | true => exact Or.inr rfl
      | false => exact Or.inl (by have := hl.2 rfl; omega)) (fun h m _ _ => hfine b h m) ((hlive b hb 1 0).2 fun _ => by simp [convertCell])]
    refine and_congr ?_ ?_
    · rw [hlive b hb]
      constructor
      · intro hh h0
        have := hh (by omega) ⟨by omega, by omega⟩
        simpa [convertCell] using this
      · intro hh _ h0
        simpa [convertCell] using hh (by omega)
    · constructor
      · intro hh j hj
        have := hh (j + 1) (by omega) (by omega)
        rw [hlive b hb, hlive b hb] at this
        have h1 := this.1 ⟨by omega, by omega⟩
        have h2 := this.2 ⟨by omega, by omega⟩
        simp only [convertCell, Nat.add_sub_cancel, Nat.add_eq_zero_iff, one_ne_zero, and_false, if_false] at h1 h2
        rw [if_neg (by omega)] at h1 h2
        exact ⟨h1, h2⟩
      · intro hh i h1 hi
        obtain ⟨j, rfl⟩ : ∃ j, i = j + 1 := ⟨i - 1, by omega⟩
        rw [hlive b hb, hlive b hb]
        simp only [convertCell, Nat.add_sub_cancel, Nat.add_eq_zero_iff, one_ne_zero, and_false, if_false]
        rw [if_neg (by omega), if_neg (by omega)]
        exact ⟨fun h0 => (hh j (by omega)).1, fun h0 => (hh j (by omega)).2⟩
  constructor
  · rintro ⟨-, hh⟩ b hb
    exact (hsame b hb).1 (hh b hb)
  · intro hh
    exact ⟨fun b _ h _ m _ => (hfine b h m).1, fun b hb => (hsame b hb).2 (hh b hb)⟩

/-- `DependencyCRF` with labels: `sample` raises only if all labels of some arc, or of some root arc, have potential `-inf`. -/
theorem lab_ok (mr : Bool) {neg : ℝ} {q : Arcs EReal} {lengths : Option (List ℕ)} (h : DepTreeProofs.Valid mr q lengths) (h4 : q.rank = 4) (ht : ∀ b i j l, q.get b i j l ≠ ⊤) :
    DepTree.sampleOk mr (drawArcs mr (DepTreeProofs.conv (neg : EReal) q)) (lensOr q.d0 (q.d1 + 1) lengths) ↔
      ∀ b < q.d0, ∀ i < lenOf q.d1 lengths b, ∀ j < lenOf q.d1 lengths b, ∃ l < q.d3, q.get b i j l ≠ ⊥ := by
  set p := drawArcs mr (DepTreeProofs.conv (neg : EReal) q) with hp
  set lens := lensOr q.d0 (q.d1 + 1) lengths with hlens
  have hlab : p.labeled := h4
  have hd3 : 0 < q.d3 := by have := h.labels; rw [DepTreeProofs.labels_four h4] at this; omega
  have hcell : ∀ b h m l, (p.get b h m l).ok ∧ (p.get b h m l).val ≠ ⊤ := by
    intro b h m l
    refine ⟨trivial, ?_⟩
    change convertCell (neg : EReal) q.get b h m l ≠ ⊤
    unfold convertCell
    split_ifs <;> first | exact EReal.coe_ne_top _ | exact ht _ _ _ _
  have harc : ∀ b h m, arcScores drawE p lens b h m = drawE.sum ((List.range q.d3).map fun l => masked drawE p lens b h m l) := fun b h m => if_pos hlab
  have hlive : ∀ b < q.d0, ∀ h m l, Live (masked drawE p lens b h m l) ↔
      (h ≤ lenOf q.d1 lengths b ∧ m ≤ lenOf q.d1 lengths b → convertCell (neg : EReal) q.get b h m l ≠ ⊥) := fun b hb h m l => by
    rw [(masked_live (hcell b h m l)).2, hlens, DepTreeProofs.lensOr_getD hb]; rfl
  have hlen := fun b (hb : b < q.d0) => DepTreeProofs.len_le h hb
  constructor
  · rintro ⟨hh, -⟩ b hb i hi j hj
    obtain ⟨hh', mm, e1, e2, e3⟩ : ∃ h m, h ≤ lenOf q.d1 lengths b ∧ m ≤ lenOf q.d1 lengths b ∧ ∀ l, convertCell (neg : EReal) q.get b h m l = q.get b i j l := by
      by_cases hij : i = j
      · subst hij
        exact ⟨0, i + 1, by omega, by omega, fun l => by simp [convertCell]⟩
      · refine ⟨i + 1, j + 1, by omega, by omega, fun l => ?_⟩
        simp only [convertCell, Nat.add_sub_cancel, Nat.add_eq_zero_iff, one_ne_zero, and_false, if_false]
        rw [if_neg (by omega)]
    have hl := hlen b hb
    have k := hh b hb hh' (show hh' < q.d1 + 1 by omega) mm (show mm < q.d1 + 1 by omega)
    by_contra hc
    push Not at hc
    rw [harc] at k
    refine sum_bad ?_ ?_ k
    · intro hn
      have := congrArg List.length hn
      simp at this; omega
    · intro x hx
      obtain ⟨l, hl, rfl⟩ := List.mem_map.1 hx
      by_contra hx
      have := (hlive b hb hh' mm l).1 ⟨(masked_live (hcell b hh' mm l)).1.1, hx, (masked_live (hcell b hh' mm l)).1.2⟩ ⟨e1, e2⟩
      exact this ((e3 l).trans (hc l (List.mem_range.1 hl)))
  · intro hh
    have hall : ∀ b < q.d0, ∀ h m, Live (arcScores drawE p lens b h m) := by
      intro b hb h m
      rw [harc]
      have hex : ∃ l < q.d3, Live (masked drawE p lens b h m l) := by
        by_cases h0 : m = 0
        · exact ⟨0, hd3, (hlive b hb h m 0).2 fun _ => by simp [convertCell, h0]⟩
        · by_cases hhm : h = m
          · exact ⟨0, hd3, (hlive b hb h m 0).2 fun _ => by
              have : h ≠ 0 := by omega
              simp [convertCell, hhm, h0]⟩
          · by_cases hle : h ≤ lenOf q.d1 lengths b ∧ m ≤ lenOf q.d1 lengths b
            · by_cases hz : h = 0
              · obtain ⟨l, hl, hv⟩ := hh b hb (m - 1) (by omega) (m - 1) (by omega)
                exact ⟨l, hl, (hlive b hb h m l).2 fun _ => by simpa [convertCell, h0, hz] using hv⟩
              · obtain ⟨l, hl, hv⟩ := hh b hb (h - 1) (by omega) (m - 1) (by omega)
                exact ⟨l, hl, (hlive b hb h m l).2 fun _ => by simpa [convertCell, h0, hz, hhm] using hv⟩
            · exact ⟨0, hd3, (hlive b hb h m 0).2 fun hc => absurd hc hle⟩
      obtain ⟨l, hl, hv⟩ := hex
      refine sum_live ?_ ⟨_, List.mem_map.2 ⟨l, List.mem_range.2 hl, rfl⟩, hv.2.1⟩
      intro x hx
      obtain ⟨l, hl, rfl⟩ := List.mem_map.1 hx
      exact (masked_live (hcell b h m l)).1
    refine ⟨fun b hb h _ m _ => (hall b hb h m).1, fun b hb => ?_⟩
    have hl := hlen b hb
    exact (last_ok (N := q.d1 + 1) mr (by cases mr with
      | true => exact Or.inr rfl
      | false => exact Or.inl (by have := hl.2 rfl; omega)) (fun h m _ _ => (hall b hb h m).fine) (hall b hb 1 0)).2
        ⟨fun _ => hall b hb 0 1, fun i _ _ => ⟨hall b hb _ _, hall b hb _ _⟩⟩

/-- If `sample` does not raise, the log-partition of every row is a number. -/
theorem dep_live (mr : Bool) {neg : ℝ} {q : Arcs EReal} {lengths : Option (List ℕ)} (h : DepTreeProofs.Valid mr q lengths) (hr : q.rank = 3 ∨ q.rank = 4)
    (ht : ∀ b i j l, q.get b i j l ≠ ⊤)
    (hok : DepTree.sampleOk mr (drawArcs mr (DepTreeProofs.conv (neg : EReal) q)) (lensOr q.d0 (q.d1 + 1) lengths)) {b : ℕ} (hb : b < q.d0) :
    (final mr drawE (q.d1 + 1) (arcScores drawE (drawArcs mr (DepTreeProofs.conv (neg : EReal) q)) (lensOr q.d0 (q.d1 + 1) lengths)) b (lenOf q.d1 lengths b)).val ≠ ⊥ := by
  set p := drawArcs mr (DepTreeProofs.conv (neg : EReal) q) with hp
  set lens := lensOr q.d0 (q.d1 + 1) lengths with hlens
  have hcell : ∀ b h m l, (p.get b h m l).ok ∧ (p.get b h m l).val ≠ ⊤ := by
    intro b h m l
    refine ⟨trivial, ?_⟩
    change convertCell (neg : EReal) q.get b h m l ≠ ⊤
    unfold convertCell
    split_ifs <;> first | exact EReal.coe_ne_top _ | exact ht _ _ _ _
  have h10 : ∀ l, Live (masked drawE p lens b 1 0 l) := fun l => (masked_live (hcell b 1 0 l)).2.2 fun _ => by
    change convertCell (neg : EReal) q.get b 1 0 l ≠ ⊥
    simp [convertCell]
  have hl := DepTreeProofs.len_le h hb
  refine last_live (N := q.d1 + 1) mr (by cases mr with
      | true => exact Or.inr rfl
      | false => exact Or.inl (by have := hl.2 rfl; omega)) (fun x m hx hm => ?_) ?_ (hok.2 b hb) (by omega)
  · refine ⟨hok.1 b hb x hx m hm, ?_⟩
    rcases hr with hr | hr
    · rw [show arcScores drawE p lens b x m = masked drawE p lens b x m 0 from if_neg (show ¬ q.rank = 4 by omega)]
      exact (masked_live (hcell b x m 0)).1.2
    · rw [show arcScores drawE p lens b x m = drawE.sum ((List.range q.d3).map fun l => masked drawE p lens b x m l) from if_pos hr]
      refine lseE_ne_top fun y hy => ?_
      obtain ⟨z, hz, rfl⟩ := List.mem_map.1 hy
      obtain ⟨l, -, rfl⟩ := List.mem_map.1 hz
      exact (masked_live (hcell b x m l)).1.2
  · rcases hr with hr | hr
    · rw [show arcScores drawE p lens b 1 0 = masked drawE p lens b 1 0 0 from if_neg (show ¬ q.rank = 4 by omega)]
      exact h10 0
    · have hd3 : 0 < q.d3 := by have := h.labels; rw [DepTreeProofs.labels_four hr] at this; omega
      rw [show arcScores drawE p lens b 1 0 = drawE.sum ((List.range q.d3).map fun l => masked drawE p lens b 1 0 l) from if_pos hr]
      refine sum_live ?_ ⟨_, List.mem_map.2 ⟨0, List.mem_range.2 hd3, rfl⟩, (h10 0).2.1⟩
      intro x hx
      obtain ⟨l, -, rfl⟩ := List.mem_map.1 hx
      exact (h10 l).fine

/-! ### `LinearChainCRF` and `SemiMarkovCRF` -/

/-- The value is a number, the backward pass below it does not raise and draws something. -/
def Full (a : Drawn) : Prop := Live a ∧ a.events.Nonempty

theorem sum_full {xs : List Drawn} (h : ∀ x ∈ xs, Fine x) (hx : ∃ x ∈ xs, x.val ≠ ⊥ ∧ x.events.Nonempty) : Full (drawE.sum xs) := by
  obtain ⟨x, hx, h0, u, hu⟩ := hx
  have hl := sum_live h ⟨x, hx, h0⟩
  exact ⟨hl, u, x, hx, fun hc => h0 ((prob_live (h x hx).2 hl.2.1 hl.2.2).2.1 hc), hu⟩

theorem full_rel : SRRel drawE fun a (_ : ℕ) => Full a where
  mul := by
    rintro a b _ _ ⟨ha, u, hu⟩ ⟨hb, v, hv⟩
    exact ⟨mul_live ha hb, u + v, u, hu, v, hv, rfl⟩
  sum := by
    intro as xs hne hf
    have h : ∀ a ∈ as, Full a := fun a ha => by
      obtain ⟨x, -, h⟩ := InfArgmax.forall₂_left hf a ha
      exact h
    obtain ⟨a, ha⟩ := List.exists_mem_of_ne_nil _ hne
    exact sum_full (fun a ha => (h a ha).1.fine) ⟨a, ha, (h a ha).1.2.1, (h a ha).2⟩

theorem zero_full : Full drawE.zero := ⟨zero_live, 0, rfl⟩

theorem one_full : Full drawE.one := ⟨one_live, 0, rfl⟩

theorem scan_full {m : ℕ} (hm : 0 < m) (k : ℕ) (chart : ℕ → Fin m → Fin m → Drawn) (h : ∀ n i j, Full (chart n i j)) :
    ∀ n i j, Full (LinearChain.scan drawE k chart n i j) := by
  induction k generalizing chart with
  | zero => exact h
  | succ k ih => exact ih _ fun n i j => full_rel.sum_ofFn hm (g := fun _ => 0) fun c => full_rel.mul (x := 0) (y := 0) (h _ i c) (h _ c j)

/-- No drawn event uses an entry that satisfies `Q`. -/
def Avoids (Q : List ℕ → Prop) (a : Drawn) : Prop := a.val ≠ ⊤ ∧ (a.val ≠ ⊥ → ∀ u ∈ a.events, ∀ e, Q e → u e = 0)

theorem avoids_rel (Q : List ℕ → Prop) : SRRel drawE fun a (_ : ℕ) => Avoids Q a where
  mul := by
    rintro a b _ _ ⟨ha, ha'⟩ ⟨hb, hb'⟩
    refine ⟨EReal.add_ne_top ha hb, fun h => ?_⟩
    have hv : ¬ (a.val = ⊥ ∨ b.val = ⊥) := fun hc => h (EReal.add_eq_bot_iff.2 hc)
    push Not at hv
    rintro _ ⟨u, hu, v, hv', rfl⟩ e he
    rw [Finsupp.add_apply, ha' hv.1 u hu e he, hb' hv.2 v hv' e he]
  sum := by
    intro as xs hne hf
    have hl : ∀ a ∈ as, Avoids Q a := fun a ha => by
      obtain ⟨x, -, h⟩ := InfArgmax.forall₂_left hf a ha
      exact h
    have ht : lseE (as.map Drawn.val) ≠ ⊤ := lseE_ne_top fun y hy => by
      obtain ⟨a, ha, rfl⟩ := List.mem_map.1 hy
      exact (hl a ha).1
    refine ⟨ht, fun h => ?_⟩
    rintro u ⟨a, ha, h0, hu⟩ e he
    exact (hl a ha).2 (fun hc => h0 ((prob_live (hl a ha).1 h ht).2.2 hc)) u hu e he

theorem scan_avoids {Q : List ℕ → Prop} {m : ℕ} (hm : 0 < m) (k : ℕ) (chart : ℕ → Fin m → Fin m → Drawn) (h : ∀ n i j, Avoids Q (chart n i j)) :
    ∀ n i j, Avoids Q (LinearChain.scan drawE k chart n i j) := by
  induction k generalizing chart with
  | zero => exact h
  | succ k ih => exact ih _ fun n i j => (avoids_rel Q).sum_ofFn hm (g := fun _ => 0) fun c => (avoids_rel Q).mul (x := 0) (y := 0) (h _ i c) (h _ c j)

theorem avoids_const {Q : List ℕ → Prop} {v : EReal} {p : Prop} (hv : v ≠ ⊤) : Avoids Q ⟨v, p, {0}⟩ := by
  refine ⟨hv, ?_⟩
  rintro _ u rfl e _
  rfl

theorem avoids_single {Q : List ℕ → Prop} {v : EReal} {p : Prop} (hv : v ≠ ⊤) {e : List ℕ} (h : Q e → v = ⊥) : Avoids Q ⟨v, p, {Finsupp.single e 1}⟩ := by
  refine ⟨hv, ?_⟩
  rintro h0 u rfl e' he'
  rw [Finsupp.single_apply, if_neg]
  rintro rfl
  exact h0 (h he')

/-- An entry of a chart after the mask: the sum of the entry of the initial chart and of the potential. -/
theorem cell_spec (Q : List ℕ → Prop) (c l : Drawn) (mask : Bool) (hc : Live c) (hl : Fine l) (hQ : Avoids Q l)
    (hm : mask = true → ∀ u ∈ l.events, ∀ e, Q e → u e = 0) :
    let x := drawE.sum [drawE.detach (drawE.setData c (SR.fill (drawE.detach c) (!mask) drawE.zero)), drawE.setData l (SR.fill (drawE.detach l) mask drawE.zero)]
    Full x ∧ Avoids Q x := by
  have h1 : Live (drawE.detach (drawE.setData c (SR.fill (drawE.detach c) (!mask) drawE.zero))) := by
    cases mask
    · exact ⟨trivial, EReal.coe_ne_bot _, EReal.coe_ne_top _⟩
    · exact ⟨trivial, hc.2⟩
  have h2 : Fine (drawE.setData l (SR.fill (drawE.detach l) mask drawE.zero)) := by
    cases mask
    · exact hl
    · exact ⟨hl.1, EReal.coe_ne_top _⟩
  refine ⟨sum_full ?_ ⟨_, List.mem_cons_self, h1.2.1, 0, rfl⟩, ?_⟩
  · intro x hx
    rcases List.mem_cons.1 hx with rfl | hx
    · exact h1.fine
    · rw [List.mem_singleton.1 hx]; exact h2
  · refine (avoids_rel Q).sum2 (x := 0) (y := 0) (avoids_const h1.2.2) ⟨h2.2, ?_⟩
    cases mask
    · exact hQ.2
    · exact fun _ => hm rfl

theorem fill_full {mask : Bool} {a b : Drawn} (ha : Full a) (hb : Full b) : Full (SR.fill a mask b) := by
  cases mask
  · exact ha
  · exact hb

theorem fill_avoids {Q : List ℕ → Prop} {mask : Bool} {a b : Drawn} (ha : Avoids Q a) (hb : Avoids Q b) : Avoids Q (SR.fill a mask b) := by
  cases mask
  · exact ha
  · exact hb

/-- The entries of the potentials of row `b` that count and are `-inf`. -/
def Dead4 (p : T4 EReal) (lens : ℕ → ℕ) (e : List ℕ) : Prop := ∃ b n i j, e = [b, n, i, j] ∧ n + 1 < lens b ∧ p.get b n i j = ⊥

theorem chain_cell {C : ℕ} (p : T4 EReal) (ht : ∀ b n i j, p.get b n i j ≠ ⊤) (N binN : ℕ) (lens : ℕ → ℕ) (b n : ℕ) (i j : Fin C) :
    let x := LinearChain.masked drawE N binN lens (fun b n i j => drawLeaf (p.get b n i j) [b, n, i, j]) b n i j
    Full x ∧ Avoids (Dead4 p lens) x := by
  refine cell_spec _ _ _ _ ?_ ?_ ?_ ?_
  · exact fill_live zero_live one_live
  · simp only [Struct.flat, LinearChain.big]
    split_ifs
    · exact ⟨trivial, ht _ _ _ _⟩
    · exact ⟨trivial, EReal.zero_ne_top⟩
  · simp only [Struct.flat, LinearChain.big]
    split_ifs
    · refine avoids_single (ht _ _ _ _) ?_
      rintro ⟨b', n', i', j', he, -, hv⟩
      simp only [List.cons.injEq, and_true] at he
      obtain ⟨rfl, rfl, rfl, rfl⟩ := he
      exact hv
    · exact avoids_const EReal.zero_ne_top
  · intro hm
    simp only [LinearChain.lengthMask, Struct.flat, decide_eq_true_eq] at hm
    simp only [Struct.flat, LinearChain.big]
    split_ifs
    · rintro u rfl e ⟨b', n', i', j', rfl, hn, -⟩
      rw [Finsupp.single_apply, if_neg]
      intro he
      simp only [List.cons.injEq, and_true] at he
      obtain ⟨rfl, rfl, -⟩ := he
      omega
    · rintro u rfl e _
      rfl

theorem total_full {m : ℕ} (hm : 0 < m) {x : Fin m → Fin m → Drawn} (h : ∀ i j, Full (x i j)) : Full (LinearChain.total drawE x) :=
  full_rel.sum_ofFn hm (g := fun _ => 0) fun i => full_rel.sum_ofFn hm (g := fun _ => 0) fun j => h i j

theorem total_avoids {Q : List ℕ → Prop} {m : ℕ} (hm : 0 < m) {x : Fin m → Fin m → Drawn} (h : ∀ i j, Avoids Q (x i j)) : Avoids Q (LinearChain.total drawE x) :=
  (avoids_rel Q).sum_ofFn hm (g := fun _ => 0) fun i => (avoids_rel Q).sum_ofFn hm (g := fun _ => 0) fun j => h i j

theorem chain_row {C : ℕ} (hC : 0 < C) (p : T4 EReal) (ht : ∀ b n i j, p.get b n i j ≠ ⊤) (N logN : ℕ) (lens : ℕ → ℕ) (b : ℕ) :
    LinearChain.rowOk (C := C) N logN lens (fun b n i j => drawLeaf (p.get b n i j) [b, n, i, j]) b ∧
    Full (LinearChain.core (C := C) drawE N logN lens (fun b n i j => drawLeaf (p.get b n i j) [b, n, i, j]) b) ∧
    Avoids (Dead4 p lens) (LinearChain.core (C := C) drawE N logN lens (fun b n i j => drawLeaf (p.get b n i j) [b, n, i, j]) b) := by
  have hs := fun k => scan_full hC k _ fun n i j => (chain_cell (C := C) p ht N (2 ^ logN) lens b n i j).1
  have ha := scan_avoids hC logN _ fun n i j => (chain_cell (C := C) p ht N (2 ^ logN) lens b n i j).2
  have h := total_full hC fun i j => hs logN 0 i j
  exact ⟨⟨fun k _ n _ i j => (hs k n i j).1.1, h.1.1⟩, h, total_avoids hC fun i j => ha 0 i j⟩

/-- see `Dead4`. -/
def Dead5 (p : T5 EReal) (lens : ℕ → ℕ) (e : List ℕ) : Prop := ∃ b n k i j, e = [b, n, k, i, j] ∧ n + 1 < lens b ∧ p.get b n k i j = ⊥

theorem semi_cell {K1 C : ℕ} (p : T5 EReal) (ht : ∀ b n k i j, p.get b n k i j ≠ ⊤) (N binN : ℕ) (lens : ℕ → ℕ) (b n : ℕ) (i j : Fin (K1 * C)) :
    let x := SemiMarkov.chart drawE K1 C N binN lens (fun b n k i j => drawLeaf (p.get b n k i j) [b, n, k, i, j]) b n i j
    Full x ∧ Avoids (Dead5 p lens) x := by
  have hone : Avoids (Dead5 p lens) drawE.one := avoids_const EReal.zero_ne_top
  have hzero : Avoids (Dead5 p lens) drawE.zero := avoids_const (EReal.coe_ne_top _)
  suffices h : Full (SemiMarkov.written drawE N binN lens (fun b n k i j => drawLeaf (p.get b n k i j) [b, n, k, i, j]) b n i.divNat j.divNat i.modNat j.modNat) ∧
      Avoids (Dead5 p lens) (SemiMarkov.written drawE N binN lens (fun b n k i j => drawLeaf (p.get b n k i j) [b, n, k, i, j]) b n i.divNat j.divNat i.modNat j.modNat) from
    ⟨fill_full h.1 one_full, fill_avoids h.2 hone⟩
  by_cases hk : (j.divNat : ℕ) = 0
  · simp only [SemiMarkov.written, Struct.unflat, hk, if_true]
    refine cell_spec _ _ _ _ ?_ ?_ ?_ ?_
    · exact fill_live zero_live one_live
    · simp only [Struct.flat, SemiMarkov.big]
      split_ifs
      · exact ⟨trivial, ht _ _ _ _ _⟩
      · exact ⟨trivial, EReal.zero_ne_top⟩
    · simp only [Struct.flat, SemiMarkov.big]
      split_ifs
      · refine avoids_single (ht _ _ _ _ _) ?_
        rintro ⟨b', n', k', i', j', he, -, hv⟩
        simp only [List.cons.injEq, and_true] at he
        obtain ⟨rfl, rfl, rfl, rfl, rfl⟩ := he
        exact hv
      · exact avoids_const EReal.zero_ne_top
    · intro hm
      simp only [LinearChain.lengthMask, Struct.flat, decide_eq_true_eq] at hm
      simp only [Struct.flat, SemiMarkov.big]
      split_ifs
      · rintro u rfl e ⟨b', n', k', i', j', rfl, hn, -⟩
        rw [Finsupp.single_apply, if_neg]
        intro he
        simp only [List.cons.injEq, and_true] at he
        obtain ⟨rfl, rfl, -⟩ := he
        omega
      · rintro u rfl e _
        rfl
  · simp only [SemiMarkov.written, Struct.unflat, hk, if_false]
    exact ⟨fill_full zero_full one_full, fill_avoids hzero hone⟩

theorem semi_row {K1 C : ℕ} (hK : 0 < K1) (hC : 0 < C) (p : T5 EReal) (ht : ∀ b n k i j, p.get b n k i j ≠ ⊤) (N logN : ℕ) (lens : ℕ → ℕ) (b : ℕ) :
    SemiMarkov.rowOk C hK N logN lens (fun b n k i j => drawLeaf (p.get b n k i j) [b, n, k, i, j]) b ∧
    Full (SemiMarkov.core drawE C hK N logN lens (fun b n k i j => drawLeaf (p.get b n k i j) [b, n, k, i, j]) b) ∧
    Avoids (Dead5 p lens) (SemiMarkov.core drawE C hK N logN lens (fun b n k i j => drawLeaf (p.get b n k i j) [b, n, k, i, j]) b) := by
  have hm : 0 < K1 * C := Nat.mul_pos hK hC
  have hs := fun k => scan_full hm k _ fun n i j => (semi_cell (K1 := K1) (C := C) p ht N (2 ^ logN) lens b n i j).1
  have ha := scan_avoids hm logN _ fun n i j => (semi_cell (K1 := K1) (C := C) p ht N (2 ^ logN) lens b n i j).2
  have h : Full (SemiMarkov.core drawE C hK N logN lens (fun b n k i j => drawLeaf (p.get b n k i j) [b, n, k, i, j]) b) :=
    full_rel.sum_ofFn hC (g := fun _ => 0) fun i => full_rel.sum_ofFn hC (g := fun _ => 0) fun j => hs logN 0 _ _
  exact ⟨⟨fun k _ n _ i j => (hs k n i j).1.1, h.1.1⟩, h,
    (avoids_rel _).sum_ofFn hC (g := fun _ => 0) fun i => (avoids_rel _).sum_ofFn hC (g := fun _ => 0) fun j => ha 0 _ _⟩

end InfSample
