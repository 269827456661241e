import Mathlib.Data.List.Forall2
import Verif.Spec.Results
import Verif.Model.LinearChain
import Verif.Model.CKYCRF
import Verif.Model.SemiMarkov
import Verif.Model.DepTree
import Verif.Model.CKY

/-! Parametricity: a relation between two semirings that is preserved by the operations is preserved by every dynamic program. -/

noncomputable section

/-- `ρ` is preserved by all operations (sums: of non-empty lists). -/
structure SRP {α β : Type} (S : SR α) (S' : SR β) (ρ : α → β → Prop) : Prop where
  zero : ρ S.zero S'.zero
  one : ρ S.one S'.one
  raw0 : ρ S.raw0 S'.raw0
  mul : ∀ {a b x y}, ρ a x → ρ b y → ρ (S.mul a b) (S'.mul x y)
  sum : ∀ {as : List α} {xs : List β}, as ≠ [] → List.Forall₂ ρ as xs → ρ (S.sum as) (S'.sum xs)
  detach : ∀ {a x}, ρ a x → ρ (S.detach a) (S'.detach x)
  setData : ∀ {a b x y}, ρ a x → ρ b y → ρ (S.setData a b) (S'.setData x y)

namespace RelE
variable {α β : Type} {ρ : α → β → Prop}

theorem map_range {n : ℕ} {f : ℕ → α} {g : ℕ → β} (h : ∀ i < n, ρ (f i) (g i)) : List.Forall₂ ρ ((List.range n).map f) ((List.range n).map g) := by
  rw [List.forall₂_map_left_iff, List.forall₂_map_right_iff, List.forall₂_same]
  intro i hi
  exact h i (List.mem_range.1 hi)

theorem ok_range {n : ℕ} {f : ℕ → α} {g : ℕ → β} (h : ∀ i < n, ρ (f i) (g i)) : RelE ρ (.ok ((List.range n).map f)) (.ok ((List.range n).map g)) := map_range h

theorem error (e : PyErr) : RelE ρ (.error e) (.error e) := rfl

theorem mono {σ : α → β → Prop} (h : ∀ a b, ρ a b → σ a b) {x : Except PyErr (List α)} {y : Except PyErr (List β)} (H : RelE ρ x y) : RelE σ x y := by
  rcases x with e | as <;> rcases y with e' | bs
  · exact H
  · exact H
  · exact H
  · exact List.Forall₂.imp (fun a b => h a b) H

/-- A functional relation: the results are images of each other. -/
theorem map_eq {f : α → β} {x : Except PyErr (List α)} {y : Except PyErr (List β)} (H : RelE (fun a b => f a = b) x y) : x.map (List.map f) = y := by
  rcases x with e | as <;> rcases y with e' | bs
  · exact congrArg _ H
  · exact H.elim
  · exact H.elim
  · refine congrArg Except.ok ?_
    have H : List.Forall₂ (fun a b => f a = b) as bs := H
    clear * - H
    induction H with
    | nil => rfl
    | cons h _ ih => rw [List.map_cons, h, ih]

theorem trans {γ : Type} {σ : β → γ → Prop} {τ : α → γ → Prop} (h : ∀ a b c, ρ a b → σ b c → τ a c) {x : Except PyErr (List α)} {y : Except PyErr (List β)}
    {z : Except PyErr (List γ)} (H : RelE ρ x y) (H' : RelE σ y z) : RelE τ x z := by
  rcases x with e | as <;> rcases y with e' | bs <;> rcases z with e'' | cs
  · exact Eq.trans (show e = e' from H) H'
  · exact H'.elim
  · exact H.elim
  · exact H.elim
  · exact H.elim
  · exact H.elim
  · exact H'.elim
  · have H : List.Forall₂ ρ as bs := H
    replace H' : List.Forall₂ σ bs cs := H'
    show List.Forall₂ τ as cs
    clear * - h H H'
    induction H generalizing cs with
    | nil => cases H'; exact .nil
    | cons h1 _ ih =>
      cases H' with
      | cons h2 h3 => exact .cons (h _ _ _ h1 h2) (ih _ h3)

theorem of_ok {as : List α} {bs : List β} {x : Except PyErr (List α)} {y : Except PyErr (List β)} (H : RelE ρ x y) (hx : x = .ok as) (hy : y = .ok bs) :
    List.Forall₂ ρ as bs := by
  subst hx hy; exact H

end RelE

namespace SRP
variable {α β : Type} {S : SR α} {S' : SR β} {ρ : α → β → Prop}

theorem sum_range (H : SRP S S' ρ) {n : ℕ} (hn : 0 < n) {f : ℕ → α} {g : ℕ → β} (h : ∀ i < n, ρ (f i) (g i)) :
    ρ (S.sum ((List.range n).map f)) (S'.sum ((List.range n).map g)) :=
  H.sum (by intro hc; have := congrArg List.length hc; simp at this; omega) (RelE.map_range h)

theorem sum_ofFn (H : SRP S S' ρ) {n : ℕ} (hn : 0 < n) {f : Fin n → α} {g : Fin n → β} (h : ∀ i, ρ (f i) (g i)) :
    ρ (S.sum (List.ofFn f)) (S'.sum (List.ofFn g)) := by
  refine H.sum (by intro hc; have := congrArg List.length hc; simp at this; omega) ?_
  rw [List.forall₂_iff_get]
  refine ⟨by simp, fun i h₁ h₂ => ?_⟩
  simp only [List.get_eq_getElem, List.getElem_ofFn]
  exact h _

theorem sum2 (H : SRP S S' ρ) {a b : α} {x y : β} (h1 : ρ a x) (h2 : ρ b y) : ρ (S.sum [a, b]) (S'.sum [x, y]) :=
  H.sum (by simp) (.cons h1 (.cons h2 .nil))

theorem dot_range (H : SRP S S' ρ) {n : ℕ} (hn : 0 < n) {f f' : ℕ → α} {g g' : ℕ → β} (h : ∀ i < n, ρ (f i) (g i)) (h' : ∀ i < n, ρ (f' i) (g' i)) :
    ρ (S.dot ((List.range n).map f) ((List.range n).map f')) (S'.dot ((List.range n).map g) ((List.range n).map g')) := by
  have e : ∀ {γ : Type} (T : SR γ) (u v : ℕ → γ), T.dot ((List.range n).map u) ((List.range n).map v) = T.sum ((List.range n).map fun i => T.mul (u i) (v i)) := by
    intro γ T u v
    rw [SR.dot, List.zipWith_map, List.zipWith_self]
  rw [e, e]
  exact H.sum_range hn fun i hi => H.mul (h i hi) (h' i hi)

theorem times1 (H : SRP S S' ρ) {a b : α} {x y : β} (h1 : ρ a x) (h2 : ρ b y) : ρ (S.times a [b]) (S'.times x [y]) := H.mul h1 h2

theorem matmul (H : SRP S S' ρ) {ι κ : Type} {m : ℕ} (hm : 0 < m) {a : ι → Fin m → α} {b : Fin m → κ → α} {x : ι → Fin m → β} {y : Fin m → κ → β}
    (ha : ∀ i k, ρ (a i k) (x i k)) (hb : ∀ k j, ρ (b k j) (y k j)) (i : ι) (j : κ) : ρ (S.matmul a b i j) (S'.matmul x y i j) :=
  H.sum_ofFn hm fun k => H.mul (ha i k) (hb k j)

theorem fill (a b : α) (x y : β) (m : Bool) (h1 : ρ a x) (h2 : ρ b y) : ρ (SR.fill a m b) (SR.fill x m y) := by
  unfold SR.fill; split <;> assumption

/-! ### Linear chain -/

theorem scan (H : SRP S S' ρ) {m : ℕ} (hm : 0 < m) (k : ℕ) : ∀ {c : ℕ → Fin m → Fin m → α} {c' : ℕ → Fin m → Fin m → β},
    (∀ n < 2 ^ k, ∀ i j, ρ (c n i j) (c' n i j)) → ∀ i j, ρ (LinearChain.scan S k c 0 i j) (LinearChain.scan S' k c' 0 i j) := by
  induction k with
  | zero => intro c c' h; exact h 0 (by simp)
  | succ k ih =>
    intro c c' h
    refine ih fun n hn i j => H.matmul hm (fun i k => h _ ?_ i k) (fun k j => h _ ?_ k j) i j
    · rw [Nat.pow_succ]; omega
    · rw [Nat.pow_succ]; omega

theorem chain_masked (H : SRP S S' ρ) {C N binN : ℕ} (lens : ℕ → ℕ) {lp : ℕ → ℕ → Fin C → Fin C → α} {lp' : ℕ → ℕ → Fin C → Fin C → β} {B : ℕ}
    (h : ∀ b < B, ∀ n < N - 1, ∀ i j, ρ (lp b n i j) (lp' b n i j)) {b n : ℕ} (hb : b < B) (hn : n < binN) (i j : Fin C) :
    ρ (LinearChain.masked S N binN lens lp b n i j) (LinearChain.masked S' N binN lens lp' b n i j) := by
  have hb' : (b * binN + n) / binN < B := by
    rw [Nat.add_comm, Nat.add_mul_div_right _ _ (by omega), Nat.div_eq_of_lt hn]; omega
  have hc : ∀ r, ρ (Struct.flat binN (LinearChain.chartInit (C := C) S) r i j) (Struct.flat binN (LinearChain.chartInit (C := C) S') r i j) :=
    fun r => fill _ _ _ _ _ H.zero H.one
  have hl : ρ (Struct.flat binN (LinearChain.big S N lp) (b * binN + n) i j) (Struct.flat binN (LinearChain.big S' N lp') (b * binN + n) i j) := by
    show ρ (if _ then _ else _) (if _ then _ else _)
    split
    · rename_i hlt
      exact h _ hb' _ hlt i j
    · exact H.raw0
  exact H.sum2 (H.detach (H.setData (hc _) (fill _ _ _ _ _ (H.detach (hc _)) H.zero))) (H.setData hl (fill _ _ _ _ _ (H.detach hl) H.zero))

/-- The linear chain. -/
theorem chain (H : SRP S S' ρ) {p : T4 α} {p' : T4 β} (h0 : p'.d0 = p.d0) (h1 : p'.d1 = p.d1) (h2 : p'.d2 = p.d2) (h3 : p'.d3 = p.d3) (hC : 0 < p.d2)
    (h : ∀ b < p.d0, ∀ n < p.d1, ∀ i < p.d2, ∀ j < p.d3, ρ (p.get b n i j) (p'.get b n i j)) (lengths : Option (List ℕ)) :
    RelE ρ (LinearChain.logpartition S p lengths) (LinearChain.logpartition S' p' lengths) := by
  obtain ⟨d0, d1, d2, d3, get⟩ := p
  obtain ⟨d0', d1', d2', d3', get'⟩ := p'
  dsimp only at h0 h1 h2 h3 hC h
  subst h0 h1 h2 h3
  have hck : LinearChain.checkPotentials (⟨d0', d1', d2', d3', get⟩ : T4 α) lengths = LinearChain.checkPotentials (⟨d0', d1', d2', d3', get'⟩ : T4 β) lengths := rfl
  unfold LinearChain.logpartition
  rw [hck]
  rcases hc : LinearChain.checkPotentials (⟨d0', d1', d2', d3', get'⟩ : T4 β) lengths with e | lens
  · exact RelE.error e
  rcases hb : Struct.binLength d1' with e | ⟨logN, binN⟩
  · simp only [hb]; exact RelE.error e
  simp only [hb]
  show RelE ρ (if _ then _ else _) (if _ then _ else _)
  have hsq : d2' = d3' := by
    by_contra hne
    simp only [LinearChain.checkPotentials] at hc
    revert hc
    cases lengths with
    | none => simp [hne, Bind.bind, Except.bind]
    | some ls => cases hm : ls.max? with
      | none => simp [hm, Bind.bind, Except.bind]
      | some m => simp only [hm, hne, if_false]; split_ifs <;> simp [Bind.bind, Except.bind]
  split_ifs with hlen
  · refine RelE.ok_range fun b hb => ?_
    show ρ (LinearChain.total _ _) (LinearChain.total _ _)
    have key : ∀ i j, ρ (LinearChain.scan S logN (LinearChain.masked S (C := d2') (d1' + 1) (2 ^ logN) (fun b => lens.getD b 0) (fun b n i j => get b n i j) b) 0 i j)
        (LinearChain.scan S' logN (LinearChain.masked S' (C := d2') (d1' + 1) (2 ^ logN) (fun b => lens.getD b 0) (fun b n i j => get' b n i j) b) 0 i j) :=
      H.scan hC logN fun n hn i j => H.chain_masked _ (fun b hb n hn i j => h b hb n (by omega) i i.2 j (hsq ▸ j.2)) hb hn i j
    exact H.sum_ofFn hC fun i => H.sum_ofFn hC fun j => key i j
  · exact RelE.error _

/-! ### TreeCRF -/

theorem tree_charts (H : SRP S S' ρ) {N B : ℕ} {red : ℕ → ℕ → ℕ → α} {red' : ℕ → ℕ → ℕ → β} (h : ∀ b < B, ∀ i < N, ∀ j < N, ρ (red b i j) (red' b i j)) :
    ∀ b < B, ∀ i w, ρ ((CKYCRF.charts S N red).1 b i w) ((CKYCRF.charts S' N red').1 b i w) ∧ ρ ((CKYCRF.charts S N red).2 b i w) ((CKYCRF.charts S' N red').2 b i w) := by
  unfold CKYCRF.charts
  have hl : ∀ w ∈ List.range (N - 1), w + 1 < N := fun w hw => by have := List.mem_range.1 hw; omega
  revert hl
  have base : ∀ b < B, ∀ i w, ρ ((CKYCRF.init S N red).1 b i w) ((CKYCRF.init S' N red').1 b i w) ∧ ρ ((CKYCRF.init S N red).2 b i w) ((CKYCRF.init S' N red').2 b i w) := by
    intro b hb i w
    constructor
    · simp only [CKYCRF.init]
      split_ifs with hc
      · exact h b hb i hc.1 i hc.1
      · exact H.zero
    · simp only [CKYCRF.init]
      split_ifs with hc
      · exact h b hb i hc.1 i hc.1
      · exact H.zero
  revert base
  generalize CKYCRF.init S N red = st
  generalize CKYCRF.init S' N red' = st'
  induction List.range (N - 1) generalizing st st' with
  | nil => intro h0 _; exact h0
  | cons w ws ih =>
    intro h0 hl
    have hw := hl w (by simp)
    refine ih _ _ ?_ fun v hv => hl v (by simp [hv])
    intro b hb i v
    have hnew : ∀ i, i < N - (w + 1) →
        ρ (S.times (S.dot ((List.range (w + 1)).map fun u => st.1 b i u) ((List.range (w + 1)).map fun u => st.2 b (w + 1 + i) (N - (w + 1) + u))) [red b i (i + (w + 1))])
        (S'.times (S'.dot ((List.range (w + 1)).map fun u => st'.1 b i u) ((List.range (w + 1)).map fun u => st'.2 b (w + 1 + i) (N - (w + 1) + u))) [red' b i (i + (w + 1))]) :=
      fun i hi => H.times1 (H.dot_range (by omega) (fun u _ => (h0 b hb _ _).1) fun u _ => (h0 b hb _ _).2) (h b hb _ (by omega) _ (by omega))
    constructor
    · simp only [CKYCRF.step]
      split_ifs with hc
      · exact hnew i hc.1
      · exact (h0 b hb _ _).1
    · simp only [CKYCRF.step]
      split_ifs with hc
      · exact hnew (i - (w + 1)) (by omega)
      · exact (h0 b hb _ _).2

/-- `TreeCRF`. -/
theorem tree (H : SRP S S' ρ) {p : T4 α} {p' : T4 β} (h0 : p'.d0 = p.d0) (h1 : p'.d1 = p.d1) (h2 : p'.d2 = p.d2) (h3 : p'.d3 = p.d3) (hC : 0 < p.d3)
    (h : ∀ b < p.d0, ∀ i < p.d1, ∀ j < p.d1, ∀ a < p.d3, ρ (p.get b i j a) (p'.get b i j a)) (lengths : Option (List ℕ)) (hB : 0 < p.d0) :
    RelE ρ (CKYCRF.logpartition S p lengths) (CKYCRF.logpartition S' p' lengths) := by
  obtain ⟨d0, d1, d2, d3, get⟩ := p
  obtain ⟨d0', d1', d2', d3', get'⟩ := p'
  dsimp only at h0 h1 h2 h3 hC h hB
  subst h0 h1 h2 h3
  have hch := H.tree_charts (N := d1') (B := d0') (red := CKYCRF.reduced S ⟨d0', d1', d2', d3', get⟩) (red' := CKYCRF.reduced S' ⟨d0', d1', d2', d3', get'⟩)
    fun b hb i hi j hj => H.sum_range hC fun a ha => h b hb i hi j hj a ha
  simp only [CKYCRF.logpartition, CKYCRF.gather]
  split_ifs
  · exact RelE.error _
  · exact RelE.error _
  · exact RelE.ok_range fun b hb => (hch b hb _ _).1
  · exact RelE.ok_range fun b hb => (hch b hb _ _).1
  · show List.Forall₂ _ _ _
    rw [List.forall₂_map_left_iff, List.forall₂_map_right_iff, List.forall₂_same]
    exact fun l _ => (hch 0 hB _ _).1
  · exact RelE.error _
  · exact RelE.error _

/-! ### SemiMarkov -/

theorem semi_chart (H : SRP S S' ρ) {K1 C N binN B : ℕ} (lens : ℕ → ℕ) {lp : ℕ → ℕ → ℕ → ℕ → ℕ → α} {lp' : ℕ → ℕ → ℕ → ℕ → ℕ → β}
    (h : ∀ b < B, ∀ n < N - 1, ∀ k < K1 + 1, ∀ c < C, ∀ d < C, ρ (lp b n k c d) (lp' b n k c d)) {b n : ℕ} (hb : b < B) (hn : n < binN) (i j : Fin (K1 * C)) :
    ρ (SemiMarkov.chart S K1 C N binN lens lp b n i j) (SemiMarkov.chart S' K1 C N binN lens lp' b n i j) := by
  have hb' : (b * binN + n) / binN < B := by
    rw [Nat.add_comm, Nat.add_mul_div_right _ _ (by omega), Nat.div_eq_of_lt hn]; omega
  have hc : ∀ r k1 k2 c1 c2, ρ (Struct.flat binN (SemiMarkov.chartInit S) r k1 k2 c1 c2) (Struct.flat binN (SemiMarkov.chartInit S') r k1 k2 c1 c2) :=
    fun r k1 k2 c1 c2 => fill _ _ _ _ _ H.zero H.one
  have hl : ∀ k < K1 + 1, ∀ c < C, ∀ d < C, ρ (Struct.flat binN (SemiMarkov.big S N lp) (b * binN + n) k c d) (Struct.flat binN (SemiMarkov.big S' N lp') (b * binN + n) k c d) := by
    intro k hk c hc d hd
    show ρ (if _ then _ else _) (if _ then _ else _)
    split
    · rename_i hlt
      exact h _ hb' _ hlt k hk c hc d hd
    · exact H.raw0
  have hi : (i.modNat : ℕ) < C := i.modNat.2
  have hj : (j.modNat : ℕ) < C := j.modNat.2
  have hk : (i.divNat : ℕ) + 1 < K1 + 1 := by have := i.divNat.2; omega
  refine fill _ _ _ _ _ ?_ H.one
  simp only [SemiMarkov.written, Struct.unflat]
  split_ifs
  · exact H.sum2 (H.detach (H.setData (hc _ _ _ _ _) (fill _ _ _ _ _ (H.detach (hc _ _ _ _ _)) H.zero)))
      (H.setData (hl _ hk _ hi _ hj) (fill _ _ _ _ _ (H.detach (hl _ hk _ hi _ hj)) H.zero))
  · exact hc _ _ _ _ _

/-- `SemiMarkovCRF`. -/
theorem semi (H : SRP S S' ρ) {p : T5 α} {p' : T5 β} (h0 : p'.d0 = p.d0) (h1 : p'.d1 = p.d1) (h2 : p'.d2 = p.d2) (h3 : p'.d3 = p.d3) (h4 : p'.d4 = p.d4) (hC : 0 < p.d3)
    (h : ∀ b < p.d0, ∀ n < p.d1, ∀ k < p.d2, ∀ i < p.d3, ∀ j < p.d4, ρ (p.get b n k i j) (p'.get b n k i j)) (lengths : Option (List ℕ)) :
    RelE ρ (SemiMarkov.logpartition S p lengths) (SemiMarkov.logpartition S' p' lengths) := by
  obtain ⟨d0, d1, d2, d3, d4, get⟩ := p
  obtain ⟨d0', d1', d2', d3', d4', get'⟩ := p'
  dsimp only at h0 h1 h2 h3 h4 hC h
  subst h0 h1 h2 h3 h4
  have hck : SemiMarkov.checkPotentials (⟨d0', d1', d2', d3', d4', get⟩ : T5 α) lengths = SemiMarkov.checkPotentials (⟨d0', d1', d2', d3', d4', get'⟩ : T5 β) lengths := rfl
  unfold SemiMarkov.logpartition
  rw [hck]
  rcases hc : SemiMarkov.checkPotentials (⟨d0', d1', d2', d3', d4', get'⟩ : T5 β) lengths with e | lens
  · exact RelE.error e
  rcases hb : Struct.binLength d1' with e | ⟨logN, binN⟩
  · simp only [hb]; exact RelE.error e
  simp only [hb]
  have hsq : d3' = d4' := by
    by_contra hne
    simp only [SemiMarkov.checkPotentials, if_neg hne] at hc
    split at hc
    · cases hc
    · split_ifs at hc
  show RelE ρ (if _ then _ else if h : _ then (if _ then _ else _) else _) (if _ then _ else if h : _ then (if _ then _ else _) else _)
  split_ifs with hz hK hlen
  · exact RelE.error _
  · refine RelE.ok_range fun b hb => ?_
    have key : ∀ i j, ρ (LinearChain.scan S logN (SemiMarkov.chart S (d2' - 1) d3' (d1' + 1) (2 ^ logN) (fun b => lens.getD b 0) get b) 0 i j)
        (LinearChain.scan S' logN (SemiMarkov.chart S' (d2' - 1) d3' (d1' + 1) (2 ^ logN) (fun b => lens.getD b 0) get' b) 0 i j) :=
      H.scan (Nat.mul_pos hK hC) logN fun n hn i j => H.semi_chart _ (fun b hb n hn k hk c hc d hd => h b hb n (by omega) k (by omega) c hc d (hsq ▸ hd)) hb hn i j
    exact H.sum_ofFn hC fun i => H.sum_ofFn hC fun j => key _ _
  · exact RelE.error _
  · exact RelE.error _

/-! ### DependencyCRF -/

/-- All eight charts are related in the rows below `B`. -/
structure DepRel (ρ : α → β → Prop) (B : ℕ) (st : DepTree.Charts α) (st' : DepTree.Charts β) : Prop where
  acl : ∀ b < B, ∀ i w, ρ (st.acl b i w) (st'.acl b i w)
  acr : ∀ b < B, ∀ i w, ρ (st.acr b i w) (st'.acr b i w)
  bcl : ∀ b < B, ∀ i w, ρ (st.bcl b i w) (st'.bcl b i w)
  bcr : ∀ b < B, ∀ i w, ρ (st.bcr b i w) (st'.bcr b i w)
  ail : ∀ b < B, ∀ i w, ρ (st.ail b i w) (st'.ail b i w)
  air : ∀ b < B, ∀ i w, ρ (st.air b i w) (st'.air b i w)
  bil : ∀ b < B, ∀ i w, ρ (st.bil b i w) (st'.bil b i w)
  bir : ∀ b < B, ∀ i w, ρ (st.bir b i w) (st'.bir b i w)

theorem dep_writeA {s N k B : ℕ} {new : ℕ → ℕ → α} {new' : ℕ → ℕ → β} {old : ℕ → ℕ → ℕ → α} {old' : ℕ → ℕ → ℕ → β}
    (hn : ∀ b < B, ∀ i < N - k, ρ (new b i) (new' b i)) (ho : ∀ b < B, ∀ i w, ρ (old b i w) (old' b i w)) :
    ∀ b < B, ∀ i w, ρ (DepTree.writeA s N k new old b i w) (DepTree.writeA s N k new' old' b i w) := by
  intro b hb i w
  unfold DepTree.writeA
  split_ifs with hc
  · exact hn b hb i hc.2.1
  · exact ho b hb i w

theorem dep_writeB {s N k B : ℕ} {new : ℕ → ℕ → α} {new' : ℕ → ℕ → β} {old : ℕ → ℕ → ℕ → α} {old' : ℕ → ℕ → ℕ → β}
    (hn : ∀ b < B, ∀ i < N - k, ρ (new b i) (new' b i)) (ho : ∀ b < B, ∀ i w, ρ (old b i w) (old' b i w)) :
    ∀ b < B, ∀ i w, ρ (DepTree.writeB s N k new old b i w) (DepTree.writeB s N k new' old' b i w) := by
  intro b hb i w
  unfold DepTree.writeB
  split_ifs with hc
  · exact hn b hb _ (by omega)
  · exact ho b hb i w

theorem dep_step (H : SRP S S' ρ) {s N B k : ℕ} (hk : 0 < k) {arc : ℕ → ℕ → ℕ → α} {arc' : ℕ → ℕ → ℕ → β}
    (h : ∀ b < B, ∀ i < N, ∀ j < N, ρ (arc b i j) (arc' b i j)) {st : DepTree.Charts α} {st' : DepTree.Charts β} (hst : DepRel ρ B st st') :
    DepRel ρ B (DepTree.step S s N arc st k) (DepTree.step S' s N arc' st' k) := by
  have hI : DepRel ρ B (DepTree.stepI S s N arc st k) (DepTree.stepI S' s N arc' st' k) := by
    have hx := fun b (hb : b < B) i => H.dot_range hk (f := fun u => st.acr b i u) (f' := fun u => st.bcl b (k + i) (N - k + u)) (g := fun u => st'.acr b i u)
      (g' := fun u => st'.bcl b (k + i) (N - k + u)) (fun u _ => hst.acr b hb _ _) (fun u _ => hst.bcl b hb _ _)
    have hL : ∀ b < B, ∀ i < N - k, ρ (S.times (S.dot ((List.range k).map fun u => st.acr b i u) ((List.range k).map fun u => st.bcl b (k + i) (N - k + u))) [arc b (i + k) i])
        (S'.times (S'.dot ((List.range k).map fun u => st'.acr b i u) ((List.range k).map fun u => st'.bcl b (k + i) (N - k + u))) [arc' b (i + k) i]) :=
      fun b hb i hi => H.times1 (hx b hb i) (h b hb _ (by omega) _ (by omega))
    have hR : ∀ b < B, ∀ i < N - k, ρ (S.times (S.dot ((List.range k).map fun u => st.acr b i u) ((List.range k).map fun u => st.bcl b (k + i) (N - k + u))) [arc b i (i + k)])
        (S'.times (S'.dot ((List.range k).map fun u => st'.acr b i u) ((List.range k).map fun u => st'.bcl b (k + i) (N - k + u))) [arc' b i (i + k)]) :=
      fun b hb i hi => H.times1 (hx b hb i) (h b hb _ (by omega) _ (by omega))
    exact ⟨hst.acl, hst.acr, hst.bcl, hst.bcr, dep_writeA hL hst.ail, dep_writeA hR hst.air, dep_writeB hL hst.bil, dep_writeB hR hst.bir⟩
  revert hI
  unfold DepTree.step
  generalize DepTree.stepI S s N arc st k = t
  generalize DepTree.stepI S' s N arc' st' k = t'
  intro ht
  have hL : ∀ b < B, ∀ i < N - k, ρ (S.dot ((List.range k).map fun u => t.acl b i u) ((List.range k).map fun u => t.bil b (k + i) (N - k - 1 + u)))
      (S'.dot ((List.range k).map fun u => t'.acl b i u) ((List.range k).map fun u => t'.bil b (k + i) (N - k - 1 + u))) :=
    fun b hb i _ => H.dot_range hk (fun u _ => ht.acl b hb _ _) (fun u _ => ht.bil b hb _ _)
  have hR : ∀ b < B, ∀ i < N - k, ρ (S.dot ((List.range k).map fun u => t.air b i (1 + u)) ((List.range k).map fun u => t.bcr b (k + i) (N - k + u)))
      (S'.dot ((List.range k).map fun u => t'.air b i (1 + u)) ((List.range k).map fun u => t'.bcr b (k + i) (N - k + u))) :=
    fun b hb i _ => H.dot_range hk (fun u _ => ht.air b hb _ _) (fun u _ => ht.bcr b hb _ _)
  exact ⟨dep_writeA hL ht.acl, dep_writeA hR ht.acr, dep_writeB hL ht.bcl, dep_writeB hR ht.bcr, ht.ail, ht.air, ht.bil, ht.bir⟩

theorem dep_charts (H : SRP S S' ρ) {s N B : ℕ} {arc : ℕ → ℕ → ℕ → α} {arc' : ℕ → ℕ → ℕ → β}
    (h : ∀ b < B, ∀ i < N, ∀ j < N, ρ (arc b i j) (arc' b i j)) : DepRel ρ B (DepTree.charts S s N arc) (DepTree.charts S' s N arc') := by
  unfold DepTree.charts
  have base : DepRel ρ B (DepTree.init S N) (DepTree.init S' N) := by
    constructor <;> intro b hb i w <;> first | exact H.zero | exact fill _ _ _ _ _ H.zero H.one
  revert base
  generalize DepTree.init S N = st
  generalize DepTree.init S' N = st'
  induction List.range (N - s - 1) generalizing st st' with
  | nil => exact fun h0 => h0
  | cons w ws ih => exact fun h0 => ih _ _ (H.dep_step (by omega) h h0)

theorem dep_rootFold (H : SRP S S' ρ) {N B : ℕ} {span : ℕ → ℕ → α} {span' : ℕ → ℕ → β} (hspan : ∀ b < B, ∀ m, m + 1 < N → ρ (span b m) (span' b m)) (l : List ℕ) :
    (∀ w ∈ l, w + 1 < N) → ∀ {st : DepTree.Charts α} {st' : DepTree.Charts β}, DepRel ρ B st st' →
    DepRel ρ B (l.foldl (fun st k => DepTree.rootStep S N span st (k + 1)) st) (l.foldl (fun st k => DepTree.rootStep S' N span' st (k + 1)) st') := by
  induction l with
  | nil => intro _ st st' hst; exact hst
  | cons w ws ih =>
    intro hl st st' hst
    have hw := hl w (by simp)
    refine ih (fun v hv => hl v (by simp [hv])) ?_
    refine ⟨hst.acl, ?_, hst.bcl, hst.bcr, hst.ail, hst.air, hst.bil, hst.bir⟩
    intro b hb i v
    simp only [DepTree.rootStep]
    split_ifs
    · exact H.dot_range (by omega) (fun u hu => hspan b hb u (by omega)) (fun u _ => hst.bcr b hb _ _)
    · exact hst.acr b hb _ _

theorem dep_root (H : SRP S S' ρ) {N B : ℕ} {arc : ℕ → ℕ → ℕ → α} {arc' : ℕ → ℕ → ℕ → β}
    (h : ∀ b < B, ∀ i < N, ∀ j < N, ρ (arc b i j) (arc' b i j)) {st : DepTree.Charts α} {st' : DepTree.Charts β} (hst : DepRel ρ B st st') :
    DepRel ρ B (DepTree.rootCharts S N arc st) (DepTree.rootCharts S' N arc' st') :=
  H.dep_rootFold (fun b hb m hm => H.times1 (hst.acl b hb _ _) (h b hb _ (by omega) _ (by omega))) _
    (fun w hw => by have := List.mem_range.1 hw; omega) hst

/-- `DependencyCRF` on the converted table. -/
theorem dep (H : SRP S S' ρ) (mr : Bool) {p : DepTree.Arcs α} {p' : DepTree.Arcs β} (hr : p'.rank = p.rank) (h0 : p'.d0 = p.d0) (h1 : p'.d1 = p.d1) (h2 : p'.d2 = p.d2)
    (h3 : p'.d3 = p.d3) (hC : 0 < p.labels) (h : ∀ b < p.d0, ∀ i < p.d1, ∀ j < p.d1, ∀ l < p.labels, ρ (p.get b i j l) (p'.get b i j l)) (lengths : Option (List ℕ)) :
    RelE ρ (DepTree.logpartition mr S p lengths) (DepTree.logpartition mr S' p' lengths) := by
  obtain ⟨rank, d0, d1, d2, d3, get⟩ := p
  obtain ⟨rank', d0', d1', d2', d3', get'⟩ := p'
  dsimp only at hr h0 h1 h2 h3 hC h
  subst hr h0 h1 h2 h3
  have harc : ∀ b < d0', ∀ i < d1', ∀ j < d1', ρ (DepTree.arcScores S ⟨rank', d0', d1', d2', d3', get⟩ (DepTree.lensOr d0' d1' lengths) b i j)
      (DepTree.arcScores S' ⟨rank', d0', d1', d2', d3', get'⟩ (DepTree.lensOr d0' d1' lengths) b i j) := by
    intro b hb i hi j hj
    have hm : ∀ l, l < (⟨rank', d0', d1', d2', d3', get⟩ : DepTree.Arcs α).labels → ρ (DepTree.masked S ⟨rank', d0', d1', d2', d3', get⟩ (DepTree.lensOr d0' d1' lengths) b i j l)
        (DepTree.masked S' ⟨rank', d0', d1', d2', d3', get'⟩ (DepTree.lensOr d0' d1' lengths) b i j l) := by
      intro l hl
      simp only [DepTree.masked]
      split_ifs
      · exact H.setData (h b hb i hi j hj l hl) H.zero
      · exact h b hb i hi j hj l hl
    by_cases hlab : rank' = 4
    · simp only [DepTree.arcScores, DepTree.Arcs.labeled, hlab, if_true]
      simp only [DepTree.Arcs.labels, DepTree.Arcs.labeled, hlab, if_true] at hC hm
      exact H.sum_range hC hm
    · simp only [DepTree.arcScores, DepTree.Arcs.labeled, hlab, if_false]
      simp only [DepTree.Arcs.labels, DepTree.Arcs.labeled, hlab, if_false] at hC hm
      exact hm 0 (by omega)
  simp only [DepTree.logpartition]
  split_ifs
  any_goals exact RelE.error _
  refine RelE.ok_range fun b hb => ?_
  cases mr
  · exact (H.dep_root harc (H.dep_charts harc)).acr b hb _ _
  · exact (H.dep_charts harc).acr b hb _ _

/-! ### SentCFG -/

/-- Related tables of a grammar. -/
structure ScoresRel (ρ : α → β → Prop) (p : CKY.Scores α) (p' : CKY.Scores β) : Prop where
  batch : p'.batch = p.batch
  N : p'.N = p.N
  T : p'.T = p.T
  NT : p'.NT = p.NT
  S : p'.S = p.S
  term : ∀ b < p.batch, ∀ n < p.N, ∀ t < p.T, ρ (p.term b n t) (p'.term b n t)
  rule : ∀ b < p.batch, ∀ x < p.NT, ∀ y < p.NT + p.T, ∀ z < p.NT + p.T, ρ (p.rule b x y z) (p'.rule b x y z)
  root : ∀ b < p.batch, ∀ x < p.NT, ρ (p.root b x) (p'.root b x)
  mark : match p.mark, p'.mark with
    | none, none => True
    | some m, some m' => ∀ b < p.batch, ∀ w i, ∀ x < p.NT, ρ (m b w i x) (m' b w i x)
    | _, _ => False

theorem cfg_block (H : SRP S S' ρ) {m n : ℕ} (hm : 0 < m) (hn : 0 < n) {M : ℕ → ℕ → α} {M' : ℕ → ℕ → β} {r : ℕ → ℕ → α} {r' : ℕ → ℕ → β} {oy oz : ℕ}
    (h1 : ∀ y < m, ∀ z < n, ρ (M y z) (M' y z)) (h2 : ∀ y < m, ∀ z < n, ρ (r (oy + y) (oz + z)) (r' (oy + y) (oz + z))) :
    ρ (CKY.block S m n M r oy oz) (CKY.block S' m n M' r' oy oz) := by
  unfold CKY.block
  have hmem : ∀ yz ∈ CKY.pairs m n, yz.1 < m ∧ yz.2 < n := by
    intro yz hyz
    simp only [CKY.pairs, List.mem_flatMap, List.mem_map, List.mem_range] at hyz
    obtain ⟨y, hy, z, hz, rfl⟩ := hyz
    exact ⟨hy, hz⟩
  refine H.sum ?_ ?_
  · intro hc
    rw [List.map_eq_nil_iff] at hc
    have : ((0, 0) : ℕ × ℕ) ∈ CKY.pairs m n := by
      simp only [CKY.pairs, List.mem_flatMap, List.mem_map, List.mem_range]
      exact ⟨0, hm, 0, hn, rfl⟩
    rw [hc] at this
    simp at this
  · rw [List.forall₂_map_left_iff, List.forall₂_map_right_iff, List.forall₂_same]
    intro yz hyz
    obtain ⟨hy, hz⟩ := hmem yz hyz
    exact H.mul (h1 _ hy _ hz) (h2 _ hy _ hz)

theorem cfg_span (H : SRP S S' ρ) {p : CKY.Scores α} {p' : CKY.Scores β} (hp : ScoresRel ρ p p') (hNT : 0 < p.NT) (hT : 0 < p.T) {st : CKY.Charts α} {st' : CKY.Charts β}
    (h0 : ∀ b < p.batch, ∀ i w, ∀ x < p.NT, ρ (st.1 b i w x) (st'.1 b i w x) ∧ ρ (st.2 b i w x) (st'.2 b i w x)) {w : ℕ} (hw : 0 < w) {b i : ℕ} (hb : b < p.batch)
    (hi : i < p.N - w) {X : ℕ} (hX : X < p.NT) : ρ (CKY.spanOf S p st w b i X) (CKY.spanOf S' p' st' w b i X) := by
  have e1 : ρ (CKY.x1 S p st w b i X) (CKY.x1 S' p' st' w b i X) := by
    unfold CKY.x1
    rw [hp.NT, hp.N]
    exact H.cfg_block hNT hNT (fun y hy z hz => H.sum_range hw fun u _ => H.mul (h0 b hb _ _ y hy).1 (h0 b hb _ _ z hz).2)
      fun y hy z hz => hp.rule b hb X hX _ (by omega) _ (by omega)
  have e2 : ρ (CKY.x2 S p st w b i X) (CKY.x2 S' p' st' w b i X) := by
    unfold CKY.x2
    rw [hp.NT, hp.T]
    exact H.cfg_block hNT hT (fun y hy z hz => H.times1 (h0 b hb _ _ y hy).1 (hp.term b hb _ (by omega) z hz))
      fun y hy z hz => hp.rule b hb X hX _ (by omega) _ (by omega)
  have e3 : ρ (CKY.x3 S p st w b i X) (CKY.x3 S' p' st' w b i X) := by
    unfold CKY.x3
    rw [hp.NT, hp.T, hp.N]
    exact H.cfg_block hT hNT (fun y hy z hz => H.times1 (hp.term b hb _ (by omega) y hy) (h0 b hb _ _ z hz).2)
      fun y hy z hz => hp.rule b hb X hX _ (by omega) _ (by omega)
  have e4 : ρ (CKY.x4 S p w b i X) (CKY.x4 S' p' w b i X) := by
    unfold CKY.x4
    rw [hp.NT, hp.T]
    exact H.cfg_block hT hT (fun y hy z hz => H.times1 (hp.term b hb _ (by omega) y hy) (hp.term b hb _ (by omega) z hz))
      fun y hy z hz => hp.rule b hb X hX _ (by omega) _ (by omega)
  refine H.sum (by simp) ?_
  split_ifs
  · exact .cons e1 (.cons e2 (.cons e3 (.cons e4 .nil)))
  · exact .cons e1 (.cons e2 (.cons e3 .nil))

theorem cfg_charts (H : SRP S S' ρ) {p : CKY.Scores α} {p' : CKY.Scores β} (hp : ScoresRel ρ p p') (hNT : 0 < p.NT) (hT : 0 < p.T) :
    ∀ b < p.batch, ∀ i w, ∀ x < p.NT, ρ ((CKY.charts S p).1 b i w x) ((CKY.charts S' p').1 b i w x) ∧ ρ ((CKY.charts S p).2 b i w x) ((CKY.charts S' p').2 b i w x) := by
  unfold CKY.charts
  rw [hp.N]
  have base : ∀ b < p.batch, ∀ i w, ∀ x < p.NT, ρ ((CKY.init S).1 b i w x) ((CKY.init S').1 b i w x) ∧ ρ ((CKY.init S).2 b i w x) ((CKY.init S').2 b i w x) :=
    fun b _ i w x _ => ⟨H.zero, H.zero⟩
  revert base
  generalize CKY.init S = st
  generalize CKY.init S' = st'
  induction List.range (p.N - 1) generalizing st st' with
  | nil => exact fun h0 => h0
  | cons w ws ih =>
    intro h0
    refine ih _ _ ?_
    intro b hb i v x hx
    have hnew : ∀ i, i < p.N - (w + 1) → ρ (CKY.touch S p (w + 1) b i x (CKY.spanOf S p st (w + 1) b i x)) (CKY.touch S' p' (w + 1) b i x (CKY.spanOf S' p' st' (w + 1) b i x)) := by
      intro i hi
      have hs := H.cfg_span hp hNT hT h0 (w := w + 1) (by omega) hb hi hx
      have hm := hp.mark
      unfold CKY.touch
      rcases h1 : p.mark with - | m <;> rcases h2 : p'.mark with - | m' <;> simp only [h1, h2] at hm ⊢
      · exact hs
      · exact H.mul hs (hm b hb _ _ x hx)
    constructor
    · simp only [CKY.step, hp.N]
      split_ifs with hc
      · exact hnew i hc.1
      · exact (h0 b hb _ _ x hx).1
    · simp only [CKY.step, hp.N]
      split_ifs with hc
      · exact hnew (i - (w + 1)) (by omega)
      · exact (h0 b hb _ _ x hx).2

/-- `SentCFG`. -/
theorem cfg (H : SRP S S' ρ) {p : CKY.Scores α} {p' : CKY.Scores β} (hp : ScoresRel ρ p p') (lengths : Option (List ℕ)) :
    RelE ρ (CKY.logpartition S p lengths) (CKY.logpartition S' p' lengths) := by
  by_cases hbad : p.S ≠ p.NT + p.T ∨ p.NT = 0 ∨ p.T = 0 ∨ p.batch = 0
  · have hbad' : p'.S ≠ p'.NT + p'.T ∨ p'.NT = 0 ∨ p'.T = 0 ∨ p'.batch = 0 := by rw [hp.S, hp.NT, hp.T, hp.batch]; exact hbad
    rw [CKY.logpartition, CKY.logpartition, if_pos hbad, if_pos hbad']
    exact RelE.error _
  have hbad' : ¬ (p'.S ≠ p'.NT + p'.T ∨ p'.NT = 0 ∨ p'.T = 0 ∨ p'.batch = 0) := by rw [hp.S, hp.NT, hp.T, hp.batch]; exact hbad
  have hNT : 0 < p.NT := by omega
  have hT : 0 < p.T := by omega
  have hB : 0 < p.batch := by omega
  rw [CKY.logpartition, CKY.logpartition, if_neg hbad, if_neg hbad', hp.N, hp.batch]
  have hZ : ∀ lens, ∀ c < p.batch, ∀ b < p.batch, ρ (CKY.logZ S p lens c b) (CKY.logZ S' p' lens c b) := by
    intro lens c hc b hb
    unfold CKY.logZ CKY.top
    rw [hp.NT, hp.N]
    exact H.dot_range hNT (fun x hx => (H.cfg_charts hp hNT hT c hc _ _ x hx).1) fun x hx => hp.root b hb x hx
  dsimp only
  split_ifs
  any_goals exact RelE.error _
  · exact RelE.ok_range fun b hb => hZ _ b hb b hb
  · exact RelE.ok_range fun b hb => hZ _ 0 hB b hb

end SRP

/-- A dynamic program is parametric: on the images of one table under two maps that are related, in two semirings that are related, it returns related results.
`good`: the tables in which the code never sums over an empty dimension. -/
structure Parametric (A : Algo) (good : ∀ {γ : Type}, A.T γ → Prop) : Prop where
  run : ∀ {α β γ : Type} {S : SR α} {S' : SR β} {ρ : α → β → Prop} (_ : SRP S S' ρ) (p : A.T γ), good p → ∀ (f : γ → α) (g : γ → β), (∀ x, ρ (f x) (g x)) →
    ∀ lengths, RelE ρ (A.run S (A.map f p) lengths) (A.run S' (A.map g p) lengths)
  map_id : ∀ {γ : Type} (p : A.T γ), A.map (fun x => x) p = p

theorem LinearChain.parametric : Parametric LinearChain.algo fun p => 0 < p.d2 where
  run H p hp f g h lengths := H.chain (p := LinearChain.algo.map f p) (p' := LinearChain.algo.map g p) rfl rfl rfl rfl hp (fun _ _ _ _ _ _ _ _ => h _) lengths
  map_id _ := rfl

theorem CKYCRF.parametric : Parametric CKYCRF.algo fun p => 0 < p.d3 ∧ 0 < p.d0 where
  run H p hp f g h lengths := H.tree (p := CKYCRF.algo.map f p) (p' := CKYCRF.algo.map g p) rfl rfl rfl rfl hp.1 (fun _ _ _ _ _ _ _ _ => h _) lengths hp.2
  map_id _ := rfl

theorem SemiMarkov.parametric : Parametric SemiMarkov.algo fun p => 0 < p.d3 where
  run H p hp f g h lengths := H.semi (p := SemiMarkov.algo.map f p) (p' := SemiMarkov.algo.map g p) rfl rfl rfl rfl rfl hp (fun _ _ _ _ _ _ _ _ _ _ => h _) lengths
  map_id _ := rfl

theorem DepTree.parametric (mr : Bool) : Parametric (DepTree.algo mr) fun p => 0 < p.labels where
  run H p hp f g h lengths := H.dep mr (p := (DepTree.algo mr).map f p) (p' := (DepTree.algo mr).map g p) rfl rfl rfl rfl rfl hp (fun _ _ _ _ _ _ _ _ => h _) lengths
  map_id _ := rfl

theorem CKY.parametric : Parametric CKY.algo fun _ => True where
  run H p _ f g h lengths := by
    refine H.cfg (p := CKY.algo.map f p) (p' := CKY.algo.map g p) ⟨rfl, rfl, rfl, rfl, rfl, fun _ _ _ _ _ _ => h _, fun _ _ _ _ _ _ _ _ => h _, fun _ _ _ _ => h _, ?_⟩ lengths
    obtain ⟨batch, N, T, NT, Sz, term, rule, root, mark⟩ := p
    cases mark with
    | none => trivial
    | some m => exact fun _ _ _ _ _ _ => h _
  map_id p := by
    show (⟨p.batch, p.N, p.T, p.NT, p.S, p.term, p.rule, p.root, p.mark.map fun m b w i x => m b w i x⟩ : CKY.Scores _) = p
    obtain ⟨batch, N, T, NT, Sz, term, rule, root, mark⟩ := p
    cases mark <;> rfl
