import Mathlib.Data.Nat.ModEq
import Mathlib.Algebra.BigOperators.Fin
import Mathlib.Algebra.Order.BigOperators.Group.Finset
import Verif.Proofs.Sampling

/-! The backward passes of `SampledSemiring` and `MultiSampledSemiring` on a tape, compared with the recursion `grad`. -/

open Finset

noncomputable section
namespace Sampling

variable {K : Type} [Fintype K] [DecidableEq K] {T : Tape K}

/-- `send` only sends to the nodes that a node reads, and sends 0 when it received 0. -/
structure Local (T : Tape K) (send : K → ℕ → K → ℕ) : Prop where
  child : ∀ k g c, ¬ (T.op k).IsChild c → send k g c = 0

theorem sendOne_local (draw : K → ℕ) : Local T (sendOne T draw) := ⟨fun k g c h => by
  unfold sendOne
  cases hk : T.op k <;> simp only [hk, Op.IsChild] at h ⊢
  · push Not at h; simp [h]
  · push Not at h; simp [h]
  · simp [h]⟩

theorem sendMulti_local (draws : ℕ → K → ℕ) : Local T (sendMulti T draws) := ⟨fun k g c h => by
  unfold sendMulti
  cases hk : T.op k <;> simp only [hk, Op.IsChild] at h ⊢
  · push Not at h; simp [h]
  · push Not at h; simp [h]
  · simp [h]⟩

theorem exists_rank_bound (T : Tape K) : ∃ R, ∀ k, T.rank k < R :=
  ⟨(univ.sup T.rank) + 1, fun k => Nat.lt_succ_of_le (le_sup (f := T.rank) (mem_univ k))⟩

/-- Induction from the nodes created last to the nodes created first. -/
theorem tape_induction (T : Tape K) {motive : K → Prop} (h : ∀ c, (∀ k, (T.op k).IsChild c → motive k) → motive c) (c : K) : motive c := by
  obtain ⟨R, hR⟩ := exists_rank_bound T
  have : ∀ d, ∀ c, R - T.rank c ≤ d → motive c := by
    intro d
    induction d with
    | zero => intro c hc; have := hR c; omega
    | succ d ih =>
      intro c hc
      refine h c fun k hk => ih k ?_
      have := T.lt k c hk
      have := hR k
      omega
  exact this _ c le_rfl

theorem backward_unique {send : K → ℕ → K → ℕ} (hs : Local T send) {obj : K} {G G' : K → ℕ} (h : IsBackward send obj G)
    (h' : IsBackward send obj G') : G = G' := by
  funext c
  induction c using tape_induction T with
  | h c ih =>
    rw [h c, h' c]
    congr 1
    refine sum_congr rfl fun k _ => ?_
    by_cases hk : (T.op k).IsChild c
    · rw [ih k hk]
    · rw [hs.child k _ c hk, hs.child k _ c hk]

/-- The backward pass exists. -/
theorem backward_exists {send : K → ℕ → K → ℕ} (hs : Local T send) (obj : K) : ∃ G, IsBackward send obj G := by
  obtain ⟨R, hR⟩ := exists_rank_bound T
  let G : ℕ → K → ℕ := fun n => Nat.rec (fun _ => 0) (fun _ g c => (if c = obj then 1 else 0) + ∑ k, send k (g k) c) n
  have hG : ∀ n c, G (n + 1) c = (if c = obj then 1 else 0) + ∑ k, send k (G n k) c := fun n c => rfl
  have stable : ∀ n c, R - T.rank c ≤ n → G n c = G (n + 1) c := by
    intro n
    induction n with
    | zero => intro c hc; have := hR c; omega
    | succ n ih =>
      intro c hc
      rw [hG n, hG (n + 1)]
      congr 1
      refine sum_congr rfl fun k _ => ?_
      by_cases hk : (T.op k).IsChild c
      · have h1 := T.lt k c hk
        have h2 := hR k
        rw [ih k (by omega)]
      · rw [hs.child k _ c hk, hs.child k _ c hk]
  exact ⟨G R, fun c => by rw [stable R c (by omega), hG]⟩

/-! ### One sample -/

/-- How often each node is visited. -/
def visits (T : Tape K) (draw : K → ℕ) : Expr → K → K → ℕ
  | .leaf _ _, k => Pi.single k 1
  | .const _, k => Pi.single k 1
  | .mul a b, k => Pi.single k 1 + match T.op k with
    | .add ka kb => visits T draw a ka + visits T draw b kb
    | _ => 0
  | .sum n f, k => Pi.single k 1 + match T.op k with
    | .lse m c => if h : m = n ∧ draw k < n then visits T draw (f ⟨draw k, h.2⟩) (c ⟨draw k, h.1 ▸ h.2⟩) else 0
    | _ => 0
  | .setData x _, k => Pi.single k 1 + match T.op k with
    | .data kx _ => visits T draw x kx
    | _ => 0

theorem visits_mul (draw : K → ℕ) {a b : Expr} {k ka kb : K} (h : T.op k = .add ka kb) :
    visits T draw (.mul a b) k = Pi.single k 1 + (visits T draw a ka + visits T draw b kb) := by
  rw [visits, h]

theorem visits_sum (draw : K → ℕ) {n : ℕ} {f : Fin n → Expr} {k : K} {c : Fin n → K} (h : T.op k = .lse n c) (hd : draw k < n) :
    visits T draw (.sum n f) k = Pi.single k 1 + visits T draw (f ⟨draw k, hd⟩) (c ⟨draw k, hd⟩) := by
  rw [visits, h]; simp [hd]

theorem visits_sum' (draw : K → ℕ) {n : ℕ} {f : Fin n → Expr} {k : K} {c : Fin n → K} (h : T.op k = .lse n c) (hd : ¬ draw k < n) :
    visits T draw (.sum n f) k = Pi.single k 1 := by
  rw [visits, h]; simp [hd]

theorem visits_setData (draw : K → ℕ) {x : Expr} {v w : ℝ} {k kx : K} (h : T.op k = .data kx w) :
    visits T draw (.setData x v) k = Pi.single k 1 + visits T draw x kx := by
  rw [visits, h]

theorem sendOne_add (draw : K → ℕ) (k : K) (g g' : ℕ) (c : K) :
    sendOne T draw k (g + g') c = sendOne T draw k g c + sendOne T draw k g' c := by
  unfold sendOne
  cases T.op k with
  | leaf => rfl
  | const => rfl
  | add a b => simp only; split_ifs <;> omega
  | lse n ch =>
    simp only
    rw [← sum_add_distrib]
    refine sum_congr rfl fun i _ => ?_
    split_ifs <;> ring
  | data x v => simp only; split_ifs <;> omega

theorem sendOne_zero (draw : K → ℕ) (k c : K) : sendOne T draw k 0 c = 0 := by
  have := sendOne_add (T := T) draw k 0 0 c
  simp only [add_zero] at this; omega

/-- What all nodes send to `c`, as a function of the received gradients, is additive. -/
theorem sum_send_add (draw : K → ℕ) (u v : K → ℕ) (c : K) :
    ∑ k, sendOne T draw k ((u + v) k) c = ∑ k, sendOne T draw k (u k) c + ∑ k, sendOne T draw k (v k) c := by
  rw [← sum_add_distrib]
  exact sum_congr rfl fun k _ => sendOne_add draw k _ _ c

theorem sum_send_single (draw : K → ℕ) (k c : K) :
    ∑ k', sendOne T draw k' ((Pi.single k 1 : K → ℕ) k') c = sendOne T draw k 1 c := by
  rw [sum_eq_single k]
  · simp
  · intro k' _ hne; rw [Pi.single_eq_of_ne hne, sendOne_zero]
  · simp

theorem visits_backward (draw : K → ℕ) : ∀ (e : Expr) (k : K), Repr T e k → IsBackward (sendOne T draw) k (visits T draw e k)
  | .leaf v id, k, h, c => by
    rw [visits, sum_send_single, Pi.single_apply]
    simp [sendOne, h.1]
  | .const v, k, h, c => by
    rw [visits, sum_send_single, Pi.single_apply]
    simp [sendOne, h.1]
  | .mul a b, k, h, c => by
    obtain ⟨ka, kb, h1, h2, h3, h4⟩ := h
    have ha := visits_backward draw a ka h2 c
    have hb := visits_backward draw b kb h3 c
    rw [visits_mul draw h1, sum_send_add, sum_send_add, sum_send_single]
    have : sendOne T draw k 1 c = (if c = ka then 1 else 0) + (if c = kb then 1 else 0) := by simp [sendOne, h1]
    rw [this, Pi.add_apply, Pi.add_apply, Pi.single_apply]
    omega
  | .sum n f, k, h, c => by
    obtain ⟨ch, h1, h2, h3⟩ := h
    by_cases hd : draw k < n
    · have hf := visits_backward draw (f ⟨draw k, hd⟩) (ch ⟨draw k, hd⟩) (h2 _) c
      rw [visits_sum draw h1 hd, sum_send_add, sum_send_single]
      have : sendOne T draw k 1 c = if c = ch ⟨draw k, hd⟩ then 1 else 0 := by
        simp only [sendOne, h1]
        rw [sum_eq_single (⟨draw k, hd⟩ : Fin n)]
        · simp
        · intro i _ hi
          have : draw k ≠ i := fun he => hi (Fin.ext he.symm)
          simp [this]
        · simp
      rw [this, Pi.add_apply, Pi.single_apply]
      omega
    · rw [visits_sum' draw h1 hd, sum_send_single, Pi.single_apply]
      have : sendOne T draw k 1 c = 0 := by
        simp only [sendOne, h1]
        refine sum_eq_zero fun i _ => ?_
        have : draw k ≠ i := fun he => hd (he ▸ i.2)
        simp [this]
      omega
  | .setData x v, k, h, c => by
    obtain ⟨kx, h1, h2, h3⟩ := h
    have hx := visits_backward draw x kx h2 c
    rw [visits_setData draw h1, sum_send_add, sum_send_single]
    have : sendOne T draw k 1 c = if c = kx then 1 else 0 := by simp [sendOne, h1]
    rw [this, Pi.add_apply, Pi.single_apply]
    omega

theorem gradAt_add (u v : K → ℕ) (id : List ℕ) : gradAt T (u + v) id = gradAt T u id + gradAt T v id := by
  classical
  unfold gradAt
  rw [← sum_add_distrib]
  refine sum_congr rfl fun k _ => ?_
  split_ifs <;> simp

theorem gradAt_single (k : K) (id : List ℕ) : gradAt T (Pi.single k 1) id = (open Classical in if ∃ v, T.op k = .leaf v id then 1 else 0) := by
  classical
  unfold gradAt
  rw [sum_eq_single k]
  · simp
  · intro k' _ hne; rw [Pi.single_eq_of_ne hne]; simp
  · simp

theorem gradAt_visits (draw : K → ℕ) (id : List ℕ) : ∀ (e : Expr) (k : K), Repr T e k →
    gradAt T (visits T draw e k) id = grad T draw e k id
  | .leaf v i, k, h => by
    classical
    rw [visits, gradAt_single, grad, h.1, Finsupp.single_apply]
    by_cases hi : i = id <;> simp [hi]
  | .const v, k, h => by
    rw [visits, gradAt_single, h.1]; simp [grad]
  | .mul a b, k, h => by
    obtain ⟨ka, kb, h1, h2, h3, h4⟩ := h
    rw [visits_mul draw h1, gradAt_add, gradAt_add, gradAt_single, h1, gradAt_visits draw id a ka h2, gradAt_visits draw id b kb h3, grad_mul draw h1]
    simp
  | .sum n f, k, h => by
    obtain ⟨c, h1, h2, h3⟩ := h
    by_cases hd : draw k < n
    · rw [visits_sum draw h1 hd, gradAt_add, gradAt_single, h1, gradAt_visits draw id _ _ (h2 _), grad_sum draw h1 hd]
      simp
    · rw [visits_sum' draw h1 hd, gradAt_single, h1, grad, h1]
      simp [hd]
  | .setData x v, k, h => by
    obtain ⟨kx, h1, h2, h3⟩ := h
    rw [visits_setData draw h1, gradAt_add, gradAt_single, h1, gradAt_visits draw id x kx h2, grad_setData draw h1]
    simp

/-- The backward pass of `SampledSemiring` computes the sampled event. -/
theorem backward_one (draw : K → ℕ) {e : Expr} {k : K} (h : Repr T e k) {G : K → ℕ} (hG : IsBackward (sendOne T draw) k G) (id : List ℕ) :
    gradAt T G id = grad T draw e k id := by
  rw [backward_unique (sendOne_local draw) hG (visits_backward draw e k h), gradAt_visits draw id e k h]

/-! ### Sixteen samples -/

/-- Some node below is a leaf. -/
inductive Leafy (T : Tape K) : K → Prop
  | leaf {k v id} : T.op k = .leaf v id → Leafy T k
  | step {k c} : (T.op k).IsChild c → Leafy T c → Leafy T k

omit [Fintype K] [DecidableEq K] in
theorem leafy_leaves : ∀ (e : Expr) (k : K), Repr T e k → Leafy T k → e.leaves ≠ ∅
  | .leaf v id, k, _, _ => Set.singleton_ne_empty id
  | .const v, k, h, hl => by
    cases hl with
    | leaf h' => rw [h.1] at h'; cases h'
    | step h' _ => rw [h.1] at h'; cases h'
  | .mul a b, k, h, hl => by
    obtain ⟨ka, kb, h1, h2, h3, h4⟩ := h
    cases hl with
    | leaf h' => rw [h1] at h'; cases h'
    | step h' hc =>
      rw [h1] at h'
      intro he
      have he' := Set.union_empty_iff.1 he
      rcases h' with rfl | rfl
      · exact leafy_leaves a _ h2 hc he'.1
      · exact leafy_leaves b _ h3 hc he'.2
  | .sum n f, k, h, hl => by
    obtain ⟨c, h1, h2, h3⟩ := h
    cases hl with
    | leaf h' => rw [h1] at h'; cases h'
    | step h' hc =>
      rw [h1] at h'
      obtain ⟨i, rfl⟩ := h'
      intro he
      exact leafy_leaves (f i) _ (h2 i) hc (Set.iUnion_eq_empty.1 he i)
  | .setData x v, k, h, hl => by
    obtain ⟨kx, h1, h2, h3⟩ := h
    cases hl with
    | leaf h' => rw [h1] at h'; cases h'
    | step h' hc =>
      rw [h1] at h'
      obtain rfl := h'
      exact leafy_leaves x _ h2 hc

theorem visits_spec (draw : K → ℕ) : ∀ (e : Expr) (k : K), Repr T e k → ∀ κ, visits T draw e k κ ≠ 0 →
    ∃ e', Repr T e' κ ∧ e'.leaves ⊆ e.leaves ∧ e'.size ≤ e.size
  | .leaf v id, k, h, κ, hκ => by
    have : κ = k := by by_contra hne; rw [visits, Pi.single_eq_of_ne hne] at hκ; exact hκ rfl
    exact ⟨.leaf v id, this ▸ h, le_rfl, le_rfl⟩
  | .const v, k, h, κ, hκ => by
    have : κ = k := by by_contra hne; rw [visits, Pi.single_eq_of_ne hne] at hκ; exact hκ rfl
    exact ⟨.const v, this ▸ h, le_rfl, le_rfl⟩
  | .mul a b, k, h, κ, hκ => by
    by_cases hk : κ = k
    · exact ⟨.mul a b, hk ▸ h, le_rfl, le_rfl⟩
    obtain ⟨ka, kb, h1, h2, h3, h4⟩ := h
    rw [visits_mul draw h1, Pi.add_apply, Pi.single_eq_of_ne hk, Pi.add_apply] at hκ
    by_cases ha : visits T draw a ka κ = 0
    · obtain ⟨e', a1, a3, a4⟩ := visits_spec draw b kb h3 κ (by omega)
      exact ⟨e', a1, a3.trans Set.subset_union_right, by rw [Expr.size]; omega⟩
    · obtain ⟨e', a1, a3, a4⟩ := visits_spec draw a ka h2 κ ha
      exact ⟨e', a1, a3.trans Set.subset_union_left, by rw [Expr.size]; omega⟩
  | .sum n f, k, h, κ, hκ => by
    by_cases hk : κ = k
    · exact ⟨.sum n f, hk ▸ h, le_rfl, le_rfl⟩
    obtain ⟨c, h1, h2, h3⟩ := h
    by_cases hd : draw k < n
    · rw [visits_sum draw h1 hd, Pi.add_apply, Pi.single_eq_of_ne hk] at hκ
      obtain ⟨e', a1, a3, a4⟩ := visits_spec draw _ _ (h2 ⟨draw k, hd⟩) κ (by omega)
      refine ⟨e', a1, a3.trans (Set.subset_iUnion (fun i => (f i).leaves) _), ?_⟩
      rw [Expr.size]
      have := single_le_sum (f := fun i => (f i).size) (fun _ _ => Nat.zero_le _) (mem_univ (⟨draw k, hd⟩ : Fin n))
      omega
    · rw [visits_sum' draw h1 hd, Pi.single_eq_of_ne hk] at hκ; exact absurd rfl hκ
  | .setData x v, k, h, κ, hκ => by
    by_cases hk : κ = k
    · exact ⟨.setData x v, hk ▸ h, le_rfl, le_rfl⟩
    obtain ⟨kx, h1, h2, h3⟩ := h
    rw [visits_setData draw h1, Pi.add_apply, Pi.single_eq_of_ne hk] at hκ
    obtain ⟨e', a1, a3, a4⟩ := visits_spec draw x kx h2 κ (by omega)
    exact ⟨e', a1, a3, by rw [Expr.size]; omega⟩

/-- A node is not visited below itself. -/
theorem visits_self (draw : K → ℕ) {e e' : Expr} {k κ : K} (he : Repr T e κ) (he' : Repr T e' k) (hs : e'.size < e.size) :
    visits T draw e' k κ = 0 := by
  by_contra hne
  obtain ⟨e'', r, -, hs'⟩ := visits_spec draw e' k he' κ hne
  obtain rfl := repr_unique _ _ _ he r
  omega

/-- Each sample visits a node that has leaves at most once. -/
theorem visits_le_one (draw : K → ℕ) (c : K) (hc : Leafy T c) : ∀ (e : Expr) (k : K), Repr T e k → e.Lin → visits T draw e k c ≤ 1
  | .leaf v id, k, h, _ => by rw [visits, Pi.single_apply]; split_ifs <;> simp
  | .const v, k, h, _ => by rw [visits, Pi.single_apply]; split_ifs <;> simp
  | .mul a b, k, h, hl => by
    have hrep := h
    obtain ⟨ka, kb, h1, h2, h3, h4⟩ := h
    have ha := visits_le_one draw c hc a ka h2 hl.2.1
    have hb := visits_le_one draw c hc b kb h3 hl.2.2
    rw [visits_mul draw h1, Pi.add_apply, Pi.add_apply, Pi.single_apply]
    split_ifs with hk
    · subst hk
      rw [visits_self draw hrep h2 (by simp only [Expr.size]; omega), visits_self draw hrep h3 (by simp only [Expr.size]; omega)]
    · by_contra hgt
      have hva : visits T draw a ka c ≠ 0 := by omega
      have hvb : visits T draw b kb c ≠ 0 := by omega
      obtain ⟨e1, r1, s1, -⟩ := visits_spec draw a ka h2 c hva
      obtain ⟨e2, r2, s2, -⟩ := visits_spec draw b kb h3 c hvb
      obtain rfl := repr_unique e1 e2 c r1 r2
      obtain ⟨id, hid⟩ := Set.nonempty_iff_ne_empty.2 (leafy_leaves e1 c r1 hc)
      exact Set.disjoint_left.1 hl.1 (s1 hid) (s2 hid)
  | .sum n f, k, h, hl => by
    have hrep := h
    obtain ⟨ch, h1, h2, h3⟩ := h
    by_cases hd : draw k < n
    · have hf := visits_le_one draw c hc _ _ (h2 ⟨draw k, hd⟩) (hl _)
      rw [visits_sum draw h1 hd, Pi.add_apply, Pi.single_apply]
      split_ifs with hk
      · subst hk
        rw [visits_self draw hrep (h2 ⟨draw c, hd⟩) (by
          rw [Expr.size]
          have := single_le_sum (f := fun i => (f i).size) (fun _ _ => Nat.zero_le _) (mem_univ (⟨draw c, hd⟩ : Fin n))
          omega)]
      · omega
    · rw [visits_sum' draw h1 hd, Pi.single_apply]; split_ifs <;> simp
  | .setData x v, k, h, hl => by
    have hrep := h
    obtain ⟨kx, h1, h2, h3⟩ := h
    have hx := visits_le_one draw c hc x kx h2 hl
    rw [visits_setData draw h1, Pi.add_apply, Pi.single_apply]
    split_ifs with hk
    · subst hk
      rw [visits_self draw hrep h2 (by simp only [Expr.size]; omega)]
    · omega

theorem grad_leaves (draw : K → ℕ) (id : List ℕ) : ∀ (e : Expr) (k : K), Repr T e k → id ∉ e.leaves → grad T draw e k id = 0
  | .leaf v i, k, h, hid => by
    rw [grad, Finsupp.single_apply, if_neg]; rintro rfl; exact hid rfl
  | .const v, k, h, hid => rfl
  | .mul a b, k, h, hid => by
    obtain ⟨ka, kb, h1, h2, h3, h4⟩ := h
    rw [grad_mul draw h1, Finsupp.add_apply, grad_leaves draw id a ka h2 fun h => hid (.inl h), grad_leaves draw id b kb h3 fun h => hid (.inr h)]
  | .sum n f, k, h, hid => by
    obtain ⟨c, h1, h2, h3⟩ := h
    by_cases hd : draw k < n
    · rw [grad_sum draw h1 hd]
      exact grad_leaves draw id _ _ (h2 _) fun h => hid (Set.mem_iUnion.2 ⟨_, h⟩)
    · rw [grad, h1]; simp [hd]
  | .setData x v, k, h, hid => by
    obtain ⟨kx, h1, h2, h3⟩ := h
    rw [grad_setData draw h1]; exact grad_leaves draw id x kx h2 hid

theorem grad_le_one (draw : K → ℕ) (id : List ℕ) : ∀ (e : Expr) (k : K), Repr T e k → e.Lin → grad T draw e k id ≤ 1
  | .leaf v i, k, h, _ => by rw [grad, Finsupp.single_apply]; split_ifs <;> simp
  | .const v, k, h, _ => by simp [grad]
  | .mul a b, k, h, hl => by
    obtain ⟨ka, kb, h1, h2, h3, h4⟩ := h
    have ha := grad_le_one draw id a ka h2 hl.2.1
    have hb := grad_le_one draw id b kb h3 hl.2.2
    rw [grad_mul draw h1, Finsupp.add_apply]
    by_cases hid : id ∈ a.leaves
    · rw [grad_leaves draw id b kb h3 (Set.disjoint_left.1 hl.1 hid)]; omega
    · rw [grad_leaves draw id a ka h2 hid]; omega
  | .sum n f, k, h, hl => by
    obtain ⟨c, h1, h2, h3⟩ := h
    by_cases hd : draw k < n
    · rw [grad_sum draw h1 hd]; exact grad_le_one draw id _ _ (h2 _) (hl _)
    · rw [grad, h1]; simp [hd]
  | .setData x v, k, h, hl => by
    obtain ⟨kx, h1, h2, h3⟩ := h
    rw [grad_setData draw h1]; exact grad_le_one draw id x kx h2 hl

/-- Sixteen 0/1 numbers packed into bits 1 to 16. -/
def pack (t : ℕ → ℕ) : ℕ := ∑ i ∈ range 16, bits i * t i

/-- A gradient is *packed*: bits 1 to 16 hold the sixteen samples, or it is a common multiplicity. -/
def Packed (s : ℕ) (t : ℕ → ℕ) : Prop := s = pack t ∨ ∀ i < 16, t i = s

theorem pack_zero {t : ℕ → ℕ} (h : ∀ i < 16, t i = 0) : pack t = 0 :=
  sum_eq_zero fun i hi => by rw [h i (mem_range.1 hi), mul_zero]

/-- Packed contributions add up. -/
theorem packed_sum {ι : Type} [DecidableEq ι] (S : Finset ι) (s : ι → ℕ) (t : ℕ → ι → ℕ) (h : ∀ o ∈ S, Packed (s o) fun i => t i o)
    (hle : ∀ i < 16, ∑ o ∈ S, t i o ≤ 1) : Packed (∑ o ∈ S, s o) fun i => ∑ o ∈ S, t i o := by
  by_cases hall : ∀ o ∈ S, s o = pack fun i => t i o
  · left
    rw [sum_congr rfl hall]
    unfold pack
    rw [sum_comm]
    exact sum_congr rfl fun i _ => by rw [mul_sum]
  · right
    push Not at hall
    obtain ⟨o, ho, hne⟩ := hall
    have hone : ∀ i < 16, t i o = s o := (h o ho).resolve_left hne
    have hs : s o ≠ 0 := by
      intro h0
      apply hne
      rw [pack_zero fun i hi => by rw [hone i hi, h0], h0]
    have hrest : ∀ i < 16, t i o + ∑ o' ∈ S.erase o, t i o' ≤ 1 := by
      intro i hi; rw [add_sum_erase S (fun o => t i o) ho]; exact hle i hi
    have hs1 : s o = 1 := by
      have := hrest 0 (by norm_num); rw [hone 0 (by norm_num)] at this; omega
    have hz : ∀ i < 16, ∀ o' ∈ S.erase o, t i o' = 0 := by
      intro i hi o' ho'
      have h1 := hrest i hi
      rw [hone i hi, hs1] at h1
      have h2 : t i o' ≤ ∑ o' ∈ S.erase o, t i o' := single_le_sum (f := fun o' => t i o') (fun _ _ => Nat.zero_le _) ho'
      omega
    have hsz : ∀ o' ∈ S.erase o, s o' = 0 := by
      intro o' ho'
      rcases h o' (mem_of_mem_erase ho') with hp | hp
      · rw [hp, pack_zero fun i hi => hz i hi o' ho']
      · rw [← hp 0 (by norm_num)]; exact hz 0 (by norm_num) o' ho'
    intro i hi
    beta_reduce
    rw [← add_sum_erase S s ho, sum_eq_zero hsz, ← add_sum_erase S (fun o => t i o) ho, sum_eq_zero (hz i hi), hone i hi]

theorem pack_split (t : ℕ → ℕ) (ht : ∀ i < 16, t i ≤ 1) (j : ℕ) (hj : j < 16) :
    ∃ lo hi, lo < bits j ∧ lo % 2 = 0 ∧ pack t = lo + bits j * t j + bits (j + 1) * hi := by
  have hlo : ∀ j ≤ 16, ∑ i ∈ range j, bits i * t i < bits j ∧ (∑ i ∈ range j, bits i * t i) % 2 = 0 := by
    intro j hj
    induction j with
    | zero => simp [bits]
    | succ j ih =>
      obtain ⟨h1, h2⟩ := ih (by omega)
      rw [sum_range_succ]
      have hb : bits (j + 1) = 2 * bits j := by simp only [bits, pow_succ]; ring
      have hb' : bits j = 2 * 2 ^ j := by simp only [bits, pow_succ]; ring
      have := ht j (by omega)
      constructor
      · have : bits j * t j ≤ bits j * 1 := Nat.mul_le_mul_left _ this
        omega
      · rw [hb', mul_assoc]; omega
  have hhi : ∀ d j, j + d = 16 → ∃ hi, ∑ i ∈ range 16, bits i * t i = ∑ i ∈ range j, bits i * t i + bits j * hi := by
    intro d
    induction d with
    | zero => intro j hj; obtain rfl : j = 16 := by omega
              exact ⟨0, by simp⟩
    | succ d ih =>
      intro j hj
      obtain ⟨hi, h⟩ := ih (j + 1) (by omega)
      refine ⟨t j + 2 * hi, ?_⟩
      rw [h, sum_range_succ]
      have hb : bits (j + 1) = 2 * bits j := by simp only [bits, pow_succ]; ring
      rw [hb]; ring
  obtain ⟨hi, h⟩ := hhi (16 - (j + 1)) (j + 1) (by omega)
  refine ⟨∑ i ∈ range j, bits i * t i, hi, (hlo j (by omega)).1, (hlo j (by omega)).2, ?_⟩
  rw [pack, h, sum_range_succ]

/-- Decoding bit `j` of a packed gradient. -/
theorem onFinal_packed {s : ℕ} {t : ℕ → ℕ} (h : Packed s t) (ht : ∀ i < 16, t i ≤ 1) (j : ℕ) (hj : j < 16) : onFinal s j = 0 ↔ t j = 0 := by
  rcases h with rfl | h
  · obtain ⟨lo, hi, h1, h2, h3⟩ := pack_split t ht j hj
    have hb : bits (j + 1) = 2 * bits j := by simp only [bits, pow_succ]; ring
    have hb' : bits j = 2 * 2 ^ j := by simp only [bits, pow_succ]; ring
    have htj := ht j hj
    have e1 : pack t % bits (j + 1) = lo + bits j * t j := by
      rw [h3, Nat.add_mul_mod_self_left, Nat.mod_eq_of_lt]
      have : bits j * t j ≤ bits j * 1 := Nat.mul_le_mul_left _ htj
      omega
    have e2 : pack t % bits j = lo := by
      rw [h3, hb, show lo + bits j * t j + 2 * bits j * hi = lo + bits j * (t j + 2 * hi) by ring, Nat.add_mul_mod_self_left,
        Nat.mod_eq_of_lt h1]
    have e3 : pack t % 2 = 0 := by
      rw [h3, hb, hb', show lo + 2 * 2 ^ j * t j + 2 * (2 * 2 ^ j) * hi = lo + 2 * (2 ^ j * t j + 2 * 2 ^ j * hi) by ring]
      omega
    unfold onFinal
    rw [e1, e2, e3]
    have hpos : 0 < bits j := by unfold bits; positivity
    constructor
    · intro h0
      have : bits j * t j = 0 := by omega
      rcases Nat.mul_eq_zero.1 this with h | h
      · omega
      · exact h
    · intro h0; rw [h0]; omega
  · have h1 := h j hj
    have h2 := ht j hj
    unfold onFinal
    have : s = 0 ∨ s = 1 := by omega
    rcases this with rfl | rfl
    · simp [h1]
    · rw [h1]
      have : 1 % bits (j + 1) = 1 := Nat.mod_eq_of_lt (by unfold bits; exact Nat.one_lt_two_pow (by omega))
      have : 1 % bits j = 1 := Nat.mod_eq_of_lt (by unfold bits; exact Nat.one_lt_two_pow (by omega))
      omega

theorem packed_scale {s : ℕ} {t : ℕ → ℕ} (h : Packed s t) (p : Prop) [Decidable p] : Packed (if p then s else 0) fun i => if p then t i else 0 := by
  by_cases hp : p
  · simpa only [hp, if_true] using h
  · simp only [hp, if_false]; left; exact (pack_zero fun _ _ => rfl).symm

theorem pack_add (t u : ℕ → ℕ) : pack (fun i => t i + u i) = pack t + pack u := by
  unfold pack
  rw [← sum_add_distrib]
  exact sum_congr rfl fun i _ => mul_add _ _ _

theorem packed_twice {s : ℕ} {t : ℕ → ℕ} (h : Packed s t) (p q : Prop) [Decidable p] [Decidable q] :
    Packed ((if p then s else 0) + (if q then s else 0)) fun i => (if p then t i else 0) + (if q then t i else 0) := by
  rcases h with h | h
  · left
    have key : ∀ (r : Prop) [Decidable r], (if r then s else 0) = pack fun i => if r then t i else 0 := by
      intro r _
      by_cases hr : r
      · simpa only [hr, if_true] using h
      · simp only [hr, if_false]; exact (pack_zero fun _ _ => rfl).symm
    rw [pack_add, ← key p, ← key q]
  · right; intro i hi; simp only [h i hi]

theorem packed_lse {n : ℕ} {g : ℕ} {v : ℕ → ℕ} (h : Packed g v) (hv : ∀ i < 16, v i ≤ 1) (c : K) (ch : Fin n → K) (d : ℕ → ℕ) :
    (∑ x : Fin n, if c = ch x then
      ∑ i ∈ range 16, bits i * (if onFinal g i = 0 then 0 else if d i = x then 1 else 0) else 0) =
    pack fun i => ∑ x : Fin n, if c = ch x then v i * (if d i = x then 1 else 0) else 0 := by
  unfold pack
  simp only [mul_sum]
  rw [sum_comm]
  refine sum_congr rfl fun x _ => ?_
  by_cases hx : c = ch x
  · simp only [hx, if_true]
    refine sum_congr rfl fun i hi => ?_
    have hi := mem_range.1 hi
    have hd := onFinal_packed h hv i hi
    have h1 := hv i hi
    by_cases h0 : onFinal g i = 0
    · rw [if_pos h0, hd.1 h0, zero_mul]
    · have : v i = 1 := by have := mt hd.2 h0; omega
      rw [if_neg h0, this, one_mul]
  · simp only [hx, if_false, mul_zero, sum_const_zero]

/-- What a node sends in the 16-sample pass packs what it sends in the 16 single-sample passes. -/
theorem send_packed (draws : ℕ → K → ℕ) (k c : K) {g : ℕ} {v : ℕ → ℕ} (h : Packed g v) (hv : ∀ i < 16, v i ≤ 1) :
    Packed (sendMulti T draws k g c) fun i => sendOne T (draws i) k (v i) c := by
  unfold sendMulti sendOne
  cases T.op k with
  | leaf => left; exact (pack_zero fun _ _ => rfl).symm
  | const => left; exact (pack_zero fun _ _ => rfl).symm
  | add a b => exact packed_twice h (c = a) (c = b)
  | data x w => exact packed_scale h (c = x)
  | lse n ch => left; exact packed_lse h hv c ch fun i => draws i k

/-- At every node with leaves, the gradient of the 16-sample pass packs the gradients of the 16 single-sample passes. -/
theorem backward_packed (draws : ℕ → K → ℕ) {e : Expr} {obj : K} (h : Repr T e obj) (hl : e.Lin) {G : K → ℕ}
    (hG : IsBackward (sendMulti T draws) obj G) (c : K) (hc : Leafy T c) :
    Packed (G c) fun i => visits T (draws i) e obj c := by
  induction c using tape_induction T with
  | h c ih =>
    have hV := fun i => visits_backward (T := T) (draws i) e obj h c
    have hle := fun i => visits_le_one (T := T) (draws i) c hc e obj h hl
    have e1 : G c = ∑ o : Option K, (Option.elim o (if c = obj then 1 else 0) fun k => sendMulti T draws k (G k) c) := by
      rw [Fintype.sum_option]; exact hG c
    have e2 : ∀ i, visits T (draws i) e obj c =
        ∑ o : Option K, (Option.elim o (if c = obj then 1 else 0) fun k => sendOne T (draws i) k (visits T (draws i) e obj k) c) := by
      intro i; rw [Fintype.sum_option]; exact hV i
    rw [e1]
    have e2' : (fun i => visits T (draws i) e obj c) = fun i => ∑ o : Option K,
        (Option.elim o (if c = obj then 1 else 0) fun k => sendOne T (draws i) k (visits T (draws i) e obj k) c) := funext e2
    rw [e2']
    refine packed_sum univ _ _ (fun o _ => ?_) fun i _ => by rw [← e2 i]; exact hle i
    cases o with
    | none => right; intro i _; rfl
    | some k =>
      by_cases hk : (T.op k).IsChild c
      · have hkl : Leafy T k := .step hk hc
        exact send_packed draws k c (ih k hk hkl) fun i _ => visits_le_one (draws i) k hkl e obj h hl
      · left
        change sendMulti T draws k (G k) c = _
        rw [(sendMulti_local draws).child k _ c hk]
        symm
        exact pack_zero fun i _ => (sendOne_local (draws i)).child k _ c hk

/-- Decoding slot `j` of the 16-sample pass gives the event sampled by the `j`-th draws. -/
theorem backward_multi (draws : ℕ → K → ℕ) {e : Expr} {obj : K} (h : Repr T e obj) (hl : e.Lin) {G : K → ℕ}
    (hG : IsBackward (sendMulti T draws) obj G) (id : List ℕ) (j : ℕ) (hj : j < 16) :
    toDiscrete (gradAt T G id) j = grad T (draws j) e obj id := by
  classical
  have hle := fun i => grad_le_one (T := T) (draws i) id e obj h hl
  have hp : Packed (gradAt T G id) fun i => grad T (draws i) e obj id := by
    have e2 : (fun i => grad T (draws i) e obj id) = fun i => ∑ k, if ∃ v, T.op k = .leaf v id then visits T (draws i) e obj k else 0 := by
      funext i
      rw [← gradAt_visits (draws i) id e obj h]; rfl
    rw [e2]
    refine packed_sum univ _ _ (fun k _ => ?_) fun i _ => ?_
    · by_cases hk : ∃ v, T.op k = .leaf v id
      · simp only [hk, if_true]
        obtain ⟨v, hv⟩ := hk
        exact backward_packed draws h hl hG k (.leaf hv)
      · simp only [hk, if_false]
        left; rw [pack_zero fun _ _ => rfl]
    · have := congrFun e2 i
      rw [← this]; exact hle i
  have := onFinal_packed hp (fun i _ => hle i) j hj
  have h1 := hle j
  unfold toDiscrete
  change (if onFinal (gradAt T G id) j = 0 then 0 else 1) = _
  split_ifs with h0
  · exact (this.1 h0).symm
  · have := mt this.2 h0
    omega

end Sampling
