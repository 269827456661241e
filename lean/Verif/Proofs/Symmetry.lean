import Mathlib.Data.List.Dedup
import Mathlib.Data.List.FinRange
import Mathlib.Data.List.Nodup
import Mathlib.Logic.Equiv.Fin.Basic
import Verif.Proofs.Consistency
import Verif.Spec.Symmetry

/-! Renaming tags, classes, labels and symbols does not change what the dynamic programs compute. -/

open Spec

namespace Symmetry
variable {α : Type} {σ τ : ℕ → ℕ} {n m : ℕ}

theorem lt (h : Renames σ n) {i : ℕ} (hi : i < n) : σ i < n := h.mapsTo hi

theorem inj (h : Renames σ n) {i j : ℕ} (hi : i < n) (hj : j < n) (e : σ i = σ j) : i = j := h.injOn hi hj e

theorem perm_range (h : Renames σ n) : ((List.range n).map σ).Perm (List.range n) := by
  rw [List.perm_ext_iff_of_nodup]
  · intro a
    simp only [List.mem_map, List.mem_range]
    constructor
    · rintro ⟨i, hi, rfl⟩
      exact lt h hi
    · intro ha
      obtain ⟨i, hi, e⟩ := h.surjOn ha
      exact ⟨i, hi, e⟩
  · exact (List.nodup_map_iff_inj_on List.nodup_range).2 fun i hi j hj e => inj h (List.mem_range.1 hi) (List.mem_range.1 hj) e
  · exact List.nodup_range

theorem map_range (h : Renames σ n) (f : ℕ → α) : ((List.range n).map fun i => f (σ i)).Perm ((List.range n).map f) := by
  have := (perm_range h).map f
  rwa [List.map_map] at this

/-- The renaming as a permutation of `Fin n`. -/
noncomputable def perm (h : Renames σ n) : Equiv.Perm (Fin n) :=
  Equiv.ofBijective (fun i => ⟨σ i, lt h i.2⟩) (Finite.injective_iff_bijective.1 fun i j e => Fin.ext (inj h i.2 j.2 (Fin.mk.inj e)))

@[simp] theorem perm_val (h : Renames σ n) (i : Fin n) : ((perm h i : Fin n) : ℕ) = σ i := rfl

theorem sum_ofFn {S : SR α} (H : OrderFree S) (e : Equiv.Perm (Fin n)) (f : Fin n → α) : S.sum (List.ofFn fun i => f (e i)) = S.sum (List.ofFn f) :=
  H _ _ (Equiv.Perm.ofFn_comp_perm e f)

/-! ### The scan -/

theorem matmul_perm {S : SR α} (H : OrderFree S) (e : Equiv.Perm (Fin n)) (a b a' b' : Fin n → Fin n → α) (ha : ∀ i j, a' i j = a (e i) (e j))
    (hb : ∀ i j, b' i j = b (e i) (e j)) (i j : Fin n) : S.matmul a' b' i j = S.matmul a b (e i) (e j) := by
  unfold SR.matmul
  simp only [ha, hb]
  exact sum_ofFn H e fun k => S.mul (a (e i) k) (b k (e j))

theorem scan_perm {S : SR α} (H : OrderFree S) (e : Equiv.Perm (Fin n)) : ∀ (k : ℕ) (c c' : ℕ → Fin n → Fin n → α),
    (∀ m i j, c' m i j = c m (e i) (e j)) → ∀ m i j, LinearChain.scan S k c' m i j = LinearChain.scan S k c m (e i) (e j)
  | 0, c, c', h => h
  | k + 1, c, c', h => scan_perm H e k _ _ fun m => matmul_perm H e _ _ _ _ (h _) (h _)

theorem total_perm {S : SR α} (H : OrderFree S) (e : Equiv.Perm (Fin n)) (x x' : Fin n → Fin n → α) (h : ∀ i j, x' i j = x (e i) (e j)) :
    LinearChain.total S x' = LinearChain.total S x := by
  unfold LinearChain.total
  simp only [h]
  simp only [fun i => sum_ofFn H e (x (e i))]
  exact sum_ofFn H e fun i => S.sum (List.ofFn (x i))

theorem chain (S : SR α) (H : OrderFree S) (p : T4 α) (lengths : Option (List ℕ)) (h : Renames σ p.d2) :
    LinearChain.logpartition S (renameTags σ p) lengths = LinearChain.logpartition S p lengths := by
  have key : ∀ (N k : ℕ) (lens : ℕ → ℕ) (b : ℕ), LinearChain.core S (C := p.d2) N k lens (fun b n i j => p.get b n (σ i) (σ j)) b =
      LinearChain.core S (C := p.d2) N k lens (fun b n i j => p.get b n i j) b := by
    intro N k lens b
    unfold LinearChain.core
    refine total_perm H (perm h) _ _ fun i j => scan_perm H (perm h) k _ _ (fun m i j => ?_) 0 i j
    simp only [LinearChain.masked, Struct.unflat, Struct.flat, LinearChain.chartInit, LinearChain.big, EmbeddingLike.apply_eq_iff_eq, perm_val]
  simp only [LinearChain.logpartition, renameTags, key]
  rfl

/-! ### Segmentations -/

/-- The renaming of the classes, on pairs (remaining length, class). -/
noncomputable def statePerm (K : ℕ) (h : Renames σ n) : Equiv.Perm (Fin (K * n)) :=
  finProdFinEquiv.symm.trans ((Equiv.prodCongr (Equiv.refl _) (perm h)).trans finProdFinEquiv)

theorem statePerm_div (K : ℕ) (h : Renames σ n) (i : Fin (K * n)) : (statePerm K h i).divNat = i.divNat := by
  have := congrArg Prod.fst (finProdFinEquiv.symm_apply_apply (i.divNat, perm h i.modNat))
  exact this

theorem statePerm_mod (K : ℕ) (h : Renames σ n) (i : Fin (K * n)) : ((statePerm K h i).modNat : ℕ) = σ i.modNat := by
  have := congrArg Prod.snd (finProdFinEquiv.symm_apply_apply (i.divNat, perm h i.modNat))
  exact congrArg Fin.val this

theorem segmentation (S : SR α) (H : OrderFree S) (p : T5 α) (lengths : Option (List ℕ)) (h : Renames σ p.d3) :
    SemiMarkov.logpartition S (renameClasses σ p) lengths = SemiMarkov.logpartition S p lengths := by
  have key : ∀ (K : ℕ) (hK : 0 < K) (N k : ℕ) (lens : ℕ → ℕ) (b : ℕ), SemiMarkov.core S p.d3 hK N k lens (fun b n k i j => p.get b n k (σ i) (σ j)) b =
      SemiMarkov.core S p.d3 hK N k lens p.get b := by
    intro K hK N k lens b
    unfold SemiMarkov.core
    have hs : ∀ m i j, LinearChain.scan S k (SemiMarkov.chart S K p.d3 N (2 ^ k) lens (fun b n k i j => p.get b n k (σ i) (σ j)) b) m i j =
        LinearChain.scan S k (SemiMarkov.chart S K p.d3 N (2 ^ k) lens p.get b) m (statePerm K h i) (statePerm K h j) := by
      refine scan_perm H (statePerm K h) k _ _ fun m i j => ?_
      have e : ((i.modNat : ℕ) = j.modNat) ↔ (σ i.modNat = σ j.modNat) := ⟨fun e => by rw [e], fun e => inj h i.modNat.2 j.modNat.2 e⟩
      simp only [SemiMarkov.chart, SemiMarkov.decremented, SemiMarkov.written, Struct.unflat, Struct.flat, SemiMarkov.chartInit, SemiMarkov.big,
        statePerm_div, statePerm_mod, e]
    unfold SemiMarkov.total
    simp only [hs]
    have hst : ∀ c : Fin p.d3, statePerm K h ⟨c, Nat.lt_of_lt_of_le c.2 (Nat.le_mul_of_pos_left p.d3 hK)⟩ =
        ⟨perm h c, Nat.lt_of_lt_of_le (perm h c).2 (Nat.le_mul_of_pos_left p.d3 hK)⟩ := by
      intro c
      have hc : (⟨c, Nat.lt_of_lt_of_le c.2 (Nat.le_mul_of_pos_left p.d3 hK)⟩ : Fin (K * p.d3)) = finProdFinEquiv (⟨0, hK⟩, c) :=
        Fin.ext (by simp [finProdFinEquiv])
      have hc' : (⟨perm h c, Nat.lt_of_lt_of_le (perm h c).2 (Nat.le_mul_of_pos_left p.d3 hK)⟩ : Fin (K * p.d3)) = finProdFinEquiv (⟨0, hK⟩, perm h c) :=
        Fin.ext (by simp [finProdFinEquiv])
      rw [hc, hc', statePerm]
      simp
    simp only [hst]
    refine Eq.trans ?_ (sum_ofFn H (perm h) _)
    refine congrArg S.sum (congrArg List.ofFn (funext fun i => ?_))
    exact sum_ofFn H (perm h) fun j => LinearChain.scan S k (SemiMarkov.chart S K p.d3 N (2 ^ k) lens p.get b) 0
      ⟨perm h i, Nat.lt_of_lt_of_le (perm h i).2 (Nat.le_mul_of_pos_left p.d3 hK)⟩ ⟨j, Nat.lt_of_lt_of_le j.2 (Nat.le_mul_of_pos_left p.d3 hK)⟩
  simp only [SemiMarkov.logpartition, renameClasses, key]
  rfl

/-! ### Trees -/

theorem tree (S : SR α) (H : OrderFree S) (p : T4 α) (lengths : Option (List ℕ)) (h : Renames σ p.d3) :
    CKYCRF.logpartition S (renameSpans σ p) lengths = CKYCRF.logpartition S p lengths := by
  have key : CKYCRF.reduced S (renameSpans σ p) = CKYCRF.reduced S p := by
    funext b i j
    exact H _ _ (map_range h fun a => p.get b i j a)
  simp only [CKYCRF.logpartition, key]
  rfl

theorem arcs_table (S : SR α) (H : OrderFree S) (q : DepTree.Arcs α) (lens : List ℕ) (h : Renames σ q.d3) (hl : q.labeled) :
    DepTree.arcScores S (renameArcs σ q) lens = DepTree.arcScores S q lens := by
  funext b i j
  exact (if_pos hl).trans ((H _ _ (map_range h (DepTree.masked S q lens b i j))).trans (if_pos hl).symm)

theorem arcs_run (S : SR α) (H : OrderFree S) (multiroot : Bool) (q : DepTree.Arcs α) (lengths : Option (List ℕ)) (h : Renames σ q.d3) (hl : q.labeled) :
    DepTree.logpartition multiroot S (renameArcs σ q) lengths = DepTree.logpartition multiroot S q lengths := by
  simp only [DepTree.logpartition, fun lens => arcs_table S H q lens h hl]
  rfl

theorem convert_rename (neg : α) (q : DepTree.Arcs α) : DepTree.convert neg (renameArcs σ q) = (DepTree.convert neg q).map (renameArcs σ) := by
  unfold DepTree.convert
  show (if q.rank ≠ 3 ∧ q.rank ≠ 4 then _ else if q.d2 < q.d1 then _ else if q.d1 < q.d2 then if q.d1 = 1 then _ else _ else _) = _
  by_cases h1 : q.rank ≠ 3 ∧ q.rank ≠ 4
  · rw [if_pos h1, if_pos h1]; rfl
  rw [if_neg h1, if_neg h1]
  by_cases h2 : q.d2 < q.d1
  · rw [if_pos h2, if_pos h2]; rfl
  rw [if_neg h2, if_neg h2]
  by_cases h3 : q.d1 < q.d2
  · rw [if_pos h3, if_pos h3]
    by_cases h4 : q.d1 = 1
    · rw [if_pos h4]; rfl
    · rw [if_neg h4]; rfl
  rw [if_neg h3, if_neg h3]
  rfl

theorem convert_shape (neg : α) (q p : DepTree.Arcs α) (h : DepTree.convert neg q = .ok p) : p.rank = q.rank ∧ p.d0 = q.d0 ∧ p.d3 = q.d3 := by
  unfold DepTree.convert at h
  split_ifs at h
  cases h
  exact ⟨rfl, rfl, rfl⟩

/-- Renaming commutes with everything that is done to the converted table. -/
theorem convert_then {β : Type} (neg : α) (q : DepTree.Arcs α) (f g : DepTree.Arcs α → Except PyErr β)
    (hfg : ∀ p, p.rank = q.rank → p.d0 = q.d0 → p.d3 = q.d3 → f (renameArcs σ p) = g p) :
    (DepTree.convert neg (renameArcs σ q) >>= f) = (DepTree.convert neg q >>= g) := by
  rw [convert_rename]
  cases hc : DepTree.convert neg q with
  | error e => rfl
  | ok p => exact hfg p (convert_shape neg q p hc).1 (convert_shape neg q p hc).2.1 (convert_shape neg q p hc).2.2

/-! ### Grammars -/

theorem mem_pairs {m n : ℕ} (y z : ℕ) : (y, z) ∈ CKY.pairs m n ↔ y < m ∧ z < n := by
  simp only [CKY.pairs, List.mem_flatMap, List.mem_map, List.mem_range, Prod.mk.injEq]
  constructor
  · rintro ⟨y', hy, z', hz, rfl, rfl⟩
    exact ⟨hy, hz⟩
  · rintro ⟨hy, hz⟩
    exact ⟨y, hy, z, hz, rfl, rfl⟩

theorem nodup_pairs (m n : ℕ) : (CKY.pairs m n).Nodup := by
  unfold CKY.pairs
  rw [List.nodup_flatMap]
  refine ⟨fun y _ => (List.nodup_map_iff_inj_on List.nodup_range).2 fun a _ b _ e => (Prod.mk.inj e).2, ?_⟩
  refine List.nodup_range.imp fun {a b} hab => ?_
  intro x h1 h2
  simp only [List.mem_map] at h1 h2
  obtain ⟨z1, _, e1⟩ := h1
  obtain ⟨z2, _, e2⟩ := h2
  rw [← e2] at e1
  exact hab (Prod.mk.inj e1).1

theorem perm_pairs (hs : Renames σ m) (ht : Renames τ n) : ((CKY.pairs m n).map fun x => (σ x.1, τ x.2)).Perm (CKY.pairs m n) := by
  rw [List.perm_ext_iff_of_nodup]
  · rintro ⟨a, b⟩
    simp only [List.mem_map, Prod.exists, mem_pairs, Prod.mk.injEq]
    constructor
    · rintro ⟨y, z, ⟨hy, hz⟩, rfl, rfl⟩
      exact ⟨lt hs hy, lt ht hz⟩
    · rintro ⟨ha, hb⟩
      obtain ⟨y, hy, rfl⟩ := hs.surjOn ha
      obtain ⟨z, hz, rfl⟩ := ht.surjOn hb
      exact ⟨y, z, ⟨hy, hz⟩, rfl, rfl⟩
  · refine (List.nodup_map_iff_inj_on (nodup_pairs m n)).2 ?_
    rintro ⟨a, b⟩ h1 ⟨c, d⟩ h2 e
    rw [mem_pairs] at h1 h2
    rw [inj hs h1.1 h2.1 (Prod.mk.inj e).1, inj ht h1.2 h2.2 (Prod.mk.inj e).2]
  · exact nodup_pairs m n

theorem block_perm {S : SR α} (H : OrderFree S) (hs : Renames σ m) (ht : Renames τ n) {M M' rule rule' : ℕ → ℕ → α} {oy oz : ℕ}
    (hM : ∀ y < m, ∀ z < n, M' y z = M (σ y) (τ z)) (hr : ∀ y < m, ∀ z < n, rule' (oy + y) (oz + z) = rule (oy + σ y) (oz + τ z)) :
    CKY.block S m n M' rule' oy oz = CKY.block S m n M rule oy oz := by
  unfold CKY.block
  have e : (CKY.pairs m n).map (fun yz => S.mul (M' yz.1 yz.2) (rule' (oy + yz.1) (oz + yz.2))) =
      (((CKY.pairs m n).map fun x => (σ x.1, τ x.2)).map fun yz => S.mul (M yz.1 yz.2) (rule (oy + yz.1) (oz + yz.2))) := by
    rw [List.map_map]
    refine List.map_congr_left ?_
    rintro ⟨y, z⟩ hyz
    rw [mem_pairs] at hyz
    simp only [Function.comp_apply]
    rw [hM y hyz.1 z hyz.2, hr y hyz.1 z hyz.2]
  rw [e]
  exact H _ _ ((perm_pairs hs ht).map _)

/-- The charts of the renamed grammar. -/
def Moved (σ : ℕ → ℕ) (NT : ℕ) (st st' : CKY.Charts α) : Prop :=
  (∀ b i v, ∀ X < NT, st'.1 b i v X = st.1 b i v (σ X)) ∧ ∀ b i v, ∀ X < NT, st'.2 b i v X = st.2 b i v (σ X)

theorem symbol_nt (NT : ℕ) {y : ℕ} (hy : y < NT) : renameSymbol NT σ τ (0 + y) = 0 + σ y := by
  rw [Nat.zero_add, Nat.zero_add, renameSymbol, if_pos hy]

theorem symbol_t (NT t : ℕ) : renameSymbol NT σ τ (NT + t) = NT + τ t := by
  rw [renameSymbol, if_neg (by omega), Nat.add_sub_cancel_left]

theorem span_moved {S : SR α} (H : OrderFree S) (p : CKY.Scores α) (hs : Renames σ p.NT) (ht : Renames τ p.T) {st st' : CKY.Charts α}
    (h : Moved σ p.NT st st') (w b i X : ℕ) : CKY.spanOf S (renameGrammar σ τ p) st' w b i X = CKY.spanOf S p st w b i (σ X) := by
  have h1 : CKY.x1 S (renameGrammar σ τ p) st' w b i X = CKY.x1 S p st w b i (σ X) := by
    refine block_perm H hs hs (fun y hy z hz => ?_) fun y hy z hz => ?_
    · simp only [CKY.split, h.1 _ _ _ y hy, h.2 _ _ _ z hz]; rfl
    · simp only [renameGrammar, symbol_nt p.NT hy, symbol_nt p.NT hz]
  have h2 : CKY.x2 S (renameGrammar σ τ p) st' w b i X = CKY.x2 S p st w b i (σ X) := by
    refine block_perm H hs ht (fun y hy z hz => ?_) fun y hy z hz => ?_
    · simp only [h.1 _ _ _ y hy]; rfl
    · simp only [renameGrammar, symbol_nt p.NT hy, symbol_t p.NT]
  have h3 : CKY.x3 S (renameGrammar σ τ p) st' w b i X = CKY.x3 S p st w b i (σ X) := by
    refine block_perm H ht hs (fun y hy z hz => ?_) fun y hy z hz => ?_
    · simp only [h.2 _ _ _ z hz]; rfl
    · simp only [renameGrammar, symbol_nt p.NT hz, symbol_t p.NT]
  have h4 : CKY.x4 S (renameGrammar σ τ p) w b i X = CKY.x4 S p w b i (σ X) := by
    refine block_perm H ht ht (fun y hy z hz => rfl) fun y hy z hz => ?_
    simp only [renameGrammar, symbol_t p.NT]
  unfold CKY.spanOf
  rw [h1, h2, h3, h4]

theorem touch_moved (S : SR α) (p : CKY.Scores α) (w b i X : ℕ) (v : α) : CKY.touch S (renameGrammar σ τ p) w b i X v = CKY.touch S p w b i (σ X) v := by
  unfold CKY.touch renameGrammar
  cases p.mark <;> rfl

theorem charts_moved {S : SR α} (H : OrderFree S) (p : CKY.Scores α) (hs : Renames σ p.NT) (ht : Renames τ p.T) :
    Moved σ p.NT (CKY.charts S p) (CKY.charts S (renameGrammar σ τ p)) := by
  have key : ∀ (l : List ℕ) (st st' : CKY.Charts α), Moved σ p.NT st st' → Moved σ p.NT (l.foldl (fun st w => CKY.step S p st (w + 1)) st)
      (l.foldl (fun st w => CKY.step S (renameGrammar σ τ p) st (w + 1)) st') := by
    intro l
    induction l with
    | nil => intro st st' h; exact h
    | cons w l ih =>
      intro st st' h
      refine ih _ _ ⟨fun b i v X hX => ?_, fun b i v X hX => ?_⟩
      · simp only [CKY.step, touch_moved, span_moved H p hs ht h, h.1 _ _ _ X hX]; rfl
      · simp only [CKY.step, touch_moved, span_moved H p hs ht h, h.2 _ _ _ X hX]; rfl
  exact key _ _ _ ⟨fun _ _ _ _ _ => rfl, fun _ _ _ _ _ => rfl⟩

theorem grammar (S : SR α) (H : OrderFree S) (p : CKY.Scores α) (lengths : Option (List ℕ)) (hs : Renames σ p.NT) (ht : Renames τ p.T) :
    CKY.logpartition S (renameGrammar σ τ p) lengths = CKY.logpartition S p lengths := by
  have key : ∀ lens c b, CKY.logZ S (renameGrammar σ τ p) lens c b = CKY.logZ S p lens c b := by
    intro lens c b
    unfold CKY.logZ SR.dot
    rw [List.zipWith_map, List.zipWith_map, List.zipWith_self, List.zipWith_self]
    have e : (List.range (renameGrammar σ τ p).NT).map (fun X => S.mul (CKY.top S (renameGrammar σ τ p) lens c X) ((renameGrammar σ τ p).root b X)) =
        (List.range p.NT).map fun X => S.mul (CKY.top S p lens c (σ X)) (p.root b (σ X)) := by
      refine List.map_congr_left fun X hX => ?_
      have := (charts_moved H p hs ht).1 c 0 (CKYCRF.lastIndex p.N (lens.getD c 0)) X (List.mem_range.1 hX)
      exact congrArg (fun x => S.mul x (p.root b (σ X))) this
    rw [e]
    exact H _ _ (map_range hs fun X => S.mul (CKY.top S p lens c X) (p.root b X))
  simp only [CKY.logpartition, key]
  rfl

/-! ### The semirings of the library -/

open Semirings

theorem orderFree_std (R : Type) [Semiring R] : OrderFree (std R) := fun _ _ h => h.sum_eq

theorem lse_perm {l l' : List ℝ} (h : l.Perm l') : lse l = lse l' := congrArg Real.log (h.map Real.exp).sum_eq

theorem orderFree_log (z : ℝ) : OrderFree (logZ z) := fun _ _ h => lse_perm h

theorem orderFree_logE (z : EReal) : OrderFree (logE z) := fun _ _ h => congrArg ENNReal.log (h.map EReal.exp).sum_eq

theorem orderFree_max : OrderFree Semirings.max := by
  intro l l' h
  rcases l with _ | ⟨x, xs⟩
  · rw [List.nil_perm.1 h]
  · have hl' : l' ≠ [] := by rintro rfl; exact absurd h (by simp)
    refine le_antisymm ?_ ?_
    · exact (Bag.listMax_spec _ hl').2 _ (h.mem_iff.1 (Bag.listMax_spec _ (by simp)).1)
    · exact (Bag.listMax_spec (x :: xs) (by simp)).2 _ (h.mem_iff.2 (Bag.listMax_spec _ hl').1)

theorem topk_perm (k : ℕ) {l l' : List ℝ} (h : l.Perm l') : topk k l = topk k l' := by
  unfold topk
  refine congrArg (List.take k) (List.Perm.eq_of_pairwise (fun a b _ _ h1 h2 => le_antisymm h2 h1) (List.pairwise_insertionSort _ _) (List.pairwise_insertionSort _ _) ?_)
  exact ((List.perm_insertionSort _ l).trans h).trans (List.perm_insertionSort _ l').symm

theorem orderFree_kmax (k : ℕ) : OrderFree (Semirings.kmax k) := fun _ _ h => topk_perm k h.flatten

theorem orderFree_entropy (z : ℝ) : OrderFree (entropyZ z) := by
  intro l l' h
  show (_, _) = (_, _)
  rw [lse_perm (h.map Prod.fst)]
  exact Prod.ext rfl (h.map _).sum_eq

theorem orderFree_crossEntropy (z : ℝ) : OrderFree (crossEntropyZ z) := by
  intro l l' h
  show (_, _, _) = (_, _, _)
  rw [lse_perm (h.map fun x => x.1), lse_perm (h.map fun x => x.2.1)]
  exact Prod.ext rfl (Prod.ext rfl (h.map _).sum_eq)

theorem orderFree_kl (z : ℝ) : OrderFree (klZ z) := by
  intro l l' h
  show (_, _, _) = (_, _, _)
  rw [lse_perm (h.map fun x => x.1), lse_perm (h.map fun x => x.2.1)]
  exact Prod.ext rfl (Prod.ext rfl (h.map _).sum_eq)

theorem orderFree_grad {E : Type} (z : ℝ) : OrderFree (Autograd.logZ (E := E) z) := by
  intro l l' h
  show (_, _) = (_, _)
  rw [lse_perm (h.map Prod.fst)]
  exact Prod.ext rfl (h.map _).sum_eq

/-! ### Gradients -/

/-- Two gradients that agree, one at entry `e` and the other at entry `e'`. -/
def At {E : Type} (e e' : E) (a b : Autograd.Grad E) : Prop := b.1 = a.1 ∧ b.2 e = a.2 e'

theorem at_log {E : Type} (e e' : E) (z : ℝ) : SRP (Autograd.logZ z) (Autograd.logZ z) (At e e') where
  zero := ⟨rfl, rfl⟩
  one := ⟨rfl, rfl⟩
  raw0 := ⟨rfl, rfl⟩
  mul := by
    rintro a b x y ⟨h1, h2⟩ ⟨g1, g2⟩
    exact ⟨congrArg₂ (· + ·) h1 g1, congrArg₂ (· + ·) h2 g2⟩
  sum := by
    intro as xs hne h
    clear hne
    have e1 : xs.map Prod.fst = as.map Prod.fst := (Consistency.forall₂_pull h fun a b h => h.1.symm).symm
    refine ⟨congrArg lse e1, ?_⟩
    show (xs.map fun x => Real.exp (x.1 - lse (xs.map Prod.fst)) • x.2).sum e = (as.map fun x => Real.exp (x.1 - lse (as.map Prod.fst)) • x.2).sum e'
    rw [e1]
    generalize lse (as.map Prod.fst) = P
    clear e1
    induction h with
    | nil => rfl
    | cons h _ ih =>
      simp only [List.map_cons, List.sum_cons, Pi.add_apply, Pi.smul_apply, smul_eq_mul, ih, h.1, h.2]
  detach := fun h => ⟨h.1, rfl⟩
  setData := fun h g => ⟨g.1, h.2⟩

theorem at_leaf {E : Type} [DecidableEq E] (v : ℝ) {e e' k k' : E} (h : k = e ↔ k' = e') : At e e' (Autograd.leaf v k') (Autograd.leaf v k) := by
  refine ⟨rfl, ?_⟩
  simp only [Autograd.leaf, Pi.single_apply]
  by_cases hk : k = e
  · rw [if_pos hk.symm, if_pos (h.1 hk).symm]
  · rw [if_neg (Ne.symm hk), if_neg fun c => hk (h.2 c.symm)]

theorem at_result {E : Type} {e e' : E} {x y : Except PyErr (List (Autograd.Grad E))} (H : RelE (At e e') x y) :
    (y.map Dist.gradOfSum).map (fun g => g e) = (x.map Dist.gradOfSum).map fun g => g e' := by
  rcases x with c | as <;> rcases y with c' | bs
  · exact congrArg Except.error (show c = c' from H).symm
  · exact H.elim
  · exact H.elim
  · refine congrArg Except.ok ?_
    have H' : List.Forall₂ (At e e') as bs := H
    clear H
    show (bs.map Prod.snd).sum e = (as.map Prod.snd).sum e'
    induction H' with
    | nil => rfl
    | cons h _ ih => simp only [List.map_cons, List.sum_cons, Pi.add_apply, h.2, ih]

theorem chain_marginals (p : T4 ℝ) (lengths : Option (List ℕ)) (hsq : p.d2 = p.d3) (h : Renames σ p.d2) (b n : ℕ) {i j : ℕ} (hi : i < p.d2) (hj : j < p.d2) :
    (Dist.marginals LinearChain.algo (renameTags σ p) lengths).map (fun g => g [b, n, i, j]) =
      (Dist.marginals LinearChain.algo p lengths).map fun g => g [b, n, σ i, σ j] := by
  have h1 := chain (Autograd.logZ negInf) (orderFree_grad negInf) (Dist.leaves LinearChain.algo p) lengths h
  have h2 := (at_log [b, n, i, j] [b, n, σ i, σ j] negInf).chain (p := renameTags σ (Dist.leaves LinearChain.algo p))
    (p' := Dist.leaves LinearChain.algo (renameTags σ p)) rfl rfl rfl rfl (Nat.zero_lt_of_lt hi) (fun b' _ n' _ i' hi' j' hj' => at_leaf _ (by
      show [b', n', i', j'] = [b, n, i, j] ↔ [b', n', σ i', σ j'] = [b, n, σ i, σ j]
      simp only [List.cons.injEq, and_true]
      refine and_congr_right fun _ => and_congr_right fun _ => and_congr ⟨fun e => by rw [e], fun e => inj h hi' hi e⟩ ⟨fun e => by rw [e], fun e => inj h ?_ hj e⟩
      exact hsq ▸ hj')) lengths
  rw [h1] at h2
  exact at_result h2

theorem segmentation_marginals (p : T5 ℝ) (lengths : Option (List ℕ)) (hsq : p.d3 = p.d4) (h : Renames σ p.d3) (b n k : ℕ) {i j : ℕ} (hi : i < p.d3) (hj : j < p.d3) :
    (Dist.marginals SemiMarkov.algo (renameClasses σ p) lengths).map (fun g => g [b, n, k, i, j]) =
      (Dist.marginals SemiMarkov.algo p lengths).map fun g => g [b, n, k, σ i, σ j] := by
  have h1 := segmentation (Autograd.logZ negInf) (orderFree_grad negInf) (Dist.leaves SemiMarkov.algo p) lengths h
  have h2 := (at_log [b, n, k, i, j] [b, n, k, σ i, σ j] negInf).semi (p := renameClasses σ (Dist.leaves SemiMarkov.algo p))
    (p' := Dist.leaves SemiMarkov.algo (renameClasses σ p)) rfl rfl rfl rfl rfl (Nat.zero_lt_of_lt hi) (fun b' _ n' _ k' _ i' hi' j' hj' => at_leaf _ (by
      show [b', n', k', i', j'] = [b, n, k, i, j] ↔ [b', n', k', σ i', σ j'] = [b, n, k, σ i, σ j]
      simp only [List.cons.injEq, and_true]
      refine and_congr_right fun _ => and_congr_right fun _ => and_congr_right fun _ =>
        and_congr ⟨fun e => by rw [e], fun e => inj h hi' hi e⟩ ⟨fun e => by rw [e], fun e => inj h ?_ hj e⟩
      exact hsq ▸ hj')) lengths
  rw [h1] at h2
  exact at_result h2

theorem tree_marginals (p : T4 ℝ) (lengths : Option (List ℕ)) (hB : 0 < p.d0) (h : Renames σ p.d3) (b i j : ℕ) {a : ℕ} (ha : a < p.d3) :
    (Dist.marginals CKYCRF.algo (renameSpans σ p) lengths).map (fun g => g [b, i, j, a]) =
      (Dist.marginals CKYCRF.algo p lengths).map fun g => g [b, i, j, σ a] := by
  have h1 := tree (Autograd.logZ negInf) (orderFree_grad negInf) (Dist.leaves CKYCRF.algo p) lengths h
  have h2 := (at_log [b, i, j, a] [b, i, j, σ a] negInf).tree (p := renameSpans σ (Dist.leaves CKYCRF.algo p))
    (p' := Dist.leaves CKYCRF.algo (renameSpans σ p)) rfl rfl rfl rfl (Nat.zero_lt_of_lt ha) (fun b' _ i' _ j' _ a' ha' => at_leaf _ (by
      show [b', i', j', a'] = [b, i, j, a] ↔ [b', i', j', σ a'] = [b, i, j, σ a]
      simp only [List.cons.injEq, and_true]
      exact and_congr_right fun _ => and_congr_right fun _ => and_congr_right fun _ => ⟨fun e => by rw [e], fun e => inj h ha' ha e⟩)) lengths hB
  rw [h1] at h2
  exact at_result h2

theorem tag_rename (hσ : Renames σ n) (b i j : ℕ) {l : ℕ} (hl : l < n) (b' h m : ℕ) {l' : ℕ} (hl' : l' < n) :
    DepTree.tag true b' h m l' = [b, i, j, l] ↔ DepTree.tag true b' h m (σ l') = [b, i, j, σ l] := by
  have e : l' = l ↔ σ l' = σ l := ⟨fun e => by rw [e], fun e => inj hσ hl' hl e⟩
  unfold DepTree.tag
  split_ifs <;> simp [e]

theorem arcs_marginals (multiroot : Bool) (q : DepTree.Arcs ℝ) (lengths : Option (List ℕ)) (hlab : q.labeled) (h : Renames σ q.d3) (b i j : ℕ) {l : ℕ} (hl : l < q.d3) :
    (DepTree.marginals multiroot (renameArcs σ q) lengths).map (fun g => g [b, i, j, l]) =
      (DepTree.marginals multiroot q lengths).map fun g => g [b, i, j, σ l] := by
  have key : ∀ p : DepTree.Arcs ℝ, p.rank = q.rank → p.d3 = q.d3 →
      (Dist.marginals (DepTree.algo multiroot) (renameArcs σ p) lengths).map (fun g => g [b, i, j, l]) =
      (Dist.marginals (DepTree.algo multiroot) p lengths).map fun g => g [b, i, j, σ l] := by
    intro p hr h3
    have hlab' : p.labeled := hr.trans hlab
    have h1 := arcs_run (Autograd.logZ negInf) (orderFree_grad negInf) multiroot (Dist.leaves (DepTree.algo multiroot) p) lengths (h3 ▸ h) hlab'
    have hlb : p.labels = p.d3 := if_pos hlab'
    have h2 := (at_log [b, i, j, l] [b, i, j, σ l] negInf).dep multiroot (p := renameArcs σ (Dist.leaves (DepTree.algo multiroot) p))
      (p' := Dist.leaves (DepTree.algo multiroot) (renameArcs σ p)) rfl rfl rfl rfl rfl
      (show 0 < p.labels by rw [hlb, h3]; exact Nat.zero_lt_of_lt hl) (fun b' _ i' _ j' _ l' hl' => at_leaf _ (by
        have hl' : l' < p.labels := hl'
        have hd : decide (renameArcs σ p).labeled = true := decide_eq_true hlab'
        have hd' : decide p.labeled = true := decide_eq_true hlab'
        show DepTree.tag (decide (renameArcs σ p).labeled) b' i' j' l' = _ ↔ DepTree.tag (decide p.labeled) b' i' j' (σ l') = _
        rw [hd, hd']
        exact tag_rename h b i j hl b' i' j' (by rw [← h3, ← hlb]; exact hl'))) lengths
    rw [h1] at h2
    exact at_result h2
  unfold DepTree.marginals
  rw [convert_rename]
  cases hc : DepTree.convert DepTree.negBig q with
  | error e => rfl
  | ok p => exact key p (convert_shape _ q p hc).1 (convert_shape _ q p hc).2.2

theorem symbol_inj (hs : Renames σ n) (ht : Renames τ m) {y z : ℕ} (hy : y < n + m) (hz : z < n + m) (e : renameSymbol n σ τ y = renameSymbol n σ τ z) : y = z := by
  unfold renameSymbol at e
  by_cases h1 : y < n <;> by_cases h2 : z < n
  · rw [if_pos h1, if_pos h2] at e
    exact inj hs h1 h2 e
  · rw [if_pos h1, if_neg h2] at e
    have := lt hs h1
    omega
  · rw [if_neg h1, if_pos h2] at e
    have := lt hs h2
    omega
  · rw [if_neg h1, if_neg h2] at e
    have := inj ht (i := y - n) (j := z - n) (by omega) (by omega) (by omega)
    omega

theorem symbol_lt (hs : Renames σ n) (ht : Renames τ m) {y : ℕ} (hy : y < n + m) : renameSymbol n σ τ y < n + m := by
  unfold renameSymbol
  split_ifs with h1
  · have := lt hs h1
    omega
  · have := lt ht (i := y - n) (by omega)
    omega

theorem grammar_at (p : CKY.Scores ℝ) (lengths : Option (List ℕ)) (hs : Renames σ p.NT) (ht : Renames τ p.T) {e e' : List ℕ}
    (h1 : ∀ b n, ∀ t < p.T, [b, 0, n, t] = e ↔ [b, 0, n, τ t] = e')
    (h2 : ∀ b, ∀ x < p.NT, ∀ y < p.NT + p.T, ∀ z < p.NT + p.T, [b, 1, x, y, z] = e ↔ [b, 1, σ x, renameSymbol p.NT σ τ y, renameSymbol p.NT σ τ z] = e')
    (h3 : ∀ b, ∀ x < p.NT, [b, 2, x] = e ↔ [b, 2, σ x] = e') (h4 : ∀ b w i, ∀ x < p.NT, [b, 3, w, i, x] = e ↔ [b, 3, w, i, σ x] = e') :
    (Dist.marginals CKY.algo (CKY.marked (renameGrammar σ τ p)) lengths).map (fun g => g e) = (Dist.marginals CKY.algo (CKY.marked p) lengths).map fun g => g e' := by
  have r1 := grammar (Autograd.logZ negInf) (orderFree_grad negInf) (Dist.leaves CKY.algo (CKY.marked p)) lengths hs ht
  have r2 := (at_log e e' negInf).cfg (p := renameGrammar σ τ (Dist.leaves CKY.algo (CKY.marked p))) (p' := Dist.leaves CKY.algo (CKY.marked (renameGrammar σ τ p)))
    ⟨rfl, rfl, rfl, rfl, rfl, fun b _ n _ t ht' => at_leaf _ (h1 b n t ht'), fun b _ x hx y hy z hz => at_leaf _ (h2 b x hx y hy z hz),
      fun b _ x hx => at_leaf _ (h3 b x hx), fun b _ w i x hx => at_leaf _ (h4 b w i x hx)⟩ lengths
  rw [r1] at r2
  exact at_result r2

theorem map_map_except {α β γ : Type} (x : Except PyErr α) (f : α → β) (g : β → γ) : (x.map f).map g = x.map fun a => g (f a) := by cases x <;> rfl

theorem grammar_marginals (p : CKY.Scores ℝ) (lengths : Option (List ℕ)) (hs : Renames σ p.NT) (ht : Renames τ p.T) :
    (∀ b n, ∀ t < p.T, (CKY.marginals (renameGrammar σ τ p) lengths).map (fun m => m.term b n t) = (CKY.marginals p lengths).map fun m => m.term b n (τ t)) ∧
    (∀ b, ∀ x < p.NT, ∀ y < p.NT + p.T, ∀ z < p.NT + p.T, (CKY.marginals (renameGrammar σ τ p) lengths).map (fun m => m.rule b x y z) =
      (CKY.marginals p lengths).map fun m => m.rule b (σ x) (renameSymbol p.NT σ τ y) (renameSymbol p.NT σ τ z)) ∧
    (∀ b, ∀ x < p.NT, (CKY.marginals (renameGrammar σ τ p) lengths).map (fun m => m.root b x) = (CKY.marginals p lengths).map fun m => m.root b (σ x)) ∧
    ∀ b w i, ∀ x < p.NT, (CKY.marginals (renameGrammar σ τ p) lengths).map (fun m => m.spans b w i x) = (CKY.marginals p lengths).map fun m => m.spans b w i (σ x) := by
  have hi : ∀ {f : ℕ → ℕ} {k : ℕ}, Renames f k → ∀ {a c : ℕ}, a < k → c < k → (a = c ↔ f a = f c) := fun h a c ha hc => ⟨fun e => by rw [e], inj h ha hc⟩
  have hsy : ∀ {a c : ℕ}, a < p.NT + p.T → c < p.NT + p.T → (a = c ↔ renameSymbol p.NT σ τ a = renameSymbol p.NT σ τ c) :=
    fun ha hc => ⟨fun e => by rw [e], symbol_inj hs ht ha hc⟩
  have hN : (renameGrammar σ τ p).N = p.N := rfl
  by_cases h1 : p.N = 1
  · simp only [CKY.marginals, hN, if_pos h1]
    exact ⟨fun _ _ _ _ => rfl, fun _ _ _ _ _ _ _ => rfl, fun _ _ _ => rfl, fun _ _ _ _ _ => rfl⟩
  simp only [CKY.marginals, hN, if_neg h1, map_map_except]
  refine ⟨fun b n t ht' => ?_, fun b x hx y hy z hz => ?_, fun b x hx => ?_, fun b w i x hx => ?_⟩
  · refine grammar_at p lengths hs ht ?_ ?_ ?_ ?_
    · intro b' n' t' h'; simp [hi ht h' ht']
    all_goals intros; simp
  · refine grammar_at p lengths hs ht ?_ ?_ ?_ ?_
    rotate_left
    · intro b' x' hx' y' hy' z' hz'; simp [hi hs hx' hx, hsy hy' hy, hsy hz' hz]
    all_goals intros; simp
  · refine grammar_at p lengths hs ht ?_ ?_ ?_ ?_
    rotate_left 2
    · intro b' x' hx'; simp [hi hs hx' hx]
    all_goals intros; simp
  · simp only [CKY.arrange, CKY.arrangeSpans]
    by_cases hc : w < p.N - 1 ∧ i < p.N - w - 1
    · simp only [if_pos hc]
      refine grammar_at p lengths hs ht ?_ ?_ ?_ ?_
      rotate_left 3
      · intro b' w' i' x' hx'; simp [hi hs hx' hx]
      all_goals intros; simp
    · simp only [if_neg hc]
      have r := grammar (Autograd.logZ negInf) (orderFree_grad negInf) (Dist.leaves CKY.algo (CKY.marked p)) lengths hs ht
      have r2 := grammar_at p lengths hs ht (e := []) (e' := []) (by intros; simp) (by intros; simp) (by intros; simp) (by intros; simp)
      revert r2
      cases Dist.marginals CKY.algo (CKY.marked (renameGrammar σ τ p)) lengths <;> cases Dist.marginals CKY.algo (CKY.marked p) lengths <;> intro r2
      · exact congrArg Except.error (Except.error.inj r2)
      · cases r2
      · cases r2
      · rfl

end Symmetry
