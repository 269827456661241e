import Verif.Proofs.Consistency
import Verif.Props.LinearChainValue
import Verif.Props.TreeCRF
import Verif.Props.SemiMarkov
import Verif.Props.LabelledDependency
import Verif.Props.SentCFG

/-! C64: the queries of a distribution are consistent with each other.

All statements are about the returned numbers, with no error terms: whatever the potentials and the lengths are (also lengths that the code rejects), the two calls raise the
same error, or both return and the values of every row are related (`RelE`, Spec/Results.lean).  The only hypotheses are that label dimensions are not empty and, for
`kmax`, that no potential is below the stand-in `-1e5`. -/

open Semirings Consistency

noncomputable section
namespace Props.Consistency

/-! ### Shapes and tables -/

/-- Two tables of the same shape. -/
def SameShape4 (p q : T4 ℝ) : Prop := q.d0 = p.d0 ∧ q.d1 = p.d1 ∧ q.d2 = p.d2 ∧ q.d3 = p.d3

/-- `p ≤ q` at every index of the tables. -/
def Le4 (p q : T4 ℝ) : Prop := SameShape4 p q ∧ ∀ b < p.d0, ∀ n < p.d1, ∀ i < p.d2, ∀ j < p.d3, p.get b n i j ≤ q.get b n i j

/-- All potentials of the table are at least `x`. -/
def AllGe4 (x : ℝ) (p : T4 ℝ) : Prop := ∀ b < p.d0, ∀ n < p.d1, ∀ i < p.d2, ∀ j < p.d3, x ≤ p.get b n i j

/-- `p ≤ q` at every index of the tables. -/
def Le5 (p q : T5 ℝ) : Prop := (q.d0 = p.d0 ∧ q.d1 = p.d1 ∧ q.d2 = p.d2 ∧ q.d3 = p.d3 ∧ q.d4 = p.d4) ∧
  ∀ b < p.d0, ∀ n < p.d1, ∀ k < p.d2, ∀ i < p.d3, ∀ j < p.d4, p.get b n k i j ≤ q.get b n k i j

/-- All potentials of the table are at least `x`. -/
def AllGe5 (x : ℝ) (p : T5 ℝ) : Prop := ∀ b < p.d0, ∀ n < p.d1, ∀ k < p.d2, ∀ i < p.d3, ∀ j < p.d4, x ≤ p.get b n k i j

/-- `p ≤ q` at every index of the tables. -/
def LeArcs (p q : DepTree.Arcs ℝ) : Prop := (q.rank = p.rank ∧ q.d0 = p.d0 ∧ q.d1 = p.d1 ∧ q.d2 = p.d2 ∧ q.d3 = p.d3) ∧
  ∀ b < p.d0, ∀ i < p.d1, ∀ j < p.d2, ∀ l < p.labels, p.get b i j l ≤ q.get b i j l

/-- `p ≤ q` at every index of the three tables of a grammar. -/
def LeCfg (p q : CKY.Scores ℝ) : Prop := (q.batch = p.batch ∧ q.N = p.N ∧ q.T = p.T ∧ q.NT = p.NT ∧ q.S = p.S ∧ p.mark = none ∧ q.mark = none) ∧
  (∀ b < p.batch, ∀ n < p.N, ∀ t < p.T, p.term b n t ≤ q.term b n t) ∧
  (∀ b < p.batch, ∀ x < p.NT, ∀ y < p.NT + p.T, ∀ z < p.NT + p.T, p.rule b x y z ≤ q.rule b x y z) ∧
  ∀ b < p.batch, ∀ x < p.NT, p.root b x ≤ q.root b x

/-- All potentials of the grammar are at least `x`. -/
def AllGeCfg (v : ℝ) (p : CKY.Scores ℝ) : Prop := p.mark = none ∧
  (∀ b < p.batch, ∀ n < p.N, ∀ t < p.T, v ≤ p.term b n t) ∧
  (∀ b < p.batch, ∀ x < p.NT, ∀ y < p.NT + p.T, ∀ z < p.NT + p.T, v ≤ p.rule b x y z) ∧
  ∀ b < p.batch, ∀ x < p.NT, v ≤ p.root b x

/-! ### `max ≤ partition` -/

theorem max_le_of {A : Algo} {good : ∀ {γ : Type}, A.T γ → Prop} (P : Parametric A good) (p : A.T ℝ) (h : good p) (lengths : Option (List ℕ)) :
    RelE (· ≤ ·) (Dist.max A p lengths) (Dist.partition A p lengths) := by
  have := P.run max_le p h (fun x => x) (fun x => x) (fun x => le_refl x) lengths
  rwa [P.map_id] at this

/-- **C64.** The score of the best structure is at most the partition. -/
theorem chain_max_le (p : T4 ℝ) (lengths : Option (List ℕ)) (h : 0 < p.d2) : RelE (· ≤ ·) (Dist.max LinearChain.algo p lengths) (Dist.partition LinearChain.algo p lengths) :=
  max_le_of LinearChain.parametric p h lengths

/-- **C64.** `TreeCRF`. -/
theorem tree_max_le (p : T4 ℝ) (lengths : Option (List ℕ)) (h : 0 < p.d3) (hb : 0 < p.d0) :
    RelE (· ≤ ·) (Dist.max CKYCRF.algo p lengths) (Dist.partition CKYCRF.algo p lengths) := max_le_of CKYCRF.parametric p ⟨h, hb⟩ lengths

/-- **C64.** `SemiMarkovCRF`. -/
theorem semimarkov_max_le (p : T5 ℝ) (lengths : Option (List ℕ)) (h : 0 < p.d3) :
    RelE (· ≤ ·) (Dist.max SemiMarkov.algo p lengths) (Dist.partition SemiMarkov.algo p lengths) := max_le_of SemiMarkov.parametric p h lengths

/-- **C64.** `SentCFG`. -/
theorem cfg_max_le (p : CKY.Scores ℝ) (lengths : Option (List ℕ)) : RelE (· ≤ ·) (Dist.max CKY.algo p lengths) (Dist.partition CKY.algo p lengths) :=
  max_le_of CKY.parametric p trivial lengths

/-- **C64.** `DependencyCRF`, with and without labels, several roots or one. -/
theorem dep_max_le (mr : Bool) (q : DepTree.Arcs ℝ) (lengths : Option (List ℕ)) (h : 0 < q.labels) : RelE (· ≤ ·) (DepTree.max mr q lengths) (DepTree.partition mr q lengths) := by
  unfold DepTree.max DepTree.partition
  rcases hc : DepTree.convert DepTree.negBig q with e | p
  · exact RelE.error e
  · refine max_le_of (DepTree.parametric mr) p ?_ lengths
    unfold DepTree.convert at hc
    split_ifs at hc
    cases hc
    exact h

/-! ### Monotonicity -/

theorem chain_mono_of {S : SR ℝ} (H : SRP S S (· ≤ ·)) (p q : T4 ℝ) (lengths : Option (List ℕ)) (h : 0 < p.d2) (hpq : Le4 p q) :
    RelE (· ≤ ·) (LinearChain.logpartition S p lengths) (LinearChain.logpartition S q lengths) := H.chain hpq.1.1 hpq.1.2.1 hpq.1.2.2.1 hpq.1.2.2.2 h hpq.2 lengths

/-- **C64.** If no potential decreases, neither the partition nor the best score of any row decreases. -/
theorem chain_mono (p q : T4 ℝ) (lengths : Option (List ℕ)) (h : 0 < p.d2) (hpq : Le4 p q) :
    RelE (· ≤ ·) (Dist.partition LinearChain.algo p lengths) (Dist.partition LinearChain.algo q lengths) ∧
    RelE (· ≤ ·) (Dist.max LinearChain.algo p lengths) (Dist.max LinearChain.algo q lengths) :=
  ⟨chain_mono_of log_mono p q lengths h hpq, chain_mono_of max_mono p q lengths h hpq⟩

theorem tree_mono_of {S : SR ℝ} (H : SRP S S (· ≤ ·)) (p q : T4 ℝ) (lengths : Option (List ℕ)) (h : 0 < p.d3) (hb : 0 < p.d0) (hpq : Le4 p q) :
    RelE (· ≤ ·) (CKYCRF.logpartition S p lengths) (CKYCRF.logpartition S q lengths) := by
  by_cases hs : p.d1 = p.d2
  · exact H.tree hpq.1.1 hpq.1.2.1 hpq.1.2.2.1 hpq.1.2.2.2 h (fun b hb i hi j hj a ha => hpq.2 b hb i hi j (hs ▸ hj) a ha) lengths hb
  · have hs' : q.d1 ≠ q.d2 := by rw [hpq.1.2.1, hpq.1.2.2.1]; exact hs
    rw [CKYCRF.logpartition, CKYCRF.logpartition, if_pos hs, if_pos hs']
    exact RelE.error _

/-- **C64.** `TreeCRF`. -/
theorem tree_mono (p q : T4 ℝ) (lengths : Option (List ℕ)) (h : 0 < p.d3) (hb : 0 < p.d0) (hpq : Le4 p q) :
    RelE (· ≤ ·) (Dist.partition CKYCRF.algo p lengths) (Dist.partition CKYCRF.algo q lengths) ∧
    RelE (· ≤ ·) (Dist.max CKYCRF.algo p lengths) (Dist.max CKYCRF.algo q lengths) :=
  ⟨tree_mono_of log_mono p q lengths h hb hpq, tree_mono_of max_mono p q lengths h hb hpq⟩

theorem semimarkov_mono_of {S : SR ℝ} (H : SRP S S (· ≤ ·)) (p q : T5 ℝ) (lengths : Option (List ℕ)) (h : 0 < p.d3) (hpq : Le5 p q) :
    RelE (· ≤ ·) (SemiMarkov.logpartition S p lengths) (SemiMarkov.logpartition S q lengths) :=
  H.semi hpq.1.1 hpq.1.2.1 hpq.1.2.2.1 hpq.1.2.2.2.1 hpq.1.2.2.2.2 h hpq.2 lengths

/-- **C64.** `SemiMarkovCRF`. -/
theorem semimarkov_mono (p q : T5 ℝ) (lengths : Option (List ℕ)) (h : 0 < p.d3) (hpq : Le5 p q) :
    RelE (· ≤ ·) (Dist.partition SemiMarkov.algo p lengths) (Dist.partition SemiMarkov.algo q lengths) ∧
    RelE (· ≤ ·) (Dist.max SemiMarkov.algo p lengths) (Dist.max SemiMarkov.algo q lengths) :=
  ⟨semimarkov_mono_of log_mono p q lengths h hpq, semimarkov_mono_of max_mono p q lengths h hpq⟩

theorem cfg_mono_of {S : SR ℝ} (H : SRP S S (· ≤ ·)) (p q : CKY.Scores ℝ) (lengths : Option (List ℕ)) (hpq : LeCfg p q) :
    RelE (· ≤ ·) (CKY.logpartition S p lengths) (CKY.logpartition S q lengths) := by
  obtain ⟨⟨h1, h2, h3, h4, h5, h6, h7⟩, h8, h9, h10⟩ := hpq
  exact H.cfg ⟨h1, h2, h3, h4, h5, h8, h9, h10, by rw [h6, h7]; trivial⟩ lengths

/-- **C64.** `SentCFG`. -/
theorem cfg_mono (p q : CKY.Scores ℝ) (lengths : Option (List ℕ)) (hpq : LeCfg p q) :
    RelE (· ≤ ·) (Dist.partition CKY.algo p lengths) (Dist.partition CKY.algo q lengths) ∧
    RelE (· ≤ ·) (Dist.max CKY.algo p lengths) (Dist.max CKY.algo q lengths) :=
  ⟨cfg_mono_of log_mono p q lengths hpq, cfg_mono_of max_mono p q lengths hpq⟩

theorem dep_mono_of {S : SR ℝ} (H : SRP S S (· ≤ ·)) (mr : Bool) (p q : DepTree.Arcs ℝ) (lengths : Option (List ℕ)) (h : 0 < p.labels) (hpq : LeArcs p q) :
    RelE (· ≤ ·) (DepTree.sum mr S DepTree.negBig p lengths) (DepTree.sum mr S DepTree.negBig q lengths) := by
  obtain ⟨rank, d0, d1, d2, d3, get⟩ := p
  obtain ⟨rank', d0', d1', d2', d3', get'⟩ := q
  obtain ⟨⟨h1, h2, h3, h4, h5⟩, h6⟩ := hpq
  dsimp only at h1 h2 h3 h4 h5 h6
  subst h1 h2 h3 h4 h5
  unfold DepTree.sum DepTree.convert
  split_ifs with c1 c2 c3 c4
  any_goals exact RelE.error _
  have hd : d1' = d2' := by dsimp only at c2 c3; omega
  refine H.dep mr (p := ⟨rank', d0', d1' + 1, d2' + 1, d3', DepTree.convertCell DepTree.negBig get⟩)
    (p' := ⟨rank', d0', d1' + 1, d2' + 1, d3', DepTree.convertCell DepTree.negBig get'⟩) rfl rfl rfl rfl rfl h ?_ lengths
  intro b hb i hi j hj l hl
  dsimp only at hi hj
  simp only [DepTree.convertCell]
  split_ifs with e1 e2 e3
  · exact le_refl _
  · exact h6 b hb _ (by omega) _ (by omega) l hl
  · exact le_refl _
  · exact h6 b hb _ (by omega) _ (by omega) l hl

/-- **C64.** `DependencyCRF`, with and without labels, several roots or one. -/
theorem dep_mono (mr : Bool) (p q : DepTree.Arcs ℝ) (lengths : Option (List ℕ)) (h : 0 < p.labels) (hpq : LeArcs p q) :
    RelE (· ≤ ·) (DepTree.partition mr p lengths) (DepTree.partition mr q lengths) ∧ RelE (· ≤ ·) (DepTree.max mr p lengths) (DepTree.max mr q lengths) :=
  ⟨dep_mono_of log_mono mr p q lengths h hpq, dep_mono_of max_mono mr p q lengths h hpq⟩

/-! ### `kmax` -/

/-- `kmax(1)` is `max`, for all potentials. -/
theorem kmax_one_of {A : Algo} {good : ∀ {γ : Type}, A.T γ → Prop} (P : Parametric A good) (p : A.T ℝ) (h : good p) (lengths : Option (List ℕ)) :
    RelE (fun a m => a = [m]) (Dist.kmax A p lengths 1) (Dist.max A p lengths) := by
  have := P.run kmax_one p h (kmaxConvert 1) (fun x => x) (fun x => rfl) lengths
  rwa [P.map_id] at this

/-- **C64, `LinearChainCRF`.** Asking for fewer structures returns the first of them: `kmax(k)` is the list of the first `k` values of `kmax(k')`, for all `1 ≤ k ≤ k'`. -/
theorem chain_kmax_prefix (p : T4 ℝ) (lengths : Option (List ℕ)) (h : 0 < p.d2) (hp : AllGe4 negInf p) {k k' : ℕ} (h1 : 0 < k) (hk : k ≤ k') :
    RelE (fun a b => a.take k = b ∧ a.length = k' ∧ a.Pairwise (· ≥ ·)) (Dist.kmax LinearChain.algo p lengths k') (Dist.kmax LinearChain.algo p lengths k) := by
  have H := kmax_prefix h1 hk
  exact H.chain (p := LinearChain.algo.map (kmaxConvert k') p) (p' := LinearChain.algo.map (kmaxConvert k) p) rfl rfl rfl rfl h (fun b hb n hn i hi j hj => convert_slots hk (hp b hb n hn i hi j hj)) lengths

/-- **C64, `LinearChainCRF`.** The first value of `kmax(k)` is `max`. -/
theorem chain_kmax_head (p : T4 ℝ) (lengths : Option (List ℕ)) (h : 0 < p.d2) (hp : AllGe4 negInf p) {k : ℕ} (hk : 0 < k) :
    RelE (fun a m => a.head? = some m) (Dist.kmax LinearChain.algo p lengths k) (Dist.max LinearChain.algo p lengths) := by
  refine RelE.trans ?_ (chain_kmax_prefix p lengths h hp Nat.one_pos hk) (kmax_one_of LinearChain.parametric p h lengths)
  rintro a _ m ⟨ha, -, -⟩ rfl
  cases a with
  | nil => simp at ha
  | cons x xs => simp at ha; simp [ha]

/-- **C64, `TreeCRF`.** Asking for fewer structures returns the first of them: `kmax(k)` is the list of the first `k` values of `kmax(k')`, for all `1 ≤ k ≤ k'`. -/
theorem tree_kmax_prefix (p : T4 ℝ) (lengths : Option (List ℕ)) (h : 0 < p.d3) (hb : 0 < p.d0) (hs : p.d1 = p.d2) (hp : AllGe4 negInf p) {k k' : ℕ} (h1 : 0 < k) (hk : k ≤ k') :
    RelE (fun a b => a.take k = b ∧ a.length = k' ∧ a.Pairwise (· ≥ ·)) (Dist.kmax CKYCRF.algo p lengths k') (Dist.kmax CKYCRF.algo p lengths k) := by
  have H := kmax_prefix h1 hk
  exact H.tree (p := CKYCRF.algo.map (kmaxConvert k') p) (p' := CKYCRF.algo.map (kmaxConvert k) p) rfl rfl rfl rfl h (fun b hb n hn i hi j hj => convert_slots hk (hp b hb n hn i (hs ▸ hi) j hj)) lengths hb

/-- **C64, `TreeCRF`.** The first value of `kmax(k)` is `max`. -/
theorem tree_kmax_head (p : T4 ℝ) (lengths : Option (List ℕ)) (h : 0 < p.d3) (hb : 0 < p.d0) (hs : p.d1 = p.d2) (hp : AllGe4 negInf p) {k : ℕ} (hk : 0 < k) :
    RelE (fun a m => a.head? = some m) (Dist.kmax CKYCRF.algo p lengths k) (Dist.max CKYCRF.algo p lengths) := by
  refine RelE.trans ?_ (tree_kmax_prefix p lengths h hb hs hp Nat.one_pos hk) (kmax_one_of CKYCRF.parametric p ⟨h, hb⟩ lengths)
  rintro a _ m ⟨ha, -, -⟩ rfl
  cases a with
  | nil => simp at ha
  | cons x xs => simp at ha; simp [ha]

/-- **C64, `SemiMarkovCRF`.** Asking for fewer structures returns the first of them: `kmax(k)` is the list of the first `k` values of `kmax(k')`, for all `1 ≤ k ≤ k'`. -/
theorem semimarkov_kmax_prefix (p : T5 ℝ) (lengths : Option (List ℕ)) (h : 0 < p.d3) (hp : AllGe5 negInf p) {k k' : ℕ} (h1 : 0 < k) (hk : k ≤ k') :
    RelE (fun a b => a.take k = b ∧ a.length = k' ∧ a.Pairwise (· ≥ ·)) (Dist.kmax SemiMarkov.algo p lengths k') (Dist.kmax SemiMarkov.algo p lengths k) := by
  have H := kmax_prefix h1 hk
  exact H.semi (p := SemiMarkov.algo.map (kmaxConvert k') p) (p' := SemiMarkov.algo.map (kmaxConvert k) p) rfl rfl rfl rfl rfl h (fun b hb n hn k hk' i hi j hj => convert_slots hk (hp b hb n hn k hk' i hi j hj)) lengths

/-- **C64, `SemiMarkovCRF`.** The first value of `kmax(k)` is `max`. -/
theorem semimarkov_kmax_head (p : T5 ℝ) (lengths : Option (List ℕ)) (h : 0 < p.d3) (hp : AllGe5 negInf p) {k : ℕ} (hk : 0 < k) :
    RelE (fun a m => a.head? = some m) (Dist.kmax SemiMarkov.algo p lengths k) (Dist.max SemiMarkov.algo p lengths) := by
  refine RelE.trans ?_ (semimarkov_kmax_prefix p lengths h hp Nat.one_pos hk) (kmax_one_of SemiMarkov.parametric p h lengths)
  rintro a _ m ⟨ha, -, -⟩ rfl
  cases a with
  | nil => simp at ha
  | cons x xs => simp at ha; simp [ha]

/-- **C64, `SentCFG`.** Asking for fewer structures returns the first of them: `kmax(k)` is the list of the first `k` values of `kmax(k')`, for all `1 ≤ k ≤ k'`. -/
theorem cfg_kmax_prefix (p : CKY.Scores ℝ) (lengths : Option (List ℕ))  (hp : AllGeCfg negInf p) {k k' : ℕ} (h1 : 0 < k) (hk : k ≤ k') :
    RelE (fun a b => a.take k = b ∧ a.length = k' ∧ a.Pairwise (· ≥ ·)) (Dist.kmax CKY.algo p lengths k') (Dist.kmax CKY.algo p lengths k) := by
  have H := kmax_prefix h1 hk
  exact H.cfg (p := CKY.algo.map (kmaxConvert k') p) (p' := CKY.algo.map (kmaxConvert k) p)
      ⟨rfl, rfl, rfl, rfl, rfl, fun b hb n hn t ht => convert_slots hk (hp.2.1 b hb n hn t ht), fun b hb x hx y hy z hz => convert_slots hk (hp.2.2.1 b hb x hx y hy z hz),
        fun b hb x hx => convert_slots hk (hp.2.2.2 b hb x hx), by
          obtain ⟨batch, N, T, NT, Sz, term, rule, root, mark⟩ := p
          obtain rfl : mark = none := hp.1
          trivial⟩ lengths

/-- **C64, `SentCFG`.** The first value of `kmax(k)` is `max`. -/
theorem cfg_kmax_head (p : CKY.Scores ℝ) (lengths : Option (List ℕ))  (hp : AllGeCfg negInf p) {k : ℕ} (hk : 0 < k) :
    RelE (fun a m => a.head? = some m) (Dist.kmax CKY.algo p lengths k) (Dist.max CKY.algo p lengths) := by
  refine RelE.trans ?_ (cfg_kmax_prefix p lengths  hp Nat.one_pos hk) (kmax_one_of CKY.parametric p trivial lengths)
  rintro a _ m ⟨ha, -, -⟩ rfl
  cases a with
  | nil => simp at ha
  | cons x xs => simp at ha; simp [ha]

/-! ### Entropy, cross entropy and divergence -/

/-- What the divergence is compared with: the cross entropy minus the entropy, row by row. -/
def difference (c h : Except PyErr (List ℝ)) : Except PyErr (List ℝ) := do
  let c ← c
  let h ← h
  .ok (List.zipWith (· - ·) c h)

theorem diff_of {α β γ : Type} {x : Except PyErr (List α)} {y : Except PyErr (List (β × γ))} {u : Except PyErr (List β)} {v : Except PyErr (List γ)}
    {f : α → ℝ} {g : β → ℝ} {k : γ → ℝ} {ρ : α → β × γ → Prop} (hρ : ∀ a b, ρ a b → f a = g b.1 - k b.2) (h1 : RelE ρ x y) (h2 : RelE (fun a b => a.1 = b) y u)
    (h3 : RelE (fun a b => a.2 = b) y v) : x.map (List.map f) = difference (u.map (List.map g)) (v.map (List.map k)) := by
  have h2 := RelE.map_eq h2
  have h3 := RelE.map_eq h3
  subst h2 h3
  rcases x with e | as <;> rcases y with e' | bs
  · have h1 : e = e' := h1
    subst h1; rfl
  · exact h1.elim
  · exact h1.elim
  · have h1 : List.Forall₂ ρ as bs := h1
    show Except.ok _ = Except.ok _
    congr 1
    simp only [List.map_map, List.zipWith_map, List.zipWith_self]
    exact forall₂_pull h1 fun a b h => hρ a b h

/-- **C64, `LinearChainCRF`.** `kl(p, q) = cross_entropy(p, q) - entropy(p)` for every row. -/
theorem chain_kl (p q : T4 ℝ) (lengths : Option (List ℕ)) (h : 0 < p.d2) :
    LinearChain.kl p q lengths = difference (LinearChain.crossEntropy p q lengths) (Dist.entropy LinearChain.algo p lengths) := by
  by_cases hs : p.d0 = q.d0 ∧ p.d1 = q.d1 ∧ p.d2 = q.d2 ∧ p.d3 = q.d3
  · have e : LinearChain.pairPotentials p q = .ok (LinearChain.algo.map pairConvert ⟨p.d0, p.d1, p.d2, p.d3, fun a b c d => (p.get a b c d, q.get a b c d)⟩) := if_pos hs
    unfold LinearChain.kl LinearChain.crossEntropy Dist.entropy
    rw [e]
    have H := LinearChain.parametric.run (kl_sub negInf) (⟨p.d0, p.d1, p.d2, p.d3, fun a b c d => (p.get a b c d, q.get a b c d)⟩ : T4 (ℝ × ℝ)) h pairConvert
      (fun x => (pairConvert x, entropyConvert x.1)) (fun x => by simp [pairConvert, entropyConvert]) lengths
    have H1 := LinearChain.parametric.run (prod_fst (crossEntropyZ negInf) (entropyZ negInf)) (⟨p.d0, p.d1, p.d2, p.d3, fun a b c d => (p.get a b c d, q.get a b c d)⟩ : T4 (ℝ × ℝ)) h
      (fun x => (pairConvert x, entropyConvert x.1)) pairConvert (fun x => rfl) lengths
    have H2 := LinearChain.parametric.run (prod_snd (crossEntropyZ negInf) (entropyZ negInf)) (⟨p.d0, p.d1, p.d2, p.d3, fun a b c d => (p.get a b c d, q.get a b c d)⟩ : T4 (ℝ × ℝ)) h
      (fun x => (pairConvert x, entropyConvert x.1)) (fun x => entropyConvert x.1) (fun x => rfl) lengths
    exact diff_of (fun a b h => h.2.2.2) H H1 H2
  · have e : LinearChain.pairPotentials p q = .error .runtime := if_neg hs
    unfold LinearChain.kl LinearChain.crossEntropy
    rw [e]; rfl

/-- **C64, `LinearChainCRF`.** `cross_entropy(p, p) = entropy(p)`. -/
theorem chain_crossEntropy_self (p : T4 ℝ) (lengths : Option (List ℕ)) (h : 0 < p.d2) : LinearChain.crossEntropy p p lengths = Dist.entropy LinearChain.algo p lengths := by
  have e : LinearChain.pairPotentials p p = .ok (LinearChain.algo.map (fun x => pairConvert (x, x)) p) := if_pos ⟨rfl, rfl, rfl, rfl⟩
  unfold LinearChain.crossEntropy Dist.entropy
  rw [e]
  have := LinearChain.parametric.run (ce_self negInf) p h (fun x => pairConvert (x, x)) entropyConvert (fun x => ⟨rfl, rfl, rfl⟩) lengths
  exact map_congr_rel this fun a b h => h.2.2

/-- **C64, `LinearChainCRF`.** `kl(p, p) = 0`: one zero for every row (an error exactly if `partition` raises it). -/
theorem chain_kl_self (p : T4 ℝ) (lengths : Option (List ℕ)) (h : 0 < p.d2) :
    LinearChain.kl p p lengths = (Dist.partition LinearChain.algo p lengths).map (List.map fun _ => 0) := by
  have e : LinearChain.pairPotentials p p = .ok (LinearChain.algo.map (fun x => pairConvert (x, x)) p) := if_pos ⟨rfl, rfl, rfl, rfl⟩
  unfold LinearChain.kl Dist.partition
  rw [e]
  have := LinearChain.parametric.run (kl_self negInf) p h (fun x => pairConvert (x, x)) (fun x => x) (fun x => ⟨rfl, rfl, rfl⟩) lengths
  exact map_congr_rel this fun a b h => h.2.2

/-- **C64, `TreeCRF`.** `kl(p, q) = cross_entropy(p, q) - entropy(p)` for every row. -/
theorem tree_kl (p q : T4 ℝ) (lengths : Option (List ℕ)) (h : 0 < p.d3) (hb : 0 < p.d0) :
    CKYCRF.kl p q lengths = difference (CKYCRF.crossEntropy p q lengths) (Dist.entropy CKYCRF.algo p lengths) := by
  by_cases hs : p.d0 = q.d0 ∧ p.d1 = q.d1 ∧ p.d2 = q.d2 ∧ p.d3 = q.d3
  · have e : LinearChain.pairPotentials p q = .ok (CKYCRF.algo.map pairConvert ⟨p.d0, p.d1, p.d2, p.d3, fun a b c d => (p.get a b c d, q.get a b c d)⟩) := if_pos hs
    unfold CKYCRF.kl CKYCRF.crossEntropy Dist.entropy
    rw [e]
    have H := CKYCRF.parametric.run (kl_sub negInf) (⟨p.d0, p.d1, p.d2, p.d3, fun a b c d => (p.get a b c d, q.get a b c d)⟩ : T4 (ℝ × ℝ)) ⟨h, hb⟩ pairConvert
      (fun x => (pairConvert x, entropyConvert x.1)) (fun x => by simp [pairConvert, entropyConvert]) lengths
    have H1 := CKYCRF.parametric.run (prod_fst (crossEntropyZ negInf) (entropyZ negInf)) (⟨p.d0, p.d1, p.d2, p.d3, fun a b c d => (p.get a b c d, q.get a b c d)⟩ : T4 (ℝ × ℝ)) ⟨h, hb⟩
      (fun x => (pairConvert x, entropyConvert x.1)) pairConvert (fun x => rfl) lengths
    have H2 := CKYCRF.parametric.run (prod_snd (crossEntropyZ negInf) (entropyZ negInf)) (⟨p.d0, p.d1, p.d2, p.d3, fun a b c d => (p.get a b c d, q.get a b c d)⟩ : T4 (ℝ × ℝ)) ⟨h, hb⟩
      (fun x => (pairConvert x, entropyConvert x.1)) (fun x => entropyConvert x.1) (fun x => rfl) lengths
    exact diff_of (fun a b h => h.2.2.2) H H1 H2
  · have e : LinearChain.pairPotentials p q = .error .runtime := if_neg hs
    unfold CKYCRF.kl CKYCRF.crossEntropy
    rw [e]; rfl

/-- **C64, `TreeCRF`.** `cross_entropy(p, p) = entropy(p)`. -/
theorem tree_crossEntropy_self (p : T4 ℝ) (lengths : Option (List ℕ)) (h : 0 < p.d3) (hb : 0 < p.d0) : CKYCRF.crossEntropy p p lengths = Dist.entropy CKYCRF.algo p lengths := by
  have e : LinearChain.pairPotentials p p = .ok (CKYCRF.algo.map (fun x => pairConvert (x, x)) p) := if_pos ⟨rfl, rfl, rfl, rfl⟩
  unfold CKYCRF.crossEntropy Dist.entropy
  rw [e]
  have := CKYCRF.parametric.run (ce_self negInf) p ⟨h, hb⟩ (fun x => pairConvert (x, x)) entropyConvert (fun x => ⟨rfl, rfl, rfl⟩) lengths
  exact map_congr_rel this fun a b h => h.2.2

/-- **C64, `TreeCRF`.** `kl(p, p) = 0`: one zero for every row (an error exactly if `partition` raises it). -/
theorem tree_kl_self (p : T4 ℝ) (lengths : Option (List ℕ)) (h : 0 < p.d3) (hb : 0 < p.d0) :
    CKYCRF.kl p p lengths = (Dist.partition CKYCRF.algo p lengths).map (List.map fun _ => 0) := by
  have e : LinearChain.pairPotentials p p = .ok (CKYCRF.algo.map (fun x => pairConvert (x, x)) p) := if_pos ⟨rfl, rfl, rfl, rfl⟩
  unfold CKYCRF.kl Dist.partition
  rw [e]
  have := CKYCRF.parametric.run (kl_self negInf) p ⟨h, hb⟩ (fun x => pairConvert (x, x)) (fun x => x) (fun x => ⟨rfl, rfl, rfl⟩) lengths
  exact map_congr_rel this fun a b h => h.2.2

/-! ### The hypotheses are met -/

example : 0 < Props.LinearChain.sample.d2 := by decide
example : 0 < Props.LabelledDependency.sample.labels := by decide

/-- A table and a strictly larger one. -/
example : Le4 Props.LinearChain.sample (LinearChain.algo.map (fun x => x + 1) Props.LinearChain.sample) := ⟨⟨rfl, rfl, rfl, rfl⟩, fun _ _ _ _ _ _ _ _ => (lt_add_one _).le⟩

example : AllGe4 negInf Props.LinearChain.sample := by
  intro b hb n hn i hi j hj
  have hj : j < 2 := hj
  have : (j : ℝ) < 2 := by exact_mod_cast hj
  have h1 := Nat.cast_nonneg (α := ℝ) b
  have h2 := Nat.cast_nonneg (α := ℝ) n
  have h3 := Nat.cast_nonneg (α := ℝ) i
  show negInf ≤ (b : ℝ) + n + 2 * i - j
  norm_num [negInf]
  linarith

end Props.Consistency
