import Mathlib.Data.Multiset.Bind
import Mathlib.Algebra.BigOperators.Ring.Finset
import Mathlib.Tactic.Linarith
import Verif.Proofs.SemiringRel

/-! The commutative semiring of finite multisets: union as addition, pairwise sums as multiplication.  It keeps every structure
with its own score (and indicator), so that `max` and `kmax` can be read off. -/

open Finset

set_option linter.unusedSectionVars false

/-- Finite multisets over `G`, to be used as a semiring. -/
def Bag (G : Type) := Multiset G

namespace Bag
variable {G : Type}

/-- The underlying multiset. -/
def ms (x : Bag G) : Multiset G := x

instance : AddCommMonoid (Bag G) := inferInstanceAs (AddCommMonoid (Multiset G))

@[simp] theorem ms_add (x y : Bag G) : (x + y).ms = x.ms + y.ms := rfl
@[simp] theorem ms_zero : (0 : Bag G).ms = 0 := rfl
theorem ext {x y : Bag G} (h : x.ms = y.ms) : x = y := h

variable [AddCommMonoid G]

instance : Mul (Bag G) := ⟨fun x y => x.ms.bind fun a => y.ms.map fun b => a + b⟩
instance : One (Bag G) := ⟨({0} : Multiset G)⟩

theorem ms_mul (x y : Bag G) : (x * y).ms = x.ms.bind fun a => y.ms.map fun b => a + b := rfl
@[simp] theorem ms_one : (1 : Bag G).ms = {0} := rfl

theorem mul_comm' (x y : Bag G) : x * y = y * x := by
  apply ext
  rw [ms_mul, ms_mul, Multiset.bind_map_comm]
  simp_rw [add_comm]

theorem mul_add' (x y z : Bag G) : x * (y + z) = x * y + x * z := by
  apply ext
  simp [ms_mul, Multiset.bind_add]

theorem mul_assoc' (x y z : Bag G) : x * y * z = x * (y * z) := by
  apply ext
  simp only [ms_mul, Multiset.bind_assoc, Multiset.map_bind, Multiset.bind_map, Multiset.map_map, Function.comp_def]
  simp_rw [add_assoc]

instance : CommSemiring (Bag G) where
  left_distrib := mul_add'
  right_distrib x y z := by rw [mul_comm', mul_add', mul_comm' z x, mul_comm' z y]
  zero_mul x := rfl
  mul_zero x := by rw [mul_comm']; rfl
  mul_assoc := mul_assoc'
  one_mul x := by apply ext; simp [ms_mul]
  mul_one x := by rw [mul_comm']; apply ext; simp [ms_mul]
  mul_comm := mul_comm'
  nsmul := nsmulRec

/-- The bag with one element. -/
def single (g : G) : Bag G := ({g} : Multiset G)

@[simp] theorem ms_single (g : G) : (single g).ms = {g} := rfl

theorem single_mul (a b : G) : single a * single b = single (a + b) := by
  apply ext; simp [ms_mul]

theorem single_zero : (single 0 : Bag G) = 1 := rfl

theorem prod_single {ι : Type} (s : Finset ι) (f : ι → G) : ∏ i ∈ s, single (f i) = single (∑ i ∈ s, f i) := by
  classical
  induction s using Finset.induction_on with
  | empty => simp [single_zero]
  | insert a s ha ih => rw [prod_insert ha, sum_insert ha, ih, single_mul]

theorem ms_sum {ι : Type} (s : Finset ι) (f : ι → Bag G) : (∑ i ∈ s, f i).ms = ∑ i ∈ s, (f i).ms := by
  classical
  induction s using Finset.induction_on with
  | empty => simp
  | insert a s ha ih => rw [sum_insert ha, sum_insert ha, ms_add, ih]

theorem mem_mul {x y : Bag G} {g : G} : g ∈ (x * y).ms ↔ ∃ a ∈ x.ms, ∃ b ∈ y.ms, a + b = g := by
  simp [ms_mul]

theorem mem_sum {ι : Type} {s : Finset ι} {f : ι → Bag G} {g : G} :
    g ∈ (∑ i ∈ s, f i).ms ↔ ∃ i ∈ s, g ∈ (f i).ms := by
  rw [ms_sum]; exact Multiset.mem_sum

theorem mem_prod {ι : Type} {s : Finset ι} {f : ι → Bag G} {g : G} :
    g ∈ (∏ i ∈ s, f i).ms ↔ ∃ c : ι → G, (∀ i ∈ s, c i ∈ (f i).ms) ∧ ∑ i ∈ s, c i = g := by
  classical
  induction s using Finset.induction_on generalizing g with
  | empty => simp [eq_comm]
  | insert a s ha ih =>
    rw [prod_insert ha, mem_mul]
    constructor
    · rintro ⟨u, hu, v, hv, rfl⟩
      obtain ⟨c, hc, rfl⟩ := ih.1 hv
      refine ⟨Function.update c a u, ?_, ?_⟩
      · intro i hi
        rcases mem_insert.1 hi with rfl | hi
        · simpa using hu
        · have : i ≠ a := fun h => ha (h ▸ hi)
          simpa [this] using hc i hi
      · rw [sum_insert ha, Function.update_self]
        congr 1
        exact sum_congr rfl fun i hi => by
          have : i ≠ a := fun h => ha (h ▸ hi)
          simp [this]
    · rintro ⟨c, hc, rfl⟩
      rw [sum_insert ha]
      exact ⟨c a, hc a (mem_insert_self _ _), _, ih.2 ⟨c, fun i hi => hc i (mem_insert_of_mem hi), rfl⟩, rfl⟩

theorem mem_list_sum {l : List (Bag G)} {g : G} : g ∈ l.sum.ms ↔ ∃ x ∈ l, g ∈ x.ms := by
  induction l with
  | nil => simp
  | cons a l ih => simp [ih]

/-- `g` is an element of largest score of the bag. -/
def IsMax (score : G → ℝ) (g : G) (x : Bag G) : Prop := g ∈ x.ms ∧ ∀ u ∈ x.ms, score u ≤ score g

/-- A raw semiring whose `mul` adds and whose `sum` returns an entry of largest score. -/
structure IsMaxSR (S : SR G) (score : G → ℝ) : Prop where
  score_add : ∀ a b, score (a + b) = score a + score b
  mul : ∀ a b, S.mul a b = a + b
  sum : ∀ xs, xs ≠ [] → S.sum xs ∈ xs ∧ ∀ x ∈ xs, score x ≤ score (S.sum xs)

theorem IsMaxSR.rel {S : SR G} {score : G → ℝ} (M : IsMaxSR S score) : SRRel S (IsMax score) where
  mul := by
    rintro a b x y ⟨ha, ha'⟩ ⟨hb, hb'⟩
    rw [M.mul]
    refine ⟨mem_mul.2 ⟨a, ha, b, hb, rfl⟩, ?_⟩
    intro u hu
    obtain ⟨a', h1, b', h2, rfl⟩ := mem_mul.1 hu
    rw [M.score_add, M.score_add]
    exact add_le_add (ha' _ h1) (hb' _ h2)
  sum := by
    intro as xs hne hf
    obtain ⟨h1, h2⟩ := M.sum as hne
    have key1 : ∀ a ∈ as, ∃ x ∈ xs, IsMax score a x := by
      clear h1 h2 hne
      induction hf with
      | nil => simp
      | cons h _ ih =>
        intro a ha
        rcases List.mem_cons.1 ha with rfl | ha
        · exact ⟨_, List.mem_cons_self, h⟩
        · obtain ⟨x, hx, h'⟩ := ih a ha
          exact ⟨x, List.mem_cons_of_mem _ hx, h'⟩
    have key2 : ∀ x ∈ xs, ∃ a ∈ as, IsMax score a x := by
      clear h1 h2 hne key1
      induction hf with
      | nil => simp
      | cons h _ ih =>
        intro a ha
        rcases List.mem_cons.1 ha with rfl | ha
        · exact ⟨_, List.mem_cons_self, h⟩
        · obtain ⟨x, hx, h'⟩ := ih a ha
          exact ⟨x, List.mem_cons_of_mem _ hx, h'⟩
    obtain ⟨x, hx, hm⟩ := key1 _ h1
    refine ⟨mem_list_sum.2 ⟨x, hx, hm.1⟩, ?_⟩
    intro u hu
    obtain ⟨y, hy, huy⟩ := mem_list_sum.1 hu
    obtain ⟨a, ha, hay⟩ := key2 y hy
    exact (hay.2 u huy).trans (h2 a ha)

theorem le_foldl_max (xs : List ℝ) (a : ℝ) :
    (xs.foldl Max.max a = a ∨ xs.foldl Max.max a ∈ xs) ∧ a ≤ xs.foldl Max.max a ∧ ∀ x ∈ xs, x ≤ xs.foldl Max.max a := by
  induction xs generalizing a with
  | nil => simp
  | cons y ys ih =>
    simp only [List.foldl_cons]
    obtain ⟨h1, h2, h3⟩ := ih (Max.max a y)
    refine ⟨?_, le_trans (le_max_left _ _) h2, ?_⟩
    · rcases h1 with h1 | h1
      · rw [h1]
        rcases max_choice a y with h | h <;> rw [h] <;> simp
      · right; exact List.mem_cons_of_mem _ h1
    · intro x hx
      rcases List.mem_cons.1 hx with rfl | hx
      · exact le_trans (le_max_right _ _) h2
      · exact h3 x hx

theorem listMax_spec (xs : List ℝ) (h : xs ≠ []) :
    Semirings.listMax xs ∈ xs ∧ ∀ x ∈ xs, x ≤ Semirings.listMax xs := by
  cases xs with
  | nil => exact absurd rfl h
  | cons a xs =>
    obtain ⟨h1, h2, h3⟩ := le_foldl_max xs a
    refine ⟨?_, ?_⟩
    · rcases h1 with h1 | h1
      · simp [Semirings.listMax, h1]
      · exact List.mem_cons_of_mem _ h1
    · intro x hx
      rcases List.mem_cons.1 hx with rfl | hx
      · exact h2
      · exact h3 x hx

theorem max_isMaxSR : IsMaxSR Semirings.max (fun x : ℝ => x) where
  score_add _ _ := rfl
  mul _ _ := rfl
  sum := listMax_spec

theorem gradMax_isMaxSR {E : Type} {pick : List (Autograd.Grad E) → Autograd.Grad E}
    (hp : Autograd.IsArgmax Prod.fst pick) : IsMaxSR (Autograd.max pick) Prod.fst where
  score_add _ _ := rfl
  mul _ _ := rfl
  sum := hp

/-- `l` lists `k` elements of the bag in non-increasing order and nothing left out has a larger score. -/
def IsTop (score : G → ℝ) (k : ℕ) (l : List G) (x : Bag G) : Prop :=
  ∃ rest : Multiset G, x.ms = (l : Multiset G) + rest ∧ l.length = k ∧
    l.Pairwise (fun a b => score b ≤ score a) ∧ ∀ a ∈ l, ∀ b ∈ rest, score b ≤ score a

/-- The same without the order of the list. -/
def IsTopU (score : G → ℝ) (k : ℕ) (l : List G) (x : Bag G) : Prop :=
  ∃ rest : Multiset G, x.ms = (l : Multiset G) + rest ∧ l.length = k ∧ ∀ a ∈ l, ∀ b ∈ rest, score b ≤ score a

theorem IsTop.unsorted {score : G → ℝ} {k : ℕ} {l : List G} {x : Bag G} : IsTop score k l x → IsTopU score k l x :=
  fun ⟨r, h1, h2, _, h4⟩ => ⟨r, h1, h2, h4⟩

/-- If at least `k` elements of a bag score at least `s`, so do all the elements of its top `k`. -/
theorem IsTopU.ge_of_card {score : G → ℝ} {k : ℕ} {l : List G} {x : Bag G} (h : IsTopU score k l x) {s : ℝ}
    {T : Multiset G} (hT : T ≤ x.ms) (hk : k ≤ Multiset.card T) (hs : ∀ t ∈ T, s ≤ score t) : ∀ c ∈ l, s ≤ score c := by
  classical
  intro c hc
  by_contra hlt
  push Not at hlt
  obtain ⟨rest, hx, hlen, hrest⟩ := h
  have h1 : T ≤ x.ms.filter fun u => s ≤ score u := Multiset.le_filter.2 ⟨hT, hs⟩
  have h2 : rest.filter (fun u => s ≤ score u) = 0 := by
    rw [Multiset.filter_eq_nil]
    intro b hb; have := hrest c hc b hb; linarith
  rw [hx, Multiset.filter_add, h2, add_zero] at h1
  have h3 : (l : Multiset G).filter (fun u => s ≤ score u) ≤ (l : Multiset G).erase c := by
    rw [← Multiset.cons_erase (show c ∈ (l : Multiset G) from hc), Multiset.filter_cons_of_neg _ (by linarith)]
    rw [Multiset.erase_cons_head]; exact Multiset.filter_le _ _
  have := Multiset.card_le_card (h1.trans h3)
  rw [Multiset.card_erase_of_mem (show c ∈ (l : Multiset G) from hc)] at this
  have h4 : 0 < l.length := List.length_pos_of_mem hc
  simp only [Multiset.coe_card, Nat.pred_eq_sub_one] at this
  omega

theorem IsTop.ge_of_card {score : G → ℝ} {k : ℕ} {l : List G} {x : Bag G} (h : IsTop score k l x) {s : ℝ}
    {T : Multiset G} (hT : T ≤ x.ms) (hk : k ≤ Multiset.card T) (hs : ∀ t ∈ T, s ≤ score t) : ∀ c ∈ l, s ≤ score c :=
  h.unsorted.ge_of_card hT hk hs

/-- A list as a bag. -/
def ofList (l : List G) : Bag G := (l : Multiset G)

@[simp] theorem ms_ofList (l : List G) : (ofList l).ms = (l : Multiset G) := rfl

/-- A raw semiring on lists that selects the top `k` of all sums / of the union. -/
structure IsTopSR (S : SR (List G)) (score : G → ℝ) (k : ℕ) : Prop where
  pos : 0 < k
  score_add : ∀ a b, score (a + b) = score a + score b
  mul : ∀ a b : List G, a.length = k → b.length = k → IsTop score k (S.mul a b) (ofList a * ofList b)
  sum : ∀ xs : List (List G), xs ≠ [] → (∀ x ∈ xs, x.length = k) → IsTop score k (S.sum xs) (ofList xs.flatten)

theorem mul_le_mul_ms {x x' y y' : Bag G} (hx : x.ms ≤ x'.ms) (hy : y.ms ≤ y'.ms) : (x * y).ms ≤ (x' * y').ms := by
  obtain ⟨u, hu⟩ := Multiset.le_iff_exists_add.1 hx
  obtain ⟨v, hv⟩ := Multiset.le_iff_exists_add.1 hy
  have ex : x' = x + (show Bag G from u) := hu
  have ey : y' = y + (show Bag G from v) := hv
  rw [ex, ey, add_mul, mul_add, ms_add, ms_add, add_assoc]
  exact Multiset.le_add_right _ _

theorem card_mul (x y : Bag G) : Multiset.card (x * y).ms = Multiset.card x.ms * Multiset.card y.ms := by
  rw [ms_mul, Multiset.card_bind]
  simp

theorem IsTopSR.mul_of {S : SR (List G)} {score : G → ℝ} {k : ℕ} (M : IsTopSR S score k) {a b : List G} {x y : Bag G}
    (hx : IsTopU score k a x) (hy : IsTopU score k b y) : IsTop score k (S.mul a b) (x * y) := by
    obtain ⟨ra, hxa, hla, hra⟩ := hx
    obtain ⟨rb, hyb, hlb, hrb⟩ := hy
    have htop := M.mul a b hla hlb
    obtain ⟨rest, hr, hlen, hp, hrest⟩ := M.mul a b hla hlb
    have ex : x = ofList a + (show Bag G from ra) := hxa
    have ey : y = ofList b + (show Bag G from rb) := hyb
    have hxy : x * y = ofList a * ofList b + (ofList a * (show Bag G from rb) + (show Bag G from ra) * y) := by
      rw [ex, add_mul, ey, mul_add]; abel
    refine ⟨rest + (ofList a * (show Bag G from rb) + (show Bag G from ra) * y).ms, ?_, hlen, hp, ?_⟩
    · rw [hxy, ms_add, hr, add_assoc]
    · intro c hc u hu
      rcases Multiset.mem_add.1 hu with hu | hu
      · exact hrest c hc u hu
      · rcases Multiset.mem_add.1 hu with hu | hu
        · obtain ⟨p, hpa, q, hq, rfl⟩ := mem_mul.1 hu
          refine htop.ge_of_card (T := (single p * ofList b).ms)
            (mul_le_mul_ms (Multiset.singleton_le.2 hpa) le_rfl) (by rw [card_mul]; simp [hlb]) ?_ c hc
          intro t ht
          obtain ⟨p', hp', q', hq', rfl⟩ := mem_mul.1 ht
          rw [ms_single, Multiset.mem_singleton] at hp'
          subst hp'
          rw [M.score_add, M.score_add]
          have := hrb q' hq' q hq
          linarith
        · obtain ⟨p, hpa, q, hq, rfl⟩ := mem_mul.1 hu
          obtain ⟨q', hq'b, hqq⟩ : ∃ q' ∈ b, score q ≤ score q' := by
            rw [hyb] at hq
            rcases Multiset.mem_add.1 hq with hq | hq
            · exact ⟨q, hq, le_rfl⟩
            · have : 0 < b.length := by rw [hlb]; exact M.pos
              exact ⟨b[0], List.getElem_mem this, hrb _ (List.getElem_mem this) q hq⟩
          refine htop.ge_of_card (T := (ofList a * single q').ms)
            (mul_le_mul_ms le_rfl (Multiset.singleton_le.2 hq'b)) (by rw [card_mul]; simp [hla]) ?_ c hc
          intro t ht
          obtain ⟨p', hp', q'', hq'', rfl⟩ := mem_mul.1 ht
          rw [ms_single, Multiset.mem_singleton] at hq''
          subst hq''
          rw [M.score_add, M.score_add]
          have := hra p' hp' p hpa
          linarith

theorem IsTopSR.sum_of {S : SR (List G)} {score : G → ℝ} {k : ℕ} (M : IsTopSR S score k) {as : List (List G)} {xs : List (Bag G)}
    (hne : as ≠ []) (hf : List.Forall₂ (IsTopU score k) as xs) : IsTop score k (S.sum as) xs.sum := by
    have key : ∃ R : Multiset G, xs.sum.ms = (as.flatten : Multiset G) + R ∧
        (∀ a ∈ as, a.length = k) ∧ ∀ b ∈ R, ∃ a ∈ as, ∀ c ∈ a, score b ≤ score c := by
      clear hne
      induction hf with
      | nil => exact ⟨0, by simp, by simp, by simp⟩
      | cons h _ ih =>
        obtain ⟨r, h1, h2, h4⟩ := h
        obtain ⟨R, h5, h6, h7⟩ := ih
        refine ⟨r + R, ?_, ?_, ?_⟩
        · rw [List.sum_cons, ms_add, h1, h5, List.flatten_cons, ← Multiset.coe_add]; abel
        · intro a ha
          rcases List.mem_cons.1 ha with rfl | ha
          · exact h2
          · exact h6 a ha
        · intro b hb
          rcases Multiset.mem_add.1 hb with hb | hb
          · exact ⟨_, List.mem_cons_self, fun c hc => h4 c hc b hb⟩
          · obtain ⟨a, ha, h8⟩ := h7 b hb
            exact ⟨a, List.mem_cons_of_mem _ ha, h8⟩
    obtain ⟨R, h1, h2, h3⟩ := key
    have htop := M.sum as hne h2
    obtain ⟨rest, hr, hlen, hp, hrest⟩ := M.sum as hne h2
    refine ⟨rest + R, ?_, hlen, hp, ?_⟩
    · rw [h1, ← add_assoc, ← hr]; rfl
    · intro c hc b hb
      rcases Multiset.mem_add.1 hb with hb | hb
      · exact hrest c hc b hb
      · obtain ⟨a, ha, h8⟩ := h3 b hb
        refine htop.ge_of_card (T := (a : Multiset G)) ?_ (by simp [h2 a ha]) h8 c hc
        rw [ms_ofList, Multiset.coe_le]
        exact (List.sublist_flatten_of_mem ha).subperm

theorem IsTopSR.rel {S : SR (List G)} {score : G → ℝ} {k : ℕ} (M : IsTopSR S score k) : SRRel S (IsTop score k) where
  mul hx hy := M.mul_of hx.unsorted hy.unsorted
  sum hne hf := M.sum_of hne (hf.imp fun _ _ h => h.unsorted)

theorem topk_spec (k : ℕ) (xs : List ℝ) (h : k ≤ xs.length) :
    IsTop (fun x : ℝ => x) k (Semirings.topk k xs) (ofList xs) := by
  refine ⟨((xs.insertionSort (· ≥ ·)).drop k : List ℝ), ?_, ?_, ?_, ?_⟩
  · rw [ms_ofList, Semirings.topk, Multiset.coe_add, List.take_append_drop]
    exact (Multiset.coe_eq_coe.2 (List.perm_insertionSort (· ≥ ·) xs)).symm
  · simp [Semirings.topk, h]
  · have := List.pairwise_insertionSort (· ≥ · : ℝ → ℝ → Prop) xs
    exact (this.sublist (List.take_sublist _ _)).imp fun h => h
  · intro a ha b hb
    have := List.pairwise_insertionSort (· ≥ · : ℝ → ℝ → Prop) xs
    rw [← List.take_append_drop k (xs.insertionSort (· ≥ ·)), List.pairwise_append] at this
    exact this.2.2 a ha b (by simpa using hb)

theorem ofList_mul (a b : List G) : ofList a * ofList b = ofList (a.flatMap fun x => b.map fun y => x + y) := by
  apply ext
  rw [ms_mul, ms_ofList, ms_ofList, ms_ofList, ← Multiset.coe_bind]
  rfl

theorem kmax_isTopSR {k : ℕ} (hk : 0 < k) : IsTopSR (Semirings.kmax k) (fun x : ℝ => x) k where
  pos := hk
  score_add _ _ := rfl
  mul a b ha hb := by
    rw [ofList_mul]
    refine topk_spec k _ ?_
    simp only [List.length_flatMap, List.length_map, List.map_const', List.sum_replicate, ha, hb, smul_eq_mul]
    exact Nat.le_mul_of_pos_left k hk
  sum xs hne hx := by
    refine topk_spec k _ ?_
    cases xs with
    | nil => exact absurd rfl hne
    | cons x xs => simp [hx x List.mem_cons_self]

theorem gradKmax_isTopSR {E : Type} {k : ℕ} (hk : 0 < k)
    {sel : List (Autograd.Grad E) → List (Autograd.Grad E)} (hs : Autograd.IsTopk Prod.fst k sel) :
    IsTopSR (Autograd.kmax k sel) Prod.fst k where
  pos := hk
  score_add _ _ := rfl
  mul a b ha hb := by
    rw [ofList_mul]
    refine hs _ ?_
    simp only [List.length_flatMap, List.length_map, List.map_const', List.sum_replicate, ha, hb, smul_eq_mul]
    exact Nat.le_mul_of_pos_left k hk
  sum xs hne hx := by
    refine hs _ ?_
    cases xs with
    | nil => exact absurd rfl hne
    | cons x xs => simp [hx x List.mem_cons_self]

end Bag
