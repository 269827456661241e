import Verif.Model.InfTopk
import Verif.Proofs.InfArgmax

/-! `kmax` and `topk` of dynamic programs whose potentials may be `-inf`. -/

open Finset Spec

noncomputable section
namespace InfTopk
open Bag (ofList single ms_ofList ms_single ms_add mem_mul mul_le_mul_ms card_mul ofList_mul)
variable {G : Type} [AddCommMonoid G]

/-- `l` lists `k` elements of the bag in non-increasing order and nothing left out has a larger score. -/
def IsTopE (score : G → EReal) (k : ℕ) (l : List G) (x : Bag G) : Prop :=
  ∃ rest : Multiset G, x.ms = (l : Multiset G) + rest ∧ l.length = k ∧
    l.Pairwise (fun a b => score b ≤ score a) ∧ ∀ a ∈ l, ∀ b ∈ rest, score b ≤ score a

/-- The same without the order of the list. -/
def IsTopUE (score : G → EReal) (k : ℕ) (l : List G) (x : Bag G) : Prop :=
  ∃ rest : Multiset G, x.ms = (l : Multiset G) + rest ∧ l.length = k ∧ ∀ a ∈ l, ∀ b ∈ rest, score b ≤ score a

variable {score : G → EReal} {k : ℕ}

theorem IsTopE.unsorted {l : List G} {x : Bag G} : IsTopE score k l x → IsTopUE score k l x :=
  fun ⟨r, h1, h2, _, h4⟩ => ⟨r, h1, h2, h4⟩

/-- If at least `k` elements of a bag score at least `s`, so do all the elements of its top `k`. -/
theorem IsTopUE.ge_of_card {l : List G} {x : Bag G} (h : IsTopUE score k l x) {s : EReal}
    {T : Multiset G} (hT : T ≤ x.ms) (hk : k ≤ Multiset.card T) (hs : ∀ t ∈ T, s ≤ score t) : ∀ c ∈ l, s ≤ score c := by
  classical
  intro c hc
  by_contra hlt
  obtain ⟨rest, hx, hlen, hrest⟩ := h
  have h1 : T ≤ x.ms.filter fun u => s ≤ score u := Multiset.le_filter.2 ⟨hT, hs⟩
  have h2 : rest.filter (fun u => s ≤ score u) = 0 := by
    rw [Multiset.filter_eq_nil]
    intro b hb h; exact hlt (h.trans (hrest c hc b hb))
  rw [hx, Multiset.filter_add, h2, add_zero] at h1
  have h3 : (l : Multiset G).filter (fun u => s ≤ score u) ≤ (l : Multiset G).erase c := by
    rw [← Multiset.cons_erase (show c ∈ (l : Multiset G) from hc), Multiset.filter_cons_of_neg (p := fun u => s ≤ score u) _ hlt]
    rw [Multiset.erase_cons_head]; exact Multiset.filter_le _ _
  have := Multiset.card_le_card (h1.trans h3)
  rw [Multiset.card_erase_of_mem (show c ∈ (l : Multiset G) from hc)] at this
  have h4 : 0 < l.length := List.length_pos_of_mem hc
  simp only [Multiset.coe_card, Nat.pred_eq_sub_one] at this
  omega

/-- A raw semiring on lists that selects the top `k` of all sums / of the union. -/
structure IsTopSRE (S : SR (List G)) (score : G → EReal) (k : ℕ) : Prop where
  pos : 0 < k
  score_add : ∀ a b, score (a + b) = score a + score b
  mul : ∀ a b : List G, a.length = k → b.length = k → IsTopE score k (S.mul a b) (ofList a * ofList b)
  sum : ∀ xs : List (List G), xs ≠ [] → (∀ x ∈ xs, x.length = k) → IsTopE score k (S.sum xs) (ofList xs.flatten)

theorem IsTopSRE.mul_of {S : SR (List G)} (M : IsTopSRE S score k) {a b : List G} {x y : Bag G}
    (hx : IsTopUE score k a x) (hy : IsTopUE score k b y) : IsTopE score k (S.mul a b) (x * y) := by
  obtain ⟨ra, hxa, hla, hra⟩ := hx
  obtain ⟨rb, hyb, hlb, hrb⟩ := hy
  have htop := (M.mul a b hla hlb).unsorted
  obtain ⟨rest, hr, hlen, hp, hrest⟩ := M.mul a b hla hlb
  have ex : x = ofList a + (show Bag G from ra) := hxa
  have ey : y = ofList b + (show Bag G from rb) := hyb
  have hxy : x * y = ofList a * ofList b + (ofList a * (show Bag G from rb) + (show Bag G from ra) * y) := by
    rw [ex, add_mul, ey, mul_add]; abel
  refine ⟨rest + (ofList a * (show Bag G from rb) + (show Bag G from ra) * y).ms, ?_, hlen, hp, ?_⟩
  · rw [hxy, ms_add, hr, add_assoc]
  · intro c hc u hu
    rcases Multiset.mem_add.1 hu with hu | hu
    · exact hrest c hc u hu
    · rcases Multiset.mem_add.1 hu with hu | hu
      · obtain ⟨p, hpa, q, hq, rfl⟩ := mem_mul.1 hu
        refine htop.ge_of_card (T := (single p * ofList b).ms)
          (mul_le_mul_ms (Multiset.singleton_le.2 hpa) le_rfl) (by rw [card_mul]; simp [hlb]) ?_ c hc
        intro t ht
        obtain ⟨p', hp', q', hq', rfl⟩ := mem_mul.1 ht
        rw [ms_single, Multiset.mem_singleton] at hp'
        subst hp'
        rw [M.score_add, M.score_add]
        exact add_le_add le_rfl (hrb q' hq' q hq)
      · obtain ⟨p, hpa, q, hq, rfl⟩ := mem_mul.1 hu
        obtain ⟨q', hq'b, hqq⟩ : ∃ q' ∈ b, score q ≤ score q' := by
          rw [hyb] at hq
          rcases Multiset.mem_add.1 hq with hq | hq
          · exact ⟨q, hq, le_rfl⟩
          · have : 0 < b.length := by rw [hlb]; exact M.pos
            exact ⟨b[0], List.getElem_mem this, hrb _ (List.getElem_mem this) q hq⟩
        refine htop.ge_of_card (T := (ofList a * single q').ms)
          (mul_le_mul_ms le_rfl (Multiset.singleton_le.2 hq'b)) (by rw [card_mul]; simp [hla]) ?_ c hc
        intro t ht
        obtain ⟨p', hp', q'', hq'', rfl⟩ := mem_mul.1 ht
        rw [ms_single, Multiset.mem_singleton] at hq''
        subst hq''
        rw [M.score_add, M.score_add]
        exact add_le_add (hra p' hp' p hpa) hqq

theorem IsTopSRE.sum_of {S : SR (List G)} (M : IsTopSRE S score k) {as : List (List G)} {xs : List (Bag G)}
    (hne : as ≠ []) (hf : List.Forall₂ (IsTopUE score k) as xs) : IsTopE score k (S.sum as) xs.sum := by
  have key : ∃ R : Multiset G, xs.sum.ms = (as.flatten : Multiset G) + R ∧
      (∀ a ∈ as, a.length = k) ∧ ∀ b ∈ R, ∃ a ∈ as, ∀ c ∈ a, score b ≤ score c := by
    clear hne
    induction hf with
    | nil => exact ⟨0, by simp, by simp, by simp⟩
    | cons h _ ih =>
      obtain ⟨r, h1, h2, h4⟩ := h
      obtain ⟨R, h5, h6, h7⟩ := ih
      refine ⟨r + R, ?_, ?_, ?_⟩
      · rw [List.sum_cons, ms_add, h1, h5, List.flatten_cons, ← Multiset.coe_add]; abel
      · intro a ha
        rcases List.mem_cons.1 ha with rfl | ha
        · exact h2
        · exact h6 a ha
      · intro b hb
        rcases Multiset.mem_add.1 hb with hb | hb
        · exact ⟨_, List.mem_cons_self, fun c hc => h4 c hc b hb⟩
        · obtain ⟨a, ha, h8⟩ := h7 b hb
          exact ⟨a, List.mem_cons_of_mem _ ha, h8⟩
  obtain ⟨R, h1, h2, h3⟩ := key
  have htop := (M.sum as hne h2).unsorted
  obtain ⟨rest, hr, hlen, hp, hrest⟩ := M.sum as hne h2
  refine ⟨rest + R, ?_, hlen, hp, ?_⟩
  · rw [h1, ← add_assoc, ← hr]; rfl
  · intro c hc b hb
    rcases Multiset.mem_add.1 hb with hb | hb
    · exact hrest c hc b hb
    · obtain ⟨a, ha, h8⟩ := h3 b hb
      refine htop.ge_of_card (T := (a : Multiset G)) ?_ (by simp [h2 a ha]) h8 c hc
      rw [ms_ofList, Multiset.coe_le]
      exact (List.sublist_flatten_of_mem ha).subperm

/-- A top `k`, which is in order unless all of it is at or below `z`. -/
def Mostly (score : G → EReal) (z : EReal) (k : ℕ) (l : List G) (x : Bag G) : Prop :=
  IsTopUE score k l x ∧ (l.Pairwise (fun a b => score b ≤ score a) ∨ ∀ a ∈ l, score a ≤ z)

theorem IsTopE.mostly {l : List G} {x : Bag G} {z : EReal} (h : IsTopE score k l x) : Mostly score z k l x :=
  ⟨h.unsorted, Or.inl h.choose_spec.2.2.1⟩

theorem IsTopSRE.rel {S : SR (List G)} (M : IsTopSRE S score k) (z : EReal) : SRRel S (Mostly score z k) where
  mul hx hy := (M.mul_of hx.1 hy.1).mostly
  sum hne hf := (M.sum_of hne (hf.imp fun _ _ h => h.1)).mostly

theorem topkE_spec (k : ℕ) (xs : List EReal) (h : k ≤ xs.length) :
    IsTopE (fun x : EReal => x) k (Semirings.topkE k xs) (ofList xs) := by
  refine ⟨((xs.insertionSort (· ≥ ·)).drop k : List EReal), ?_, ?_, ?_, ?_⟩
  · rw [ms_ofList, Semirings.topkE, Multiset.coe_add, List.take_append_drop]
    exact (Multiset.coe_eq_coe.2 (List.perm_insertionSort (· ≥ ·) xs)).symm
  · simp [Semirings.topkE, h]
  · have := List.pairwise_insertionSort (· ≥ · : EReal → EReal → Prop) xs
    exact (this.sublist (List.take_sublist _ _)).imp fun h => h
  · intro a ha b hb
    have := List.pairwise_insertionSort (· ≥ · : EReal → EReal → Prop) xs
    rw [← List.take_append_drop k (xs.insertionSort (· ≥ ·)), List.pairwise_append] at this
    exact this.2.2 a ha b (by simpa using hb)

theorem long_mul {A : Type} {a b : List A} {f : A → A → A} (hk : 0 < k) (ha : a.length = k) (hb : b.length = k) :
    k ≤ (a.flatMap fun x => b.map fun y => f x y).length := by
  simp only [List.length_flatMap, List.length_map, List.map_const', List.sum_replicate, ha, hb, smul_eq_mul]
  exact Nat.le_mul_of_pos_left k hk

theorem long_sum {A : Type} {xs : List (List A)} (hne : xs ≠ []) (hx : ∀ x ∈ xs, x.length = k) : k ≤ xs.flatten.length := by
  cases xs with
  | nil => exact absurd rfl hne
  | cons x xs => simp [hx x List.mem_cons_self]

theorem kmaxE_isTopSR (hk : 0 < k) : IsTopSRE (Semirings.kmaxE k) (fun x : EReal => x) k where
  pos := hk
  score_add _ _ := rfl
  mul a b ha hb := by
    rw [ofList_mul]
    exact topkE_spec k _ (long_mul hk ha hb)
  sum xs hne hx := topkE_spec k _ (long_sum hne hx)

theorem gradKmaxE_isTopSR {E : Type} (hk : 0 < k) {sel : List (Autograd.GradE E) → List (Autograd.GradE E)}
    (hs : Autograd.IsTopkE Prod.fst k sel) : IsTopSRE (Autograd.kmaxE k sel) Prod.fst k where
  pos := hk
  score_add _ _ := rfl
  mul a b ha hb := by
    rw [ofList_mul]
    exact hs _ (long_mul hk ha hb)
  sum xs hne hx := hs _ (long_sum hne hx)

/-! ### Structures and everything else -/

/-- `x` consists of the elements of `r`, all of score at most `U`, and of further elements of score at most `z + U`. -/
def SplitE (score : G → EReal) (z U : ℝ) (r x : Bag G) : Prop :=
  ∃ p : Bag G, x = r + p ∧ (∀ a ∈ r.ms, score a ≤ (U : ℝ)) ∧ ∀ a ∈ p.ms, score a ≤ ((z + U : ℝ) : EReal)

variable {z : ℝ}

theorem SplitE.one (h0 : score 0 = 0) : SplitE score z 0 (1 : Bag G) 1 := ⟨0, by simp, by simp [h0], by simp⟩

theorem add_le {a b : EReal} {u v w : ℝ} (ha : a ≤ (u : ℝ)) (hb : b ≤ (v : ℝ)) (h : u + v ≤ w) : a + b ≤ (w : ℝ) :=
  (add_le_add ha hb).trans (by rw [← EReal.coe_add]; exact EReal.coe_le_coe_iff.2 h)

theorem SplitE.mul (hadd : ∀ a b, score (a + b) = score a + score b) (hz : z ≤ 0) {U U' : ℝ} {r x r' x' : Bag G}
    (h : SplitE score z U r x) (h' : SplitE score z U' r' x') : SplitE score z (U + U') (r * r') (x * x') := by
  obtain ⟨p, rfl, h1, h2⟩ := h
  obtain ⟨p', rfl, h1', h2'⟩ := h'
  refine ⟨r * p' + p * r' + p * p', by ring, ?_, ?_⟩
  · intro a ha
    obtain ⟨u, hu, v, hv, rfl⟩ := mem_mul.1 ha
    rw [hadd]; exact add_le (h1 u hu) (h1' v hv) le_rfl
  · intro a ha
    rw [ms_add, ms_add, Multiset.mem_add, Multiset.mem_add] at ha
    rcases ha with (ha | ha) | ha <;> obtain ⟨u, hu, v, hv, rfl⟩ := mem_mul.1 ha <;> rw [hadd]
    · exact add_le (h1 u hu) (h2' v hv) (by linarith)
    · exact add_le (h2 u hu) (h1' v hv) (by linarith)
    · exact add_le (h2 u hu) (h2' v hv) (by linarith)

theorem SplitE.sum {ι : Type} (s : Finset ι) {U : ℝ} {r x : ι → Bag G} (h : ∀ i ∈ s, SplitE score z U (r i) (x i)) :
    SplitE score z U (∑ i ∈ s, r i) (∑ i ∈ s, x i) := by
  classical
  induction s using Finset.induction_on with
  | empty => exact ⟨0, by simp, by simp, by simp⟩
  | insert a s ha ih =>
    obtain ⟨p, h1, h2, h3⟩ := ih fun i hi => h i (mem_insert_of_mem hi)
    obtain ⟨p', h1', h2', h3'⟩ := h a (mem_insert_self _ _)
    refine ⟨p' + p, by rw [sum_insert ha, sum_insert ha, h1, h1']; abel, ?_, ?_⟩
    · intro u hu
      rw [sum_insert ha, ms_add, Multiset.mem_add] at hu
      exact hu.elim (h2' u) (h2 u)
    · intro u hu
      rw [ms_add, Multiset.mem_add] at hu
      exact hu.elim (h3' u) (h3 u)

theorem SplitE.mono {U U' : ℝ} {r x : Bag G} (h : SplitE score z U r x) (hU : U ≤ U') : SplitE score z U' r x := by
  obtain ⟨p, h1, h2, h3⟩ := h
  exact ⟨p, h1, fun a ha => (h2 a ha).trans (EReal.coe_le_coe_iff.2 hU), fun a ha => (h3 a ha).trans (EReal.coe_le_coe_iff.2 (by linarith))⟩

theorem SplitE.mprod (hadd : ∀ a b, score (a + b) = score a + score b) (h0 : score 0 = 0) (hz : z ≤ 0) {A : Type} (m : Multiset A)
    {U : A → ℝ} {r x : A → Bag G} (h : ∀ i ∈ m, SplitE score z (U i) (r i) (x i)) :
    SplitE score z (m.map U).sum (m.map r).prod (m.map x).prod := by
  induction m using Multiset.induction_on with
  | empty => simpa using SplitE.one h0
  | cons a m ih =>
    simp only [Multiset.map_cons, Multiset.prod_cons, Multiset.sum_cons]
    exact (h a (Multiset.mem_cons_self a m)).mul hadd hz (ih fun i hi => h i (Multiset.mem_cons_of_mem hi))

theorem sorted_split (c : EReal) (p : G → Prop) [DecidablePred p] (hp : ∀ a, p a ↔ c < score a) (l : List G) (h : l.Pairwise fun a b => score b ≤ score a) :
    l = l.filter p ++ l.filter fun a => ¬ p a := by
  induction l with
  | nil => rfl
  | cons a l ih =>
    rw [List.pairwise_cons] at h
    by_cases ha : p a
    · simp only [List.filter_cons, ha, decide_true, if_true, not_true_eq_false, decide_false, Bool.false_eq_true, if_false, List.cons_append]
      exact congrArg _ (ih h.2)
    · have hl : ∀ b ∈ l, ¬ p b := fun b hb hpb => ha ((hp a).2 (((hp b).1 hpb).trans_le (h.1 b hb)))
      have e1 : l.filter p = [] := by simpa using hl
      have e2 := ih h.2
      rw [e1, List.nil_append] at e2
      simp only [List.filter_cons, ha, decide_false, if_false, not_false_eq_true, decide_true, if_true, Bool.false_eq_true, e1, List.nil_append]
      exact congrArg _ e2

/-- If the elements of `r` beat all the others, the top `k` of the whole begins with the best of `r`; when there are fewer than `k`, the rest of it is not in `r`. -/
theorem mostly_split {U c : ℝ} {l : List G} {r x : Bag G} (hk : 0 < k) (ht : Mostly score c k l x) (hs : SplitE score z U r x) (hc : c ≤ z + U)
    (hlow : ∀ a ∈ r.ms, ((z + U : ℝ) : EReal) < score a) :
    ∃ l1 l2, l = l1 ++ l2 ∧ IsTopE score (min k (Multiset.card r.ms)) l1 r ∧ ∀ a ∈ l2, score a ≤ ((z + U : ℝ) : EReal) := by
  classical
  obtain ⟨p, rfl, _, hp⟩ := hs
  obtain ⟨⟨rest, hx, hlen, hrest⟩, hsort⟩ := ht
  rw [ms_add] at hx
  have hr : (r.ms + p.ms).filter (fun a => ((z + U : ℝ) : EReal) < score a) = r.ms := by
    rw [Multiset.filter_add, Multiset.filter_eq_self.2 hlow, Multiset.filter_eq_nil.2 fun a ha => not_lt.2 (hp a ha), add_zero]
  have hr' := hr
  rw [hx, Multiset.filter_add, Multiset.filter_coe] at hr'
  rcases hsort with hsort | hsort
  · have hsp := sorted_split (score := score) ((z + U : ℝ) : EReal) (fun a => ((z + U : ℝ) : EReal) < score a) (fun _ => Iff.rfl) l hsort
    by_cases hq : ∃ b ∈ rest, ((z + U : ℝ) : EReal) < score b
    · obtain ⟨b, hb, hb'⟩ := hq
      have hall : ∀ a ∈ l, ((z + U : ℝ) : EReal) < score a := fun a ha => hb'.trans_le (hrest a ha b hb)
      have e : l.filter (fun a => ((z + U : ℝ) : EReal) < score a) = l := List.filter_eq_self.2 fun a ha => decide_eq_true (hall a ha)
      rw [e] at hr'
      refine ⟨l, [], by simp, ⟨rest.filter fun a => ((z + U : ℝ) : EReal) < score a, hr'.symm, ?_, hsort, fun a ha b hb => hrest a ha b (Multiset.mem_filter.1 hb).1⟩, by simp⟩
      rw [← hr', Multiset.card_add, Multiset.coe_card, hlen]; omega
    · have e : rest.filter (fun a => ((z + U : ℝ) : EReal) < score a) = 0 := Multiset.filter_eq_nil.2 fun a ha h => hq ⟨a, ha, h⟩
      rw [e, add_zero] at hr'
      refine ⟨_, _, hsp, ⟨0, by rw [add_zero]; exact hr'.symm, ?_, hsort.filter _, by simp⟩, ?_⟩
      · rw [← hr', Multiset.coe_card]
        have := List.length_filter_le (fun a => decide (((z + U : ℝ) : EReal) < score a)) l
        omega
      · intro a ha
        simpa using (List.mem_filter.1 ha).2
  · have h0 : r.ms = 0 := by
      refine Multiset.eq_zero_of_forall_notMem fun a ha => ?_
      have h1 := hlow a ha
      have h2 : a ∈ (l : Multiset G) + rest := by rw [← hx]; exact Multiset.mem_add.2 (Or.inl ha)
      have h3 : score a ≤ c := by
        rcases Multiset.mem_add.1 h2 with h2 | h2
        · exact hsort a h2
        · have : 0 < l.length := by omega
          exact (hrest _ (List.getElem_mem this) a h2).trans (hsort _ (List.getElem_mem this))
      exact absurd (h1.trans_le h3) (not_lt.2 (EReal.coe_le_coe_iff.2 hc))
    refine ⟨[], l, rfl, ⟨0, by simp [h0], by simp [h0], List.Pairwise.nil, by simp⟩, fun a ha => (hsort a ha).trans (EReal.coe_le_coe_iff.2 hc)⟩

/-- A top `k` of a family: `k` different members, in non-increasing order of score, beating all other members. -/
theorem top_familyE {ι : Type} [Fintype ι] {f : ι → G} {l : List G} {s : ι → ℝ} (hs : ∀ y, score (f y) = s y)
    (h : IsTopE score k l (∑ y, single (f y))) : ∃ ys : List ι, IsKBest s k ys ∧ l = ys.map f := by
  classical
  obtain ⟨rest, hx, hlen, hpw, hrest⟩ := h
  have e : (∑ y, single (f y)).ms = (univ : Finset ι).val.map f := by
    rw [Bag.ms_sum, ← Multiset.sum_map_singleton ((univ : Finset ι).val.map f), Multiset.map_map]
    rfl
  rw [e] at hx
  obtain ⟨ys, us, h1, h2, h3⟩ := ChainTop.lift_list f l _ _ hx
  have hnd : (univ : Finset ι).val.Nodup := univ.nodup
  refine ⟨ys, ⟨?_, ?_, ?_, ?_⟩, h2.symm⟩
  · rw [h1, Multiset.nodup_add] at hnd
    exact hnd.1
  · rw [← hlen, ← h2, List.length_map]
  · rw [← h2, List.pairwise_map] at hpw
    refine hpw.imp fun {a b} h => ?_
    rw [hs, hs] at h
    exact_mod_cast h
  · intro y' hy' y hy
    have hu : y' ∈ us := by
      have : y' ∈ (univ : Finset ι).val := mem_univ y'
      rw [h1, Multiset.mem_add] at this
      exact this.resolve_left hy'
    have := hrest (f y) (by rw [← h2]; exact List.mem_map_of_mem hy) (f y') (by rw [← h3]; exact Multiset.mem_map_of_mem f hu)
    rw [hs, hs] at this
    exact_mod_cast this

/-! ### The k-best semirings -/

theorem mostly_const (l : List G) (c : EReal) (hk : l.length = k) (h : ∀ a ∈ l, score a ≤ c) : Mostly score c k l (ofList l) :=
  ⟨⟨0, by simp, hk, by simp⟩, Or.inr h⟩

theorem headList_mostly (hk : 0 < k) (x r : G) {c : EReal} (hr : score r = c) :
    Mostly score c k (ChainTop.headList k x r) (single x + ofList (List.replicate (k - 1) r)) := by
  obtain ⟨m, rfl⟩ : ∃ m, k = m + 1 := ⟨k - 1, by omega⟩
  rw [ChainTop.headList_succ]
  refine ⟨⟨0, ?_, by simp, by simp⟩, ?_⟩
  · simp only [ms_add, ms_single, ms_ofList, add_zero, Nat.add_sub_cancel]
    rfl
  · by_cases h : score r ≤ score x
    · left
      rw [List.pairwise_cons]
      refine ⟨fun a ha => by rw [List.eq_of_mem_replicate ha]; exact h, ?_⟩
      rw [List.pairwise_replicate]
      exact Or.inr le_rfl
    · right
      intro a ha
      rcases List.mem_cons.1 ha with rfl | ha
      · exact (not_le.1 h).le.trans hr.le
      · rw [List.eq_of_mem_replicate ha, hr]

/-- The k-best semirings of the model: slots are `G`s, `zz` is the slot of `zero`. -/
structure KSRE (S : SR (List G)) (score : G → EReal) (k : ℕ) (zz : G) (z : ℝ) : Prop where
  top : IsTopSRE S score k
  score0 : score 0 = 0
  scorez : score zz = (z : ℝ)
  zneg : z ≤ 0
  zero : S.zero = List.replicate k zz
  one : S.one = ChainTop.headList k 0 zz
  raw0 : S.raw0.length = k
  detach_len : ∀ xs, (S.detach xs).length = xs.length
  detach_score : ∀ xs, (S.detach xs).map score = xs.map score
  detach_zero : S.detach S.zero = S.zero
  detach_one : S.detach S.one = S.one
  set_len : ∀ xs vs, xs.length = k → vs.length = k → (S.setData xs vs).length = k
  set_score : ∀ xs vs, xs.length = k → vs.length = k → (S.setData xs vs).map score = vs.map score
  set_self : ∀ xs, S.setData xs (S.detach xs) = xs
  raw : S.setData S.raw0 S.zero = S.zero
  dzz : S.detach (S.setData S.zero S.zero) = S.zero
  doz : S.detach (S.setData S.one S.zero) = S.zero

theorem ksrE_val (hk : 0 < k) : KSRE (Semirings.kmaxE k) (fun x : EReal => x) k ((Semirings.negInf : ℝ) : EReal) (-100000) where
  top := kmaxE_isTopSR hk
  score0 := rfl
  scorez := rfl
  zneg := by norm_num
  zero := rfl
  one := rfl
  raw0 := List.length_replicate ..
  detach_len _ := rfl
  detach_score _ := rfl
  detach_zero := rfl
  detach_one := rfl
  set_len _ _ _ h := h
  set_score _ _ _ _ := rfl
  set_self _ := rfl
  raw := rfl
  dzz := rfl
  doz := rfl

theorem zip_score {E : Type} (xs vs : List (Autograd.GradE E)) (h : xs.length = vs.length) :
    (List.zipWith (fun x v : Autograd.GradE E => ((v.1, x.2) : Autograd.GradE E)) xs vs).map Prod.fst = vs.map Prod.fst := by
  induction xs generalizing vs with
  | nil =>
    cases vs with
    | nil => rfl
    | cons v vs => simp at h
  | cons a l ih =>
    cases vs with
    | nil => simp at h
    | cons v vs => simp only [List.zipWith_cons_cons, List.map_cons, ih vs (by simpa using h)]

theorem zip_detach {E : Type} (l : List (Autograd.GradE E)) (v : Autograd.GradE E) :
    (List.zipWith (fun x v : Autograd.GradE E => ((v.1, x.2) : Autograd.GradE E)) l (List.replicate l.length v)).map (fun x => ((x.1, 0) : Autograd.GradE E)) =
      List.replicate l.length (v.1, 0) := by
  induction l with
  | nil => rfl
  | cons a l ih => simp only [List.length_cons, List.replicate_succ, List.zipWith_cons_cons, List.map_cons, ih]

theorem ksrE_grad {E : Type} (hk : 0 < k) {sel : List (Autograd.GradE E) → List (Autograd.GradE E)}
    (hsel : Autograd.IsTopkE Prod.fst k sel) :
    KSRE (Autograd.kmaxE k sel) Prod.fst k ((((Semirings.negInf : ℝ) : EReal), 0) : Autograd.GradE E) (-100000) where
  top := gradKmaxE_isTopSR hk hsel
  score0 := rfl
  scorez := rfl
  zneg := by norm_num
  zero := rfl
  one := rfl
  raw0 := List.length_replicate ..
  detach_len xs := List.length_map ..
  detach_score xs := by
    change (xs.map _).map Prod.fst = _
    rw [List.map_map]; rfl
  detach_zero := by
    change (List.replicate k _).map _ = List.replicate k _
    rw [List.map_replicate]
  detach_one := by
    change ((List.range k).map _).map _ = (List.range k).map _
    rw [List.map_map]
    refine List.map_congr_left fun i _ => ?_
    by_cases h : i = 0 <;> simp [h]
  set_len xs vs h1 h2 := by
    change (List.zipWith _ xs vs).length = k
    simp [h1, h2]
  set_score xs vs h1 h2 := zip_score xs vs (h1.trans h2.symm)
  set_self xs := by
    change List.zipWith _ xs (xs.map _) = xs
    rw [List.zipWith_map_right]
    induction xs with
    | nil => rfl
    | cons a l ih => rw [List.zipWith_cons_cons, ih]
  raw := by
    change List.zipWith _ (List.replicate k _) (List.replicate k _) = List.replicate k _
    simp
  dzz := by
    change (List.zipWith _ (List.replicate k _) (List.replicate k _)).map _ = List.replicate k _
    simp
  doz := by
    have h := zip_detach ((List.range k).map fun i => if i = 0 then ((0, 0) : Autograd.GradE E) else (((Semirings.negInf : ℝ) : EReal), 0)) (((Semirings.negInf : ℝ) : EReal), 0)
    simp only [List.length_map, List.length_range] at h
    exact h

namespace KSRE
variable {S : SR (List G)} {zz : G} (H : KSRE S score k zz z)
include H

theorem zero_len : S.zero.length = k := by simp [H.zero]
theorem one_len : S.one.length = k := by simp [H.one, ChainTop.headList]

theorem mem_set {xs : List G} (hx : xs.length = k) : ∀ a ∈ S.setData xs S.zero, score a = (z : ℝ) := by
  intro a ha
  have h1 : score a ∈ (S.setData xs S.zero).map score := List.mem_map_of_mem ha
  rw [H.set_score xs _ hx H.zero_len, H.zero, List.map_replicate] at h1
  rw [List.eq_of_mem_replicate h1, H.scorez]

theorem mem_rep (m : ℕ) : ∀ a ∈ (ofList (List.replicate m zz)).ms, score a = (z : ℝ) := by
  intro a ha
  rw [ms_ofList, Multiset.mem_coe] at ha
  rw [List.eq_of_mem_replicate ha, H.scorez]

theorem tame : Generic.Tame S (Mostly score (z : ℝ) k) (ofList (List.replicate k zz)) (1 + ofList (List.replicate (k - 1) zz)) := by
  have hz : Mostly score (z : ℝ) k S.zero (ofList (List.replicate k zz)) := by
    rw [H.zero]
    exact mostly_const _ _ (by simp) fun a ha => by rw [List.eq_of_mem_replicate ha, H.scorez]
  have ho : Mostly score (z : ℝ) k S.one (1 + ofList (List.replicate (k - 1) zz)) := by
    rw [H.one]
    exact headList_mostly H.top.pos 0 zz H.scorez
  constructor
  case zero => exact hz
  case one => exact ho
  case keep => intro a x h; rw [H.set_self]; exact h
  case raw => rw [H.raw]; exact hz
  case dzz => rw [H.dzz]; exact hz
  case doz => rw [H.doz]; exact hz
  case dzk => rw [H.set_self, H.detach_zero]; exact hz
  case dok => rw [H.set_self, H.detach_one]; exact ho

end KSRE
end InfTopk
