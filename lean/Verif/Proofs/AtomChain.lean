import Mathlib.Algebra.BigOperators.Ring.Finset
import Verif.Proofs.RowDP
import Verif.Proofs.Chain

/-! Scans over matrices whose entries are sums of factors: the paths through the matrices are the structures. -/

open Finset Spec ChainProofs

noncomputable section

theorem ChainProofs.segProd_apply {R : Type} [CommSemiring R] {C : ℕ} (w : ℕ → Fin C → Fin C → R) (m : ℕ) (i j : Fin C) :
    segProd w 0 m i j = ∑ y : {y : Tags m C // y (Fin.last m) = i ∧ y 0 = j}, seqProd w y.1 := by
  have key : segProd w 0 m i j = ∑ y : Tags m C, if y (Fin.last m) = i ∧ y 0 = j then seqProd w y else 0 := by
    induction m generalizing i with
    | zero =>
      simp only [segProd, Matrix.one_apply, seqProd, univ_eq_empty, prod_empty]
      rw [← (Equiv.funUnique (Fin 1) (Fin C)).symm.sum_comp]
      simp only [Equiv.funUnique_symm_apply]
      have : ∀ x : Fin C, (uniqueElim (α := fun _ : Fin 1 => Fin C) x (Fin.last 0) = i ∧ uniqueElim (α := fun _ : Fin 1 => Fin C) x 0 = j) ↔ (x = i ∧ x = j) := fun x => Iff.rfl
      simp only [this]
      by_cases h : i = j
      · subst h; simp
      · rw [if_neg h]
        symm
        refine sum_eq_zero fun x _ => if_neg ?_
        rintro ⟨rfl, rfl⟩; exact h rfl
    | succ m ih =>
      simp only [segProd, Matrix.mul_apply, Nat.zero_add, Matrix.of_apply, ih]
      rw [← (Fin.snocEquiv (fun _ : Fin (m + 1 + 1) => Fin C)).sum_comp, Fintype.sum_prod_type]
      simp only [Fin.snocEquiv, Equiv.coe_fn_mk, Fin.snoc_last]
      have key : ∀ (y : Tags m C) (c : Fin C), seqProd w (Fin.snoc (α := fun _ => Fin C) y c : Tags (m + 1) C) =
          w m c (y (Fin.last m)) * seqProd w y := by
        intro y c
        simp only [seqProd, Fin.prod_univ_castSucc, Fin.succ_castSucc, Fin.snoc_castSucc, Fin.val_castSucc, Fin.succ_last,
          Fin.snoc_last, Fin.val_last]
        rw [mul_comm]
      have h0 : ∀ (y : Tags m C) (c : Fin C), (Fin.snoc (α := fun _ => Fin C) y c : Tags (m + 1) C) 0 = y 0 := by
        intro y c
        exact Fin.snoc_castSucc (α := fun _ => Fin C) (p := y) (x := c) (i := 0)
      simp only [key, h0]
      conv_rhs => rw [sum_eq_single i (fun c _ hc => sum_eq_zero fun y _ => if_neg fun h => hc h.1) (by simp)]
      simp only [true_and, mul_sum]
      rw [sum_comm]
      refine sum_congr rfl fun y _ => ?_
      rw [sum_eq_single (y (Fin.last m))]
      · simp
      · intro k _ hk
        rw [if_neg (fun h => hk h.1.symm), mul_zero]
      · simp
  rw [key, ← sum_filter]
  exact sum_subtype _ (by simp) _

namespace Generic.AtomChain

/-- A path through `M` matrices over `m` states, from a state `st c` to a state `st c'`, with the choice of one factor at each step. -/
def Path {m C : ℕ} (st : Fin C → Fin m) (cell : ℕ → Fin m → Fin m → List Atom) (M : ℕ) : Type :=
  Σ c : Fin C × Fin C, Σ y : {y : Tags M m // y (Fin.last M) = st c.1 ∧ y 0 = st c.2},
    ∀ n : Fin M, Fin (cell n (y.1 n.succ) (y.1 n.castSucc)).length

variable {m C : ℕ} {st : Fin C → Fin m} {cell : ℕ → Fin m → Fin m → List Atom} {M : ℕ}

instance : Fintype (Path st cell M) := by unfold Path; infer_instance

/-- The factor that a path takes at step `n`. -/
def Path.atom (x : Path st cell M) (n : Fin M) : Atom := (cell n (x.2.1.1 n.succ) (x.2.1.1 n.castSucc))[x.2.2 n]

theorem Path.atom_mem (x : Path st cell M) (n : Fin M) : x.atom n ∈ cell n (x.2.1.1 n.succ) (x.2.1.1 n.castSucc) := List.getElem_mem _

/-- The factors of a path. -/
def Path.atoms (x : Path st cell M) : Multiset Atom := (univ : Finset (Fin M)).val.map x.atom

theorem sum_paths {R : Type} [CommSemiring R] (w : Atom → R) :
    ∑ i, ∑ j, segProd (fun n i j => ((cell n i j).map w).sum) 0 M (st i) (st j) = ∑ x : Path st cell M, (x.atoms.map w).prod := by
  rw [← Fintype.sum_prod_type']
  unfold Path
  rw [Fintype.sum_sigma]
  refine sum_congr rfl fun c _ => ?_
  rw [segProd_apply, Fintype.sum_sigma]
  refine sum_congr rfl fun y _ => ?_
  have : ∀ l : List Atom, (l.map w).sum = ∑ a : Fin l.length, w l[a] := by
    intro l
    rw [← List.sum_ofFn]
    congr 1
    refine List.ext_getElem (by simp) fun i h1 h2 => by simp
  simp only [seqProd, this]
  rw [Finset.prod_univ_sum, Fintype.piFinset_univ]
  refine sum_congr rfl fun x _ => ?_
  unfold Path.atoms
  rw [Multiset.map_map]
  rfl

/-- The paths that take at least one stand-in. -/
def Phantom (st : Fin C → Fin m) (cell : ℕ → Fin m → Fin m → List Atom) (M : ℕ) : Type :=
  {x : Path st cell M // ∃ n, (x.atom n).leak}

open Classical in
instance : Fintype (Phantom st cell M) := by unfold Phantom; infer_instance

/-- The factors of a phantom. -/
def Phantom.atoms (x : Phantom st cell M) : Multiset Atom := x.1.atoms

theorem sum_split {R : Type} [CommSemiring R] (wp wm : List ℕ → R) (ζ ω : R) :
    ∑ i, ∑ j, segProd (fun n i j => ((cell n i j).map (Atom.weight wp wm ζ ω)).sum) 0 M (st i) (st j) =
      ∑ i, ∑ j, segProd (fun n i j => ((cell n i j).map (Atom.weight wp 0 0 ω)).sum) 0 M (st i) (st j) +
        ∑ x : Phantom st cell M, (x.atoms.map (Atom.weight wp wm ζ ω)).prod := by
  classical
  rw [sum_paths, sum_paths]
  have h1 : ∑ x : Phantom st cell M, (x.atoms.map (Atom.weight wp wm ζ ω)).prod =
      ∑ x : Path st cell M, if ∃ n, (x.atom n).leak then (x.atoms.map (Atom.weight wp wm ζ ω)).prod else 0 := by
    rw [← sum_filter]
    symm
    exact sum_subtype (p := fun x : Path st cell M => ∃ n, (x.atom n).leak) _ (by simp) fun x => (x.atoms.map (Atom.weight wp wm ζ ω)).prod
  rw [h1, ← sum_add_distrib]
  refine sum_congr rfl fun x _ => ?_
  split_ifs with h
  · obtain ⟨n, hn⟩ := h
    have : (x.atoms.map (Atom.weight wp (0 : List ℕ → R) 0 ω)).prod = 0 := by
      refine Multiset.prod_eq_zero (Multiset.mem_map.2 ⟨x.atom n, Multiset.mem_map.2 ⟨n, mem_univ_val n, rfl⟩, ?_⟩)
      cases e : x.atom n <;> simp_all [Atom.leak, Atom.weight]
    rw [this, zero_add]
  · push Not at h
    rw [add_zero]
    congr 1
    refine Multiset.map_congr rfl fun a ha => ?_
    obtain ⟨n, -, rfl⟩ := Multiset.mem_map.1 ha
    have := h n
    cases e : x.atom n <;> simp_all [Atom.leak, Atom.weight]

/-- A scan over such matrices, summed over the states `st`, is a `RowDP`: its structures are given by `real`. -/
theorem rowDP {row : (α : Type) → SR α → (List ℕ → α) → α} {b : ℕ} {E : List ℕ → Prop} {ι : Type} [Fintype ι]
    {parts : ι → Multiset (List ℕ)} {ones : ι → ℕ}
    (hrow : ∀ {α R : Type} [CommSemiring R] {S : SR α} {ρ : α → R → Prop} {ζ ω : R}, SRRel S ρ → Tame S ρ ζ ω →
      ∀ {x : List ℕ → α} {wp wm : List ℕ → R}, (∀ e, E e → ρ (x e) (wp e)) → (∀ e, ρ (S.setData (x e) S.zero) (wm e)) →
      ρ (row α S x) (∑ i, ∑ j, segProd (fun n i j => ((cell n i j).map (Atom.weight wp wm ζ ω)).sum) 0 M (st i) (st j)))
    (real : ∀ {R : Type} [CommSemiring R] (wp : List ℕ → R) (ω : R),
      ∑ i, ∑ j, segProd (fun n i j => ((cell n i j).map (Atom.weight wp 0 0 ω)).sum) 0 M (st i) (st j) =
        ∑ y, ((parts y).map wp).prod * ω ^ ones y)
    (partE : ∀ y, ∀ e ∈ parts y, E e) (potE : ∀ n i j e, n < M → Atom.pot e ∈ cell n i j → E e) (head : ∀ e, E e → e.head? = some b)
    (headM : ∀ n i j e, n < M → Atom.masked e ∈ cell n i j → e.head? = some b) :
    RowDP row b E parts ones (Phantom.atoms (st := st) (cell := cell) (M := M)) where
  rel := by
    intro α R _ S ρ ζ ω H T x wp wm hp hm
    have := hrow H T hp hm
    rwa [sum_split, real] at this
  partE := partE
  potE := by
    intro y e he
    unfold Phantom.atoms Path.atoms at he
    obtain ⟨n, -, h⟩ := Multiset.mem_map.1 he
    exact potE n _ _ e n.2 (h ▸ y.1.atom_mem n)
  head := head
  headM := by
    intro y e he
    unfold Phantom.atoms Path.atoms at he
    obtain ⟨n, -, h⟩ := Multiset.mem_map.1 he
    exact headM n _ _ e n.2 (h ▸ y.1.atom_mem n)
  leak := by
    rintro ⟨x, n, hn⟩
    exact ⟨_, Multiset.mem_map.2 ⟨n, mem_univ_val n, rfl⟩, hn⟩

/-- The scan itself, when the chart holds the sums of the factors. -/
theorem scan_total_rel {α R : Type} [CommSemiring R] {S : SR α} {ρ : α → R → Prop} (H : SRRel S ρ) (hC : 0 < C) (hm : 0 < m) (k : ℕ)
    (chart : ℕ → Fin m → Fin m → α) (w : ℕ → Fin m → Fin m → R) (h : ∀ n < 2 ^ k, ∀ i j, ρ (chart n i j) (w n i j)) :
    ρ (S.sum (List.ofFn fun i : Fin C => S.sum (List.ofFn fun j : Fin C => LinearChain.scan S k chart 0 (st i) (st j))))
      (∑ i, ∑ j, segProd w 0 (2 ^ k) (st i) (st j)) := by
  have := scan_rel H hm k chart w 1 1 (fun n hn i j => by
    have hn' : n < 2 ^ k := by omega
    simpa [segProd] using h n hn' i j) 0 (by omega)
  simp only [one_mul, Nat.zero_mul] at this
  exact H.sum_ofFn hC fun i => H.sum_ofFn hC fun j => this _ _

/-! ### Facts about phantoms -/

/-- If the factors of step `n` belong to position `n` of the potentials, a path uses an entry at most once. -/
theorem links_nodup (hpos : ∀ n i j, ∀ a ∈ cell n i j, ∀ e, a.link = some e → e.getD 1 0 = n) (x : Phantom st cell M) :
    (x.atoms.filterMap Atom.link).Nodup := by
  rw [Phantom.atoms, Path.atoms]
  rw [Multiset.filterMap_map]
  refine Multiset.Nodup.filterMap _ ?_ (univ : Finset (Fin M)).nodup
  intro n n' e h1 h2
  have e1 := hpos n _ _ _ (x.1.atom_mem n) e h1
  have e2 := hpos n' _ _ _ (x.1.atom_mem n') e h2
  exact Fin.ext (e1.symm.trans e2)

/-- Steps after `L` take no potential. -/
theorem size_le {L : ℕ} (hL : ∀ n i j e, L ≤ n → Atom.pot e ∉ cell n i j) (x : Path st cell M) : (x.atoms.map Atom.size).sum ≤ L := by
  rw [Path.atoms, Multiset.map_map]
  change ∑ n : Fin M, (x.atom n).size ≤ L
  have h : ∀ n : Fin M, (x.atom n).size ≤ if (n : ℕ) < L then 1 else 0 := by
    intro n
    have hm := x.atom_mem n
    cases e : x.atom n with
    | pot e' =>
      have : (n : ℕ) < L := by
        by_contra hc
        exact hL n _ _ e' (by omega) (e ▸ hm)
      simp [Atom.size, Atom.weight, this]
    | _ => simp [Atom.size, Atom.weight]
  refine (sum_le_sum fun n _ => h n).trans ?_
  have e1 : ∑ n : Fin M, (if (n : ℕ) < L then 1 else 0) = ∑ n ∈ range M, if n < L then 1 else 0 :=
    Fin.sum_univ_eq_sum_range (fun n => if n < L then 1 else 0) M
  rw [e1, ← card_filter]
  calc _ ≤ (range L).card := card_le_card fun n hn => mem_range.2 (mem_filter.1 hn).2
    _ = L := card_range L

theorem score_le {E : List ℕ → Prop} {v : List ℕ → ℝ} {B z : ℝ} (hB : 0 ≤ B) (hz : z ≤ 0) (hv : ∀ e, E e → |v e| ≤ B) (a : Atom)
    (ha : ∀ e, a = Atom.pot e → E e) : a.score z v ≤ a.size * B ∧ (a.leak → a.score z v ≤ z) ∧ |a.score z v| ≤ -z + B := by
  cases a with
  | pot e =>
    have := hv e (ha e rfl)
    refine ⟨?_, fun h => h.elim, ?_⟩
    · simp only [Atom.score, Atom.size, Atom.weight]
      simpa using (abs_le.1 this).2
    · simp only [Atom.score, Atom.weight]; linarith
  | masked e => simp only [Atom.score, Atom.size, Atom.weight]; refine ⟨by simpa using hz, fun _ => le_rfl, by rw [abs_of_nonpos hz]; linarith⟩
  | zero => simp only [Atom.score, Atom.size, Atom.weight]; refine ⟨by simpa using hz, fun _ => le_rfl, by rw [abs_of_nonpos hz]; linarith⟩
  | one => simp only [Atom.score, Atom.size, Atom.weight]; refine ⟨by simp, fun h => h.elim, by rw [abs_zero]; linarith⟩

/-- The score of a phantom is at most the stand-in plus the largest score of `L` potentials. -/
theorem phScore_le {L : ℕ} (hL : ∀ n i j e, L ≤ n → Atom.pot e ∉ cell n i j) {E : List ℕ → Prop}
    (potE : ∀ n i j e, n < M → Atom.pot e ∈ cell n i j → E e) {v : List ℕ → ℝ} {B z : ℝ} (hB : 0 ≤ B) (hz : z ≤ 0) (hv : ∀ e, E e → |v e| ≤ B)
    (x : Phantom st cell M) :
    phScore Phantom.atoms z v x ≤ z + L * B ∧ |phScore Phantom.atoms z v x| ≤ M * (-z + B) := by
  obtain ⟨x, n, hn⟩ := x
  have ha : ∀ n : Fin M, _ := fun n => score_le hB hz hv (x.atom n) fun e he => potE n _ _ e n.2 (he ▸ x.atom_mem n)
  have hs := size_le hL x
  have e1 : phScore Phantom.atoms z v (⟨x, n, hn⟩ : Phantom st cell M) = ∑ n : Fin M, (x.atom n).score z v := by
    unfold phScore Phantom.atoms Path.atoms
    rw [Multiset.map_map]; rfl
  have e2 : (x.atoms.map Atom.size).sum = ∑ n : Fin M, (x.atom n).size := by rw [Path.atoms, Multiset.map_map]; rfl
  rw [e1]
  rw [e2] at hs
  constructor
  · rw [← add_sum_erase _ _ (mem_univ n)]
    refine add_le_add ((ha n).2.1 hn) ?_
    calc ∑ n ∈ univ.erase n, (x.atom n).score z v ≤ ∑ n ∈ univ.erase n, ((x.atom n).size : ℝ) * B := sum_le_sum fun n _ => (ha n).1
      _ ≤ ∑ n, ((x.atom n).size : ℝ) * B := sum_le_sum_of_subset_of_nonneg (erase_subset _ _) fun _ _ _ => by positivity
      _ = ((∑ n, (x.atom n).size : ℕ) : ℝ) * B := by push_cast; rw [sum_mul]
      _ ≤ L * B := mul_le_mul_of_nonneg_right (by exact_mod_cast hs) hB
  · refine (abs_sum_le_sum_abs _ _).trans ((sum_le_sum fun n _ => (ha n).2.2).trans_eq ?_)
    simp only [sum_const, card_univ, Fintype.card_fin, nsmul_eq_mul]

/-- The number of phantoms. -/
theorem card_phantom_le {D : ℕ} (hD : ∀ n i j, (cell n i j).length ≤ D) : Fintype.card (Phantom st cell M) ≤ C ^ 2 * (m ^ (M + 1) * D ^ M) := by
  classical
  have h1 : Fintype.card (Phantom st cell M) ≤ Fintype.card (Path st cell M) :=
    Fintype.card_le_of_injective (fun x : Phantom st cell M => x.1) Subtype.val_injective
  refine h1.trans ?_
  unfold Path
  rw [Fintype.card_sigma]
  have h2 : ∀ c : Fin C × Fin C, Fintype.card (Σ y : {y : Tags M m // y (Fin.last M) = st c.1 ∧ y 0 = st c.2},
      ∀ n : Fin M, Fin (cell n (y.1 n.succ) (y.1 n.castSucc)).length) ≤ m ^ (M + 1) * D ^ M := by
    intro c
    rw [Fintype.card_sigma]
    have h3 : Fintype.card {y : Tags M m // y (Fin.last M) = st c.1 ∧ y 0 = st c.2} ≤ m ^ (M + 1) := by
      refine (Fintype.card_subtype_le _).trans_eq ?_
      simp
    refine (sum_le_card_nsmul _ _ (D ^ M) fun y _ => ?_).trans ?_
    · rw [Fintype.card_pi]
      refine (prod_le_prod' fun n _ => ?_ : _ ≤ ∏ _n : Fin M, D).trans_eq (by simp)
      rw [Fintype.card_fin]; exact hD _ _ _
    · rw [smul_eq_mul, card_univ]
      exact Nat.mul_le_mul_right _ h3
  refine (sum_le_card_nsmul _ _ _ fun c _ => h2 c).trans_eq ?_
  rw [card_univ, Fintype.card_prod, Fintype.card_fin, smul_eq_mul, sq]

end Generic.AtomChain
