import Verif.Proofs.Enumerate
import Verif.Proofs.EnumerateDep
import Verif.Proofs.EnumerateTree
import Mathlib.Analysis.SpecialFunctions.Log.Basic
import Mathlib.Analysis.SpecialFunctions.Log.ENNRealLogExp

/-! The value that an enumeration returns, from the list of scores it has built. -/

open Finset Spec

noncomputable section
namespace EnumerateProofs
open Enumerate

/-- The scores of row `b`, read by `f`, are the weights of the structures, each structure once. -/
def Lists {α R Y : Type} [Fintype Y] (f : α → R) (ls : List (ℕ → α)) (b : ℕ) (wt : Y → R) : Prop :=
  ((ls.map fun s => f (s b) : List R) : Multiset R) = (univ : Finset Y).val.map wt

theorem std_reads (R : Type) [CommSemiring R] : Reads (Semirings.std R) (id : R → R) := ⟨rfl, fun _ _ => rfl⟩
theorem log_reads (z : ℝ) : Reads (Semirings.logZ z) Real.exp := ⟨Real.exp_zero, fun a b => Real.exp_add a b⟩
theorem max_reads : Reads Semirings.max Real.exp := ⟨Real.exp_zero, fun a b => Real.exp_add a b⟩
theorem logE_reads (z : EReal) : Reads (Semirings.logE z) EReal.exp := ⟨EReal.exp_zero, fun a b => EReal.exp_add a b⟩

section values
variable {α R Y : Type} [Fintype Y]

theorem Lists.ne_nil {f : α → R} {ls : List (ℕ → α)} {b : ℕ} {wt : Y → R} (h : Lists f ls b wt) [Nonempty Y] : ls ≠ [] := by
  rintro rfl
  have := congrArg Multiset.card h
  simp only [List.map_nil, Multiset.coe_nil, Multiset.card_zero, Multiset.card_map, card_val, card_univ] at this
  exact Fintype.card_ne_zero this.symm

theorem Lists.scores {ls : List (ℕ → ℝ)} {b : ℕ} {sc : Y → ℝ} (h : Lists Real.exp ls b fun y => Real.exp (sc y)) :
    ((ls.map fun s => s b : List ℝ) : Multiset ℝ) = (univ : Finset Y).val.map sc := by
  have := congrArg (Multiset.map Real.log) h
  rw [Multiset.map_coe, List.map_map, Multiset.map_map] at this
  simpa [Function.comp_def] using this

theorem value_std [CommSemiring R] [Nonempty Y] {batch : ℕ} {ls : List (ℕ → R)} {wt : ℕ → Y → R} (h : ∀ b, Lists id ls b (wt b)) : stackSum (Semirings.std R) batch ls = .ok ((List.range batch).map fun b => ∑ y, wt b y) := by
  rw [stackSum, if_neg (h 0).ne_nil]
  congr 1
  refine List.map_congr_left fun b _ => ?_
  have := congrArg Multiset.sum (h b)
  rw [Multiset.sum_coe] at this
  exact this

theorem value_log (z : ℝ) [Nonempty Y] {batch : ℕ} {ls : List (ℕ → ℝ)} {wt : ℕ → Y → ℝ} (h : ∀ b, Lists Real.exp ls b (wt b)) :
    stackSum (Semirings.logZ z) batch ls = .ok ((List.range batch).map fun b => Real.log (∑ y, wt b y)) := by
  rw [stackSum, if_neg (h 0).ne_nil]
  congr 1
  refine List.map_congr_left fun b _ => ?_
  have := congrArg Multiset.sum (h b)
  rw [Multiset.sum_coe] at this
  show Semirings.lse _ = _
  rw [Semirings.lse, List.map_map]
  exact congrArg Real.log this

theorem value_logE (z : EReal) [Nonempty Y] {batch : ℕ} {ls : List (ℕ → EReal)} {wt : ℕ → Y → ENNReal} (h : ∀ b, Lists EReal.exp ls b (wt b)) :
    stackSum (Semirings.logE z) batch ls = .ok ((List.range batch).map fun b => ENNReal.log (∑ y, wt b y)) := by
  rw [stackSum, if_neg (h 0).ne_nil]
  congr 1
  refine List.map_congr_left fun b _ => ?_
  have := congrArg Multiset.sum (h b)
  rw [Multiset.sum_coe] at this
  show ENNReal.log (List.map _ _).sum = _
  rw [List.map_map]
  exact congrArg ENNReal.log this

theorem foldl_max_spec (l : List ℝ) : ∀ x, (l.foldl max x = x ∨ l.foldl max x ∈ l) ∧ x ≤ l.foldl max x ∧ ∀ y ∈ l, y ≤ l.foldl max x := by
  induction l with
  | nil => intro x; simp
  | cons a l ih =>
    intro x
    obtain ⟨h1, h2, h3⟩ := ih (max x a)
    rw [List.foldl_cons]
    refine ⟨?_, (le_max_left _ _).trans h2, ?_⟩
    · rcases h1 with h1 | h1
      · rcases max_choice x a with h | h
        · exact Or.inl (h1.trans h)
        · exact Or.inr (by rw [h1, h]; exact List.mem_cons_self)
      · exact Or.inr (List.mem_cons_of_mem _ h1)
    · intro y hy
      rcases List.mem_cons.1 hy with rfl | hy
      · exact (le_max_right _ _).trans h2
      · exact h3 y hy

theorem listMax_spec {l : List ℝ} (h : l ≠ []) : Semirings.listMax l ∈ l ∧ ∀ y ∈ l, y ≤ Semirings.listMax l := by
  cases l with
  | nil => exact absurd rfl h
  | cons a l =>
    obtain ⟨h1, h2, h3⟩ := foldl_max_spec l a
    refine ⟨?_, fun y hy => ?_⟩
    · rcases h1 with h1 | h1
      · rw [Semirings.listMax, h1]; exact List.mem_cons_self
      · exact List.mem_cons_of_mem _ h1
    · rcases List.mem_cons.1 hy with rfl | hy
      · exact h2
      · exact h3 y hy

theorem value_max [Nonempty Y] {batch : ℕ} {ls : List (ℕ → ℝ)} {sc : ℕ → Y → ℝ} (h : ∀ b, Lists Real.exp ls b fun y => Real.exp (sc b y)) :
    ∃ vs, stackSum Semirings.max batch ls = .ok vs ∧ vs.length = batch ∧ ∀ b (hb : b < vs.length), (∃ y, vs[b] = sc b y) ∧ ∀ y, sc b y ≤ vs[b] := by
  refine ⟨_, by rw [stackSum, if_neg (h 0).ne_nil], by simp, fun b hb => ?_⟩
  have e := (h b).scores
  have hne : (ls.map fun s => s b) ≠ [] := by simpa using (h b).ne_nil
  obtain ⟨h1, h2⟩ := listMax_spec hne
  have hm : ∀ v, v ∈ (ls.map fun s => s b) ↔ ∃ y, sc b y = v := by
    intro v
    rw [← Multiset.mem_coe, e]
    simp
  rw [List.getElem_map, List.getElem_range]
  obtain ⟨y, hy⟩ := (hm _).1 h1
  exact ⟨⟨y, hy.symm⟩, fun y => h2 _ ((hm _).2 ⟨y, rfl⟩)⟩

/-- Two lists of largest values are equal. -/
theorem best_unique {Y : ℕ → Type} {batch : ℕ} {sc : ∀ b, Y b → ℝ} {A B : Except PyErr (List ℝ)}
    (hA : ∃ vs, A = .ok vs ∧ vs.length = batch ∧ ∀ b (hb : b < vs.length), (∃ y, vs[b] = sc b y) ∧ ∀ y, sc b y ≤ vs[b])
    (hB : ∃ vs, B = .ok vs ∧ vs.length = batch ∧ ∀ b (hb : b < vs.length), (∃ y, vs[b] = sc b y) ∧ ∀ y, sc b y ≤ vs[b]) : A = B := by
  obtain ⟨vs, rfl, h1, h2⟩ := hA
  obtain ⟨ws, rfl, h3, h4⟩ := hB
  congr 1
  refine List.ext_getElem (h1.trans h3.symm) fun b hb hb' => ?_
  obtain ⟨⟨y, hy⟩, hm⟩ := h2 b hb
  obtain ⟨⟨y', hy'⟩, hm'⟩ := h4 b hb'
  exact le_antisymm (hy ▸ hm' y) (hy' ▸ hm y')

end values

/-! ### Dependency trees -/

section dep
variable {α R : Type} [CommSemiring R] {S : SR α} {f : α → R}

theorem times_read (H : Reads S f) (l : List α) : ∀ x, f (S.times x l) = f x * (l.map f).prod := by
  induction l with
  | nil => intro x; simp [SR.times]
  | cons a l ih =>
    intro x
    have := ih (S.mul x a)
    rw [SR.times] at this ⊢
    rw [List.foldl_cons, this, H.mul, List.map_cons, List.prod_cons, mul_assoc]

/-- The score of a parse, as `DepTreeTest.enumerate` computes it. -/
def parseScore (S : SR α) (c : DepTree.Arcs α) (mid : List ℕ) (b : ℕ) : α :=
  match (List.range' 1 (c.d1 - 1)).map fun i => c.get b (mid.getD (i - 1) 0) i 0 with
  | [] => S.one
  | l0 :: ls => S.times l0 ls

theorem parseScore_read (H : Reads S f) (c : DepTree.Arcs α) (mid : List ℕ) (b : ℕ) :
    f (parseScore S c mid b) = ((List.range (c.d1 - 1)).map fun k => f (c.get b (mid.getD k 0) (k + 1) 0)).prod := by
  have e : (List.range (c.d1 - 1)).map (fun k => f (c.get b (mid.getD k 0) (k + 1) 0)) =
      ((List.range' 1 (c.d1 - 1)).map fun i => c.get b (mid.getD (i - 1) 0) i 0).map f := by
    rw [List.map_map, List.range'_eq_map_range, List.map_map]
    refine List.map_congr_left fun k _ => ?_
    simp only [Function.comp]
    rw [Nat.add_sub_cancel_left, add_comm 1 k]
  rw [e, parseScore]
  split
  · rename_i h; rw [h]; simp [H.one]
  · rename_i l0 ls h; rw [h, times_read H]; rfl

theorem depTree_eq (S : SR α) {neg : α} {q c : DepTree.Arcs α} (hc : DepTree.convert neg q = .ok c) (h1 : c.d1 ≠ 1) (nonProj multiRoot : Bool) :
    depTree S neg q nonProj multiRoot = stackSum S c.d0 ((parses nonProj multiRoot c.d1).map fun mid b => parseScore S c mid b) := by
  rw [depTree, hc]
  show (if c.d1 = 1 then _ else _) = _
  rw [if_neg h1]
  rfl

/-- No word of a tree is its own head. -/
theorem head_ne {n : ℕ} {h : Heads n} (ht : IsDepTree h) (k : Fin n) : (h k : ℕ) ≠ k + 1 := by
  intro hc
  obtain ⟨t, e⟩ := ht k
  have hf : headOf h (k + 1) = k + 1 := by
    rw [headOf, dif_pos ⟨by omega, k.2⟩]
    exact hc
  rw [Function.iterate_fixed hf] at e
  omega

/-- Every tree that is asked for is enumerated exactly once, with the product of its arcs. -/
theorem parses_enum (H : Reads S f) (neg : α) (q : DepTree.Arcs α) (nonProj multiRoot : Bool) {n : ℕ} (hn : 1 ≤ n) (c : DepTree.Arcs α) (hc : c.d1 = n + 1)
    (hget : c.get = DepTree.convertCell neg q.get) (b : ℕ) {Y : Type} [Fintype Y] (g : Y → Heads n) (hg : Function.Injective g)
    (hY : ∀ h, Wanted nonProj multiRoot h ↔ ∃ y, g y = h) :
    (((parses nonProj multiRoot c.d1).map fun mid => (mid, f (parseScore S c mid b)) : List (List ℕ × R)) : Multiset (List ℕ × R)) =
      (univ : Finset Y).val.map fun y => (headCode (g y), depProd (fun i j => f (q.get b i j 0)) (g y)) := by
  have key := enum_multiset (L := (parses nonProj multiRoot c.d1).map fun mid => (mid, parseScore S c mid b)) (code := fun y => headCode (g y))
    (fun y y' hy => hg (headCode_injective hy)) f (fun y => depProd (fun i j => f (q.get b i j 0)) (g y)) (by
      rw [List.map_map]
      simpa [Function.comp_def] using parses_nodup nonProj multiRoot c.d1) (fun y => by
      rw [List.map_map]
      have := (mem_parses nonProj multiRoot hn (headCode (g y))).2 ⟨g y, rfl, (hY _).2 ⟨y, rfl⟩⟩
      rw [← hc] at this
      simpa [Function.comp_def] using this) (fun x hx => by
      obtain ⟨mid, hm, rfl⟩ := List.mem_map.1 hx
      rw [hc] at hm
      obtain ⟨h, rfl, hw⟩ := (mem_parses nonProj multiRoot hn mid).1 hm
      obtain ⟨y, rfl⟩ := (hY h).1 hw
      refine ⟨y, rfl, ?_⟩
      simp only
      rw [parseScore_read H, hc, Nat.add_sub_cancel, depProd, ← List.prod_ofFn, ← List.map_coe_finRange_eq_range, List.map_map, List.ofFn_eq_map]
      congr 1
      refine List.map_congr_left fun k _ => ?_
      simp only [Function.comp]
      rw [headCode_get, hget, DepTree.convertCell, if_neg (by omega), arcCell]
      by_cases h0 : (g y k : ℕ) = 0
      · rw [if_pos h0, if_pos h0]; rfl
      · rw [if_neg h0, if_neg (head_ne hw.1 k), if_neg h0]; rfl)
  rw [List.map_map] at key
  exact key

end dep
end EnumerateProofs
