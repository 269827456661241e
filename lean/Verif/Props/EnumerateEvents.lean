import Verif.Props.Enumerate
import Verif.Props.BinLength

/-! Property theorems about `LinearChainTest.enumerate` with lengths (C101): its internal assertion holds in `LogSemiring` and `MaxSemiring` and fails in `StdSemiring`, and the
events it returns are, for every row, the events of exactly the sequences of that row's length. -/

open Finset Spec EnumerateProofs

noncomputable section
namespace Props.Enumerate
open _root_.Enumerate

theorem sum_flat {A : Type} (l : List A) (g : A → List ℝ) : (l.flatMap g).sum = (l.map fun a => (g a).sum).sum := by
  induction l with
  | nil => rfl
  | cons a l ih => rw [List.flatMap_cons, List.sum_append, ih, List.map_cons, List.sum_cons]

theorem flat_sum (N C D : ℕ) (g : ℕ → ℕ → ℕ → ℝ) :
    ((List.range N).flatMap fun n => (List.range C).flatMap fun c => (List.range D).map fun d => g n c d).sum =
      ∑ n : Fin N, ∑ c : Fin C, ∑ d : Fin D, g n c d := by
  have key : ∀ (k : ℕ) (f : ℕ → ℝ), ((List.range k).map f).sum = ∑ i : Fin k, f i := fun k f => by
    rw [list_sum_range (B := ℝ), Fin.sum_univ_eq_sum_range]
  simp only [sum_flat, key]

/-- The sequences of `n + 1` classes, as the enumeration lists them. -/
def codes (S : SR ℝ) (p : T4 ℝ) (n : ℕ) : List (List ℕ) := (chains S p.d2 p.get n).map Prod.fst

theorem codes_length (S : SR ℝ) (p : T4 ℝ) (n : ℕ) : (codes S p n).length = (chains S p.d2 p.get n).length := List.length_map _

theorem chains_length (S : SR ℝ) (p : T4 ℝ) : ∀ n, (chains S p.d2 p.get n).length = p.d2 ^ (n + 1)
  | 0 => by simp [chains]
  | n + 1 => by
    rw [chains, List.length_flatMap]
    simp only [List.length_map, List.length_range]
    rw [List.map_const', List.sum_replicate, chains_length S p n, smul_eq_mul, ← pow_succ]

theorem reads_of {S : SR ℝ} (hm : ∀ a b, S.mul a b = a + b) (h1 : S.one = 0) : Reads S Real.exp :=
  ⟨by rw [h1, Real.exp_zero], fun a b => by rw [hm, Real.exp_add]⟩

/-- Entry `a` of the list is a sequence, with its score. -/
theorem chains_get {S : SR ℝ} (hm : ∀ a b, S.mul a b = a + b) (h1 : S.one = 0) (p : T4 ℝ) (n a : ℕ) (ha : a < (chains S p.d2 p.get n).length) :
    ∃ y : Tags n p.d2, (codes S p n).getD a [] = tagCode y ∧ ∀ b, (chains S p.d2 p.get n)[a].2 b = seqScore (LinearChain.row p b) y := by
  obtain ⟨y, h2, h3⟩ := chains_sound (reads_of hm h1) p.d2 p.get n _ (List.getElem_mem ha)
  refine ⟨y, ?_, fun b => Real.exp_injective ?_⟩
  · rw [codes, List.getD_eq_getElem _ _ (by simpa using ha), List.getElem_map]
    exact h2
  · rw [h3 b, ← exp_seqScore]
    rfl

theorem codes_get (S : SR ℝ) (p : T4 ℝ) (n a : ℕ) (ha : a < p.d2 ^ (n + 1)) : ∃ y : Tags n p.d2, (codes S p n).getD a [] = tagCode y := by
  have ha' : a < (chains S p.d2 p.get n).length := by rw [chains_length]; exact ha
  obtain ⟨y, h2, -⟩ := chains_sound (f := fun _ => (1 : ℕ)) (S := S) ⟨rfl, fun _ _ => rfl⟩ p.d2 p.get n _ (List.getElem_mem ha')
  refine ⟨y, ?_⟩
  rw [codes, List.getD_eq_getElem _ _ (by simpa using ha'), List.getElem_map]
  exact h2

theorem stackSeq_get {n : ℕ} {cs : List (List ℕ)} {a C : ℕ} {y : Tags n C} (h : cs.getD a [] = tagCode y) (i : Fin (n + 1)) : (stackSeq (n + 1) cs).get a i = y i := by
  show (cs.getD a []).getD i 0 = _
  rw [h, tagCode, List.getD_eq_getElem _ _ (by rw [List.length_ofFn]; exact i.2), List.getElem_ofFn]

/-- `to_parts` of the listed sequences: entry `a` is the event of sequence `a`. -/
theorem parts_of_codes (S : SR ℝ) (p : T4 ℝ) (n : ℕ) :
    ∃ e, _root_.LinearChain.toParts (stackSeq (n + 1) (codes S p n)) p.d2 none = .ok e ∧ e.d0 = p.d2 ^ (n + 1) ∧ e.d1 = n ∧ e.d2 = p.d2 ∧ e.d3 = p.d2 ∧
      ∀ a < p.d2 ^ (n + 1), ∀ y : Tags n p.d2, (codes S p n).getD a [] = tagCode y → ∀ (m : Fin n) (i j : Fin p.d2),
        e.get a m i j = if y m.succ = i ∧ y m.castSucc = j then 1 else 0 := by
  have hl : (codes S p n).length = p.d2 ^ (n + 1) := by rw [codes_length, chains_length]
  obtain ⟨e, h2, h3⟩ := LinearChain.toParts_spec (stackSeq (n + 1) (codes S p n)) p.d2 none (by simp [stackSeq]) (fun a ha i hi => by
    obtain ⟨y, h3⟩ := codes_get S p n a (by rw [← hl]; exact ha)
    have := stackSeq_get h3 ⟨i, hi⟩
    simp only at this
    rw [this]
    exact (y _).2) (fun l hl => by simp at hl)
  refine ⟨e, h2, h3.d0.trans hl, ?_, h3.d2, h3.d3, fun a ha y hy m i j => ?_⟩
  · have := h3.d1
    simp only [stackSeq] at this
    omega
  · have hd1 : e.d1 = n := by
      have := h3.d1
      simp only [stackSeq] at this
      omega
    rw [h3.get a (by rw [h3.d0]; exact lt_of_lt_of_eq ha hl.symm) m (by rw [hd1]; exact m.2) i i.2 j j.2]
    have e1 := stackSeq_get hy m.succ
    have e2 := stackSeq_get hy m.castSucc
    simp only [Fin.val_succ, Fin.val_castSucc] at e1 e2
    rw [e1, e2]
    have hm' := m.2
    by_cases hc : y m.succ = i ∧ y m.castSucc = j
    · rw [if_pos hc, if_pos ⟨by simp only [lenOf, stackSeq]; omega, by rw [hc.1], by rw [hc.2]⟩]
    · rw [if_neg hc, if_neg]
      rintro ⟨-, h4, h5⟩
      exact hc ⟨Fin.ext h4, Fin.ext h5⟩

/-- The internal check of the enumeration compares two equal numbers. -/
theorem einsum_eq {S : SR ℝ} (hm : ∀ a b, S.mul a b = a + b) (h1 : S.one = 0) (p : T4 ℝ) {e : T4 ℕ}
    (he : _root_.LinearChain.toParts (stackSeq (p.d1 + 1) (codes S p p.d1)) p.d2 none = .ok e) (b : ℕ) :
    einsumValue S List.sum p e b = S.sum (((chains S p.d2 p.get p.d1).map Prod.snd).map fun s => s b) := by
  obtain ⟨e', h2, d0, d1, d2, d3, hget⟩ := parts_of_codes S p p.d1
  rw [he] at h2
  obtain rfl := Except.ok.inj h2
  rw [einsumValue]
  congr 1
  refine List.ext_getElem (by simp [d0, chains_length]) fun a ha hb => ?_
  have ha' : a < p.d2 ^ (p.d1 + 1) := by simpa [d0] using ha
  obtain ⟨y, hy, hs⟩ := chains_get hm h1 p p.d1 a (by rw [chains_length]; exact ha')
  simp only [List.getElem_map, List.getElem_range]
  rw [hs b, d1, d2, d3, flat_sum]
  rw [seqScore]
  refine sum_congr rfl fun n _ => ?_
  rw [sum_eq_single (y n.succ), sum_eq_single (y n.castSucc)]
  · rw [hget a ha' y hy, if_pos ⟨rfl, rfl⟩]; simp [LinearChain.row]
  · intro d _ hd
    rw [hget a ha' y hy, if_neg fun h => hd h.2.symm]; simp
  · intro h; exact absurd (mem_univ _) h
  · intro c _ hc
    refine sum_eq_zero fun d _ => ?_
    rw [hget a ha' y hy, if_neg fun h => hc h.1.symm]; simp
  · intro h; exact absurd (mem_univ _) h

theorem isclose_self (a : ℝ) : isclose a a := by
  rw [isclose, sub_self, abs_zero]
  positivity

theorem mapM_ok {A B : Type} {g : A → Except PyErr B} {g' : A → B} (l : List A) (h : ∀ x ∈ l, g x = .ok (g' x)) : l.mapM g = .ok (l.map g') := by
  induction l with
  | nil => rfl
  | cons a l ih =>
    rw [List.mapM_cons, h a List.mem_cons_self, ih fun x hx => h x (List.mem_cons_of_mem _ hx)]
    rfl

open Classical in
/-- With lengths of at least 2, the enumeration passes its own assertion and returns: the values of chains of the full length, the scores of all
sequences of the full length, the number of sequences of each row, and for each row the events of the sequences of that row's length, every
sequence exactly once (the bijection `σ b`), padded with zeros. -/
theorem chain_events {S : SR ℝ} (hS : S = Semirings.log ∨ S = Semirings.max) (p : T4 ℝ) (lengths : Option (List ℕ)) (h : LinearChain.Valid p lengths)
    (h2 : ∀ b < p.d0, 2 ≤ lenOf (p.d1 + 1) lengths b) :
    ∃ vs E, linearChain S List.sum p lengths = .ok (vs, (chains S p.d2 p.get p.d1).map Prod.snd, E, (List.range p.d0).map fun b => p.d2 ^ lenOf (p.d1 + 1) lengths b) ∧
      chainValue S p = .ok vs ∧
      ∀ b < p.d0, ∃ σ : Fin (p.d2 ^ lenOf (p.d1 + 1) lengths b) ≃ Tags (lenOf (p.d1 + 1) lengths b - 1) p.d2,
        ∀ a n (i j : Fin p.d2), E a b n i j = if h : a < p.d2 ^ lenOf (p.d1 + 1) lengths b then (if UsesEdge (σ ⟨a, h⟩) n i j then 1 else 0) else 0 := by
  have hm : ∀ a b, S.mul a b = a + b := by rcases hS with rfl | rfl <;> intro a b <;> rfl
  have h1 : S.one = 0 := by rcases hS with rfl | rfl <;> rfl
  choose P hP using fun n => parts_of_codes S p n
  set lens := _root_.LinearChain.lensOr p.d0 (p.d1 + 1) lengths with hlens
  have hll : lens.length = p.d0 ∧ ∀ b < p.d0, lens.getD b 0 = lenOf (p.d1 + 1) lengths b := by
    cases lengths with
    | none => exact ⟨by simp [hlens, _root_.LinearChain.lensOr], fun b hb => by simp [hlens, _root_.LinearChain.lensOr, lenOf, hb]⟩
    | some l => exact ⟨h.lens.1, fun b _ => rfl⟩
  have hl2 : ¬ ∃ l ∈ lens, l < 2 := by
    rintro ⟨l, hl, hlt⟩
    obtain ⟨b, hb, rfl⟩ := List.getElem_of_mem hl
    have := hll.2 b (hll.1 ▸ hb)
    rw [List.getD_eq_getElem _ _ hb] at this
    have := h2 b (hll.1 ▸ hb)
    omega
  have hne : ((chains S p.d2 p.get p.d1).map Prod.snd) ≠ [] := by
    intro hc
    have h3 := congrArg List.length hc
    rw [List.length_map, chains_length, List.length_nil] at h3
    exact absurd h3 (Nat.pow_pos (n := p.d1 + 1) h.classes).ne'
  obtain ⟨vs, hvs⟩ : ∃ vs, chainValue S p = .ok vs := ⟨_, by rw [chainValue, stackSum, if_neg hne]⟩
  have hmap : (lens.mapM fun l => _root_.LinearChain.toParts (stackSeq l ((chains S p.d2 p.get (l - 1)).map Prod.fst)) p.d2 none) = .ok (lens.map fun l => P (l - 1)) :=
    mapM_ok lens fun l hl => by
      have hl' : 2 ≤ l := by by_contra hc; exact hl2 ⟨l, hl, by omega⟩
      obtain ⟨n, rfl⟩ : ∃ n, l = n + 1 := ⟨l - 1, by omega⟩
      exact (hP n).1
  have hcnt : (lens.map fun l => (chains S p.d2 p.get (l - 1)).length) = (List.range p.d0).map fun b => p.d2 ^ lenOf (p.d1 + 1) lengths b := by
    refine List.ext_getElem (by simp [hll.1]) fun b hb hb' => ?_
    have hb2 : b < p.d0 := by simpa using hb'
    simp only [List.getElem_map, List.getElem_range]
    rw [chains_length, ← hll.2 b hb2, List.getD_eq_getElem _ _ (hll.1.symm ▸ hb2)]
    congr 1
    have := h2 b hb2
    rw [← hll.2 b hb2, List.getD_eq_getElem _ _ (hll.1.symm ▸ hb2)] at this
    omega
  have hassert : ∀ b < p.d0, isclose (einsumValue S List.sum p (P p.d1) b) (vs.getD b 0) := by
    intro b hb
    have e := einsum_eq hm h1 p (hP p.d1).1 b
    rw [e]
    rw [chainValue, stackSum, if_neg hne] at hvs
    obtain rfl := Except.ok.inj hvs
    rw [List.getD_eq_getElem _ _ (by simpa using hb), List.getElem_map, List.getElem_range]
    exact isclose_self _
  refine ⟨vs, fun a b n c d => match (lens.map fun l => P (l - 1))[b]? with
          | none => 0
          | some e => if a < e.d0 ∧ n < e.d1 then e.get a n c d else 0, ?_, hvs, ?_⟩
  · rw [linearChain, BinLength.checkPotentials_ok p lengths h, ← hcnt]
    simp only [bind, Except.bind]
    rw [show _root_.LinearChain.toParts (stackSeq (p.d1 + 1) ((chains S p.d2 p.get (p.d1 + 1 - 1)).map Prod.fst)) p.d2 none = .ok (P p.d1) from (hP p.d1).1]
    simp only
    rw [show stackSum S p.d0 ((chains S p.d2 p.get (p.d1 + 1 - 1)).map Prod.snd) = .ok vs from hvs]
    simp only
    rw [if_pos hassert, if_neg hl2, hmap]
    rfl
  · intro b hb
    have hb2 : b < lens.length := hll.1.symm ▸ hb
    set L := lenOf (p.d1 + 1) lengths b with hL
    have hLe : lens[b] = L := by rw [← List.getD_eq_getElem _ 0 hb2, hll.2 b hb]
    have hL2 : 2 ≤ L := h2 b hb
    obtain ⟨n, hn⟩ : ∃ n, L = n + 1 := ⟨L - 1, by omega⟩
    have hget : (lens.map fun l => P (l - 1))[b]? = some (P n) := by
      rw [List.getElem?_map, List.getElem?_eq_getElem hb2, hLe, hn]
      rfl
    obtain ⟨-, d0, d1, -, -, hP'⟩ := hP n
    simp only [hget]
    clear_value L
    subst hn
    choose y hy hs using fun a : Fin (p.d2 ^ (n + 1)) => chains_get hm h1 p n a (by rw [chains_length]; exact a.2)
    have hinj : Function.Injective y := by
      intro a a' haa
      have hnd := chains_nodup S p.d2 p.get n
      have hl : (codes S p n).length = p.d2 ^ (n + 1) := by rw [codes_length, chains_length]
      have e : (codes S p n).getD a [] = (codes S p n).getD a' [] := by rw [hy, hy, haa]
      rw [List.getD_eq_getElem _ _ (lt_of_lt_of_eq a.2 hl.symm), List.getD_eq_getElem _ _ (lt_of_lt_of_eq a'.2 hl.symm)] at e
      exact Fin.ext ((List.Nodup.getElem_inj_iff hnd).1 e)
    have hbij : Function.Bijective y := (Fintype.bijective_iff_injective_and_card y).2 ⟨hinj, by simp⟩
    refine ⟨Equiv.ofBijective y hbij, fun a m i j => ?_⟩
    by_cases ha : a < p.d2 ^ (n + 1)
    · rw [dif_pos ha]
      by_cases hmn : m < n
      · rw [if_pos ⟨by rw [d0]; exact ha, by rw [d1]; exact hmn⟩]
        have := hP' a ha (y ⟨a, ha⟩) (hy ⟨a, ha⟩) ⟨m, hmn⟩ i j
        rw [this]
        by_cases hc : y ⟨a, ha⟩ (Fin.succ ⟨m, hmn⟩) = i ∧ y ⟨a, ha⟩ (Fin.castSucc ⟨m, hmn⟩) = j
        · rw [if_pos hc, if_pos]
          exact ⟨hmn, hc.1, hc.2⟩
        · rw [if_neg hc, if_neg]
          rintro ⟨h3, h4, h5⟩
          exact hc ⟨h4, h5⟩
      · rw [if_neg (by rw [d1]; omega), if_neg]
        rintro ⟨h3, -⟩
        exact hmn h3
    · rw [dif_neg ha, if_neg (by rw [d0]; omega)]

/-- In `StdSemiring` (whose `prod` is the product of all entries of an event, zeros included) the assertion of the enumeration fails as soon as there are two
classes and some row's value is not tiny: `LinearChainTest.enumerate` cannot be used with it. -/
theorem chain_std_fails (p : T4 ℝ) (lengths : Option (List ℕ)) (h : LinearChain.Valid p lengths) (hC : 2 ≤ p.d2) {vs : List ℝ} (hvs : chainValue (Semirings.std ℝ) p = .ok vs)
    {b : ℕ} (hb : b < p.d0) (hbig : 1 / 10000000 < |vs.getD b 0|) : linearChain (Semirings.std ℝ) List.prod p lengths = .error .assertion := by
  obtain ⟨e, he, d0, d1, d2, d3, hget⟩ := parts_of_codes (Semirings.std ℝ) p p.d1
  rw [linearChain, BinLength.checkPotentials_ok p lengths h]
  simp only [bind, Except.bind]
  rw [show _root_.LinearChain.toParts (stackSeq (p.d1 + 1) ((chains (Semirings.std ℝ) p.d2 p.get (p.d1 + 1 - 1)).map Prod.fst)) p.d2 none = .ok e from he]
  simp only
  rw [show stackSum (Semirings.std ℝ) p.d0 ((chains (Semirings.std ℝ) p.d2 p.get (p.d1 + 1 - 1)).map Prod.snd) = .ok vs from hvs]
  simp only
  rw [if_neg]
  intro hall
  have h0 : einsumValue (Semirings.std ℝ) List.prod p e b = 0 := by
    rw [einsumValue]
    refine List.sum_eq_zero fun v hv => ?_
    obtain ⟨a, ha, rfl⟩ := List.mem_map.1 hv
    have ha' : a < p.d2 ^ (p.d1 + 1) := by rw [← d0]; exact List.mem_range.1 ha
    obtain ⟨y, hy⟩ := codes_get (Semirings.std ℝ) p p.d1 a ha'
    obtain ⟨c, hc⟩ : ∃ c : Fin p.d2, y 1 ≠ c := by
      by_contra hc
      push Not at hc
      have := (hc ⟨0, by omega⟩).symm.trans (hc ⟨1, by omega⟩)
      simp at this
    refine List.prod_eq_zero (List.mem_flatMap.2 ⟨0, List.mem_range.2 (by rw [d1]; exact h.edges), List.mem_flatMap.2 ⟨c, List.mem_range.2 (by rw [d2]; exact c.2),
      List.mem_map.2 ⟨c, List.mem_range.2 (by rw [d3]; exact c.2), ?_⟩⟩⟩)
    have := hget a ha' y hy ⟨0, h.edges⟩ c c
    simp only at this
    rw [this, if_neg]
    · simp
    · rintro ⟨h3, -⟩
      refine hc (Eq.trans ?_ h3)
      congr 1
      exact Fin.ext (by have := h.edges; simp [Fin.val_one', this])
  have := hall b hb
  rw [isclose, h0, zero_sub, abs_neg] at this
  have h5 : 0 ≤ |vs.getD b 0| := abs_nonneg _
  linarith

/-- Both situations occur: two rows of lengths 3 and 2 over 2 classes. -/
example : LinearChain.Valid LinearChain.sample (some [3, 2]) ∧ ∀ b < LinearChain.sample.d0, 2 ≤ lenOf (LinearChain.sample.d1 + 1) (some [3, 2]) b := by
  refine ⟨LinearChain.sample_valid, fun b hb => ?_⟩
  have : b = 0 ∨ b = 1 := by have : b < 2 := hb; omega
  rcases this with rfl | rfl <;> simp [lenOf]

example : linearChain (Semirings.std ℝ) List.prod ⟨1, 1, 2, 2, fun _ _ _ _ => 1⟩ none = .error .assertion := by
  have h : LinearChain.Valid (⟨1, 1, 2, 2, fun _ _ _ _ => (1 : ℝ)⟩ : T4 ℝ) none := ⟨rfl, by norm_num, by norm_num, trivial⟩
  have e := (chain_sum _ h).trans (chain_count (R := ℝ) 1 1 2 le_rfl (by norm_num))
  refine chain_std_fails _ none h le_rfl e (b := 0) (by norm_num) ?_
  norm_num

end Props.Enumerate
