import Verif.Proofs.EnumerateValue
import Verif.Props.LinearChainEvents
import Verif.Props.SemiMarkovEvents
import Verif.Props.Dependency
import Verif.Props.TreeCRF
import Verif.Props.SentCFG
import Verif.Props.NonProj

/-! Property theorems about the brute-force enumerations of tests/extensions.py, with which the project's tests compare the library on a few random
inputs: C100, C101.  For inputs of every size the enumerations list every structure exactly once with its score, and their values are the library's. -/

open Finset Spec EnumerateProofs

noncomputable section
namespace Props.Enumerate
open _root_.Enumerate

/-! ### Linear chains -/

section chain

theorem exp_seqScore {n C : ℕ} (φ : ℕ → Fin C → Fin C → ℝ) (y : Tags n C) : seqProd (fun n i j => Real.exp (φ n i j)) y = Real.exp (seqScore φ y) := by
  rw [seqProd, seqScore, Real.exp_sum]

/-- The enumeration lists every sequence of classes exactly once, with its score. -/
theorem chain_each_once (p : T4 ℝ) (b : ℕ) :
    (((chains Semirings.log p.d2 p.get p.d1).map fun x => (x.1, x.2 b) : List (List ℕ × ℝ)) : Multiset (List ℕ × ℝ)) =
      (univ : Finset (Tags p.d1 p.d2)).val.map fun y => (List.ofFn fun i => (y i : ℕ), seqScore (LinearChain.row p b) y) := by
  have := congrArg (Multiset.map fun x : List ℕ × ℝ => (x.1, Real.log x.2)) (chains_enum (log_reads Semirings.negInf) p.d2 p.get p.d1 b)
  rw [Multiset.map_coe, List.map_map, Multiset.map_map] at this
  simp only [Function.comp_def, Real.log_exp] at this
  refine this.trans (Multiset.map_congr rfl fun y _ => ?_)
  show (tagCode y, Real.log (seqProd (fun n i j => Real.exp (LinearChain.row p b n i j)) y)) = _
  rw [exp_seqScore (LinearChain.row p b), Real.log_exp]
  rfl

theorem chain_lists {α R : Type} [CommSemiring R] {S : SR α} {f : α → R} (H : Reads S f) (p : T4 α) (b : ℕ) :
    Lists f ((chains S p.d2 p.get p.d1).map Prod.snd) b fun y : Tags p.d1 p.d2 => seqProd (fun n i j => f (LinearChain.row p b n i j)) y :=
  chains_scores H p.d2 p.get p.d1 b

theorem tags_nonempty {n C : ℕ} (h : 0 < C) : Nonempty (Tags n C) := ⟨fun _ => ⟨0, h⟩⟩

/-- In every commutative semiring the enumeration and `LinearChain.sum` give the same values. -/
theorem chain_sum {R : Type} [CommSemiring R] (p : T4 R) (h : LinearChain.Valid p none) :
    chainValue (Semirings.std R) p = _root_.LinearChain.logpartition (Semirings.std R) p none := by
  have := tags_nonempty (n := p.d1) h.classes
  obtain ⟨vs, h1, h2, h3⟩ := LinearChain.sum_any_semiring p none h
  rw [h1, chainValue, value_std fun b => chain_lists (std_reads R) p b]
  congr 1
  refine List.ext_getElem (by simp [h2]) fun b hb hb' => ?_
  rw [h3 b hb', List.getElem_map, List.getElem_range]
  rfl

/-- In the log semiring with a true zero they give the same values too. -/
theorem chain_log_exact (p : T4 EReal) (h : LinearChain.Valid p none) :
    chainValue (Semirings.logE ⊥) p = _root_.LinearChain.logpartition (Semirings.logE ⊥) p none := by
  have := tags_nonempty (n := p.d1) h.classes
  obtain ⟨vs, h1, h2, h3⟩ := LinearChain.partition_exact p none h
  rw [h1, chainValue, value_logE ⊥ fun b => chain_lists (logE_reads ⊥) p b]
  congr 1
  refine List.ext_getElem (by simp [h2]) fun b hb hb' => ?_
  rw [h3 b hb', List.getElem_map, List.getElem_range]
  refine congrArg _ (sum_congr rfl fun y _ => ?_)
  exact (LinearChain.EReal_exp_sum univ _).symm

/-- In `LogSemiring` the enumeration gives the log of the sum over the sequences of the exponentiated score, and `partition` exceeds it by at most the
leak of the stand-in `zero = -1e5`. -/
theorem chain_log (p : T4 ℝ) (h : LinearChain.Valid p none) (m : ℝ) (hm : LinearChain.LowerBound p none m) :
    ∃ vs ws, chainValue Semirings.log p = .ok vs ∧ Dist.partition _root_.LinearChain.algo p none = .ok ws ∧ vs.length = p.d0 ∧ ws.length = p.d0 ∧
      ∀ b (hb : b < vs.length) (hb' : b < ws.length),
        vs[b] = Real.log (∑ y : Tags p.d1 p.d2, Real.exp (seqScore (LinearChain.row p b) y)) ∧ vs[b] ≤ ws[b] ∧
        ws[b] ≤ vs[b] + (p.d1 * Real.exp (-100000 - m) + ((2 ^ Nat.clog 2 p.d1 - p.d1 : ℕ) : ℝ) * ((2 * p.d2 - 1 : ℕ) * Real.exp (-100000))) := by
  have := tags_nonempty (n := p.d1) h.classes
  obtain ⟨ws, h1, h2, h3⟩ := LinearChain.partition_bounds p none h m hm
  refine ⟨_, ws, value_log Semirings.negInf fun b => chain_lists (log_reads Semirings.negInf) p b, h1, by simp, h2, fun b hb hb' => ?_⟩
  have e : ((List.range p.d0).map fun b => Real.log (∑ y : Tags p.d1 p.d2, seqProd (fun n i j => Real.exp (LinearChain.row p b n i j)) y))[b] =
      Real.log (∑ y : Tags p.d1 p.d2, Real.exp (seqScore (LinearChain.row p b) y)) := by
    rw [List.getElem_map, List.getElem_range]
    exact congrArg _ (sum_congr rfl fun y _ => exp_seqScore _ y)
  rw [e]
  exact ⟨rfl, h3 b hb'⟩

/-- In `MaxSemiring` the enumeration and `max` give the same values, if no potential is below `-1e5`. -/
theorem chain_max (p : T4 ℝ) (h : LinearChain.Valid p none) (hp : LinearChain.LowerBound p none (-100000)) :
    chainValue Semirings.max p = Dist.max _root_.LinearChain.algo p none := by
  have := tags_nonempty (n := p.d1) h.classes
  refine best_unique (sc := fun b (y : Tags p.d1 p.d2) => seqScore (LinearChain.row p b) y) (value_max fun b => ?_) (LinearChain.max_spec p none h hp)
  have := chain_lists max_reads p b
  simp only [exp_seqScore] at this
  exact this

/-- `test_linear_chain_counting`: with all potentials 1 the sum is the number of sequences. -/
theorem chain_count {R : Type} [CommSemiring R] (batch N C : ℕ) (hN : 1 ≤ N) (hC : 1 ≤ C) :
    _root_.LinearChain.logpartition (Semirings.std R) ⟨batch, N, C, C, fun _ _ _ _ => 1⟩ none = .ok (List.replicate batch ((C : R) ^ (N + 1))) := by
  have h : LinearChain.Valid (⟨batch, N, C, C, fun _ _ _ _ => (1 : R)⟩ : T4 R) none := ⟨rfl, hN, hC, trivial⟩
  obtain ⟨vs, h1, h2, h3⟩ := LinearChain.sum_any_semiring _ none h
  rw [h1]
  congr 1
  refine List.ext_getElem (by simp [h2]) fun b hb hb' => ?_
  rw [h3 b hb, List.getElem_replicate]
  simp only [seqProd, LinearChain.row, prod_const_one, sum_const, card_univ, nsmul_eq_mul, mul_one]
  rw [Fintype.card_fun, Fintype.card_fin, Fintype.card_fin]
  push_cast
  rfl

example : LinearChain.Valid LinearChain.sample none ∧ LinearChain.LowerBound LinearChain.sample none (-100000) := by
  refine ⟨⟨rfl, by decide, by decide, trivial⟩, fun b _ n _ i j => ?_⟩
  have h1 : ((j : ℕ) : ℝ) ≤ 2 := by exact_mod_cast j.2.le
  simp only [LinearChain.row, LinearChain.sample]
  have h2 : (0 : ℝ) ≤ b := by positivity
  have h3 : (0 : ℝ) ≤ n := by positivity
  have h4 : (0 : ℝ) ≤ (i : ℕ) := by positivity
  linarith

end chain

/-! ### Semi-Markov models -/

section semi

theorem exp_segScore {K C L : ℕ} (φ : ℕ → ℕ → ℕ → ℕ → ℝ) (y : Segmentation K C L) : segWeight (fun n k c c' => Real.exp (φ n k c c')) y = Real.exp (segScore φ y) := by
  rw [segWeight, segScore, Real.exp_list_sum, List.map_map]
  rfl

theorem semiMarkov_eq {α : Type} (S : SR α) (p : T5 α) : (semiMarkov S p).map Prod.fst = stackSum S p.d0 ((segList S p.d2 p.d3 p.get p.d1).map Prod.snd) := by
  rw [semiMarkov]
  show Except.map _ (Except.bind (stackSum S p.d0 ((segList S p.d2 p.d3 p.get p.d1).map Prod.snd)) _) = _
  cases stackSum S p.d0 ((segList S p.d2 p.d3 p.get p.d1).map Prod.snd) <;> rfl

theorem hsmm_eq {α : Type} (S : SR α) (init : ℕ → ℕ → α) (trans dur : ℕ → ℕ → α) (em : T4 α) : (hsmm S init trans dur em).map Prod.fst =
    stackSum S em.d0 (((hsmmChains em.d2 em.d3 em.d1 em.d1).getD []).map fun ch => fun b => scoreChain S (init b) trans dur (fun n k c => em.get b n k c) ch) := by
  rw [hsmm]
  show Except.map _ (Except.bind (stackSum S em.d0 _) _) = _
  cases stackSum S em.d0 (((hsmmChains em.d2 em.d3 em.d1 em.d1).getD []).map fun ch => fun b => scoreChain S (init b) trans dur (fun n k c => em.get b n k c) ch) <;> rfl

theorem semi_lists {α R : Type} [CommSemiring R] {S : SR α} {f : α → R} (H : Reads S f) (p : T5 α) (b : ℕ) :
    Lists f ((segList S p.d2 p.d3 p.get p.d1).map Prod.snd) b fun y : Segmentation p.d2 p.d3 p.d1 => segWeight (fun n k c c' => f (SemiMarkov.row p b n k c c')) y :=
  segList_scores H p.d2 p.d3 p.get p.d1 b

/-- The enumeration lists every segmentation exactly once, with its score: the chain is the initial class (with length 0), then class and length of each segment. -/
theorem semi_each_once (p : T5 ℝ) (b : ℕ) :
    ((((semiChains Semirings.log p.d2 p.d3 p.get p.d1 p.d1).getD []).map fun x => (x.1, x.2 b) : List (List (ℕ × ℕ) × ℝ)) : Multiset (List (ℕ × ℕ) × ℝ)) =
      (univ : Finset (Segmentation p.d2 p.d3 p.d1)).val.map fun y =>
        (((y.1 : ℕ), 0) :: y.2.1.map fun s => ((s.2 : ℕ), s.1), segScore (SemiMarkov.row p b) y) := by
  have := congrArg (Multiset.map fun x : List (ℕ × ℕ) × ℝ => (x.1, Real.log x.2)) (segList_enum (log_reads Semirings.negInf) p.d2 p.d3 p.get p.d1 b)
  rw [Multiset.map_coe, List.map_map, Multiset.map_map] at this
  simp only [Function.comp_def, Real.log_exp] at this
  refine this.trans (Multiset.map_congr rfl fun y _ => ?_)
  show (segCode y, Real.log (segWeight (fun n k c c' => Real.exp (SemiMarkov.row p b n k c c')) y)) = _
  rw [exp_segScore (SemiMarkov.row p b), Real.log_exp]
  rfl

/-- In every commutative semiring the enumeration and `SemiMarkov.sum` give the same values. -/
theorem semi_sum {R : Type} [CommSemiring R] (p : T5 R) (h : SemiMarkov.Valid p none) :
    (semiMarkov (Semirings.std R) p).map Prod.fst = _root_.SemiMarkov.logpartition (Semirings.std R) p none := by
  have : Nonempty (Segmentation p.d2 p.d3 p.d1) := SemiMarkov.seg_nonempty h 0
  rw [SemiMarkov.sum_any_semiring p none h, semiMarkov_eq, value_std fun b => semi_lists (std_reads R) p b]
  rfl

/-- In the log semiring with a true zero they give the same values too. -/
theorem semi_log_exact (p : T5 EReal) (h : SemiMarkov.Valid p none) :
    (semiMarkov (Semirings.logE ⊥) p).map Prod.fst = _root_.SemiMarkov.logpartition (Semirings.logE ⊥) p none := by
  have : Nonempty (Segmentation p.d2 p.d3 p.d1) := SemiMarkov.seg_nonempty h 0
  rw [SemiMarkov.partition_limit p none h, semiMarkov_eq, value_logE ⊥ fun b => semi_lists (logE_reads ⊥) p b]
  congr 1
  refine List.map_congr_left fun b _ => congrArg _ (sum_congr rfl fun y _ => ?_)
  rw [segWeight]
  have : ∀ l : List EReal, (l.map EReal.exp).prod = EReal.exp l.sum := by
    intro l
    induction l with
    | nil => simp
    | cons a l ih => rw [List.map_cons, List.prod_cons, ih, List.sum_cons, EReal.exp_add]
  rw [← this, List.map_map]
  rfl

/-- In `LogSemiring` the enumeration gives the log of the sum over the segmentations of the exponentiated score, and `partition` exceeds it by at most the
leak of the stand-in `zero = -1e5`. -/
theorem semi_log (p : T5 ℝ) (h : SemiMarkov.Valid p none) {B : ℝ} (hB : SemiMarkov.Bounded p none B) :
    ∃ vs ws, (semiMarkov Semirings.log p).map Prod.fst = .ok vs ∧ Dist.partition _root_.SemiMarkov.algo p none = .ok ws ∧ vs.length = p.d0 ∧ ws.length = p.d0 ∧
      ∀ b (hb : b < vs.length) (hb' : b < ws.length),
        vs[b] = Real.log (∑ y : Segmentation p.d2 p.d3 p.d1, Real.exp (segScore (SemiMarkov.row p b) y)) ∧ vs[b] ≤ ws[b] ∧ ws[b] ≤ vs[b] + SemiMarkov.err p none B b := by
  have : Nonempty (Segmentation p.d2 p.d3 p.d1) := SemiMarkov.seg_nonempty h 0
  obtain ⟨ws, h1, h2, h3⟩ := SemiMarkov.partition_spec p none h hB
  have e : (semiMarkov Semirings.log p).map Prod.fst = .ok ((List.range p.d0).map fun b => Real.log (∑ y : Segmentation p.d2 p.d3 p.d1, Real.exp (segScore (SemiMarkov.row p b) y))) := by
    rw [semiMarkov_eq]
    rw [show Semirings.log = Semirings.logZ Semirings.negInf from rfl, value_log Semirings.negInf fun b => semi_lists (log_reads Semirings.negInf) p b]
    simp only [exp_segScore]
  refine ⟨_, ws, e, h1, by simp, h2, fun b hb hb' => ?_⟩
  rw [List.getElem_map, List.getElem_range]
  exact ⟨rfl, h3 b hb'⟩

/-- In `MaxSemiring` the enumeration and `max` give the same values, if the potentials are small against `1e5`. -/
theorem semi_max (p : T5 ℝ) (h : SemiMarkov.Valid p none) {B : ℝ} (hB : SemiMarkov.Bounded p none B) (hsmall : 2 * p.d1 * B < 100000) :
    (semiMarkov Semirings.max p).map Prod.fst = Dist.max _root_.SemiMarkov.algo p none := by
  have : Nonempty (Segmentation p.d2 p.d3 p.d1) := SemiMarkov.seg_nonempty h 0
  refine best_unique (sc := fun b (y : Segmentation p.d2 p.d3 p.d1) => segScore (SemiMarkov.row p b) y) ?_ (SemiMarkov.max_spec p none h hB hsmall)
  obtain ⟨vs, h1, h2⟩ := value_max (batch := p.d0) (sc := fun b (y : Segmentation p.d2 p.d3 p.d1) => segScore (SemiMarkov.row p b) y)
    (ls := (segList Semirings.max p.d2 p.d3 p.get p.d1).map Prod.snd) fun b => by
      have := semi_lists max_reads p b
      simp only [exp_segScore] at this
      exact this
  exact ⟨vs, (semiMarkov_eq _ p).trans h1, h2⟩

/-- `test_hsmm`: the enumeration of a hidden semi-Markov model and the enumeration over the edges of `SemiMarkov.hsmm` give the same values, in
`LogSemiring` (with any `zero`) and in `MaxSemiring`. -/
theorem hsmm_sum (init : ℕ → ℕ → ℝ) (trans dur : ℕ → ℕ → ℝ) (em : T4 ℝ) (hN : 1 ≤ em.d1) (z : ℝ) : ∃ p, _root_.SemiMarkov.hsmm init trans dur em = .ok p ∧
    (hsmm (Semirings.logZ z) init trans dur em).map Prod.fst = (semiMarkov (Semirings.logZ z) p).map Prod.fst ∧
    (hsmm Semirings.max init trans dur em).map Prod.fst = (semiMarkov Semirings.max p).map Prod.fst := by
  refine ⟨_, by rw [_root_.SemiMarkov.hsmm, if_neg (by omega)], ?_⟩
  set p : T5 ℝ := ⟨em.d0, em.d1, em.d2, em.d3, em.d3, _⟩ with hp
  have key : ∀ (S : SR ℝ), (∀ a b, S.mul a b = a + b) → S.one = 0 →
      ((((hsmmChains em.d2 em.d3 em.d1 em.d1).getD []).map fun ch => fun b => scoreChain S (init b) trans dur (fun n k c => em.get b n k c) ch)) =
        (segList S em.d2 em.d3 p.get em.d1).map Prod.snd := by
    intro S hm h1
    have H : Reads S Real.exp := ⟨by rw [h1, Real.exp_zero], fun a b => by rw [hm, Real.exp_add]⟩
    rw [hsmmChains_list S em.d2 em.d3 em.d1 p.get, List.map_map]
    refine List.map_congr_left fun x hx => ?_
    obtain ⟨y, h2, h3⟩ := segList_sound H em.d2 em.d3 p.get em.d1 x hx
    funext b
    apply Real.exp_injective
    simp only [Function.comp]
    rw [h2, scoreChain_read H, h3 b, ← segWeight_hsmm (fun c => Real.exp (init b c)) (fun i j => Real.exp (trans i j)) (fun c k => Real.exp (dur c k))
      (fun n k c => Real.exp (em.get b n k c)) hN y]
    rw [segWeight, segWeight]
    congr 1
    refine List.map_congr_left fun s _ => ?_
    simp only [hp]
    by_cases h0 : s.1 = 0
    · rw [if_pos h0, if_pos h0, zero_add, Real.exp_add, Real.exp_add, Real.exp_add]
    · rw [if_neg h0, if_neg h0, zero_add, one_mul, Real.exp_add, Real.exp_add]
  constructor
  · rw [hsmm_eq, semiMarkov_eq, key (Semirings.logZ z) (fun _ _ => rfl) rfl]
  · rw [hsmm_eq, semiMarkov_eq, key Semirings.max (fun _ _ => rfl) rfl]

example : SemiMarkov.Valid SemiMarkov.sample none ∧ SemiMarkov.Bounded SemiMarkov.sample none 9 ∧ 2 * SemiMarkov.sample.d1 * (9 : ℝ) < 100000 := by
  refine ⟨⟨by decide, rfl, by decide, by decide, by decide, trivial⟩, ⟨by norm_num, ?_⟩, by norm_num [SemiMarkov.sample]⟩
  intro b hb n k c c' hn hk hk' hc hc'
  have hb' : b < 2 := hb
  have hn' : n < 3 := hn
  have hk2 : k < 3 := hk'
  have hc2 : c < 2 := hc
  have hc3 : c' < 2 := hc'
  have e1 : (b : ℝ) ≤ 1 := by exact_mod_cast (by omega : b ≤ 1)
  have e2 : (n : ℝ) ≤ 2 := by exact_mod_cast (by omega : n ≤ 2)
  have e3 : (k : ℝ) ≤ 2 := by exact_mod_cast (by omega : k ≤ 2)
  have e4 : (c : ℝ) ≤ 1 := by exact_mod_cast (by omega : c ≤ 1)
  have e5 : (c' : ℝ) ≤ 1 := by exact_mod_cast (by omega : c' ≤ 1)
  have g1 : (0 : ℝ) ≤ b := by positivity
  have g2 : (0 : ℝ) ≤ n := by positivity
  have g3 : (0 : ℝ) ≤ k := by positivity
  have g4 : (0 : ℝ) ≤ c := by positivity
  have g5 : (0 : ℝ) ≤ c' := by positivity
  simp only [SemiMarkov.sample]
  rw [abs_le]
  constructor <;> linarith

end semi

/-! ### Dependency trees -/

section dep

theorem exp_depScore {n : ℕ} (φ : ℕ → ℕ → ℝ) (h : Heads n) : depProd (fun i j => Real.exp (φ i j)) h = Real.exp (depScore φ h) := by
  rw [depProd, depScore, Real.exp_sum]

theorem wanted_proj (mr : Bool) {n : ℕ} (h : Heads n) : Wanted false mr h ↔ ∃ y : ProjTrees mr n, y.1 = h :=
  ⟨fun hw => ⟨⟨h, hw.1, hw.2.1 rfl, hw.2.2⟩, rfl⟩, by rintro ⟨y, rfl⟩; exact ⟨y.2.1, fun _ => y.2.2.1, y.2.2.2⟩⟩

theorem wanted_span (mr : Bool) {n : ℕ} (h : Heads n) : Wanted true mr h ↔ ∃ y : SpanTrees mr n, y.1 = h :=
  ⟨fun hw => ⟨⟨h, hw.1, hw.2.2⟩, rfl⟩, by rintro ⟨y, rfl⟩; exact ⟨y.2.1, fun hc => absurd hc (by decide), y.2.2⟩⟩

/-- The enumeration lists every projective tree (with `multi_root=False`: every one with a single root) exactly once: the listed head vectors, in some order. -/
theorem dep_each_once (mr : Bool) {n : ℕ} (hn : 1 ≤ n) : ((parses false mr (n + 1) : List (List ℕ)) : Multiset (List ℕ)) =
    (univ : Finset (ProjTrees mr n)).val.map fun t => List.ofFn fun k => (t.1 k : ℕ) := by
  have h := congrArg (Multiset.map Prod.fst) (parses_enum (std_reads ℕ) 0 (⟨3, 0, n, n, 0, fun _ _ _ _ => 1⟩ : DepTree.Arcs ℕ) false mr hn
    ⟨3, 0, n + 1, n + 1, 0, DepTree.convertCell 0 fun _ _ _ _ => 1⟩ rfl rfl 0 (fun y : ProjTrees mr n => y.1) Subtype.val_injective (wanted_proj mr))
  rw [Multiset.map_coe, List.map_map, Multiset.map_map] at h
  simp only [Function.comp_def, List.map_id'] at h
  exact h

/-- With `non_proj=True`: every spanning tree. -/
theorem nonproj_each_once (mr : Bool) {n : ℕ} (hn : 1 ≤ n) : ((parses true mr (n + 1) : List (List ℕ)) : Multiset (List ℕ)) =
    (univ : Finset (SpanTrees mr n)).val.map fun t => List.ofFn fun k => (t.1 k : ℕ) := by
  have h := congrArg (Multiset.map Prod.fst) (parses_enum (std_reads ℕ) 0 (⟨3, 0, n, n, 0, fun _ _ _ _ => 1⟩ : DepTree.Arcs ℕ) true mr hn
    ⟨3, 0, n + 1, n + 1, 0, DepTree.convertCell 0 fun _ _ _ _ => 1⟩ rfl rfl 0 (fun y : SpanTrees mr n => y.1) Subtype.val_injective (wanted_span mr))
  rw [Multiset.map_coe, List.map_map, Multiset.map_map] at h
  simp only [Function.comp_def, List.map_id'] at h
  exact h

theorem dep_lists {α R : Type} [CommSemiring R] {S : SR α} {f : α → R} (H : Reads S f) (neg : α) (q : DepTree.Arcs α) (nonProj mr : Bool) (hn : 1 ≤ q.d1) (b : ℕ)
    {Y : Type} [Fintype Y] (g : Y → Heads q.d1) (hg : Function.Injective g) (hY : ∀ h, Wanted nonProj mr h ↔ ∃ y, g y = h) :
    Lists f ((parses nonProj mr (q.d1 + 1)).map fun mid b => parseScore S ⟨q.rank, q.d0, q.d1 + 1, q.d2 + 1, q.d3, DepTree.convertCell neg q.get⟩ mid b) b
      fun y => depProd (fun i j => f (Dependency.row q b i j)) (g y) := by
  have h := congrArg (Multiset.map Prod.snd) (parses_enum H neg q nonProj mr hn
    ⟨q.rank, q.d0, q.d1 + 1, q.d2 + 1, q.d3, DepTree.convertCell neg q.get⟩ rfl rfl b g hg hY)
  rw [Multiset.map_coe, List.map_map, Multiset.map_map] at h
  rw [Lists, List.map_map]
  exact h

theorem depTree_stack {α : Type} (S : SR α) (neg : α) (q : DepTree.Arcs α) (nonProj mr : Bool) (hr : q.rank = 3) (hsq : q.d1 = q.d2) (hn : 1 ≤ q.d1) :
    depTree S neg q nonProj mr = stackSum S q.d0
      ((parses nonProj mr (q.d1 + 1)).map fun mid b => parseScore S ⟨q.rank, q.d0, q.d1 + 1, q.d2 + 1, q.d3, DepTree.convertCell neg q.get⟩ mid b) := by
  refine depTree_eq S (c := ⟨q.rank, q.d0, q.d1 + 1, q.d2 + 1, q.d3, DepTree.convertCell neg q.get⟩) ?_ (by simp only; omega) nonProj mr
  rw [DepTree.convert, if_neg (by omega), if_neg (by omega), if_neg (by omega)]

/-- In every commutative semiring the enumeration and `DepTree.sum` give the same values. -/
theorem dep_sum {R : Type} [CommSemiring R] (mr : Bool) (neg : R) (q : DepTree.Arcs R) (h : Dependency.Valid mr q none) (hn : 1 ≤ q.d1) :
    depTree (Semirings.std R) neg q false mr = DepTree.sum mr (Semirings.std R) neg q none := by
  have : Nonempty (ProjTrees mr q.d1) := DepTreeProofs.nonempty_trees mr q.d1 fun _ => hn
  rw [Dependency.sum_any_semiring mr neg q none h, depTree_stack _ neg q false mr h.rank h.square hn,
    value_std fun b => dep_lists (std_reads R) neg q false mr hn b (fun y : ProjTrees mr q.d1 => y.1) Subtype.val_injective (wanted_proj mr)]
  rfl

/-- In `LogSemiring` the enumeration and `partition` give the same values. -/
theorem dep_log (mr : Bool) (q : DepTree.Arcs ℝ) (h : Dependency.Valid mr q none) (hn : 1 ≤ q.d1) :
    depTree Semirings.log DepTree.negBig q false mr = DepTree.partition mr q none := by
  have : Nonempty (ProjTrees mr q.d1) := DepTreeProofs.nonempty_trees mr q.d1 fun _ => hn
  rw [Dependency.partition_spec mr q none h, depTree_stack _ _ q false mr h.rank h.square hn, show Semirings.log = Semirings.logZ Semirings.negInf from rfl,
    value_log Semirings.negInf fun b => dep_lists (log_reads Semirings.negInf) _ q false mr hn b (fun y : ProjTrees mr q.d1 => y.1) Subtype.val_injective (wanted_proj mr)]
  simp only [exp_depScore]
  rfl

/-- In `MaxSemiring` the enumeration and `max` give the same values. -/
theorem dep_max (mr : Bool) (q : DepTree.Arcs ℝ) (h : Dependency.Valid mr q none) (hn : 1 ≤ q.d1) :
    depTree Semirings.max DepTree.negBig q false mr = DepTree.max mr q none := by
  have : Nonempty (ProjTrees mr q.d1) := DepTreeProofs.nonempty_trees mr q.d1 fun _ => hn
  refine best_unique (sc := fun b (y : ProjTrees mr q.d1) => depScore (Dependency.row q b) y.1) ?_ (Dependency.max_spec mr q none h)
  rw [depTree_stack _ _ q false mr h.rank h.square hn]
  refine value_max fun b => ?_
  have := dep_lists max_reads DepTree.negBig q false mr hn b (fun y : ProjTrees mr q.d1 => y.1) Subtype.val_injective (wanted_proj mr)
  simp only [exp_depScore] at this
  exact this

/-- With `non_proj=True` the enumeration gives the log of the sum over all spanning trees.  This is the value of `deptree_part` with `eps = 0`. -/
theorem nonproj_log (mr : Bool) (q : DepTree.Arcs ℝ) (hr : q.rank = 3) (hsq : q.d1 = q.d2) (hn : 1 ≤ q.d1) :
    (depTree Semirings.log DepTree.negBig q true mr).map (fun vs => vs.map some) = _root_.NonProj.part mr 0 ⟨q.d0, q.d1, fun b i j => q.get b i j 0⟩ none := by
  have : Nonempty (SpanTrees mr q.d1) := NonProj.nonempty_trees mr (Or.inr hn)
  rw [NonProj.part_eq mr le_rfl _ (Or.inr hn), depTree_stack _ _ q true mr hr hsq hn, show Semirings.log = Semirings.logZ Semirings.negInf from rfl,
    value_log Semirings.negInf fun b => dep_lists (log_reads Semirings.negInf) _ q true mr hn b (fun y : SpanTrees mr q.d1 => y.1) Subtype.val_injective (wanted_span mr)]
  refine congrArg Except.ok ((List.map_map ..).trans ?_)
  refine List.map_congr_left fun b _ => ?_
  simp only [Function.comp, NonProj.total, NonProj.weight_zero, exp_depScore]
  rfl

/-- `test_non_proj`, whose comparison is commented out: the value that `deptree_part` computes (with its `eps = 1e-5`) is at least the value of the
enumeration, and exceeds it by at most `N log(1 + 1e-5 exp B)` if the scores are at least `-B`. -/
theorem nonproj_bounds (mr : Bool) (q : DepTree.Arcs ℝ) (hr : q.rank = 3) (hsq : q.d1 = q.d2) (hn : 1 ≤ q.d1) {B : ℝ}
    (hB : ∀ b < q.d0, ∀ h < q.d1, ∀ m < q.d1, -B ≤ q.get b h m 0) :
    ∃ vs ws, depTree Semirings.log DepTree.negBig q true mr = .ok vs ∧ _root_.NonProj.partition mr ⟨q.d0, q.d1, fun b i j => q.get b i j 0⟩ none = .ok ws ∧
      vs.length = q.d0 ∧ ws.length = q.d0 ∧ ∀ b (hb : b < vs.length) (hb' : b < ws.length), ∃ v, ws[b] = some v ∧ vs[b] ≤ v ∧
        v ≤ vs[b] + q.d1 * Real.log (1 + 1 / 100000 * Real.exp B) := by
  have : Nonempty (SpanTrees mr q.d1) := NonProj.nonempty_trees mr (Or.inr hn)
  obtain ⟨ws, h1, h2, h3⟩ := NonProj.partition_bounds mr ⟨q.d0, q.d1, fun b i j => q.get b i j 0⟩ (Or.inr hn) hB
  have e : depTree Semirings.log DepTree.negBig q true mr =
      .ok ((List.range q.d0).map fun b => Real.log (∑ t : SpanTrees mr q.d1, Real.exp (depScore (fun i j => q.get b i j 0) t.1))) := by
    rw [depTree_stack _ _ q true mr hr hsq hn, show Semirings.log = Semirings.logZ Semirings.negInf from rfl,
      value_log Semirings.negInf fun b => dep_lists (log_reads Semirings.negInf) _ q true mr hn b (fun y : SpanTrees mr q.d1 => y.1) Subtype.val_injective (wanted_span mr)]
    simp only [exp_depScore]
    rfl
  refine ⟨_, ws, e, h1, by simp, h2, fun b hb hb' => ?_⟩
  rw [List.getElem_map, List.getElem_range]
  exact h3 b hb'

/-- The walk of `_is_spanning` never needs more rounds than there are nodes: the bound in the model is not reached. -/
theorem spanning_terminates (mid : List ℕ) : ∃ seen, walk (parseOf mid) ((parseOf mid).length + 1) [0] [] = some seen := by
  obtain ⟨seen, h, -⟩ := walk_ok mid ((parseOf mid).length + 1) [0] [] (Inv.start mid) (by rw [parse_length]; simp)
  exact ⟨seen, h⟩

example (mr : Bool) : Dependency.Valid mr Dependency.sample none ∧ 1 ≤ Dependency.sample.d1 ∧
    ∀ b < Dependency.sample.d0, ∀ h < Dependency.sample.d1, ∀ m < Dependency.sample.d1, -(6 : ℝ) ≤ Dependency.sample.get b h m 0 := by
  refine ⟨⟨rfl, rfl, by decide, fun _ => by decide, by simp⟩, by decide, fun b _ h _ m hm => ?_⟩
  have h1 : ((m : ℕ) : ℝ) ≤ 3 := by exact_mod_cast (show m ≤ 3 from Nat.le_of_lt hm)
  simp only [Dependency.sample]
  have h2 : (0 : ℝ) ≤ b := by positivity
  have h3 : (0 : ℝ) ≤ h := by positivity
  linarith

end dep

/-! ### Trees and derivations -/

section trees

theorem exp_treeScore {NT n : ℕ} (φ : ℕ → ℕ → ℕ → ℝ) (t : Trees NT n) : treeProd (fun i j a => Real.exp (φ i j a)) t = Real.exp (treeScore φ t) := by
  rw [treeProd, treeScore, Real.exp_list_sum, List.map_map]
  rfl

theorem exp_derivScore {NT T n : ℕ} (term : ℕ → ℕ → ℝ) (rule : ℕ → ℕ → ℕ → ℝ) (root : ℕ → ℝ) (d : Derivs NT T n) :
    derivWeight (fun i t => Real.exp (term i t)) (fun a c d => Real.exp (rule a c d)) (fun a => Real.exp (root a)) d = Real.exp (derivScore term rule root d) := by
  rw [derivWeight, derivScore, Real.exp_add, Real.exp_add, Real.exp_list_sum, Real.exp_list_sum, List.map_map, List.map_map]
  rfl

theorem tree_lists {α R : Type} [CommSemiring R] {S : SR α} {f : α → R} (H : Reads S f) (p : T4 α) (hn : 1 ≤ p.d1) (b : ℕ) :
    Lists f ((List.range p.d3).flatMap fun nt => treeScores S p.d3 p.get nt 0 (p.d1 - 1)) b
      fun t : Trees p.d3 p.d1 => treeProd (fun i j a => f (TreeCRF.row p b i j a)) t := by
  have := treeScores_enum H p.d3 p.get b (p.d1 - 1)
  rw [Lists, this]
  obtain ⟨n, hn⟩ : ∃ n, p.d1 = n + 1 := ⟨p.d1 - 1, by omega⟩
  rw [hn, Nat.add_sub_cancel]
  rfl

theorem treeCRF_stack {α : Type} (S : SR α) (p : T4 α) (hn : 1 ≤ p.d1) :
    treeCRF S p = stackSum S p.d0 ((List.range p.d3).flatMap fun nt => treeScores S p.d3 p.get nt 0 (p.d1 - 1)) := by
  rw [treeCRF, if_neg (by omega)]

/-- The enumeration lists the score of every labelled binary tree exactly once. -/
theorem tree_each_once (p : T4 ℝ) (hn : 1 ≤ p.d1) (b : ℕ) :
    ((((List.range p.d3).flatMap fun nt => treeScores Semirings.log p.d3 p.get nt 0 (p.d1 - 1)).map fun s => s b : List ℝ) : Multiset ℝ) =
      (univ : Finset (Trees p.d3 p.d1)).val.map (treeScore (TreeCRF.row p b)) := by
  have := tree_lists (log_reads Semirings.negInf) p hn b
  simp only [exp_treeScore] at this
  exact this.scores

/-- In every commutative semiring the enumeration and `CKY_CRF.sum` give the same values. -/
theorem tree_sum {R : Type} [CommSemiring R] (p : T4 R) (h : TreeCRF.Valid p none) :
    treeCRF (Semirings.std R) p = CKYCRF.logpartition (Semirings.std R) p none := by
  have : Nonempty (Trees p.d3 p.d1) := CKYCRFProofs.nonempty_trees h.labels h.words
  rw [TreeCRF.sum_any_semiring p none h, treeCRF_stack _ p h.words, value_std fun b => tree_lists (std_reads R) p h.words b]
  rfl

/-- In `LogSemiring` the enumeration and `partition` give the same values. -/
theorem tree_log (p : T4 ℝ) (h : TreeCRF.Valid p none) : treeCRF Semirings.log p = Dist.partition CKYCRF.algo p none := by
  have : Nonempty (Trees p.d3 p.d1) := CKYCRFProofs.nonempty_trees h.labels h.words
  rw [TreeCRF.partition_spec p none h, treeCRF_stack _ p h.words, show Semirings.log = Semirings.logZ Semirings.negInf from rfl,
    value_log Semirings.negInf fun b => tree_lists (log_reads Semirings.negInf) p h.words b]
  simp only [exp_treeScore]
  rfl

/-- In `MaxSemiring` the enumeration and `max` give the same values. -/
theorem tree_max (p : T4 ℝ) (h : TreeCRF.Valid p none) : treeCRF Semirings.max p = Dist.max CKYCRF.algo p none := by
  have : Nonempty (Trees p.d3 p.d1) := CKYCRFProofs.nonempty_trees h.labels h.words
  refine best_unique (sc := fun b (t : Trees p.d3 p.d1) => treeScore (TreeCRF.row p b) t) ?_ (TreeCRF.max_spec p none h)
  rw [treeCRF_stack _ p h.words]
  refine value_max fun b => ?_
  have := tree_lists max_reads p h.words b
  simp only [exp_treeScore] at this
  exact this

example : TreeCRF.Valid TreeCRF.sample none := ⟨rfl, by decide, by decide, trivial⟩

theorem cfg_lists {α R : Type} [CommSemiring R] {S : SR α} {f : α → R} (H : Reads S f) (p : CKY.Scores α) (hn : 2 ≤ p.N) (b : ℕ) :
    Lists f ((List.range p.NT).flatMap fun nt => (cfgScores S p.NT p.T p.term p.rule nt 0 (p.N - 1)).map fun s b => S.times (s b) [p.root b nt]) b
      fun d : Derivs p.NT p.T p.N => derivWeight (fun i t => f (p.term b i t)) (fun a c d => f (p.rule b a c d)) (fun a => f (p.root b a)) d := by
  have := cfgScores_enum H p.NT p.T p.term p.rule p.root b (p.N - 1) (by omega)
  rw [Lists, this]
  obtain ⟨n, hn⟩ : ∃ n, p.N = n + 1 := ⟨p.N - 1, by omega⟩
  rw [hn, Nat.add_sub_cancel]

theorem cfg_stack {α : Type} (S : SR α) (p : CKY.Scores α) (hn : 2 ≤ p.N) :
    cfg S p = stackSum S p.batch ((List.range p.NT).flatMap fun nt => (cfgScores S p.NT p.T p.term p.rule nt 0 (p.N - 1)).map fun s b => S.times (s b) [p.root b nt]) := by
  rw [cfg, if_neg (by omega), if_neg (by omega)]

/-- The enumeration lists the score of every derivation exactly once (two words or more). -/
theorem cfg_each_once (p : CKY.Scores ℝ) (hn : 2 ≤ p.N) (b : ℕ) :
    ((((List.range p.NT).flatMap fun nt => (cfgScores Semirings.log p.NT p.T p.term p.rule nt 0 (p.N - 1)).map fun s b => Semirings.log.times (s b) [p.root b nt]).map
      fun s => s b : List ℝ) : Multiset ℝ) = (univ : Finset (Derivs p.NT p.T p.N)).val.map (derivScore (p.term b) (p.rule b) (p.root b)) := by
  have := cfg_lists (log_reads Semirings.negInf) p hn b
  simp only [exp_derivScore] at this
  exact this.scores

/-- In every commutative semiring the enumeration and `CKY.sum` give the same values (two words or more). -/
theorem cfg_sum {R : Type} [CommSemiring R] (p : CKY.Scores R) (h : SentCFG.Valid p none) (hn : 2 ≤ p.N) :
    cfg (Semirings.std R) p = CKY.logpartition (Semirings.std R) p none := by
  have : Nonempty (Derivs p.NT p.T p.N) := SentCFG.nonempty_derivs h.nonterminals h.preterminals hn
  rw [SentCFG.sum_any_semiring p none h, cfg_stack _ p hn, value_std fun b => cfg_lists (std_reads R) p hn b]
  rfl

/-- In `LogSemiring` the enumeration gives the log of the sum over the derivations, and `partition` exceeds it by at most the leak of the stand-in `zero = -1e5`. -/
theorem cfg_log (p : CKY.Scores ℝ) (h : SentCFG.Valid p none) (hn : 2 ≤ p.N) {B : ℝ} (hB : SentCFG.Bounded p none B) :
    ∃ vs ws, cfg Semirings.log p = .ok vs ∧ Dist.partition CKY.algo p none = .ok ws ∧ vs.length = p.batch ∧ ws.length = p.batch ∧
      ∀ b (hb : b < vs.length) (hb' : b < ws.length), vs[b] = Real.log (∑ d : Derivs p.NT p.T p.N, Real.exp (derivScore (p.term b) (p.rule b) (p.root b) d)) ∧
        vs[b] ≤ ws[b] ∧ ws[b] ≤ vs[b] + SentCFG.err p none B b := by
  have : Nonempty (Derivs p.NT p.T p.N) := SentCFG.nonempty_derivs h.nonterminals h.preterminals hn
  obtain ⟨ws, h1, h2, h3⟩ := SentCFG.partition_spec p none h (fun _ _ => hn) hB
  have e : cfg Semirings.log p = .ok ((List.range p.batch).map fun b => Real.log (∑ d : Derivs p.NT p.T p.N, Real.exp (derivScore (p.term b) (p.rule b) (p.root b) d))) := by
    rw [cfg_stack _ p hn, show Semirings.log = Semirings.logZ Semirings.negInf from rfl, value_log Semirings.negInf fun b => cfg_lists (log_reads Semirings.negInf) p hn b]
    simp only [exp_derivScore]
  refine ⟨_, ws, e, h1, by simp, h2, fun b hb hb' => ?_⟩
  rw [List.getElem_map, List.getElem_range]
  exact ⟨rfl, h3 b hb'⟩

/-- In `MaxSemiring` the enumeration and `max` give the same values, if the scores are small against `1e5`. -/
theorem cfg_max (p : CKY.Scores ℝ) (h : SentCFG.Valid p none) (hn : 2 ≤ p.N) {B : ℝ} (hB : SentCFG.Bounded p none B) (hsmall : 4 * p.N * B < 100000) :
    cfg Semirings.max p = Dist.max CKY.algo p none := by
  have : Nonempty (Derivs p.NT p.T p.N) := SentCFG.nonempty_derivs h.nonterminals h.preterminals hn
  refine best_unique (sc := fun b (d : Derivs p.NT p.T p.N) => derivScore (p.term b) (p.rule b) (p.root b) d) ?_ (SentCFG.max_spec p none h (fun _ _ => hn) hB hsmall)
  rw [cfg_stack _ p hn]
  refine value_max fun b => ?_
  have := cfg_lists max_reads p hn b
  simp only [exp_derivScore] at this
  exact this

/-- With one word the two do not agree: there is no derivation, and the library's sum is 0, but the enumeration reads the preterminal scores with a negative index and
adds a term for every nonterminal. -/
theorem cfg_one_word {R : Type} [CommSemiring R] (p : CKY.Scores R) (h : SentCFG.Valid p none) (hn : p.N = 1) (hT : p.NT ≤ p.T) :
    cfg (Semirings.std R) p = .ok ((List.range p.batch).map fun b => ∑ x : Fin p.NT, p.term b 0 (p.T - (p.NT - x)) * p.root b x) ∧
    CKY.logpartition (Semirings.std R) p none = .ok (List.replicate p.batch 0) := by
  constructor
  · rw [cfg, if_neg (by omega), if_pos hn, if_neg (by omega), stackSum, if_neg]
    · congr 1
      refine List.map_congr_left fun b _ => ?_
      rw [List.map_map]
      refine (list_sum_range (B := R) p.NT fun x => p.term b 0 (p.T - (p.NT - x)) * p.root b x).trans ?_
      rw [Fin.sum_univ_eq_sum_range fun x => p.term b 0 (p.T - (p.NT - x)) * p.root b x]
    · have := h.nonterminals
      simp
      omega
  · rw [SentCFG.sum_any_semiring p none h]
    congr 1
    refine List.ext_getElem (by simp) fun b hb hb' => ?_
    rw [List.getElem_map, List.getElem_range, List.getElem_replicate]
    have : IsEmpty (SentCFG.Der p none b) := by
      refine ⟨fun d => ?_⟩
      obtain ⟨d, h1, h2⟩ := d
      have h1 : d.size = p.N := h1
      cases d with
      | leaf a => simp [Deriv.isNode] at h2
      | node X l r =>
        have := l.size_pos
        have := r.size_pos
        simp only [GTree.size] at h1
        omega
    exact Fintype.sum_empty _

example : ∃ p : CKY.Scores ℝ, SentCFG.Valid p none ∧ 2 ≤ p.N ∧ SentCFG.Bounded p none 1 ∧ 4 * p.N * (1 : ℝ) < 100000 :=
  ⟨⟨1, 3, 1, 2, 3, fun _ _ _ => 1, fun _ _ _ _ => 1, fun _ _ => 1, none⟩, ⟨rfl, by decide, by decide, by decide, by decide, trivial, rfl⟩, by decide,
    ⟨by norm_num, by intros; simp, by intros; simp, by intros; simp⟩, by norm_num⟩

example : ∃ p : CKY.Scores ℝ, SentCFG.Valid p none ∧ p.N = 1 ∧ p.NT ≤ p.T :=
  ⟨⟨1, 1, 2, 2, 4, fun _ _ _ => 1, fun _ _ _ _ => 1, fun _ _ => 1, none⟩, ⟨rfl, by decide, by decide, by decide, by decide, trivial, rfl⟩, rfl, le_rfl⟩

end trees

end Props.Enumerate
