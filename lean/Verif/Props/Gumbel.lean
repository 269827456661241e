import Verif.Proofs.Gumbel
import Verif.Props.LinearChainSample
import Verif.Props.BeamSearch

/-! Property theorems about `LinearChainCRF.gumbel_crf`: C63. -/

open Finset Spec LinearChainProofs ChainProofs LinearChainLog Sampling Autoregressive

noncomputable section
namespace Props.Gumbel
open _root_.LinearChain Props.LinearChain

/-- Every entry of row `b` of the batch gets what row `b` alone sends. -/
theorem result_row {p : T4 ℝ} {lengths : Option (List ℕ)} (h : Valid p lengths) {pick : List ℝ → ℕ} {noise : ℕ → ℕ → ℝ} {temp : ℝ}
    {es : List Expr} (hes : record algo Semirings.negInf p lengths = .ok es) {r : List ℕ → ℕ} (hr : IsGumbelCRF es pick noise temp r) :
    ∃ (K : Type) (_ : Fintype K) (T : Tape K) (draw : K → ℕ) (kb : ℕ → K), GumbelDraws T pick noise temp draw ∧
      (∀ b < p.d0, Repr T (core (sr Semirings.negInf) (C := p.d2) (p.d1 + 1) (Nat.clog 2 p.d1) (lenOf (p.d1 + 1) lengths)
        (LinearChainSample.leafRow fun b n i j => p.get b n i j) b) (kb b)) ∧
      r = fun id => ∑ b : Fin p.d0, grad T draw (core (sr Semirings.negInf) (C := p.d2) (p.d1 + 1) (Nat.clog 2 p.d1) (lenOf (p.d1 + 1) lengths)
        (LinearChainSample.leafRow fun b n i j => p.get b n i j) b) (kb b) id := by
  rw [record_ok _ p lengths h] at hes
  cases hes
  obtain ⟨K, fK, dK, T, obj, draw, G, hrep, hd, hG, rfl⟩ := hr
  obtain ⟨kb, h1, h2⟩ := repr_batch draw _ obj hrep
  refine ⟨K, fK, T, draw, kb, hd, fun b hb => ?_, ?_⟩
  · have h3 := h1 b (by simpa using hb)
    rwa [List.getElem_map, List.getElem_range] at h3
  · funext id
    rw [backward_one draw hrep hG id, h2, Finsupp.finsetSum_apply]
    refine Fintype.sum_equiv (finCongr (by simp)) _ _ fun b => ?_
    simp

/-- The largest difference `δ` between two noise values for which `gumbel_crf` is sure to ignore the stand-in `zero = -1e5`: the loss `δ + log (C + 1)` is paid at most
`2 · bin_N + 1` times. -/
def Tolerated (p : T4 ℝ) (lengths : Option (List ℕ)) (m δ : ℝ) : Prop :=
  ∀ b < p.d0, 1 - Real.exp (-err p lengths (-100000) m b) < (Real.exp (-δ) / ((p.d2 + 1 : ℕ) : ℝ)) ^ (2 ^ (Nat.clog 2 p.d1 + 1) + 1)

/-- **C63 (first half).** For every noise (of tolerable size), temperature and tie-breaking, `gumbel_crf` returns in every row exactly the event of one tag sequence of the
row's length. -/
theorem gumbel_event_partial (p : T4 ℝ) (lengths : Option (List ℕ)) (h : Valid p lengths) (m : ℝ) (hm : LowerBound p lengths m) {pick : List ℝ → ℕ} (hp : IsArgmaxIdx pick)
    {noise : ℕ → ℕ → ℝ} {temp : ℝ} (ht : 0 < temp) {δ : ℝ} (hδ : ∀ l i j, |noise l i - noise l j| ≤ δ) (htol : Tolerated p lengths m δ) :
    ∃ es, record algo (-100000) p lengths = .ok es ∧ ∀ r, IsGumbelCRF es pick noise temp r →
      ∃ Y : ∀ b : Fin p.d0, Tags (numEdges p lengths b) p.d2, r = batchEvent Y := by
  refine ⟨_, record_ok _ p lengths h, fun r hr => ?_⟩
  obtain ⟨K, fK, T, draw, kb, hd, h1, rfl⟩ := result_row h (record_ok _ p lengths h) hr
  have hδ0 : 0 ≤ δ := (abs_nonneg _).trans (hδ 0 0 0)
  have key : ∀ b : Fin p.d0, ∃ y : Tags (numEdges p lengths b) p.d2, grad T draw (core (sr Semirings.negInf) (C := p.d2) (p.d1 + 1) (Nat.clog 2 p.d1)
      (lenOf (p.d1 + 1) lengths) (LinearChainSample.leafRow fun b n i j => p.get b n i j) b) (kb b) = LinearChainSample.ev b y := by
    intro b
    exact event_of_near (rows_law (-100000) p lengths h m hm b) hδ0 (W := p.d2 + 1) (by omega)
      ((core_width _ _ _ _ _ _).resolve_right (by have := h.classes; omega)) (core_cnt _ _ _ _ _ _) (near_of_gumbel hp ht hd hδ) (htol b b.2) (h1 b b.2)
  choose Y hY using key
  refine ⟨Y, funext fun id => ?_⟩
  rw [← sum_ev, Finsupp.finsetSum_apply]
  exact sum_congr rfl fun b _ => by rw [hY b]

/-- Functions like `Tensor.max(-1)` exist. -/
theorem pick_exists : ∃ pick : List ℝ → ℕ, IsArgmaxIdx pick := by
  refine ⟨fun xs => (Props.BeamSearch.sortSel 1 xs).getD 0 0, fun xs hne => ?_⟩
  have h := Props.BeamSearch.sortSel_topk 1
  have hlen : 1 ≤ xs.length := List.length_pos_iff.2 hne
  have hl := h.length xs hlen
  obtain ⟨i, hi⟩ := List.length_eq_one_iff.1 hl
  simp only [hi, List.getD_cons_zero]
  refine ⟨h.lt xs hlen i (by rw [hi]; simp), fun x hx => ?_⟩
  obtain ⟨j, hj, rfl⟩ := List.getElem_of_mem hx
  by_cases e : j = i
  · subst e; rw [List.getD_eq_getElem _ _ hj]
  · have := h.best xs hlen i (by rw [hi]; simp) j hj (by rw [hi]; simpa using e)
    rwa [List.getD_eq_getElem _ _ hj] at this

/-- The noise of the example: in round `l` one of the two indices gets 3, the other 0. -/
def sampleNoise (l i : ℕ) : ℝ := if i % 2 = l % 2 then 3 else 0

/-- The hypotheses of `gumbel_event_partial` are met by a two-row batch of lengths 3 and 2 and a noise that takes the values 0 and 3. -/
example : ∃ pick : List ℝ → ℕ, IsArgmaxIdx pick ∧ ∃ es, record algo (-100000) sample (some [3, 2]) = .ok es ∧ ∃ r, IsGumbelCRF es pick sampleNoise 1 r ∧
    ∃ Y : ∀ b : Fin 2, Tags (numEdges sample (some [3, 2]) b) 2, r = batchEvent Y := by
  obtain ⟨pick, hp⟩ := pick_exists
  obtain ⟨es, h1, h2⟩ := gumbel_event_partial sample (some [3, 2]) sample_valid (-1) (by
      intro b hb n hn i j
      have hj : (j : ℕ) < 2 := j.2
      have : ((j : ℕ) : ℝ) ≤ 1 := by exact_mod_cast Nat.lt_succ_iff.1 hj
      have h0 : (0 : ℝ) ≤ b := b.cast_nonneg
      have h1 : (0 : ℝ) ≤ n := n.cast_nonneg
      have h2 : (0 : ℝ) ≤ (i : ℕ) := (i : ℕ).cast_nonneg
      show (-1 : ℝ) ≤ b + n + 2 * (i : ℕ) - (j : ℕ)
      linarith) hp (noise := sampleNoise) (temp := 1) one_pos (δ := 3)
    (by intro l i j; unfold sampleNoise; split_ifs <;> norm_num [abs_of_nonneg]) (by
      intro b hb
      have hc : Nat.clog 2 2 = 1 := by simpa using Nat.clog_pow 2 1 (by norm_num)
      have e1 : err sample (some [3, 2]) (-100000) (-1) b ≤ 5 * Real.exp (-99999) := by
        have hm : Real.exp (-100000) ≤ Real.exp (-99999) := Real.exp_le_exp.2 (by norm_num)
        have hpos := Real.exp_pos (-99999)
        have hb' : b = 0 ∨ b = 1 := by simp only [Props.LinearChain.sample] at hb; omega
        rcases hb' with rfl | rfl
        · simp only [err, Props.LinearChain.sample, numEdges, lenOf, hc]; norm_num; linarith
        · simp only [err, Props.LinearChain.sample, numEdges, lenOf, hc]; norm_num; linarith
      have e2 := Real.add_one_le_exp (-err sample (some [3, 2]) (-100000) (-1) b)
      have e3 : (Real.exp (-3) / ((2 + 1 : ℕ) : ℝ)) ^ (2 ^ (Nat.clog 2 2 + 1) + 1) = Real.exp (-15) / 243 := by
        rw [hc, div_pow, ← Real.exp_nat_mul]; norm_num
      show _ < (Real.exp (-3) / ((2 + 1 : ℕ) : ℝ)) ^ (2 ^ (Nat.clog 2 2 + 1) + 1)
      rw [e3]
      have e4 : Real.exp (-15) = Real.exp 99984 * Real.exp (-99999) := by rw [← Real.exp_add]; norm_num
      have e5 := Real.add_one_le_exp (99984 : ℝ)
      have e6 := Real.exp_pos (-99999)
      rw [e4]
      nlinarith)
  obtain ⟨r, hr⟩ := gumbel_exists es pick sampleNoise 1
  exact ⟨pick, hp, es, h1, r, hr, h2 r hr⟩

/-- **C63 (what fails).** Rows with equal potentials and equal lengths always get the same sample: for every noise, temperature and tie-breaking. -/
theorem gumbel_rows_equal (p : T4 ℝ) (lengths : Option (List ℕ)) (h : Valid p lengths) {pick : List ℝ → ℕ} {noise : ℕ → ℕ → ℝ} {temp : ℝ}
    {b b' : ℕ} (hb : b < p.d0) (hb' : b' < p.d0) (hl : lenOf (p.d1 + 1) lengths b' = lenOf (p.d1 + 1) lengths b)
    (hp : ∀ n < p.d1, ∀ i < p.d2, ∀ j < p.d2, p.get b' n i j = p.get b n i j) :
    ∃ es, record algo (-100000) p lengths = .ok es ∧ ∀ r, IsGumbelCRF es pick noise temp r → ∀ t, r (b' :: t) = r (b :: t) := by
  refine ⟨_, record_ok _ p lengths h, fun r hr t => ?_⟩
  obtain ⟨K, fK, T, draw, kb, hd, h1, rfl⟩ := result_row h (record_ok _ p lengths h) hr
  obtain ⟨m, hm⟩ := exists_lowerBound p lengths
  have only : ∀ c (hc : c < p.d0), (∑ b : Fin p.d0, grad T draw (core (sr Semirings.negInf) (C := p.d2) (p.d1 + 1) (Nat.clog 2 p.d1) (lenOf (p.d1 + 1) lengths)
      (LinearChainSample.leafRow fun b n i j => p.get b n i j) b) (kb b) (c :: t)) =
      grad T draw (core (sr Semirings.negInf) (C := p.d2) (p.d1 + 1) (Nat.clog 2 p.d1) (lenOf (p.d1 + 1) lengths)
      (LinearChainSample.leafRow fun b n i j => p.get b n i j) c) (kb c) (c :: t) := by
    intro c hc
    rw [sum_eq_single (⟨c, hc⟩ : Fin p.d0)]
    · intro b _ hne
      refine grad_other (rows_law _ p lengths h m hm b) draw (h1 b b.2) _ ?_
      intro hcon
      exact hne (Fin.ext (Option.some.inj hcon).symm)
    · simp
  beta_reduce
  rw [only b' hb', only b hb]
  -- exchange the two names of the rows
  let φ : List ℕ → List ℕ := fun l => match l with
    | [] => []
    | a :: t => if a = b then b' :: t else if a = b' then b :: t else a :: t
  have hφ : ∀ t, φ (b :: t) = b' :: t := fun t => if_pos rfl
  have hinj : Function.Injective φ := by
    refine Function.LeftInverse.injective (g := φ) fun l => ?_
    rcases l with - | ⟨a, t⟩
    · rfl
    · simp only [φ]
      split_ifs <;> simp_all
  have h2 := core_rename (C := p.d2) Semirings.negInf (p.d1 + 1) (Nat.clog 2 p.d1) (lenOf (p.d1 + 1) lengths) (fun b n i j => p.get b n i j) b b' hl
    (fun n hn i j => hp n hn i i.2 j j.2) φ hφ
  have h3 := grad_rename hd φ _ (kb b) (kb b') (h1 b hb) (h2 ▸ h1 b' hb')
  rw [h2, h3, ← hφ]
  generalize grad T draw _ (kb b) = g
  exact Finsupp.mapDomain_apply hinj (g : List ℕ →₀ ℕ) (b :: t)


/-! ### Not a sample -/

open MeasureTheory

/-- Two rows of two words, two tags, all potentials 0. -/
def twoRows : T4 ℝ := ⟨2, 1, 2, 2, fun _ _ _ _ => 0⟩

theorem twoRows_valid : Valid twoRows none := by
  constructor <;> simp [twoRows, ValidLengths]

theorem chainP_zero {m C : ℕ} (φ : ℕ → Fin C → Fin C → ℝ) (h : ∀ n i j, φ n i j = 0) (y : Tags m C) : chainP φ y = 1 / (C ^ (m + 1) : ℕ) := by
  have h1 : ∀ y : Tags m C, seqScore φ y = 0 := fun y => by simp [seqScore, h]
  rw [chainP, chainZ]
  simp only [h1, Real.exp_zero]
  simp

open Classical in
/-- **C63 is false of the code (rows).** For every source of noise, the batch that `gumbel_crf` returns for two equal rows is at distance at least 1/2 from two independent
samples: the event "the rows differ" has probability 0 instead of 3/4. -/
theorem gumbel_rows_dependent {pick : List ℝ → ℕ} {temp : ℝ} : ∃ es, record algo (-100000) twoRows none = .ok es ∧
    ∀ (Ω : Type) [MeasurableSpace Ω] (P : Measure Ω) [IsProbabilityMeasure P] (noise : Ω → ℕ → ℕ → ℝ) (R : Ω → List ℕ → ℕ),
      (∀ ω, IsGumbelCRF es pick (noise ω) temp (R ω)) → ∃ A : Set (List ℕ → ℕ), P.real {ω | R ω ∈ A} = 0 ∧
        (∑ Y : ∀ b : Fin 2, Tags 1 2, if batchEvent Y ∈ A then ∏ b : Fin 2, chainP (row twoRows b) (Y b) else 0) = 3 / 4 := by
  refine ⟨_, record_ok _ twoRows none twoRows_valid, ?_⟩
  intro Ω _ P _ noise R hR
  refine ⟨{r | ∃ t, r (1 :: t) ≠ r (0 :: t)}, ?_, ?_⟩
  · have : {ω | R ω ∈ {r : List ℕ → ℕ | ∃ t, r (1 :: t) ≠ r (0 :: t)}} = ∅ := by
      refine Set.eq_empty_of_forall_notMem fun ω => ?_
      rintro ⟨t, ht⟩
      obtain ⟨es', h1, h2⟩ := gumbel_rows_equal twoRows none twoRows_valid (pick := pick) (noise := noise ω) (temp := temp) (b := 0) (b' := 1) (by decide) (by decide) rfl
        (fun _ _ _ _ _ _ => rfl)
      rw [record_ok _ twoRows none twoRows_valid] at h1
      cases h1
      exact ht (h2 _ (hR ω) t)
    rw [this]; simp
  · have hp : ∀ Y : ∀ b : Fin 2, Tags 1 2, (∏ b : Fin 2, chainP (row twoRows b) (Y b)) = 1 / 16 := by
      intro Y
      have h1 : ∀ b : Fin 2, chainP (row twoRows b) (Y b) = 1 / (2 ^ (1 + 1) : ℕ) := fun b => chainP_zero _ (fun _ _ _ => rfl) _
      rw [prod_congr rfl fun b _ => h1 b]
      norm_num
    have hA : ∀ Y : ∀ b : Fin 2, Tags 1 2, batchEvent Y ∈ {r : List ℕ → ℕ | ∃ t, r (1 :: t) ≠ r (0 :: t)} ↔ Y 0 ≠ Y 1 := by
      intro Y
      have hrow : ∀ (b : Fin 2) (t : List ℕ), batchEvent Y ((b : ℕ) :: t) = if ∃ n, ∃ i j : Fin 2, t = [n, (i : ℕ), (j : ℕ)] ∧ UsesEdge (Y b) n i j then 1 else 0 := by
        intro b t
        rw [batchEvent]
        congr 1
        refine propext ⟨?_, ?_⟩
        · rintro ⟨b', n, i, j, h1, h2⟩
          simp only [List.cons.injEq] at h1
          obtain rfl : b = b' := Fin.ext h1.1
          exact ⟨n, i, j, h1.2, h2⟩
        · rintro ⟨n, i, j, rfl, h2⟩
          exact ⟨b, n, i, j, rfl, h2⟩
      constructor
      · rintro ⟨t, ht⟩ heq
        refine ht ?_
        have h0 := hrow 0 t
        have h1 := hrow 1 t
        rw [← heq] at h1
        exact h1.trans h0.symm
      · intro hne
        by_contra hc
        simp only [Set.mem_ofPred_eq, not_exists, not_not] at hc
        refine hne ?_
        have h0 := hc [0, (Y 0 1 : ℕ), (Y 0 0 : ℕ)]
        have e0 : batchEvent Y (0 :: [0, (Y 0 1 : ℕ), (Y 0 0 : ℕ)]) = 1 := if_pos ⟨0, 0, Y 0 1, Y 0 0, rfl, by decide, rfl, rfl⟩
        rw [e0] at h0
        have h1 := (hrow 1 [0, (Y 0 1 : ℕ), (Y 0 0 : ℕ)]).symm.trans h0
        have h2 : ∃ n, ∃ i j : Fin 2, [0, (Y 0 1 : ℕ), (Y 0 0 : ℕ)] = [n, (i : ℕ), (j : ℕ)] ∧ UsesEdge (Y 1) n i j := by
          by_contra hno
          rw [if_neg hno] at h1
          exact absurd h1 (by decide)
        obtain ⟨n, i, j, h3, h4, h5, h6⟩ := h2
        simp only [List.cons.injEq] at h3
        obtain ⟨rfl, h7, h8, -⟩ := h3
        funext s
        fin_cases s
        · exact (Fin.ext h8).trans h6.symm
        · exact (Fin.ext h7).trans h5.symm
    simp only [hA, hp]
    rw [← sum_filter, sum_const]
    have : (univ.filter fun Y : ∀ b : Fin 2, Tags 1 2 => Y 0 ≠ Y 1).card = 12 := by
      rw [show (univ.filter fun Y : ∀ b : Fin 2, Tags 1 2 => Y 0 ≠ Y 1) = @Finset.filter _ (fun Y : Fin 2 → Fin 2 → Fin 2 => Y 0 ≠ Y 1) (fun _ => inferInstance) univ by
        congr]
      decide
    rw [this]; norm_num

/-! One row: positions that are combined in the same round share their noise. -/

/-- One row of five words, two tags, all potentials 0. -/
def fiveWords : T4 ℝ := ⟨1, 4, 2, 2, fun _ _ _ _ => 0⟩

theorem fiveWords_valid : Valid fiveWords none := by
  constructor <;> simp [fiveWords, ValidLengths]

section five
variable {K : Type} {T : Tape K} {pick : List ℝ → ℕ} {noise : ℕ → ℕ → ℝ} {temp : ℝ} {draw : K → ℕ}

theorem draw_lt (hp : IsArgmaxIdx pick) (h : GumbelDraws T pick noise temp draw) {n : ℕ} (hn : 0 < n) {f : Fin n → Expr} {k : K} (hr : Sampling.Repr T (.sum n f) k) :
    draw k < n := by
  have h1 := h n f k hr
  set xs := List.ofFn fun i : Fin n => ((f i).value + noise (Expr.level (.sum n f)) i) / temp with hxs
  have hlen : xs.length = n := by simp [hxs]
  have h2 := (hp xs (by intro hc; rw [hc] at hlen; simp at hlen; omega)).1
  rw [← h1] at h2
  omega

/-- A chart entry: the stand-in or the potential. -/
theorem cell_grad (hp : IsArgmaxIdx pick) (h : GumbelDraws T pick noise temp draw) (v w : ℝ) : ∃ s : ℕ, ∀ (id : List ℕ) (k : K),
    Sampling.Repr T (.sum 2 ![.const v, .setData (.leaf 0 id) w]) k → grad T draw (.sum 2 ![.const v, .setData (.leaf 0 id) w]) k = s • Finsupp.single id 1 := by
  set i0 : ℕ := pick (List.ofFn fun i : Fin 2 => ((![v, w] i) + noise 1 i) / temp) with hi0
  refine ⟨if i0 = 1 then 1 else 0, fun id k hr => ?_⟩
  have h1 := h 2 _ k hr
  have h2 : draw k = i0 := by
    rw [h1, hi0]
    congr 2
    funext i
    have : Expr.level (.sum 2 ![.const v, .setData (.leaf 0 id) w]) = 1 := level_sum (by omega) fun i => by fin_cases i <;> rfl
    rw [this]
    fin_cases i <;> rfl
  have h3 := draw_lt hp h (by omega) hr
  obtain ⟨c, h4, h5, h6⟩ := hr
  have h7 := h5 1
  rw [grad_sum draw h4 h3]
  have h8 : draw k = 0 ∨ draw k = 1 := by omega
  rcases h8 with h8 | h8
  · rw [← h2]
    simp only [h8]
    simp [grad]
  · rw [← h2]
    simp only [h8]
    obtain ⟨kx, h9, h10, h11⟩ := h7
    simp only [Fin.mk_one, Matrix.cons_val_one, Matrix.cons_val_fin_one, ↓reduceIte, one_smul]
    rw [grad_setData draw h9, grad]

/-- A product of two matrices whose entries all have the same value and level: the same middle index everywhere. -/
theorem mid_grad (hp : IsArgmaxIdx pick) (h : GumbelDraws T pick noise temp draw) (u : ℝ) (l : ℕ) : ∃ m : Fin 2, ∀ (f g : Fin 2 → Expr) (k : K),
    (∀ i, (f i).value = u ∧ (f i).level = l) → (∀ i, (g i).value = u ∧ (g i).level = l) → Sampling.Repr T (.sum 2 fun i => .mul (f i) (g i)) k →
    ∃ ka kb, Sampling.Repr T (f m) ka ∧ Sampling.Repr T (g m) kb ∧ grad T draw (.sum 2 fun i => .mul (f i) (g i)) k = grad T draw (f m) ka + grad T draw (g m) kb := by
  set i0 : ℕ := pick (List.ofFn fun i : Fin 2 => ((u + u) + noise (l + 1) i) / temp) with hi0
  have hlt : i0 < 2 := by
    have := (hp (List.ofFn fun i : Fin 2 => ((u + u) + noise (l + 1) i) / temp) (by simp)).1
    simpa [hi0] using this
  refine ⟨⟨i0, hlt⟩, fun f g k hf hg hr => ?_⟩
  have h1 := h 2 _ k hr
  have h2 : draw k = i0 := by
    rw [h1, hi0]
    congr 2
    funext i
    have : Expr.level (.sum 2 fun i => .mul (f i) (g i)) = l + 1 := level_sum (by omega) fun i => by rw [Expr.level, (hf i).2, (hg i).2, max_self]
    rw [this, Expr.value, (hf i).1, (hg i).1]
  obtain ⟨c, h4, h5, h6⟩ := hr
  obtain ⟨ka, kb, h7, h8, h9, h10⟩ := h5 ⟨i0, hlt⟩
  refine ⟨ka, kb, h8, h9, ?_⟩
  rw [grad_sum draw h4 (h2 ▸ hlt)]
  simp only [h2]
  rw [grad_mul draw h7]

theorem final_grad (hp : IsArgmaxIdx pick) (h : GumbelDraws T pick noise temp draw) (x : Fin 2 → Fin 2 → Expr) (k : K)
    (hr : Sampling.Repr T (.sum 2 fun i => .sum 2 fun j => x i j) k) : ∃ i j kx, Sampling.Repr T (x i j) kx ∧ grad T draw (.sum 2 fun i => .sum 2 fun j => x i j) k = grad T draw (x i j) kx := by
  have h1 := draw_lt hp h (by omega) hr
  obtain ⟨c, h4, h5, h6⟩ := hr
  have h7 := h5 ⟨draw k, h1⟩
  have h2 := draw_lt hp h (by omega) h7
  obtain ⟨c', h4', h5', h6'⟩ := h7
  exact ⟨_, _, _, h5' ⟨_, h2⟩, by rw [grad_sum draw h4 h1, grad_sum draw h4' h2]⟩

/-- The chart of `fiveWords`. -/
def cell (n : ℕ) (i j : Fin 2) : Expr := .sum 2 ![.const (-100000), .setData (.leaf 0 [0, n, i, j]) 0]

theorem five_core : core (sr (-100000)) (C := 2) 5 2 (fun _ => 5) (LinearChainSample.leafRow fun b n i j => fiveWords.get b n i j) 0 =
    .sum 2 fun i => .sum 2 fun j => .sum 2 fun k => .mul (.sum 2 fun m => .mul (cell 3 i m) (cell 2 m k)) (.sum 2 fun m => .mul (cell 1 k m) (cell 0 m j)) := by
  have hc : ∀ n < 4, ∀ i j, masked (sr (-100000)) 5 (2 ^ 2) (fun _ => 5) (LinearChainSample.leafRow fun b n i j => fiveWords.get b n i j) 0 n i j = cell n i j := by
    intro n hn i j
    rw [masked_apply _ _ _ _ _ _ _ (by simpa using hn), sr_sum2, cell]
    simp only [maskedC, maskedL, LinearChainSample.leafRow]
    have h1 : ¬ (n ≥ 5 - 1) := by omega
    have h2 : n < 5 - 1 := by omega
    simp only [h1, h2, decide_false, Bool.not_false, if_true]
    rfl
  rw [core, total]
  simp only [sr_sum _ rfl]
  congr 1; funext i; congr 1; funext j
  show scanStep (sr (-100000)) (scanStep (sr (-100000)) _) 0 i j = _
  simp only [scanStep, SR.matmul, sr_sum _ rfl]
  congr 1; funext k
  show Expr.mul _ _ = _
  congr 1
  · congr 1; funext m
    show Expr.mul _ _ = _
    rw [hc 3 (by omega), hc 2 (by omega)]
  · congr 1; funext m
    show Expr.mul _ _ = _
    rw [hc 1 (by omega), hc 0 (by omega)]

/-- The second and the fourth tag are the same. -/
theorem five_grad (hp : IsArgmaxIdx pick) (h : GumbelDraws T pick noise temp draw) {k : K}
    (hr : Sampling.Repr T (core (sr (-100000)) (C := 2) 5 2 (fun _ => 5) (LinearChainSample.leafRow fun b n i j => fiveWords.get b n i j) 0) k) :
    ∃ (s : ℕ) (y : Tags 4 2), y 1 = y 3 ∧
      grad T draw (core (sr (-100000)) (C := 2) 5 2 (fun _ => 5) (LinearChainSample.leafRow fun b n i j => fiveWords.get b n i j) 0) k = s • LinearChainSample.ev 0 y := by
  rw [five_core] at hr ⊢
  obtain ⟨s, hs⟩ := cell_grad hp h (-100000) 0
  have hv : ∀ n i j, (cell n i j).value = (cell 0 0 0).value ∧ (cell n i j).level = 1 := fun n i j => by
    refine ⟨?_, level_sum (by omega) fun i => by fin_cases i <;> rfl⟩
    rw [cell, cell, Expr.value, Expr.value]
    congr 2
    funext t
    fin_cases t <;> rfl
  obtain ⟨m, hm⟩ := mid_grad hp h (cell 0 0 0).value 1
  have hv2 : ∀ n n' i j, (Expr.sum 2 fun m => .mul (cell n i m) (cell n' m j)).value = (Expr.sum 2 fun m => .mul (cell 0 0 m) (cell 0 m 0)).value ∧
      (Expr.sum 2 fun m => .mul (cell n i m) (cell n' m j)).level = 2 := fun n n' i j => by
    refine ⟨?_, level_sum (by omega) fun t => by rw [Expr.level, (hv _ _ _).2, (hv _ _ _).2, max_self]⟩
    rw [Expr.value, Expr.value]
    refine congrArg _ (congrArg List.ofFn (funext fun t => ?_))
    rw [Expr.value, Expr.value, (hv n i t).1, (hv n' t j).1, (hv 0 0 t).1, (hv 0 t 0).1]
  obtain ⟨i, j, kx, h1, h2⟩ := final_grad hp h _ k hr
  obtain ⟨m', hm'⟩ := mid_grad hp h (Expr.sum 2 fun m => .mul (cell 0 0 m) (cell 0 m 0)).value 2
  obtain ⟨ka, kb, h3, h4, h5⟩ := hm' _ _ kx (fun t => hv2 3 2 i t) (fun t => hv2 1 0 t j) h1
  obtain ⟨k3, k2, h6, h7, h8⟩ := hm _ _ ka (fun t => hv 3 i t) (fun t => hv 2 t m') h3
  obtain ⟨k1, k0, h9, h10, h11⟩ := hm _ _ kb (fun t => hv 1 m' t) (fun t => hv 0 t j) h4
  refine ⟨s, ![j, m, m', m, i], rfl, ?_⟩
  rw [h2, h5, h8, h11]
  simp only [cell] at h6 h7 h9 h10 ⊢
  rw [hs _ _ h6, hs _ _ h7, hs _ _ h9, hs _ _ h10, LinearChainSample.ev, Fin.sum_univ_four]
  simp only [smul_add]
  show s • Finsupp.single [0, 3, (i : ℕ), (m : ℕ)] 1 + s • Finsupp.single [0, 2, (m : ℕ), (m' : ℕ)] 1 +
    (s • Finsupp.single [0, 1, (m' : ℕ), (m : ℕ)] 1 + s • Finsupp.single [0, 0, (m : ℕ), (j : ℕ)] 1) =
    s • Finsupp.single [0, 0, (m : ℕ), (j : ℕ)] 1 + s • Finsupp.single [0, 1, (m' : ℕ), (m : ℕ)] 1 + s • Finsupp.single [0, 2, (m : ℕ), (m' : ℕ)] 1 +
      s • Finsupp.single [0, 3, (i : ℕ), (m : ℕ)] 1
  abel

end five

open Classical in
/-- **C63 is false of the code (positions).** Also with a single row: for five words with two tags and all potentials 0, whatever the noise, the second and the fourth tag are never
different, although they differ with probability 1/2. -/
theorem gumbel_positions_dependent {pick : List ℝ → ℕ} (hp : IsArgmaxIdx pick) {temp : ℝ} : ∃ es, record algo (-100000) fiveWords none = .ok es ∧
    ∀ (Ω : Type) [MeasurableSpace Ω] (P : Measure Ω) [IsProbabilityMeasure P] (noise : Ω → ℕ → ℕ → ℝ) (R : Ω → List ℕ → ℕ),
      (∀ ω, IsGumbelCRF es pick (noise ω) temp (R ω)) → ∃ A : Set (List ℕ → ℕ), P.real {ω | R ω ∈ A} = 0 ∧
        (∑ Y : ∀ b : Fin 1, Tags 4 2, if batchEvent Y ∈ A then ∏ b : Fin 1, chainP (row fiveWords b) (Y b) else 0) = 1 / 2 := by
  have hclog : Nat.clog 2 4 = 2 := by
    rw [show (4 : ℕ) = 2 ^ 2 by norm_num, Nat.clog_pow 2 2 (by norm_num)]
  refine ⟨_, record_ok _ fiveWords none fiveWords_valid, ?_⟩
  intro Ω _ P _ noise R hR
  have hinj : Function.Injective (batchEvent : (∀ b : Fin 1, Tags 4 2) → List ℕ → ℕ) := batchEvent_injective (L := fun _ => 4) (by simp)
  refine ⟨{r | ∃ Y : ∀ b : Fin 1, Tags 4 2, Y 0 1 ≠ Y 0 3 ∧ r = batchEvent Y}, ?_, ?_⟩
  · have : {ω | R ω ∈ {r | ∃ Y : ∀ b : Fin 1, Tags 4 2, Y 0 1 ≠ Y 0 3 ∧ r = batchEvent Y}} = ∅ := by
      refine Set.eq_empty_of_forall_notMem fun ω => ?_
      rintro ⟨Y, hne, hY⟩
      obtain ⟨K, fK, T, draw, kb, hd, h1, h2⟩ := result_row fiveWords_valid (record_ok _ fiveWords none fiveWords_valid) (hR ω)
      have h3 := h1 0 (by decide)
      have e1 : core (sr Semirings.negInf) (C := fiveWords.d2) (fiveWords.d1 + 1) (Nat.clog 2 fiveWords.d1) (lenOf (fiveWords.d1 + 1) none)
          (LinearChainSample.leafRow fun b n i j => fiveWords.get b n i j) 0 =
          core (sr (-100000)) (C := 2) 5 2 (fun _ => 5) (LinearChainSample.leafRow fun b n i j => fiveWords.get b n i j) 0 := by
        show core (sr Semirings.negInf) (C := 2) 5 (Nat.clog 2 4) (lenOf 5 none) (LinearChainSample.leafRow fun b n i j => fiveWords.get b n i j) 0 = _
        rw [hclog]; rfl
      rw [e1] at h3
      obtain ⟨s, y, hy, h4⟩ := five_grad hp hd h3
      have h5 : R ω = fun id => s * batchEvent (fun _ : Fin 1 => y) id := by
        rw [h2]
        funext id
        show (∑ b : Fin 1, _) = _
        rw [Fin.sum_univ_one]
        show grad T draw (core (sr Semirings.negInf) (C := fiveWords.d2) (fiveWords.d1 + 1) (Nat.clog 2 fiveWords.d1) (lenOf (fiveWords.d1 + 1) none)
          (LinearChainSample.leafRow fun b n i j => fiveWords.get b n i j) 0) (kb 0) id = _
        rw [e1, h4, ← sum_ev, Fin.sum_univ_one, Finsupp.smul_apply, smul_eq_mul]
        rfl
      rw [hY] at h5
      have h6 : ∀ id, batchEvent Y id = s * batchEvent (fun _ : Fin 1 => y) id := fun id => congrFun h5 id
      have h7 : s = 1 := by
        have h8 := h6 [0, 0, (Y 0 1 : ℕ), (Y 0 0 : ℕ)]
        have e0 : batchEvent Y [0, 0, (Y 0 1 : ℕ), (Y 0 0 : ℕ)] = 1 := if_pos ⟨0, 0, Y 0 1, Y 0 0, rfl, by decide, rfl, rfl⟩
        rw [e0] at h8
        exact Nat.eq_one_of_mul_eq_one_right h8.symm
      have h9 : Y = fun _ => y := hinj (funext fun id => by rw [h6 id, h7, one_mul])
      exact hne (by rw [h9]; exact hy)
    rw [this]; simp
  · have hprob : ∀ Y : ∀ b : Fin 1, Tags 4 2, (∏ b : Fin 1, chainP (row fiveWords b) (Y b)) = 1 / 32 := by
      intro Y
      have h1 : ∀ b : Fin 1, chainP (row fiveWords b) (Y b) = 1 / (2 ^ (4 + 1) : ℕ) := fun b => chainP_zero _ (fun _ _ _ => rfl) _
      rw [prod_congr rfl fun b _ => h1 b]
      norm_num
    have hA : ∀ Y : ∀ b : Fin 1, Tags 4 2, batchEvent Y ∈ {r | ∃ Y : ∀ b : Fin 1, Tags 4 2, Y 0 1 ≠ Y 0 3 ∧ r = batchEvent Y} ↔ Y 0 1 ≠ Y 0 3 := by
      intro Y
      constructor
      · rintro ⟨Y', h1, h2⟩
        rwa [hinj h2]
      · intro h1; exact ⟨Y, h1, rfl⟩
    simp only [hA, hprob]
    rw [← sum_filter, sum_const]
    have : (univ.filter fun Y : ∀ b : Fin 1, Tags 4 2 => Y 0 1 ≠ Y 0 3).card = 16 := by
      rw [show (univ.filter fun Y : ∀ b : Fin 1, Tags 4 2 => Y 0 1 ≠ Y 0 3) = @Finset.filter _ (fun Y : Fin 1 → Fin 5 → Fin 2 => Y 0 1 ≠ Y 0 3) (fun _ => inferInstance) univ by
        congr]
      decide
    rw [this]; norm_num

end Props.Gumbel
