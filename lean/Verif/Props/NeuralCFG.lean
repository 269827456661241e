import Verif.Model.NeuralCFG
import Verif.Props.PCFG

/-! Property theorems about `SentCFG` with the potentials of `NeuralCFG`: C94. -/

open Finset Spec

noncomputable section
namespace Props.NeuralCFG
open _root_.NeuralCFG Props.SentCFG

variable {V T NT H : ℕ}

/-- `exp x_i / ∑ exp x_j`. -/
def softmax {ι : Type} [Fintype ι] (x : ι → ℝ) (i : ι) : ℝ := Real.exp (x i) / ∑ j, Real.exp (x j)

theorem softmax_nonneg {ι : Type} [Fintype ι] (x : ι → ℝ) (i : ι) : 0 ≤ softmax x i := div_nonneg (Real.exp_pos _).le (sum_nonneg fun _ _ => (Real.exp_pos _).le)

theorem softmax_sum {ι : Type} [Fintype ι] [Nonempty ι] (x : ι → ℝ) : ∑ i, softmax x i = 1 := by
  unfold softmax
  rw [← sum_div, div_self]
  exact (sum_pos (fun j _ => Real.exp_pos _) univ_nonempty).ne'

theorem exp_logSoftmax {n : ℕ} [Nonempty (Fin n)] (x : Fin n → ℝ) (i : Fin n) : Real.exp (logSoftmax x i) = softmax x i := by
  rw [logSoftmax, Real.exp_sub, Real.exp_log (sum_pos (fun j _ => Real.exp_pos _) univ_nonempty), softmax]

/-- The score that the network gives to a word of a preterminal: the inner product of the embedding of the word with the transformed embedding of the preterminal. -/
def wordScore (θ : Params V T NT H) (t : Fin T) (v : Fin V) : ℝ := ∑ h, θ.word_emb v h * θ.mlp1.forward (θ.term_emb t) h

/-- The score of a pair of children of a nonterminal. -/
def pairScore (θ : Params V T NT H) (X : Fin NT) (yz : (Fin NT ⊕ Fin T) × (Fin NT ⊕ Fin T)) : ℝ :=
  ∑ h, θ.nonterm_emb X h * θ.nonterm_emb_c (finSumFinEquiv yz.1) (finSumFinEquiv yz.2) h

/-- The score of a root. -/
def startScore (θ : Params V T NT H) (X : Fin NT) : ℝ := ∑ h, θ.s_emb 0 h * θ.mlp2.forward (θ.root_emb X) h

/-- The grammar of the network: every choice is made with the softmax of its scores. -/
def grammar (hV : 0 < V) (hT : 0 < T) (hNT : 0 < NT) (θ : Params V T NT H) : Spec.PCFG NT T V where
  root := softmax (startScore θ)
  rule X y z := softmax (pairScore θ X) (y, z)
  emit t := softmax (wordScore θ t)
  root_nonneg := softmax_nonneg _
  rule_nonneg X y z := softmax_nonneg _ _
  emit_nonneg t := softmax_nonneg _
  root_sum := by
    have : Nonempty (Fin NT) := ⟨⟨0, hNT⟩⟩
    exact softmax_sum _
  rule_sum X := by
    have : Nonempty (Fin NT ⊕ Fin T) := ⟨.inr ⟨0, hT⟩⟩
    rw [← Fintype.sum_prod_type']
    exact softmax_sum (pairScore θ X)
  emit_sum t := by
    have : Nonempty (Fin V) := ⟨⟨0, hV⟩⟩
    exact softmax_sum _

/-- The sentence of row `b`: its first `len b` words. -/
def sentence (hV : 0 < V) (input : ℕ → ℕ → ℕ) (len : ℕ → ℕ) (b : ℕ) : List (Fin V) := (List.range (len b)).map fun n => ⟨input b n % V, Nat.mod_lt _ hV⟩

theorem at1_lt {n : ℕ} (x : Fin n → ℝ) (i : ℕ) (h : i < n) : at1 x i = x ⟨i, h⟩ := dif_pos h

theorem num_val (y : Fin NT ⊕ Fin T) : PCFG.num y = (finSumFinEquiv y : ℕ) := by cases y <;> rfl

theorem rules_exp (hT : 0 < T) (hNT : 0 < NT) (θ : Params V T NT H) (X : Fin NT) (y z : Fin NT ⊕ Fin T) :
    Real.exp (rules θ X (PCFG.num y) (PCFG.num z)) = softmax (pairScore θ X) (y, z) := by
  have : Nonempty (Fin ((NT + T) * (NT + T))) := ⟨⟨0, by positivity⟩⟩
  set i := finSumFinEquiv y with hi
  set j := finSumFinEquiv z with hj
  have e : PCFG.num y * (NT + T) + PCFG.num z = (finProdFinEquiv (i, j) : ℕ) := by
    rw [num_val, num_val, ← hi, ← hj]
    simp only [finProdFinEquiv_apply_val]
    ring
  rw [rules, at1_lt _ _ X.2, e, at1_lt _ _ (finProdFinEquiv (i, j)).2, exp_logSoftmax]
  have hs : ∀ u v : Fin NT ⊕ Fin T, ruleLogits θ X (finProdFinEquiv (finSumFinEquiv u, finSumFinEquiv v)) = pairScore θ X (u, v) := by
    intro u v
    have h := finProdFinEquiv.symm_apply_apply (finSumFinEquiv u, finSumFinEquiv v)
    have h1 : (finProdFinEquiv (finSumFinEquiv u, finSumFinEquiv v)).divNat = finSumFinEquiv u := congrArg Prod.fst h
    have h2 : (finProdFinEquiv (finSumFinEquiv u, finSumFinEquiv v)).modNat = finSumFinEquiv v := congrArg Prod.snd h
    rw [ruleLogits, pairScore, h1, h2]
  show softmax (ruleLogits θ X) (finProdFinEquiv (i, j)) = _
  rw [softmax, softmax, hs y z]
  congr 1
  rw [← ((Equiv.prodCongr finSumFinEquiv finSumFinEquiv).trans finProdFinEquiv).sum_comp]
  refine sum_congr rfl fun yz _ => congrArg Real.exp ?_
  exact hs yz.1 yz.2

/-- The potentials that the network computes. -/
def potentials (θ : Params V T NT H) (batch N : ℕ) (input : ℕ → ℕ → ℕ) : CKY.Scores ℝ :=
  ⟨batch, N, T, NT, NT + T, terms θ input, fun _ => rules θ, fun _ => roots θ, none⟩

theorem forward_ok (θ : Params V T NT H) {batch N : ℕ} (input : ℕ → ℕ → ℕ) (hin : ∀ b < batch, ∀ n < N, input b n < V) :
    forward θ batch N input = .ok (potentials θ batch N input) :=
  if_pos fun b hb n hn => hin b (List.mem_range.1 hb) n (List.mem_range.1 hn)

/-- **C94.** A word that is not in the vocabulary raises an error. -/
theorem forward_unknown (θ : Params V T NT H) {batch N : ℕ} (input : ℕ → ℕ → ℕ) {b n : ℕ} (hb : b < batch) (hn : n < N) (h : V ≤ input b n) :
    forward θ batch N input = .error .runtime :=
  if_neg fun hc => absurd (hc b (List.mem_range.2 hb) n (List.mem_range.2 hn)) (by omega)

/-- **C94.** The potentials that the network computes are the logarithms of the probabilities of its grammar, which does not depend on the sentences. -/
theorem forward_holds (hV : 0 < V) (hT : 0 < T) (hNT : 0 < NT) (θ : Params V T NT H) {batch N : ℕ} (input : ℕ → ℕ → ℕ) (hin : ∀ b < batch, ∀ n < N, input b n < V)
    (len : ℕ → ℕ) (b : ℕ) (hb : b < batch) (hl : len b ≤ N) :
    PCFG.Holds Real.exp (fun x => x) (potentials θ batch N input) (grammar hV hT hNT θ) b (sentence hV input len b) := by
  refine ⟨?_, ?_, ?_⟩
  · intro n hn (t : Fin T)
    have : Nonempty (Fin V) := ⟨⟨0, hV⟩⟩
    have hn' : n < len b := by simpa [sentence] using hn
    have hv := hin b hb n (by omega)
    show Real.exp (terms θ input b n t) = softmax (wordScore θ t) (sentence hV input len b)[n]
    rw [terms, at1_lt _ _ t.2, at1_lt _ _ hv, exp_logSoftmax]
    have : (sentence hV input len b)[n] = ⟨input b n, hv⟩ := by simp [sentence, Nat.mod_eq_of_lt hv]
    rw [this]
    rfl
  · intro X y z
    exact rules_exp hT hNT θ X y z
  · intro (X : Fin NT)
    have : Nonempty (Fin NT) := ⟨⟨0, hNT⟩⟩
    show Real.exp (roots θ X) = softmax (startScore θ) X
    rw [roots, at1_lt _ _ X.2, exp_logSoftmax]
    have : rootLogits θ = startScore θ := by
      funext X
      simp [rootLogits, startScore]
    rw [this]

/-- No probability of the grammar is below `exp (-B)`. -/
structure Above (G : Spec.PCFG NT T V) (B : ℝ) : Prop where
  root : ∀ X, Real.exp (-B) ≤ G.root X
  rule : ∀ X y z, Real.exp (-B) ≤ G.rule X y z
  emit : ∀ t v, Real.exp (-B) ≤ G.emit t v

/-- A softmax is never zero, so there is such a bound for every network. -/
theorem exists_above (hV : 0 < V) (hT : 0 < T) (hNT : 0 < NT) (θ : Params V T NT H) : ∃ B, Above (grammar hV hT hNT θ) B := by
  have pos : ∀ {ι : Type} [Fintype ι] (x : ι → ℝ) (i : ι), 0 < softmax x i := fun x i =>
    div_pos (Real.exp_pos _) (sum_pos (fun j _ => Real.exp_pos _) ⟨i, mem_univ i⟩)
  let S : Finset ℝ := (univ.image fun X => -Real.log ((grammar hV hT hNT θ).root X)) ∪
    (univ.image fun x : Fin NT × (Fin NT ⊕ Fin T) × (Fin NT ⊕ Fin T) => -Real.log ((grammar hV hT hNT θ).rule x.1 x.2.1 x.2.2)) ∪
    (univ.image fun x : Fin T × Fin V => -Real.log ((grammar hV hT hNT θ).emit x.1 x.2))
  obtain ⟨B, hB⟩ := S.bddAbove
  have low : ∀ {x : ℝ}, 0 < x → -Real.log x ≤ B → Real.exp (-B) ≤ x := by
    intro x hx h
    rw [← Real.exp_log hx]
    exact Real.exp_le_exp.2 (by linarith)
  refine ⟨B, fun X => low (pos _ _) (hB ?_), fun X y z => low (pos _ _) (hB ?_), fun t v => low (pos _ _) (hB ?_)⟩
  · simp only [S, coe_union, coe_image, Set.mem_union]
    exact .inl (.inl ⟨X, by simp, rfl⟩)
  · simp only [S, coe_union, coe_image, Set.mem_union]
    exact .inl (.inr ⟨(X, y, z), by simp, rfl⟩)
  · simp only [S, coe_union, coe_image, Set.mem_union]
    exact .inr ⟨(t, v), by simp, rfl⟩

section
variable (hV : 0 < V) (hT : 0 < T) (hNT : 0 < NT) (θ : Params V T NT H) {batch N : ℕ} (input : ℕ → ℕ → ℕ) (hin : ∀ b < batch, ∀ n < N, input b n < V)
  (lengths : Option (List ℕ)) (hrows : 1 ≤ batch) (hlens : LengthsIn batch N lengths) (hlong : ∀ b < batch, 2 ≤ lenOf N lengths b) {B : ℝ} (hB : Above (grammar hV hT hNT θ) B)
include hin hrows hlens hlong hB

theorem facts : Valid (potentials θ batch N input) lengths ∧ Long (potentials θ batch N input) lengths ∧ Bounded (potentials θ batch N input) lengths B ∧
    PCFG.Words (potentials θ batch N input) lengths (sentence hV input (lenOf N lengths)) := by
  have hle : ∀ b < batch, lenOf N lengths b ≤ N := by
    intro b hb
    cases lengths with
    | none => exact le_rfl
    | some l =>
      obtain ⟨e, h⟩ := hlens
      have hb' : b < l.length := by omega
      have := (h _ (List.getElem_mem hb')).2
      simp only [lenOf]
      rw [List.getD_eq_getElem _ _ hb']
      exact this
  have hN : 1 ≤ N := by have := hlong 0 hrows; have := hle 0 hrows; omega
  have le1 : ∀ {ι : Type} [Fintype ι] (x : ι → ℝ) (i : ι), softmax x i ≤ 1 := by
    intro ι _ x i
    have : Nonempty ι := ⟨i⟩
    rw [← softmax_sum x]
    exact single_le_sum (f := softmax x) (fun j _ => softmax_nonneg x j) (mem_univ i)
  have bd : ∀ {y q : ℝ}, Real.exp y = q → q ≤ 1 → Real.exp (-B) ≤ q → |y| ≤ B := by
    rintro y q rfl h1 h2
    have k1 : y ≤ 0 := by rw [← Real.exp_le_exp, Real.exp_zero]; exact h1
    have k2 := Real.exp_le_exp.1 h2
    rw [abs_le]
    constructor <;> linarith
  have hold := fun b hb => forward_holds hV hT hNT θ input hin (lenOf N lengths) b hb (hle b hb)
  have hB0 : 0 ≤ B := (abs_nonneg _).trans (bd ((hold 0 hrows).root ⟨0, hNT⟩) (le1 _ _) (hB.root _))
  refine ⟨⟨rfl, hNT, hT, hrows, hN, hlens, rfl⟩, hlong, ⟨hB0, ?_, ?_, ?_⟩, fun b hb => by simp [sentence, len, potentials]⟩
  · intro b hb n hn t ht
    exact bd ((hold b hb).term n (by have : n < lenOf N lengths b := hn; simpa [sentence] using this) ⟨t, ht⟩) (le1 _ _) (hB.emit _ _)
  · intro b hb X hX y hy z hz
    have sym : ∀ u < NT + T, ∃ s : Fin NT ⊕ Fin T, PCFG.num s = u := by
      intro u hu
      by_cases h : u < NT
      · exact ⟨.inl ⟨u, h⟩, rfl⟩
      · exact ⟨.inr ⟨u - NT, by omega⟩, by show NT + (u - NT) = u; omega⟩
    obtain ⟨y, rfl⟩ := sym y hy
    obtain ⟨z, rfl⟩ := sym z hz
    exact bd ((hold b hb).rule ⟨X, hX⟩ y z) (le1 _ _) (hB.rule _ _ _)
  · intro b hb X hX
    exact bd ((hold b hb).root ⟨X, hX⟩) (le1 _ _) (hB.root _)

/-- The error of the stand-in `-1e5` for a sentence of `L` words. -/
def slack (NT T : ℕ) (B : ℝ) (L : ℕ) : ℝ := ((2 * NT + T) ^ (2 * L) : ℕ) * Real.exp (4 * L * B - 100000)

/-- **C94.** `SentCFG(NeuralCFG(words), lengths).partition` is the log-likelihood of the sentences under the grammar of the network, up to the error of the stand-in. -/
theorem neural_likelihood : ∃ p vs, forward θ batch N input = .ok p ∧ Dist.partition CKY.algo p lengths = .ok vs ∧ vs.length = batch ∧ ∀ b (hb : b < vs.length),
    let pr := (grammar hV hT hNT θ).sentence (sentence hV input (lenOf N lengths) b)
    0 < pr ∧ Real.log pr ≤ vs[b] ∧ vs[b] ≤ Real.log pr + slack NT T B (lenOf N lengths b) := by
  obtain ⟨h1, h2, h3, h4⟩ := facts hV hT hNT θ input hin lengths hrows hlens hlong hB
  obtain ⟨vs, k1, k2, k3⟩ := PCFG.partition_likelihood (potentials θ batch N input) lengths h1 h2 h3 (grammar hV hT hNT θ) _ h4
    fun b hb => forward_holds hV hT hNT θ input hin (lenOf N lengths) b hb (by have := h4 b hb; exact SentCFG.len_le h1 b hb)
  exact ⟨_, vs, forward_ok θ input hin, k1, k2, k3⟩

/-- **C94.** The likelihoods of different sentences add up to at most one, and none is above one, up to the error of the stand-in. -/
theorem neural_sum (hdiff : ∀ b < batch, ∀ b' < batch, sentence hV input (lenOf N lengths) b = sentence hV input (lenOf N lengths) b' → b = b') :
    ∃ p vs, forward θ batch N input = .ok p ∧ Dist.partition CKY.algo p lengths = .ok vs ∧ ∃ hv : vs.length = batch,
      (∑ b : Fin batch, Real.exp (vs[b] - slack NT T B (lenOf N lengths b))) ≤ 1 ∧ ∀ b (hb : b < vs.length), vs[b] ≤ slack NT T B (lenOf N lengths b) := by
  obtain ⟨h1, h2, h3, h4⟩ := facts hV hT hNT θ input hin lengths hrows hlens hlong hB
  obtain ⟨vs, k1, k2, k3⟩ := PCFG.likelihoods_sum (potentials θ batch N input) lengths h1 h2 h3 (grammar hV hT hNT θ) _ h4
    (fun b hb => forward_holds hV hT hNT θ input hin (lenOf N lengths) b hb (by have := h4 b hb; exact SentCFG.len_le h1 b hb)) hdiff
  exact ⟨_, vs, forward_ok θ input hin, k1, k2, k3⟩

end

/-! ### The hypotheses are met -/

/-- A network with one hidden unit, two nonterminals, one preterminal and three words. -/
def tiny : Params 3 1 2 1 :=
  let lin : Linear 1 := ⟨fun _ _ => 2, fun _ => -1⟩
  let res : Res 1 := ⟨lin, lin, lin, lin, lin⟩
  ⟨fun v _ => v, fun _ _ => 1, fun s _ => s, fun y z _ => (y : ℝ) - z, fun s _ => 1 - s, fun _ _ => 3, res, res⟩

/-- Two sentences: `0 2 1` and `2 0`. -/
def tinyInput (b n : ℕ) : ℕ := if b = 0 then (2 * n) % 3 else if n = 0 then 2 else 0

example : ∃ B, Above (grammar (by decide) (by decide) (by decide) tiny) B ∧ (∀ b < 2, ∀ n < 3, tinyInput b n < 3) ∧ LengthsIn 2 3 (some [3, 2]) ∧
    (∀ b < 2, 2 ≤ lenOf 3 (some [3, 2]) b) ∧ ∀ b < 2, ∀ b' < 2, sentence (V := 3) (by decide) tinyInput (lenOf 3 (some [3, 2])) b =
      sentence (by decide) tinyInput (lenOf 3 (some [3, 2])) b' → b = b' := by
  obtain ⟨B, hB⟩ := exists_above (by decide) (by decide) (by decide) tiny
  exact ⟨B, hB, by decide, ⟨rfl, by decide⟩, by decide, by decide⟩

end Props.NeuralCFG
