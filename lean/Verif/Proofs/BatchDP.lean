import Mathlib.Data.List.GetD
import Verif.Proofs.KBest
import Verif.Proofs.RowBest
import Verif.Proofs.RowSample

/-! What the methods of a distribution return, for every dynamic program whose rows are of the form `RowDP`. -/

open Finset Spec ChainTop

noncomputable section
namespace Generic

/-- The dynamic program `A` on the potentials `p` returns `B` rows, and row `b` is a `RowDP`.  `val` reads the potentials by index. -/
structure BatchDP (A : Algo) {γ : Type} (p : A.T γ) (lengths : Option (List ℕ)) (B : ℕ) (val : List ℕ → γ) (E : ℕ → List ℕ → Prop)
    {ι π : ℕ → Type} [∀ b, Fintype (ι b)] [∀ b, Fintype (π b)] (parts : ∀ b, ι b → Multiset (List ℕ)) (ones : ∀ b, ι b → ℕ)
    (atoms : ∀ b, π b → Multiset Atom) : Prop where
  rows : ∃ row : ℕ → (α : Type) → SR α → (List ℕ → α) → α,
    (∀ {α : Type} (S : SR α) (f : γ → List ℕ → α), A.run S (A.map (fun q : γ × List ℕ => f q.1 q.2) (A.index p)) lengths =
      .ok ((List.range B).map fun b => row b α S fun e => f (val e) e)) ∧
    ∀ b < B, RowDP (row b) b (E b) (parts b) (ones b) (atoms b)
  map_fst : ∀ {α : Type} (f : γ → α), A.map (fun q : γ × List ℕ => f q.1) (A.index p) = A.map f p
  map_id : A.map id p = p

/-- Gradient of a batch: only row `b` contributes to the entries of row `b`. -/
theorem gradOfSum_head (B : ℕ) (g : ℕ → Autograd.Grad (List ℕ)) (b : ℕ) (hb : b < B) (e : List ℕ)
    (hother : ∀ b' < B, b' ≠ b → (g b').2 e = 0) : Dist.gradOfSum ((List.range B).map g) e = (g b).2 e := by
  have happ : ∀ l : List (List ℕ → ℝ), l.sum e = (l.map fun f => f e).sum := by
    intro l
    induction l with
    | nil => rfl
    | cons a l ih => simp [ih]
  rw [Dist.gradOfSum, List.map_map, happ, List.map_map]
  have : ∀ f : ℕ → ℝ, ((List.range B).map f).sum = ∑ b ∈ range B, f b := by
    intro f; rw [← List.sum_toFinset _ List.nodup_range, List.toFinset_range]
  rw [this, sum_eq_single b]
  · rfl
  · intro b' hb' hne; exact hother b' (mem_range.1 hb') hne
  · intro hc; exact absurd (mem_range.2 hb) hc

/-- The number of times a structure uses an entry. -/
theorem grad_sum (m : Multiset Atom) (e : List ℕ) : (m.map fun a => a.grad e).sum = (m.filterMap Atom.link).count e := by
  rw [← event_sum]
  induction m using Multiset.induction_on with
  | empty => simp
  | cons a m ih =>
    rw [Multiset.map_cons, Multiset.sum_cons, ih, Multiset.map_cons, Multiset.sum_cons, Finsupp.add_apply]
    push_cast
    congr 1
    cases a <;> simp only [Atom.grad, Atom.event, Atom.weight, Finsupp.single_apply, Pi.single_apply, Pi.zero_apply, Finsupp.coe_zero] <;>
      simp [eq_comm]

theorem leaf_sum (v : List ℕ → ℝ) (m : Multiset (List ℕ)) :
    (m.map fun e => (Autograd.leaf (v e) e : Autograd.Grad (List ℕ))).sum = ((m.map v).sum, fun e => (m.count e : ℝ)) := by
  induction m using Multiset.induction_on with
  | empty => simp; rfl
  | cons a m ih =>
    simp only [Multiset.map_cons, Multiset.sum_cons, ih]
    refine Prod.ext rfl ?_
    funext e
    change (Pi.single a (1 : ℝ) : List ℕ → ℝ) e + (m.count e : ℝ) = ((a ::ₘ m).count e : ℝ)
    rw [Multiset.count_cons, Pi.single_apply]
    push_cast
    rw [add_comm]

/-- The structures may be renamed. -/
theorem BatchDP.reindex {A : Algo} {γ : Type} {p : A.T γ} {lengths : Option (List ℕ)} {B : ℕ} {val : List ℕ → γ} {E : ℕ → List ℕ → Prop}
    {ι ι' π : ℕ → Type} [∀ b, Fintype (ι b)] [∀ b, Fintype (ι' b)] [∀ b, Fintype (π b)] {parts : ∀ b, ι b → Multiset (List ℕ)} {ones : ∀ b, ι b → ℕ}
    {atoms : ∀ b, π b → Multiset Atom} (D : BatchDP A p lengths B val E parts ones atoms) (e : ∀ b, ι' b ≃ ι b) :
    BatchDP A p lengths B val E (fun b y => parts b (e b y)) (fun b y => ones b (e b y)) atoms where
  rows := by
    obtain ⟨row, h1, h2⟩ := D.rows
    refine ⟨row, h1, fun b hb => ?_⟩
    have H := h2 b hb
    refine ⟨?_, fun y => H.partE (e b y), H.potE, H.head, H.headM, H.leak⟩
    intro α R _ S ρ ζ ω HS HT x wp wm hx hm
    have := H.rel HS HT hx hm
    rwa [← (e b).sum_comp] at this
  map_fst := D.map_fst
  map_id := D.map_id

namespace BatchDP
variable {A : Algo} {lengths : Option (List ℕ)} {B : ℕ} {E : ℕ → List ℕ → Prop}
  {ι π : ℕ → Type} [∀ b, Fintype (ι b)] [∀ b, Fintype (π b)] {parts : ∀ b, ι b → Multiset (List ℕ)} {ones : ∀ b, ι b → ℕ}
  {atoms : ∀ b, π b → Multiset Atom}

section real
variable {p : A.T ℝ} {val : List ℕ → ℝ} (D : BatchDP A p lengths B val E parts ones atoms)
include D

theorem partition_eq : Dist.partition A p lengths =
    .ok ((List.range B).map fun b => Real.log (Gibbs.Z (tot (parts b) (atoms b) Semirings.negInf val))) := by
  obtain ⟨row, h1, h2⟩ := D.rows
  have h := h1 Semirings.log fun v _ => v
  rw [D.map_fst fun v => v] at h
  have e : A.map (fun v => v) p = p := D.map_id
  rw [e] at h
  refine h.trans ?_
  congr 1
  refine List.map_congr_left fun b hb => ?_
  exact (h2 b (List.mem_range.1 hb)).log_eq Semirings.negInf val

theorem max_eq : ∃ vs, Dist.max A p lengths = .ok vs ∧ vs.length = B ∧ ∀ b (hb : b < vs.length),
    (∃ t, vs[b] = tot (parts b) (atoms b) Semirings.negInf val t) ∧ ∀ t, tot (parts b) (atoms b) Semirings.negInf val t ≤ vs[b] := by
  obtain ⟨row, h1, h2⟩ := D.rows
  have h := h1 Semirings.max fun v _ => v
  rw [D.map_fst fun v => v] at h
  have e : A.map (fun v => v) p = p := D.map_id
  rw [e] at h
  refine ⟨_, h, by simp, fun b hb => ?_⟩
  simp only [List.getElem_map, List.getElem_range]
  exact (h2 b (by simpa using hb)).max_top val

theorem entropy_eq : Dist.entropy A p lengths =
    .ok ((List.range B).map fun b => Gibbs.entropy (tot (parts b) (atoms b) Semirings.negInf val)) := by
  obtain ⟨row, h1, h2⟩ := D.rows
  have h := h1 Semirings.entropy fun v _ => Semirings.entropyConvert v
  rw [D.map_fst Semirings.entropyConvert] at h
  refine (congrArg (Except.map (List.map Prod.snd)) h).trans ?_
  change Except.ok _ = _
  congr 1
  rw [List.map_map]
  refine List.map_congr_left fun b hb => ?_
  exact (h2 b (List.mem_range.1 hb)).entropy_eq Semirings.negInf val

theorem marginals_eq : ∃ μ, Dist.marginals A p lengths = .ok μ ∧ ∀ b < B, ∀ e : List ℕ, e.head? = some b →
    μ e = Gibbs.expect (tot (parts b) (atoms b) Semirings.negInf val)
      fun t => ((allAtoms (parts b) (ones b) (atoms b) t).filterMap Atom.link).count e := by
  obtain ⟨row, h1, h2⟩ := D.rows
  have h := h1 Autograd.log fun v e => Autograd.leaf v e
  refine ⟨_, congrArg (Except.map Dist.gradOfSum) h, fun b hb e he => ?_⟩
  rw [gradOfSum_head B _ b hb e]
  · refine (congrFun (congrArg Prod.snd ((h2 b hb).gradLog_eq Semirings.negInf val)) e).trans ?_
    simp only [grad_sum]
  · intro b' hb' hne
    refine (congrFun (congrArg Prod.snd ((h2 b' hb').gradLog_eq Semirings.negInf val)) e).trans ?_
    simp only [grad_sum]
    refine sum_eq_zero fun t _ => ?_
    beta_reduce
    rw [Multiset.count_eq_zero_of_notMem]
    · simp
    · intro hc
      have := (h2 b' hb').link_head t e hc
      rw [he] at this
      exact hne (Option.some.inj this).symm

theorem argmax_eq {pick : List (Autograd.Grad (List ℕ)) → Autograd.Grad (List ℕ)} (hp : Autograd.IsArgmax Prod.fst pick) :
    ∃ μ, Dist.argmax A p lengths pick = .ok μ ∧ ∀ b < B, ∃ t, (∀ t', tot (parts b) (atoms b) Semirings.negInf val t' ≤
      tot (parts b) (atoms b) Semirings.negInf val t) ∧ ∀ e : List ℕ, e.head? = some b →
      μ e = ((allAtoms (parts b) (ones b) (atoms b) t).filterMap Atom.link).count e := by
  obtain ⟨row, h1, h2⟩ := D.rows
  have h := h1 (Autograd.max pick) fun v e => Autograd.leaf v e
  refine ⟨_, congrArg (Except.map Dist.gradOfSum) h, fun b hb => ?_⟩
  obtain ⟨t, ht, hmax⟩ := (h2 b hb).gradMax_top val hp
  refine ⟨t, hmax, fun e he => ?_⟩
  rw [gradOfSum_head B _ b hb e]
  · refine (congrFun (congrArg Prod.snd ht) e).trans ?_
    simp only [grad_sum]
  · intro b' hb' hne
    obtain ⟨t', ht', -⟩ := (h2 b' hb').gradMax_top val hp
    refine (congrFun (congrArg Prod.snd ht') e).trans ?_
    simp only [grad_sum]
    rw [Multiset.count_eq_zero_of_notMem]
    · simp
    · intro hc
      have := (h2 b' hb').link_head t' e hc
      rw [he] at this
      exact hne (Option.some.inj this).symm

/-- What `kmax` and `topk` need: `n` bounds the number of potentials in a structure, `M` bounds the potentials, and scores stay far from
the stand-in `-1e5`. -/
structure Small (val : List ℕ → ℝ) (E : List ℕ → Prop) {ι π : Type} (parts : ι → Multiset (List ℕ)) (atoms : π → Multiset Atom)
    (n : ℕ) (M : ℝ) : Prop where
  nonneg : 0 ≤ M
  bound : ∀ e, E e → |val e| ≤ M
  size : ∀ y, Multiset.card (parts y) ≤ n
  sizeA : ∀ y, ((atoms y).map Atom.size).sum ≤ n
  small : 2 * n * M < 100000
  below : M ≤ 100000

theorem kmax_eq {n : ℕ → ℕ} {M : ℕ → ℝ} (hs : ∀ b < B, Small val (E b) (parts b) (atoms b) (n b) (M b)) {k : ℕ} (hk : 0 < k)
    (hc : ∀ b < B, k ≤ Fintype.card (ι b)) :
    ∃ vs, Dist.kmax A p lengths k = .ok vs ∧ vs.length = B ∧ ∀ b (hb : b < vs.length), ∃ ys : List (ι b),
      IsKBest (realScore (parts b) val) k ys ∧ vs[b] = ys.map (realScore (parts b) val) := by
  classical
  obtain ⟨row, h1, h2⟩ := D.rows
  have h := h1 (Semirings.kmax k) fun v _ => Semirings.kmaxConvert k v
  rw [D.map_fst (Semirings.kmaxConvert k)] at h
  refine ⟨_, h, by simp, fun b hb => ?_⟩
  have hb' : b < B := by simpa using hb
  have hsm := hs b hb'
  have := (h2 b hb').kbest (ksr_kmax' hk) val (x := fun e => Semirings.kmaxConvert k (val e)) (fun _ => rfl) hsm.nonneg hsm.bound hsm.size
    hsm.sizeA (by rw [neg_neg]; exact hsm.small) (by rw [neg_neg]; exact hsm.below) (hc b hb')
  obtain ⟨ys, a1, a2, a3, a4, a5⟩ := top_family this
  refine ⟨ys, ⟨a1, a2, a4, a5⟩, ?_⟩
  simp only [List.getElem_map, List.getElem_range]
  exact a3

theorem topk_eq {n : ℕ → ℕ} {M : ℕ → ℝ} (hs : ∀ b < B, Small val (E b) (parts b) (atoms b) (n b) (M b)) {k : ℕ} (hk : 0 < k)
    (hc : ∀ b < B, k ≤ Fintype.card (ι b))
    {sel : List (Autograd.Grad (List ℕ)) → List (Autograd.Grad (List ℕ))} (hsel : Autograd.IsTopk Prod.fst k sel) :
    ∃ (vs : List (List ℝ)) (μ : ℕ → List ℕ → ℝ), Dist.kmax A p lengths k = .ok vs ∧ vs.length = B ∧
      (∀ s < k, Dist.topk A p lengths k sel s = .ok (μ s)) ∧
      ∀ b (hb : b < vs.length), ∃ ys : List (ι b), IsKBest (realScore (parts b) val) k ys ∧ vs[b] = ys.map (realScore (parts b) val) ∧
        ∀ s (hs : s < ys.length), ∀ e : List ℕ, e.head? = some b → μ s e = (parts b ys[s]).count e := by
  classical
  obtain ⟨vs, hv1, hv2, hv3⟩ := D.kmax_eq hs hk hc
  obtain ⟨row, h1, h2⟩ := D.rows
  have h := h1 (Autograd.kmax k sel) fun v e => Autograd.kmaxConvert k v e
  refine ⟨vs, _, hv1, hv2, fun s _ => (congrArg (Except.map fun vs => Dist.gradOfSum (vs.map fun row => row.getD s (0, 0))) h :), ?_⟩
  have hrow : ∀ b < B, ∃ ys : List (ι b), IsKBest (realScore (parts b) val) k ys ∧
      row b _ (Autograd.kmax k sel) (fun e => Autograd.kmaxConvert k (val e) e) =
        ys.map fun y => (realScore (parts b) val y, fun e => ((parts b y).count e : ℝ)) := by
    intro b hb
    have hsm := hs b hb
    have := (h2 b hb).kbest (ksr_grad' hk hsel) (fun e => Autograd.leaf (val e) e) (x := fun e => Autograd.kmaxConvert k (val e) e)
      (fun _ => rfl) hsm.nonneg hsm.bound hsm.size hsm.sizeA (by rw [neg_neg]; exact hsm.small) (by rw [neg_neg]; exact hsm.below) (hc b hb)
    simp only [leaf_sum] at this
    obtain ⟨ys, a1, a2, a3, a4, a5⟩ := top_family this
    exact ⟨ys, ⟨a1, a2, a4, a5⟩, a3⟩
  intro b hb
  have hb' : b < B := by omega
  obtain ⟨ys, hys, hcore⟩ := hrow b hb'
  refine ⟨ys, hys, ?_, ?_⟩
  · obtain ⟨ys', hys', e⟩ := hv3 b hb
    rw [e, hys.unique hys']
  · intro s hs' e he
    beta_reduce
    rw [List.map_map]
    refine (gradOfSum_head B _ b hb' e ?_).trans ?_
    · intro b' hb'' hne
      obtain ⟨ys', hys', hcore'⟩ := hrow b' hb''
      simp only [Function.comp_apply, hcore']
      by_cases hs'' : s < ys'.length
      · rw [List.getD_eq_getElem _ _ (by simpa using hs''), List.getElem_map]
        have : e ∉ parts b' ys'[s] := by
          intro hc
          have := (h2 b' hb'').head _ ((h2 b' hb'').partE _ _ hc)
          rw [he] at this
          exact hne (Option.some.inj this).symm
        simp [Multiset.count_eq_zero_of_notMem this]
      · rw [List.getD_eq_default _ _ (by simpa using hs'')]; rfl
    · simp only [Function.comp_apply, hcore]
      rw [List.getD_eq_getElem _ _ (by simpa using hs'), List.getElem_map]

/-- The rows recorded by the sampling semirings. -/
theorem record_eq (hne : ∀ b < B, Nonempty (ι b)) (hnd : ∀ b < B, ∀ y, (parts b y).Nodup)
    (hnd' : ∀ b < B, ∀ y, ((atoms b y).filterMap Atom.link).Nodup) (z : ℝ) :
    ∃ f : ℕ → Sampling.Expr, Sampling.record A z p lengths = .ok ((List.range B).map f) ∧
      ∀ b : Fin B, Sampling.RowLaw (f b) b (ev (parts b)) (fun y => Real.exp (realScore (parts b) val y))
        (Real.log (1 + Gibbs.excess (realScore (parts b) val) (phScore (atoms b) z val))) := by
  obtain ⟨row, h1, h2⟩ := D.rows
  exact ⟨_, h1 (Sampling.sr z) fun v e => Sampling.Expr.leaf v e,
    fun b => have := hne b b.2; (h2 b b.2).rowLaw z val (hnd b b.2) (hnd' b b.2)⟩

end real

/-- `count`. -/
theorem count_eq {p : A.T EReal} {val : List ℕ → EReal} (D : BatchDP A p lengths B val E parts ones atoms) :
    Dist.count A lengths p = .ok ((List.range B).map fun b => (((univ : Finset (ι b)).filter fun y => ∀ e ∈ parts b y, val e ≠ ⊥).card : ℝ)) := by
  obtain ⟨row, h1, h2⟩ := D.rows
  have h := h1 (Semirings.std ℝ) fun v _ => if v = ⊥ then (0 : ℝ) else 1
  rw [D.map_fst fun v => if v = ⊥ then (0 : ℝ) else 1] at h
  refine h.trans ?_
  congr 1
  refine List.map_congr_left fun b hb => ?_
  rw [(h2 b (List.mem_range.1 hb)).std_eq]
  rw [Finset.card_filter]
  push_cast
  refine sum_congr rfl fun y _ => ?_
  split_ifs with hy
  · refine Multiset.prod_eq_one fun r hr => ?_
    obtain ⟨e, he, rfl⟩ := Multiset.mem_map.1 hr
    exact if_neg (hy e he)
  · push Not at hy
    obtain ⟨e, he, h0⟩ := hy
    exact Multiset.prod_eq_zero (Multiset.mem_map.2 ⟨e, he, if_pos h0⟩)

end BatchDP
end Generic
