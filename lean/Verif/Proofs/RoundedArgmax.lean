import Verif.Model.RoundedArgmax
import Verif.Proofs.BatchDP
import Verif.Proofs.ExactDP
import Verif.Proofs.Rounding

/-! `argmax` with rounded sums: every dynamic program is run at the same time on the rounded values with their gradients, on bounds of the errors and on bounds of the magnitudes; next to it
stands the bag of all structures with their exact scores. -/

open Finset Spec Consistency
open Rounding hiding fst_rel err_rel mag_rel

noncomputable section
namespace RoundedArgmax

/-- Rounded values with gradients, bounds of the errors, bounds of the magnitudes. -/
def trip {E : Type} (add : ℝ → ℝ → ℝ) (ε : ℝ) (pick : List (Autograd.Grad E) → Autograd.Grad E) : SR (Autograd.Grad E × ℝ × ℝ) :=
  prod (Autograd.maxWith add pick) (prod (cost 0 ε fun _ => 0) (cost 100000 0 fun _ => 0))

/-- The value belongs to one structure of the bag, up to the error, and no structure is better, up to the error; if the magnitudes are in range. -/
def Ok {E : Type} (R : ℝ) (x : Autograd.Grad E × ℝ × ℝ) (m : Bag (ℝ × (E → ℝ))) : Prop :=
  0 ≤ x.2.1 ∧ 0 ≤ x.2.2 ∧ (x.2.1 + x.2.2 ≤ R → (∃ u ∈ m.ms, u.2 = x.1.2 ∧ |x.1.1 - u.1| ≤ x.2.1) ∧ ∀ u ∈ m.ms, u.1 ≤ x.1.1 + x.2.1 ∧ |u.1| ≤ x.2.2)

variable {E : Type} {add : ℝ → ℝ → ℝ} {R ε : ℝ} {pick : List (Autograd.Grad E) → Autograd.Grad E}

theorem ok_single {v w : ℝ} {g : E → ℝ} {d m : ℝ} (hd : 0 ≤ d) (hm : 0 ≤ m) (h : |v - w| ≤ d) (hw : |w| ≤ m) : Ok R ((v, g), d, m) (Bag.single (w, g)) := by
  refine ⟨hd, hm, fun _ => ⟨⟨(w, g), by simp, rfl, h⟩, fun u hu => ?_⟩⟩
  rw [Bag.ms_single, Multiset.mem_singleton] at hu
  subst hu
  refine ⟨?_, hw⟩
  have := (abs_le.1 h).1
  show w ≤ v + d
  linarith

theorem ok_rel (H : RoundedAdd add R ε) (hε : 0 ≤ ε) (hp : Autograd.IsArgmax Prod.fst pick) : SRRel (trip add ε pick) (Ok R) where
  mul := by
    rintro ⟨⟨a, ga⟩, ea, ma⟩ ⟨⟨b, gb⟩, eb, mb⟩ x y ⟨ha1, ha2, ha⟩ ⟨hb1, hb2, hb⟩
    simp only [Ok, trip, prod, cost, Autograd.maxWith] at *
    refine ⟨by linarith, by linarith, fun hR => ?_⟩
    obtain ⟨⟨u, hu, hug, hue⟩, hax⟩ := ha (by linarith)
    obtain ⟨⟨v, hv, hvg, hve⟩, hbx⟩ := hb (by linarith)
    have au := (hax u hu).2
    have bv := (hbx v hv).2
    have hab : |a + b| ≤ R := by
      rw [abs_le] at *
      constructor <;> linarith [au.1, au.2, bv.1, bv.2, hue.1, hue.2, hve.1, hve.2]
    have hr := abs_le.1 (H a b hab)
    rw [abs_le] at hue hve
    refine ⟨⟨u + v, Bag.mem_mul.2 ⟨u, hu, v, hv, rfl⟩, by rw [Prod.snd_add, hug, hvg], ?_⟩, ?_⟩
    · rw [Prod.fst_add, abs_le]
      constructor <;> linarith [hr.1, hr.2, hue.1, hue.2, hve.1, hve.2]
    · intro c hc
      obtain ⟨s, hs, t, ht, rfl⟩ := Bag.mem_mul.1 hc
      obtain ⟨s1, s2⟩ := hax s hs
      obtain ⟨t1, t2⟩ := hbx t ht
      rw [Prod.fst_add]
      exact ⟨by linarith [hr.1], (abs_add_le _ _).trans (by linarith)⟩
  sum := by
    intro as ms hne h
    have h1 : as.map (fun x => x.1) ≠ [] := by simpa using hne
    have h2 : as.map (fun x => x.2.1) ≠ [] := by simpa using hne
    have h3 : as.map (fun x => x.2.2) ≠ [] := by simpa using hne
    have e1 : (as.map Prod.snd).map Prod.fst = as.map fun x => x.2.1 := by rw [List.map_map]; rfl
    have e2 : (as.map Prod.snd).map Prod.snd = as.map fun x => x.2.2 := by rw [List.map_map]; rfl
    have m1 := Bag.listMax_spec _ h2
    have m2 := Bag.listMax_spec _ h3
    have nonneg : ∀ x ∈ as, 0 ≤ x.2.1 ∧ 0 ≤ x.2.2 := by
      intro x hx
      obtain ⟨m, -, hr⟩ := exists_rel h hx
      exact ⟨hr.1, hr.2.1⟩
    have p1 : 0 ≤ Semirings.listMax (as.map fun x => x.2.1) := by
      obtain ⟨x, hxm, he⟩ := List.mem_map.1 m1.1
      rw [← he]; exact (nonneg x hxm).1
    have p2 : 0 ≤ Semirings.listMax (as.map fun x => x.2.2) := by
      obtain ⟨x, hxm, he⟩ := List.mem_map.1 m2.1
      rw [← he]; exact (nonneg x hxm).2
    simp only [Ok, trip, prod, cost, Autograd.maxWith, Autograd.max, e1, e2, add_zero]
    refine ⟨p1, p2, fun hR => ?_⟩
    set Er := Semirings.listMax (as.map fun x => x.2.1)
    set M := Semirings.listMax (as.map fun x => x.2.2)
    have hE : ∀ x ∈ as, x.2.1 ≤ Er := fun x hxm => m1.2 _ (List.mem_map.2 ⟨x, hxm, rfl⟩)
    have hM : ∀ x ∈ as, x.2.2 ≤ M := fun x hxm => m2.2 _ (List.mem_map.2 ⟨x, hxm, rfl⟩)
    obtain ⟨hin, hbest⟩ := hp _ h1
    constructor
    · obtain ⟨x, hx, he⟩ := List.mem_map.1 hin
      obtain ⟨m, hm, hr⟩ := exists_rel h hx
      obtain ⟨⟨u, hu, hug, hue⟩, -⟩ := hr.2.2 (by have := hE x hx; have := hM x hx; linarith)
      refine ⟨u, Bag.mem_list_sum.2 ⟨m, hm, hu⟩, ?_, ?_⟩
      · rw [hug, he]
      · rw [← he]; exact hue.trans (hE x hx)
    · intro u hu
      obtain ⟨m, hm, hum⟩ := Bag.mem_list_sum.1 hu
      obtain ⟨x, hx, hr⟩ := exists_rel h.flip hm
      obtain ⟨u1, u2⟩ := (hr.2.2 (by have := hE x hx; have := hM x hx; linarith)).2 u hum
      have := hbest x.1 (List.mem_map.2 ⟨x, hx, rfl⟩)
      exact ⟨by linarith [hE x hx], u2.trans (hM x hx)⟩

theorem ok_tame : Generic.Tame (trip add ε pick) (Ok R) (Bag.single (Semirings.negInf, 0)) 1 := by
  have z : Ok R (((Semirings.negInf, 0) : Autograd.Grad E), 0, 100000) (Bag.single (Semirings.negInf, 0)) :=
    ok_single le_rfl (by norm_num) (by simp) (by norm_num [Semirings.negInf])
  have o : Ok R (((0, 0) : Autograd.Grad E), 0, 0) 1 := by
    rw [← Bag.single_zero]
    exact ok_single le_rfl le_rfl (by simp) (by simp)
  constructor
  case keep => intro a x h; exact h
  case one => exact o
  case dok => exact o
  all_goals exact z

theorem fst_rel : SRP (trip add ε pick) (Autograd.maxWith add pick) fun a b => a.1 = b := prod_fst _ _

theorem err_rel : SRP (trip add ε pick) (cost 0 ε fun _ => 0) fun a b => a.2.1 = b where
  zero := rfl
  one := rfl
  raw0 := rfl
  mul := by rintro a b _ _ rfl rfl; rfl
  sum := by intro as xs _ h; rw [← forall₂_map h]; simp only [trip, prod, List.map_map]; rfl
  detach := by rintro a _ rfl; rfl
  setData := by rintro a b _ _ rfl rfl; rfl

theorem mag_rel : SRP (trip add ε pick) (cost 100000 0 fun _ => 0) fun a b => a.2.2 = b where
  zero := rfl
  one := rfl
  raw0 := rfl
  mul := by rintro a b _ _ rfl rfl; rfl
  sum := by intro as xs _ h; rw [← forall₂_map h]; simp only [trip, prod, List.map_map]; rfl
  detach := by rintro a _ rfl; rfl
  setData := by rintro a b _ _ rfl rfl; rfl

end RoundedArgmax

namespace Generic
open RoundedArgmax

/-- One row. -/
theorem RowDP.near {row : (α : Type) → SR α → (List ℕ → α) → α} {b : ℕ} {E : List ℕ → Prop} {ι π : Type} [Fintype ι] [Fintype π]
    {parts : ι → Multiset (List ℕ)} {ones : ι → ℕ} {atoms : π → Multiset Atom} (D : RowDP row b E parts ones atoms)
    {add : ℝ → ℝ → ℝ} {R ε : ℝ} (H : RoundedAdd add R ε) (hε : 0 ≤ ε) {pick : List (Autograd.Grad (List ℕ)) → Autograd.Grad (List ℕ)} (hp : Autograd.IsArgmax Prod.fst pick)
    {v v' d m : List ℕ → ℝ} (hd : ∀ e, 0 ≤ d e) (hm : ∀ e, 0 ≤ m e) (hv : ∀ e, E e → |v' e - v e| ≤ d e ∧ |v e| ≤ m e) {Er M : ℝ}
    (hE : (row _ (trip add ε pick) fun e => (Autograd.leaf (v' e) e, d e, m e)).2.1 ≤ Er) (hM : (row _ (trip add ε pick) fun e => (Autograd.leaf (v' e) e, d e, m e)).2.2 ≤ M)
    (hR : Er + M ≤ R) :
    ∃ t, (row _ (trip add ε pick) fun e => (Autograd.leaf (v' e) e, d e, m e)).1.2 = (fun e => ((allAtoms parts ones atoms t).map fun a => a.grad e).sum) ∧
      ∀ t', tot parts atoms Semirings.negInf v t' ≤ tot parts atoms Semirings.negInf v t + 2 * Er := by
  have h := D.rel' (ok_rel H hε hp) ok_tame (x := fun e => ((Autograd.leaf (v' e) e : Autograd.Grad (List ℕ)), d e, m e))
    (wp := fun e => Bag.single (Autograd.leaf (v e) e)) (wm := fun e => Bag.single (Semirings.negInf, Pi.single e 1))
    (fun e he => ok_single (hd e) (hm e) (hv e he).1 (hv e he).2) (fun e => show Ok R ((Semirings.negInf, Pi.single e 1), (0 : ℝ), (100000 : ℝ)) _ from
      ok_single le_rfl (by norm_num) (by simp) (by norm_num [Semirings.negInf]))
  have h2 : ∀ t, ((allAtoms parts ones atoms t).map (Atom.weight (fun e => Bag.single (Autograd.leaf (v e) e))
      (fun e => Bag.single (Semirings.negInf, Pi.single e 1)) (Bag.single (Semirings.negInf, 0)) 1)).prod =
      Bag.single ((tot parts atoms Semirings.negInf v t, fun e => ((allAtoms parts ones atoms t).map fun a => a.grad e).sum) :
        Autograd.Grad (List ℕ)) := by
    intro t
    have e1 : ((tot parts atoms Semirings.negInf v t, fun e => ((allAtoms parts ones atoms t).map fun a => a.grad e).sum) :
        Autograd.Grad (List ℕ)) = ((allAtoms parts ones atoms t).map fun a => (a.score Semirings.negInf v, a.grad)).sum := by
      rw [tot_eq (ones := ones)]
      induction (allAtoms parts ones atoms t) using Multiset.induction_on with
      | empty => simp; rfl
      | cons a m ih =>
        simp only [Multiset.map_cons, Multiset.sum_cons, ← ih]
        rfl
    rw [e1, ← prod_single_bag]
    congr 1
    refine Multiset.map_congr rfl fun a _ => ?_
    cases a <;> rfl
  simp only [h2] at h
  obtain ⟨-, -, h3⟩ := h
  obtain ⟨⟨u, hu, hug, hue⟩, hbest⟩ := h3 (by linarith)
  obtain ⟨t, -, ht⟩ := Bag.mem_sum.1 hu
  rw [Bag.ms_single, Multiset.mem_singleton] at ht
  subst ht
  refine ⟨t, hug.symm, fun t' => ?_⟩
  have := (hbest _ (Bag.mem_sum.2 ⟨t', mem_univ t', by rw [Bag.ms_single]; exact Multiset.mem_singleton_self _⟩)).1
  have h5 := (abs_le.1 hue).2
  dsimp only at this h5
  linarith

namespace BatchDP
variable {A : Algo} {lengths : Option (List ℕ)} {B : ℕ} {E : ℕ → List ℕ → Prop}
  {ι π : ℕ → Type} [∀ b, Fintype (ι b)] [∀ b, Fintype (π b)] {parts : ∀ b, ι b → Multiset (List ℕ)} {ones : ∀ b, ι b → ℕ}
  {atoms : ∀ b, π b → Multiset Atom} {q : A.T ℝ} {v' : List ℕ → ℝ}

/-- `argmax` with rounded sums, run on potentials `v'` near `v`. -/
theorem argmax_near (D : BatchDP A q lengths B v' E parts ones atoms) {good : ∀ {γ : Type}, A.T γ → Prop} (P : Parametric A good) (hg : good (A.index q))
    {add : ℝ → ℝ → ℝ} {R ε : ℝ} (H : RoundedAdd add R ε) (hε : 0 ≤ ε) {pick : List (Autograd.Grad (List ℕ)) → Autograd.Grad (List ℕ)} (hp : Autograd.IsArgmax Prod.fst pick)
    {v d m : List ℕ → ℝ} (hd : ∀ e, 0 ≤ d e) (hm : ∀ e, 0 ≤ m e) (hv : ∀ b < B, ∀ e, E b e → |v' e - v e| ≤ d e ∧ |v e| ≤ m e) {Er M : ℝ}
    (hE : AllE (· ≤ Er) (A.run (cost 0 ε fun _ => 0) (A.map (fun x : ℝ × List ℕ => d x.2) (A.index q)) lengths))
    (hM : AllE (· ≤ M) (A.run (cost 100000 0 fun _ => 0) (A.map (fun x : ℝ × List ℕ => m x.2) (A.index q)) lengths)) (hR : Er + M ≤ R) :
    ∃ μ, Dist.argmaxWith add A q lengths pick = .ok μ ∧ ∀ b < B, ∃ t, (∀ t', tot (parts b) (atoms b) Semirings.negInf v t' ≤
      tot (parts b) (atoms b) Semirings.negInf v t + 2 * Er) ∧ ∀ e : List ℕ, e.head? = some b →
      μ e = ((allAtoms (parts b) (ones b) (atoms b) t).filterMap Atom.link).count e := by
  obtain ⟨row, h1, h2⟩ := D.rows
  have h := h1 (trip add ε pick) fun x e => (Autograd.leaf x e, d e, m e)
  have r1 := RelE.map_eq (f := Prod.fst) (P.run (fst_rel (add := add) (ε := ε) (pick := pick)) (A.index q) hg (fun x => (Autograd.leaf x.1 x.2, d x.2, m x.2)) (fun x => Autograd.leaf x.1 x.2) (fun _ => rfl) lengths)
  have r2 := RelE.map_eq (f := fun a : Autograd.Grad (List ℕ) × ℝ × ℝ => a.2.1) (P.run (err_rel (add := add) (ε := ε) (pick := pick)) (A.index q) hg (fun x => (Autograd.leaf x.1 x.2, d x.2, m x.2)) (fun x => d x.2) (fun _ => rfl) lengths)
  have r3 := RelE.map_eq (f := fun a : Autograd.Grad (List ℕ) × ℝ × ℝ => a.2.2) (P.run (mag_rel (add := add) (ε := ε) (pick := pick)) (A.index q) hg (fun x => (Autograd.leaf x.1 x.2, d x.2, m x.2)) (fun x => m x.2) (fun _ => rfl) lengths)
  rw [h] at r1 r2 r3
  rw [← r2] at hE
  rw [← r3] at hM
  have kE : ∀ b < B, (row b _ (trip add ε pick) fun e => (Autograd.leaf (v' e) e, d e, m e)).2.1 ≤ Er :=
    fun b hb => hE _ rfl _ (List.mem_map.2 ⟨_, List.mem_map.2 ⟨b, List.mem_range.2 hb, rfl⟩, rfl⟩)
  have kM : ∀ b < B, (row b _ (trip add ε pick) fun e => (Autograd.leaf (v' e) e, d e, m e)).2.2 ≤ M :=
    fun b hb => hM _ rfl _ (List.mem_map.2 ⟨_, List.mem_map.2 ⟨b, List.mem_range.2 hb, rfl⟩, rfl⟩)
  have key := fun b hb => (h2 b hb).near H hε hp hd hm (hv b hb) (kE b hb) (kM b hb) hR
  refine ⟨_, congrArg (Except.map Dist.gradOfSum) r1.symm, fun b hb => ?_⟩
  obtain ⟨t, ht, hmax⟩ := key b hb
  refine ⟨t, hmax, fun e he => ?_⟩
  rw [List.map_map, gradOfSum_head B _ b hb e]
  · refine (congrFun ht e).trans ?_
    simp only [grad_sum]
  · intro b' hb' hne
    obtain ⟨t', ht', -⟩ := key b' hb'
    refine (congrFun ht' e).trans ?_
    simp only [grad_sum]
    rw [Multiset.count_eq_zero_of_notMem]
    · simp
    · intro hc
      have := (h2 b' hb').link_head t' e hc
      rw [he] at this
      exact hne (Option.some.inj this).symm

/-- The same, if phantoms are worse than some structure by more than twice the error. -/
theorem argmax_near_real (D : BatchDP A q lengths B v' E parts ones atoms) {good : ∀ {γ : Type}, A.T γ → Prop} (P : Parametric A good) (hg : good (A.index q))
    {add : ℝ → ℝ → ℝ} {R ε : ℝ} (H : RoundedAdd add R ε) (hε : 0 ≤ ε) {pick : List (Autograd.Grad (List ℕ)) → Autograd.Grad (List ℕ)} (hp : Autograd.IsArgmax Prod.fst pick)
    {v d m : List ℕ → ℝ} (hd : ∀ e, 0 ≤ d e) (hm : ∀ e, 0 ≤ m e) (hv : ∀ b < B, ∀ e, E b e → |v' e - v e| ≤ d e ∧ |v e| ≤ m e) {Er M : ℝ}
    (hE : AllE (· ≤ Er) (A.run (cost 0 ε fun _ => 0) (A.map (fun x : ℝ × List ℕ => d x.2) (A.index q)) lengths))
    (hM : AllE (· ≤ M) (A.run (cost 100000 0 fun _ => 0) (A.map (fun x : ℝ × List ℕ => m x.2) (A.index q)) lengths)) (hR : Er + M ≤ R)
    (hbeat : ∀ b < B, ∀ t, ∃ y, phScore (atoms b) Semirings.negInf v t + 2 * Er < realScore (parts b) v y) :
    ∃ μ, Dist.argmaxWith add A q lengths pick = .ok μ ∧ ∀ b < B, ∃ y, (∀ y', realScore (parts b) v y' ≤ realScore (parts b) v y + 2 * Er) ∧
      ∀ e : List ℕ, e.head? = some b → μ e = (parts b y).count e := by
  obtain ⟨μ, h1, h2⟩ := D.argmax_near P hg H hε hp hd hm hv hE hM hR
  refine ⟨μ, h1, fun b hb => ?_⟩
  obtain ⟨t, h3, h4⟩ := h2 b hb
  cases t with
  | inl y =>
    refine ⟨y, fun y' => h3 (Sum.inl y'), fun e he => ?_⟩
    rw [h4 e he, RowDP.links_inl]
  | inr t =>
    obtain ⟨y, hy⟩ := hbeat b hb t
    exact absurd (h3 (Sum.inl y)) (not_le.2 hy)

end BatchDP
end Generic
