import Verif.Model.Sem
import Verif.Proofs.Layouts
import Verif.Proofs.TreeMemory
import Verif.Proofs.DepMemory
import Verif.Proofs.SemiMemory

/-! Queries and the memory of the process (C82): a query does not write into a tensor that existed before it, and its answer depends on the entries of
the potentials only, not on how they lie in memory (strides, offsets, storages shared with other tensors). -/

namespace Props.Memory
open View MemoryProofs _root_.Memory
variable {α : Type} {E : Layout α}

/-- After a call that answers, every tensor of the caller has the entries it had before, also if the call raised. -/
theorem entries_kept {h : Heap} {r : Except PyErr View × Heap} {ans : Except PyErr (List α)} (H : Spec.Answers E h r ans) (u : View)
    (hu : u.storage < h.next) (ix : List ℕ) : r.2.read u ix = h.read u ix := by
  simp only [Heap.read, H.1 _ hu]

/-- What the caller reads is the answer. -/
theorem result_eq {h : Heap} {r : Except PyErr View × Heap} {ans : Except PyErr (List α)} (H : Spec.Answers E h r ans) : Spec.result E r = ans := by
  obtain ⟨r1, h'⟩ := r
  obtain ⟨-, H⟩ := H
  cases r1 with
  | error e => exact H.symm
  | ok v =>
    obtain ⟨-, rows, hs, rfl⟩ := H
    simp only [Spec.result, hs]
    rfl

/-- The elements of the semirings that occur. -/
def good : (X : Sem) → X.carrier → Prop
  | .log | .max | .std => fun _ => True
  | .kmax k => fun x => List.length x = k
  | .entropy => fun _ => True
  | .crossEntropy | .kl => fun _ => True

theorem lawful : (X : Sem) → Lawful X.layout X.sr (good X)
  | .log => lawful_single _ rfl
  | .max => lawful_single _ rfl
  | .std => lawful_single _ rfl
  | .kmax k => lawful_slots k
  | .entropy => lawful_two _ rfl
  | .crossEntropy => lawful_three _ rfl
  | .kl => lawful_three _ rfl

theorem plain : (X : Sem) → LinearChainProofs.Plain X.sr
  | .log | .max | .std | .kmax _ | .entropy | .crossEntropy | .kl => ⟨fun _ => rfl, fun _ _ => rfl⟩

theorem converts (h : Heap) (t u : View) (ht : t.storage < h.next) (hu : u.storage < h.next) : (X : Sem) →
    Spec.Converts X.layout h (X.convert t u) t.shape fun ix => X.elem (h.read t ix) (h.read u ix)
  | .log => converts_view h t ht
  | .max => converts_view h t ht
  | .std => converts_view h t ht
  | .kmax k => converts_kmax k h t ht
  | .entropy => converts_entropy h t ht
  | .crossEntropy => converts_pair h t u ht hu
  | .kl => converts_pair h t u ht hu

/-- `LinearChainCRF`: on every heap and for all tensors of potentials in it (of any strides, offsets and storages), the program with its allocations, views
and in-place writes gives the answer that belongs to the entries, in a new storage, and changes nothing that existed.  Of the second tensor only
`cross_entropy` and `kl` read entries. -/
theorem chain_answers (X : Sem) (h : Heap) (t u : View) (ht : t.storage < h.next) (hu : u.storage < h.next) (batch N1 C C2 : ℕ) (hC : 0 < C)
    (hs : t.shape = [batch, N1, C, C2]) (lengths : Option (List ℕ)) :
    Spec.Answers X.layout h (LinearChain.logpartitionM X.layout X.sr batch N1 C C2 (X.convert t u) lengths h)
      (LinearChain.logpartition X.sr ⟨batch, N1, C, C2, fun b n i j => X.elem (h.read t [b, n, i, j]) (h.read u [b, n, i, j])⟩ lengths) := by
  have hc := converts h t u ht hu X
  rw [hs] at hc
  exact chain_run (lawful X) (plain X) h batch N1 C C2 hC _ lengths (fun ix => X.elem (h.read t ix) (h.read u ix)) hc

/-- `TreeCRF`, as `chain_answers`. -/
theorem tree_answers (X : Sem) (h : Heap) (t u : View) (ht : t.storage < h.next) (hu : u.storage < h.next) (batch N N2 NT : ℕ) (hNT : 0 < NT)
    (hs : t.shape = [batch, N, N2, NT]) (lengths : Option (List ℕ)) :
    Spec.Answers X.layout h (CKYCRF.logpartitionM X.layout X.sr batch N N2 (X.convert t u) lengths h)
      (CKYCRF.logpartition X.sr ⟨batch, N, N2, NT, fun b i j a => X.elem (h.read t [b, i, j, a]) (h.read u [b, i, j, a])⟩ lengths) := by
  have hc := converts h t u ht hu X
  rw [hs] at hc
  exact tree_run (lawful X) h batch N N2 NT hNT _ lengths (fun ix => X.elem (h.read t ix) (h.read u ix)) hc

/-- The table of arc scores that a tensor of shape `batch x N x N` or `batch x N x N x L` holds. -/
def arcTable (h : Heap) (t : View) (batch d1 d2 : ℕ) (ls : List ℕ) : DepTree.Arcs ℝ :=
  ⟨t.shape.length, batch, d1, d2, ls.headD 0, fun b i j l => h.read t (b :: i :: j :: if ls = [] then [] else [l])⟩

/-- `DependencyCRF`, as `chain_answers` (with a single tensor, as `cross_entropy` and `kl` of `DependencyCRF` raise before they read memory). -/
theorem dep_answers (X : Sem) (multiroot : Bool) (neg : ℝ) (h : Heap) (t : View) (ht : t.storage < h.next) (batch d1 d2 : ℕ) (ls : List ℕ)
    (hl : ∀ l ∈ ls, 0 < l) (hs : t.shape = batch :: d1 :: d2 :: ls) (lengths : Option (List ℕ)) :
    Spec.Answers X.layout h (DepTree.logpartitionM multiroot X.layout X.sr neg (fun p => X.convert p p) t lengths h)
      (DepTree.convert neg (arcTable h t batch d1 d2 ls) >>= fun p =>
        DepTree.logpartition multiroot X.sr ⟨p.rank, p.d0, p.d1, p.d2, p.d3, fun b i j l => X.elem (p.get b i j l) (p.get b i j l)⟩ lengths) :=
  dep_run (lawful X) (plain X) multiroot neg h t ht batch d1 d2 ls hs hl (fun x => X.elem x x) (fun p => X.convert p p)
    (fun h p hp => converts h p p hp hp X) lengths _ fun _ _ _ _ _ => rfl

theorem maskSlot_zero (X : Sem) (m : Bool) : X.maskSlot 0 m = m := by cases X <;> rfl

theorem one_slots : (X : Sem) → X ≠ .crossEntropy → X ≠ .kl → ∀ s, 0 < s → s < X.layout.size → X.layout.enc X.sr.one s = X.layout.enc X.sr.zero s
  | .log, _, _, s, h1, h2 | .max, _, _, s, h1, h2 | .std, _, _, s, h1, h2 => absurd h1 (by have : s < 1 := h2; omega)
  | .kmax k, _, _, s, h1, h2 => by
    have h2 : s < k := h2
    show (Semirings.kmax k).one.getD s 0 = (Semirings.kmax k).zero.getD s 0
    simp [Semirings.kmax, h2, Nat.pos_iff_ne_zero.1 h1]
  | .entropy, _, _, s, h1, h2 => by
    have h2 : s < 2 := h2
    obtain rfl : s = 1 := by omega
    rfl
  | .crossEntropy, h, _, _, _, _ => absurd rfl h
  | .kl, _, h, _, _, _ => absurd rfl h

/-- `SemiMarkovCRF`, as `chain_answers` (with a single tensor, as `cross_entropy` and `kl` of `SemiMarkovCRF` raise before they read memory). -/
theorem semi_answers (X : Sem) (hX : X ≠ .crossEntropy) (hX' : X ≠ .kl) (h : Heap) (t : View) (ht : t.storage < h.next) (batch N1 K C C2 : ℕ)
    (hC : 0 < C) (hs : t.shape = [batch, N1, K, C, C2]) (lengths : Option (List ℕ)) :
    Spec.Answers X.layout h (SemiMarkov.logpartitionM X.layout X.sr X.maskSlot batch N1 K C C2 (X.convert t t) lengths h)
      (SemiMarkov.logpartition X.sr ⟨batch, N1, K, C, C2, fun b n k i j => X.elem (h.read t [b, n, k, i, j]) (h.read t [b, n, k, i, j])⟩ lengths) := by
  have hc := converts h t t ht ht X
  rw [hs] at hc
  exact semi_run (lawful X) (plain X) X.maskSlot (maskSlot_zero X) (one_slots X hX hX') h batch N1 K C C2 hC _ lengths
    (fun ix => X.elem (h.read t ix) (h.read t ix)) hc

open Classical in
/-- Two tensors with the same entries convert to the same elements. -/
theorem converts_same (X : Sem) {h h' : Heap} {t u t' u' : View} {shape : List ℕ} (ht : t.storage < h.next) (hu : u.storage < h.next)
    (ht' : t'.storage < h'.next) (hu' : u'.storage < h'.next) (hs : t.shape = shape) (hs' : t'.shape = shape)
    (same : ∀ ix, Valid shape ix → h.read t ix = h'.read t' ix ∧ h.read u ix = h'.read u' ix) :
    ∃ pot, Spec.Converts X.layout h (X.convert t u) shape pot ∧ Spec.Converts X.layout h' (X.convert t' u') shape pot := by
  refine ⟨fun ix => X.elem (h.read t ix) (h.read u ix), hs ▸ converts h t u ht hu X, ?_⟩
  obtain ⟨v, h1, e, k, l, m, n⟩ := converts h' t' u' ht' hu' X
  exact ⟨v, h1, e, k, l, hs' ▸ m, fun ix hix => by
    refine (n ix (hs' ▸ hix)).trans ?_
    show X.elem _ _ = X.elem _ _
    rw [(same ix hix).1, (same ix hix).2]⟩

/-- Two tensors with the same entries, on any two heaps and with any strides and offsets, get the same answer or the same exception from
`LinearChainCRF`. -/
theorem chain_layout (X : Sem) {h h' : Heap} {t u t' u' : View} (ht : t.storage < h.next) (hu : u.storage < h.next)
    (ht' : t'.storage < h'.next) (hu' : u'.storage < h'.next) {batch N1 C C2 : ℕ} (hC : 0 < C) (hs : t.shape = [batch, N1, C, C2])
    (hs' : t'.shape = [batch, N1, C, C2])
    (same : ∀ ix, Valid [batch, N1, C, C2] ix → h.read t ix = h'.read t' ix ∧ h.read u ix = h'.read u' ix) (lengths : Option (List ℕ)) :
    Spec.result X.layout (LinearChain.logpartitionM X.layout X.sr batch N1 C C2 (X.convert t u) lengths h) =
      Spec.result X.layout (LinearChain.logpartitionM X.layout X.sr batch N1 C C2 (X.convert t' u') lengths h') := by
  obtain ⟨pot, h1, h2⟩ := converts_same X ht hu ht' hu' hs hs' same
  rw [result_eq (chain_run (lawful X) (plain X) h batch N1 C C2 hC _ lengths pot h1),
    result_eq (chain_run (lawful X) (plain X) h' batch N1 C C2 hC _ lengths pot h2)]

/-- As `chain_layout`, for `TreeCRF`. -/
theorem tree_layout (X : Sem) {h h' : Heap} {t u t' u' : View} (ht : t.storage < h.next) (hu : u.storage < h.next)
    (ht' : t'.storage < h'.next) (hu' : u'.storage < h'.next) {batch N N2 NT : ℕ} (hNT : 0 < NT) (hs : t.shape = [batch, N, N2, NT])
    (hs' : t'.shape = [batch, N, N2, NT])
    (same : ∀ ix, Valid [batch, N, N2, NT] ix → h.read t ix = h'.read t' ix ∧ h.read u ix = h'.read u' ix) (lengths : Option (List ℕ)) :
    Spec.result X.layout (CKYCRF.logpartitionM X.layout X.sr batch N N2 (X.convert t u) lengths h) =
      Spec.result X.layout (CKYCRF.logpartitionM X.layout X.sr batch N N2 (X.convert t' u') lengths h') := by
  obtain ⟨pot, h1, h2⟩ := converts_same X ht hu ht' hu' hs hs' same
  rw [result_eq (tree_run (lawful X) h batch N N2 NT hNT _ lengths pot h1),
    result_eq (tree_run (lawful X) h' batch N N2 NT hNT _ lengths pot h2)]

/-- As `chain_layout`, for `SemiMarkovCRF`. -/
theorem semi_layout (X : Sem) (hX : X ≠ .crossEntropy) (hX' : X ≠ .kl) {h h' : Heap} {t t' : View} (ht : t.storage < h.next)
    (ht' : t'.storage < h'.next) {batch N1 K C C2 : ℕ} (hC : 0 < C) (hs : t.shape = [batch, N1, K, C, C2]) (hs' : t'.shape = [batch, N1, K, C, C2])
    (same : ∀ ix, Valid [batch, N1, K, C, C2] ix → h.read t ix = h'.read t' ix) (lengths : Option (List ℕ)) :
    Spec.result X.layout (SemiMarkov.logpartitionM X.layout X.sr X.maskSlot batch N1 K C C2 (X.convert t t) lengths h) =
      Spec.result X.layout (SemiMarkov.logpartitionM X.layout X.sr X.maskSlot batch N1 K C C2 (X.convert t' t') lengths h') := by
  obtain ⟨pot, h1, h2⟩ := converts_same X ht ht ht' ht' hs hs' fun ix hix => ⟨same ix hix, same ix hix⟩
  rw [result_eq (semi_run (lawful X) (plain X) X.maskSlot (maskSlot_zero X) (one_slots X hX hX') h batch N1 K C C2 hC _ lengths pot h1),
    result_eq (semi_run (lawful X) (plain X) X.maskSlot (maskSlot_zero X) (one_slots X hX hX') h' batch N1 K C C2 hC _ lengths pot h2)]

/-- As `chain_layout`, for `DependencyCRF`. -/
theorem dep_layout (X : Sem) (multiroot : Bool) (neg : ℝ) {h h' : Heap} {t t' : View} (ht : t.storage < h.next) (ht' : t'.storage < h'.next)
    {batch d1 d2 : ℕ} {ls : List ℕ} (hl : ∀ l ∈ ls, 0 < l) (hs : t.shape = batch :: d1 :: d2 :: ls) (hs' : t'.shape = batch :: d1 :: d2 :: ls)
    (same : ∀ ix, Valid (batch :: d1 :: d2 :: ls) ix → h.read t ix = h'.read t' ix) (lengths : Option (List ℕ)) :
    Spec.result X.layout (DepTree.logpartitionM multiroot X.layout X.sr neg (fun p => X.convert p p) t lengths h) =
      Spec.result X.layout (DepTree.logpartitionM multiroot X.layout X.sr neg (fun p => X.convert p p) t' lengths h') := by
  rw [result_eq (dep_answers X multiroot neg h t ht batch d1 d2 ls hl hs lengths),
    result_eq (dep_run (lawful X) (plain X) multiroot neg h' t' ht' batch d1 d2 ls hs' hl (fun x => X.elem x x) (fun p => X.convert p p)
      (fun h p hp => converts h p p hp hp X) lengths (fun b i j l => h.read t (b :: i :: j :: if ls = [] then [] else [l]))
      fun b i j l hv => (same _ hv).symm), hs', ← hs]
  rfl

/-! ### A concrete case -/

/-- A storage with the numbers 0, 1, 2, ...; -/
def exHeap : Heap := ⟨1, fun _ a => a⟩

/-- a tensor of shape 1 x 2 x 2 x 2 in it, -/
def exTensor : View := ⟨0, 3, [1, 2, 2, 2], [8, 4, 2, 1]⟩

/-- and one that is transposed in the last two dimensions and overlaps it. -/
def exOther : View := ⟨0, 3, [1, 2, 2, 2], [8, 4, 1, 2]⟩

/-- The hypotheses of `chain_answers` and `tree_answers` hold for them; entries and layouts differ. -/
example : exTensor.storage < exHeap.next ∧ exOther.storage < exHeap.next ∧ exTensor.shape = [1, 2, 2, 2] ∧
    exHeap.read exTensor [0, 1, 0, 1] = 8 ∧ exHeap.read exOther [0, 1, 0, 1] = 9 := by
  refine ⟨Nat.one_pos, Nat.one_pos, rfl, ?_, ?_⟩ <;> norm_num [Heap.read, exHeap, exTensor, exOther, addr]

/-- A copy of the transposed tensor in a new storage, contiguous. -/
def exCopy : Heap := exHeap.push [1, 2, 2, 2] fun ix => exHeap.read exOther ix

/-- The hypotheses of `chain_layout` and `tree_layout` hold for a tensor and its contiguous copy: the answers agree. -/
example (X : Sem) (lengths : Option (List ℕ)) :
    Spec.result X.layout (LinearChain.logpartitionM X.layout X.sr 1 2 2 2 (X.convert exOther exOther) lengths exHeap) =
      Spec.result X.layout (LinearChain.logpartitionM X.layout X.sr 1 2 2 2 (X.convert (tens 1 [1, 2, 2, 2]) (tens 1 [1, 2, 2, 2])) lengths exCopy) :=
  chain_layout X Nat.one_pos Nat.one_pos (show 1 < 2 by omega) (show 1 < 2 by omega) (by omega) rfl rfl
    (fun ix hix => by
      have := read_push_new exHeap [1, 2, 2, 2] (fun ix => exHeap.read exOther ix) ix hix
      exact ⟨this.symm, this.symm⟩) lengths

/-- A transposed tensor of shape 1 x 2 x 3 x 2 x 2 and its contiguous copy: the hypotheses of `semi_answers` and `semi_layout` hold. -/
example (lengths : Option (List ℕ)) :
    Spec.result (Sem.kmax 3).layout (SemiMarkov.logpartitionM (Sem.kmax 3).layout (Sem.kmax 3).sr (Sem.kmax 3).maskSlot 1 2 3 2 2
        ((Sem.kmax 3).convert ⟨0, 3, [1, 2, 3, 2, 2], [24, 12, 4, 1, 2]⟩ ⟨0, 3, [1, 2, 3, 2, 2], [24, 12, 4, 1, 2]⟩) lengths exHeap) =
      Spec.result (Sem.kmax 3).layout (SemiMarkov.logpartitionM (Sem.kmax 3).layout (Sem.kmax 3).sr (Sem.kmax 3).maskSlot 1 2 3 2 2
        ((Sem.kmax 3).convert (tens 1 [1, 2, 3, 2, 2]) (tens 1 [1, 2, 3, 2, 2])) lengths
        (exHeap.push [1, 2, 3, 2, 2] fun ix => exHeap.read ⟨0, 3, [1, 2, 3, 2, 2], [24, 12, 4, 1, 2]⟩ ix)) :=
  semi_layout (.kmax 3) (by simp) (by simp) Nat.one_pos (show 1 < 2 by omega) (by omega) rfl rfl
    (fun ix hix => (read_push_new exHeap [1, 2, 3, 2, 2] (fun ix => exHeap.read ⟨0, 3, [1, 2, 3, 2, 2], [24, 12, 4, 1, 2]⟩ ix) ix hix).symm) lengths

/-- A transposed tensor of shape 1 x 2 x 2, and one of shape 1 x 2 x 2 x 2 with labels: the hypotheses of `dep_answers` hold. -/
example : (⟨0, 3, [1, 2, 2], [4, 1, 2]⟩ : View).storage < exHeap.next ∧ exHeap.read ⟨0, 3, [1, 2, 2], [4, 1, 2]⟩ [0, 0, 1] = 5 ∧
    exOther.shape = 1 :: 2 :: 2 :: [2] ∧ ∀ l ∈ [2], 0 < l := by
  refine ⟨Nat.one_pos, ?_, rfl, by simp⟩
  norm_num [Heap.read, exHeap, addr]

/-- The hypotheses of `dep_layout` hold for a tensor and its contiguous copy. -/
example (X : Sem) (multiroot : Bool) (lengths : Option (List ℕ)) :
    Spec.result X.layout (DepTree.logpartitionM multiroot X.layout X.sr DepTree.negBig (fun p => X.convert p p) exOther lengths exHeap) =
      Spec.result X.layout (DepTree.logpartitionM multiroot X.layout X.sr DepTree.negBig (fun p => X.convert p p) (tens 1 [1, 2, 2, 2]) lengths exCopy) :=
  dep_layout X multiroot _ (ls := [2]) Nat.one_pos (show 1 < 2 by omega) (by simp) rfl rfl
    (fun ix hix => (read_push_new exHeap [1, 2, 2, 2] (fun ix => exHeap.read exOther ix) ix hix).symm) lengths

end Props.Memory
