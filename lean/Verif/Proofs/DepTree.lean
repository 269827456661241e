import Verif.Model.DepTree
import Verif.Proofs.CKYCRF
import Verif.Proofs.EisnerSum

/-! `DepTree.logpartition` sums over the projective dependency trees. -/

open Finset Spec Eisner

noncomputable section
namespace DepTreeProofs
open DepTree CKYCRFProofs

variable {α R : Type} [CommSemiring R] {S : SR α} {ρ : α → R → Prop}

/-- The spans inside the first `L` nodes are correct: complete spans up to width `kc`, incomplete spans up to width `ki`. -/
structure Inv (ρ : α → R → Prop) (ω : R) (w : ℕ → ℕ → R) (s N L b kc ki : ℕ) (st : Charts α) : Prop where
  acr : ∀ v ≤ kc, ∀ i, s ≤ i → i + v ≤ L → ρ (st.acr b i v) (CR ω w i v)
  acl : ∀ v ≤ kc, ∀ i, s ≤ i → 1 ≤ i → i + v ≤ L → ρ (st.acl b i v) (CL ω w (i + v) v)
  bcr : ∀ v ≤ kc, ∀ i, s ≤ i → i + v ≤ L → ρ (st.bcr b (i + v) (N - 1 - v)) (CR ω w i v)
  bcl : ∀ v ≤ kc, ∀ i, s ≤ i → 1 ≤ i → i + v ≤ L → ρ (st.bcl b (i + v) (N - 1 - v)) (CL ω w (i + v) v)
  air : ∀ v ≤ ki, 1 ≤ v → ∀ i, s ≤ i → i + v ≤ L → ρ (st.air b i v) (IR ω w i v)
  bil : ∀ v ≤ ki, 1 ≤ v → ∀ i, s ≤ i → 1 ≤ i → i + v ≤ L → ρ (st.bil b (i + v) (N - 1 - v)) (IL ω w (i + v) v)

theorem writeA_new {s N k b i : ℕ} (new : ℕ → ℕ → α) (old : ℕ → ℕ → ℕ → α) (h1 : s ≤ i) (h2 : i + k < N) : writeA s N k new old b i k = new b i := by
  rw [writeA, if_pos ⟨h1, by omega, rfl⟩]

theorem writeA_old {s N k b i v : ℕ} (new : ℕ → ℕ → α) (old : ℕ → ℕ → ℕ → α) (h : v ≠ k) : writeA s N k new old b i v = old b i v := by
  rw [writeA, if_neg (by omega)]

theorem writeB_new {s N k b i : ℕ} (new : ℕ → ℕ → α) (old : ℕ → ℕ → ℕ → α) (h1 : s ≤ i) (h2 : i + k < N) :
    writeB s N k new old b (i + k) (N - 1 - k) = new b i := by
  rw [writeB, if_pos ⟨by omega, by omega, by omega⟩, Nat.add_sub_cancel]

theorem writeB_old {s N k b j v : ℕ} (new : ℕ → ℕ → α) (old : ℕ → ℕ → ℕ → α) (h : v ≠ N - k - 1) : writeB s N k new old b j v = old b j v := by
  rw [writeB, if_neg (by omega)]

section step
variable {ω : R} {w : ℕ → ℕ → R} {s N L b : ℕ} {arc : ℕ → ℕ → ℕ → α}

theorem stepI_inv (H : SRRel S ρ) (hL : L < N) (harc : ∀ h m, h ≤ L → 1 ≤ m → m ≤ L → h ≠ m → ρ (arc b h m) (w h m)) {k : ℕ}
    (hk : k + 1 < N) {st : Charts α} (hst : Inv ρ ω w s N L b k k st) : Inv ρ ω w s N L b k (k + 1) (stepI S s N arc st (k + 1)) := by
  have hx : ∀ i, s ≤ i → i + (k + 1) ≤ L → ρ (S.dot ((List.range (k + 1)).map fun u => st.acr b i u)
      ((List.range (k + 1)).map fun u => st.bcl b (k + 1 + i) (N - (k + 1) + u)))
      (∑ u ∈ range (k + 1), CR ω w i u * CL ω w (i + (k + 1)) (k + 1 - 1 - u)) := by
    intro i hs hi
    rw [SR.dot, zipWith_map]
    refine H.sum_range (by omega) fun u hu => H.mul (hst.acr u (by omega) i hs (by omega)) ?_
    have := hst.bcl (k - u) (by omega) (i + u + 1) (by omega) (by omega) (by omega)
    have e1 : i + u + 1 + (k - u) = k + 1 + i := by omega
    have e2 : N - 1 - (k - u) = N - (k + 1) + u := by omega
    have e3 : i + (k + 1) = k + 1 + i := by omega
    rw [e1, e2] at this
    rw [e3]
    exact this
  refine ⟨hst.acr, hst.acl, hst.bcr, hst.bcl, ?_, ?_⟩
  · intro v hv hv1 i hs hi
    by_cases he : v = k + 1
    · subst he
      simp only [stepI]
      rw [writeA_new _ _ hs (by omega), IR]
      exact H.mul (hx i hs hi) (harc _ _ (by omega) (by omega) hi (by omega))
    · simp only [stepI]
      rw [writeA_old _ _ he]
      exact hst.air v (by omega) hv1 i hs hi
  · intro v hv hv1 i hs hi1 hi
    by_cases he : v = k + 1
    · subst he
      simp only [stepI]
      rw [writeB_new _ _ hs (by omega), IL]
      have e : i + (k + 1) - (k + 1) = i := by omega
      rw [e]
      exact H.mul (hx i hs hi) (harc _ _ hi (by omega) (by omega) (by omega))
    · simp only [stepI]
      rw [writeB_old _ _ (by omega)]
      exact hst.bil v (by omega) hv1 i hs hi1 hi

theorem stepC_inv (H : SRRel S ρ) (hL : L < N) {k : ℕ} (hk : k + 1 < N) {st : Charts α} (hst : Inv ρ ω w s N L b k (k + 1) st) :
    Inv ρ ω w s N L b (k + 1) (k + 1) (stepC S s N st (k + 1)) := by
  have hR : ∀ i, s ≤ i → i + (k + 1) ≤ L → ρ (S.dot ((List.range (k + 1)).map fun u => st.air b i (1 + u))
      ((List.range (k + 1)).map fun u => st.bcr b (k + 1 + i) (N - (k + 1) + u))) (CR ω w i (k + 1)) := by
    intro i hs hi
    rw [SR.dot, zipWith_map, CR_succ]
    refine H.sum_range (by omega) fun u hu => H.mul (hst.air (1 + u) (by omega) (by omega) i hs (by omega)) ?_
    have := hst.bcr (k - u) (by omega) (i + u + 1) (by omega) (by omega)
    have e1 : i + u + 1 + (k - u) = k + 1 + i := by omega
    have e2 : N - 1 - (k - u) = N - (k + 1) + u := by omega
    rwa [e1, e2] at this
  have hLt : ∀ i, s ≤ i → 1 ≤ i → i + (k + 1) ≤ L → ρ (S.dot ((List.range (k + 1)).map fun u => st.acl b i u)
      ((List.range (k + 1)).map fun u => st.bil b (k + 1 + i) (N - (k + 1) - 1 + u))) (CL ω w (i + (k + 1)) (k + 1)) := by
    intro i hs hi1 hi
    rw [SR.dot, zipWith_map, CL_succ _ _ _ _ (by omega)]
    refine H.sum_range (by omega) fun u hu => ?_
    have e0 : i + (k + 1) - (k + 1) + u = i + u := by omega
    rw [e0]
    refine H.mul (hst.acl u (by omega) i hs hi1 (by omega)) ?_
    have := hst.bil (k + 1 - u) (by omega) (by omega) (i + u) (by omega) (by omega) (by omega)
    have e1 : i + u + (k + 1 - u) = k + 1 + i := by omega
    have e2 : N - 1 - (k + 1 - u) = N - (k + 1) - 1 + u := by omega
    have e3 : i + (k + 1) = k + 1 + i := by omega
    rw [e1, e2] at this
    rw [e3]
    exact this
  refine ⟨?_, ?_, ?_, ?_, hst.air, hst.bil⟩
  · intro v hv i hs hi
    by_cases he : v = k + 1
    · subst he
      simp only [stepC]
      rw [writeA_new _ _ hs (by omega)]
      exact hR i hs hi
    · simp only [stepC]
      rw [writeA_old _ _ he]
      exact hst.acr v (by omega) i hs hi
  · intro v hv i hs hi1 hi
    by_cases he : v = k + 1
    · subst he
      simp only [stepC]
      rw [writeA_new _ _ hs (by omega)]
      exact hLt i hs hi1 hi
    · simp only [stepC]
      rw [writeA_old _ _ he]
      exact hst.acl v (by omega) i hs hi1 hi
  · intro v hv i hs hi
    by_cases he : v = k + 1
    · subst he
      simp only [stepC]
      rw [writeB_new _ _ hs (by omega)]
      exact hR i hs hi
    · simp only [stepC]
      rw [writeB_old _ _ (by omega)]
      exact hst.bcr v (by omega) i hs hi
  · intro v hv i hs hi1 hi
    by_cases he : v = k + 1
    · subst he
      simp only [stepC]
      rw [writeB_new _ _ hs (by omega)]
      exact hLt i hs hi1 hi
    · simp only [stepC]
      rw [writeB_old _ _ (by omega)]
      exact hst.bcl v (by omega) i hs hi1 hi

theorem charts_inv (H : SRRel S ρ) (hω : ρ S.one ω) (hL : L < N) (harc : ∀ h m, h ≤ L → 1 ≤ m → m ≤ L → h ≠ m → ρ (arc b h m) (w h m)) :
    Inv ρ ω w s N L b (N - s - 1) (N - s - 1) (charts S s N arc) := by
  have key : ∀ m ≤ N - s - 1, Inv ρ ω w s N L b m m ((List.range m).foldl (fun st k => step S s N arc st (k + 1)) (init S N)) := by
    intro m
    induction m with
    | zero =>
      intro _
      simp only [List.range_zero, List.foldl_nil]
      refine ⟨?_, ?_, ?_, ?_, fun v h1 h2 => by omega, fun v h1 h2 => by omega⟩
      · intro v hv i _ _
        obtain rfl : v = 0 := by omega
        rw [CR_zero]; exact hω
      · intro v hv i _ _ _
        obtain rfl : v = 0 := by omega
        rw [CL_zero]; exact hω
      · intro v hv i _ _
        obtain rfl : v = 0 := by omega
        rw [CR_zero]
        simp only [init, SR.fill, Nat.sub_zero, beq_self_eq_true, if_true]
        exact hω
      · intro v hv i _ _ _
        obtain rfl : v = 0 := by omega
        rw [CL_zero]
        simp only [init, SR.fill, Nat.sub_zero, beq_self_eq_true, if_true]
        exact hω
    | succ m ih =>
      intro hm
      rw [List.range_succ, List.foldl_append]
      simp only [List.foldl_cons, List.foldl_nil]
      exact stepC_inv H hL (by omega) (stepI_inv H hL harc (by omega) (ih (by omega)))
  exact key _ le_rfl

theorem rootStep_new {span : ℕ → ℕ → α} (st : Charts α) (k b : ℕ) : (rootStep S N span st k).acr b 0 k =
    S.dot ((List.range k).map fun u => span b u) ((List.range k).map fun u => st.bcr b k (N - k + u)) := if_pos ⟨rfl, rfl⟩

theorem rootStep_old {span : ℕ → ℕ → α} (st : Charts α) (k b v : ℕ) (h : v ≠ k) : (rootStep S N span st k).acr b 0 v = st.acr b 0 v :=
  if_neg fun hc => h hc.2

/-- The loop over the children of a single root. -/
theorem root_fold {span : ℕ → ℕ → α} (st : Charts α) (m : ℕ) :
    let st' := (List.range m).foldl (fun st k => rootStep S N span st (k + 1)) st
    st'.bcr = st.bcr ∧ ∀ b, ∀ k, 1 ≤ k → k ≤ m → st'.acr b 0 k = S.dot ((List.range k).map fun u => span b u)
      ((List.range k).map fun u => st.bcr b k (N - k + u)) := by
  induction m with
  | zero => exact ⟨rfl, fun b k h1 h2 => by omega⟩
  | succ m ih =>
    simp only [List.range_succ, List.foldl_append, List.foldl_cons, List.foldl_nil] at ih ⊢
    refine ⟨ih.1, fun b k h1 h2 => ?_⟩
    by_cases he : k = m + 1
    · subst he
      rw [rootStep_new, ih.1]
    · rw [rootStep_old _ _ _ _ he]
      exact ih.2 b k h1 (by omega)

theorem final_multi (H : SRRel S ρ) (hω : ρ S.one ω) (hL : L < N) (harc : ∀ h m, h ≤ L → 1 ≤ m → m ≤ L → h ≠ m → ρ (arc b h m) (w h m)) :
    ρ (final true S N arc b L) (∑ h : ProjTrees true L, (∏ k : Fin L, w (h.1 k) (k + 1)) * ω ^ (2 * L + 1)) := by
  rw [← CR_eq_trees]
  exact (charts_inv (s := 0) H hω hL harc).acr L (by omega) 0 le_rfl (by omega)

theorem final_single (H : SRRel S ρ) (hω : ρ S.one ω) (hL : L < N) (h1 : 1 ≤ L) (harc : ∀ h m, h ≤ L → 1 ≤ m → m ≤ L → h ≠ m → ρ (arc b h m) (w h m)) :
    ρ (final false S N arc b L) (∑ h : ProjTrees false L, (∏ k : Fin L, w (h.1 k) (k + 1)) * ω ^ (2 * L)) := by
  obtain ⟨n, rfl⟩ : ∃ n, L = n + 1 := ⟨L - 1, by omega⟩
  rw [← single_eq_trees]
  have I := charts_inv (s := 1) H hω hL harc
  have hf := (root_fold (S := S) (N := N) (span := fun b m => S.times ((charts S 1 N arc).acl b 1 m) [arc b 0 (1 + m)]) (charts S 1 N arc) (N - 1)).2 b
    (n + 1) (by omega) (by omega)
  simp only [final, Bool.false_eq_true, if_false]
  rw [rootCharts, hf, SR.dot, zipWith_map]
  refine H.sum_range (by omega) fun u hu => H.mul (H.mul ?_ ?_) ?_
  · exact I.acl u (by omega) 1 le_rfl le_rfl (by omega)
  · exact harc 0 (1 + u) (by omega) (by omega) (by omega) (by omega)
  · have := I.bcr (n - u) (by omega) (u + 1) (by omega) (by omega)
    have e1 : u + 1 + (n - u) = n + 1 := by omega
    have e2 : N - 1 - (n - u) = N - (n + 1) + u := by omega
    rwa [e1, e2] at this

end step

/-- Factors `one` of a row. -/
def onesOf (multiroot : Bool) (L : ℕ) : ℕ := if multiroot then 2 * L + 1 else 2 * L

theorem final_rel (H : SRRel S ρ) {ω : R} (hω : ρ S.one ω) {w : ℕ → ℕ → R} {N L b : ℕ} {arc : ℕ → ℕ → ℕ → α} (mr : Bool) (hL : L < N) (h1 : mr = false → 1 ≤ L)
    (harc : ∀ h m, h ≤ L → 1 ≤ m → m ≤ L → h ≠ m → ρ (arc b h m) (w h m)) :
    ρ (final mr S N arc b L) (∑ h : ProjTrees mr L, (∏ k : Fin L, w (h.1 k) (k + 1)) * ω ^ onesOf mr L) := by
  cases mr with
  | true => exact final_multi H hω hL harc
  | false => exact final_single H hω hL (h1 rfl) harc

/-! ### The batch -/

/-- The shape of the inputs: a square table (rank 3, or rank 4 with at least one label), a non-empty batch, and one length per row, at most the number of
words; for single-root trees, at least 1. -/
structure Valid {γ : Type} (mr : Bool) (q : Arcs γ) (lengths : Option (List ℕ)) : Prop where
  rank : q.rank = 3 ∨ q.rank = 4
  square : q.d1 = q.d2
  labels : 1 ≤ q.labels
  batch : 1 ≤ q.d0
  words : mr = false → 1 ≤ q.d1
  lens : ∀ l, lengths = some l → l.length = q.d0 ∧ ∀ x ∈ l, x ≤ q.d1 ∧ (mr = false → 1 ≤ x)

theorem len_le {γ : Type} {mr : Bool} {q : Arcs γ} {lengths : Option (List ℕ)} (h : Valid mr q lengths) {b : ℕ} (hb : b < q.d0) :
    lenOf q.d1 lengths b ≤ q.d1 ∧ (mr = false → 1 ≤ lenOf q.d1 lengths b) := by
  cases lengths with
  | none => exact ⟨le_rfl, h.words⟩
  | some l =>
    have := h.lens l rfl
    simp only [lenOf]
    rw [List.getD_eq_getElem _ _ (by omega)]
    exact this.2 _ (List.getElem_mem _)

theorem convert_ok {γ : Type} (neg : γ) {q : Arcs γ} (hr : q.rank = 3 ∨ q.rank = 4) (hs : q.d1 = q.d2) :
    convert neg q = .ok ⟨q.rank, q.d0, q.d1 + 1, q.d2 + 1, q.d3, convertCell neg q.get⟩ := by
  rw [convert, if_neg (by omega), if_neg (by omega), if_neg (by omega)]

/-- The converted table. -/
def conv {γ : Type} (neg : γ) (q : Arcs γ) : Arcs γ := ⟨q.rank, q.d0, q.d1 + 1, q.d2 + 1, q.d3, convertCell neg q.get⟩

theorem lensOr_getD {B N : ℕ} {lengths : Option (List ℕ)} {b : ℕ} (hb : b < B) : (lensOr B (N + 1) lengths).getD b 0 = lenOf N lengths b := by
  cases lengths with
  | none => simp [lensOr, lenOf, hb]
  | some l => rfl

theorem logpartition_ok {α : Type} (mr : Bool) (S : SR α) (p : Arcs α) (N : ℕ) (lengths : Option (List ℕ)) (h1 : p.d1 = N + 1) (h2 : p.d2 = N + 1) (hB : 1 ≤ p.d0)
    (hw : mr = false → 1 ≤ N) (hl : ∀ l, lengths = some l → l.length = p.d0 ∧ ∀ x ∈ l, x ≤ N) :
    logpartition mr S p lengths = .ok ((List.range p.d0).map fun b =>
      final mr S (N + 1) (arcScores S p (lensOr p.d0 (N + 1) lengths)) b (lenOf N lengths b)) := by
  have hlen : (lensOr p.d0 (N + 1) lengths).length = p.d0 := by
    cases lengths with
    | none => exact List.length_replicate
    | some l => exact (hl l rfl).1
  have hle : ∀ x ∈ lensOr p.d0 (N + 1) lengths, x ≤ N := by
    cases lengths with
    | none => intro x hx; exact (List.eq_of_mem_replicate hx).le
    | some l => exact (hl l rfl).2
  unfold logpartition
  simp only [h1, h2]
  rw [if_neg (by simp), if_neg, if_neg, if_neg (by omega), if_neg, if_neg]
  · congr 1
    refine List.map_congr_left fun b hb => ?_
    rw [lensOr_getD (List.mem_range.1 hb)]
  · rintro (hc | ⟨l, hl1, hl2⟩)
    · omega
    · have := hle l hl1; omega
  · rintro ⟨hm, hN⟩
    have := hw hm; omega
  · rintro ⟨l, hl1, hl2⟩
    have := hle l hl1; omega
  · intro hc
    rw [hc] at hlen
    simp at hlen; omega

/-- The index of an arc in the user's table. -/
def cellTag (lab : Bool) (b i j l : ℕ) : List ℕ := [b, i, j] ++ (if lab then [l] else [])

theorem tag_arc (lab : Bool) (b h k l : ℕ) (hne : h ≠ k + 1) : tag lab b h (k + 1) l = cellTag lab b (arcCell h k).1 (arcCell h k).2 l := by
  unfold tag arcCell cellTag
  rw [if_neg (by omega)]
  split_ifs <;> simp_all

/-- Reading the user's table by index; `[]` reads the constant. -/
def atQ {γ : Type} (neg : γ) (q : Arcs γ) (e : List ℕ) : γ := if e = [] then neg else q.get (e.getD 0 0) (e.getD 1 0) (e.getD 2 0) (e.getD 3 0)

theorem atQ_cell {γ : Type} (neg : γ) (q : Arcs γ) (b i j l : ℕ) (hl : q.labeled ∨ l = 0) : atQ neg q (cellTag (decide q.labeled) b i j l) = q.get b i j l := by
  unfold atQ cellTag
  rcases hl with hl | rfl
  · simp [hl]
  · by_cases hl : q.labeled <;> simp [hl]

theorem atQ_tag {γ : Type} (neg : γ) (q : Arcs γ) (b h m l : ℕ) (hl : q.labeled ∨ l = 0) :
    atQ neg q (tag (decide q.labeled) b h m l) = convertCell neg q.get b h m l := by
  unfold convertCell
  by_cases h0 : m = 0
  · rw [if_pos h0, tag, if_pos h0]; rfl
  rw [if_neg h0]
  obtain ⟨k, rfl⟩ : ∃ k, m = k + 1 := ⟨m - 1, by omega⟩
  by_cases h1 : h = k + 1
  · rw [if_neg (by omega), if_pos h1, tag, if_neg h0, if_neg (by omega), if_pos h1]; rfl
  · rw [tag_arc _ _ _ _ _ h1, atQ_cell neg q _ _ _ _ hl, arcCell]
    rw [if_neg h1]
    split_ifs <;> simp

/-- The entries that a labelled tree of row `b` uses. -/
def labParts (lab : Bool) (b : ℕ) {mr : Bool} {n L : ℕ} (t : LabelledTrees mr n L) : Multiset (List ℕ) :=
  (univ : Finset (Fin n)).val.map fun k => cellTag lab b (arcCell (t.1.1 k) k).1 (arcCell (t.1.1 k) k).2 (t.2 k)

/-- The entries of row `b`. -/
def Entry (lab : Bool) (L n b : ℕ) (e : List ℕ) : Prop :=
  ∃ h k l, e = cellTag lab b (arcCell h k).1 (arcCell h k).2 l ∧ h ≤ n ∧ k < n ∧ h ≠ k + 1 ∧ l < L

/-- No word is its own head in a tree. -/
theorem head_ne {n : ℕ} {h : Heads n} (ht : IsDepTree h) (k : Fin n) : (h k : ℕ) ≠ k + 1 := by
  intro he
  have := Leads.closed (h := headOf h) (D := fun x => x = k + 1) (fun x hx => by rw [hx, headOf_succ]; exact he) rfl (ht k)
  omega

/-- What the charts compute for row `b`, as a function of the entries of the user's table. -/
def row (mr : Bool) (lab : Bool) (d3 N B : ℕ) (lengths : Option (List ℕ)) (b : ℕ) (α : Type) (S : SR α) (x : List ℕ → α) : α :=
  final mr S (N + 1) (arcScores S ⟨if lab then 4 else 3, B, N + 1, N + 1, d3, fun b h m l => x (tag lab b h m l)⟩ (lensOr B (N + 1) lengths)) b (lenOf N lengths b)

theorem row_rel (H : SRRel S ρ) {ω : R} (hω : ρ S.one ω) (mr lab : Bool) {d3 N B b : ℕ} {lengths : Option (List ℕ)} (hb : b < B) (hL : 1 ≤ if lab then d3 else 1)
    (hle : lenOf N lengths b ≤ N) (h1 : mr = false → 1 ≤ lenOf N lengths b) {x : List ℕ → α} {wp : List ℕ → R}
    (hx : ∀ e, Entry lab (if lab then d3 else 1) (lenOf N lengths b) b e → ρ (x e) (wp e)) :
    ρ (row mr lab d3 N B lengths b α S x) (∑ t : LabelledTrees mr (lenOf N lengths b) (if lab then d3 else 1),
      ((labParts lab b t).map wp).prod * ω ^ onesOf mr (lenOf N lengths b)) := by
  have harc : ∀ h m, h ≤ lenOf N lengths b → 1 ≤ m → m ≤ lenOf N lengths b → h ≠ m →
      ρ (arcScores S ⟨if lab then 4 else 3, B, N + 1, N + 1, d3, fun b h m l => x (tag lab b h m l)⟩ (lensOr B (N + 1) lengths) b h m)
        (∑ l ∈ range (if lab then d3 else 1), wp (tag lab b h m l)) := by
    intro h m hh hm1 hm hne
    have hcell : ∀ l < (if lab then d3 else 1), ρ (x (tag lab b h m l)) (wp (tag lab b h m l)) := by
      intro l hl
      obtain ⟨k, rfl⟩ : ∃ k, m = k + 1 := ⟨m - 1, by omega⟩
      refine hx _ ⟨h, k, l, tag_arc _ _ _ _ _ hne, hh, by omega, hne, hl⟩
    have hmask : ∀ l, masked S ⟨if lab then 4 else 3, B, N + 1, N + 1, d3, fun b h m l => x (tag lab b h m l)⟩ (lensOr B (N + 1) lengths) b h m l =
        x (tag lab b h m l) := by
      intro l
      rw [masked, lensOr_getD hb, if_neg (by omega)]
    unfold arcScores
    simp only [hmask]
    cases lab with
    | true =>
      rw [if_pos (show (⟨if true then 4 else 3, B, N + 1, N + 1, d3, fun b h m l => x (tag true b h m l)⟩ : Arcs α).labeled from rfl)]
      exact H.sum_range (by simp at hL; omega) hcell
    | false =>
      rw [if_neg (show ¬ (⟨if false then 4 else 3, B, N + 1, N + 1, d3, fun b h m l => x (tag false b h m l)⟩ : Arcs α).labeled from fun hc => by simp [Arcs.labeled] at hc)]
      simp only [Bool.false_eq_true, if_false, sum_range_one]
      exact hcell 0 (by simp)
  have := final_rel H hω mr (Nat.lt_succ_of_le hle) h1 harc
  rw [row]
  convert this using 1
  rw [Fintype.sum_prod_type]
  refine sum_congr rfl fun h _ => ?_
  rw [← sum_mul]
  congr 1
  have e : ∀ k : Fin (lenOf N lengths b), (∑ l ∈ range (if lab then d3 else 1), wp (tag lab b (h.1 k) (k + 1) l)) =
      ∑ l : Fin (if lab then d3 else 1), wp (tag lab b (h.1 k) (k + 1) l) := fun k => Finset.sum_range _
  simp only [e]
  rw [prod_univ_sum, Fintype.piFinset_univ]
  refine sum_congr rfl fun ℓ _ => ?_
  rw [labParts, Multiset.map_map]
  refine prod_congr rfl fun k _ => ?_
  rw [tag_arc _ _ _ _ _ (head_ne h.2.1 k)]
  rfl

theorem decide_labeled {γ : Type} (q : Arcs γ) (hr : q.rank = 3 ∨ q.rank = 4) : q.rank = if decide q.labeled then 4 else 3 := by
  by_cases h : q.labeled
  · rw [if_pos (by simpa using h)]; exact h
  · rw [if_neg (by simpa using h)]
    exact hr.resolve_right h

theorem labels_eq {γ : Type} (q : Arcs γ) : q.labels = if decide q.labeled then q.d3 else 1 := by
  unfold Arcs.labels
  by_cases h : q.labeled <;> simp [h]

theorem arcScores_congr {α : Type} (S : SR α) (p p' : Arcs α) (lens : List ℕ) (h1 : p.labeled ↔ p'.labeled) (h2 : p.d3 = p'.d3)
    (h3 : ∀ b h m l, (p.labeled ∨ l = 0) → p.get b h m l = p'.get b h m l) : arcScores S p lens = arcScores S p' lens := by
  funext b h m
  unfold arcScores masked
  by_cases hl : p.labeled
  · rw [if_pos hl, if_pos (h1.1 hl), h2]
    simp only [h3 _ _ _ _ (Or.inl hl)]
  · rw [if_neg hl, if_neg fun hc => hl (h1.2 hc)]
    simp only [h3 _ _ _ _ (Or.inr rfl)]

/-- The labelled program. -/
theorem batchDP {γ : Type} (mr : Bool) (neg : γ) (q : Arcs γ) (lengths : Option (List ℕ)) (h : Valid mr q lengths) :
    Generic.BatchDP (algo mr) (conv neg q) lengths q.d0 (atQ neg q) (fun b => Entry (decide q.labeled) q.labels (lenOf q.d1 lengths b) b)
      (ι := fun b => LabelledTrees mr (lenOf q.d1 lengths b) q.labels) (π := fun _ => Empty) (fun b => labParts (decide q.labeled) b)
      (fun b _ => onesOf mr (lenOf q.d1 lengths b)) (fun _ y => y.elim) where
  rows := by
    refine ⟨row mr (decide q.labeled) q.d3 q.d1 q.d0 lengths, ?_, ?_⟩
    · intro α S f
      refine (logpartition_ok mr S (⟨q.rank, q.d0, q.d1 + 1, q.d2 + 1, q.d3, fun b h m l =>
        f (convertCell neg q.get b h m l) (tag (decide q.labeled) b h m l)⟩ : Arcs α) q.d1 lengths rfl (by rw [h.square]) h.batch h.words
        fun l hl => ⟨(h.lens l hl).1, fun x hx => ((h.lens l hl).2 x hx).1⟩).trans ?_
      congr 1
      refine List.map_congr_left fun b _ => ?_
      rw [row]
      congr 1
      refine arcScores_congr _ _ _ _ ?_ rfl ?_
      · exact iff_of_eq (congrArg (· = 4) (decide_labeled q h.rank))
      · intro b h' m l hl
        simp only
        rw [atQ_tag neg q b h' m l hl]
    · intro b hb
      have hl := len_le h hb
      have hlab := h.labels
      rw [labels_eq] at hlab ⊢
      refine ⟨?_, ?_, fun y => y.elim, ?_, fun y => y.elim, fun y => y.elim⟩
      · intro α R _ S ρ ζ ω H hT x wp wm hp _
        have := row_rel H hT.one mr (decide q.labeled) hb hlab hl.1 hl.2 hp
        simp only [univ_eq_empty, sum_empty, add_zero]
        exact this
      · intro t e he
        rw [labParts, Multiset.mem_map] at he
        obtain ⟨k, -, rfl⟩ := he
        exact ⟨_, _, _, rfl, Nat.lt_succ_iff.1 (t.1.1 k).2, k.2, head_ne t.1.2.1 k, (t.2 k).2⟩
      · rintro e ⟨h', k, l, rfl, -⟩
        rfl
  map_fst _ := rfl
  map_id := rfl

/-! ### Parts -/

theorem arcCell_snd (h k : ℕ) : (arcCell h k).2 = k := by unfold arcCell; split_ifs <;> rfl

theorem arcCell_inj {h h' k : ℕ} (h1 : h ≠ k + 1) (h2 : h' ≠ k + 1) (he : arcCell h k = arcCell h' k) : h = h' := by
  unfold arcCell at he
  split_ifs at he <;> simp only [Prod.mk.injEq] at he <;> omega

theorem arcCell_lt {n h k : ℕ} (hh : h ≤ n) (hk : k < n) : (arcCell h k).1 < n ∧ (arcCell h k).2 < n := by
  unfold arcCell; split_ifs <;> simp only <;> omega

theorem cellTag_inj {lab : Bool} {b i j l b' i' j' l' : ℕ} (h : cellTag lab b i j l = cellTag lab b' i' j' l') :
    b = b' ∧ i = i' ∧ j = j' ∧ (lab = true → l = l') := by
  unfold cellTag at h
  cases lab <;> simp_all

theorem labParts_nodup (lab : Bool) (b : ℕ) {mr : Bool} {n L : ℕ} (t : LabelledTrees mr n L) : (labParts lab b t).Nodup := by
  refine Multiset.Nodup.map ?_ univ.nodup
  intro k k' h
  have := (cellTag_inj h).2.2.1
  rw [arcCell_snd, arcCell_snd] at this
  exact Fin.ext this

theorem labParts_card (lab : Bool) (b : ℕ) {mr : Bool} {n L : ℕ} (t : LabelledTrees mr n L) : Multiset.card (labParts lab b t) = n := by
  rw [labParts, Multiset.card_map]; exact Finset.card_fin n

theorem nonempty_derivs : ∀ n : ℕ, Nonempty (Derivs n)
  | 0 => ⟨⟨.leaf, rfl⟩⟩
  | n + 1 => by
    obtain ⟨t⟩ := nonempty_derivs n
    exact ⟨⟨.node .leaf .leaf t.1, by simp only [Deriv.width, t.2]; omega⟩⟩

theorem nonempty_trees (mr : Bool) (n : ℕ) (hn : mr = false → 1 ≤ n) : Nonempty (ProjTrees mr n) := by
  cases mr with
  | true =>
    obtain ⟨t⟩ := nonempty_derivs n
    exact ⟨⟨toHeads t, (toHeads_proj t).1, (toHeads_proj t).2, by simp⟩⟩
  | false =>
    obtain ⟨n, rfl⟩ : ∃ m, n = m + 1 := ⟨n - 1, by have := hn rfl; omega⟩
    obtain ⟨t⟩ := nonempty_derivs n
    have hw : (Deriv.node .leaf .leaf t.1).width = n + 1 := by simp only [Deriv.width, t.2]; omega
    exact ⟨⟨toHeads ⟨_, hw⟩, (toHeads_proj _).1, (toHeads_proj _).2, fun _ => (single_iff _).2 trivial⟩⟩

/-! ### Unlabelled tables -/

/-- The entries that an unlabelled tree of row `b` uses. -/
def depParts (b : ℕ) {mr : Bool} {n : ℕ} (h : ProjTrees mr n) : Multiset (List ℕ) :=
  (univ : Finset (Fin n)).val.map fun k => [b, (arcCell (h.1 k) k).1, (arcCell (h.1 k) k).2]

/-- With one label, labelled trees are trees. -/
def unlabel (mr : Bool) (n L : ℕ) (hL : L = 1) : ProjTrees mr n ≃ LabelledTrees mr n L where
  toFun h := (h, fun _ => ⟨0, by omega⟩)
  invFun t := t.1
  left_inv _ := rfl
  right_inv t := by
    subst hL
    exact Prod.ext rfl (funext fun k => Subsingleton.elim _ _)

theorem labels_one {γ : Type} {q : Arcs γ} (h3 : q.rank = 3) : q.labels = 1 := by
  unfold Arcs.labels
  exact if_neg (by unfold Arcs.labeled; omega)

theorem not_labeled {γ : Type} {q : Arcs γ} (h3 : q.rank = 3) : decide q.labeled = false := by
  simp [Arcs.labeled, h3]

/-- The unlabelled program. -/
theorem batchDP3 {γ : Type} (mr : Bool) (neg : γ) (q : Arcs γ) (lengths : Option (List ℕ)) (h : Valid mr q lengths) (h3 : q.rank = 3) :
    Generic.BatchDP (algo mr) (conv neg q) lengths q.d0 (atQ neg q) (fun b => Entry (decide q.labeled) q.labels (lenOf q.d1 lengths b) b)
      (ι := fun b => ProjTrees mr (lenOf q.d1 lengths b)) (π := fun _ => Empty) (fun b => depParts b)
      (fun b _ => onesOf mr (lenOf q.d1 lengths b)) (fun _ y => y.elim) := by
  have := (batchDP mr neg q lengths h).reindex fun b => unlabel mr (lenOf q.d1 lengths b) q.labels (labels_one h3)
  convert this using 3 with b h
  rw [not_labeled h3]
  rfl

theorem labels_four {γ : Type} {q : Arcs γ} (h4 : q.rank = 4) : q.labels = q.d3 := by
  unfold Arcs.labels
  exact if_pos h4

theorem is_labeled {γ : Type} {q : Arcs γ} (h4 : q.rank = 4) : decide q.labeled = true := decide_eq_true h4

/-- The labelled program. -/
theorem batchDP4 {γ : Type} (mr : Bool) (neg : γ) (q : Arcs γ) (lengths : Option (List ℕ)) (h : Valid mr q lengths) (h4 : q.rank = 4) :
    Generic.BatchDP (algo mr) (conv neg q) lengths q.d0 (atQ neg q) (fun b => Entry true q.d3 (lenOf q.d1 lengths b) b)
      (ι := fun b => LabelledTrees mr (lenOf q.d1 lengths b) q.d3) (π := fun _ => Empty) (fun b => labParts true b)
      (fun b _ => onesOf mr (lenOf q.d1 lengths b)) (fun _ y => y.elim) := by
  have D := batchDP mr neg q lengths h
  rw [labels_four h4, is_labeled h4] at D
  exact D

theorem arcCell_iff {n : ℕ} {h : Heads n} (ht : IsDepTree h) (k : Fin n) (i j : ℕ) :
    arcCell (h k) k = (i, j) ↔ (k : ℕ) = j ∧ if i = j then h k = 0 else (h k : ℕ) = i + 1 := by
  have hne := head_ne ht k
  have e : h k = 0 ↔ (h k : ℕ) = 0 := by rw [Fin.ext_iff]; rfl
  unfold arcCell
  split_ifs <;> simp only [Prod.mk.injEq, e] <;> omega

theorem hasArc_iff {n : ℕ} {h : Heads n} (ht : IsDepTree h) (i j : ℕ) : HasArc h i j ↔ ∃ k : Fin n, arcCell (h k) k = (i, j) :=
  exists_congr fun k => (arcCell_iff ht k i j).symm

theorem hasLabArc_iff {m : Bool} {n L : ℕ} (t : LabelledTrees m n L) (i j l : ℕ) :
    HasLabArc t i j l ↔ ∃ k : Fin n, arcCell (t.1.1 k) k = (i, j) ∧ (t.2 k : ℕ) = l :=
  exists_congr fun k => by rw [arcCell_iff t.1.2.1 k i j, and_assoc]

theorem mem_depParts (b : ℕ) {mr : Bool} {n : ℕ} (h : ProjTrees mr n) (e : List ℕ) : e ∈ depParts b h ↔ ∃ i j, e = [b, i, j] ∧ HasArc h.1 i j := by
  rw [depParts, Multiset.mem_map]
  constructor
  · rintro ⟨k, -, rfl⟩
    exact ⟨_, _, rfl, (hasArc_iff h.2.1 _ _).2 ⟨k, rfl⟩⟩
  · rintro ⟨i, j, rfl, ha⟩
    obtain ⟨k, hk⟩ := (hasArc_iff h.2.1 _ _).1 ha
    exact ⟨k, mem_univ_val _, by rw [hk]⟩

theorem mem_labParts (b : ℕ) {mr : Bool} {n L : ℕ} (t : LabelledTrees mr n L) (e : List ℕ) :
    e ∈ labParts true b t ↔ ∃ i j l, e = [b, i, j, l] ∧ HasLabArc t i j l := by
  rw [labParts, Multiset.mem_map]
  constructor
  · rintro ⟨k, -, rfl⟩
    exact ⟨_, _, _, rfl, (hasLabArc_iff t _ _ _).2 ⟨k, rfl, rfl⟩⟩
  · rintro ⟨i, j, l, rfl, ha⟩
    obtain ⟨k, hk, rfl⟩ := (hasLabArc_iff t _ _ _).1 ha
    exact ⟨k, mem_univ_val _, by rw [hk]; rfl⟩

theorem depParts_nodup (b : ℕ) {mr : Bool} {n : ℕ} (h : ProjTrees mr n) : (depParts b h).Nodup := by
  refine Multiset.Nodup.map ?_ univ.nodup
  intro k k' h
  simp only [List.cons.injEq, arcCell_snd, true_and, and_true] at h
  exact Fin.ext h.2

theorem depParts_card (b : ℕ) {mr : Bool} {n : ℕ} (h : ProjTrees mr n) : Multiset.card (depParts b h) = n := by
  rw [depParts, Multiset.card_map]; exact Finset.card_fin n

/-- Trees with the same arcs are equal. -/
theorem heads_ext {n : ℕ} {h h' : Heads n} (ht : IsDepTree h) (ht' : IsDepTree h') (he : ∀ i j, HasArc h i j → HasArc h' i j) : h = h' := by
  funext k
  obtain ⟨k', hk'⟩ := (hasArc_iff ht' _ _).1 (he (arcCell (h k) k).1 (arcCell (h k) k).2 ((hasArc_iff ht _ _).2 ⟨k, rfl⟩))
  have e : k' = k := Fin.ext (by simpa [arcCell_snd] using congrArg Prod.snd hk')
  rw [e] at hk'
  exact Fin.ext (arcCell_inj (head_ne ht k) (head_ne ht' k) hk'.symm)

theorem lab_ext {m : Bool} {n L : ℕ} {t t' : LabelledTrees m n L} (he : ∀ i j l, HasLabArc t i j l → HasLabArc t' i j l) : t = t' := by
  have key : ∀ k : Fin n, arcCell (t.1.1 k) k = arcCell (t'.1.1 k) k ∧ (t.2 k : ℕ) = t'.2 k := by
    intro k
    obtain ⟨k', hk', hl⟩ := (hasLabArc_iff t' _ _ _).1 (he (arcCell (t.1.1 k) k).1 (arcCell (t.1.1 k) k).2 (t.2 k) ((hasLabArc_iff t _ _ _).2 ⟨k, rfl, rfl⟩))
    have e : k' = k := Fin.ext (by simpa [arcCell_snd] using congrArg Prod.snd hk')
    rw [e] at hk' hl
    exact ⟨hk'.symm, hl.symm⟩
  refine Prod.ext (Subtype.ext (funext fun k => ?_)) (funext fun k => Fin.ext (key k).2)
  exact Fin.ext (arcCell_inj (head_ne t.1.2.1 k) (head_ne t'.1.2.1 k) (key k).1)

end DepTreeProofs
