import Verif.Props.Accepted

/-! Batch rows are independent (C42).  For every program and every semiring: if row `b` of one accepted call and row `c` of another one have the same potentials
and the same length, then the two results agree there.  The other rows, their number, and the position of the row are arbitrary. -/

namespace Props.BatchRows
open Spec Accepted

variable {α : Type}

theorem getElem?_map_range {β : Type} (f : ℕ → β) {n b : ℕ} (hb : b < n) : ((List.range n).map f)[b]? = some (f b) := by
  simp [hb]

/-- **C42, linear chain.** -/
theorem chain_rows_independent (S : SR α) (p q : T4 α) (lp lq : Option (List ℕ)) (vs ws : List α) (b c : ℕ)
    (hp : LinearChain.logpartition S p lp = .ok vs) (hq : LinearChain.logpartition S q lq = .ok ws)
    (h1 : p.d1 = q.d1) (h2 : p.d2 = q.d2) (hb : b < p.d0) (hc : c < q.d0)
    (hlen : lenOf (p.d1 + 1) lp b = lenOf (q.d1 + 1) lq c)
    (h : ∀ n < p.d1, ∀ i < p.d2, ∀ j < p.d2, p.get b n i j = q.get c n i j) : vs[b]? = ws[c]? := by
  obtain ⟨hp1, hp2, hp3⟩ := (chain_accepts S p lp).1 ⟨vs, hp⟩
  obtain ⟨hq1, hq2, hq3⟩ := (chain_accepts S q lq).1 ⟨ws, hq⟩
  rw [LinearChainProofs.logpartition_ok S p lp hp1 hp2 hp3] at hp
  rw [LinearChainProofs.logpartition_ok S q lq hq1 hq2 hq3] at hq
  simp only [Except.ok.injEq] at hp hq
  rw [← hp, ← hq, getElem?_map_range _ hb, getElem?_map_range _ hc]
  obtain ⟨p0, p1, p2, p3, pg⟩ := p
  obtain ⟨q0, q1, q2, q3, qg⟩ := q
  simp only at h1 h2 h hlen ⊢
  subst h1 h2
  congr 1
  unfold LinearChain.core
  congr 1
  refine LinearChainProofs.scan_congr S _ _ _ 1 (fun n hn => ?_) 0 (by omega)
  have hn' : n < 2 ^ Nat.clog 2 p1 := by omega
  funext i j
  rw [LinearChainProofs.masked_apply _ _ _ _ _ _ _ hn', LinearChainProofs.masked_apply _ _ _ _ _ _ _ hn', hlen]
  congr 3
  simp only [LinearChainProofs.maskedL, LinearChain.big]
  by_cases hlt : n < p1
  · rw [if_pos (by omega), if_pos (by omega), h n hlt i i.2 j j.2]
  · rw [if_neg (by omega), if_neg (by omega)]

/-- **C42, semi-Markov.** -/
theorem semimarkov_rows_independent (S : SR α) (p q : T5 α) (lp lq : Option (List ℕ)) (vs ws : List α) (b c : ℕ)
    (hp : SemiMarkov.logpartition S p lp = .ok vs) (hq : SemiMarkov.logpartition S q lq = .ok ws)
    (h1 : p.d1 = q.d1) (h2 : p.d2 = q.d2) (h3 : p.d3 = q.d3) (hb : b < p.d0) (hc : c < q.d0)
    (hlen : lenOf (p.d1 + 1) lp b = lenOf (q.d1 + 1) lq c)
    (h : ∀ n < p.d1, ∀ k < p.d2, ∀ i < p.d3, ∀ j < p.d3, p.get b n k i j = q.get c n k i j) : vs[b]? = ws[c]? := by
  have key : ∀ (p : T5 α) (lp) (vs), SemiMarkov.logpartition S p lp = .ok vs → ∃ hK : 0 < p.d2 - 1,
      vs = (List.range p.d0).map fun b => SemiMarkov.core S p.d3 hK (p.d1 + 1) (Nat.clog 2 p.d1)
        (fun b => (LinearChain.lensOr p.d0 (p.d1 + 1) lp).getD b 0) p.get b := by
    intro p lp vs hp
    obtain ⟨a0, a1, a2, a3, a4⟩ := (semimarkov_accepts S p lp).1 ⟨vs, hp⟩
    have hcheck := (semimarkov_check p lp _).2 ⟨a1, rfl, fun _ => a0, ((valid_iff lp).1 a4).1⟩
    have hl := (replicate_length (N := p.d1 + 1) lp).2 ((valid_iff lp).1 a4).2
    have e : Struct.binLength p.d1 = .ok (Nat.clog 2 p.d1, 2 ^ Nat.clog 2 p.d1) := by rw [Struct.binLength, if_neg (by omega)]
    simp only [SemiMarkov.logpartition, hcheck, bind, Except.bind, e] at hp
    rw [if_neg (by omega), dif_pos (by omega : 0 < p.d2 - 1), if_pos hl] at hp
    exact ⟨by omega, (Except.ok.inj hp).symm⟩
  obtain ⟨hK, rfl⟩ := key p lp vs hp
  obtain ⟨hK', rfl⟩ := key q lq ws hq
  rw [getElem?_map_range _ hb, getElem?_map_range _ hc]
  have el : ∀ (n : ℕ), (LinearChain.lensOr p.d0 (p.d1 + 1) lp).getD b 0 = n → (LinearChain.lensOr q.d0 (q.d1 + 1) lq).getD c 0 = n := by
    rintro n rfl
    rw [SemiMarkovProofs.lensOr_getD lq c hc, SemiMarkovProofs.lensOr_getD lp b hb, hlen]
  have el := el _ rfl
  clear key hp hq hlen
  generalize LinearChain.lensOr p.d0 (p.d1 + 1) lp = L at *
  generalize LinearChain.lensOr q.d0 (q.d1 + 1) lq = M at *
  obtain ⟨p0, p1, p2, p3, p4, pg⟩ := p
  obtain ⟨q0, q1, q2, q3, q4, qg⟩ := q
  simp only at h1 h2 h3 h ⊢
  subst h1 h2 h3
  congr 1
  unfold SemiMarkov.core
  congr 1
  refine LinearChainProofs.scan_congr S _ _ _ 1 (fun n hn => ?_) 0 (by omega)
  have hn' : n < 2 ^ Nat.clog 2 p1 := by omega
  funext i j
  simp only [SemiMarkov.chart, SemiMarkov.decremented]
  rw [SemiMarkovProofs.written_apply _ _ _ _ _ _ _ _ _ _ _ hn', SemiMarkovProofs.written_apply _ _ _ _ _ _ _ _ _ _ _ hn']
  simp only [el]
  have hbig : SemiMarkov.big S (p1 + 1) pg b n (i.divNat + 1) i.modNat j.modNat =
      SemiMarkov.big S (p1 + 1) qg c n (i.divNat + 1) i.modNat j.modNat := by
    simp only [SemiMarkov.big]
    by_cases hlt : n < p1
    · have := i.divNat.2
      rw [if_pos (by omega), if_pos (by omega), h n hlt _ (by omega) _ i.modNat.2 _ j.modNat.2]
    · rw [if_neg (by omega), if_neg (by omega)]
  rw [hbig]
  rfl

/-! ### TreeCRF -/

theorem tree_step (S : SR α) (N : ℕ) (red red' : ℕ → ℕ → ℕ → α) (b c : ℕ) (hr : ∀ i < N, ∀ j < N, red b i j = red' c i j)
    (st st' : CKYCRF.Charts α) (h1 : st.1 b = st'.1 c) (h2 : st.2 b = st'.2 c) (w : ℕ) :
    (CKYCRF.step S N red st w).1 b = (CKYCRF.step S N red' st' w).1 c ∧ (CKYCRF.step S N red st w).2 b = (CKYCRF.step S N red' st' w).2 c := by
  constructor
  · funext i v
    simp only [CKYCRF.step, h1, h2]
    split_ifs with hi
    · rw [hr i (by omega) (i + w) (by omega)]
    · rfl
  · funext i v
    simp only [CKYCRF.step, h1, h2]
    split_ifs with hi
    · rw [hr (i - w) (by omega) (i - w + w) (by omega)]
    · rfl

theorem tree_charts (S : SR α) (N : ℕ) (red red' : ℕ → ℕ → ℕ → α) (b c : ℕ) (hr : ∀ i < N, ∀ j < N, red b i j = red' c i j) :
    (CKYCRF.charts S N red).1 b = (CKYCRF.charts S N red').1 c := by
  unfold CKYCRF.charts
  suffices H : ∀ (l : List ℕ) (st st' : CKYCRF.Charts α), st.1 b = st'.1 c → st.2 b = st'.2 c →
      (l.foldl (fun st w => CKYCRF.step S N red st (w + 1)) st).1 b = (l.foldl (fun st w => CKYCRF.step S N red' st (w + 1)) st').1 c by
    refine H _ _ _ ?_ ?_
    · funext i w
      simp only [CKYCRF.init]
      split_ifs with hi
      · rw [hr i hi.1 i hi.1]
      · rfl
    · funext i w
      simp only [CKYCRF.init]
      split_ifs with hi
      · rw [hr i hi.1 i hi.1]
      · rfl
  intro l
  induction l with
  | nil => intro st st' h _; exact h
  | cons w l ih => intro st st' h1 h2; exact ih _ _ (tree_step S N red red' b c hr st st' h1 h2 _).1 (tree_step S N red red' b c hr st st' h1 h2 _).2

theorem treeLens_getD {B N : ℕ} (lengths : Option (List ℕ)) (b : ℕ) (hb : b < B) :
    (CKYCRF.lensOr B N lengths).getD b 0 = lenOf N lengths b := by
  cases lengths with
  | none => simp [CKYCRF.lensOr, lenOf, hb]
  | some l => rfl

theorem treeLens_length {B N : ℕ} (lengths : Option (List ℕ)) (h : ∀ l, lengths = some l → l.length = B) :
    (CKYCRF.lensOr B N lengths).length = B := by
  cases lengths with
  | none => simp [CKYCRF.lensOr]
  | some l => exact h l rfl

/-- **C42, TreeCRF**, for calls with one length per row (the call also accepts a single length for all rows, which is then a shared argument). -/
theorem tree_rows_independent (S : SR α) (p q : T4 α) (lp lq : Option (List ℕ)) (vs ws : List α) (b c : ℕ)
    (hp : CKYCRF.logpartition S p lp = .ok vs) (hq : CKYCRF.logpartition S q lq = .ok ws)
    (h1 : p.d1 = q.d1) (h3 : p.d3 = q.d3) (hb : b < p.d0) (hc : c < q.d0)
    (hlp : ∀ l, lp = some l → l.length = p.d0) (hlq : ∀ l, lq = some l → l.length = q.d0)
    (hlen : lenOf p.d1 lp b = lenOf q.d1 lq c)
    (h : ∀ i < p.d1, ∀ j < p.d1, ∀ a < p.d3, p.get b i j a = q.get c i j a) : vs[b]? = ws[c]? := by
  have key : ∀ (p : T4 α) (lp) (vs) (b), b < p.d0 → (∀ l, lp = some l → l.length = p.d0) → CKYCRF.logpartition S p lp = .ok vs →
      vs[b]? = some ((CKYCRF.charts S p.d1 (CKYCRF.reduced S p)).1 b 0 (CKYCRF.lastIndex p.d1 (lenOf p.d1 lp b))) := by
    intro p lp vs b hb hlp hp
    have hg := treeLens_getD (N := p.d1) lp b hb
    have hl := treeLens_length (N := p.d1) lp hlp
    unfold CKYCRF.logpartition at hp
    split_ifs at hp
    dsimp only at hp
    generalize CKYCRF.lensOr p.d0 p.d1 lp = L at *
    unfold CKYCRF.gather at hp
    by_cases hL : ∀ l ∈ L, l ≤ p.d1
    · rw [if_pos hL, if_pos hl] at hp
      rw [← Except.ok.inj hp, getElem?_map_range _ hb, hg]
    · rw [if_neg hL] at hp; exact absurd hp (by simp)
  rw [key p lp vs b hb hlp hp, key q lq ws c hc hlq hq, hlen, ← h1,
    tree_charts S p.d1 (CKYCRF.reduced S p) (CKYCRF.reduced S q) b c]
  intro i hi j hj
  simp only [CKYCRF.reduced, ← h3]
  congr 1
  exact List.map_congr_left fun a ha => h i hi j hj a (List.mem_range.1 ha)

/-! ### DependencyCRF -/

/-- Row `b` of one set of charts and row `c` of another one agree. -/
structure DepSame (st st' : DepTree.Charts α) (b c : ℕ) : Prop where
  acl : st.acl b = st'.acl c
  acr : st.acr b = st'.acr c
  bcl : st.bcl b = st'.bcl c
  bcr : st.bcr b = st'.bcr c
  ail : st.ail b = st'.ail c
  air : st.air b = st'.air c
  bil : st.bil b = st'.bil c
  bir : st.bir b = st'.bir c

theorem writeA_same (s N k : ℕ) (new new' : ℕ → ℕ → α) (old old' : ℕ → ℕ → ℕ → α) (b c : ℕ)
    (hn : ∀ i, i + k < N → new b i = new' c i) (ho : old b = old' c) : DepTree.writeA s N k new old b = DepTree.writeA s N k new' old' c := by
  funext i w
  simp only [DepTree.writeA, ho]
  split_ifs with hi
  · exact hn i (by omega)
  · rfl

theorem writeB_same (s N k : ℕ) (new new' : ℕ → ℕ → α) (old old' : ℕ → ℕ → ℕ → α) (b c : ℕ)
    (hn : ∀ i, i + k < N → new b i = new' c i) (ho : old b = old' c) : DepTree.writeB s N k new old b = DepTree.writeB s N k new' old' c := by
  funext i w
  simp only [DepTree.writeB, ho]
  split_ifs with hi
  · exact hn (i - k) (by omega)
  · rfl

theorem dep_stepI (S : SR α) (s N : ℕ) (arc arc' : ℕ → ℕ → ℕ → α) (b c : ℕ) (ha : ∀ h < N, ∀ m < N, arc b h m = arc' c h m)
    (st st' : DepTree.Charts α) (hs : DepSame st st' b c) (k : ℕ) : DepSame (DepTree.stepI S s N arc st k) (DepTree.stepI S s N arc' st' k) b c := by
  have h1 : ∀ i, i + k < N → S.times (S.dot ((List.range k).map fun u => st.acr b i u) ((List.range k).map fun u => st.bcl b (k + i) (N - k + u)))
      [arc b (i + k) i] = S.times (S.dot ((List.range k).map fun u => st'.acr c i u) ((List.range k).map fun u => st'.bcl c (k + i) (N - k + u)))
      [arc' c (i + k) i] := fun i hi => by rw [hs.acr, hs.bcl, ha _ (by omega) _ (by omega)]
  have h2 : ∀ i, i + k < N → S.times (S.dot ((List.range k).map fun u => st.acr b i u) ((List.range k).map fun u => st.bcl b (k + i) (N - k + u)))
      [arc b i (i + k)] = S.times (S.dot ((List.range k).map fun u => st'.acr c i u) ((List.range k).map fun u => st'.bcl c (k + i) (N - k + u)))
      [arc' c i (i + k)] := fun i hi => by rw [hs.acr, hs.bcl, ha _ (by omega) _ (by omega)]
  refine ⟨hs.acl, hs.acr, hs.bcl, hs.bcr, ?_, ?_, ?_, ?_⟩ <;> unfold DepTree.stepI <;> dsimp only
  · exact writeA_same _ _ _ _ _ _ _ _ _ (by exact h1) hs.ail
  · exact writeA_same _ _ _ _ _ _ _ _ _ (by exact h2) hs.air
  · exact writeB_same _ _ _ _ _ _ _ _ _ (by exact h1) hs.bil
  · exact writeB_same _ _ _ _ _ _ _ _ _ (by exact h2) hs.bir

theorem dep_stepC (S : SR α) (s N : ℕ) (b c : ℕ) (st st' : DepTree.Charts α) (hs : DepSame st st' b c) (k : ℕ) :
    DepSame (DepTree.stepC S s N st k) (DepTree.stepC S s N st' k) b c := by
  have h1 : ∀ i, i + k < N → S.dot ((List.range k).map fun u => st.acl b i u) ((List.range k).map fun u => st.bil b (k + i) (N - k - 1 + u)) =
      S.dot ((List.range k).map fun u => st'.acl c i u) ((List.range k).map fun u => st'.bil c (k + i) (N - k - 1 + u)) :=
    fun i _ => by rw [hs.acl, hs.bil]
  have h2 : ∀ i, i + k < N → S.dot ((List.range k).map fun u => st.air b i (1 + u)) ((List.range k).map fun u => st.bcr b (k + i) (N - k + u)) =
      S.dot ((List.range k).map fun u => st'.air c i (1 + u)) ((List.range k).map fun u => st'.bcr c (k + i) (N - k + u)) :=
    fun i _ => by rw [hs.air, hs.bcr]
  refine ⟨?_, ?_, ?_, ?_, hs.ail, hs.air, hs.bil, hs.bir⟩ <;> unfold DepTree.stepC <;> dsimp only
  · exact writeA_same _ _ _ _ _ _ _ _ _ (by exact h1) hs.acl
  · exact writeA_same _ _ _ _ _ _ _ _ _ (by exact h2) hs.acr
  · exact writeB_same _ _ _ _ _ _ _ _ _ (by exact h1) hs.bcl
  · exact writeB_same _ _ _ _ _ _ _ _ _ (by exact h2) hs.bcr

theorem dep_charts (S : SR α) (s N : ℕ) (arc arc' : ℕ → ℕ → ℕ → α) (b c : ℕ) (ha : ∀ h < N, ∀ m < N, arc b h m = arc' c h m) :
    DepSame (DepTree.charts S s N arc) (DepTree.charts S s N arc') b c := by
  unfold DepTree.charts
  suffices H : ∀ (l : List ℕ) (st st' : DepTree.Charts α), DepSame st st' b c →
      DepSame (l.foldl (fun st k => DepTree.step S s N arc st (k + 1)) st) (l.foldl (fun st k => DepTree.step S s N arc' st (k + 1)) st') b c from
    H _ _ _ ⟨rfl, rfl, rfl, rfl, rfl, rfl, rfl, rfl⟩
  intro l
  induction l with
  | nil => intro st st' h; exact h
  | cons w l ih => intro st st' hs; exact ih _ _ (dep_stepC S s N b c _ _ (dep_stepI S s N arc arc' b c ha st st' hs _) _)

theorem dep_root (S : SR α) (N : ℕ) (arc arc' : ℕ → ℕ → ℕ → α) (b c : ℕ) (ha : ∀ h < N, ∀ m < N, arc b h m = arc' c h m)
    (st st' : DepTree.Charts α) (hs : DepSame st st' b c) : DepSame (DepTree.rootCharts S N arc st) (DepTree.rootCharts S N arc' st') b c := by
  unfold DepTree.rootCharts
  have hspan : ∀ u, u + 1 < N → S.times (st.acl b 1 u) [arc b 0 (1 + u)] = S.times (st'.acl c 1 u) [arc' c 0 (1 + u)] :=
    fun u hu => by rw [hs.acl, ha 0 (by omega) _ (by omega)]
  suffices H : ∀ (l : List ℕ) (s1 s1' : DepTree.Charts α), (∀ k ∈ l, k + 1 < N) → DepSame s1 s1' b c →
      DepSame (l.foldl (fun t k => DepTree.rootStep S N (fun b m => S.times (st.acl b 1 m) [arc b 0 (1 + m)]) t (k + 1)) s1)
        (l.foldl (fun t k => DepTree.rootStep S N (fun b m => S.times (st'.acl b 1 m) [arc' b 0 (1 + m)]) t (k + 1)) s1') b c from
    H _ _ _ (fun k hk => by have := List.mem_range.1 hk; omega) hs
  intro l
  induction l with
  | nil => intro s1 s1' _ h; exact h
  | cons k l ih =>
    intro s1 s1' hl h
    refine ih _ _ (fun x hx => hl x (List.mem_cons_of_mem _ hx)) ⟨h.acl, ?_, h.bcl, h.bcr, h.ail, h.air, h.bil, h.bir⟩
    have hk := hl k List.mem_cons_self
    funext i w
    simp only [DepTree.rootStep, h.acr, h.bcr]
    split_ifs
    · congr 1
      exact List.map_congr_left fun u hu => hspan u (by have := List.mem_range.1 hu; omega)
    · rfl

theorem depLens_getD {B N : ℕ} (lengths : Option (List ℕ)) (b : ℕ) (hb : b < B) :
    (DepTree.lensOr B (N + 1) lengths).getD b 0 = lenOf N lengths b := by
  cases lengths with
  | none => simp [DepTree.lensOr, lenOf, hb]
  | some l => rfl

/-- **C42, DependencyCRF**, unlabelled (rank 3) and labelled (rank 4). -/
theorem dep_rows_independent (multiroot : Bool) (S : SR α) (neg : α) (p q : DepTree.Arcs α) (lp lq : Option (List ℕ)) (vs ws : List α) (b c : ℕ)
    (hp : DepTree.sum multiroot S neg p lp = .ok vs) (hq : DepTree.sum multiroot S neg q lq = .ok ws)
    (h0 : p.rank = q.rank) (h1 : p.d1 = q.d1) (h3 : p.d3 = q.d3) (hb : b < p.d0) (hc : c < q.d0)
    (hlen : lenOf p.d1 lp b = lenOf q.d1 lq c)
    (h : ∀ i < p.d1, ∀ j < p.d1, ∀ a < p.labels, p.get b i j a = q.get c i j a) : vs[b]? = ws[c]? := by
  have key : ∀ (p : DepTree.Arcs α) (lp) (vs) (b), b < p.d0 → DepTree.sum multiroot S neg p lp = .ok vs →
      vs[b]? = some (DepTree.final multiroot S (p.d1 + 1) (DepTree.arcScores S ⟨p.rank, p.d0, p.d1 + 1, p.d2 + 1, p.d3, DepTree.convertCell neg p.get⟩
        (DepTree.lensOr p.d0 (p.d1 + 1) lp)) b (lenOf p.d1 lp b)) := by
    intro p lp vs b hb hp
    have hg := depLens_getD (N := p.d1) lp b hb
    unfold DepTree.sum DepTree.convert at hp
    simp only [bind, Except.bind] at hp
    split_ifs at hp
    unfold DepTree.logpartition at hp
    dsimp only at hp
    generalize DepTree.lensOr p.d0 (p.d1 + 1) lp = L at *
    split_ifs at hp
    rw [← Except.ok.inj hp, getElem?_map_range _ hb, hg]
  rw [key p lp vs b hb hp, key q lq ws c hc hq, hlen, ← h1]
  have ha : ∀ h < p.d1 + 1, ∀ m < p.d1 + 1,
      DepTree.arcScores S ⟨p.rank, p.d0, p.d1 + 1, p.d2 + 1, p.d3, DepTree.convertCell neg p.get⟩ (DepTree.lensOr p.d0 (p.d1 + 1) lp) b h m =
      DepTree.arcScores S ⟨q.rank, q.d0, q.d1 + 1, q.d2 + 1, q.d3, DepTree.convertCell neg q.get⟩ (DepTree.lensOr q.d0 (q.d1 + 1) lq) c h m := by
    intro i hi m hm
    have hcv : ∀ a < p.labels, DepTree.convertCell neg p.get b i m a = DepTree.convertCell neg q.get c i m a := by
      intro a ha
      simp only [DepTree.convertCell]
      split_ifs
      · rfl
      · exact h _ (by omega) _ (by omega) a ha
      · rfl
      · exact h _ (by omega) _ (by omega) a ha
    have hg := depLens_getD (N := p.d1) lp b hb
    have hg' := depLens_getD (N := q.d1) lq c hc
    have hm' : ∀ a < p.labels, DepTree.masked S ⟨p.rank, p.d0, p.d1 + 1, p.d2 + 1, p.d3, DepTree.convertCell neg p.get⟩ (DepTree.lensOr p.d0 (p.d1 + 1) lp) b i m a =
        DepTree.masked S ⟨q.rank, q.d0, q.d1 + 1, q.d2 + 1, q.d3, DepTree.convertCell neg q.get⟩ (DepTree.lensOr q.d0 (q.d1 + 1) lq) c i m a := by
      intro a ha
      simp only [DepTree.masked, hg, hg', hlen, hcv a ha]
    unfold DepTree.arcScores
    by_cases hr : p.rank = 4
    · have hl : p.labels = p.d3 := if_pos hr
      rw [if_pos (show DepTree.Arcs.labeled (⟨p.rank, p.d0, p.d1 + 1, p.d2 + 1, p.d3, DepTree.convertCell neg p.get⟩ : DepTree.Arcs α) from hr),
        if_pos (show DepTree.Arcs.labeled (⟨q.rank, q.d0, q.d1 + 1, q.d2 + 1, q.d3, DepTree.convertCell neg q.get⟩ : DepTree.Arcs α) from h0 ▸ hr)]
      simp only [← h3]
      rw [hl] at hm'
      congr 1
      exact List.map_congr_left fun a ha => hm' a (List.mem_range.1 ha)
    · have hl : p.labels = 1 := if_neg hr
      rw [if_neg (show ¬ DepTree.Arcs.labeled (⟨p.rank, p.d0, p.d1 + 1, p.d2 + 1, p.d3, DepTree.convertCell neg p.get⟩ : DepTree.Arcs α) from hr),
        if_neg (show ¬ DepTree.Arcs.labeled (⟨q.rank, q.d0, q.d1 + 1, q.d2 + 1, q.d3, DepTree.convertCell neg q.get⟩ : DepTree.Arcs α) from h0 ▸ hr)]
      exact hm' 0 (by omega)
  simp only [DepTree.final]
  cases multiroot with
  | true => simp only [if_true]; rw [(dep_charts S 0 (p.d1 + 1) _ _ b c ha).acr, h1]
  | false => simp only [Bool.false_eq_true, if_false]; rw [(dep_root S (p.d1 + 1) _ _ b c ha _ _ (dep_charts S 1 (p.d1 + 1) _ _ b c ha)).acr, h1]

/-! ### SentCFG -/

/-- Row `b` of one grammar and row `c` of another one agree. -/
structure CfgSame (p q : CKY.Scores α) (b c : ℕ) : Prop where
  N : p.N = q.N
  T : p.T = q.T
  NT : p.NT = q.NT
  term : ∀ n < p.N, ∀ t < p.T, p.term b n t = q.term c n t
  rule : ∀ X < p.NT, ∀ y < p.NT + p.T, ∀ z < p.NT + p.T, p.rule b X y z = q.rule c X y z
  root : ∀ X < p.NT, p.root b X = q.root c X

theorem mem_pairs {m n : ℕ} {x : ℕ × ℕ} (h : x ∈ CKY.pairs m n) : x.1 < m ∧ x.2 < n := by
  simp only [CKY.pairs, List.mem_flatMap, List.mem_range, List.mem_map] at h
  obtain ⟨y, hy, z, hz, rfl⟩ := h
  exact ⟨hy, hz⟩

theorem block_same (S : SR α) (m n : ℕ) (M M' : ℕ → ℕ → α) (r r' : ℕ → ℕ → α) (oy oz K : ℕ) (hy : oy + m ≤ K) (hz : oz + n ≤ K)
    (hM : ∀ y < m, ∀ z < n, M y z = M' y z) (hr : ∀ y < K, ∀ z < K, r y z = r' y z) : CKY.block S m n M r oy oz = CKY.block S m n M' r' oy oz := by
  unfold CKY.block
  congr 1
  refine List.map_congr_left fun x hx => ?_
  obtain ⟨h1, h2⟩ := mem_pairs hx
  rw [hM _ h1 _ h2, hr _ (by omega) _ (by omega)]

/-- Row `b` of the charts, for the nonterminals. -/
def CfgCharts (NT : ℕ) (st st' : CKY.Charts α) (b c : ℕ) : Prop :=
  ∀ X < NT, (∀ i w, st.1 b i w X = st'.1 c i w X) ∧ ∀ i w, st.2 b i w X = st'.2 c i w X

theorem cfg_span (S : SR α) (p q : CKY.Scores α) (b c : ℕ) (h : CfgSame p q b c) (st st' : CKY.Charts α) (hs : CfgCharts p.NT st st' b c)
    (w i X : ℕ) (hi : i + w < p.N) (hX : X < p.NT) : CKY.spanOf S p st w b i X = CKY.spanOf S q st' w c i X := by
  have hr := h.rule X hX
  have e1 : CKY.x1 S p st w b i X = CKY.x1 S q st' w c i X := by
    unfold CKY.x1
    rw [← h.NT, ← h.N]
    refine block_same S _ _ _ _ _ _ 0 0 (p.NT + p.T) (by omega) (by omega) (fun y hy z hz => ?_) hr
    unfold CKY.split
    congr 1
    exact List.map_congr_left fun u _ => by rw [(hs y hy).1, (hs z hz).2]
  have e2 : CKY.x2 S p st w b i X = CKY.x2 S q st' w c i X := by
    unfold CKY.x2
    rw [← h.NT, ← h.T]
    refine block_same S _ _ _ _ _ _ 0 _ (p.NT + p.T) (by omega) (by omega) (fun y hy z hz => ?_) hr
    rw [(hs y hy).1, h.term _ (by omega) z hz]
  have e3 : CKY.x3 S p st w b i X = CKY.x3 S q st' w c i X := by
    unfold CKY.x3
    rw [← h.NT, ← h.T, ← h.N]
    refine block_same S _ _ _ _ _ _ _ 0 (p.NT + p.T) (by omega) (by omega) (fun y hy z hz => ?_) hr
    rw [(hs z hz).2, h.term _ (by omega) y hy]
  have e4 : CKY.x4 S p w b i X = CKY.x4 S q w c i X := by
    unfold CKY.x4
    rw [← h.NT, ← h.T]
    refine block_same S _ _ _ _ _ _ _ _ (p.NT + p.T) (by omega) (by omega) (fun y hy z hz => ?_) hr
    rw [h.term _ (by omega) y hy, h.term _ (by omega) z hz]
  unfold CKY.spanOf
  rw [e1, e2, e3, e4]

theorem cfg_charts (S : SR α) (p q : CKY.Scores α) (b c : ℕ) (h : CfgSame p q b c) (hp : p.mark = none) (hq : q.mark = none) :
    CfgCharts p.NT (CKY.charts S p) (CKY.charts S q) b c := by
  unfold CKY.charts
  rw [← h.N]
  suffices H : ∀ (l : List ℕ) (st st' : CKY.Charts α), CfgCharts p.NT st st' b c →
      CfgCharts p.NT (l.foldl (fun st w => CKY.step S p st (w + 1)) st) (l.foldl (fun st w => CKY.step S q st (w + 1)) st') b c from
    H _ _ _ fun X _ => ⟨fun _ _ => rfl, fun _ _ => rfl⟩
  intro l
  induction l with
  | nil => intro st st' hs; exact hs
  | cons w l ih =>
    intro st st' hs
    refine ih _ _ fun X hX => ⟨fun i v => ?_, fun i v => ?_⟩
    · simp only [CKY.step, CKY.touch, hp, hq, ← h.N]
      split_ifs with hi
      · exact cfg_span S p q b c h st st' hs _ _ _ (by omega) hX
      · exact (hs X hX).1 i v
    · simp only [CKY.step, CKY.touch, hp, hq, ← h.N]
      split_ifs with hi
      · exact cfg_span S p q b c h st st' hs _ _ _ (by omega) hX
      · exact (hs X hX).2 i v

/-- **C42, SentCFG**, for calls with one length per row. -/
theorem cfg_rows_independent (S : SR α) (p q : CKY.Scores α) (lp lq : Option (List ℕ)) (vs ws : List α) (b c : ℕ)
    (hp : CKY.logpartition S p lp = .ok vs) (hq : CKY.logpartition S q lq = .ok ws) (hb : b < p.batch) (hc : c < q.batch)
    (hlp : ∀ l, lp = some l → l.length = p.batch) (hlq : ∀ l, lq = some l → l.length = q.batch)
    (mp : p.mark = none) (mq : q.mark = none)
    (hlen : lenOf p.N lp b = lenOf q.N lq c) (h : CfgSame p q b c) : vs[b]? = ws[c]? := by
  have key : ∀ (p : CKY.Scores α) (lp) (vs) (b), b < p.batch → (∀ l, lp = some l → l.length = p.batch) → CKY.logpartition S p lp = .ok vs →
      vs[b]? = some (S.dot ((List.range p.NT).map fun X => (CKY.charts S p).1 b 0 (CKYCRF.lastIndex p.N (lenOf p.N lp b)) X)
        ((List.range p.NT).map fun X => p.root b X)) := by
    intro p lp vs b hb hlp hp
    have hg := treeLens_getD (N := p.N) lp b hb
    have hl := treeLens_length (N := p.N) lp hlp
    unfold CKY.logpartition at hp
    split_ifs at hp
    dsimp only at hp
    generalize CKYCRF.lensOr p.batch p.N lp = L at *
    by_cases hL : ∀ l ∈ L, l ≤ p.N
    · rw [if_pos hL, if_pos hl] at hp
      rw [← Except.ok.inj hp, getElem?_map_range _ hb]
      simp only [CKY.logZ, CKY.top, hg]
    · rw [if_neg hL] at hp; exact absurd hp (by simp)
  rw [key p lp vs b hb hlp hp, key q lq ws c hc hlq hq, hlen, ← h.N, ← h.NT]
  have hs := cfg_charts S p q b c h mp mq
  congr 2
  · exact List.map_congr_left fun X hX => (hs X (List.mem_range.1 hX)).1 _ _
  · exact List.map_congr_left fun X hX => h.root X (List.mem_range.1 hX)

/-! ### NonProjectiveDependencyCRF -/

/-- The length of a row, if `lengths` is given. -/
def rowLen (lengths : Option (List ℕ)) (b : ℕ) : Option ℕ := lengths.map fun l => l.getD b 0

theorem matrix_same (multiroot : Bool) (eps : ℝ) (s t : ℕ → ℕ → ℝ) (len : Option ℕ) (N : ℕ) (h : ∀ i < N, ∀ j < N, s i j = t i j) :
    NonProj.matrix multiroot eps s len N = NonProj.matrix multiroot eps t len N := by
  have he : ∀ i < N, ∀ j < N, NonProj.expIn s len i j = NonProj.expIn t len i j := fun i hi j hj => by
    simp only [NonProj.expIn, h i hi j hj]
  have ho : ∀ i < N, ∀ j < N, NonProj.offDiag eps s len i j = NonProj.offDiag eps t len i j := fun i hi j hj => by
    simp only [NonProj.offDiag, he i hi j hj]
  have hl : ∀ i < N, ∀ j < N, NonProj.lap eps s len N i j = NonProj.lap eps t len N i j := fun i hi j hj => by
    simp only [NonProj.lap, ho i hi j hj]
    congr 4
    exact List.map_congr_left fun k hk => ho k (List.mem_range.1 hk) j hj
  ext i j
  simp only [NonProj.matrix, Matrix.of_apply, NonProj.full, he _ j.2 _ j.2, hl _ i.2 _ j.2]

/-- **C42, NonProjectiveDependencyCRF**: `partition`, for calls with one length per row. -/
theorem nonproj_rows_independent (multiroot : Bool) (eps : ℝ) (p q : NonProj.Table) (lp lq : Option (List ℕ)) (vs ws : List (Option ℝ)) (b c : ℕ)
    (hp : NonProj.part multiroot eps p lp = .ok vs) (hq : NonProj.part multiroot eps q lq = .ok ws) (hb : b < p.batch) (hc : c < q.batch)
    (hlp : ∀ l, lp = some l → l.length = p.batch) (hlq : ∀ l, lq = some l → l.length = q.batch) (hN : p.N = q.N)
    (hlen : rowLen lp b = rowLen lq c) (h : ∀ i < p.N, ∀ j < p.N, p.get b i j = q.get c i j) : vs[b]? = ws[c]? := by
  have key : ∀ (p : NonProj.Table) (lp) (vs) (b), b < p.batch → (∀ l, lp = some l → l.length = p.batch) → NonProj.part multiroot eps p lp = .ok vs →
      vs[b]? = some (NonProj.logdet (NonProj.matrix multiroot eps (p.get b) (rowLen lp b) p.N)) := by
    intro p lp vs b hb hlp hp
    unfold NonProj.part at hp
    split_ifs at hp
    cases lp with
    | none =>
      simp only [NonProj.rows, Except.map, Except.ok.injEq] at hp
      subst hp
      simp [hb, rowLen]
    | some l =>
      simp only [NonProj.rows, if_pos (hlp l rfl), Except.map, Except.ok.injEq] at hp
      subst hp
      simp [hb, rowLen]
  rw [key p lp vs b hb hlp hp, key q lq ws c hc hlq hq, hlen, ← hN, matrix_same _ _ _ _ _ _ h]

/-- A row computed alone has the value it has in a batch: row 1 of two. -/
example (S : SR α) (f : ℕ → ℕ → ℕ → ℕ → α) : ∃ vs ws, LinearChain.logpartition S ⟨2, 2, 3, 3, f⟩ (some [2, 3]) = .ok vs ∧
    LinearChain.logpartition S ⟨1, 2, 3, 3, fun _ => f 1⟩ none = .ok ws ∧ vs[1]? = ws[0]? := by
  obtain ⟨vs, hv⟩ := (chain_accepts S ⟨2, 2, 3, 3, f⟩ (some [2, 3])).2 ⟨rfl, by norm_num, by simp [ValidLengths]⟩
  obtain ⟨ws, hw⟩ := (chain_accepts S ⟨1, 2, 3, 3, fun _ => f 1⟩ none).2 ⟨rfl, by norm_num, trivial⟩
  exact ⟨vs, ws, hv, hw, chain_rows_independent S _ _ _ _ vs ws 1 0 hv hw rfl rfl (by norm_num) (by norm_num) rfl fun _ _ _ _ _ _ => rfl⟩

/-- The same for dependency trees: row 1 has three of the four words of the table. -/
example (S : SR α) (x : α) (f : ℕ → ℕ → ℕ → ℕ → α) : ∃ vs ws, DepTree.sum false S x ⟨3, 2, 4, 4, 0, f⟩ (some [2, 3]) = .ok vs ∧
    DepTree.sum false S x ⟨3, 1, 4, 4, 0, fun _ => f 1⟩ (some [3]) = .ok ws ∧ vs[1]? = ws[0]? := by
  obtain ⟨vs, hv⟩ := (dep_accepts false S x ⟨3, 2, 4, 4, 0, f⟩ (some [2, 3])).2 ⟨Or.inl rfl, rfl, by norm_num, by norm_num, by simp⟩
  obtain ⟨ws, hw⟩ := (dep_accepts false S x ⟨3, 1, 4, 4, 0, fun _ => f 1⟩ (some [3])).2 ⟨Or.inl rfl, rfl, by norm_num, by norm_num, by simp⟩
  exact ⟨vs, ws, hv, hw, dep_rows_independent false S x _ _ _ _ vs ws 1 0 hv hw rfl rfl rfl (by norm_num) (by norm_num) rfl fun _ _ _ _ _ _ => rfl⟩

end Props.BatchRows
