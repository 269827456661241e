import Verif.Props.Memory
import Verif.Props.MemoryLayout
import Verif.Proofs.CKYMemory

/-! `SentCFG` and the memory of the process (C82). -/

namespace Props.GrammarMemory
open View MemoryProofs _root_.Memory Props.Memory

theorem dim_runtime {m n : ℕ} {e : PyErr} (h : Tensor.dim m n = .error e) : e = .runtime := by
  unfold Tensor.dim at h
  split_ifs at h
  cases h
  rfl

theorem dims_runtime : ∀ {a b : List ℕ} {e : PyErr}, Tensor.dims a b = .error e → e = .runtime
  | [], _, _, h => by simp [Tensor.dims] at h
  | _ :: _, [], _, h => by simp [Tensor.dims] at h
  | m :: ms, n :: ns, e, h => by
    simp only [Tensor.dims] at h
    cases h1 : Tensor.dim m n with
    | error e1 =>
      rw [h1] at h
      cases h
      exact dim_runtime h1
    | ok d =>
      rw [h1] at h
      cases h2 : Tensor.dims ms ns with
      | error e2 =>
        rw [h2] at h
        cases h
        exact dims_runtime h2
      | ok ds =>
        rw [h2] at h
        cases h

theorem elementwise_runtime {a b : Strides.Lay} {e : PyErr} (h : Strides.elementwise a b = .error e) : e = .runtime := by
  unfold Strides.elementwise at h
  cases h1 : Tensor.dims a.shape.reverse b.shape.reverse with
  | error e1 =>
    rw [h1] at h
    cases h
    exact dims_runtime h1
  | ok s =>
    rw [h1] at h
    cases h

theorem view_runtime {t : Strides.Lay} {s : List ℕ} {e : PyErr} (h : Strides.view t s = .error e) : e = .runtime := by
  unfold Strides.view at h
  split_ifs at h
  cases h
  rfl

theorem bind_runtime {β γ : Type} {x : Except PyErr β} {k : β → Except PyErr γ} {e : PyErr} (h : (x >>= k) = .error e)
    (hx : ∀ e, x = .error e → e = .runtime) (hk : ∀ v e, k v = .error e → e = .runtime) : e = .runtime := by
  cases x with
  | error e1 => cases h; exact hx _ rfl
  | ok v => exact hk v e h

theorem round_runtime {t : Strides.Lay} {batch N T NT w : ℕ} {e : PyErr} (h : Strides.ckyRound t batch N T NT w = .error e) : e = .runtime := by
  refine bind_runtime h (fun _ => elementwise_runtime) fun _ _ h => bind_runtime h (fun _ => view_runtime) fun _ _ h =>
    bind_runtime h (fun _ => elementwise_runtime) fun _ _ h => bind_runtime h (fun _ => view_runtime) fun _ _ h => ?_
  split_ifs at h
  · exact bind_runtime h (fun _ => elementwise_runtime) fun _ _ => view_runtime
  · cases h

theorem views_runtime (X : Sem) (t : View) (batch N T NT w : ℕ) (e : PyErr) (h : CKY.viewsOf X t batch N T NT w = .error e) : e = .runtime := by
  cases X
  case log | max | std => exact round_runtime h
  all_goals cases h

/-- The elements that the entries of a tensor are converted to. -/
noncomputable def elems (X : Sem) (h : Heap) (t : View) (ix : List ℕ) : X.carrier := X.elem (h.read t ix) (h.read t ix)

theorem converts_later (X : Sem) {h h' : Heap} (e : Ext h h') (t : View) (ht : t.storage < h.next) :
    Spec.Converts X.layout h' (X.convert t t) t.shape (elems X h t) := by
  have hc := converts h' t t (lt_of_lt_of_le ht e.next) (lt_of_lt_of_le ht e.next) X
  simp only [e.read t ht] at hc
  exact hc

/-- **C82.** `SentCFG`: on every heap and for all tensors `terms`, `rules`, `roots` in it (of any strides, offsets and storages, also shared ones), the program
with its allocations, views and in-place writes changes nothing that existed.  It raises `RuntimeError` if one of the `view`s of products with `terms` does, which
depends on the strides of `terms` (C86); otherwise it gives the answer that belongs to the entries, in a new storage. -/
theorem grammar_answers (X : Sem) (h : Heap) (t r o : View) (ht : t.storage < h.next) (hr : r.storage < h.next) (ho : o.storage < h.next)
    (batch N T NT R : ℕ) (hts : t.shape = [batch, N, T]) (hrs : r.shape = [batch, NT, R, R]) (hos : o.shape = [batch, NT]) (lengths : Option (List ℕ)) :
    Spec.Answers X.layout h (CKY.logpartitionM X.layout X.sr (CKY.viewsOf X t batch N T NT) batch N T NT R (X.convert t t) (X.convert r r)
        (X.convert o o) lengths h)
      (((List.range (N - 1)).forM fun w => CKY.viewsOf X t batch N T NT (w + 1)) >>= fun _ =>
        CKY.logpartition X.sr ⟨batch, N, T, NT, R, fun b n s => elems X h t [b, n, s], fun b x y z => elems X h r [b, x, y, z],
          fun b x => elems X h o [b, x], none⟩ lengths) :=
  grammar_run (lawful X) h _ (views_runtime X t batch N T NT) batch N T NT R _ _ _ lengths _ _ _ (fun _ e => hts ▸ converts_later X e t ht)
    (fun _ e => hrs ▸ converts_later X e r hr) fun _ e => hos ▸ converts_later X e o ho

/-- The semirings whose `convert` is a view of the caller's tensor. -/
def Views (X : Sem) : Prop := X = .log ∨ X = .max ∨ X = .std

/-- The `view`s of products with `terms` succeed. -/
theorem views_pass (X : Sem) (t : View) (batch N T NT : ℕ) (hb : 1 ≤ batch) (hT : 1 ≤ T) (hNT : 1 ≤ NT) (hts : t.shape = [batch, N, T])
    (hstr : Views X → t.strides = [N * T, T, 1]) : ((List.range (N - 1)).forM fun w => CKY.viewsOf X t batch N T NT (w + 1)) = .ok () := by
  have triv : ∀ (n : ℕ), ((List.range n).forM fun _ => (Except.ok () : Except PyErr Unit)) = .ok () := fun n =>
    views_ok (views := fun _ => (Except.ok () : Except PyErr Unit)) fun _ _ => rfl
  have cont : Views X → ((List.range (N - 1)).forM fun w => Strides.ckyRound ⟨t.shape, t.strides⟩ batch N T NT (w + 1)) = .ok () := by
    intro hX
    have e : (⟨t.shape, t.strides⟩ : Strides.Lay) = Strides.contiguous [batch, N, T] := by rw [hts, hstr hX]; simp [Strides.contiguous]
    rw [e]
    exact Props.MemoryLayout.grammar_contiguous batch N T NT hb hT hNT
  cases X with
  | log => exact cont (.inl rfl)
  | max => exact cont (.inr (.inl rfl))
  | std => exact cont (.inr (.inr rfl))
  | kmax k => exact triv _
  | entropy => exact triv _
  | crossEntropy => exact triv _
  | kl => exact triv _

/-- **C82.** If `terms` is contiguous, or if the semiring is `KMaxSemiring` or `EntropySemiring`, the answer is the one that belongs to the entries, whatever
the layouts of `rules` and `roots`. -/
theorem grammar_entries (X : Sem) (h : Heap) (t r o : View) (ht : t.storage < h.next) (hr : r.storage < h.next) (ho : o.storage < h.next)
    (batch N T NT R : ℕ) (hb : 1 ≤ batch) (hT : 1 ≤ T) (hNT : 1 ≤ NT) (hts : t.shape = [batch, N, T])
    (hstr : Views X → t.strides = [N * T, T, 1]) (hrs : r.shape = [batch, NT, R, R]) (hos : o.shape = [batch, NT]) (lengths : Option (List ℕ)) :
    Spec.Answers X.layout h (CKY.logpartitionM X.layout X.sr (CKY.viewsOf X t batch N T NT) batch N T NT R (X.convert t t) (X.convert r r)
        (X.convert o o) lengths h)
      (CKY.logpartition X.sr ⟨batch, N, T, NT, R, fun b n s => elems X h t [b, n, s], fun b x y z => elems X h r [b, x, y, z],
          fun b x => elems X h o [b, x], none⟩ lengths) := by
  have main := grammar_answers X h t r o ht hr ho batch N T NT R hts hrs hos lengths
  rw [views_pass X t batch N T NT hb hT hNT hts hstr] at main
  exact main

/-- **C86**, false of the code, on the heap: with `terms` given as `x.transpose(1, 2)`, `SentCFG.partition` raises `RuntimeError` for every heap, all entries, and
all tensors `rules` and `roots`. -/
theorem grammar_raises (X : Sem) (hX : Views X) (h : Heap) (t r o : View) (ht : t.storage < h.next) (hr : r.storage < h.next) (ho : o.storage < h.next)
    (batch N T NT R : ℕ) (hb : 1 ≤ batch) (hN : 3 ≤ N) (hT : 2 ≤ T) (hNT : 2 ≤ NT) (hts : t.shape = [batch, N, T]) (hstr : t.strides = [T * N, 1, N])
    (hrs : r.shape = [batch, NT, R, R]) (hos : o.shape = [batch, NT]) (lengths : Option (List ℕ)) :
    Spec.result X.layout (CKY.logpartitionM X.layout X.sr (CKY.viewsOf X t batch N T NT) batch N T NT R (X.convert t t) (X.convert r r)
        (X.convert o o) lengths h) = .error .runtime := by
  rw [result_eq (grammar_answers X h t r o ht hr ho batch N T NT R hts hrs hos lengths)]
  have e : (⟨t.shape, t.strides⟩ : Strides.Lay) = (Strides.contiguous [batch, T, N]).transpose 1 2 := by
    rw [hts, hstr]; simp [Strides.contiguous, Strides.Lay.transpose]
  have hv : ((List.range (N - 1)).forM fun w => Strides.ckyRound ⟨t.shape, t.strides⟩ batch N T NT (w + 1)) = .error .runtime := by
    rw [e]
    exact Props.MemoryLayout.grammar_layout batch N T NT hb hN hT hNT
  rcases hX with rfl | rfl | rfl <;>
  · show (((List.range (N - 1)).forM fun w => Strides.ckyRound ⟨t.shape, t.strides⟩ batch N T NT (w + 1)) >>= _) = _
    rw [hv]
    rfl

open Classical in
/-- **C82.** Two grammars with the same entries, on any two heaps and with any layouts of `rules` and `roots`, get the same answer or the same exception from
`SentCFG`, if their `terms` are contiguous (or, with `KMaxSemiring` and `EntropySemiring`, always). -/
theorem grammar_layout (X : Sem) {h h' : Heap} {t r o t' r' o' : View} (ht : t.storage < h.next) (hr : r.storage < h.next) (ho : o.storage < h.next)
    (ht' : t'.storage < h'.next) (hr' : r'.storage < h'.next) (ho' : o'.storage < h'.next) {batch N T NT R : ℕ} (hb : 1 ≤ batch) (hT : 1 ≤ T) (hNT : 1 ≤ NT)
    (hts : t.shape = [batch, N, T]) (hrs : r.shape = [batch, NT, R, R]) (hos : o.shape = [batch, NT])
    (hts' : t'.shape = [batch, N, T]) (hrs' : r'.shape = [batch, NT, R, R]) (hos' : o'.shape = [batch, NT])
    (hstr : Views X → t.strides = [N * T, T, 1] ∧ t'.strides = [N * T, T, 1])
    (same : ∀ ix, Valid [batch, N, T] ix → h.read t ix = h'.read t' ix)
    (same' : ∀ ix, Valid [batch, NT, R, R] ix → h.read r ix = h'.read r' ix)
    (same'' : ∀ ix, Valid [batch, NT] ix → h.read o ix = h'.read o' ix) (lengths : Option (List ℕ)) :
    Spec.result X.layout (CKY.logpartitionM X.layout X.sr (CKY.viewsOf X t batch N T NT) batch N T NT R (X.convert t t) (X.convert r r)
        (X.convert o o) lengths h) =
      Spec.result X.layout (CKY.logpartitionM X.layout X.sr (CKY.viewsOf X t' batch N T NT) batch N T NT R (X.convert t' t') (X.convert r' r')
        (X.convert o' o') lengths h') := by
  have later : ∀ {g : Heap} {v : View} {shape : List ℕ} {pot : List ℕ → X.carrier}, Ext h' g → v.storage < h'.next → v.shape = shape →
      (∀ ix, Valid shape ix → elems X h' v ix = pot ix) → Spec.Converts X.layout g (X.convert v v) shape pot := by
    intro g v shape pot e hv hs hp
    obtain ⟨w, h1, a, b, c, d, f⟩ := converts_later X e v hv
    exact ⟨w, h1, a, b, c, hs ▸ d, fun ix hix => (f ix (hs ▸ hix)).trans (hp ix hix)⟩
  have pot : ∀ {v v' : View} {shape : List ℕ}, (∀ ix, Valid shape ix → h.read v ix = h'.read v' ix) →
      ∀ ix, Valid shape ix → elems X h' v' ix = elems X h v ix := fun hs ix hix => by rw [elems, elems, hs ix hix]
  rw [result_eq (grammar_entries X h t r o ht hr ho batch N T NT R hb hT hNT hts (fun x => (hstr x).1) hrs hos lengths)]
  have main' := grammar_run (lawful X) h' _ (views_runtime X t' batch N T NT) batch N T NT R (X.convert t' t') (X.convert r' r') (X.convert o' o') lengths
    (elems X h t) (elems X h r) (elems X h o) (fun _ e => later e ht' hts' (pot same)) (fun _ e => later e hr' hrs' (pot same'))
    fun _ e => later e ho' hos' (pot same'')
  rw [views_pass X t' batch N T NT hb hT hNT hts' fun x => (hstr x).2] at main'
  exact (result_eq main').symm

/-! ### Concrete cases -/

/-- A storage with the numbers 0, 1, 2, ... holds contiguous `terms` of two sentences of three words with two terminals, overlapping `rules` for two nonterminals
that are transposed in the last two dimensions, and `roots`; the hypotheses of `grammar_entries` hold. -/
example (lengths : Option (List ℕ)) : Spec.Answers Sem.log.layout exHeap
    (CKY.logpartitionM Sem.log.layout Sem.log.sr (CKY.viewsOf .log ⟨0, 5, [2, 3, 2], [6, 2, 1]⟩ 2 3 2 2) 2 3 2 2 4
      (Sem.convert ⟨0, 5, [2, 3, 2], [6, 2, 1]⟩ ⟨0, 5, [2, 3, 2], [6, 2, 1]⟩ .log)
      (Sem.convert ⟨0, 7, [2, 2, 4, 4], [32, 16, 1, 4]⟩ ⟨0, 7, [2, 2, 4, 4], [32, 16, 1, 4]⟩ .log)
      (Sem.convert ⟨0, 0, [2, 2], [0, 3]⟩ ⟨0, 0, [2, 2], [0, 3]⟩ .log) lengths exHeap)
    (CKY.logpartition Sem.log.sr ⟨2, 3, 2, 2, 4, fun b n s => elems .log exHeap ⟨0, 5, [2, 3, 2], [6, 2, 1]⟩ [b, n, s],
      fun b x y z => elems .log exHeap ⟨0, 7, [2, 2, 4, 4], [32, 16, 1, 4]⟩ [b, x, y, z], fun b x => elems .log exHeap ⟨0, 0, [2, 2], [0, 3]⟩ [b, x], none⟩
      lengths) :=
  grammar_entries .log exHeap _ _ _ Nat.one_pos Nat.one_pos Nat.one_pos 2 3 2 2 4 (by omega) (by omega) (by omega) rfl (fun _ => rfl) rfl rfl lengths

/-- An entry of it. -/
example : elems .log exHeap ⟨0, 7, [2, 2, 4, 4], [32, 16, 1, 4]⟩ [1, 0, 2, 3] = (53 : ℝ) := by
  show exHeap.read _ _ = _
  norm_num [Heap.read, exHeap, addr]

/-- The same with transposed `terms`: the hypotheses of `grammar_raises` hold. -/
example (lengths : Option (List ℕ)) : Spec.result Sem.max.layout
    (CKY.logpartitionM Sem.max.layout Sem.max.sr (CKY.viewsOf .max ⟨0, 5, [2, 3, 2], [6, 1, 3]⟩ 2 3 2 2) 2 3 2 2 4
      (Sem.convert ⟨0, 5, [2, 3, 2], [6, 1, 3]⟩ ⟨0, 5, [2, 3, 2], [6, 1, 3]⟩ .max)
      (Sem.convert ⟨0, 7, [2, 2, 4, 4], [32, 16, 1, 4]⟩ ⟨0, 7, [2, 2, 4, 4], [32, 16, 1, 4]⟩ .max)
      (Sem.convert ⟨0, 0, [2, 2], [0, 3]⟩ ⟨0, 0, [2, 2], [0, 3]⟩ .max) lengths exHeap) = .error .runtime :=
  grammar_raises .max (.inr (.inl rfl)) exHeap _ _ _ Nat.one_pos Nat.one_pos Nat.one_pos 2 3 2 2 4 (by omega) (by omega) (by omega) (by omega) rfl rfl rfl rfl
    lengths

end Props.GrammarMemory
