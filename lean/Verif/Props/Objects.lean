import Verif.Spec.Objects
import Verif.Props.LogProb
import Verif.Props.Sampling

/-! Histories of queries and in-place updates (C80, C81). -/

noncomputable section
namespace Props.Objects
open Spec.Objects _root_.Objects

variable (pick : List (Autograd.Grad (List ℕ)) → Autograd.Grad (List ℕ))

/-- What an object answers when nothing is stored and gradients are enabled. -/
def plain (cls : Cls) (lengths : Option (List ℕ)) (t : Tensor ℝ) (query : Query) : Except PyErr Val :=
  (askObj pick true { cls, tensor := 0, lengths } t query).2.2

theorem fresh_eq (cls : Cls) (t : Tensor ℝ) (lengths : Option (List ℕ)) (query : Query) : fresh pick cls t lengths query = some (plain pick cls lengths t query) := rfl

/-- What a new distribution answers are the values of the other properties (C01-C20 and so on), for the entries of its tensor and for its own lengths. -/
theorem fresh_values (cls : Cls) (t : Tensor ℝ) (lengths : Option (List ℕ)) :
    fresh pick cls t lengths .partition = some ((cls.eval t fun p => Dist.partition cls.algo p lengths).map .rows) ∧
    fresh pick cls t lengths .max = some ((cls.eval t fun p => Dist.max cls.algo p lengths).map .rows) ∧
    fresh pick cls t lengths .entropy = some ((cls.eval t fun p => Dist.entropy cls.algo p lengths).map .rows) ∧
    fresh pick cls t lengths .count =
      some ((cls.eval t fun p => Dist.count cls.algo lengths (cls.algo.map (fun x : ℝ => (x : EReal)) p)).map .rows) ∧
    fresh pick cls t lengths .marginals = some ((cls.eval t fun p => Dist.marginals cls.algo p lengths).map .table) ∧
    fresh pick cls t lengths .argmax = some ((cls.eval t fun p => Dist.argmax cls.algo p lengths pick).map .table) ∧
    (∀ k, fresh pick cls t lengths (.kmax k) = some ((cls.eval t fun p => Dist.kmax cls.algo p lengths k).map .slots)) ∧
    (∀ k sel s, fresh pick cls t lengths (.topk k sel s) = some ((cls.eval t fun p => Dist.topk cls.algo p lengths k sel s).map .table)) ∧
    (∀ pass shape, fresh pick cls t lengths (.sample pass shape) = some ((cls.sample true t lengths pass shape).map .events)) ∧
    (∀ value, fresh pick cls t lengths (.logProb value) = some ((StructDistribution.logProb .real t
      ((cls.eval t fun p => Dist.partition cls.algo p lengths).map (Tensor.ofList 0)) value).map .tensor)) := by
  refine ⟨rfl, rfl, rfl, rfl, rfl, rfl, fun _ => rfl, fun _ _ _ => rfl, fun _ _ => rfl, fun value => ?_⟩
  rw [fresh_eq, plain, askObj, StructDistribution.logProb]
  cases h : Tensor.score .real t value (value.shape.length - t.shape.tail.length) with
  | error e => rfl
  | ok v => simp only [cached]; cases cls.eval t fun p => Dist.partition cls.algo p lengths <;> rfl

/-- Whatever the object has stored is what it computes for the contents `t`. -/
structure Good (t : Tensor ℝ) (o : Obj) : Prop where
  partition : ∀ v, o.partition = some v → o.cls.eval t (fun p => Dist.partition o.cls.algo p o.lengths) = .ok v
  max : ∀ v, o.max = some v → o.cls.eval t (fun p => Dist.max o.cls.algo p o.lengths) = .ok v
  entropy : ∀ v, o.entropy = some v → o.cls.eval t (fun p => Dist.entropy o.cls.algo p o.lengths) = .ok v
  count : ∀ v, o.count = some v → o.cls.eval t (fun p => Dist.count o.cls.algo o.lengths (o.cls.algo.map (fun x : ℝ => (x : EReal)) p)) = .ok v
  marginals : ∀ v, o.marginals = some v → o.cls.eval t (fun p => Dist.marginals o.cls.algo p o.lengths) = .ok v
  argmax : ∀ v, o.argmax = some v → o.cls.eval t (fun p => Dist.argmax o.cls.algo p o.lengths pick) = .ok v

theorem good_new (cls : Cls) (i : ℕ) (lengths : Option (List ℕ)) (t : Tensor ℝ) : Good pick t { cls, tensor := i, lengths } :=
  ⟨by simp, by simp, by simp, by simp, by simp, by simp⟩

theorem cached_eq {β : Type} {store : Option β} {e : Except PyErr β} (h : ∀ v, store = some v → e = .ok v) : cached store e = e := by
  cases store with
  | none => rfl
  | some v => exact (h v rfl).symm

theorem toOption_ok {β : Type} {e : Except PyErr β} {v : β} (h : e.toOption = some v) : e = .ok v := by
  cases e with
  | error e => simp [Except.toOption] at h
  | ok w => simp only [Except.toOption, Option.some.injEq] at h; rw [h]

/-- The constructor arguments of an object never change. -/
theorem ask_args (grad : Bool) (o : Obj) (t : Tensor ℝ) (query : Query) :
    (askObj pick grad o t query).1.cls = o.cls ∧ (askObj pick grad o t query).1.tensor = o.tensor ∧ (askObj pick grad o t query).1.lengths = o.lengths := by
  cases query with
  | logProb value => simp only [askObj]; split <;> exact ⟨rfl, rfl, rfl⟩
  | _ => exact ⟨rfl, rfl, rfl⟩

/-- An object whose stored results are right answers as a fresh one, and what it stores is right. -/
theorem ask_good {t : Tensor ℝ} {o : Obj} (h : Good pick t o) (grad : Bool) (query : Query) :
    (grad = true ∨ ¬ IsSample query → (askObj pick grad o t query).2.2 = plain pick o.cls o.lengths t query) ∧ Good pick t (askObj pick grad o t query).1 := by
  obtain ⟨h1, h2, h3, h4, h5, h6⟩ := h
  cases query with
  | partition =>
    simp only [plain, askObj, cached_eq h1]
    exact ⟨fun _ => rfl, fun v hv => toOption_ok hv, h2, h3, h4, h5, h6⟩
  | max =>
    simp only [plain, askObj, cached_eq h2]
    exact ⟨fun _ => rfl, h1, fun v hv => toOption_ok hv, h3, h4, h5, h6⟩
  | entropy =>
    simp only [plain, askObj, cached_eq h3]
    exact ⟨fun _ => rfl, h1, h2, fun v hv => toOption_ok hv, h4, h5, h6⟩
  | count =>
    simp only [plain, askObj, cached_eq h4]
    exact ⟨fun _ => rfl, h1, h2, h3, fun v hv => toOption_ok hv, h5, h6⟩
  | marginals =>
    simp only [plain, askObj, cached_eq h5]
    exact ⟨fun _ => rfl, h1, h2, h3, h4, fun v hv => toOption_ok hv, h6⟩
  | argmax =>
    simp only [plain, askObj, cached_eq h6]
    exact ⟨fun _ => rfl, h1, h2, h3, h4, h5, fun v hv => toOption_ok hv⟩
  | kmax k => exact ⟨fun _ => rfl, h1, h2, h3, h4, h5, h6⟩
  | topk k sel s => exact ⟨fun _ => rfl, h1, h2, h3, h4, h5, h6⟩
  | logProb value =>
    simp only [plain, askObj]
    cases Tensor.score Arith.real t value (value.shape.length - t.shape.tail.length) with
    | error e => exact ⟨fun _ => rfl, h1, h2, h3, h4, h5, h6⟩
    | ok v =>
      simp only [cached_eq h1]
      exact ⟨fun _ => rfl, fun v hv => toOption_ok hv, h2, h3, h4, h5, h6⟩
  | sample pass shape =>
    refine ⟨fun hg => ?_, h1, h2, h3, h4, h5, h6⟩
    rcases hg with rfl | hg
    · rfl
    · exact absurd trivial hg

theorem run_cons (st : State) (op : Op) (ops : List Op) : run pick st (op :: ops) = run pick (step pick st op).1 ops := rfl

theorem run_append (st : State) (ops ops' : List Op) : run pick st (ops ++ ops') = run pick (run pick st ops) ops' := by
  unfold run; rw [List.foldl_append]

theorem lt_of_some.{u} {α : Type u} {l : List α} {i : ℕ} {x : α} (h : l[i]? = some x) : i < l.length := by
  by_contra hn
  rw [List.getElem?_eq_none (by omega)] at h
  simp at h

/-- One operation: an object stays what it is, and so do the entries of its tensor, except for an update of this tensor. -/
theorem step_keeps (st : State) (op : Op) (i : ℕ) (o : Obj) (ho : st.objs[i]? = some o) :
    ∃ o', (step pick st op).1.objs[i]? = some o' ∧ o'.cls = o.cls ∧ o'.tensor = o.tensor ∧ o'.lengths = o.lengths ∧
      (o' = o ∨ ∃ grad query c, op = .ask grad i query ∧ st.cells[o.tensor]? = some c ∧ o' = (askObj pick grad o c.data query).1) := by
  have hi := lt_of_some ho
  cases op with
  | tensor data => exact ⟨o, ho, rfl, rfl, rfl, .inl rfl⟩
  | new cls k lengths =>
    refine ⟨o, ?_, rfl, rfl, rfl, .inl rfl⟩
    simp only [step]
    split_ifs
    · simp only; rw [List.getElem?_append_left hi]; exact ho
    · exact ho
  | update grad k data =>
    refine ⟨o, ?_, rfl, rfl, rfl, .inl rfl⟩
    simp only [step]
    split
    · exact ho
    · split_ifs <;> exact ho
  | ask grad j query =>
    simp only [step]
    cases hj : st.objs[j]? with
    | none => exact ⟨o, ho, rfl, rfl, rfl, .inl rfl⟩
    | some o' =>
      simp only
      cases hc : st.cells[o'.tensor]? with
      | none => exact ⟨o, ho, rfl, rfl, rfl, .inl rfl⟩
      | some c =>
        simp only
        by_cases hij : j = i
        · subst hij
          obtain rfl : o' = o := by simpa [ho] using hj.symm
          obtain ⟨a, b, d⟩ := ask_args pick grad o' c.data query
          exact ⟨_, List.getElem?_set_self hi, a, b, d, .inr ⟨grad, query, c, rfl, hc, rfl⟩⟩
        · exact ⟨o, by rw [List.getElem?_set_ne hij]; exact ho, rfl, rfl, rfl, .inl rfl⟩

/-- One operation: the entries of a tensor change only in an update of this tensor; queries never change them. -/
theorem step_cells (st : State) (op : Op) (k : ℕ) (c : Cell) (hc : st.cells[k]? = some c) :
    ∃ c', (step pick st op).1.cells[k]? = some c' ∧ (c'.data = c.data ∨ ∃ grad data, op = .update grad k data) := by
  have hk := lt_of_some hc
  cases op with
  | tensor data => exact ⟨c, by simp only [step]; rw [List.getElem?_append_left hk]; exact hc, .inl rfl⟩
  | new cls j lengths =>
    refine ⟨c, ?_, .inl rfl⟩
    simp only [step]
    split_ifs <;> exact hc
  | update grad j data =>
    simp only [step]
    cases hj : st.cells[j]? with
    | none => exact ⟨c, hc, .inl rfl⟩
    | some c' =>
      simp only
      split_ifs
      · exact ⟨c, hc, .inl rfl⟩
      · simp only
        by_cases hjk : j = k
        · subst hjk
          exact ⟨_, List.getElem?_set_self hk, .inr ⟨grad, data, rfl⟩⟩
        · exact ⟨c, by rw [List.getElem?_set_ne hjk]; exact hc, .inl rfl⟩
  | ask grad j query =>
    simp only [step]
    cases hj : st.objs[j]? with
    | none => exact ⟨c, hc, .inl rfl⟩
    | some o =>
      simp only
      cases ho : st.cells[o.tensor]? with
      | none => exact ⟨c, hc, .inl rfl⟩
      | some c' =>
        simp only
        by_cases hjk : o.tensor = k
        · subst hjk
          obtain rfl : c' = c := by simpa [ho] using hc
          exact ⟨_, List.getElem?_set_self hk, .inl rfl⟩
        · exact ⟨c, by rw [List.getElem?_set_ne hjk]; exact hc, .inl rfl⟩

/-- **C80.**  Queries do not change the caller's tensors: in a history without an update of tensor `k`, its entries stay the same. -/
theorem tensors_kept (ops : List Op) (k : ℕ) (h : NoUpdate k ops) : ∀ (st : State) (c : Cell), st.cells[k]? = some c →
    ∃ c', (run pick st ops).cells[k]? = some c' ∧ c'.data = c.data := by
  induction ops with
  | nil => intro st c hc; exact ⟨c, hc, rfl⟩
  | cons op ops ih =>
    intro st c hc
    obtain ⟨c', h1, h2⟩ := step_cells pick st op k c hc
    obtain ⟨c'', h3, h4⟩ := ih (fun op' h' => h op' (List.mem_cons_of_mem _ h')) _ c' h1
    refine ⟨c'', h3, h4.trans ?_⟩
    rcases h2 with h2 | ⟨grad, data, rfl⟩
    · exact h2
    · exact absurd rfl (h _ List.mem_cons_self grad data)

theorem run_good {t : Tensor ℝ} {i k : ℕ} (ops : List Op) : ∀ (st : State) (o : Obj), NoUpdate k ops → st.objs[i]? = some o → o.tensor = k →
    (∃ c, st.cells[k]? = some c ∧ c.data = t) → Good pick t o →
    ∃ o', (run pick st ops).objs[i]? = some o' ∧ o'.cls = o.cls ∧ o'.tensor = k ∧ o'.lengths = o.lengths ∧ Good pick t o' := by
  induction ops with
  | nil => intro st o _ h1 h2 _ h4; exact ⟨o, h1, rfl, h2, rfl, h4⟩
  | cons op ops ih =>
    rintro st o hu ho hk ⟨c, hc, rfl⟩ hg
    obtain ⟨o', h1, h2, h3, h4, h5⟩ := step_keeps pick st op i o ho
    obtain ⟨c', h6, h7⟩ := step_cells pick st op k c hc
    have hg' : Good pick c.data o' := by
      rcases h5 with rfl | ⟨grad, query, c'', rfl, hc'', rfl⟩
      · exact hg
      · rw [hk, hc] at hc''
        obtain rfl : c = c'' := by simpa using hc''
        exact (ask_good pick hg grad query).2
    have h7' : c'.data = c.data := by
      rcases h7 with h7 | ⟨grad, data, rfl⟩
      · exact h7
      · exact absurd rfl (hu _ List.mem_cons_self grad data)
    obtain ⟨o'', g1, g2, g3, g4, g5⟩ := ih _ o' (fun op' h' => hu op' (List.mem_cons_of_mem _ h')) h1 (h3.trans hk) ⟨c', h6, h7'⟩ hg'
    exact ⟨o'', g1, g2.trans h2, g3, g4.trans h4, g5⟩

/-- **C80, the part that holds.**  Build a distribution over tensor `k`, at any point of any history.  As long as nobody writes into the tensor, every query,
in any order, any number of times, with gradients enabled or disabled, whatever is asked of this and of other distributions before, answers as a new
distribution over a copy of the tensor would.  (Missing: `sample` with gradients disabled, for which this is false: `sample_no_grad`.) -/
theorem answers_fresh_partial (before after : List Op) (cls : Cls) (k : ℕ) (lengths : Option (List ℕ)) (t : Tensor ℝ) (hk : contents pick before k = some t)
    (hafter : NoUpdate k after) (grad : Bool) (query : Query) (hq : grad = true ∨ ¬ IsSample query) :
    answer pick (before ++ .new cls k lengths :: after) grad (numObjs pick before) query = fresh pick cls t lengths query := by
  rw [fresh_eq, answer, run_append, run_cons]
  unfold contents at hk
  unfold numObjs
  generalize run pick start before = st at *
  obtain ⟨c, hc, rfl⟩ := Option.map_eq_some_iff.1 hk
  have hs : (step pick st (.new cls k lengths)).1 = ⟨st.cells, st.objs ++ [{ cls, tensor := k, lengths }]⟩ := by
    simp only [step, if_pos (lt_of_some hc)]
  rw [hs]
  obtain ⟨c', g1, g2⟩ := tensors_kept pick after k hafter ⟨st.cells, st.objs ++ [{ cls, tensor := k, lengths }]⟩ c hc
  obtain ⟨o', h1, h2, h3, h4, h5⟩ := run_good (t := c.data) (i := st.objs.length) pick after ⟨st.cells, st.objs ++ [{ cls, tensor := k, lengths }]⟩
    { cls, tensor := k, lengths } hafter (by simp) rfl ⟨c, hc, rfl⟩ (good_new pick _ _ _ _)
  generalize run pick _ after = st' at *
  simp only [step, h1, h3, g1, g2]
  rw [(ask_good pick h5 grad query).1 hq, h2, h4]

/-- **C80 is false of the code** for `sample`: with gradients disabled it raises for every distribution, every history and every number of samples (it
raises anyway when the potentials are rejected or the number is 0). -/
theorem sample_no_grad (ops : List Op) (i : ℕ) (pass : ℕ → List ℕ → ℕ) (shape : List ℕ) (v : Val) :
    answer pick ops false i (.sample pass shape) ≠ some (.ok v) := by
  unfold answer
  generalize run pick start ops = st
  simp only [step]
  cases st.objs[i]? with
  | none => simp
  | some o =>
    simp only
    cases st.cells[o.tensor]? with
    | none => simp
    | some c =>
      simp only [askObj, ne_eq, Option.some.injEq]
      unfold Cls.sample
      split
      · split_ifs <;> cases Cls.eval o.cls c.data fun p => Sampling.record o.cls.algo Semirings.negInf p o.lengths <;> simp_all [bind, Except.bind, Except.map]
      · simp [Except.map]

/-- So the full statement, with `sample`, is false: whenever the same call would succeed with gradients enabled. -/
theorem sample_no_grad_differs (cls : Cls) (t : Tensor ℝ) (lengths : Option (List ℕ)) (pass : ℕ → List ℕ → ℕ) (n : ℕ) (hn : 0 < n) (es : List Sampling.Expr)
    (h : (cls.eval t fun p => Sampling.record cls.algo Semirings.negInf p lengths) = .ok es) :
    (∃ v, fresh pick cls t lengths (.sample pass [n]) = some (.ok v)) ∧
    answer pick [.tensor t, .new cls 0 lengths] false 0 (.sample pass [n]) = some (.error .runtime) := by
  constructor
  · rw [fresh_eq]
    simp only [plain, askObj, Cls.sample, if_neg hn.ne', h, bind, Except.bind, if_true]
    obtain ⟨smp, h1, -⟩ := Props.Sampling.sample_slots pass n hn
    exact ⟨.events smp, by rw [h1]; rfl⟩
  · have : answer pick [.tensor t, .new cls 0 lengths] false 0 (.sample pass [n]) = some ((cls.sample false t lengths pass [n]).map .events) := rfl
    rw [this]
    simp only [Cls.sample, if_neg hn.ne', h, bind, Except.bind, Bool.false_eq_true, if_false, Except.map]

/-! ### After an update -/

/-- The value that `lazy_property` has stored for a query. -/
def stored (o : Obj) : Query → Option Val
  | .partition => o.partition.map .rows
  | .max => o.max.map .rows
  | .entropy => o.entropy.map .rows
  | .count => o.count.map .rows
  | .marginals => o.marginals.map .table
  | .argmax => o.argmax.map .table
  | _ => none

/-- The queries whose results are stored. -/
def IsLazy : Query → Prop
  | .partition | .max | .entropy | .count | .marginals | .argmax => True
  | _ => False

theorem map_toOption {β γ : Type} (x : Except PyErr β) (f : β → γ) (v : γ) (h : x.map f = .ok v) : x.toOption.map f = some v := by
  cases x with
  | error e => simp [Except.map] at h
  | ok y => simpa [Except.map, Except.toOption] using h

theorem ask_stores (grad : Bool) (o : Obj) (t : Tensor ℝ) (query : Query) (hl : IsLazy query) (v : Val) (h : (askObj pick grad o t query).2.2 = .ok v) :
    stored (askObj pick grad o t query).1 query = some v := by
  cases query <;> try exact hl.elim
  all_goals exact map_toOption _ _ _ h

theorem stored_answer (grad : Bool) (o : Obj) (t : Tensor ℝ) (query : Query) (v : Val) (h : stored o query = some v) :
    (askObj pick grad o t query).2.2 = .ok v := by
  cases query <;> simp only [stored, reduceCtorEq] at h
  all_goals
    obtain ⟨w, h1, h2⟩ := Option.map_eq_some_iff.1 h
    simp only [askObj, h1, cached, Except.map, h2]

theorem stored_kept (grad : Bool) (o : Obj) (t : Tensor ℝ) (query query' : Query) (v : Val) (h : stored o query = some v) :
    stored (askObj pick grad o t query').1 query = some v := by
  cases query <;> simp only [stored, reduceCtorEq] at h
  all_goals
    obtain ⟨w, h1, h2⟩ := Option.map_eq_some_iff.1 h
    cases query' with
    | logProb value =>
      simp only [askObj]
      split <;> simp [stored, h1, h2, cached, Except.toOption]
    | _ => simp [askObj, stored, h1, h2, cached, Except.toOption]

theorem run_stored (i : ℕ) (query : Query) (v : Val) (ops : List Op) : ∀ (st : State) (o : Obj) (c : Cell), st.objs[i]? = some o → st.cells[o.tensor]? = some c →
    stored o query = some v → ∃ o' c', (run pick st ops).objs[i]? = some o' ∧ (run pick st ops).cells[o'.tensor]? = some c' ∧ stored o' query = some v := by
  induction ops with
  | nil => intro st o c h1 h2 h3; exact ⟨o, c, h1, h2, h3⟩
  | cons op ops ih =>
    intro st o c ho hc hs
    obtain ⟨o', h1, h2, h3, h4, h5⟩ := step_keeps pick st op i o ho
    obtain ⟨c', h6, -⟩ := step_cells pick st op o.tensor c hc
    refine ih _ o' c' h1 (by rw [h3]; exact h6) ?_
    rcases h5 with rfl | ⟨grad, query', c'', -, -, rfl⟩
    · exact hs
    · exact stored_kept pick grad o c''.data query query' v hs

/-- **C81 is false of the code.**  `partition`, `max`, `entropy`, `count`, `marginals` and `argmax` are computed once: after the first successful query the answer
stays the same for ever, whatever is written into the tensor. -/
theorem stale (before after : List Op) (grad grad' : Bool) (i : ℕ) (query : Query) (hl : IsLazy query) (v : Val)
    (h : answer pick before grad i query = some (.ok v)) : answer pick (before ++ .ask grad i query :: after) grad' i query = some (.ok v) := by
  rw [answer, run_append, run_cons]
  rw [answer] at h
  generalize run pick start before = st at *
  simp only [step] at h
  cases hi : st.objs[i]? with
  | none => simp [hi] at h
  | some o =>
    simp only [hi] at h
    cases hc : st.cells[o.tensor]? with
    | none => simp [hc] at h
    | some c =>
      simp only [hc, Option.some.injEq] at h
      have hs : (step pick st (.ask grad i query)).1 = ⟨st.cells.set o.tensor ⟨c.data, c.requiresGrad || (askObj pick grad o c.data query).2.1⟩,
        st.objs.set i (askObj pick grad o c.data query).1⟩ := by simp only [step, hi, hc]
      obtain ⟨o', c', h1, h2, h3⟩ := run_stored pick i query v after (step pick st (.ask grad i query)).1 (askObj pick grad o c.data query).1
        ⟨c.data, c.requiresGrad || (askObj pick grad o c.data query).2.1⟩
        (by rw [hs]; exact List.getElem?_set_self (lt_of_some hi))
        (by rw [hs, (ask_args pick grad o c.data query).2.1]; exact List.getElem?_set_self (lt_of_some hc))
        (ask_stores pick grad o c.data query hl v h)
      generalize run pick (step pick st (.ask grad i query)).1 after = st' at *
      simp only [step, h1, h2]
      rw [stored_answer pick grad' o' c'.data query v h3]

theorem run_args (i : ℕ) (ops : List Op) : ∀ (st : State) (o : Obj), st.objs[i]? = some o →
    ∃ o', (run pick st ops).objs[i]? = some o' ∧ o'.cls = o.cls ∧ o'.tensor = o.tensor ∧ o'.lengths = o.lengths := by
  induction ops with
  | nil => intro st o h; exact ⟨o, h, rfl, rfl, rfl⟩
  | cons op ops ih =>
    intro st o ho
    obtain ⟨o', h1, h2, h3, h4, -⟩ := step_keeps pick st op i o ho
    obtain ⟨o'', g1, g2, g3, g4⟩ := ih _ o' h1
    exact ⟨o'', g1, g2.trans h2, g3.trans h3, g4.trans h4⟩

/-- The queries that are evaluated anew in every call. -/
def IsEager : Query → Prop
  | .kmax _ | .topk _ _ _ | .sample _ _ => True
  | _ => False

/-- **C81, the part that holds.**  `kmax`, `topk` and `sample` answer for the contents that the tensor has now, in every history.  (Missing: the stored
queries, for which this is false, `stale`, and `log_prob`, which mixes both, `logProb_mixed`.) -/
theorem current_partial (before after : List Op) (cls : Cls) (k : ℕ) (lengths : Option (List ℕ)) (t : Tensor ℝ) (hk : (contents pick before k).isSome)
    (ht : contents pick (before ++ .new cls k lengths :: after) k = some t) (grad : Bool) (query : Query) (he : IsEager query)
    (hq : grad = true ∨ ¬ IsSample query) :
    answer pick (before ++ .new cls k lengths :: after) grad (numObjs pick before) query = fresh pick cls t lengths query := by
  rw [fresh_eq, answer]
  unfold contents at hk ht
  unfold numObjs
  rw [run_append, run_cons] at ht ⊢
  generalize run pick start before = st at *
  obtain ⟨c0, hc0⟩ : ∃ c, st.cells[k]? = some c := Option.isSome_iff_exists.1 (by simpa using hk)
  have hs : (step pick st (.new cls k lengths)).1 = ⟨st.cells, st.objs ++ [{ cls, tensor := k, lengths }]⟩ := by
    simp only [step, if_pos (lt_of_some hc0)]
  rw [hs] at ht ⊢
  obtain ⟨o', h1, h2, h3, h4⟩ := run_args pick st.objs.length after ⟨st.cells, st.objs ++ [{ cls, tensor := k, lengths }]⟩
    { cls, tensor := k, lengths } (by simp)
  generalize run pick _ after = st' at *
  obtain ⟨c, hc, rfl⟩ := Option.map_eq_some_iff.1 ht
  simp only at h2 h3 h4
  subst h2 h4
  simp only [step, h1, h3, hc]
  cases query with
  | kmax k => simp only [plain, askObj]
  | topk k sel s => simp only [plain, askObj]
  | sample pass shape =>
    rcases hq with rfl | hq
    · simp only [plain, askObj]
    · exact absurd trivial hq
  | _ => exact he.elim

/-- **C81 is false of the code** for `log_prob`: once `partition` has been read, `log_prob` subtracts this partition, the one of the old contents, from the
score under the new contents. -/
theorem logProb_mixed (cls : Cls) (t t' : Tensor ℝ) (lengths : Option (List ℕ)) (z : List ℝ) (value : Tensor ℝ)
    (hz : (cls.eval t fun p => Dist.partition cls.algo p lengths) = .ok z) :
    answer pick [.tensor t, .new cls 0 lengths, .ask true 0 .partition, .update false 0 t'] true 0 (.logProb value) =
      some ((StructDistribution.logProb .real t' (.ok (Tensor.ofList 0 z)) value).map .tensor) := by
  have e : run pick start [.tensor t, .new cls 0 lengths, .ask true 0 .partition, .update false 0 t'] =
      ⟨[⟨t', true⟩], [{ cls := cls, tensor := 0, lengths := lengths, partition := some z }]⟩ := by
    simp only [run, List.foldl, step, start, List.nil_append, List.length_cons, List.length_nil, Nat.zero_add, Nat.lt_one_iff, if_true,
      List.getElem?_cons_zero, askObj, cached, hz, Except.toOption, List.set_cons_zero, Option.isNone_none, Bool.or_true, Bool.false_eq_true, false_and, if_false]
  rw [answer, e]
  simp only [step, List.getElem?_cons_zero, askObj, StructDistribution.logProb, bind, Except.bind, cached]
  cases Tensor.score Arith.real t' value (value.shape.length - t'.shape.tail.length) with
  | error e => rfl
  | ok v => rfl

/-- A table with one word and one label, with score `x`. -/
def word (x : ℝ) : Tensor ℝ := ⟨[1, 1, 1, 1], fun _ => x⟩

theorem word_partition (x : ℝ) : (treeCRF.eval (word x) fun p => Dist.partition treeCRF.algo p none) = .ok [x] := by
  have : (treeCRF.eval (word x) fun p => Dist.partition treeCRF.algo p none) =
      CKYCRF.logpartition Semirings.log ⟨1, 1, 1, 1, fun _ _ _ _ => x⟩ none := rfl
  rw [this]
  unfold CKYCRF.logpartition
  rw [if_neg (by simp), if_neg (by simp)]
  simp [CKYCRF.gather, CKYCRF.lensOr, CKYCRF.charts, CKYCRF.init, CKYCRF.reduced, CKYCRF.lastIndex]
  simp [Semirings.log, Semirings.logZ, Semirings.lse]

/-- **C81 refuted**: with one word and one label there is a single tree, whose log-probability is 0.  After `partition` has been read and 1 has been added to
the tensor (as an optimizer does), `log_prob` of this tree is 1, a "probability" of `e`. -/
theorem logProb_above_one : (∃ v : Tensor ℝ, v.get [0] = 1 ∧
      answer pick [.tensor (word 0), .new treeCRF 0 none, .ask true 0 .partition, .update false 0 (word 1)] true 0 (.logProb (word 1)) = some (.ok (.tensor v))) ∧
    ∃ w : Tensor ℝ, w.get [0] = 0 ∧ fresh pick treeCRF (word 1) none (.logProb (word 1)) = some (.ok (.tensor w)) := by
  have key : ∀ z : ℝ, ∃ v : Tensor ℝ, v.get [0] = 1 - z ∧ StructDistribution.logProb .real (word 1) (.ok (Tensor.ofList 0 [z])) (word 1) = .ok v := by
    intro z
    refine ⟨_, ?_, rfl⟩
    simp [Arith.real, Tensor.indices, Tensor.ofList, Tensor.readAt, word]
  constructor
  · obtain ⟨v, h1, h2⟩ := key 0
    refine ⟨v, by rw [h1]; norm_num, ?_⟩
    rw [logProb_mixed pick treeCRF (word 0) (word 1) none [0] (word 1) (word_partition 0), h2]
    rfl
  · obtain ⟨v, h1, h2⟩ := key 1
    refine ⟨v, by rw [h1]; norm_num, ?_⟩
    rw [fresh_eq]
    simp only [plain, askObj, cached, word_partition]
    simp only [StructDistribution.logProb, bind, Except.bind] at h2
    cases hs : Tensor.score Arith.real (word 1) (word 1) ((word 1).shape.length - (word 1).shape.tail.length) with
    | error e => rw [hs] at h2; cases h2
    | ok x =>
      rw [hs] at h2
      simp only [Except.map, bind, Except.bind] at h2 ⊢
      rw [h2]

/-- A query starts a dynamic program on the tensor, which sets its `requires_grad`: an in-place update that was possible before the query raises afterwards. -/
theorem query_blocks_update (cls : Cls) (t t' : Tensor ℝ) (lengths : Option (List ℕ)) :
    contents pick [.tensor t, .new cls 0 lengths, .update true 0 t'] 0 = some t' ∧
    contents pick [.tensor t, .new cls 0 lengths, .ask true 0 .partition, .update true 0 t'] 0 = some t ∧
    (step pick (run pick start [.tensor t, .new cls 0 lengths, .ask true 0 .partition]) (.update true 0 t')).2 = some (.error .runtime) := by
  refine ⟨rfl, ?_, ?_⟩ <;> simp [contents, run, start, step, askObj]

/-- Non-vacuity of `answers_fresh_partial`: two tensors, a distribution over the second, queries in both modes and an update of the first tensor. -/
example : answer pick [.tensor (word 0), .tensor (word 2), .new treeCRF 1 none, .ask false 0 .partition, .update false 0 (word 5), .ask true 0 .marginals]
    false 0 (.logProb (word 1)) = fresh pick treeCRF (word 2) none (.logProb (word 1)) :=
  answers_fresh_partial pick [.tensor (word 0), .tensor (word 2)] [.ask false 0 .partition, .update false 0 (word 5), .ask true 0 .marginals] treeCRF 1 none (word 2)
    rfl (by intro op h; simp only [List.mem_cons, List.not_mem_nil, or_false] at h; rcases h with rfl | rfl | rfl <;> simp) false _ (.inr id)

/-- Non-vacuity of `sample_no_grad_differs`: the table with one word. -/
example (pass : ℕ → List ℕ → ℕ) : answer pick [.tensor (word 0), .new treeCRF 0 none] false 0 (.sample pass [3]) = some (.error .runtime) :=
  (sample_no_grad_differs pick treeCRF (word 0) none pass 3 (by norm_num) _ rfl).2

end Props.Objects
