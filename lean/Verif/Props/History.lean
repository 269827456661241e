import Verif.Spec.History
import Verif.Props.Dependency

/-! Do `DependencyCRF` objects influence each other (C32)?  They do when they are built with different `multiroot`; otherwise they do not. -/

noncomputable section
namespace Props.History
open Spec DependencyHistory

variable (pick : List (Autograd.Grad (List ℕ)) → Autograd.Grad (List ℕ))

/-- What an object with the given tables answers when the flag is `m` and nothing is stored. -/
def plain (q : DepTree.Arcs ℝ) (l : Option (List ℕ)) (m : Bool) (query : Query) : Except PyErr Val :=
  (askObj pick m { potentials := q, lengths := l } query).2

/-- The object holds the given tables, and whatever it has stored is what it computes when the flag is `m`. -/
structure Good (q : DepTree.Arcs ℝ) (l : Option (List ℕ)) (m : Bool) (o : Obj) : Prop where
  potentials : o.potentials = q
  lengths : o.lengths = l
  partition : ∀ v, o.partition = some v → DepTree.partition m q l = .ok v
  max : ∀ v, o.max = some v → DepTree.max m q l = .ok v
  entropy : ∀ v, o.entropy = some v → DepTree.entropy m q l = .ok v
  marginals : ∀ v, o.marginals = some v → DepTree.marginals m q l = .ok v
  argmax : ∀ v, o.argmax = some v → DepTree.argmax m q l pick = .ok v

theorem good_new (q : DepTree.Arcs ℝ) (l : Option (List ℕ)) (m : Bool) : Good pick q l m { potentials := q, lengths := l } :=
  ⟨rfl, rfl, by simp, by simp, by simp, by simp, by simp⟩

theorem cached_eq {β : Type} {store : Option β} {e : Except PyErr β} (h : ∀ v, store = some v → e = .ok v) : cached store e = e := by
  cases store with
  | none => rfl
  | some v => exact (h v rfl).symm

theorem toOption_ok {β : Type} {e : Except PyErr β} {v : β} (h : e.toOption = some v) : e = .ok v := by
  cases e with
  | error e => simp [Except.toOption] at h
  | ok w => simp only [Except.toOption, Option.some.injEq] at h; rw [h]

/-- An object whose stored results are right answers as a fresh one, and what it stores is right. -/
theorem ask_good {q : DepTree.Arcs ℝ} {l : Option (List ℕ)} {m : Bool} {o : Obj} (h : Good pick q l m o) (query : Query) :
    (askObj pick m o query).2 = plain pick q l m query ∧ Good pick q l m (askObj pick m o query).1 := by
  obtain ⟨h1, h2, h3, h4, h5, h6, h7⟩ := h
  subst h1 h2
  cases query with
  | partition =>
    simp only [plain, askObj, cached_eq h3]
    exact ⟨rfl, rfl, rfl, fun v hv => toOption_ok hv, h4, h5, h6, h7⟩
  | max =>
    simp only [plain, askObj, cached_eq h4]
    exact ⟨rfl, rfl, rfl, h3, fun v hv => toOption_ok hv, h5, h6, h7⟩
  | entropy =>
    simp only [plain, askObj, cached_eq h5]
    exact ⟨rfl, rfl, rfl, h3, h4, fun v hv => toOption_ok hv, h6, h7⟩
  | marginals =>
    simp only [plain, askObj, cached_eq h6]
    exact ⟨rfl, rfl, rfl, h3, h4, h5, fun v hv => toOption_ok hv, h7⟩
  | argmax =>
    simp only [plain, askObj, cached_eq h7]
    exact ⟨rfl, rfl, rfl, h3, h4, h5, h6, fun v hv => toOption_ok hv⟩
  | kmax k => exact ⟨rfl, rfl, rfl, h3, h4, h5, h6, h7⟩
  | topk k sel s => exact ⟨rfl, rfl, rfl, h3, h4, h5, h6, h7⟩
  | logProb b value =>
    simp only [plain, askObj, cached_eq h3]
    exact ⟨rfl, rfl, rfl, fun v hv => toOption_ok hv, h4, h5, h6, h7⟩

/-- Every construction of the history uses the flag `m`. -/
def Uses (m : Bool) (ops : List Op) : Prop := ∀ x ∈ constructions ops, x.2.2 = m

theorem run_cons (st : State) (op : Op) (ops : List Op) : run pick st (op :: ops) = run pick (step pick st op).1 ops := rfl

theorem run_append (st : State) (ops ops' : List Op) : run pick st (ops ++ ops') = run pick (run pick st ops) ops' := by
  unfold run; rw [List.foldl_append]

theorem run_good {q : DepTree.Arcs ℝ} {l : Option (List ℕ)} {m : Bool} {i : ℕ} (ops : List Op) : ∀ (st : State), Uses m ops → st.multiroot = some m →
    (∃ o, st.objs[i]? = some o ∧ Good pick q l m o) →
    (run pick st ops).multiroot = some m ∧ ∃ o, (run pick st ops).objs[i]? = some o ∧ Good pick q l m o := by
  induction ops with
  | nil => intro st _ h1 h2; exact ⟨h1, h2⟩
  | cons op ops ih =>
    rintro st hu h1 ⟨o, ho, hg⟩
    rw [run_cons]
    have hi : i < st.objs.length := by
      by_contra hlt
      rw [List.getElem?_eq_none (by omega)] at ho
      simp at ho
    cases op with
    | new q' l' m' =>
      refine ih _ (fun x hx => hu x (List.mem_cons_of_mem _ hx)) ?_ ⟨o, ?_, hg⟩
      · simp only [step]; rw [show m' = m from hu (q', l', m') List.mem_cons_self]
      · simp only [step]; rw [List.getElem?_append_left hi]; exact ho
    | ask j query =>
      refine ih _ hu ?_ ?_
      · simp only [step]; cases st.objs[j]? <;> exact h1
      · simp only [step]
        cases hj : st.objs[j]? with
        | none => exact ⟨o, ho, hg⟩
        | some o' =>
          simp only [h1, Option.getD_some]
          by_cases hij : j = i
          · subst hij
            obtain rfl : o' = o := by simpa [ho] using hj.symm
            exact ⟨_, List.getElem?_set_self hi, (ask_good pick hg query).2⟩
          · exact ⟨o, by rw [List.getElem?_set_ne hij]; exact ho, hg⟩

theorem answer_solo (q : DepTree.Arcs ℝ) (l : Option (List ℕ)) (m : Bool) (query : Query) :
    answer pick [.new q l m] 0 query = some (plain pick q l m query) := rfl

theorem objs_length (ops : List Op) : ∀ st : State, (run pick st ops).objs.length = st.objs.length + (constructions ops).length := by
  induction ops with
  | nil => intro st; rfl
  | cons op ops ih =>
    intro st
    rw [run_cons, ih]
    cases op with
    | new q l m => simp only [step, constructions, List.length_append, List.length_cons, List.length_nil]; omega
    | ask j query =>
      simp only [step, constructions]
      cases st.objs[j]? <;> simp

theorem constructions_append (ops ops' : List Op) : constructions (ops ++ ops') = constructions ops ++ constructions ops' := by
  induction ops with
  | nil => rfl
  | cons op ops ih => cases op <;> simp [constructions, ih]

/-- **C32, the part that holds.**  If, from its own construction on, no `DependencyCRF` with the other value of `multiroot` is constructed, an object answers
every query as if it were the only one, whatever was constructed and asked before and after.  (Missing: the other histories, for which the claim is
false: `objects_interfere`.) -/
theorem isolated_object_partial (before after : List Op) (q : DepTree.Arcs ℝ) (l : Option (List ℕ)) (m : Bool) (hafter : Uses m after) (query : Query) :
    answer pick (before ++ .new q l m :: after) (constructions before).length query = answer pick [.new q l m] 0 query := by
  rw [answer_solo, answer, run_append, run_cons]
  have hlen := objs_length pick before start
  simp only [start, List.length_nil, Nat.zero_add] at hlen
  obtain ⟨h1, o, ho, hg⟩ := run_good (q := q) (l := l) (m := m) (i := (constructions before).length) pick after
    (step pick (run pick start before) (.new q l m)).1 hafter rfl
    ⟨_, by simp only [step]; rw [List.getElem?_append_right (by simp [start, hlen])]; simp [start, hlen], good_new pick q l m⟩
  generalize run pick (step pick (run pick start before) (.new q l m)).1 after = st at *
  simp only [step, ho, h1, Option.getD_some]
  rw [(ask_good pick hg query).1]

theorem split_history (ops : List Op) : ∀ (i : ℕ) q l m, (constructions ops)[i]? = some (q, l, m) →
    ∃ before after, ops = before ++ .new q l m :: after ∧ (constructions before).length = i := by
  induction ops with
  | nil => intro i q l m h; simp [constructions] at h
  | cons op ops ih =>
    intro i q l m h
    cases op with
    | new q' l' m' =>
      cases i with
      | zero =>
        simp only [constructions, List.getElem?_cons_zero, Option.some.injEq, Prod.mk.injEq] at h
        obtain ⟨rfl, rfl, rfl⟩ := h
        exact ⟨[], ops, rfl, rfl⟩
      | succ i =>
        obtain ⟨before, after, rfl, hl⟩ := ih i q l m (by simpa [constructions] using h)
        exact ⟨.new q' l' m' :: before, after, rfl, by simp [constructions, hl]⟩
    | ask j query =>
      obtain ⟨before, after, rfl, hl⟩ := ih i q l m h
      exact ⟨.ask j query :: before, after, rfl, hl⟩

/-- **C32, the part that holds**, for all objects at once: in a history in which all constructions use the same `multiroot` the objects are isolated. -/
theorem isolated_partial (ops : List Op) (m : Bool) (h : Uses m ops) : Isolated pick ops := by
  intro i q l m' hi query
  obtain ⟨before, after, rfl, rfl⟩ := split_history ops i q l m' hi
  refine isolated_object_partial pick before after q l m' (fun x hx => ?_) query
  rw [Uses, constructions_append] at h
  rw [h x (List.mem_append_right _ (List.mem_cons_of_mem _ hx)), ← h (q, l, m') (List.mem_append_right _ List.mem_cons_self)]

/-! ### The other histories -/

/-- The tree in which every word hangs on the root. -/
def flatTree (n : ℕ) : ProjTrees true n :=
  ⟨fun _ => 0, fun k => ⟨1, by simp [headOf]⟩, fun k y _ => ⟨1, by simp [headOf]⟩, by simp⟩

/-- Every single-root tree is also a tree. -/
def widen {n : ℕ} (t : ProjTrees false n) : ProjTrees true n := ⟨t.1, t.2.1, t.2.2.1, by simp⟩

theorem flat_not_single {n : ℕ} (hn : 2 ≤ n) (t : ProjTrees false n) : widen t ≠ flatTree n := by
  intro h
  have h0 : t.1 = fun _ => 0 := congrArg Subtype.val h
  obtain ⟨k, _, hk⟩ := t.2.2.2 rfl
  have e0 := hk ⟨0, by omega⟩ (by rw [h0])
  have e1 := hk ⟨1, by omega⟩ (by rw [h0])
  rw [← e0] at e1
  simp at e1

/-- With at least two words there are strictly more trees than single-root trees, so the two values of the flag give different partitions. -/
theorem single_lt_multi {n : ℕ} (hn : 2 ≤ n) (φ : ℕ → ℕ → ℝ) :
    Real.log (∑ t : ProjTrees false n, Real.exp (depScore φ t.1)) < Real.log (∑ t : ProjTrees true n, Real.exp (depScore φ t.1)) := by
  have hne : Nonempty (ProjTrees false n) := DepTreeProofs.nonempty_trees false n fun _ => by omega
  refine Real.log_lt_log (Finset.sum_pos (fun t _ => Real.exp_pos _) Finset.univ_nonempty) ?_
  have hinj : Function.Injective (widen (n := n)) := fun s t h => Subtype.ext (congrArg (fun x : ProjTrees true n => x.1) h)
  have h1 : ∑ t : ProjTrees false n, Real.exp (depScore φ t.1) = ∑ t ∈ Finset.univ.map ⟨widen (n := n), hinj⟩, Real.exp (depScore φ t.1) := by
    rw [Finset.sum_map]; rfl
  rw [h1]
  refine Finset.sum_lt_sum_of_subset (Finset.subset_univ _) (Finset.mem_univ (flatTree n)) ?_ (Real.exp_pos _) fun t _ _ => (Real.exp_pos _).le
  simp only [Finset.mem_map, Finset.mem_univ, true_and, Function.Embedding.coeFn_mk, not_exists]
  exact fun t => flat_not_single hn t

/-- **C32 is false of the code.**  Take any `DependencyCRF` with `multiroot=False` over a table with a row of at least two words.  After any other
`DependencyCRF` is constructed with `multiroot=True`, its partition is another one than it would be alone. -/
theorem objects_interfere (q q' : DepTree.Arcs ℝ) (l l' : Option (List ℕ)) (h : Dependency.Valid false q l) (b : ℕ) (hb : b < q.d0)
    (hlen : 2 ≤ Dependency.len q l b) :
    answer pick [.new q l false, .new q' l' true] 0 .partition ≠ answer pick [.new q l false] 0 .partition := by
  have ht : Dependency.Valid true q l := ⟨h.rank, h.square, h.batch, by simp, fun ls hls => ⟨(h.lens ls hls).1, fun x hx => ⟨((h.lens ls hls).2 x hx).1, by simp⟩⟩⟩
  have e1 : answer pick [.new q l false, .new q' l' true] 0 .partition = some ((DepTree.partition true q l).map .rows) := rfl
  have e2 : answer pick [.new q l false] 0 .partition = some ((DepTree.partition false q l).map .rows) := rfl
  rw [e1, e2, Dependency.partition_spec true q l ht, Dependency.partition_spec false q l h]
  intro he
  simp only [Except.map, Option.some.injEq, Except.ok.injEq, Val.rows.injEq] at he
  have := congrArg (fun v => v[b]?) he
  simp only [List.getElem?_map, List.getElem?_range hb, Option.map_some, Option.some.injEq] at this
  exact absurd this (single_lt_multi hlen _).ne'

/-- So the claim fails for some history. -/
theorem not_isolated : ¬ ∀ ops, Isolated pick ops := by
  intro h
  have hv := Dependency.sample_valid false
  exact objects_interfere pick Dependency.sample Dependency.sample (some [3, 2]) (some [3, 2]) hv 0 (by decide)
    (show 2 ≤ ([3, 2] : List ℕ).getD 0 0 by decide)
    (h [.new Dependency.sample (some [3, 2]) false, .new Dependency.sample (some [3, 2]) true] 0 _ _ _ rfl .partition)

theorem askObj_tables (m : Bool) (o : Obj) (query : Query) :
    (askObj pick m o query).1.potentials = o.potentials ∧ (askObj pick m o query).1.lengths = o.lengths := by
  cases query <;> exact ⟨rfl, rfl⟩

theorem tables_kept (ops : List Op) : ∀ st : State, (run pick st ops).objs.map (fun o => (o.potentials, o.lengths)) =
    st.objs.map (fun o => (o.potentials, o.lengths)) ++ (constructions ops).map fun x => (x.1, x.2.1) := by
  induction ops with
  | nil => intro st; simp [run, constructions]
  | cons op ops ih =>
    intro st
    rw [run_cons, ih]
    cases op with
    | new q l m => simp [step, constructions]
    | ask j query =>
      simp only [step, constructions]
      cases hj : st.objs[j]? with
      | none => rfl
      | some o =>
        congr 1
        simp only [List.map_set, (askObj_tables pick (st.multiroot.getD true) o query).1, (askObj_tables pick (st.multiroot.getD true) o query).2]
        refine List.ext_getElem? fun i => ?_
        by_cases hij : j = i
        · subst hij
          have hlt : j < st.objs.length := by
            by_contra h
            rw [List.getElem?_eq_none (by omega)] at hj
            simp at hj
          rw [List.getElem?_set_self (by simpa using hlt), List.getElem?_map, hj]
          rfl
        · rw [List.getElem?_set_ne hij]

/-- What a query that is not stored reads: the flag of the last construction, whichever object it was. -/
theorem kmax_reads_last_flag (before : List Op) (q : DepTree.Arcs ℝ) (l : Option (List ℕ)) (m : Bool) (i k : ℕ) (q' : DepTree.Arcs ℝ)
    (l' : Option (List ℕ)) (m' : Bool) (hi : (constructions before)[i]? = some (q', l', m')) :
    answer pick (before ++ [.new q l m]) i (.kmax k) = some ((DepTree.kmax m q' l' k).map .slots) := by
  have hk := congrArg (fun v => v[i]?) (tables_kept pick before start)
  simp only [start, List.map_nil, List.nil_append, List.getElem?_map, hi, Option.map_some] at hk
  obtain ⟨o, ho, he⟩ := Option.map_eq_some_iff.1 hk
  simp only [Prod.mk.injEq] at he
  have hlt : i < (run pick ⟨none, []⟩ before).objs.length := by
    by_contra h
    rw [List.getElem?_eq_none (by omega)] at ho
    simp at ho
  have e : (run pick (run pick start before) [.new q l m]) = ⟨some m, (run pick ⟨none, []⟩ before).objs ++ [{ potentials := q, lengths := l }]⟩ := rfl
  rw [answer, run_append, e]
  simp only [step, List.getElem?_append_left hlt, ho, askObj, Option.getD_some, he.1, he.2]

/-- A stored result stays: once `partition` has been answered, no later construction or query changes it. -/
theorem partition_stays (before after : List Op) (i : ℕ) (v : Val) (h : answer pick before i .partition = some (.ok v)) :
    answer pick (before ++ .ask i .partition :: after) i .partition = some (.ok v) := by
  rw [answer, run_append, run_cons]
  rw [answer] at h
  generalize run pick start before = st at *
  suffices H : ∀ (ops : List Op) (st : State) (z : List ℝ), (∃ o, st.objs[i]? = some o ∧ o.partition = some z) →
      ∃ o, (run pick st ops).objs[i]? = some o ∧ o.partition = some z by
    simp only [step] at h
    cases hi : st.objs[i]? with
    | none => simp [hi] at h
    | some o =>
      have hlt : i < st.objs.length := by
        by_contra h
        rw [List.getElem?_eq_none (by omega)] at hi
        simp at hi
      simp only [hi, askObj, Option.some.injEq] at h
      cases hr : cached o.partition (DepTree.partition (st.multiroot.getD true) o.potentials o.lengths) with
      | error e => simp [hr, Except.map] at h
      | ok z =>
        simp only [hr, Except.map, Except.ok.injEq] at h
        obtain ⟨o', ho', hp⟩ := H after (step pick st (.ask i .partition)).1 z
          ⟨{ o with partition := some z }, by simp only [step, hi, askObj, hr, Except.toOption]; exact List.getElem?_set_self hlt, rfl⟩
        generalize run pick (step pick st (.ask i .partition)).1 after = st' at *
        simp only [step, ho', askObj, hp, cached, Except.map, h]
  intro ops
  induction ops with
  | nil => intro st z h; exact h
  | cons op ops ih =>
    rintro st z ⟨o, ho, hp⟩
    have hlt : i < st.objs.length := by
      by_contra h
      rw [List.getElem?_eq_none (by omega)] at ho
      simp at ho
    rw [run_cons]
    refine ih _ z ?_
    cases op with
    | new q l m => exact ⟨o, by simp only [step]; rw [List.getElem?_append_left hlt]; exact ho, hp⟩
    | ask j query =>
      simp only [step]
      cases hj : st.objs[j]? with
      | none => exact ⟨o, ho, hp⟩
      | some o' =>
        by_cases hij : j = i
        · subst hij
          obtain rfl : o' = o := by simpa [ho] using hj.symm
          refine ⟨_, List.getElem?_set_self hlt, ?_⟩
          cases query <;> simp [askObj, cached, hp, Except.toOption]
        · exact ⟨o, by rw [List.getElem?_set_ne hij]; exact ho, hp⟩

/-- A history of four constructions and queries with one flag: the hypotheses of `isolated_partial` hold. -/
example (q q' : DepTree.Arcs ℝ) : Isolated pick [.new q none false, .ask 0 .partition, .new q' none false, .ask 1 .max, .ask 0 .entropy] :=
  isolated_partial pick _ false fun x hx => by
    simp only [constructions, List.mem_cons, List.not_mem_nil, or_false] at hx
    rcases hx with rfl | rfl <;> rfl

end Props.History
