import Verif.Lemmas.Graph
import Verif.Spec.AbsGraph

/-! # The graph object refines the abstract simple graph -/

namespace GiMPy
variable {N : Type} [DecidableEq N]
set_option linter.unusedSectionVars false

/-- the object `g` represents the abstract graph `a` -/
structure Rep (g : Graph N) (a : AGraph N) : Prop where
  wf : g.Wf
  dir : g.directed = a.directed
  V : g.neighbors.keys = a.V
  E : g.edgeAttr.keys = a.E
  na : ∀ n ∈ a.V, ∀ s, (g.nodes.get? n).bind (·.get? s) = a.na n s
  ea : ∀ e ∈ a.E, ∀ s, (g.edgeAttr.get? e).bind (·.get? s) = a.ea e s

theorem rep_init (d : Bool) : Rep (Graph.init d : Graph N) (.empty d) where
  wf := Graph.wf_init d
  dir := rfl
  V := rfl
  E := rfl
  na := by simp [AGraph.empty]
  ea := by simp [AGraph.empty]

theorem get?_kw (attr : List (String × Val N)) (s : String) :
    ((Dict.empty.update attr : Attrs N)).get? s = AGraph.kw attr s := by
  rw [Dict.get?_update, AGraph.kw]
  have : ∀ l : List (String × Val N), Dict.getL l s = (l.find? fun p => p.1 = s).map Prod.snd := by
    intro l
    induction l with
    | nil => rfl
    | cons e l ih =>
      obtain ⟨a, b⟩ := e
      simp only [Dict.getL, List.find?_cons, ih]
      by_cases h : a = s <;> simp [h]
  rw [this]
  cases (List.find? (fun p => decide (p.1 = s)) attr.reverse) <;> rfl

theorem key?_isSome {g : Graph N} {a : AGraph N} (h : Rep g a) (u v : N) : (a.key? u v).isSome ↔ g.dup u v := by
  unfold AGraph.key? Graph.dup
  rw [h.E, h.dir]
  by_cases h1 : (u, v) ∈ a.E
  · simp [h1]
  · cases hd : a.directed <;> by_cases h2 : (v, u) ∈ a.E <;> simp [h1, h2]

theorem key?_some {g : Graph N} {a : AGraph N} (h : Rep g a) {u v : N} {k : N × N} (hk : a.key? u v = some k) :
    k = g.key u v ∧ g.dup u v ∧ k ∈ a.E := by
  refine ⟨?_, ?_, ?_⟩
  · unfold AGraph.key? at hk
    unfold Graph.key
    rw [h.E]
    split at hk
    · next h1 => rw [if_pos h1]; exact (Option.some.inj hk).symm
    · next h1 =>
      rw [if_neg h1]
      split at hk
      · simp at hk
      · split at hk
        · exact (Option.some.inj hk).symm
        · simp at hk
  · rw [← key?_isSome h, hk]; rfl
  · unfold AGraph.key? at hk
    split at hk
    · next h1 => obtain rfl := Option.some.inj hk; exact h1
    · split at hk
      · simp at hk
      · split at hk
        · next h1 => obtain rfl := Option.some.inj hk; exact h1
        · simp at hk

theorem rep_ensure {g : Graph N} {a : AGraph N} (h : Rep g a) (n : N) : Rep (g.ensureS n) (a.ensure n) := by
  unfold Graph.ensureS AGraph.ensure
  rw [h.V]
  split
  · exact h
  · next hn =>
    have hn' : n ∉ g.neighbors.keys := h.V ▸ hn
    refine ⟨Graph.wf_addNodeS h.wf hn' _, h.dir, ?_, h.E, ?_, h.ea⟩
    · simp only [Graph.addNodeS]; rw [Dict.keys_set_of_not_mem _ hn', h.V]
    · intro m hm s
      simp only [Graph.addNodeS, Dict.get?_set, AGraph.upd]
      by_cases hmn : n = m
      · subst hmn; simp [Dict.update]
      · simp only [hmn, if_false, Ne.symm hmn]
        simp only [List.mem_append, List.mem_singleton, Ne.symm hmn, or_false] at hm
        exact h.na m hm s

@[simp] theorem ensure_E (a : AGraph N) (n : N) : (a.ensure n).E = a.E := by
  unfold AGraph.ensure; split <;> rfl
@[simp] theorem ensure_ea (a : AGraph N) (n : N) : (a.ensure n).ea = a.ea := by
  unfold AGraph.ensure; split <;> rfl
@[simp] theorem ensure_directed (a : AGraph N) (n : N) : (a.ensure n).directed = a.directed := by
  unfold AGraph.ensure; split <;> rfl

/-- Every call does what the abstract graph does, and the representation is kept. -/
theorem rep_step {g : Graph N} {a : AGraph N} (h : Rep g a) (op : Op N) (hs : op.InScope a.directed) :
    EStateM.Result.err (op.call.run g) = (a.step op).1 ∧
      Rep (EStateM.Result.state (op.call.run g)) (a.step op).2 := by
  cases op with
  | addNode n attr =>
    simp only [Op.call, AGraph.step]
    rw [Graph.addNode_run]
    by_cases hn : n ∈ a.V
    · rw [if_pos ((Dict.contains_iff _ _).2 (h.V ▸ hn)), if_pos hn]
      exact ⟨rfl, h⟩
    · have hn' : n ∉ g.neighbors.keys := h.V ▸ hn
      rw [if_neg (mt (Dict.contains_iff _ _).1 hn'), if_neg hn]
      refine ⟨rfl, Graph.wf_addNodeS h.wf hn' _, h.dir, ?_, h.E, ?_, h.ea⟩
      · simp only [EStateM.Result.state, Graph.addNodeS]; rw [Dict.keys_set_of_not_mem _ hn', h.V]
      · intro m hm s
        simp only [EStateM.Result.state, Graph.addNodeS, Dict.get?_set, AGraph.upd]
        by_cases hmn : n = m
        · subst hmn; simp [get?_kw]
        · simp only [hmn, if_false, Ne.symm hmn]
          simp only [List.mem_append, List.mem_singleton, Ne.symm hmn, or_false] at hm
          exact h.na m hm s
  | addEdge u v attr =>
    simp only [Op.call, AGraph.step]
    rw [Graph.addEdge_run h.wf]
    by_cases hd : g.dup u v
    · rw [if_pos hd, if_pos ((key?_isSome h u v).2 hd)]
      exact ⟨rfl, h⟩
    · rw [if_neg hd, if_neg (mt (key?_isSome h u v).1 hd)]
      have hr := rep_ensure (rep_ensure h u) v
      have hnew : (u, v) ∉ g.edgeAttr.keys := fun hh => hd (Or.inl hh)
      have hu : u ∈ ((g.ensureS u).ensureS v).neighbors.keys := by simp [Graph.mem_ensureS_keys]
      have hv : v ∈ ((g.ensureS u).ensureS v).neighbors.keys := by simp [Graph.mem_ensureS_keys]
      have hkeys : (g.addEdgeS u v attr).neighbors.keys = ((g.ensureS u).ensureS v).neighbors.keys := by
        unfold Graph.addEdgeS
        simp only []
        split
        · change (Graph.appS _ u v).neighbors.keys = _
          rw [Graph.keys_appS (by exact hu)]
        · rw [Graph.keys_appS, Graph.keys_appS (by exact hu)]
          rw [Graph.keys_appS (by exact hu)]; exact hv
      have hedge : (g.addEdgeS u v attr).edgeAttr = g.edgeAttr.set (u, v) (Dict.empty.update attr) := by
        unfold Graph.addEdgeS; simp only []; split <;> rfl
      have hnodes : (g.addEdgeS u v attr).nodes = ((g.ensureS u).ensureS v).nodes := by
        unfold Graph.addEdgeS; simp only []; split <;> rfl
      have hdir : (g.addEdgeS u v attr).directed = g.directed := by
        unfold Graph.addEdgeS; simp only []
        split
        · change ((g.ensureS u).ensureS v).directed = _; simp
        · change ((g.ensureS u).ensureS v).directed = _; simp
      refine ⟨rfl, Graph.wf_addEdgeS h.wf hd _, ?_, ?_, ?_, ?_, ?_⟩
      · simp only [EStateM.Result.state, hdir, ensure_directed]; exact h.dir
      · simp only [EStateM.Result.state, hkeys]; exact hr.V
      · simp only [EStateM.Result.state, hedge]; rw [Dict.keys_set_of_not_mem _ hnew, h.E]
      · intro n hn s
        simp only [EStateM.Result.state, hnodes]; exact hr.na n hn s
      · intro e he s
        simp only [EStateM.Result.state, hedge, Dict.get?_set, AGraph.upd]
        by_cases hk : (u, v) = e
        · subst hk; simp [get?_kw]
        · simp only [hk, if_false, Ne.symm hk]
          simp only [List.mem_append, List.mem_singleton, Ne.symm hk, or_false] at he
          exact h.ea e he s
  | delEdge u v =>
    simp only [Op.call, AGraph.step]
    rw [Graph.delEdge_run h.wf]
    cases hk : a.key? u v with
    | none =>
      have : ¬ g.dup u v := by rw [← key?_isSome h, hk]; simp
      rw [if_neg this]
      exact ⟨rfl, h⟩
    | some k =>
      obtain ⟨hk1, hd, hkE⟩ := key?_some h hk
      rw [if_pos hd]
      have hp := Graph.outc_pos_dup h.wf hd
      have hkeys : (g.delEdgeS u v (g.key u v)).neighbors.keys = g.neighbors.keys := by
        unfold Graph.delEdgeS
        simp only []
        rcases Bool.eq_false_or_eq_true g.directed with hdd | hdd
        · simp only [hdd, if_true]
          change (Graph.remS _ u v).neighbors.keys = _
          rw [Graph.keys_remS (by exact hp)]
        · rw [if_neg (by simp [hdd])]
          rw [Graph.keys_remS (Graph.second_pos h.wf hdd hd _), Graph.keys_remS (by exact hp)]
      have hedge : (g.delEdgeS u v (g.key u v)).edgeAttr = g.edgeAttr.erase (g.key u v) := by
        unfold Graph.delEdgeS; simp only []; split <;> rfl
      have hnodes : (g.delEdgeS u v (g.key u v)).nodes = g.nodes := by
        unfold Graph.delEdgeS; simp only []; split <;> rfl
      have hdir : (g.delEdgeS u v (g.key u v)).directed = g.directed := by
        unfold Graph.delEdgeS; simp only []; split <;> rfl
      refine ⟨rfl, Graph.wf_delEdgeS h.wf hd, ?_, ?_, ?_, ?_, ?_⟩
      · simp only [EStateM.Result.state, hdir]; exact h.dir
      · simp only [EStateM.Result.state, hkeys]; exact h.V
      · simp only [EStateM.Result.state, hedge]
        rw [← hk1, Dict.keys_erase, h.E]
      · intro n hn s
        simp only [EStateM.Result.state, hnodes]; exact h.na n hn s
      · intro e he s
        simp only [List.mem_filter, decide_eq_true_eq] at he
        simp only [EStateM.Result.state, hedge]
        rw [← hk1, Dict.get?_erase, if_neg (Ne.symm he.2)]
        exact h.ea e he.1 s
  | delNode n =>
    have hd : g.directed = true := h.dir.trans hs
    simp only [Op.call, AGraph.step]
    by_cases hn : n ∈ a.V
    · obtain ⟨g', hrun, c1, c2, c3, c4, c5, c6, c7⟩ := Graph.delNode_run_dir h.wf hd (h.V ▸ hn : n ∈ g.neighbors.keys)
      rw [hrun, if_pos hn]
      refine ⟨rfl, Graph.wf_delNode_dir h.wf hd c1 c2 c3 c4 c5 c6 c7, ?_, ?_, ?_, ?_, ?_⟩
      · simp only [EStateM.Result.state, c1]; exact hs.symm
      · simp only [EStateM.Result.state, c4, h.V]
      · simp only [EStateM.Result.state, c3, Graph.keys_dropE, h.E]
        apply List.filter_congr
        intro e _
        by_cases h1 : e.1 = n <;> by_cases h2 : e.2 = n <;> simp [h1, h2]
      · intro m hm s
        simp only [List.mem_filter, decide_eq_true_eq] at hm
        simp only [EStateM.Result.state, c2]
        rw [Dict.get?_erase, if_neg (Ne.symm hm.2)]
        exact h.na m hm.1 s
      · intro e he s
        simp only [List.mem_filter, decide_eq_true_eq] at he
        simp only [EStateM.Result.state, c3]
        rw [← h.ea e he.1 s]
        congr 1
        -- filtering other keys does not change this entry
        have : ∀ es : List ((N × N) × Attrs N),
            Dict.getL (es.filter fun x => !decide (x.1.1 = n ∨ x.1.2 = n)) e = Dict.getL es e := by
          intro es
          induction es with
          | nil => rfl
          | cons x es ih =>
            obtain ⟨k, at'⟩ := x
            rw [List.filter_cons, Dict.getL]
            by_cases hk : k = e
            · subst hk
              have : (!decide (k.1 = n ∨ k.2 = n)) = true := by simpa using he.2
              rw [if_pos this, Dict.getL]
              simp only [if_true]
            · rw [if_neg hk]
              split
              · rw [Dict.getL, if_neg hk, ih]
              · exact ih
        exact this _
    · rw [Graph.delNode_run_missing g (h.V ▸ hn), if_neg hn]
      exact ⟨rfl, h⟩
  | setNodeAttr n s x =>
    simp only [Op.call, AGraph.step]
    rw [Graph.setNodeAttr_run]
    have hmem : n ∈ g.nodes.keys ↔ n ∈ a.V := by rw [h.wf.nodesEq, h.V]
    cases hg : g.nodes.get? n with
    | none =>
      rw [if_neg (by rw [← hmem, ← Dict.get?_eq_none_iff]; exact hg)]
      exact ⟨rfl, h⟩
    | some d =>
      have hn := Dict.mem_keys_of_get? hg
      rw [if_pos (hmem.1 hn)]
      refine ⟨rfl, Graph.wf_nodes h.wf hn, h.dir, h.V, h.E, ?_, h.ea⟩
      intro m hm t
      have h1 := h.na m hm t
      simp only [EStateM.Result.state, Dict.get?_set, AGraph.upd]
      by_cases hmn : n = m
      · subst hmn
        rw [hg] at h1
        simp only [if_true, Option.bind_some, Dict.get?_set] at h1 ⊢
        by_cases hst : s = t
        · simp [hst, AGraph.upd]
        · simp only [hst, if_false]; rw [AGraph.upd, if_neg (Ne.symm hst)]; exact h1
      · simp only [hmn, if_false, Ne.symm hmn]; exact h1
  | setEdgeAttr u v s x =>
    simp only [Op.call, AGraph.step]
    rw [Graph.setEdgeAttr_run]
    have key : ∀ (k : N × N) (d : Attrs N), g.edgeAttr.get? k = some d →
        Rep { g with edgeAttr := g.edgeAttr.set k (d.set s x) } { a with ea := AGraph.upd a.ea k (AGraph.upd (a.ea k) s (some x)) } := by
      intro k d hg
      have hk := Dict.mem_keys_of_get? hg
      refine ⟨Graph.wf_edgeAttr h.wf hk, h.dir, h.V, ?_, h.na, ?_⟩
      · simp only []; rw [Dict.keys_set_of_mem _ hk, h.E]
      · intro e he t
        have h1 := h.ea e he t
        simp only [Dict.get?_set, AGraph.upd]
        by_cases hke : k = e
        · subst hke
          rw [hg] at h1
          simp only [if_true, Option.bind_some, Dict.get?_set] at h1 ⊢
          by_cases hst : s = t
          · simp [hst, AGraph.upd]
          · simp only [hst, if_false]; rw [AGraph.upd, if_neg (Ne.symm hst)]; exact h1
        · simp only [hke, if_false, Ne.symm hke]; exact h1
    have mem : ∀ k : N × N, k ∈ a.E ↔ ∃ d, g.edgeAttr.get? k = some d := by
      intro k; rw [← h.E, Dict.mem_keys']
    cases h1 : g.edgeAttr.get? (u, v) with
    | some d =>
      have : a.key? u v = some (u, v) := by unfold AGraph.key?; rw [if_pos ((mem _).2 ⟨d, h1⟩)]
      rw [this]
      exact ⟨rfl, key _ _ h1⟩
    | none =>
      have hn1 : (u, v) ∉ a.E := by rw [mem, h1]; simp
      by_cases hd : a.directed = true
      · have : a.key? u v = none := by unfold AGraph.key?; rw [if_neg hn1, if_pos hd]
        rw [this]
        simp only []
        rw [if_pos (h.dir.trans hd)]
        exact ⟨rfl, h⟩
      · simp only []
        rw [if_neg (by rw [h.dir]; exact hd)]
        cases h2 : g.edgeAttr.get? (v, u) with
        | some d =>
          have : a.key? u v = some (v, u) := by
            unfold AGraph.key?; rw [if_neg hn1, if_neg hd, if_pos ((mem _).2 ⟨d, h2⟩)]
          rw [this]
          exact ⟨rfl, key _ _ h2⟩
        | none =>
          have : a.key? u v = none := by
            unfold AGraph.key?; rw [if_neg hn1, if_neg hd, if_neg (by rw [mem, h2]; simp)]
          rw [this]
          exact ⟨rfl, h⟩

theorem step_directed (a : AGraph N) (op : Op N) : (a.step op).2.directed = a.directed := by
  cases op <;> simp only [AGraph.step]
  case addNode => split <;> rfl
  case addEdge => split <;> simp
  case delEdge => split <;> rfl
  case delNode => split <;> rfl
  case setNodeAttr => split <;> rfl
  case setEdgeAttr => split <;> rfl

theorem rep_run {g : Graph N} {a : AGraph N} (h : Rep g a) (ops : List (Op N)) (hs : ∀ op ∈ ops, op.InScope a.directed) :
    outcomes g ops = (a.run ops).1 ∧ Rep (runOps g ops) (a.run ops).2 := by
  induction ops generalizing g a with
  | nil => exact ⟨rfl, h⟩
  | cons op ops ih =>
    obtain ⟨h1, h2⟩ := rep_step h op (hs op (by simp))
    have := ih h2 (fun o ho => by rw [step_directed]; exact hs o (by simp [ho]))
    refine ⟨?_, ?_⟩
    · simp only [outcomes, AGraph.run, h1, this.1]
    · simp only [runOps, AGraph.run]; exact this.2

/-- every reachable object represents some abstract graph -/
theorem rep_reachable (d : Bool) (ops : List (Op N)) (hs : ∀ op ∈ ops, op.InScope d) :
    Rep (runOps (Graph.init d : Graph N) ops) ((AGraph.empty d).run ops).2 :=
  (rep_run (rep_init d) ops hs).2

theorem rep_of_wf {g : Graph N} (h : g.Wf) : Rep g
    ⟨g.directed, g.neighbors.keys, g.edgeAttr.keys, fun n s => (g.nodes.get? n).bind (·.get? s),
      fun e s => (g.edgeAttr.get? e).bind (·.get? s)⟩ :=
  ⟨h, rfl, rfl, rfl, fun _ _ _ => rfl, fun _ _ _ => rfl⟩

theorem wf_reachable (d : Bool) (ops : List (Op N)) (hs : ∀ op ∈ ops, op.InScope d) :
    (runOps (Graph.init d : Graph N) ops).Wf := (rep_reachable d ops hs).wf

end GiMPy
