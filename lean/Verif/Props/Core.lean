import Verif.Lemmas.Refine

/-! # C01-C07: the graph data type -/

namespace GiMPy
variable {N : Type} [DecidableEq N]

/-- The public views of a digraph object agree with one another (specification of C01). -/
structure DigraphViews (g : Graph N) : Prop where
  nodes_nodup : g.getNodeList.Nodup
  edges_nodup : g.getEdgeList.Nodup
  contains_iff : ∀ n, g.hasNode n = true ↔ n ∈ g.getNodeList
  check_iff : ∀ u v, g.checkEdge u v = true ↔ (u, v) ∈ g.getEdgeList
  endpoints : ∀ u v, g.checkEdge u v = true → u ∈ g.getNodeList ∧ v ∈ g.getNodeList
  out_views : ∀ u ∈ g.getNodeList, ∃ l, g.getNeighbors u = .ok l ∧ l.Nodup ∧ ∀ v, v ∈ l ↔ g.checkEdge u v = true
  in_views : ∀ v ∈ g.getNodeList, ∃ l, g.getInNeighbors v = .ok l ∧ l.Nodup ∧ ∀ u, u ∈ l ↔ g.checkEdge u v = true
  no_ghost : ∀ u, u ∉ g.getNodeList → g.getNeighbors u = .error .keyError ∧ g.getInNeighbors u = .error .keyError

/-- The public views of an undirected object agree with one another (specification of C02). -/
structure UndirectedViews (g : Graph N) : Prop where
  nodes_nodup : g.getNodeList.Nodup
  edges_nodup : g.getEdgeList.Nodup
  contains_iff : ∀ n, g.hasNode n = true ↔ n ∈ g.getNodeList
  check_iff : ∀ u v, g.checkEdge u v = true ↔ (u, v) ∈ g.getEdgeList ∨ (v, u) ∈ g.getEdgeList
  one_orientation : ∀ u v, (u, v) ∈ g.getEdgeList → (v, u) ∈ g.getEdgeList → u = v
  endpoints : ∀ u v, g.checkEdge u v = true → u ∈ g.getNodeList ∧ v ∈ g.getNodeList
  nbr_views : ∀ u ∈ g.getNodeList, ∃ l, g.getNeighbors u = .ok l ∧
    ∀ v, l.count v = if g.checkEdge u v = true then (if u = v then 2 else 1) else 0
  symmetric : ∀ u v l l', g.getNeighbors u = .ok l → g.getNeighbors v = .ok l' → (v ∈ l ↔ u ∈ l')
  no_ghost : ∀ u, u ∉ g.getNodeList → g.getNeighbors u = .error .keyError

theorem digraphViews_of_wf {g : Graph N} (h : g.Wf) (hd : g.directed = true) : DigraphViews g := by
  have hcheck : ∀ u v, g.checkEdge u v = true ↔ (u, v) ∈ g.edgeAttr.keys := by
    intro u v; simp [Graph.checkEdge, hd, Dict.contains_iff]
  have ind_le : ∀ a b, g.ind a b ≤ 1 := by intro a b; unfold Graph.ind; split <;> omega
  have ind_iff : ∀ a b, 0 < g.ind a b ↔ g.checkEdge a b = true := by
    intro a b; rw [hcheck]; unfold Graph.ind; split <;> simp [*]
  refine ⟨h.nodup, h.edup, ?_, hcheck, ?_, ?_, ?_, ?_⟩
  · intro n; unfold Graph.hasNode; rw [Dict.contains_iff, h.nodesEq]; rfl
  · intro u v huv; exact h.endp u v ((hcheck u v).1 huv)
  · intro u hu
    obtain ⟨l, hl⟩ := (Dict.mem_keys' _ _).1 hu
    have hc : ∀ v, l.count v = g.ind u v := by
      intro v; have := h.out u v; simpa [Graph.outc, hl, hd] using this
    refine ⟨l, by simp [Graph.getNeighbors, hl], List.nodup_iff_count_le_one.2 fun v => hc v ▸ ind_le _ _, ?_⟩
    intro v; rw [← List.count_pos_iff, hc, ind_iff]
  · intro u hu
    obtain ⟨l, hl⟩ := (Dict.mem_keys' _ _).1 ((h.inEq hd).symm ▸ hu : u ∈ g.inNeighbors.keys)
    have hc : ∀ v, l.count v = g.ind v u := by
      intro v; have := h.inn hd u v; simpa [Graph.innc, hl] using this
    refine ⟨l, by simp [Graph.getInNeighbors, hl, hd], List.nodup_iff_count_le_one.2 fun v => hc v ▸ ind_le _ _, ?_⟩
    intro v; rw [← List.count_pos_iff, hc, ind_iff]
  · intro u hu
    have h1 : g.neighbors.get? u = none := (Dict.get?_eq_none_iff _ _).2 hu
    have h2 : g.inNeighbors.get? u = none := (Dict.get?_eq_none_iff _ _).2 (by rw [h.inEq hd]; exact hu)
    simp [Graph.getNeighbors, Graph.getInNeighbors, h1, h2, hd]

theorem undirectedViews_of_wf {g : Graph N} (h : g.Wf) (hd : g.directed = false) : UndirectedViews g := by
  have hcheck : ∀ u v, g.checkEdge u v = true ↔ (u, v) ∈ g.edgeAttr.keys ∨ (v, u) ∈ g.edgeAttr.keys := by
    intro u v; simp [Graph.checkEdge, hd, Dict.contains_iff]
  have hcount : ∀ u l, g.neighbors.get? u = some l →
      ∀ v, l.count v = if g.checkEdge u v = true then (if u = v then 2 else 1) else 0 := by
    intro u l hl v
    have h1 := h.out u v
    simp only [Graph.outc, hl, hd, Option.getD_some, Bool.false_eq_true, if_false] at h1
    rw [h1]; unfold Graph.ind
    by_cases huv : u = v
    · subst huv
      by_cases hc : (u, u) ∈ g.edgeAttr.keys <;> simp [hcheck, hc]
    · by_cases h2 : (u, v) ∈ g.edgeAttr.keys <;> by_cases h3 : (v, u) ∈ g.edgeAttr.keys <;>
        simp [hcheck, h2, h3, huv]
      exact huv (h.simple hd u v h2 h3)
  refine ⟨h.nodup, h.edup, ?_, hcheck, h.simple hd, ?_, ?_, ?_, ?_⟩
  · intro n; unfold Graph.hasNode; rw [Dict.contains_iff, h.nodesEq]; rfl
  · intro u v huv
    rcases (hcheck u v).1 huv with h1 | h1
    · exact h.endp u v h1
    · exact (h.endp v u h1).symm
  · intro u hu
    obtain ⟨l, hl⟩ := (Dict.mem_keys' _ _).1 hu
    exact ⟨l, by simp [Graph.getNeighbors, hl], hcount u l hl⟩
  · intro u v l l' h1 h2
    have g1 : g.neighbors.get? u = some l := by
      unfold Graph.getNeighbors at h1; split at h1 <;> simp_all
    have g2 : g.neighbors.get? v = some l' := by
      unfold Graph.getNeighbors at h2; split at h2 <;> simp_all
    have hs : g.checkEdge u v = true ↔ g.checkEdge v u = true := by rw [hcheck, hcheck, or_comm]
    rw [← List.count_pos_iff, ← List.count_pos_iff, hcount u l g1, hcount v l' g2]
    by_cases hc : g.checkEdge u v = true
    · rw [if_pos hc, if_pos (hs.1 hc)]; split <;> split <;> simp
    · rw [if_neg hc, if_neg (mt hs.2 hc)]
  · intro u hu
    have h1 : g.neighbors.get? u = none := (Dict.get?_eq_none_iff _ _).2 hu
    simp [Graph.getNeighbors, h1]

theorem runOps_directed (d : Bool) (ops : List (Op N)) (hs : ∀ op ∈ ops, op.InScope d) :
    (runOps (Graph.init d : Graph N) ops).directed = d := by
  have h := rep_reachable d ops hs
  rw [h.dir]
  have : ∀ (a : AGraph N) (ops : List (Op N)), (a.run ops).2.directed = a.directed := by
    intro a ops
    induction ops generalizing a with
    | nil => rfl
    | cons op ops ih => simp only [AGraph.run]; rw [ih, step_directed]
  exact this _ _

/-- **C01.** After every history of edit calls on a digraph (raising calls included) all views agree. -/
theorem C01_digraph_views (ops : List (Op N)) : DigraphViews (runOps (Graph.init true) ops) := by
  have hs : ∀ op ∈ ops, op.InScope true := by intro op _; cases op <;> simp [Op.InScope]
  exact digraphViews_of_wf (wf_reachable true ops hs) (runOps_directed true ops hs)

/-- non-vacuity of C01: a history with raising calls, a self loop and a deletion leaves a non-trivial graph -/
example : (runOps (Graph.init true) [Op.addEdge 1 2 [], .addEdge 1 2 [], .addEdge 2 2 [], .addEdge 2 3 [],
    .delNode 9, .delNode 3, .delEdge 5 6]).getEdgeList = [((1 : Nat), 2), (2, 2)] := by decide

/-- **C02.** After every history of edit calls other than `del_node` on an undirected graph all views agree. -/
theorem C02_undirected_views (ops : List (Op N)) (hno : ∀ n, Op.delNode n ∉ ops) :
    UndirectedViews (runOps (Graph.init false) ops) := by
  have hs : ∀ op ∈ ops, op.InScope false := by
    intro op hop; cases op <;> simp [Op.InScope]
    exact hno _ hop
  exact undirectedViews_of_wf (wf_reachable false ops hs) (runOps_directed false ops hs)

/-- non-vacuity of C02: a history whose edge is deleted in the other orientation -/
example : (runOps (Graph.init false) [Op.addEdge 1 2 [], .addEdge 2 1 [], .addEdge 2 2 [], .addEdge 2 3 [],
    .delEdge 3 2]).getEdgeList = [((1 : Nat), 2), (2, 2)] := by decide

/-- **C03.** Every history has exactly the outcomes of the abstract simple graph and ends in its node and edge
lists (in insertion order). -/
theorem C03_refines_simple_graph (d : Bool) (ops : List (Op N)) (hs : ∀ op ∈ ops, op.InScope d) :
    outcomes (Graph.init d) ops = ((AGraph.empty d).run ops).1 ∧
    (runOps (Graph.init d) ops).getNodeList = ((AGraph.empty d).run ops).2.V ∧
    (runOps (Graph.init d) ops).getEdgeList = ((AGraph.empty d).run ops).2.E :=
  have h := rep_run (rep_init d) ops hs
  ⟨h.1, h.2.V, h.2.E⟩

/-- non-vacuity of C03: outcomes include exceptions -/
example : outcomes (Graph.init true) [Op.addEdge 1 2 [], .addEdge 1 2 [], .addEdge 2 1 [], .addNode 2 [],
      .delNode (3 : Nat), .delEdge 1 3, .setEdgeAttr 3 1 "cost" (.int 4)] =
    [none, some .multipleEdge, none, some .multipleNode, some .exception, some .exception, some .keyError] := by
  decide

/-- **C04.** On any reachable graph a call that raises leaves the object exactly as it was.
(On an undirected graph `del_node` is excluded: see C05.) -/
theorem C04_raising_call_changes_nothing (d : Bool) (ops : List (Op N)) (hs : ∀ op ∈ ops, op.InScope d)
    (op : Op N) (hop : op.InScope d) (e : PyErr) (g' : Graph N)
    (hraise : op.call.run (runOps (Graph.init d) ops) = .error e g') : g' = runOps (Graph.init d) ops := by
  have h := wf_reachable (N := N) d ops hs
  have hdir := runOps_directed (N := N) d ops hs
  generalize runOps (Graph.init d) ops = g at *
  cases op with
  | addNode n attr =>
    rw [Op.call, Graph.addNode_run] at hraise
    split at hraise <;> simp at hraise
    exact hraise.2.symm
  | addEdge u v attr =>
    rw [Op.call, Graph.addEdge_run h] at hraise
    split at hraise <;> simp at hraise
    exact hraise.2.symm
  | delEdge u v =>
    rw [Op.call, Graph.delEdge_run h] at hraise
    split at hraise <;> simp at hraise
    exact hraise.2.symm
  | delNode n =>
    have hd : g.directed = true := hdir.trans hop
    by_cases hn : n ∈ g.neighbors.keys
    · obtain ⟨g'', hrun, -⟩ := Graph.delNode_run_dir h hd hn
      rw [Op.call, hrun] at hraise; simp at hraise
    · rw [Op.call, Graph.delNode_run_missing g hn] at hraise
      simp at hraise; exact hraise.2.symm
  | setNodeAttr n s x =>
    rw [Op.call, Graph.setNodeAttr_run] at hraise
    split at hraise <;> simp at hraise
    exact hraise.2.symm
  | setEdgeAttr u v s x =>
    rw [Op.call, Graph.setEdgeAttr_run] at hraise
    split at hraise
    · simp at hraise
    · split at hraise
      · simp at hraise; exact hraise.2.symm
      · split at hraise <;> simp at hraise
        exact hraise.2.symm

/-- non-vacuity of C04: a raising call on a non-empty reachable graph -/
example : EStateM.Result.err ((Op.addEdge 2 1 []).call.run (runOps (Graph.init false) [Op.addEdge (1 : Nat) 2 []]))
    = some .multipleEdge := by decide

/-- **C05 is false of the code.** On every undirected graph, whatever its history (even including earlier failed
`del_node` calls), `del_node` of any node raises. -/
theorem C05_false_always_raises (g : Graph N) (hd : g.directed = false) (n : N) :
    ∃ e g', (Graph.delNode n).run g = .error e g' := Graph.delNode_undirected_raises g hd n

/-- **C05 is false of the code.** The failed call also leaves an inconsistent object: after
`add_node(1); del_node(1)` the node is still `in` the graph but no longer in `get_node_list()`. -/
theorem C05_false_corrupts :
    ∃ g, g = runOps (Graph.init false) [Op.addNode (1 : Nat) [], .delNode 1] ∧
      g.hasNode 1 = true ∧ 1 ∉ g.getNodeList := ⟨_, rfl, by decide, by decide⟩

/-- **C05, the part that holds.** Full claim: on an undirected graph `del_node(n)` returns normally and leaves the
consistent graph without `n`.  What holds: if every edge of `n` was added as `add_edge(n, _)` and `n` has no self
loop, the call still raises (AttributeError), but `get_node_list`, `get_edge_list` and the adjacency of every other
node afterwards are those of the graph without `n`.  Missing: normal return, the entry of `n` in `nodes`, and all
graphs with an edge stored in the other orientation. -/
theorem C05_lists_after_failure_partial (ops : List (Op N)) (hno : ∀ n, Op.delNode n ∉ ops) (n : N)
    (hn : n ∈ (runOps (Graph.init false) ops).getNodeList)
    (hor : ∀ m, (m, n) ∉ (runOps (Graph.init false) ops).getEdgeList) :
    ∃ g', (Graph.delNode n).run (runOps (Graph.init false) ops) = .error .attributeError g' ∧
      g'.getNodeList = (runOps (Graph.init false) ops).getNodeList.filter (· ≠ n) ∧
      g'.getEdgeList = (runOps (Graph.init false) ops).getEdgeList.filter (fun e => e.1 ≠ n ∧ e.2 ≠ n) ∧
      (∀ m, m ≠ n → g'.getNeighbors m = ((runOps (Graph.init false) ops).getNeighbors m).map (·.erase n)) := by
  have hs : ∀ op ∈ ops, op.InScope false := by
    intro op hop; cases op <;> simp [Op.InScope]
    exact hno _ hop
  have h := wf_reachable (N := N) false ops hs
  have hd := runOps_directed (N := N) false ops hs
  generalize runOps (Graph.init false) ops = g at *
  obtain ⟨l, hl⟩ := (Dict.mem_keys' _ _).1 hn
  have v := undirectedViews_of_wf h hd
  have hcount : ∀ m, l.count m = if (n, m) ∈ g.edgeAttr.keys then 1 else 0 := by
    intro m
    have h1 := h.out n m
    simp only [Graph.outc, hl, hd, Option.getD_some, Bool.false_eq_true, if_false] at h1
    rw [h1]; unfold Graph.ind
    rw [if_neg (show (m, n) ∉ g.edgeAttr.keys from hor m)]; rfl
  have hnd : l.Nodup := List.nodup_iff_count_le_one.2 fun a => by rw [hcount]; split <;> omega
  have hmem : ∀ m, m ∈ l ↔ (n, m) ∈ g.edgeAttr.keys := by
    intro m; rw [← List.count_pos_iff, hcount]; split <;> simp [*]
  have hsub : ∀ m ∈ l, m ∈ g.neighbors.keys := fun m hm => (h.endp _ _ ((hmem m).1 hm)).2
  have hrun := Graph.delOut_run_und n l hnd g hd (fun m hm => (hmem m).1 hm) (fun m hm =>
    Graph.outc_pos_dup h (Or.inr ⟨hd, (hmem m).1 hm⟩))
  refine ⟨{ g with
      edgeAttr := Graph.dropE g.edgeAttr fun e => decide (e.1 = n ∧ e.2 ∈ l)
      neighbors := (Graph.remFold n l g.neighbors).erase n }, ?_, ?_, ?_, ?_⟩
  · unfold Graph.delNode
    simp only [gm_bind, gm_get, hl]
    rw [hrun]
    simp only [Graph.delInAll, Graph.delEntries, gm_bind, gm_get, gm_modify, gm_ite, hd, gm_pure]
    simp
  · change ((Graph.remFold n l g.neighbors).erase n).keys = _
    rw [Dict.keys_erase, Graph.keys_remFold n l _ hsub]; rfl
  · change (Graph.dropE g.edgeAttr fun e => decide (e.1 = n ∧ e.2 ∈ l)).keys = _
    rw [Graph.keys_dropE]
    apply List.filter_congr
    rintro ⟨a, b⟩ he
    have h2 : b ≠ n := by rintro rfl; exact hor a he
    by_cases h1 : a = n
    · subst h1; simp [(hmem b).2 he]
    · simp [h1, h2]
  · intro m hm
    simp only [Graph.getNeighbors]
    rw [Dict.get?_erase, if_neg (Ne.symm hm), Graph.get?_remFold n l _ hsub hnd]
    cases hx : g.neighbors.get? m with
    | none => by_cases hh : m ∈ l <;> simp [hh, Except.map]
    | some k =>
      by_cases hh : m ∈ l
      · simp [hh, Except.map]
      · have : n ∉ k := by
          rw [← List.count_pos_iff]
          have h1 := h.out m n
          simp only [Graph.outc, hx, hd, Option.getD_some, Bool.false_eq_true, if_false] at h1
          rw [h1]; unfold Graph.ind
          rw [if_neg (show (m, n) ∉ g.edgeAttr.keys from hor m), if_neg (mt (hmem m).2 hh)]; simp
        simp [hh, Except.map, List.erase_of_not_mem this]

/-- non-vacuity of the partial C05 -/
example : (1 : Nat) ∈ (runOps (Graph.init false) [Op.addEdge 1 2 [], .addEdge 1 3 [], .addEdge 2 3 []]).getNodeList ∧
    (runOps (Graph.init false) [Op.addEdge 1 2 [], .addEdge 1 3 [], .addEdge 2 3 []]).getEdgeList =
      [(1, 2), (1, 3), (2, 3)] := by decide

/-- **C06.** `del_node(n)` on a reachable digraph that has `n` succeeds; afterwards the nodes are the others in the
same order, the edges are those not touching `n` in the same order, and every attribute of a remaining node or edge
reads as before. -/
theorem C06_del_node_exact (ops : List (Op N)) (n : N)
    (hn : n ∈ (runOps (Graph.init true) ops).getNodeList) :
    ∃ g', (Graph.delNode n).run (runOps (Graph.init true) ops) = .ok () g' ∧
      g'.getNodeList = (runOps (Graph.init true) ops).getNodeList.filter (· ≠ n) ∧
      g'.getEdgeList = (runOps (Graph.init true) ops).getEdgeList.filter (fun e => e.1 ≠ n ∧ e.2 ≠ n) ∧
      (∀ m a, m ≠ n → g'.getNodeAttr m a = (runOps (Graph.init true) ops).getNodeAttr m a) ∧
      (∀ u v a, u ≠ n → v ≠ n → g'.getEdgeAttr u v a = (runOps (Graph.init true) ops).getEdgeAttr u v a) := by
  have hs : ∀ op ∈ ops, op.InScope true := by intro op _; cases op <;> simp [Op.InScope]
  have h := wf_reachable (N := N) true ops hs
  have hd := runOps_directed (N := N) true ops hs
  generalize runOps (Graph.init true) ops = g at *
  obtain ⟨g', hrun, c1, c2, c3, c4, c5, c6, c7⟩ := Graph.delNode_run_dir h hd hn
  have hrep := (rep_step (rep_of_wf h) (.delNode n) (by exact hd)).2
  refine ⟨g', hrun, ?_, ?_, ?_, ?_⟩
  · simp only [Graph.getNodeList, c4]
  · simp only [Graph.getEdgeList, c3, Graph.keys_dropE]
    apply List.filter_congr
    intro e _
    by_cases h1 : e.1 = n <;> by_cases h2 : e.2 = n <;> simp [h1, h2]
  · intro m a hm
    simp only [Graph.getNodeAttr, c2]
    rw [Dict.get?_erase, if_neg (Ne.symm hm)]
  · intro u v a hu hv
    have hget : g'.edgeAttr.get? (u, v) = g.edgeAttr.get? (u, v) := by
      rw [c3]
      cases hx : g.edgeAttr.get? (u, v) with
      | none =>
        rw [Dict.get?_eq_none_iff, Graph.mem_keys_dropE]
        exact fun hh => (Dict.get?_eq_none_iff _ _).1 hx hh.1
      | some d =>
        have hk : (Graph.dropE g.edgeAttr fun e => decide (e.1 = n ∨ e.2 = n)).keys.Nodup := by
          rw [Graph.keys_dropE]; exact h.edup.filter _
        rw [Dict.entries_eq_of_get? _ hk]
        rw [Dict.entries_eq_of_get? _ h.edup] at hx
        exact List.mem_filter.2 ⟨hx, by simp [hu, hv]⟩
    simp only [Graph.getEdgeAttr, hget, hd, c1]
    cases (g.edgeAttr.get? (u, v)).bind (·.get? a) <;> rfl

/-- non-vacuity of C06: the node is present, has a self loop, an incoming and an outgoing edge -/
example : (2 : Nat) ∈ (runOps (Graph.init true) [Op.addEdge 1 2 [], .addEdge 2 2 [], .addEdge 2 3 [],
    .addEdge 1 3 []]).getNodeList := by decide

/-- **C07.** After every history every attribute read (of any node, and of any edge in either orientation) returns
exactly what the abstract graph records: the value last written by a keyword or setter. -/
theorem C07_reads_return_last_write (d : Bool) (ops : List (Op N)) (hs : ∀ op ∈ ops, op.InScope d) :
    (∀ n a, (runOps (Graph.init d) ops).getNodeAttr n a = ((AGraph.empty d).run ops).2.getNodeAttr n a) ∧
    (∀ u v a, (runOps (Graph.init d) ops).getEdgeAttr u v a = ((AGraph.empty d).run ops).2.getEdgeAttr u v a) := by
  have h := rep_reachable (N := N) d ops hs
  generalize runOps (Graph.init d) ops = g at *
  generalize ((AGraph.empty d).run ops).2 = a at *
  constructor
  · intro n s
    unfold Graph.getNodeAttr AGraph.getNodeAttr
    have hmem : n ∈ g.nodes.keys ↔ n ∈ a.V := by rw [h.wf.nodesEq, h.V]
    cases hg : g.nodes.get? n with
    | none => rw [if_neg (by rw [← hmem, ← Dict.get?_eq_none_iff]; exact hg)]
    | some x =>
      have hn := hmem.1 (Dict.mem_keys_of_get? hg)
      have := h.na n hn s
      rw [hg] at this
      rw [if_pos hn, ← this]; rfl
  · intro u v s
    have mem : ∀ k : N × N, k ∉ a.E → g.edgeAttr.get? k = none := by
      intro k hk; rw [Dict.get?_eq_none_iff, h.E]; exact hk
    unfold Graph.getEdgeAttr AGraph.getEdgeAttr AGraph.key?
    rw [h.dir]
    by_cases h1 : (u, v) ∈ a.E
    · rw [if_pos h1, h.ea _ h1 s]
      cases he : a.ea (u, v) s with
      | some x => simp [he]
      | none =>
        simp only [he]
        split
        · rfl
        · next hd =>
          by_cases h2 : (v, u) ∈ a.E
          · have : u = v := h.wf.simple (by rw [h.dir]; simpa using hd) u v (h.E ▸ h1) (h.E ▸ h2)
            subst this
            rw [h.ea _ h1 s, he]
          · rw [mem _ h2]; rfl
    · rw [mem _ h1, if_neg h1]
      simp only [Option.bind_none]
      split
      · rfl
      · by_cases h2 : (v, u) ∈ a.E
        · rw [if_pos h2, h.ea _ h2 s]
          cases he : a.ea (v, u) s <;> simp [he]
        · rw [mem _ h2, if_neg h2]; rfl

/-- non-vacuity of C07: an undirected edge written in one orientation and read in the other -/
example : (match (runOps (Graph.init false) [Op.addEdge 1 2 [("cost", .int 3)], .setEdgeAttr 2 1 "cost" (.int 7),
    .addNode (5 : Nat) []]).getEdgeAttr 2 1 "cost" with | .ok (.int c) => c | _ => 0) = 7 := by decide

end GiMPy
