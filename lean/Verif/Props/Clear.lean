import Verif.Model.Live
import Verif.Lemmas.DGraph
import Verif.Props.Core

/-! # C146: emptying a graph in a loop -/

namespace GiMPy
variable {N : Type} [DecidableEq N]

namespace Graph

theorem filter_tail {α : Type} [DecidableEq α] {a : α} {l : List α} (h : (a :: l).Nodup) :
    (a :: l).filter (fun x => ¬ x = a) = l := by
  rw [List.filter_cons_of_neg (by simp), List.filter_eq_self]
  intro x hx
  have := (List.nodup_cons.1 h).1
  simp only [decide_not, Bool.not_eq_eq_eq_not, Bool.not_true, decide_eq_false_iff_not]
  rintro rfl; exact this hx

theorem delEdgeS_nodes (g : Graph N) (u v : N) (k : N × N) : (g.delEdgeS u v k).nodes = g.nodes := by
  unfold delEdgeS
  cases g.directed <;> simp [remS, remInS]

theorem delEdgeS_edgeAttr (g : Graph N) (u v : N) (k : N × N) : (g.delEdgeS u v k).edgeAttr = g.edgeAttr.erase k := by
  unfold delEdgeS
  cases g.directed <;> simp [remS, remInS]

theorem delEdges_run : ∀ (l : List (N × N)) (g : Graph N), g.Wf → g.edgeAttr.keys = l →
    ∃ g', (delEdges l).run g = .ok ⟨⟩ g' ∧ g'.Wf ∧ g'.directed = g.directed ∧ g'.edgeAttr.keys = [] ∧ g'.nodes = g.nodes
  | [], g, h, hl => ⟨g, rfl, h, rfl, hl, rfl⟩
  | (u, v) :: l, g, h, hl => by
    have he : (u, v) ∈ g.edgeAttr.keys := by rw [hl]; simp
    have hdup : g.dup u v := Or.inl he
    have hk : g.key u v = (u, v) := if_pos he
    have hkeys : (g.delEdgeS u v (g.key u v)).edgeAttr.keys = l := by
      have hnd := h.edup
      rw [delEdgeS_edgeAttr, hk, Dict.keys_erase]
      rw [hl] at hnd ⊢
      exact filter_tail hnd
    obtain ⟨g', i1, i2, i3, i4, i5⟩ := delEdges_run l _ (wf_delEdgeS h hdup) hkeys
    refine ⟨g', ?_, i2, by rw [i3, delEdgeS_directed], i4, by rw [i5, delEdgeS_nodes]⟩
    rw [delEdges, gm_bind, delEdge_run h, if_pos hdup]
    exact i1

theorem delNodes_run : ∀ (l : List N) (g : Graph N), g.Wf → g.directed = true → g.neighbors.keys = l →
    ∃ g', (delNodes l).run g = .ok ⟨⟩ g' ∧ g'.Wf ∧ g'.directed = true ∧ g'.neighbors.keys = []
  | [], g, h, hd, hl => ⟨g, rfl, h, hd, hl⟩
  | n :: l, g, h, hd, hl => by
    obtain ⟨g1, e0, e1, e2, e3, e4, e5, e6, e7⟩ := delNode_run_dir h hd (name := n) (by rw [hl]; simp)
    have hw := wf_delNode_dir h hd e1 e2 e3 e4 e5 e6 e7
    obtain ⟨g', i1, i2, i3, i4⟩ := delNodes_run l g1 hw e1 (by
      have hnd := h.nodup
      rw [e4]
      rw [hl] at hnd ⊢
      exact filter_tail hnd)
    refine ⟨g', ?_, i2, i3, i4⟩
    rw [delNodes, gm_bind, e0]
    exact i1

theorem dict_empty {K V : Type} [DecidableEq K] {d : Dict K V} (h : d.keys = []) : d = .empty := by
  cases d with
  | mk e => simp only [Dict.keys, List.map_eq_nil_iff] at h; rw [h]; rfl

end Graph

/-- **C146.** The loop `for e in g.get_edge_list(): g.del_edge(e)` on a graph built through the API, directed or not, ends without an
exception and leaves the same nodes with the same attributes, no edge, and no neighbour of any node.  (On undirected graphs `del_node`
must not have been called, see C05.) -/
theorem C146_clear_edges (d : Bool) (ops : List (Op N)) (hs : ∀ op ∈ ops, op.InScope d) :
    ∃ g', Graph.clearEdges.run (runOps (Graph.init d) ops) = .ok ⟨⟩ g' ∧ g'.getEdgeList = [] ∧
      g'.nodes = (runOps (Graph.init d) ops).nodes ∧ g'.getNodeList = (runOps (Graph.init d) ops).getNodeList ∧
      (∀ n l, g'.neighbors.get? n = some l → l = []) ∧ (d = true → ∀ n l, g'.inNeighbors.get? n = some l → l = []) := by
  have h := wf_reachable (N := N) d ops hs
  have hd := runOps_directed (N := N) d ops hs
  generalize runOps (Graph.init d) ops = g at *
  obtain ⟨g', h1, h2, h3, h4, h5⟩ := Graph.delEdges_run _ g h rfl
  have hind : ∀ u v, g'.ind u v = 0 := fun u v => by simp [Graph.ind, h4]
  refine ⟨g', ?_, h4, h5, ?_, ?_, ?_⟩
  · rw [Graph.clearEdges, gm_bind]; exact h1
  · show g'.neighbors.keys = g.neighbors.keys
    rw [← h2.nodesEq, ← h.nodesEq, h5]
  · intro n l hl
    rw [List.eq_nil_iff_forall_not_mem]
    intro v hv
    have := h2.out n v
    simp only [Graph.outc, hl, Option.getD_some, hind, ite_self, Nat.add_zero] at this
    exact absurd hv (List.count_eq_zero.1 this)
  · intro hdt n l hl
    rw [List.eq_nil_iff_forall_not_mem]
    intro v hv
    have := h2.inn (by rw [h3, hd, hdt]) n v
    simp only [Graph.innc, hl, Option.getD_some, hind] at this
    exact absurd hv (List.count_eq_zero.1 this)

/-- **C146.** The loop `for n in g.get_node_list(): g.del_node(n)` on a digraph built through the API ends without an exception and
leaves the graph in the state of a new one. -/
theorem C146_clear_nodes (ops : List (Op N)) :
    Graph.clearNodes.run (runOps (Graph.init true) ops) = .ok ⟨⟩ (Graph.init true) := by
  have hs : ∀ op ∈ ops, op.InScope true := by intro op _; cases op <;> simp [Op.InScope]
  have h := wf_reachable (N := N) true ops hs
  have hd := runOps_directed (N := N) true ops hs
  generalize runOps (Graph.init true) ops = g at *
  obtain ⟨g', h1, h2, h3, h4⟩ := Graph.delNodes_run _ g h hd rfl
  have he : g'.edgeAttr.keys = [] := by
    rw [List.eq_nil_iff_forall_not_mem]
    rintro ⟨u, v⟩ huv
    have := (h2.endp u v huv).1
    rw [h4] at this
    simp at this
  have : g' = Graph.init true := by
    obtain ⟨dr, nd, nb, inb, ea⟩ := g'
    have a1 : dr = true := h3
    have a2 : nb = .empty := Graph.dict_empty h4
    have a3 : nd = .empty := Graph.dict_empty (by rw [← h4]; exact h2.nodesEq)
    have a4 : inb = .empty := Graph.dict_empty (by rw [← h4]; exact h2.inEq h3)
    have a5 : ea = .empty := Graph.dict_empty he
    rw [a1, a2, a3, a4, a5]; rfl
  rw [Graph.clearNodes, gm_bind]
  rw [← this]
  exact h1

/-- an undirected triangle with an isolated node meets the hypotheses of `C146_clear_edges` and has edges to delete -/
example : (∀ op ∈ [Op.addEdge 1 2 [], .addEdge 3 2 [], .addEdge 1 3 [], .addNode 4 []], op.InScope false) ∧
    (runOps (Graph.init false) [Op.addEdge 1 2 [], .addEdge 3 2 [], .addEdge 1 3 [], .addNode 4 []] : Graph Nat).getEdgeList =
      [(1, 2), (3, 2), (1, 3)] :=
  ⟨by simp [Op.InScope], by decide⟩

/-- a digraph with a loop and a cycle for `C146_clear_nodes` -/
example : (runOps (Graph.init true) [Op.addEdge 1 2 [], .addEdge 2 1 [], .addEdge 1 1 [], .addNode 4 []] : Graph Nat).getNodeList =
    [1, 2, 4] := by decide

end GiMPy
