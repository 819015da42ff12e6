import Verif.Props.Core
import Verif.Model.MinCost

/-! # C03, C07: the counters, and the numbers the algorithms read -/

namespace GiMPy
variable {N : Type} [DecidableEq N]

/-- **C03**, the counters: after every history `get_node_num` and `get_edge_num` are the numbers of nodes and of edges of the
abstract simple graph. -/
theorem C03_counts (d : Bool) (ops : List (Op N)) (hs : ∀ op ∈ ops, op.InScope d) :
    (runOps (Graph.init d) ops).getNodeNum = ((AGraph.empty d).run ops).2.V.length ∧
    (runOps (Graph.init d) ops).getEdgeNum = ((AGraph.empty d).run ops).2.E.length := by
  obtain ⟨_, h1, h2⟩ := C03_refines_simple_graph d ops hs
  rw [← h1, ← h2]
  unfold Graph.getNodeNum Graph.getEdgeNum Graph.getNodeList Graph.getEdgeList Dict.keys
  simp

/-- non-vacuity of `C03_counts` -/
example : (runOps (Graph.init true) [Op.addEdge 1 2 [], .addEdge 2 1 [], .addEdge 1 2 [], .addNode (5 : Nat) [],
    .delNode 2]).getNodeNum = 2 ∧
    (runOps (Graph.init false) [Op.addEdge 1 2 [], .addEdge 2 1 [], .addEdge (2 : Nat) 3 []]).getEdgeNum = 2 := by decide

/-- **C07**, the number `get_edge_cost` gives to the algorithms: it is `c` exactly when `get_edge_attr` of 'cost' is the
integer `c`. -/
theorem C07_cost (g : Graph N) (u v : N) (c : Int) :
    g.getEdgeCost u v = .ok c ↔ g.getEdgeAttr u v "cost" = .ok (.int c) := by
  unfold Graph.getEdgeCost
  rcases g.getEdgeAttr u v "cost" with e | (_ | _ | _ | _ | _) <;> simp

/-- **C07**, the capacity the flow algorithms use: it is `c` exactly when the arc is present and 'capacity' was set to the
integer `c`, or was not set and `c` is `INF`. -/
theorem C07_capacity (g : Graph N) (u v : N) (c : Int) :
    g.capOf u v = .ok c ↔ (u, v) ∈ g.getEdgeList ∧
      ((g.edgeAttr.get? (u, v)).bind (·.get? "capacity") = some (.int c) ∨
        (g.edgeAttr.get? (u, v)).bind (·.get? "capacity") = none ∧ c = INF) := by
  unfold Graph.capOf Graph.getEdgeList
  cases h : g.edgeAttr.get? (u, v) with
  | none =>
    have := (Dict.get?_eq_none_iff _ _).1 h
    simp [this]
  | some a =>
    have := Dict.mem_keys_of_get? h
    rcases h2 : a.get? "capacity" with _ | (_ | _ | _ | _ | _) <;> simp [this, h2, eq_comm]

/-- **C07**, the demand `minimum_cost_flow` uses: it is `b` exactly when `get_node_attr` of 'demand' is the integer `b`. -/
theorem C07_demand (g : Graph N) (n : N) (b : Int) :
    MinCost.demandOf g n = .ok b ↔ g.getNodeAttr n "demand" = .ok (.int b) := by
  unfold MinCost.demandOf
  rcases g.getNodeAttr n "demand" with e | (_ | _ | _ | _ | _) <;> simp

/-- **C07**, any attribute of an arc read as a number: it is `c` exactly when `get_edge_attr` gives the integer `c`. -/
theorem C07_number (g : Graph N) (u v : N) (s : String) (c : Int) :
    g.getInt u v s = .ok c ↔ g.getEdgeAttr u v s = .ok (.int c) := by
  unfold Graph.getInt
  rcases g.getEdgeAttr u v s with e | (_ | _ | _ | _ | _) <;> simp

/-- **C07**, the flow on an arc: the column at the arc if there is such an arc, and KeyError otherwise. -/
theorem C07_flow (g : Graph N) (f : N × N → Int) (u v : N) :
    ((u, v) ∈ g.getEdgeList → g.flowOf f u v = .ok (f (u, v))) ∧
    ((u, v) ∉ g.getEdgeList → g.flowOf f u v = .error .keyError) := by
  unfold Graph.flowOf Graph.getEdgeList
  refine ⟨fun h => if_pos ((Dict.contains_iff _ _).2 h), fun h => if_neg fun h' => h ((Dict.contains_iff _ _).1 h')⟩

/-- **C07**, `get_node`: after every history the result is None exactly for a name that is no node, and else the node whose
attributes `get_node_attr` reads. -/
theorem C07_get_node (d : Bool) (ops : List (Op N)) (hs : ∀ op ∈ ops, op.InScope d) (n : N) :
    ((runOps (Graph.init d) ops).getNode n = none ↔ n ∉ (runOps (Graph.init d) ops).getNodeList) ∧
    ∀ a, (runOps (Graph.init d) ops).getNode n = some a → ∀ s x, a.get? s = some x →
      (runOps (Graph.init d) ops).getNodeAttr n s = .ok x := by
  have hw : (runOps (Graph.init d) ops).Wf := wf_reachable d ops hs
  refine ⟨?_, fun a ha s x hx => ?_⟩
  · unfold Graph.getNode Graph.getNodeList
    rw [Dict.get?_eq_none_iff, hw.nodesEq]
  · unfold Graph.getNodeAttr
    unfold Graph.getNode at ha
    rw [ha]
    simp only [hx, Option.getD_some]

/-- non-vacuity of the reads: a cost read against the orientation, a missing capacity and a demand -/
example : (runOps (Graph.init false) [Op.addEdge 1 2 [("cost", .int 3)]]).getEdgeCost 2 (1 : Nat) = .ok 3 ∧
    (runOps (Graph.init true) [Op.addEdge 1 2 [("cost", .int 3)]]).capOf 1 (2 : Nat) = .ok INF ∧
    MinCost.demandOf (runOps (Graph.init true) [Op.addNode 1 [("demand", .int (-4))]]) (1 : Nat) = .ok (-4) := ⟨rfl, rfl, rfl⟩
example : let g := runOps (Graph.init true) [Op.addNode 1 [("demand", .int (-4))], .addEdge 1 (2 : Nat) [("x", .int 7)], .delNode 2,
      .addEdge 3 1 [("x", .int 8)]]
    g.getInt 3 1 "x" = .ok 8 ∧ g.flowOf (fun _ => 5) 3 1 = .ok 5 ∧ g.flowOf (fun _ => 5) 1 2 = .error .keyError ∧
    g.getNode 2 = none ∧ (g.getNode 1).bind (·.get? "demand") = some (.int (-4)) := ⟨rfl, rfl, rfl, rfl, rfl⟩

end GiMPy
