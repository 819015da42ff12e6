import Verif.Model.Graph

/-! # Loops of a caller over the lists that get_out_neighbors, get_edge_list and get_node_list return

`get_neighbors` and `get_out_neighbors` return `self.neighbors[name]` itself (graph.py 556-568, 584-596), and `del_edge` removes from
that list (graph.py 383).  A `for` statement of Python over a list keeps an index and looks at the list anew in every iteration. -/

namespace GiMPy
namespace Graph
variable {N : Type} [DecidableEq N]

/-- `for n in g.get_out_neighbors(m): g.del_edge((m, n))`, the index of the loop being `i`.  The first argument is fuel; the result
is `true` if the loop has ended and `false` if the fuel ran out. -/
def liveDel (m : N) : Nat → Nat → GM N Bool
  | 0, _ => pure false
  | f + 1, i => do
    match (← get).neighbors.get? m with
    | none => throw .keyError
    | some l => match l[i]? with
      | none => pure true
      | some n => do
        delEdge (m, n)
        liveDel m f (i + 1)

/-- the body of the loop over a list that does not change -/
def delEach (m : N) : List N → GM N Unit
  | [] => pure ()
  | n :: l => do
    delEdge (m, n)
    delEach m l

/-- `for n in list(g.get_out_neighbors(m)): g.del_edge((m, n))` -/
def copyDel (m : N) : GM N Unit := do
  match (← get).neighbors.get? m with
  | none => throw .keyError
  | some l => delEach m l

/-- the body of a loop that deletes edges, over a list that does not change -/
def delEdges : List (N × N) → GM N Unit
  | [] => pure ()
  | e :: l => do
    delEdge e
    delEdges l

/-- `for e in g.get_edge_list(): g.del_edge(e)`; `get_edge_list` returns a new list (graph.py 459) -/
def clearEdges : GM N Unit := do
  delEdges (← get).getEdgeList

/-- the body of a loop that deletes nodes, over a list that does not change -/
def delNodes : List N → GM N Unit
  | [] => pure ()
  | n :: l => do
    delNode n
    delNodes l

/-- `for n in g.get_node_list(): g.del_node(n)`; `get_node_list` returns a new list (graph.py 449) -/
def clearNodes : GM N Unit := do
  delNodes (← get).getNodeList

end Graph
end GiMPy
