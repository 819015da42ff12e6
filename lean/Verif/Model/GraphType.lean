import Verif.Model.Graph

/-! # Model of the `type` argument of `Graph` (src/gimpy/graph.py)

The constructor keeps the object given as `type`, and most methods compare it by identity (`is`) with the constants
`DIRECTED_GRAPH = 'digraph'` and `UNDIRECTED_GRAPH = 'graph'` (global_constants.py 59-60).  `Model/Graph.lean` is for the
constants themselves.  Here the object may also be a string that is equal to a constant but another object, for instance
one that was read from a file. -/

namespace GiMPy
variable {N : Type} [DecidableEq N]

/-- The object kept in `self.graph_type`: is it equal to 'digraph' (else to 'graph'), and is it the constant itself? -/
structure GType where
  digraph : Bool
  same : Bool

namespace GType

/-- `self.graph_type is DIRECTED_GRAPH` -/
def isDirected (ty : GType) : Bool := ty.digraph && ty.same

/-- `self.graph_type is UNDIRECTED_GRAPH` -/
def isUndirected (ty : GType) : Bool := !ty.digraph && ty.same

/-- `self.graph_type == UNDIRECTED_GRAPH` -/
def eqUndirected (ty : GType) : Bool := !ty.digraph

/-- the value of the object -/
def value (ty : GType) : String := if ty.digraph then "digraph" else "graph"

end GType

namespace Graph

/-- `Graph(type = s)` where `same` tells whether `s` is the constant: graph.py 225-235.  `EDGE_CONNECT_SYMBOL[s]` (line
235) raises KeyError for other strings.  Without the argument the constant 'graph' is taken (line 228).
In the state `directed` tells whether there is an attribute `in_neighbors` (lines 232-233). -/
def initT (arg : Option (String × Bool)) : Except PyErr (GType × Graph N) :=
  match arg with
  | none => .ok (⟨false, true⟩, init false)
  | some (s, same) =>
    if s = "digraph" then .ok (⟨true, same⟩, init (GType.isDirected ⟨true, same⟩))
    else if s = "graph" then .ok (⟨false, same⟩, init (GType.isDirected ⟨false, same⟩))
    else .error .keyError

/-- `Graph.add_edge`: graph.py 349-365; lines 352 and 362 ask `self.graph_type is UNDIRECTED_GRAPH`. -/
def addEdgeT (ty : GType) (name1 name2 : N) (attr : List (String × Val N)) : GM N Unit := do
  let g ← get
  if g.edgeAttr.contains (name1, name2) then throw .multipleEdge
  else if ty.isUndirected ∧ g.edgeAttr.contains (name2, name1) then throw .multipleEdge
  else do
    modify fun g => { g with edgeAttr := g.edgeAttr.set (name1, name2) (Dict.empty.update attr) }
    ensureNode name1
    ensureNode name2
    appendNbr name1 name2
    if ty.isUndirected then appendNbr name2 name1 else appendIn name2 name1

/-- first loop of `del_node`: graph.py 319-324; line 321 asks `self.graph_type == UNDIRECTED_GRAPH`. -/
def delOutT (ty : GType) (name : N) : List N → GM N Unit
  | [] => pure ()
  | n :: l => do
    delEdgeAttr (name, n)
    if ty.eqUndirected then removeNbr n name else removeIn n name
    delOutT ty name l

/-- `Graph.del_node`: graph.py 317-331; line 325 asks `self.graph_type is DIRECTED_GRAPH`, as `delInAll` does. -/
def delNodeT (ty : GType) (name : N) : GM N Unit := do
  let g ← get
  match g.neighbors.get? name with
  | none => throw .exception
  | some l => do
    delOutT ty name l
    delInAll name
    delEntries name

end Graph

/-- The call `op` on a graph of type `ty`.  The other calls ask `self.graph_type is DIRECTED_GRAPH` (lines 300, 379, 548),
as their models do. -/
def Op.callT (ty : GType) : Op N → GM N Unit
  | .addNode n attr => Graph.addNode n attr
  | .addEdge u v attr => Graph.addEdgeT ty u v attr
  | .delEdge u v => Graph.delEdge (u, v)
  | .delNode n => Graph.delNodeT ty n
  | .setNodeAttr n a v => Graph.setNodeAttr n a v
  | .setEdgeAttr u v a x => Graph.setEdgeAttr u v a x

/-- A history of calls on a graph of type `ty`, as `runOps`. -/
def runOpsT (ty : GType) (g : Graph N) : List (Op N) → Graph N
  | [] => g
  | op :: ops => runOpsT ty (EStateM.Result.state ((op.callT ty).run g)) ops

end GiMPy
