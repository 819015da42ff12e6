import Verif.Model.Py

/-! # Model of the core of `class Graph` (src/gimpy/graph.py) -/

namespace GiMPy

/-- State of a `Graph` object: graph.py 199-242 (`__init__`).
`directed` is `self.graph_type is DIRECTED_GRAPH` (global_constants.py 59-60).
`nodes[n]` holds only the attribute dictionary of the `Node` object (graph.py 111-130); its `name` is the key.
Left out: graph attributes other than `type`, clusters (modelled in `Verif.Model.Dot`), display state. -/
structure Graph (N : Type) where
  directed : Bool
  nodes : Dict N (Attrs N)
  neighbors : Dict N (List N)
  inNeighbors : Dict N (List N)
  edgeAttr : Dict (N × N) (Attrs N)

variable {N : Type} [DecidableEq N]

/-- A method call: state-passing with exceptions, where the state at the moment of the exception is kept. -/
abbrev GM (N : Type) (α : Type) := EStateM PyErr (Graph N) α

namespace Graph

/-- `Graph(type=...)`: graph.py 199-242. -/
def init (directed : Bool) : Graph N := ⟨directed, .empty, .empty, .empty, .empty⟩

/-- `Graph.add_node`: graph.py 281-303 (with `Node.__init__` 116-130; DEFAULT_NODE_ATTRIBUTES is `{}`). -/
def addNode (name : N) (attr : List (String × Val N)) : GM N Unit := do
  let g ← get
  if g.neighbors.contains name then throw .multipleNode
  else do
    modify fun g => { g with neighbors := g.neighbors.set name [] }
    modify fun g => if g.directed then { g with inNeighbors := g.inNeighbors.set name [] } else g
    modify fun g => { g with nodes := g.nodes.set name (Dict.empty.update attr) }

/-- `self.neighbors[u].append(v)`; KeyError when `u` has no adjacency list. -/
def appendNbr (u v : N) : GM N Unit := do
  match (← get).neighbors.get? u with
  | none => throw .keyError
  | some l => modify fun g => { g with neighbors := g.neighbors.set u (l ++ [v]) }

/-- `self.in_neighbors[u].append(v)`; AttributeError on an undirected graph (no such attribute, graph.py 232-233). -/
def appendIn (u v : N) : GM N Unit := do
  let g ← get
  if ¬ g.directed then throw .attributeError
  else match g.inNeighbors.get? u with
    | none => throw .keyError
    | some l => modify fun g => { g with inNeighbors := g.inNeighbors.set u (l ++ [v]) }

/-- `self.neighbors[u].remove(v)`: KeyError / ValueError, else the first occurrence is removed. -/
def removeNbr (u v : N) : GM N Unit := do
  match (← get).neighbors.get? u with
  | none => throw .keyError
  | some l =>
    if v ∈ l then modify fun g => { g with neighbors := g.neighbors.set u (l.erase v) }
    else throw .valueError

/-- `self.in_neighbors[u].remove(v)`. -/
def removeIn (u v : N) : GM N Unit := do
  let g ← get
  if ¬ g.directed then throw .attributeError
  else match g.inNeighbors.get? u with
    | none => throw .keyError
    | some l =>
      if v ∈ l then modify fun g => { g with inNeighbors := g.inNeighbors.set u (l.erase v) }
      else throw .valueError

/-- `del self.edge_attr[e]`: KeyError when absent. -/
def delEdgeAttr (e : N × N) : GM N Unit := do
  if (← get).edgeAttr.contains e then modify fun g => { g with edgeAttr := g.edgeAttr.erase e }
  else throw .keyError

/-- `if n not in self.nodes: self.add_node(n)` (graph.py 357-360). -/
def ensureNode (n : N) : GM N Unit := do
  let g ← get
  if g.nodes.contains n then pure () else addNode n []

/-- `Graph.add_edge`: graph.py 333-365 (DEFAULT_EDGE_ATTRIBUTES is `{}`). -/
def addEdge (name1 name2 : N) (attr : List (String × Val N)) : GM N Unit := do
  let g ← get
  if g.edgeAttr.contains (name1, name2) then throw .multipleEdge
  else if ¬ g.directed ∧ g.edgeAttr.contains (name2, name1) then throw .multipleEdge
  else do
    modify fun g => { g with edgeAttr := g.edgeAttr.set (name1, name2) (Dict.empty.update attr) }
    ensureNode name1
    ensureNode name2
    appendNbr name1 name2
    if ¬ g.directed then appendNbr name2 name1 else appendIn name2 name1

/-- `Graph.del_edge`: graph.py 367-395. -/
def delEdge (e : N × N) : GM N Unit := do
  let g ← get
  if g.directed then
    if g.edgeAttr.contains e then do
      delEdgeAttr e
      removeNbr e.1 e.2
      removeIn e.2 e.1
    else throw .exception
  else
    if g.edgeAttr.contains e then do
      delEdgeAttr e
      removeNbr e.1 e.2
      removeNbr e.2 e.1
    else if g.edgeAttr.contains (e.2, e.1) then do
      delEdgeAttr (e.2, e.1)
      removeNbr e.1 e.2
      removeNbr e.2 e.1
    else throw .exception

/-- first loop of `del_node`: graph.py 319-324.  The list is a snapshot; Python iterates over the live list, which
differs only for a self loop of an undirected graph, and that call raises in any case (line 330). -/
def delOut (name : N) : List N → GM N Unit
  | [] => pure ()
  | n :: l => do
    delEdgeAttr (name, n)
    let g ← get
    if ¬ g.directed then removeNbr n name else removeIn n name
    delOut name l

/-- second loop of `del_node`: graph.py 325-328. -/
def delIn (name : N) : List N → GM N Unit
  | [] => pure ()
  | n :: l => do
    delEdgeAttr (n, name)
    removeNbr n name
    delIn name l

/-- `if self.graph_type is DIRECTED_GRAPH: for n in self.in_neighbors[name]: ...`: graph.py 325-328. -/
def delInAll (name : N) : GM N Unit := do
  let g ← get
  if g.directed then
    match g.inNeighbors.get? name with
    | none => throw .keyError
    | some l => delIn name l
  else pure ()

/-- the three `del` statements at the end of `del_node`: graph.py 329-331. -/
def delEntries (name : N) : GM N Unit := do
  -- del self.neighbors[name]
  modify fun g => { g with neighbors := g.neighbors.erase name }
  -- del self.in_neighbors[name]
  let g ← get
  if ¬ g.directed then throw .attributeError
  else do
    modify fun g => { g with inNeighbors := g.inNeighbors.erase name }
    -- del self.nodes[name]
    let g ← get
    if g.nodes.contains name then modify fun g => { g with nodes := g.nodes.erase name }
    else throw .keyError

/-- `Graph.del_node`: graph.py 305-331. -/
def delNode (name : N) : GM N Unit := do
  let g ← get
  match g.neighbors.get? name with
  | none => throw .exception
  | some l => do
    delOut name l
    delInAll name
    delEntries name

/-- `Graph.get_node`: graph.py 397-410 (the attribute dictionary of the node, or `None`). -/
def getNode (g : Graph N) (name : N) : Option (Attrs N) := g.nodes.get? name

/-- `Graph.__contains__` on a node name: graph.py 279. -/
def hasNode (g : Graph N) (name : N) : Bool := g.nodes.contains name

/-- `Graph.check_edge`: graph.py 424-439; also `__contains__` on a pair, 270-277. -/
def checkEdge (g : Graph N) (u v : N) : Bool :=
  if g.directed then g.edgeAttr.contains (u, v)
  else g.edgeAttr.contains (u, v) || g.edgeAttr.contains (v, u)

/-- `Graph.get_node_list`: graph.py 441-449. -/
def getNodeList (g : Graph N) : List N := g.neighbors.keys

/-- `Graph.get_edge_list`: graph.py 451-459. -/
def getEdgeList (g : Graph N) : List (N × N) := g.edgeAttr.keys

/-- `Graph.get_node_num`: graph.py 461-469. -/
def getNodeNum (g : Graph N) : Nat := g.neighbors.entries.length

/-- `Graph.get_edge_num`: graph.py 471-479. -/
def getEdgeNum (g : Graph N) : Nat := g.edgeAttr.entries.length

/-- `Graph.get_neighbors` / `get_out_neighbors`: graph.py 556-568, 584-596. -/
def getNeighbors (g : Graph N) (u : N) : Except PyErr (List N) :=
  match g.neighbors.get? u with | none => .error .keyError | some l => .ok l

/-- `Graph.get_in_neighbors`: graph.py 570-582; no `in_neighbors` attribute on undirected graphs. -/
def getInNeighbors (g : Graph N) (u : N) : Except PyErr (List N) :=
  if g.directed then
    match g.inNeighbors.get? u with | none => .error .keyError | some l => .ok l
  else .error .attributeError

/-- `Graph.get_node_attr`: graph.py 481-494 with `Node.get_attr` 132-145 (a missing attribute reads as `None`;
a missing node is `None.get_attr`, an AttributeError). -/
def getNodeAttr (g : Graph N) (n : N) (a : String) : Except PyErr (Val N) :=
  match g.nodes.get? n with
  | none => .error .attributeError
  | some d => .ok ((d.get? a).getD .none)

/-- `Graph.get_edge_attr`: graph.py 496-516. -/
def getEdgeAttr (g : Graph N) (n m : N) (a : String) : Except PyErr (Val N) :=
  match (g.edgeAttr.get? (n, m)).bind (·.get? a) with
  | some v => .ok v
  | none =>
    if g.directed then .error .keyError
    else match (g.edgeAttr.get? (m, n)).bind (·.get? a) with
      | some v => .ok v
      | none => .error .keyError

/-- `Graph.set_node_attr`: graph.py 518-531. -/
def setNodeAttr (n : N) (a : String) (v : Val N) : GM N Unit := do
  match (← get).nodes.get? n with
  | none => throw .attributeError
  | some d => modify fun g => { g with nodes := g.nodes.set n (d.set a v) }

/-- `Graph.set_edge_attr`: graph.py 533-554. -/
def setEdgeAttr (n m : N) (a : String) (v : Val N) : GM N Unit := do
  let g ← get
  match g.edgeAttr.get? (n, m) with
  | some d => modify fun g => { g with edgeAttr := g.edgeAttr.set (n, m) (d.set a v) }
  | none =>
    if g.directed then throw .keyError
    else match g.edgeAttr.get? (m, n) with
      | some d => modify fun g => { g with edgeAttr := g.edgeAttr.set (m, n) (d.set a v) }
      | none => throw .keyError

/-- `Graph.get_edge_cost`: graph.py 412-422, for an integer `cost`. -/
def getEdgeCost (g : Graph N) (u v : N) : Except PyErr Int :=
  match g.getEdgeAttr u v "cost" with
  | .ok (.int c) => .ok c
  | .ok _ => .error .typeError
  | .error e => .error e

end Graph

/-- One call of the edit API. -/
inductive Op (N : Type)
  | addNode (n : N) (attr : List (String × Val N))
  | addEdge (u v : N) (attr : List (String × Val N))
  | delEdge (u v : N)
  | delNode (n : N)
  | setNodeAttr (n : N) (a : String) (v : Val N)
  | setEdgeAttr (u v : N) (a : String) (x : Val N)

/-- The call `op` on a graph. -/
def Op.call : Op N → GM N Unit
  | .addNode n attr => Graph.addNode n attr
  | .addEdge u v attr => Graph.addEdge u v attr
  | .delEdge u v => Graph.delEdge (u, v)
  | .delNode n => Graph.delNode n
  | .setNodeAttr n a v => Graph.setNodeAttr n a v
  | .setEdgeAttr u v a x => Graph.setEdgeAttr u v a x

/-- The state after a call, whether it returned or raised. -/
def EStateM.Result.state {ε σ α : Type} : EStateM.Result ε σ α → σ
  | .ok _ s => s
  | .error _ s => s

/-- The exception of a call, if any. -/
def EStateM.Result.err {ε σ α : Type} : EStateM.Result ε σ α → Option ε
  | .ok _ _ => none
  | .error e _ => some e

/-- A history of calls; a raising call is caught by the user, who goes on with the object as it is. -/
def runOps (g : Graph N) : List (Op N) → Graph N
  | [] => g
  | op :: ops => runOps (EStateM.Result.state (op.call.run g)) ops

end GiMPy
