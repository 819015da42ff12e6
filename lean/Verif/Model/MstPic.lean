import Verif.Model.DisjointSet
import Verif.Model.Prim
import Verif.Model.SearchPic

/-! # The two spanning tree methods with the attributes they only write (src/gimpy/graph.py 1243-1337)

The same code as in `Model/Prim.lean` and `Model/DisjointSet.lean`, with the edge attribute `color` and, for Prim, the node
attribute `label` kept.  Each function here is the function of the same name there, carrying the columns along.
Simplified: `display()` is a no-op, the pictures between the steps are not kept. -/

namespace GiMPy
variable {N : Type} [DecidableEq N] {Q : Type}

namespace Prim
open Search

/-- the columns `color` of the edges (by key of `edge_attr`) and `label` of the nodes -/
structure MPic (N : Type) where
  edge : N × N → String
  label : N → Val N

/-- `set_edge_attr(u, v, 'color', c)` -/
def MPic.paint (g : Graph N) (u v : N) (c : String) (p : MPic N) : MPic N := ⟨upd p.edge (g.edgeKey u v) c, p.label⟩

/-- the body of the `for` loop for a neighbour that is not green: graph.py 1281-1291 -/
def edgeP (g : Graph N) (O : QOps N Q) (st : PState N Q) (p : MPic N) (cur n : N) : Except PyErr (PState N Q × MPic N) :=
  match touch g false cur n with
  | .error e => .error e
  | .ok _ => match g.getEdgeCost cur n with
    | .error e => .error e
    | .ok est => match improves O st n est with
      | .error e => .error e
      | .ok b =>
        if b then .ok (relax O st cur n est,
          MPic.paint g cur n "black" ⟨(p.paint g cur n "yellow").edge, upd p.label n (.int est)⟩)
        else .ok (st, (p.paint g cur n "yellow").paint g cur n "black")

/-- the `for` loop: graph.py 1279-1291 -/
def forNP (g : Graph N) (O : QOps N Q) (cur : N) : List N → PState N Q → MPic N → Except PyErr (PState N Q × MPic N)
  | [], st, p => .ok (st, p)
  | n :: l, st, p =>
    if st.color n = .green then forNP g O cur l st p
    else match edgeP g O st p cur n with
      | .error e => .error e
      | .ok (st', p') => forNP g O cur l st' p'

/-- the colour write on the tree edge of `current`: graph.py 1276-1277 -/
def treeEdgeP (g : Graph N) (src : N) (st : PState N Q) (p : MPic N) (cur : N) : MPic N :=
  if cur = src then p
  else match st.pred.get? cur with
    | none => p
    | some u => p.paint g u cur "green"

/-- the loop body after `pop`: graph.py 1275-1292 -/
def bodyP (g : Graph N) (O : QOps N Q) (src : N) (st : PState N Q) (p : MPic N) (cur : N) :
    Except PyErr (PState N Q × MPic N) :=
  match treeEdge g src st cur with
  | .error e => .error e
  | .ok _ => match g.getNeighbors cur with
    | .error e => .error e
    | .ok l => match forNP g O cur l { st with color := upd st.color cur .blue } (treeEdgeP g src st p cur) with
      | .error e => .error e
      | .ok (st', p') => .ok ({ st' with color := upd st'.color cur .green }, p')

/-- the `while` loop: graph.py 1273-1293 -/
def loopP (g : Graph N) (O : QOps N Q) (src : N) : Nat → PState N Q → MPic N → Except PyErr (PState N Q × MPic N)
  | 0, _, _ => .error .diverge
  | f + 1, st, p =>
    if O.isEmpty st.q then .ok (st, p)
    else match O.peek st.q with
      | none => .error .indexError
      | some cur => match bodyP g O src { st with q := O.remove st.q cur } p cur with
        | .error e => .error e
        | .ok (st', p') => loopP g O src f st' p'

/-- `Graph.minimum_spanning_tree_prim`: graph.py 1243-1295; `p` are the columns left by earlier calls -/
def mstPrimP (g : Graph N) (O : QOps N Q) (src : N) (q : Q) (color : N → Color) (p : MPic N) (fuel : Nat) :
    Except PyErr (PState N Q × MPic N) :=
  if g.hasNode src then loopP g O src fuel { q := O.push q src, pred := .empty, color := color } p
  else .error .attributeError

end Prim

namespace Kruskal

/-- the main loop with the colours of the edges: graph.py 1322-1336 -/
def loopP (g : Graph N) (n : Nat) (fuel : Nat) :
    List (N × N) → DSet N → List (N × N) → (N × N → String) → Except PyErr (List (N × N) × (N × N → String))
  | [], _, edges, p => .ok (edges, p)
  | e :: l, d, edges, p =>
    if edges.length + 1 = n then .ok (edges, p)
    else match d.union fuel e.1 e.2 with
      | .error x => .error x
      | .ok (true, d) => loopP g n fuel l d (edges ++ [e])
          (upd (upd p (g.edgeKey e.1 e.2) "yellow") (g.edgeKey e.1 e.2) "green")
      | .ok (false, d) => loopP g n fuel l d edges
          (upd (upd p (g.edgeKey e.1 e.2) "yellow") (g.edgeKey e.1 e.2) "black")

/-- `minimum_spanning_tree_kruskal()` with `components=None`: graph.py 1297-1337; `p` are the colours before the call -/
def kruskalP (g : Graph N) (p : N × N → String) (fuel : Nat) : Except PyErr (List (N × N) × (N × N → String)) :=
  match costs g g.getEdgeList with
  | .error e => .error e
  | .ok cs => match addAll (DSet.init false) g.getNodeList with
    | .error e => .error e
    | .ok d => loopP g g.getNodeList.length fuel (sorted cs) d [] p

end Kruskal
end GiMPy
