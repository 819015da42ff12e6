import Verif.Model.Search

/-! # Model of `Graph.minimum_spanning_tree_prim` (src/gimpy/graph.py 1243-1295)

Simplified as in `Model/Search.lean`: display off, the write-only attributes `label` and edge `color` dropped, but the
KeyErrors of `set_edge_attr` kept.  `q.pop()` is `peek` followed by `remove`; `q.peek(n)[0]`, the priority in the entry
of `n`, is `getPriority`. -/

namespace GiMPy
variable {N : Type} [DecidableEq N] {Q : Type}
namespace Prim
open Search

/-- Local variables `q`, `pred` and the node attribute `color` of `minimum_spanning_tree_prim`. -/
structure PState (N Q : Type) where
  q : Q
  pred : Dict N N
  color : N → Color

/-- `not n in pred or new_estimate < peek(n)[0]`: graph.py 1284 -/
def improves (O : QOps N Q) (st : PState N Q) (n : N) (est : Int) : Except PyErr Bool :=
  if st.pred.contains n then
    match O.getPriority st.q n with
    | none => .error .keyError
    | some p => .ok (decide (est < p))
  else .ok true

/-- graph.py 1285-1290 (the colours red and black set there end as black) -/
def relax (O : QOps N Q) (st : PState N Q) (cur n : N) (est : Int) : PState N Q :=
  { q := O.pushP st.q n est, pred := st.pred.set n cur, color := upd st.color n .black }

/-- the body of the `for` loop for a neighbour that is not green: graph.py 1281-1291 -/
def edge (g : Graph N) (O : QOps N Q) (st : PState N Q) (cur n : N) : Except PyErr (PState N Q) :=
  match touch g false cur n with
  | .error e => .error e
  | .ok _ => match g.getEdgeCost cur n with
    | .error e => .error e
    | .ok est => match improves O st n est with
      | .error e => .error e
      | .ok b => .ok (if b then relax O st cur n est else st)

/-- the `for` loop: graph.py 1279-1291 -/
def forN (g : Graph N) (O : QOps N Q) (cur : N) : List N → PState N Q → Except PyErr (PState N Q)
  | [], st => .ok st
  | n :: l, st =>
    if st.color n = .green then forN g O cur l st
    else match edge g O st cur n with
      | .error e => .error e
      | .ok st' => forN g O cur l st'

/-- the colour write on the tree edge of `current`: graph.py 1276-1277 -/
def treeEdge (g : Graph N) (src : N) (st : PState N Q) (cur : N) : Except PyErr Unit :=
  if cur = src then .ok ()
  else match st.pred.get? cur with
    | none => .error .keyError
    | some p => touch g false p cur

/-- the loop body after `pop`: graph.py 1275-1292 -/
def body (g : Graph N) (O : QOps N Q) (src : N) (st : PState N Q) (cur : N) : Except PyErr (PState N Q) :=
  match treeEdge g src st cur with
  | .error e => .error e
  | .ok _ => match g.getNeighbors cur with
    | .error e => .error e
    | .ok l => match forN g O cur l { st with color := upd st.color cur .blue } with
      | .error e => .error e
      | .ok st' => .ok { st' with color := upd st'.color cur .green }

/-- the `while` loop: graph.py 1273-1293 -/
def loop (g : Graph N) (O : QOps N Q) (src : N) : Nat → PState N Q → Except PyErr (PState N Q)
  | 0, _ => .error .diverge
  | f + 1, st =>
    if O.isEmpty st.q then .ok st
    else match O.peek st.q with
      | none => .error .indexError
      | some cur => match body g O src { st with q := O.remove st.q cur } cur with
        | .error e => .error e
        | .ok st' => loop g O src f st'

/-- `Graph.minimum_spanning_tree_prim`: graph.py 1243-1295.  `q` is the queue object passed, `color` the node attribute
left by earlier calls (a missing attribute counts as black, it is only compared with green).  For a source that is not a
node `set_node_attr` fails on `None`; simplified: if `q` held other nodes before the call, the code looks at those first. -/
def mstPrim (g : Graph N) (O : QOps N Q) (src : N) (q : Q) (color : N → Color) (fuel : Nat) :
    Except PyErr (PState N Q) :=
  if g.hasNode src then loop g O src fuel { q := O.push q src, pred := .empty, color := color }
  else .error .attributeError

end Prim
end GiMPy
