import Verif.Model.MaxFlow
import Verif.Model.FloydWarshall

/-! # Model of `create_residual_graph`, `find_cycle_capacity`, `augment_cycle`, `find_feasible_flow` and
`cycle_canceling` (src/gimpy/graph.py 1537-1652, 2192-2215, 2321-2354)

The edge attribute `flow` is a column, as in `Model/MaxFlow.lean`.  `find_feasible_flow` stores 10000 as the capacity of
an arc that has none (in `max_flow`, line 1908); `Graph.capOf` reads it so. -/

namespace GiMPy
variable {N : Type} [DecidableEq N] {Q : Type}

/-- a call of the edit API in the middle of a method; an exception ends the method -/
def Graph.call (g : Graph N) (op : Op N) : Except PyErr (Graph N) :=
  match op.call.run g with
  | .ok _ g' => .ok g'
  | .error e _ => .error e

/-- `get_edge_attr(u, v, a)` for an attribute holding an integer -/
def Graph.getInt (g : Graph N) (u v : N) (a : String) : Except PyErr Int :=
  match g.getEdgeAttr u v a with
  | .error e => .error e
  | .ok (.int c) => .ok c
  | .ok _ => .error .typeError

namespace MinCost

/-- the arc against the flow: graph.py 1556-1558 -/
def addBack (r : Graph N) (e : N × N) (fl cost : Int) : Except PyErr (Graph N) :=
  if fl > 0 then r.call (.addEdge e.2 e.1 [("cost", .int (-1 * cost)), ("capacity", .int fl)]) else .ok r

/-- the arc along the remaining capacity: graph.py 1559-1561 -/
def addForth (r : Graph N) (e : N × N) (cap fl cost : Int) : Except PyErr (Graph N) :=
  if cap - fl > 0 then r.call (.addEdge e.1 e.2 [("cost", .int cost), ("capacity", .int (cap - fl))]) else .ok r

/-- the loop over the edges: graph.py 1552-1561; `capR` reads the attribute `capacity` -/
def residualLoop (g : Graph N) (capR : N → N → Except PyErr Int) (f : N × N → Int) :
    List (N × N) → Graph N → Except PyErr (Graph N)
  | [], r => .ok r
  | e :: l, r => match capR e.1 e.2 with
    | .error x => .error x
    | .ok cap => match g.flowOf f e.1 e.2 with
      | .error x => .error x
      | .ok fl => match g.getEdgeCost e.1 e.2 with
        | .error x => .error x
        | .ok cost => match addBack r e fl cost with
          | .error x => .error x
          | .ok r => match addForth r e cap fl cost with
            | .error x => .error x
            | .ok r => residualLoop g capR f l r

/-- `create_residual_graph`: graph.py 1537-1562 -/
def residual (g : Graph N) (capR : N → N → Except PyErr Int) (f : N × N → Int) : Except PyErr (Graph N) :=
  if g.directed then residualLoop g capR f g.getEdgeList (Graph.init true) else .error .exception

/-- the while loop of `find_cycle_capacity`: graph.py 2208-2214 -/
def capLoop (r : Graph N) : List N → Int → Except PyErr Int
  | i :: j :: l, c => match r.getInt i j "capacity" with
    | .error e => .error e
    | .ok x => capLoop r (j :: l) (if c > x then x else c)
  | _, c => .ok c

/-- `find_cycle_capacity`: graph.py 2192-2215 -/
def cycleCapacity (r : Graph N) (cycle : List N) : Except PyErr Int :=
  match cycle with
  | [] => .error .indexError
  | v :: l => match r.getInt ((v :: l).getLast (by simp)) v "capacity" with
    | .error e => .error e
    | .ok c => capLoop r (v :: l) c

/-- the while loop of `augment_cycle`: graph.py 2337-2346 -/
def augLoop (g : Graph N) (amount : Int) : List N → (N × N → Int) → Except PyErr (N × N → Int)
  | i :: j :: l, f => match MaxFlow.pushArc g f i j amount with
    | .error e => .error e
    | .ok f => augLoop g amount (j :: l) f
  | _, f => .ok f

/-- `augment_cycle`: graph.py 2321-2354; the step on one arc, 2340-2345 and 2349-2354, is that of `max_flow` -/
def augmentCycle (g : Graph N) (amount : Int) (cycle : List N) (f : N × N → Int) : Except PyErr (N × N → Int) :=
  match cycle with
  | [] => .error .indexError
  | v :: l => match augLoop g amount (v :: l) f with
    | .error e => .error e
    | .ok f => MaxFlow.pushArc g f ((v :: l).getLast (by simp)) v amount

/-- `get_node(i).get_attr('demand')` compared with 0; a missing attribute is None -/
def demandOf (g : Graph N) (i : N) : Except PyErr Int :=
  match g.getNodeAttr i "demand" with
  | .error e => .error e
  | .ok (.int b) => .ok b
  | .ok _ => .error .typeError

/-- one node of the loop: graph.py 1632-1637; `s`, `t` are the names 's', 't' -/
def addDemand (s t : N) (g : Graph N) (i : N) (b : Int) : Except PyErr (Graph N) :=
  if b > 0 then g.call (.addEdge s i [("capacity", .int b)])
  else if b < 0 then g.call (.addEdge i t [("capacity", .int (-1 * b))])
  else .ok g

/-- arcs to the new nodes: graph.py 1630-1637 -/
def addDemands (s t : N) : List N → Graph N → Except PyErr (Graph N)
  | [], g => .ok g
  | i :: l, g => match demandOf g i with
    | .error e => .error e
    | .ok b => match addDemand s t g i b with
      | .error e => .error e
      | .ok g => addDemands s t l g

/-- is every arc from 's' full: graph.py 1642-1648 -/
def saturated (g : Graph N) (f : N × N → Int) (s : N) : List N → Except PyErr Bool
  | [] => .ok true
  | i :: l => match g.flowOf f s i with
    | .error e => .error e
    | .ok x => match g.capOf s i with
      | .error e => .error e
      | .ok c => if x ≠ c then .ok false else saturated g f s l

/-- `find_feasible_flow`: graph.py 1606-1652; the returned value, the column `flow` and the graph afterwards -/
def feasibleFlow (g : Graph N) (O : QOps N Q) (newQ : Q) (s t : N) (fuel : Nat) :
    Except PyErr (Bool × (N × N → Int) × Graph N) :=
  match addDemands s t g.getNodeList g with
  | .error e => .error e
  | .ok g1 => match MaxFlow.maxFlow g1 O newQ s t fuel with
    | .error e => .error e
    | .ok f => match g1.getNeighbors s with
      | .error e => .error e
      | .ok nb => match saturated g1 f s nb with
        | .error e => .error e
        | .ok b => match g1.call (.delNode s) with
          | .error e => .error e
          | .ok g2 => match g2.call (.delNode t) with
            | .error e => .error e
            | .ok g3 => .ok (b, f, g3)

/-- lines 1591-1604: cancel negative cycles until there are none; `inner` bounds the loops in `get_negative_cycle` -/
def cancelLoop (g : Graph N) (inner : Nat) : Nat → (N × N → Int) → Except PyErr (N × N → Int)
  | 0, _ => .error .diverge
  | k + 1, f => match residual g (fun u v => g.capOf u v) f with
    | .error e => .error e
    | .ok r => match FW.getNegativeCycle r inner with
      | .error e => .error e
      | .ok none => .ok f
      | .ok (some c) => match cycleCapacity r c with
        | .error e => .error e
        | .ok d => match augmentCycle g d c f with
          | .error e => .error e
          | .ok f => cancelLoop g inner k f

/-- `cycle_canceling`: graph.py 1564-1604; the returned value, the column `flow` and the graph afterwards -/
def cycleCanceling (g : Graph N) (O : QOps N Q) (newQ : Q) (s t : N) (fuel : Nat) :
    Except PyErr (Bool × (N × N → Int) × Graph N) :=
  match feasibleFlow g O newQ s t fuel with
  | .error e => .error e
  | .ok (false, f, g) => .ok (false, f, g)
  | .ok (true, f, g) => match cancelLoop g fuel fuel f with
    | .error e => .error e
    | .ok f => .ok (true, f, g)

end MinCost
end GiMPy
