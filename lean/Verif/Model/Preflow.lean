import Verif.Model.MaxFlow

/-! # Model of `max_flow_preflowpush`, `process_edge_flow` and `relabel` (src/gimpy/graph.py 1339-1506)

The edge attribute `flow` and the node attributes `excess` and `distance` are columns, `capacity` is read from the graph
with `Graph.capOf` as in `Model/MaxFlow.lean`.  Left out: the display mode and `show_flow` (1508-1535, in `Model/Display.lean`), which
writes labels and colours that are not read here, and the printed warning.  The queue of the main loop is a parameter; `has q n` is
`q.peek(n) is not None`. -/

namespace GiMPy
namespace Preflow
open Search
variable {N : Type} [DecidableEq N] {Q QS : Type}

/-- The recognised values of `algo`; with any other the local variable `q` has no value at line 1405. -/
inductive PAlgo | fifo | sap | highest
  deriving DecidableEq

/-- the queue and the columns -/
structure PState (N Q : Type) where
  q : Q
  flow : N × N → Int
  excess : N → Int
  dist : N → Int

/-- `process_edge_flow` once `edge`, `mult` and `capacity` are known: graph.py 1474-1484 -/
def pushOn (st : PState N Q) (e : N × N) (mult cap : Int) (i j : N) : Bool × PState N Q :=
  if cap - mult * st.flow e = 0 then (false, st)
  else (true, { st with
    flow := upd st.flow e (mult * (mult * st.flow e + min (st.excess i) (cap - mult * st.flow e)))
    excess := upd (upd st.excess i (st.excess i - min (st.excess i) (cap - mult * st.flow e))) j
      (st.excess j + min (st.excess i) (cap - mult * st.flow e)) })

/-- `process_edge_flow`: graph.py 1447-1484 -/
def processEdge (g : Graph N) (st : PState N Q) (i j : N) : Except PyErr (Bool × PState N Q) :=
  if st.dist i ≠ st.dist j + 1 then .ok (false, st)
  else if g.edgeAttr.contains (i, j) then
    match g.capOf i j with
    | .error e => .error e
    | .ok c => .ok (pushOn st (i, j) 1 c i j)
  else if g.edgeAttr.contains (j, i) then .ok (pushOn st (j, i) (-1) 0 i j)
  else .error .keyError

/-- the loop over the neighbours in `relabel`: graph.py 1497-1501 -/
def minOut (g : Graph N) (st : PState N Q) (i : N) : List N → Int → Except PyErr Int
  | [], m => .ok m
  | j :: l, m =>
    if st.dist j < m then
      match g.flowOf st.flow i j with
      | .error e => .error e
      | .ok x => match g.capOf i j with
        | .error e => .error e
        | .ok c => minOut g st i l (if x < c then st.dist j else m)
    else minOut g st i l m

/-- the loop over the in-neighbours in `relabel`: graph.py 1502-1505 -/
def minIn (g : Graph N) (st : PState N Q) (i : N) : List N → Int → Except PyErr Int
  | [], m => .ok m
  | j :: l, m =>
    if st.dist j < m then
      match g.flowOf st.flow j i with
      | .error e => .error e
      | .ok x => minIn g st i l (if 0 < x then st.dist j else m)
    else minIn g st i l m

/-- `relabel`: graph.py 1486-1506 -/
def relabel (g : Graph N) (st : PState N Q) (i : N) : Except PyErr (PState N Q) :=
  match g.getNeighbors i with
  | .error e => .error e
  | .ok out => match minOut g st i out (2 * g.getNodeList.length + 1) with
    | .error e => .error e
    | .ok m => match g.getInNeighbors i with
      | .error e => .error e
      | .ok inn => match minIn g st i inn m with
        | .error e => .error e
        | .ok m => .ok { st with dist := upd st.dist i (m + 1) }

/-- `q.push(x)`, or with priority `p` for 'HighestLabel': graph.py 1399-1402, 1436-1445 -/
def enq (O : QOps N Q) (algo : PAlgo) (q : Q) (x : N) (p : Int) : Q :=
  match algo with
  | .highest => O.pushP q x p
  | _ => O.push q x

/-- with 'FIFO' the head of the arc is put into the queue at once: graph.py 1420-1421 -/
def enqHead (O : QOps N Q) (has : Q → N → Bool) (algo : PAlgo) (src sink n : N) (q : Q) : Q :=
  if algo = .fifo ∧ has q n = false ∧ n ≠ src ∧ n ≠ sink then O.push q n else q

/-- the `for` loop: graph.py 1410-1429.  The result is `relabel`, and the variables `pushed` and `n`, for which `last`
is the value before the loop. -/
def forNbrs (g : Graph N) (O : QOps N Q) (has : Q → N → Bool) (algo : PAlgo) (src sink cur : N) :
    List N → Option (Bool × N) → PState N Q → Except PyErr (Bool × Option (Bool × N) × PState N Q)
  | [], last, st => .ok (true, last, st)
  | n :: l, _, st => match processEdge g st cur n with
    | .error e => .error e
    | .ok (false, st) => forNbrs g O has algo src sink cur l (some (false, n)) st
    | .ok (true, st) =>
      if algo = .fifo ∧ st.excess cur > 0 then
        forNbrs g O has algo src sink cur l (some (true, n)) { st with q := enqHead O has algo src sink n st.q }
      else .ok (false, some (true, n), { st with q := enqHead O has algo src sink n st.q })

/-- after the removal of `current`, which is not the sink: graph.py 1432-1440 -/
def settle (g : Graph N) (O : QOps N Q) (algo : PAlgo) (cur : N) (rel : Bool) (st : PState N Q) :
    Except PyErr (PState N Q) :=
  match (if rel then relabel g st cur else .ok st) with
  | .error e => .error e
  | .ok st =>
    if st.excess cur > 0 then .ok { st with q := enq O algo st.q cur (-st.dist cur) } else .ok st

/-- graph.py 1441-1445; `pushed` has no value if no neighbour was ever looked at -/
def finish (O : QOps N Q) (has : Q → N → Bool) (algo : PAlgo) (src : N) (last : Option (Bool × N)) (st : PState N Q) :
    Except PyErr (PState N Q) :=
  match last with
  | none => .error .unboundLocal
  | some (pushed, n) =>
    if pushed = true ∧ has st.q n = false ∧ n ≠ src ∧ algo ≠ .fifo then
      .ok { st with q := enq O algo st.q n (-st.dist n) }
    else .ok st

/-- the body of the `while` loop for `current`: graph.py 1406-1445 -/
def step (g : Graph N) (O : QOps N Q) (has : Q → N → Bool) (algo : PAlgo) (src sink cur : N)
    (last : Option (Bool × N)) (st : PState N Q) : Except PyErr (Option (Bool × N) × PState N Q) :=
  match g.getNeighbors cur with
  | .error e => .error e
  | .ok out => match g.getInNeighbors cur with
    | .error e => .error e
    | .ok inn => match forNbrs g O has algo src sink cur (out ++ inn) last st with
      | .error e => .error e
      | .ok (rel, last, st) =>
        match (if cur = sink then .ok { st with q := O.remove st.q cur }
               else settle g O algo cur rel { st with q := O.remove st.q cur }) with
        | .error e => .error e
        | .ok st => match finish O has algo src last st with
          | .error e => .error e
          | .ok st => .ok (last, st)

/-- the `while` loop: graph.py 1405-1445 -/
def loop (g : Graph N) (O : QOps N Q) (has : Q → N → Bool) (algo : PAlgo) (src sink : N) :
    Nat → Option (Bool × N) → PState N Q → Except PyErr (PState N Q)
  | 0, _, _ => .error .diverge
  | k + 1, last, st =>
    if O.isEmpty st.q then .ok st
    else match O.peek st.q with
      | none => .error .indexError
      | some cur => match step g O has algo src sink cur last st with
        | .error e => .error e
        | .ok (last, st) => loop g O has algo src sink k last st

/-- the arcs out of the source: graph.py 1393-1402 -/
def saturate (g : Graph N) (O : QOps N Q) (algo : PAlgo) (src : N) : List N → PState N Q → Except PyErr (PState N Q)
  | [], st => .ok st
  | n :: l, st => match g.capOf src n with
    | .error e => .error e
    | .ok c => saturate g O algo src l
      { st with
        flow := upd st.flow (src, n) c
        excess := upd (upd st.excess n c) src (upd st.excess n c src - c)
        q := enq O algo st.q n (-1) }

/-- the labels after `search` and their completion: graph.py 1377-1384 -/
def firstLabels (g : Graph N) (d : N → Option Int) (v : N) : Int := (d v).getD (2 * g.getNodeList.length + 1)

/-- `Graph.max_flow_preflowpush`: graph.py 1339-1445; the method returns None, the result here is the state it leaves.
`OS`, `col` are the queue and the columns for the call of `search`; `newQ` is the empty queue made at 1387-1392. -/
def preflowPush (g : Graph N) (OS : QOps N QS) (col : SState N QS) (O : QOps N Q) (has : Q → N → Bool) (newQ : Q)
    (algo : PAlgo) (src sink : N) (fuel : Nat) : Except PyErr (PState N Q) :=
  match search g OS .unweightedSPT true none none sink col fuel with
  | .error e => .error e
  | .ok (_, s) => match g.getNeighbors src with
    | .error e => .error e
    | .ok out => match saturate g O algo src out ⟨newQ, fun _ => 0, fun _ => 0, firstLabels g s.dist⟩ with
      | .error e => .error e
      | .ok st => loop g O has algo src sink fuel none { st with dist := upd st.dist src g.getNodeList.length }

end Preflow
end GiMPy
