import Verif.Model.Preflow
import Verif.Model.MaxFlowPic

/-! # Model of `max_flow_preflowpush` with the picture it leaves (src/gimpy/graph.py 1339-1535)

The same code as in `Model/Preflow.lean`, with the attribute `label` of the nodes and the attributes `color` and `label` of the
edges kept.  Each function here is the function of the same name there, carrying a `PPic` along.  Simplified: `show_flow`, which
goes over all nodes and arcs, is written pointwise (the attribute-by-attribute model is `Display.showFlow`, see C82; columns at
names that are not nodes or arcs are never read); the label of an arc whose capacity is not an integer is not modelled.  The
attributes written before the first call of `show_flow` (1362-1376) are the parameter `p` of `preflowPushP`: they are arbitrary.
The attribute `color` of the nodes is written by the call of `search` only (C124). -/

namespace GiMPy
variable {N : Type} [DecidableEq N] {Q QS : Type}

/-- the columns `label` of the nodes, `color` of the edges, `label` of the edges -/
structure PPic (N : Type) where
  node : N → String
  edge : N × N → FColor
  label : N × N → String

namespace Preflow
open Search MaxFlow

/-- `show_flow`: graph.py 1508-1535 -/
def showP (g : Graph N) (st : PState N Q) : PPic N where
  node := fun n => toString (st.excess n) ++ "/" ++ toString (st.dist n)
  edge := fun e => if atCap g e (st.flow e) then .red else if st.flow e > 0 then .green else .black
  label := fun e => flowLabel g e (st.flow e)

/-- the `for` loop: graph.py 1410-1429 -/
def forNbrsP (g : Graph N) (O : QOps N Q) (has : Q → N → Bool) (algo : PAlgo) (src sink cur : N) :
    List N → Option (Bool × N) → PState N Q → PPic N → Except PyErr (Bool × Option (Bool × N) × PState N Q × PPic N)
  | [], last, st, p => .ok (true, last, st, p)
  | n :: l, _, st, p => match processEdge g st cur n with
    | .error e => .error e
    | .ok (false, st) => forNbrsP g O has algo src sink cur l (some (false, n)) st p
    | .ok (true, st) =>
      if algo = .fifo ∧ st.excess cur > 0 then
        forNbrsP g O has algo src sink cur l (some (true, n)) { st with q := enqHead O has algo src sink n st.q } (showP g st)
      else .ok (false, some (true, n), { st with q := enqHead O has algo src sink n st.q }, showP g st)

/-- `relabel` and `show_flow`, if asked for: graph.py 1433-1435 -/
def relabelP (g : Graph N) (cur : N) (rel : Bool) (st : PState N Q) (p : PPic N) : Except PyErr (PState N Q × PPic N) :=
  if rel then
    match relabel g st cur with
    | .error e => .error e
    | .ok st => .ok (st, showP g st)
  else .ok (st, p)

/-- after the removal of `current`, which is not the sink: graph.py 1432-1440 -/
def settleP (g : Graph N) (O : QOps N Q) (algo : PAlgo) (cur : N) (rel : Bool) (st : PState N Q) (p : PPic N) :
    Except PyErr (PState N Q × PPic N) :=
  match relabelP g cur rel st p with
  | .error e => .error e
  | .ok (st, p) =>
    if st.excess cur > 0 then .ok ({ st with q := enq O algo st.q cur (-st.dist cur) }, p) else .ok (st, p)

/-- the body of the `while` loop for `current`: graph.py 1406-1445 -/
def stepP (g : Graph N) (O : QOps N Q) (has : Q → N → Bool) (algo : PAlgo) (src sink cur : N)
    (last : Option (Bool × N)) (st : PState N Q) (p : PPic N) : Except PyErr (Option (Bool × N) × PState N Q × PPic N) :=
  match g.getNeighbors cur with
  | .error e => .error e
  | .ok out => match g.getInNeighbors cur with
    | .error e => .error e
    | .ok inn => match forNbrsP g O has algo src sink cur (out ++ inn) last st p with
      | .error e => .error e
      | .ok (rel, last, st, p) =>
        match (if cur = sink then .ok ({ st with q := O.remove st.q cur }, p)
               else settleP g O algo cur rel { st with q := O.remove st.q cur } p) with
        | .error e => .error e
        | .ok (st, p) => match finish O has algo src last st with
          | .error e => .error e
          | .ok st => .ok (last, st, p)

/-- the `while` loop: graph.py 1405-1445 -/
def loopP (g : Graph N) (O : QOps N Q) (has : Q → N → Bool) (algo : PAlgo) (src sink : N) :
    Nat → Option (Bool × N) → PState N Q → PPic N → Except PyErr (PState N Q × PPic N)
  | 0, _, _, _ => .error .diverge
  | k + 1, last, st, p =>
    if O.isEmpty st.q then .ok (st, p)
    else match O.peek st.q with
      | none => .error .indexError
      | some cur => match stepP g O has algo src sink cur last st p with
        | .error e => .error e
        | .ok (last, st, p) => loopP g O has algo src sink k last st p

/-- the end of the preparation, the first `show_flow` at 1404 and the `while` loop: graph.py 1403-1445 -/
def mainP (g : Graph N) (O : QOps N Q) (has : Q → N → Bool) (algo : PAlgo) (src sink : N) (fuel : Nat) (st : PState N Q)
    (_p : PPic N) : Except PyErr (PState N Q × PPic N) :=
  loopP g O has algo src sink fuel none { st with dist := upd st.dist src g.getNodeList.length }
    (showP g { st with dist := upd st.dist src g.getNodeList.length })

/-- `Graph.max_flow_preflowpush`: graph.py 1339-1445; `p` is the picture before the first call of `show_flow` -/
def preflowPushP (g : Graph N) (OS : QOps N QS) (col : SState N QS) (O : QOps N Q) (has : Q → N → Bool) (newQ : Q)
    (algo : PAlgo) (src sink : N) (fuel : Nat) (p : PPic N) : Except PyErr (PState N Q × PPic N) :=
  match search g OS .unweightedSPT true none none sink col fuel with
  | .error e => .error e
  | .ok (_, s) => match g.getNeighbors src with
    | .error e => .error e
    | .ok out => match saturate g O algo src out ⟨newQ, fun _ => 0, fun _ => 0, firstLabels g s.dist⟩ with
      | .error e => .error e
      | .ok st => mainP g O has algo src sink fuel st p

end Preflow
end GiMPy
