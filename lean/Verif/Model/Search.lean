import Verif.Model.Graph

/-! # Model of `Graph.search` and its helpers (src/gimpy/graph.py 931-944, 974-1241)

The graph structure and the edge costs are only read, so they stay in the immutable argument `g`.  Node attributes
that the algorithm reads back are *columns* of the state: `color`, `distance`, `priority`, `component`.
Simplified: the write-only attributes `label` and `depth` and the edge attribute `color` are dropped, but the KeyError
that `set_edge_attr` raises for a missing edge is kept (`touch`); `display()` is a no-op (mode 'off').
The queue classes come from the package `blimpy`, which is not part of the repository: the queue is a parameter. -/

namespace GiMPy
variable {N : Type} [DecidableEq N]

/-- The operations of `blimpy` `Stack`, `Queue` and `PriorityQueue` used by graph.py.  `isPQ` is
`isinstance(q, PriorityQueue)`; `push` is `push(x)`, `pushP` is `push(x, priority)`. -/
structure QOps (N Q : Type) where
  isEmpty : Q → Bool
  peek : Q → Option N
  push : Q → N → Q
  pushP : Q → N → Int → Q
  remove : Q → N → Q
  getPriority : Q → N → Option Int
  isPQ : Bool

/-- The recognised values of the argument `algo`; any other value prints a message and returns None (1034-1036). -/
inductive Algo | dfs | bfs | unweightedSPT | dijkstra | prim
  deriving DecidableEq

/-- The values of the node attribute `color` used by the algorithms. -/
inductive Color | black | red | blue | green
  deriving DecidableEq

/-- Point update of a column. -/
def upd {A B : Type} [DecidableEq A] (f : A → B) (a : A) (b : B) : A → B := fun x => if x = a then b else f x

/-- Local variables and node-attribute columns of `search`. -/
structure SState (N Q : Type) where
  q : Q
  pred : Dict N N
  color : N → Color
  dist : N → Option Int
  prio : N → Option Int
  comp : N → Option Int

/-- What `search` returns: the path (1084-1090), the predecessor dictionary (1091-1092) or None (1093). -/
inductive SearchRes (N : Type)
  | path (l : List N) | pred (d : Dict N N) | none

namespace Search
variable {Q : Type}

/-- `neighbors[u]` for the table chosen at graph.py 1037-1039. -/
def nbrs (g : Graph N) (rev : Bool) (u : N) : Except PyErr (List N) :=
  if g.directed && rev then g.getInNeighbors u else g.getNeighbors u

/-- the colour writes on edge `u,v` (`v,u` when `reverse`), e.g. graph.py 1061-1065: KeyError if there is no such edge. -/
def touch (g : Graph N) (rev : Bool) (u v : N) : Except PyErr Unit :=
  if (if rev then g.checkEdge v u else g.checkEdge u v) then .ok () else .error .keyError

/-- inner reset loop, graph.py 1045-1049 -/
def touchAll (g : Graph N) (rev : Bool) (i : N) : List N → Except PyErr Unit
  | [] => .ok ()
  | j :: l => match touch g rev i j with
    | .error e => .error e
    | .ok _ => touchAll g rev i l

/-- edge part of the reset loop, graph.py 1040-1049 -/
def resetEdges (g : Graph N) (rev : Bool) : List N → Except PyErr Unit
  | [] => .ok ()
  | i :: is => match nbrs g rev i with
    | .error e => .error e
    | .ok l => match touchAll g rev i l with
      | .error e => .error e
      | .ok _ => resetEdges g rev is

/-- `process_edge_dijkstra` (graph.py 1132-1142) and `process_edge_prim` (1165-1174) for `current` not None; they
differ in `new_estimate` only. -/
def processEdgePQ (O : QOps N Q) (st : SState N Q) (cur n : N) (est : Int) : Except PyErr (SState N Q) :=
  if st.pred.contains n then
    match O.getPriority st.q n with
    | none => .error .typeError
    | some p =>
      if est < p then
        .ok { st with pred := st.pred.set n cur, q := O.pushP st.q n est, color := upd st.color n .black }
      else .ok st
  else .ok { st with pred := st.pred.set n cur, q := O.pushP st.q n est, color := upd st.color n .black }

/-- tail of `process_edge_search`: graph.py 1234-1241 -/
def finishEdge (comp : Option Int) (st : SState N Q) (cur n : N) : SState N Q :=
  { st with pred := st.pred.set n cur, color := upd st.color n .red,
            comp := if comp.isSome then upd st.comp n comp else st.comp }

/-- `process_edge_search` for `current` not None: graph.py 1198-1203, 1216-1241. -/
def processEdge (g : Graph N) (O : QOps N Q) (algo : Algo) (comp : Option Int) (st : SState N Q) (cur n : N) :
    Except PyErr (SState N Q) :=
  match algo with
  | .dijkstra =>
    match O.getPriority st.q cur with
    | none => .error .typeError
    | some p => match g.getEdgeCost cur n with
      | .error e => .error e
      | .ok w => processEdgePQ O st cur n (p + w)
  | .prim =>
    match g.getEdgeCost cur n with
    | .error e => .error e
    | .ok w => processEdgePQ O st cur n w
  | _ =>
    match st.dist cur with
    | none => .error .typeError
    | some d =>
      if O.isPQ then
        let pr : Int := if algo = .dfs then -d - 1 else d + 1
        if (match O.getPriority st.q n with | some p => decide (pr ≥ p) | none => false) then .ok st
        else .ok (finishEdge comp { st with q := O.pushP st.q n pr,
                                            dist := if algo = .dfs then st.dist else upd st.dist n (some pr) } cur n)
      else if algo ≠ .dfs ∧ (st.dist n).isSome then .ok st
      else .ok (finishEdge comp { st with q := O.push st.q n, dist := upd st.dist n (some (d + 1)) } cur n)

/-- `process_edge_search(None, source, ...)`: graph.py 1126-1131, 1159-1164, 1205-1215. -/
def processSource (O : QOps N Q) (algo : Algo) (comp : Option Int) (st : SState N Q) (s : N) : SState N Q :=
  match algo with
  | .dijkstra => { st with q := O.pushP st.q s 0, color := upd st.color s .black }
  | .prim => { st with q := O.pushP st.q s 0, color := upd st.color s .black }
  | _ => { st with dist := upd st.dist s (some 0),
                   q := if O.isPQ then O.pushP st.q s 0 else O.push st.q s,
                   comp := if comp.isSome then upd st.comp s comp else st.comp }

/-- the `for n in neighbors[current]` loop: graph.py 1070-1082 -/
def forNbrs (g : Graph N) (O : QOps N Q) (algo : Algo) (rev : Bool) (comp : Option Int) (cur : N) :
    List N → SState N Q → Except PyErr (SState N Q)
  | [], st => .ok st
  | n :: l, st =>
    if st.color n = .green then forNbrs g O algo rev comp cur l st
    else match touch g rev cur n with
      | .error e => .error e
      | .ok _ => match processEdge g O algo comp st cur n with
        | .error e => .error e
        | .ok st' => match touch g rev cur n with
          | .error e => .error e
          | .ok _ => forNbrs g O algo rev comp cur l st'

/-- `process_node_search` (graph.py 1095-1109), colouring of `current` and of its tree edge (1058-1065). -/
def enter (g : Graph N) (O : QOps N Q) (rev : Bool) (src : N) (st : SState N Q) (cur : N) :
    Except PyErr (SState N Q) :=
  let st := if O.isPQ then { st with prio := upd st.prio cur (O.getPriority st.q cur) } else st
  let st := { st with color := upd st.color cur .blue }
  if cur = src then .ok st
  else match st.pred.get? cur with
    | none => .error .keyError
    | some p => match touch g rev p cur with
      | .error e => .error e
      | .ok _ => .ok st

/-- the rest of the loop body: graph.py 1070-1084 -/
def visit (g : Graph N) (O : QOps N Q) (algo : Algo) (rev : Bool) (comp : Option Int) (st : SState N Q) (cur : N) :
    Except PyErr (SState N Q) :=
  match nbrs g rev cur with
  | .error e => .error e
  | .ok l => match forNbrs g O algo rev comp cur l st with
    | .error e => .error e
    | .ok st => .ok { st with q := O.remove st.q cur, color := upd st.color cur .green }

/-- the `while` loop of `search`: graph.py 1053-1085; the Boolean is `found`. -/
def loop (g : Graph N) (O : QOps N Q) (algo : Algo) (rev : Bool) (comp : Option Int) (dest : Option N) (src : N) :
    Nat → SState N Q → Except PyErr (Bool × SState N Q)
  | 0, _ => .error .diverge
  | f + 1, st =>
    if O.isEmpty st.q then .ok (false, st)
    else match O.peek st.q with
      | none => .error .indexError
      | some cur =>
        if st.color cur = .green then
          loop g O algo rev comp dest src f { st with q := O.remove st.q cur }
        else match enter g O rev src st cur with
          | .error e => .error e
          | .ok st =>
            if dest = some cur then .ok (true, st)
            else match visit g O algo rev comp st cur with
              | .error e => .error e
              | .ok st => loop g O algo rev comp dest src f st

/-- the path reconstruction loop: graph.py 1086-1090 -/
def reconstruct (pred : Dict N N) (src : N) : Nat → N → List N → Except PyErr (List N)
  | 0, _, _ => .error .diverge
  | f + 1, cur, path =>
    if cur = src then .ok path
    else match pred.get? cur with
      | none => .error .keyError
      | some p => reconstruct pred src f p (p :: path)

/-- State before the loop: the reset (graph.py 1040-1044) over all nodes and the source (1051-1052).
`col` are the columns left by earlier calls.  Columns at names that are not nodes are never read. -/
def start (O : QOps N Q) (algo : Algo) (comp : Option Int) (src : N) (col : SState N Q) : SState N Q :=
  let col := match algo with
    | .dijkstra => col
    | .prim => col
    | _ => { col with comp := upd col.comp src comp }
  processSource O algo comp
    { col with
      pred := .empty
      color := fun _ => .black
      dist := fun _ => none
      prio := fun _ => none } src

/-- `Graph.search`: graph.py 974-1093, for a recognised `algo`.  `col.q` is the queue object passed (a fresh one by
default); `fuel` bounds both `while` loops. -/
def search (g : Graph N) (O : QOps N Q) (algo : Algo) (rev : Bool) (comp : Option Int) (dest : Option N) (src : N)
    (col : SState N Q) (fuel : Nat) : Except PyErr (SearchRes N × SState N Q) :=
  if ¬ g.hasNode src then .error .attributeError
  else match resetEdges g rev g.getNodeList with
    | .error e => .error e
    | .ok _ =>
      match (if dest = some src then .ok (true, start O algo comp src col)
             else loop g O algo rev comp dest src fuel (start O algo comp src col)) with
      | .error e => .error e
      | .ok (found, st) =>
        if found then
          match dest with
          | none => .error .keyError
          | some d => match reconstruct st.pred src fuel d [d] with
            | .error e => .error e
            | .ok l => .ok (.path l, st)
        else match dest with
          | none => .ok (.pred st.pred, st)
          | some _ => .ok (.none, st)

end Search
end GiMPy
