import Verif.Model.Search

/-! # Model of `Graph.search` with the attributes it only writes (src/gimpy/graph.py 974-1241)

The same code as in `Model/Search.lean`, with the edge attribute `color` and the node attribute `label` kept.  Each function
here is the function of the same name there, carrying a `Pic` along.  Simplified: the attribute `depth` is dropped (only
written, graph.py 1225), `display()` is a no-op, the pictures between the steps are not kept. -/

namespace GiMPy
variable {N : Type} [DecidableEq N]

/-- the values of the edge attribute `color` used by `search` -/
inductive EColor | black | yellow | green
  deriving DecidableEq

/-- the columns `color` of the edges (by key of `edge_attr`) and `label` of the nodes -/
structure Pic (N : Type) where
  edge : N × N → EColor
  label : N → Val N

/-- the key of `edge_attr` that `set_edge_attr(u, v, ...)` writes to: graph.py 545-554 -/
def Graph.edgeKey (g : Graph N) (u v : N) : N × N := if g.edgeAttr.contains (u, v) then (u, v) else (v, u)

namespace Search
variable {Q : Type}

/-- the key for the edge `u,v` (`v,u` when `reverse`), e.g. graph.py 1059-1062 -/
def ekey (g : Graph N) (rev : Bool) (u v : N) : N × N := if rev then g.edgeKey v u else g.edgeKey u v

/-- `set_edge_attr(u, v, 'color', c)` (`v, u` when `reverse`) -/
def paint (g : Graph N) (rev : Bool) (u v : N) (c : EColor) (p : Pic N) : Pic N :=
  ⟨upd p.edge (ekey g rev u v) c, p.label⟩

/-- `set_attr('label', x)` of a node -/
def tag (v : N) (x : Val N) (p : Pic N) : Pic N := ⟨p.edge, upd p.label v x⟩

/-- inner reset loop, graph.py 1039-1043 -/
def touchAllP (g : Graph N) (rev : Bool) (i : N) : List N → Pic N → Except PyErr (Pic N)
  | [], p => .ok p
  | j :: l, p => match touch g rev i j with
    | .error e => .error e
    | .ok _ => touchAllP g rev i l (paint g rev i j .black p)

/-- reset loop, graph.py 1034-1043 -/
def resetP (g : Graph N) (rev : Bool) : List N → Pic N → Except PyErr (Pic N)
  | [], p => .ok p
  | i :: is, p => match nbrs g rev i with
    | .error e => .error e
    | .ok l => match touchAllP g rev i l (tag i (.str "-") p) with
      | .error e => .error e
      | .ok p => resetP g rev is p

/-- `process_edge_dijkstra` (graph.py 1134-1142) and `process_edge_prim` (1167-1174) for `current` not None -/
def processEdgePQP (O : QOps N Q) (st : SState N Q) (p : Pic N) (cur n : N) (est : Int) :
    Except PyErr (SState N Q × Pic N) :=
  if st.pred.contains n then
    match O.getPriority st.q n with
    | none => .error .typeError
    | some x =>
      if est < x then
        .ok ({ st with pred := st.pred.set n cur, q := O.pushP st.q n est, color := upd st.color n .black },
          tag n (.int est) p)
      else .ok (st, p)
  else .ok ({ st with pred := st.pred.set n cur, q := O.pushP st.q n est, color := upd st.color n .black },
    tag n (.int est) p)

/-- the label written at the end of `process_edge_search`: graph.py 1238-1240 -/
def finishLabel (comp : Option Int) (n : N) (p : Pic N) : Pic N :=
  match comp with
  | some c => tag n (.int c) p
  | none => p

/-- `process_edge_search` for `current` not None: graph.py 1198-1203, 1216-1241 -/
def processEdgeP (g : Graph N) (O : QOps N Q) (algo : Algo) (comp : Option Int) (st : SState N Q) (p : Pic N)
    (cur n : N) : Except PyErr (SState N Q × Pic N) :=
  match algo with
  | .dijkstra =>
    match O.getPriority st.q cur with
    | none => .error .typeError
    | some x => match g.getEdgeCost cur n with
      | .error e => .error e
      | .ok w => processEdgePQP O st p cur n (x + w)
  | .prim =>
    match g.getEdgeCost cur n with
    | .error e => .error e
    | .ok w => processEdgePQP O st p cur n w
  | _ =>
    match st.dist cur with
    | none => .error .typeError
    | some d =>
      if O.isPQ then
        let pr : Int := if algo = .dfs then -d - 1 else d + 1
        if (match O.getPriority st.q n with | some p => decide (pr ≥ p) | none => false) then .ok (st, p)
        else .ok (finishEdge comp { st with q := O.pushP st.q n pr,
                                            dist := if algo = .dfs then st.dist else upd st.dist n (some pr) } cur n,
          finishLabel comp n p)
      else if algo ≠ .dfs ∧ (st.dist n).isSome then .ok (st, p)
      else .ok (finishEdge comp { st with q := O.push st.q n, dist := upd st.dist n (some (d + 1)) } cur n,
        finishLabel comp n (tag n (.str (toString (d + 1))) p))

/-- the label of the source: graph.py 1129, 1162, 1209-1213 -/
def sourceLabel (algo : Algo) (comp : Option Int) : Val N :=
  match algo with
  | .dijkstra => .int 0
  | .prim => .int 0
  | _ => match comp with
    | some c => .int c
    | none => .int 0

/-- the `for n in neighbors[current]` loop: graph.py 1067-1079 -/
def forNbrsP (g : Graph N) (O : QOps N Q) (algo : Algo) (rev : Bool) (comp : Option Int) (cur : N) :
    List N → SState N Q → Pic N → Except PyErr (SState N Q × Pic N)
  | [], st, p => .ok (st, p)
  | n :: l, st, p =>
    if st.color n = .green then forNbrsP g O algo rev comp cur l st p
    else match touch g rev cur n with
      | .error e => .error e
      | .ok _ => match processEdgeP g O algo comp st (paint g rev cur n .yellow p) cur n with
        | .error e => .error e
        | .ok (st', p') => match touch g rev cur n with
          | .error e => .error e
          | .ok _ => forNbrsP g O algo rev comp cur l st' (paint g rev cur n .black p')

/-- the colour of the tree edge of `current`: graph.py 1058-1062 -/
def enterP (g : Graph N) (O : QOps N Q) (rev : Bool) (src : N) (st : SState N Q) (p : Pic N) (cur : N) :
    Except PyErr (SState N Q × Pic N) :=
  let st := if O.isPQ then { st with prio := upd st.prio cur (O.getPriority st.q cur) } else st
  let st := { st with color := upd st.color cur .blue }
  if cur = src then .ok (st, p)
  else match st.pred.get? cur with
    | none => .error .keyError
    | some x => match touch g rev x cur with
      | .error e => .error e
      | .ok _ => .ok (st, paint g rev x cur .green p)

/-- the rest of the loop body: graph.py 1067-1082 -/
def visitP (g : Graph N) (O : QOps N Q) (algo : Algo) (rev : Bool) (comp : Option Int) (st : SState N Q) (p : Pic N)
    (cur : N) : Except PyErr (SState N Q × Pic N) :=
  match nbrs g rev cur with
  | .error e => .error e
  | .ok l => match forNbrsP g O algo rev comp cur l st p with
    | .error e => .error e
    | .ok (st, p) => .ok ({ st with q := O.remove st.q cur, color := upd st.color cur .green }, p)

/-- the `while` loop of `search`: graph.py 1051-1082; the Boolean is `found` -/
def loopP (g : Graph N) (O : QOps N Q) (algo : Algo) (rev : Bool) (comp : Option Int) (dest : Option N) (src : N) :
    Nat → SState N Q → Pic N → Except PyErr (Bool × SState N Q × Pic N)
  | 0, _, _ => .error .diverge
  | f + 1, st, p =>
    if O.isEmpty st.q then .ok (false, st, p)
    else match O.peek st.q with
      | none => .error .indexError
      | some cur =>
        if st.color cur = .green then
          loopP g O algo rev comp dest src f { st with q := O.remove st.q cur } p
        else match enterP g O rev src st p cur with
          | .error e => .error e
          | .ok (st, p) =>
            if dest = some cur then .ok (true, st, p)
            else match visitP g O algo rev comp st p cur with
              | .error e => .error e
              | .ok (st, p) => loopP g O algo rev comp dest src f st p

/-- `Graph.search`: graph.py 974-1093, for a recognised `algo`.  `pic` are the columns left by earlier calls. -/
def searchP (g : Graph N) (O : QOps N Q) (algo : Algo) (rev : Bool) (comp : Option Int) (dest : Option N) (src : N)
    (col : SState N Q) (pic : Pic N) (fuel : Nat) : Except PyErr (SearchRes N × SState N Q × Pic N) :=
  if ¬ g.hasNode src then .error .attributeError
  else match resetP g rev g.getNodeList pic with
    | .error e => .error e
    | .ok pic =>
      match (if dest = some src then .ok (true, start O algo comp src col, tag src (sourceLabel algo comp) pic)
             else loopP g O algo rev comp dest src fuel (start O algo comp src col)
               (tag src (sourceLabel algo comp) pic)) with
      | .error e => .error e
      | .ok (found, st, p) =>
        if found then
          match dest with
          | none => .error .keyError
          | some d => match reconstruct st.pred src fuel d [d] with
            | .error e => .error e
            | .ok l => .ok (.path l, st, p)
        else match dest with
          | none => .ok (.pred st.pred, st, p)
          | some _ => .ok (.none, st, p)

end Search
end GiMPy
