import Verif.Model.MaxFlow

/-! # Model of `Graph.max_flow` with the attributes it only writes (src/gimpy/graph.py 1880-2043)

The same code as in `Model/MaxFlow.lean`, with the attributes `color` of nodes and edges and `label` of edges kept.  Each
function here is the function of the same name there, carrying an `FPic` along.  Simplified: loops that write one attribute
of all nodes or edges are written pointwise (columns at names that are not nodes or edges are never read); the label of an
arc whose capacity is not an integer is not modelled; `display()` is a no-op. -/

namespace GiMPy
variable {N : Type} [DecidableEq N] {Q : Type}

/-- the colours used by `max_flow` -/
inductive FColor | black | yellow | blue | red | green
  deriving DecidableEq

/-- the columns `color` of the nodes, `color` of the edges, `label` of the edges -/
structure FPic (N : Type) where
  node : N → FColor
  edge : N × N → FColor
  label : N × N → String

namespace MaxFlow

/-- the labels written first: graph.py 1902-1909 -/
def firstLabel (g : Graph N) (e : N × N) : String :=
  match (g.edgeAttr.get? e).bind (·.get? "capacity") with
  | none => "INF/0"
  | some (.int c) => toString c ++ "/0"
  | some _ => ""

/-- the comparison `flow == capacity` of the arc `e`: graph.py 1924, 1963, 1971, 2018 -/
def atCap (g : Graph N) (e : N × N) (x : Int) : Bool :=
  match g.capOf e.1 e.2 with
  | .ok c => x == c
  | .error _ => false

/-- the colours before a search: graph.py 1919-1927 -/
def reset (g : Graph N) (f : N × N → Int) (p : FPic N) : FPic N where
  node := fun _ => .black
  edge := fun e => if f e = 0 then .black else if atCap g e (f e) then .red else .green
  label := p.label

/-- the arc that is coloured when `m` is looked at from `cur`: graph.py 1941-1946 -/
def arcKey (cur : N) (out : List N) (m : N) : N × N := if m ∈ out then (cur, m) else (m, cur)

/-- `color` of `m` and of the arc `k` -/
def _root_.GiMPy.FPic.paint (p : FPic N) (m : N) (k : N × N) (c d : FColor) : FPic N := ⟨upd p.node m c, upd p.edge k d, p.label⟩

/-- the colour of an arc that cannot be used; otherwise it stays yellow: graph.py 1961-1976 -/
def fullColor (g : Graph N) (f : N × N → Int) (k : N × N) : FColor :=
  if atCap g k (f k) then .red else if f k = 0 then .black else .yellow

/-- the loop over the neighbours: graph.py 1937-1977 -/
def scanP (g : Graph N) (O : QOps N Q) (f : N × N → Int) (cur : N) (out : List N) :
    List N → XState N Q → FPic N → Except PyErr (XState N Q × FPic N)
  | [], st, p => .ok (st, p)
  | m :: l, st, p =>
    if m ∈ st.explored then scanP g O f cur out l st p
    else match avail g f cur out m with
      | .error e => .error e
      | .ok a =>
        if a > 0 then scanP g O f cur out l ⟨O.push st.q m, st.pred.set m (some cur), m :: st.explored⟩
          ((p.paint m (arcKey cur out m) .yellow .yellow).paint m (arcKey cur out m) .blue .blue)
        else scanP g O f cur out l st
          ((p.paint m (arcKey cur out m) .yellow .yellow).paint m (arcKey cur out m) .black
            (fullColor g f (arcKey cur out m)))

/-- the search loop: graph.py 1929-1977 -/
def findP (g : Graph N) (O : QOps N Q) (f : N × N → Int) (sink : N) :
    Nat → XState N Q → FPic N → Except PyErr (XState N Q × FPic N)
  | 0, _, _ => .error .diverge
  | k + 1, st, p =>
    if O.isEmpty st.q then .ok (st, p)
    else match O.peek st.q with
      | none => .error .indexError
      | some cur =>
        if cur = sink then .ok ({ st with q := O.remove st.q cur }, p)
        else match g.getNeighbors cur with
          | .error e => .error e
          | .ok out => match g.getInNeighbors cur with
            | .error e => .error e
            | .ok inn => match scanP g O f cur out (out ++ inn) { st with q := O.remove st.q cur } p with
              | .error e => .error e
              | .ok (st, p) => findP g O f sink k st p

/-- the label of an arc with flow `x`: graph.py 2012-2017, 2028-2033 -/
def flowLabel (g : Graph N) (k : N × N) (x : Int) : String :=
  match g.capOf k.1 k.2 with
  | .ok c => (if c = INF then "INF" else toString c) ++ "/" ++ toString x
  | .error _ => ""

/-- update of one arc: graph.py 2007-2038 -/
def pushArcP (g : Graph N) (f : N × N → Int) (p : FPic N) (m cur : N) (d : Int) : Except PyErr ((N × N → Int) × FPic N) :=
  if g.edgeAttr.contains (m, cur) then
    .ok (upd f (m, cur) (f (m, cur) + d), ⟨p.node,
      upd p.edge (m, cur) (if atCap g (m, cur) (f (m, cur) + d) then .red else .green),
      upd p.label (m, cur) (flowLabel g (m, cur) (f (m, cur) + d))⟩)
  else if g.edgeAttr.contains (cur, m) then
    .ok (upd f (cur, m) (f (cur, m) - d), ⟨p.node,
      upd p.edge (cur, m) (if f (cur, m) - d = 0 then .red else .green),
      upd p.label (cur, m) (flowLabel g (cur, m) (f (cur, m) - d))⟩)
  else .error .keyError

/-- update of the flows on the path: graph.py 2003-2041 -/
def augmentP (g : Graph N) (pred : Dict N (Option N)) (src : N) (d : Int) :
    Nat → N → (N × N → Int) → FPic N → Except PyErr ((N × N → Int) × FPic N)
  | 0, _, _, _ => .error .diverge
  | k + 1, cur, f, p => match pred.get? cur with
    | some (some m) => match pushArcP g f p m cur d with
      | .error e => .error e
      | .ok (f', p') => if m = src then .ok (f', p') else augmentP g pred src d k m f' p'
    | _ => .error .keyError

/-- the outer loop: graph.py 1910-2041 -/
def loopP (g : Graph N) (O : QOps N Q) (newQ : Q) (src sink : N) (inner : Nat) :
    Nat → (N × N → Int) → FPic N → Except PyErr ((N × N → Int) × FPic N)
  | 0, _, _ => .error .diverge
  | k + 1, f, p => match findP g O f sink inner ⟨O.push newQ src, Dict.empty.set src none, [src]⟩ (reset g f p) with
    | .error e => .error e
    | .ok (st, p) =>
      if st.pred.contains sink then
        match bottleneck g f st.pred src inner sink none with
        | .error e => .error e
        | .ok d => match augmentP g st.pred src d inner sink f p with
          | .error e => .error e
          | .ok (f', p') => loopP g O newQ src sink inner k f' p'
      else .ok (f, p)

/-- `Graph.max_flow`: graph.py 1880-2043; `p` are the columns left by earlier calls -/
def maxFlowP (g : Graph N) (O : QOps N Q) (newQ : Q) (src sink : N) (p : FPic N) (fuel : Nat) :
    Except PyErr ((N × N → Int) × FPic N) :=
  loopP g O newQ src sink fuel fuel (fun _ => 0) ⟨p.node, p.edge, firstLabel g⟩

end MaxFlow
end GiMPy
