import Verif.Model.Search

/-! # Model of `Graph.max_flow` (src/gimpy/graph.py 1880-2043)

The edge attribute `flow`, which the method resets, is a column; `capacity` is read from the graph.  Simplified: the
attributes `color` and `label` are written and not read by this method, and are left out; so is the display mode.
`explored` only serves membership tests, so it is kept newest first.  The queue is a parameter as in
`Model/Search.lean`: a `Stack` for algo 'DFS', a `Queue` for 'BFS'. -/

namespace GiMPy
variable {N : Type} [DecidableEq N] {Q : Type}

/-- `INF`: global_constants.py 67 -/
def INF : Int := 10000

namespace Graph

/-- `edge_attr[(u,v)]['capacity']`, after `INF` has been stored where there was none: graph.py 1902-1909 -/
def capOf (g : Graph N) (u v : N) : Except PyErr Int :=
  match g.edgeAttr.get? (u, v) with
  | none => .error .keyError
  | some a => match a.get? "capacity" with
    | none => .ok INF
    | some (.int c) => .ok c
    | some _ => .error .typeError

/-- `edge_attr[(u,v)]['flow']` for a column `f` -/
def flowOf (g : Graph N) (f : N × N → Int) (u v : N) : Except PyErr Int :=
  if g.edgeAttr.contains (u, v) then .ok (f (u, v)) else .error .keyError

end Graph

namespace MaxFlow

/-- local variables of the search for an augmenting path; `pred[source]` is None -/
structure XState (N Q : Type) where
  q : Q
  pred : Dict N (Option N)
  explored : List N

/-- `available_capacity`: graph.py 1941-1947 -/
def avail (g : Graph N) (f : N × N → Int) (cur : N) (out : List N) (m : N) : Except PyErr Int :=
  if m ∈ out then
    match g.capOf cur m with
    | .error e => .error e
    | .ok c => match g.flowOf f cur m with
      | .error e => .error e
      | .ok x => .ok (c - x)
  else g.flowOf f m cur

/-- the loop over the neighbours: graph.py 1937-1977 -/
def scan (g : Graph N) (O : QOps N Q) (f : N × N → Int) (cur : N) (out : List N) :
    List N → XState N Q → Except PyErr (XState N Q)
  | [], st => .ok st
  | m :: l, st =>
    if m ∈ st.explored then scan g O f cur out l st
    else match avail g f cur out m with
      | .error e => .error e
      | .ok a =>
        if a > 0 then scan g O f cur out l ⟨O.push st.q m, st.pred.set m (some cur), m :: st.explored⟩
        else scan g O f cur out l st

/-- the search loop: graph.py 1929-1977 -/
def find (g : Graph N) (O : QOps N Q) (f : N × N → Int) (sink : N) : Nat → XState N Q → Except PyErr (XState N Q)
  | 0, _ => .error .diverge
  | k + 1, st =>
    if O.isEmpty st.q then .ok st
    else match O.peek st.q with
      | none => .error .indexError
      | some cur =>
        if cur = sink then .ok { st with q := O.remove st.q cur }
        else match g.getNeighbors cur with
          | .error e => .error e
          | .ok out => match g.getInNeighbors cur with
            | .error e => .error e
            | .ok inn => match scan g O f cur out (out ++ inn) { st with q := O.remove st.q cur } with
              | .error e => .error e
              | .ok st => find g O f sink k st

/-- `potential` of the step from `m` to `cur`: graph.py 1986-1995 -/
def potential (g : Graph N) (f : N × N → Int) (m cur : N) : Except PyErr Int :=
  if g.edgeAttr.contains (m, cur) then
    match g.capOf m cur with
    | .error e => .error e
    | .ok c => .ok (c - f (m, cur))
  else g.flowOf f cur m

/-- `min_capacity` after meeting `potential`; `none` is the string 'infinite': graph.py 1990-1999 -/
def lowest (mn : Option Int) (p : Int) : Int :=
  match mn with
  | none => p
  | some x => if x > p then p else x

/-- capacity of the path: graph.py 1981-2002.  A predecessor None gives a KeyError. -/
def bottleneck (g : Graph N) (f : N × N → Int) (pred : Dict N (Option N)) (src : N) :
    Nat → N → Option Int → Except PyErr Int
  | 0, _, _ => .error .diverge
  | k + 1, cur, mn => match pred.get? cur with
    | some (some m) => match potential g f m cur with
      | .error e => .error e
      | .ok p => if m = src then .ok (lowest mn p) else bottleneck g f pred src k m (some (lowest mn p))
    | _ => .error .keyError

/-- update of one arc: graph.py 2007-2038 -/
def pushArc (g : Graph N) (f : N × N → Int) (m cur : N) (d : Int) : Except PyErr (N × N → Int) :=
  if g.edgeAttr.contains (m, cur) then .ok (upd f (m, cur) (f (m, cur) + d))
  else if g.edgeAttr.contains (cur, m) then .ok (upd f (cur, m) (f (cur, m) - d))
  else .error .keyError

/-- update of the flows on the path: graph.py 2003-2041 -/
def augment (g : Graph N) (pred : Dict N (Option N)) (src : N) (d : Int) :
    Nat → N → (N × N → Int) → Except PyErr (N × N → Int)
  | 0, _, _ => .error .diverge
  | k + 1, cur, f => match pred.get? cur with
    | some (some m) => match pushArc g f m cur d with
      | .error e => .error e
      | .ok f' => if m = src then .ok f' else augment g pred src d k m f'
    | _ => .error .keyError

/-- the outer loop: graph.py 1910-2041; `newQ` is the empty queue made at 1912-1915 -/
def loop (g : Graph N) (O : QOps N Q) (newQ : Q) (src sink : N) (inner : Nat) :
    Nat → (N × N → Int) → Except PyErr (N × N → Int)
  | 0, _ => .error .diverge
  | k + 1, f => match find g O f sink inner ⟨O.push newQ src, Dict.empty.set src none, [src]⟩ with
    | .error e => .error e
    | .ok st =>
      if st.pred.contains sink then
        match bottleneck g f st.pred src inner sink none with
        | .error e => .error e
        | .ok d => match augment g st.pred src d inner sink f with
          | .error e => .error e
          | .ok f' => loop g O newQ src sink inner k f'
      else .ok f

/-- `Graph.max_flow`: graph.py 1880-2043; the result is the column `flow`.  `fuel` bounds all loops. -/
def maxFlow (g : Graph N) (O : QOps N Q) (newQ : Q) (src sink : N) (fuel : Nat) : Except PyErr (N × N → Int) :=
  loop g O newQ src sink fuel fuel fun _ => 0

end MaxFlow
end GiMPy
