import Verif.Model.Simplex

/-! # Model of `network_simplex` with the picture it leaves (src/gimpy/graph.py 2356-2540, 2607-2663, 2759-2799)

The same code as in `Model/Simplex.lean`, with the attributes `label` and `color` of the edges of the network kept.  Each function
here is the function of the same name there, carrying an `SPic` along.  Simplified: the loops that write the label or the colour of
all arcs are written pointwise (columns at pairs that are no arcs are never read).  Left out: the pictures shown on the way, and the
attributes `label` of the arcs of the tree, which `simplex_redraw` copies. -/

namespace GiMPy
variable {N : Type} [DecidableEq N] {Q : Type}

/-- the columns `label` and `color` of the edges -/
structure SPic (N : Type) where
  label : N × N → String
  color : N × N → String

namespace Simplex

/-- `"%d/%d/%d" %(flow,capacity,cost)`: graph.py 2652-2653, 2663, 2794 -/
def arcLabel (g : Graph N) (f : N × N → Int) (e : N × N) : String :=
  match g.capOf e.1 e.2, g.getEdgeCost e.1 e.2 with
  | .ok c, .ok w => toString (f e) ++ "/" ++ toString c ++ "/" ++ toString w
  | _, _ => ""

/-- the labels of all arcs at the end of `simplex_find_tree`: graph.py 2790-2794 -/
def labelAll (g : Graph N) (f : N × N → Int) (p : SPic N) : SPic N := { p with label := arcLabel g f }

/-- the labels of the leaving arc and of the arcs of the new tree: graph.py 2649-2653, 2654-2663 -/
def labelPivot (g t : Graph N) (f : N × N → Int) (out : N × N) (p : SPic N) : SPic N :=
  { p with label := fun e => if t.edgeAttr.contains e then arcLabel g f e else if e = out then arcLabel g f e else p.label e }

/-- the colour of one arc: graph.py 2422-2434 (leaving arc, red), 2492-2504 (entering arc, green) -/
def paintArc (e : N × N) (c : String) (p : SPic N) : SPic N := { p with color := upd p.color e c }

/-- the colours written by `simplex_mark_st_arcs`: graph.py 2506-2540 -/
def paintTree (t : Graph N) (p : SPic N) : SPic N := { p with color := fun e => if t.edgeAttr.contains e then "blue" else "black" }

/-- one pivot: graph.py 2436-2490, 2607-2663; also returns the leaving arc -/
def pivotOnP (g t : Graph N) (f : N × N → Int) (ix : Idx N) (k : N × N) (fuel : Nat) :
    Except PyErr (Graph N × (N × N → Int) × (N × N)) :=
  match identify t ix k.1 k.2 fuel with
  | .error e => .error e
  | .ok cycle => match g.flowOf f k.1 k.2 with
    | .error e => .error e
    | .ok fl => match g.capOf k.1 k.2 with
      | .error e => .error e
      | .ok c =>
        let cycle := if fl = c then cycle.reverse else cycle
        match t.call (.addEdge k.1 k.2 []) with
        | .error e => .error e
        | .ok t => match leaving g t f cycle c with
          | .error e => .error e
          | .ok (p, d) => match pushCycle g t d cycle f with
            | .error e => .error e
            | .ok f => match t.call (.delEdge p.1 p.2) with
              | .error e => .error e
              | .ok t => .ok (t, f, p)

/-- the body of the main loop: graph.py 2400-2419 -/
def pivotStepP (g : Graph N) (root : N) (pv : Pivot) (st : SState N) (p : SPic N) (fuel : Nat) :
    Except PyErr (SState N × SPic N) :=
  match entering g st.t st.f st.pi pv with
  | .error e => .error e
  | .ok k => match pivotOnP g st.t st.f st.ix k fuel with
    | .error e => .error e
    | .ok (t, f, out) => match stamps g f t.getEdgeList with
      | .error e => .error e
      | .ok s => match markArcs g t f g.getEdgeList with
        | .error e => .error e
        | .ok _ => match redraw t st.ix s root fuel with
          | .error e => .error e
          | .ok _ => match refresh g root { st with t := t, f := f } fuel with
            | .error e => .error e
            | .ok st => .ok (st, paintTree t (labelPivot g t f out (paintArc out "red" (paintArc k "green" p))))

/-- the main loop: graph.py 2398-2420 -/
def mainLoopP (g : Graph N) (root : N) (pv : Pivot) (inner : Nat) : Nat → SState N → SPic N → Except PyErr (SState N × SPic N)
  | 0, _, _ => .error .diverge
  | k + 1, st, p => match optimal g st.t st.f st.pi g.getEdgeList with
    | .error e => .error e
    | .ok true => .ok (st, p)
    | .ok false => match pivotStepP g root pv st p inner with
      | .error e => .error e
      | .ok (st, p) => mainLoopP g root pv inner k st p

/-- from the feasible flow to the start of the main loop: graph.py 2384-2396 -/
def setupP (g : Graph N) (root : N) (f : N × N → Int) (ix : Idx N) (pi : N → Option Int) (p : SPic N) (fuel : Nat) :
    Except PyErr (SState N × SPic N) :=
  match findTree g f ix fuel with
  | .error e => .error e
  | .ok (t, f, ix) => match stamps g f t.getEdgeList with
    | .error e => .error e
    | .ok s => match markArcs g t f g.getEdgeList with
      | .error e => .error e
      | .ok _ => match redraw t ix s root fuel with
        | .error e => .error e
        | .ok _ => match refresh g root ⟨t, f, ix, pi⟩ fuel with
          | .error e => .error e
          | .ok st => .ok (st, paintTree t (labelAll g f p))

/-- `network_simplex`: graph.py 2356-2420; `p` is the picture after `find_feasible_flow`; the result has in addition the picture at
the end, if the main loop is reached -/
def networkSimplexP (g : Graph N) (O : QOps N Q) (newQ : Q) (s t : N) (root : N) (pv : Pivot) (pi : N → Option Int) (p : SPic N)
    (fuel pivots : Nat) : Except PyErr (Bool × (N × N → Int) × Graph N × Option (SPic N)) :=
  match MinCost.feasibleFlow g O newQ s t fuel with
  | .error e => .error e
  | .ok (false, f, g) => .ok (false, f, g, none)
  | .ok (true, f, g) => match setupP g root f ⟨fun _ => none, fun _ => none, fun _ => none⟩ pi p fuel with
    | .error e => .error e
    | .ok (st, p) => match mainLoopP g root pv fuel pivots st p with
      | .error e => .error e
      | .ok (st, p) => .ok (true, st.f, g, some p)

end Simplex
end GiMPy
