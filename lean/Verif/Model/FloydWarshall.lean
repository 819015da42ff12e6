import Verif.Model.Search

/-! # Model of `floyd_warshall`, `floyd_warshall_get_path`, `floyd_warshall_get_cycle` and `get_negative_cycle`
(src/gimpy/graph.py 2045-2190)

The dictionaries `distance` and `nextn`, which get an entry for every pair of nodes, are functions on pairs; `none` in
`dist` is the string 'infinity', `none` in `next` is None.  A look-up with None in the key raises KeyError. -/

namespace GiMPy
variable {N : Type} [DecidableEq N]

namespace FW

/-- the two dictionaries -/
structure FState (N : Type) where
  dist : N × N → Option Int
  next : N × N → Option N

/-- distances of the arcs: graph.py 2100-2101 -/
def arcs (g : Graph N) : List (N × N) → (N × N → Option Int) → Except PyErr (N × N → Option Int)
  | [], d => .ok d
  | e :: l, d => match g.getEdgeCost e.1 e.2 with
    | .error x => .error x
    | .ok c => arcs g l (upd d e (some c))

/-- initial distances before the arcs: graph.py 2094-2099 -/
def dist0 : N × N → Option Int := fun p => if p.1 = p.2 then some 0 else none

/-- initial `nextn`: graph.py 2104-2110 -/
def next0 (d : N × N → Option Int) : N × N → Option N := fun p => if p.1 = p.2 ∨ d p = none then none else some p.1

/-- the assignments at 2119-2120 and 2122-2123 -/
def assign (st : FState N) (k i j : N) (x : Int) : FState N :=
  ⟨upd st.dist (i, j) (some x), upd st.next (i, j) (st.next (k, j))⟩

/-- the body of the three loops: graph.py 2116-2123 -/
def relax (k i : N) (st : FState N) (j : N) : FState N :=
  match st.dist (i, k) with
  | none => st
  | some a => match st.dist (k, j) with
    | none => st
    | some b => match st.dist (i, j) with
      | none => assign st k i j (a + b)
      | some c => if c > a + b then assign st k i j (a + b) else st

/-- the loop over `j`: graph.py 2115-2123 -/
def row (nl : List N) (k : N) (st : FState N) (i : N) : FState N := nl.foldl (relax k i) st

/-- the loop over `i`: graph.py 2114-2123 -/
def phase (nl : List N) (st : FState N) (k : N) : FState N := nl.foldl (row nl k) st

/-- the check for negative cycles: graph.py 2126-2131 ('infinity' < 0 would be a TypeError) -/
def check (d : N × N → Option Int) : List N → Except PyErr Bool
  | [] => .ok true
  | i :: l => match d (i, i) with
    | none => .error .typeError
    | some x => if x < 0 then .ok false else check d l

/-- `floyd_warshall`: graph.py 2068-2131 -/
def floydWarshall (g : Graph N) : Except PyErr (Bool × FState N) :=
  match arcs g g.getEdgeList dist0 with
  | .error e => .error e
  | .ok d =>
    let st := g.getNodeList.foldl (phase g.getNodeList) ⟨d, next0 d⟩
    match check st.dist g.getNodeList with
    | .error e => .error e
    | .ok b => .ok (b, st)

/-- `l + [k] + l'` where a path may be None: graph.py 2154 -/
def join (l : Option (List N)) (k : N) (l' : Option (List N)) : Except PyErr (Option (List N)) :=
  match l with
  | none => .error .typeError
  | some l => match l' with
    | none => .error .typeError
    | some l' => .ok (some (l ++ [k] ++ l'))

/-- `floyd_warshall_get_path`: graph.py 2133-2154.  The fuel bounds the depth of the recursion. -/
def getPath (st : FState N) : Nat → N → N → Except PyErr (Option (List N))
  | 0, _, _ => .error .diverge
  | f + 1, i, j => match st.dist (i, j) with
    | none => .ok none
    | some _ => match st.next (i, j) with
      | none => .error .keyError
      | some k =>
        if i = k then .ok (some [i, j])
        else match getPath st f i k with
          | .error e => .error e
          | .ok l => match getPath st f k j with
            | .error e => .error e
            | .ok l' => join l k l'

/-- choice of `element` when it is None: graph.py 2171-2178 -/
def firstNeg (d : N × N → Option Int) : List N → Except PyErr N
  | [] => .error .exception
  | i :: l => match d (i, i) with
    | none => .error .typeError
    | some x => if x < 0 then .ok i else firstNeg d l

/-- `cycle.insert(1, k)` -/
def insert1 (cycle : List N) (k : N) : List N :=
  match cycle with
  | [] => [k]
  | e :: l => e :: k :: l

/-- the while loop: graph.py 2184-2186, giving `k` and `cycle` -/
def back (next : N × N → Option N) (el : N) : Nat → List N → Option N → Except PyErr (N × List N)
  | 0, _, _ => .error .diverge
  | _ + 1, _, none => .error .keyError
  | f + 1, cycle, some k =>
    if k ∈ cycle then .ok (k, cycle) else back next el f (insert1 cycle k) (next (el, k))

/-- `floyd_warshall_get_cycle` from line 2181 on, and its recursive calls with an element: graph.py 2179-2190 -/
def cycleFrom (st : FState N) (inner : Nat) : Nat → N → Except PyErr (List N)
  | 0, _ => .error .diverge
  | f + 1, el => match back st.next el inner [el] (st.next (el, el)) with
    | .error e => .error e
    | .ok (k, cycle) =>
      if k = el then .ok cycle
      else match st.dist (k, k) with
        | none => .error .typeError
        | some x => if x ≥ 0 then .error .exception else cycleFrom st inner f k

/-- `floyd_warshall_get_cycle`: graph.py 2156-2190, called without an element -/
def getCycle (nl : List N) (st : FState N) (fuel : Nat) : Except PyErr (List N) :=
  match firstNeg st.dist nl with
  | .error e => .error e
  | .ok el => cycleFrom st fuel fuel el

/-- `get_negative_cycle`: graph.py 2045-2066 -/
def getNegativeCycle (g : Graph N) (fuel : Nat) : Except PyErr (Option (List N)) :=
  match g.getNodeList with
  | [] => .error .indexError
  | _ :: _ => match floydWarshall g with
    | .error e => .error e
    | .ok (true, _) => .ok none
    | .ok (false, st) => match getCycle g.getNodeList st fuel with
      | .error e => .error e
      | .ok c => .ok (some c)

end FW
end GiMPy
