import Verif.Model.Simplex

/-! # `network_simplex` with names that are any objects (src/gimpy/graph.py 2356-3087)

`Model/Simplex.lean` takes `int(name)` to be `name` and `is` on names to be equality.  Here both are modelled.

* `conv` is `int(name)`: the number as a name, or the exception.  It occurs in `simplex_search` (2877-2878) and in
  `simplex_find_cycle` (2942, 2982).
* Two equal names need not be the same object.  A tag tells apart the objects with equal names: two names are the same object
  when name and tag are equal.  `is` occurs in `simplex_compute_potentials` (3035) and `simplex_identify_cycle` (3067).

The objects that matter are: the keys of `self.neighbors`, the two names in each key of `self.edge_attr`, the argument `root`,
and the names in the lists of neighbours of the tree, which are the objects given to `add_edge` (360-365).  `int` of an integer is
the same object. -/

namespace GiMPy
variable {N : Type} [DecidableEq N] {Q : Type}

namespace Simplex

/-- the tags of the objects: the keys of `self.neighbors`, the names in the keys of `self.edge_attr`, and `root` -/
structure Tags (N : Type) where
  node : N → Nat
  arc : N × N → Nat × Nat
  root : Nat

/-! ## int(name) -/

/-- the thread indexes: graph.py 2876-2878 -/
def threadsC (conv : N → Except PyErr N) (first : N) : List N → (N → Option N) → Except PyErr (N → Option N)
  | a :: b :: l, th => match conv b with
    | .error e => .error e
    | .ok b' => threadsC conv first (b :: l) (upd th a (some b'))
  | [a], th => match conv first with
    | .error e => .error e
    | .ok b' => .ok (upd th a (some b'))
  | [], th => .ok th

/-- `simplex_search`: graph.py 2837-2882 -/
def searchC (conv : N → Except PyErr N) (t : Graph N) (ix : Idx N) (src : N) (fuel : Nat) : Except PyErr (XState N × Idx N) :=
  match searchLoop t fuel ⟨[src], ⟨[(src, none)]⟩, ⟨[(src, 0)]⟩, []⟩ with
  | .error e => .error e
  | .ok st => match threadsC conv src st.seq ix.thread with
    | .error e => .error e
    | .ok th => .ok (st,
        { thread := th
          pred := fun n => match st.pred.get? n with | some p => p | none => ix.pred n
          depth := fun n => match st.pred.get? n with | some _ => st.depth.get? n | none => ix.depth n })

/-- the outer loop of `simplex_find_cycle`: graph.py 2944-2988 -/
def cycleOuterC (conv : N → Except PyErr N) (t : Graph N) (inner : Nat) : Nat → CState N → Except PyErr (Option (List N))
  | 0, _ => .error .diverge
  | f + 1, st => match cycleLoop t inner inner st with
    | .error e => .error e
    | .ok (.inr c) => .ok (some c)
    | .ok (.inl st) => match t.getNodeList.find? fun n => decide (n ∉ st.marked) with
      | none => .ok none
      | some n => match conv n with
        | .error e => .error e
        | .ok _ => cycleOuterC conv t inner f (freshC n st.marked)

/-- `simplex_find_cycle`: graph.py 2921-2988 -/
def findCycleC (conv : N → Except PyErr N) (t : Graph N) (fuel : Nat) : Except PyErr (Option (List N)) :=
  match t.getNodeList with
  | [] => .error .indexError
  | n :: _ => match conv n with
    | .error e => .error e
    | .ok _ => cycleOuterC conv t fuel fuel (freshC n [])

/-- removing the cycles: graph.py 2775-2784 -/
def breakCyclesC (conv : N → Except PyErr N) (g : Graph N) (inner : Nat) :
    Nat → (N × N → Int) → Except PyErr (Graph N × (N × N → Int))
  | 0, _ => .error .diverge
  | k + 1, f => match solutionGraph g f with
    | .error e => .error e
    | .ok t => match findCycleC conv t inner with
      | .error e => .error e
      | .ok none => .ok (t, f)
      | .ok (some c) => match amount g f c with
        | .error e => .error e
        | .ok d => match MinCost.augmentCycle g d c f with
          | .error e => .error e
          | .ok f => breakCyclesC conv g inner k f

/-! ## Objects -/

/-- the tag of the object with which `simplex_search` reaches a node: the root, or the name in the list of neighbours of its
predecessor; `tg` has the tags of the arcs of the tree (in_neighbors come first: graph.py 2868).  It is only used for nodes
that are reached; for others it is the key of `self.neighbors`. -/
def reachTag (T : Tags N) (t : Graph N) (tg : N × N → Nat × Nat) (ix : Idx N) (root : N) (rootTag : Nat) (v : N) : Nat :=
  if v = root then rootTag
  else match ix.pred v with
    | none => T.node v
    | some p => if t.edgeAttr.contains (v, p) then (tg (v, p)).1 else (tg (p, v)).2

/-- `while self.simplex_connect(solution_g): pass`: graph.py 2786-2787, 2801-2835.  A new arc gets a name of `nl` and a name
of `pred.keys()`. -/
def connectLoopC (conv : N → Except PyErr N) (T : Tags N) (g : Graph N) (inner : Nat) :
    Nat → Graph N → (N × N → Nat × Nat) → Idx N → Except PyErr (Graph N × (N × N → Nat × Nat) × Idx N)
  | 0, _, _, _ => .error .diverge
  | k + 1, t, tg, ix => match t.getNodeList with
    | [] => .error .indexError
    | cur :: _ => match searchC conv t ix cur inner with
      | .error e => .error e
      | .ok (st, ix) => match arcOut g st.pred.keys t.getNodeList with
        | none => .ok (t, tg, ix)
        | some e => match t.call (.addEdge e.1 e.2 []) with
          | .error x => .error x
          | .ok t' =>
            let tag := fun v => if v ∈ st.pred.keys then reachTag T t tg ix cur (T.node cur) v else T.node v
            connectLoopC conv T g inner k t' (upd tg e (tag e.1, tag e.2)) ix

/-- `simplex_find_tree`: graph.py 2759-2799 -/
def findTreeC (conv : N → Except PyErr N) (T : Tags N) (g : Graph N) (f : N × N → Int) (ix : Idx N) (fuel : Nat) :
    Except PyErr (Graph N × (N × N → Nat × Nat) × (N × N → Int) × Idx N) :=
  match breakCyclesC conv g fuel fuel f with
  | .error e => .error e
  | .ok (t, f) => match connectLoopC conv T g fuel fuel t T.arc ix with
    | .error e => .error e
    | .ok (t, tg, ix) => match Kruskal.costs g g.getEdgeList with
      | .error e => .error e
      | .ok _ => .ok (t, tg, f, ix)

/-- the predecessor, as an object; `none` is None -/
def climb (ix : Idx N) (tag : N → Nat) (v : N) : Option (N × Nat) := (ix.pred v).map fun p => (p, tag p)

/-- the while loop of `simplex_identify_cycle`: graph.py 3067-3080.  The root has the predecessor None, and None is None. -/
def meetC (t : Graph N) (ix : Idx N) (tag : N → Nat) : Nat → Option (N × Nat) → Option (N × Nat) → List N → List N →
    Except PyErr (Option N × List N × List N)
  | 0, _, _, _, _ => .error .diverge
  | k + 1, i, j, li, lj =>
    if i = j then .ok (i.map Prod.fst, li, lj)
    else match i, j with
      | some i, some j =>
        if ¬ t.hasNode i.1 ∨ ¬ t.hasNode j.1 then .error .attributeError
        else match ix.depth i.1, ix.depth j.1 with
          | some di, some dj =>
            if di > dj then meetC t ix tag k (climb ix tag i.1) (some j) (i.1 :: li) lj
            else if di < dj then meetC t ix tag k (some i) (climb ix tag j.1) li (j.1 :: lj)
            else meetC t ix tag k (climb ix tag i.1) (climb ix tag j.1) (i.1 :: li) (j.1 :: lj)
          | _, _ => .error .typeError
      | _, _ => .error .attributeError

/-- `simplex_identify_cycle`: graph.py 3041-3086; with None between the two parts if the loop goes past the root -/
def identifyC (T : Tags N) (t : Graph N) (tg : N × N → Nat × Nat) (ix : Idx N) (root k l : N) (fuel : Nat) :
    Except PyErr (List N × Option N × List N) :=
  match meetC t ix (reachTag T t tg ix root T.root) fuel (some (k, (T.arc (k, l)).1)) (some (l, (T.arc (k, l)).2)) [] [] with
  | .error e => .error e
  | .ok (a, li, lj) => .ok (lj.reverse, a, li)

/-- one pivot: graph.py 2436-2490, 2607-2663.  No arc has the end None: KeyError in the search for the leaving arc (2472,
2485), which comes after `add_edge`. -/
def pivotOnC (T : Tags N) (g t : Graph N) (tg : N × N → Nat × Nat) (f : N × N → Int) (ix : Idx N) (root : N) (k : N × N)
    (fuel : Nat) : Except PyErr (Graph N × (N × N → Nat × Nat) × (N × N → Int)) :=
  match identifyC T t tg ix root k.1 k.2 fuel with
  | .error e => .error e
  | .ok (l₁, a, l₂) => match g.flowOf f k.1 k.2 with
    | .error e => .error e
    | .ok fl => match g.capOf k.1 k.2 with
      | .error e => .error e
      | .ok c => match t.call (.addEdge k.1 k.2 []) with
        | .error e => .error e
        | .ok t => match a with
          | none => .error .keyError
          | some a =>
            let cycle := l₁ ++ a :: l₂
            let cycle := if fl = c then cycle.reverse else cycle
            match leaving g t f cycle c with
            | .error e => .error e
            | .ok (p, d) => match pushCycle g t d cycle f with
              | .error e => .error e
              | .ok f => match t.call (.delEdge p.1 p.2) with
                | .error e => .error e
                | .ok t => .ok (t, upd tg k (T.arc k), f)

/-! ## The method -/

/-- what the main loop changes -/
structure SStateC (N : Type) where
  t : Graph N
  tg : N × N → Nat × Nat
  f : N × N → Int
  ix : Idx N
  pi : N → Option Int

/-- graph.py 2393-2396 and 2416-2419.  The object that ends the loop of `simplex_compute_potentials` is `int(root)`; it is
`root` itself when the names are equal. -/
def refreshC (conv : N → Except PyErr N) (g : Graph N) (root : N) (st : SStateC N) (fuel : Nat) : Except PyErr (SStateC N) :=
  match searchC conv st.t st.ix root fuel with
  | .error e => .error e
  | .ok (_, ix) => match potentials g st.t ix root st.pi fuel with
    | .error e => .error e
    | .ok pi => .ok ⟨st.t, st.tg, st.f, ix, pi⟩

/-- the body of the main loop: graph.py 2400-2419 -/
def pivotStepC (conv : N → Except PyErr N) (T : Tags N) (g : Graph N) (root : N) (p : Pivot) (st : SStateC N) (fuel : Nat) :
    Except PyErr (SStateC N) :=
  match entering g st.t st.f st.pi p with
  | .error e => .error e
  | .ok k => match pivotOnC T g st.t st.tg st.f st.ix root k fuel with
    | .error e => .error e
    | .ok (t, tg, f) => match stamps g f t.getEdgeList with
      | .error e => .error e
      | .ok s => match markArcs g t f g.getEdgeList with
        | .error e => .error e
        | .ok _ => match redraw t st.ix s root fuel with
          | .error e => .error e
          | .ok _ => refreshC conv g root ⟨t, tg, f, st.ix, st.pi⟩ fuel

/-- the main loop: graph.py 2398-2420 -/
def mainLoopC (conv : N → Except PyErr N) (T : Tags N) (g : Graph N) (root : N) (p : Pivot) (inner : Nat) :
    Nat → SStateC N → Except PyErr (SStateC N)
  | 0, _ => .error .diverge
  | k + 1, st => match optimal g st.t st.f st.pi g.getEdgeList with
    | .error e => .error e
    | .ok true => .ok st
    | .ok false => match pivotStepC conv T g root p st inner with
      | .error e => .error e
      | .ok st => mainLoopC conv T g root p inner k st

/-- from the feasible flow to the start of the main loop: graph.py 2384-2396 -/
def setupC (conv : N → Except PyErr N) (T : Tags N) (g : Graph N) (root : N) (f : N × N → Int) (ix : Idx N)
    (pi : N → Option Int) (fuel : Nat) : Except PyErr (SStateC N) :=
  match findTreeC conv T g f ix fuel with
  | .error e => .error e
  | .ok (t, tg, f, ix) => match stamps g f t.getEdgeList with
    | .error e => .error e
    | .ok s => match markArcs g t f g.getEdgeList with
      | .error e => .error e
      | .ok _ => match redraw t ix s root fuel with
        | .error e => .error e
        | .ok _ => refreshC conv g root ⟨t, tg, f, ix, pi⟩ fuel

/-- `network_simplex`: graph.py 2356-2420, for names of any kind -/
def networkSimplexC (conv : N → Except PyErr N) (T : Tags N) (g : Graph N) (O : QOps N Q) (newQ : Q) (s t : N) (root : N)
    (p : Pivot) (pi : N → Option Int) (fuel pivots : Nat) : Except PyErr (Bool × (N × N → Int) × Graph N) :=
  match MinCost.feasibleFlow g O newQ s t fuel with
  | .error e => .error e
  | .ok (false, f, g) => .ok (false, f, g)
  | .ok (true, f, g) => match setupC conv T g root f ⟨fun _ => none, fun _ => none, fun _ => none⟩ pi fuel with
    | .error e => .error e
    | .ok st => match mainLoopC conv T g root p fuel pivots st with
      | .error e => .error e
      | .ok st => .ok (true, st.f, g)

end Simplex
end GiMPy
