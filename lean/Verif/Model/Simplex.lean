import Verif.Model.MinCost
import Verif.Model.DisjointSet

/-! # Model of `network_simplex` and its helpers, and of `min_cost_flow` (src/gimpy/graph.py 2356-3163)

The edge attribute `flow` and the node attributes `pred`, `depth`, `thread` (of the tree) and `potential` (of the network)
are columns.  Node names are integers, so that `int(name)` is `name`, and `is` on names is equality (CPython guarantees it
for -5..256).  Left out: `color`, `label`, the display.  The attributes `flow`, `capacity`, `cost` of the tree are read by
`simplex_redraw` only; they are a function from arcs, made anew whenever the code sets them on all arcs of the tree.
`component` is kept as a list of the nodes that have the number. -/

namespace GiMPy
variable {N : Type} [DecidableEq N] {Q : Type}

namespace Simplex

/-- the node attributes `pred`, `depth` and `thread`; `none` is None -/
structure Idx (N : Type) where
  pred : N → Option N
  depth : N → Option Nat
  thread : N → Option N

/-! ## simplex_search -/

/-- local variables; the end of the list `q` is the head here -/
structure XState (N : Type) where
  q : List N
  pred : Dict N (Option N)
  depth : Dict N Nat
  seq : List N

/-- the for loop: graph.py 2869-2875 -/
def visit (cur : N) : List N → XState N → Except PyErr (XState N)
  | [], st => .ok st
  | n :: l, st =>
    if st.pred.contains n then visit cur l st
    else match st.depth.get? cur with
      | none => .error .keyError
      | some d => visit cur l { st with pred := st.pred.set n (some cur), depth := st.depth.set n (d + 1), q := n :: st.q }

/-- `self.in_neighbors[current] + self.neighbors[current]`: graph.py 2868, 2948-2949 -/
def around (t : Graph N) (cur : N) : Except PyErr (List N) :=
  match t.getInNeighbors cur with
  | .error e => .error e
  | .ok inn => match t.getNeighbors cur with
    | .error e => .error e
    | .ok out => .ok (inn ++ out)

/-- the while loop: graph.py 2864-2875 -/
def searchLoop (t : Graph N) : Nat → XState N → Except PyErr (XState N)
  | 0, _ => .error .diverge
  | f + 1, st => match st.q with
    | [] => .ok st
    | cur :: q =>
      if ¬ t.hasNode cur then .error .attributeError
      else match around t cur with
        | .error e => .error e
        | .ok l => match visit cur l { st with q := q, seq := st.seq ++ [cur] } with
          | .error e => .error e
          | .ok st => searchLoop t f st

/-- the thread indexes: graph.py 2876-2878 -/
def threads (first : N) : List N → (N → Option N) → N → Option N
  | a :: b :: l, th => threads first (b :: l) (upd th a (some b))
  | [a], th => upd th a (some first)
  | [], th => th

/-- `simplex_search`: graph.py 2837-2882; the local variables at the end, and the attributes -/
def search (t : Graph N) (ix : Idx N) (src : N) (fuel : Nat) : Except PyErr (XState N × Idx N) :=
  match searchLoop t fuel ⟨[src], ⟨[(src, none)]⟩, ⟨[(src, 0)]⟩, []⟩ with
  | .error e => .error e
  | .ok st => .ok (st,
      { thread := threads src st.seq ix.thread
        pred := fun n => match st.pred.get? n with | some p => p | none => ix.pred n
        depth := fun n => match st.pred.get? n with | some _ => st.depth.get? n | none => ix.depth n })

/-! ## simplex_find_tree -/

/-- the arcs strictly between the bounds: graph.py 3008-3012 -/
def solutionArcs (g : Graph N) (f : N × N → Int) : List (N × N) → Graph N → Except PyErr (Graph N)
  | [], t => .ok t
  | e :: l, t => match g.flowOf f e.1 e.2 with
    | .error x => .error x
    | .ok fl => match g.capOf e.1 e.2 with
      | .error x => .error x
      | .ok c =>
        if fl > 0 ∧ fl < c then
          match t.call (.addEdge e.1 e.2 []) with
          | .error x => .error x
          | .ok t => solutionArcs g f l t
        else solutionArcs g f l t

/-- `for i in self.neighbors: simplex_g.add_node(i)`: graph.py 3006-3007 -/
def solutionNodes : List N → Graph N → Except PyErr (Graph N)
  | [], t => .ok t
  | i :: l, t => match t.call (.addNode i []) with
    | .error x => .error x
    | .ok t => solutionNodes l t

/-- `get_simplex_solution_graph`: graph.py 2990-3013 -/
def solutionGraph (g : Graph N) (f : N × N → Int) : Except PyErr (Graph N) :=
  match solutionNodes g.getNodeList (Graph.init true) with
  | .error e => .error e
  | .ok t => solutionArcs g f g.getEdgeList t

/-- local variables of `simplex_find_cycle`; `depth` has the same keys as `pred` and only serves membership tests -/
structure CState (N : Type) where
  q : List N
  visited : List N
  pred : Dict N (Option N)
  marked : List N

/-- a node and its ancestors: graph.py 2958-2961, 2962-2965 -/
def ancestors (pred : Dict N (Option N)) : Nat → N → Except PyErr (List N)
  | 0, _ => .error .diverge
  | f + 1, v => match pred.get? v with
    | none => .error .keyError
    | some none => .ok [v]
    | some (some p) => match ancestors pred f p with
      | .error e => .error e
      | .ok l => .ok (v :: l)

/-- the closed walk that is returned: graph.py 2956-2969 -/
def closedWalk (pred : Dict N (Option N)) (fuel : Nat) (cur n : N) : Except PyErr (List N) :=
  match ancestors pred fuel n with
  | .error e => .error e
  | .ok c1 => match ancestors pred fuel cur with
    | .error e => .error e
    | .ok c2 => .ok (c2 ++ c1.dropLast.reverse)

/-- the for loop: graph.py 2950-2974; `.inr` is the return of a cycle -/
def cycleFor (fuel : Nat) (cur : N) : List N → CState N → Except PyErr (CState N ⊕ List N)
  | [], st => .ok (.inl st)
  | n :: l, st => match st.pred.get? cur with
    | none => .error .keyError
    | some p =>
      if p = some n then cycleFor fuel cur l st
      else if st.pred.contains n then
        match closedWalk st.pred fuel cur n with
        | .error e => .error e
        | .ok c => .ok (.inr c)
      else cycleFor fuel cur l { st with pred := st.pred.set n (some cur), marked := n :: st.marked,
                                         q := if n ∈ st.visited then st.q else n :: st.q }

/-- the inner while loop: graph.py 2945-2974 -/
def cycleLoop (t : Graph N) (inner : Nat) : Nat → CState N → Except PyErr (CState N ⊕ List N)
  | 0, _ => .error .diverge
  | f + 1, st => match st.q with
    | [] => .ok (.inl st)
    | cur :: q => match around t cur with
      | .error e => .error e
      | .ok l => match cycleFor inner cur l { st with q := q, visited := cur :: st.visited } with
        | .error e => .error e
        | .ok (.inr c) => .ok (.inr c)
        | .ok (.inl st) => cycleLoop t inner f st

/-- state at the start of a component: graph.py 2936-2943, 2978-2983 -/
def freshC (n : N) (marked : List N) : CState N := ⟨[n], [], ⟨[(n, none)]⟩, n :: marked⟩

/-- the outer loop: graph.py 2944-2988 -/
def cycleOuter (t : Graph N) (inner : Nat) : Nat → CState N → Except PyErr (Option (List N))
  | 0, _ => .error .diverge
  | f + 1, st => match cycleLoop t inner inner st with
    | .error e => .error e
    | .ok (.inr c) => .ok (some c)
    | .ok (.inl st) => match t.getNodeList.find? fun n => decide (n ∉ st.marked) with
      | none => .ok none
      | some n => cycleOuter t inner f (freshC n st.marked)

/-- `simplex_find_cycle`: graph.py 2921-2988 -/
def findCycle (t : Graph N) (fuel : Nat) : Except PyErr (Option (List N)) :=
  match t.getNodeList with
  | [] => .error .indexError
  | n :: _ => cycleOuter t fuel fuel (freshC n [])

/-- residual capacity of the step from `u` to `v`: graph.py 2902-2906, 2911-2915; the same rule as in `max_flow` -/
def resid (g : Graph N) (f : N × N → Int) (u v : N) : Except PyErr Int := MaxFlow.potential g f u v

/-- the while loop of `simplex_augment_cycle`: graph.py 2908-2918 -/
def amountLoop (g : Graph N) (f : N × N → Int) : List N → Int → Except PyErr Int
  | i :: j :: l, c => match resid g f i j with
    | .error e => .error e
    | .ok x => amountLoop g f (j :: l) (if c > x then x else c)
  | _, c => .ok c

/-- `simplex_augment_cycle`: graph.py 2884-2919 -/
def amount (g : Graph N) (f : N × N → Int) (cycle : List N) : Except PyErr Int :=
  match cycle with
  | [] => .error .indexError
  | v :: l => match resid g f ((v :: l).getLast (by simp)) v with
    | .error e => .error e
    | .ok c => amountLoop g f (v :: l) c

/-- removing the cycles: graph.py 2775-2784; also returns the last solution graph -/
def breakCycles (g : Graph N) (inner : Nat) : Nat → (N × N → Int) → Except PyErr (Graph N × (N × N → Int))
  | 0, _ => .error .diverge
  | k + 1, f => match solutionGraph g f with
    | .error e => .error e
    | .ok t => match findCycle t inner with
      | .error e => .error e
      | .ok none => .ok (t, f)
      | .ok (some c) => match amount g f c with
        | .error e => .error e
        | .ok d => match MinCost.augmentCycle g d c f with
          | .error e => .error e
          | .ok f => breakCycles g inner k f

/-- an arc between `n` and a node of `separated`: graph.py 2828-2834 -/
def arcTo (g : Graph N) (n : N) : List N → Option (N × N)
  | [] => none
  | m :: l =>
    if g.edgeAttr.contains (n, m) then some (n, m)
    else if g.edgeAttr.contains (m, n) then some (m, n)
    else arcTo g n l

/-- the loop over the nodes: graph.py 2825-2835 -/
def arcOut (g : Graph N) (separated : List N) : List N → Option (N × N)
  | [] => none
  | n :: l => if n ∈ separated then arcOut g separated l
    else match arcTo g n separated with
      | some e => some e
      | none => arcOut g separated l

/-- `while self.simplex_connect(solution_g): pass`: graph.py 2786-2787, 2801-2835.  The nodes with component `current` are the
keys of `pred`. -/
def connectLoop (g : Graph N) (inner : Nat) : Nat → Graph N → Idx N → Except PyErr (Graph N × Idx N)
  | 0, _, _ => .error .diverge
  | k + 1, t, ix => match t.getNodeList with
    | [] => .error .indexError
    | cur :: _ => match search t ix cur inner with
      | .error e => .error e
      | .ok (st, ix) => match arcOut g st.pred.keys t.getNodeList with
        | none => .ok (t, ix)
        | some e => match t.call (.addEdge e.1 e.2 []) with
          | .error x => .error x
          | .ok t => connectLoop g inner k t ix

/-- `simplex_find_tree`: graph.py 2759-2799; the costs are read for the labels -/
def findTree (g : Graph N) (f : N × N → Int) (ix : Idx N) (fuel : Nat) :
    Except PyErr (Graph N × (N × N → Int) × Idx N) :=
  match breakCycles g fuel fuel f with
  | .error e => .error e
  | .ok (t, f) => match connectLoop g fuel fuel t ix with
    | .error e => .error e
    | .ok (t, ix) => match Kruskal.costs g g.getEdgeList with
      | .error e => .error e
      | .ok _ => .ok (t, f, ix)

/-! ## Potentials and optimality -/

/-- `if (i,j) in self.edge_attr: ...`, `if (j,i) in self.edge_attr: ...`: graph.py 3038-3043 -/
def potAt (g : Graph N) (pi : N → Option Int) (i j : N) : Except PyErr (N → Option Int) :=
  let step (pi' : N → Option Int) (present : Bool) (cost : Except PyErr Int) (sgn : Int) :
      Except PyErr (N → Option Int) :=
    if present then
      match cost with
      | .error e => .error e
      | .ok c => match pi i with
        | none => .error .typeError
        | some p => .ok (upd pi' j (some (p + sgn * c)))
    else .ok pi'
  match step pi (g.edgeAttr.contains (i, j)) (g.getEdgeCost i j) (-1) with
  | .error e => .error e
  | .ok pi' => step pi' (g.edgeAttr.contains (j, i)) (g.getEdgeCost j i) 1

/-- the while loop: graph.py 3035-3044.  None is no node. -/
def potLoop (g t : Graph N) (ix : Idx N) (root : N) : Nat → Option N → (N → Option Int) → Except PyErr (N → Option Int)
  | 0, _, _ => .error .diverge
  | _ + 1, none, _ => .error .attributeError
  | k + 1, some j, pi =>
    if j = root then .ok pi
    else if ¬ t.hasNode j then .error .attributeError
    else match ix.pred j with
      | none => .error .attributeError
      | some i => if ¬ g.hasNode i ∨ ¬ g.hasNode j then .error .attributeError
        else match potAt g pi i j with
          | .error e => .error e
          | .ok pi => potLoop g t ix root k (ix.thread j) pi

/-- `simplex_compute_potentials`: graph.py 3015-3044 -/
def potentials (g t : Graph N) (ix : Idx N) (root : N) (pi : N → Option Int) (fuel : Nat) :
    Except PyErr (N → Option Int) :=
  if ¬ g.hasNode root ∨ ¬ t.hasNode root then .error .attributeError
  else potLoop g t ix root fuel (ix.thread root) (upd pi root (some 0))

/-- `c_ij - potential_i + potential_j`: graph.py 2689, 2714, 2750 -/
def reduced (g : Graph N) (pi : N → Option Int) (e : N × N) : Except PyErr Int :=
  match g.getEdgeCost e.1 e.2 with
  | .error x => .error x
  | .ok c => match pi e.1, pi e.2 with
    | some p, some q => .ok (c - p + q)
    | _, _ => .error .typeError

/-- the violation of the optimality conditions by an arc, if any: graph.py 2684-2695, 2709-2722, 2745-2756 -/
def violation (g : Graph N) (f : N × N → Int) (pi : N → Option Int) (e : N × N) : Except PyErr (Option Int) :=
  match g.flowOf f e.1 e.2 with
  | .error x => .error x
  | .ok fl => match g.capOf e.1 e.2 with
    | .error x => .error x
    | .ok c => match reduced g pi e with
      | .error x => .error x
      | .ok r =>
        if fl = 0 then .ok (if r < 0 then some r else none)
        else if fl = c then .ok (if r > 0 then some r else none)
        else .ok none

/-- the violating arcs outside the tree, in the order of the dictionary -/
def violating (g t : Graph N) (f : N × N → Int) (pi : N → Option Int) : List (N × N) → Except PyErr (List ((N × N) × Int))
  | [] => .ok []
  | e :: l =>
    if t.edgeAttr.contains e then violating g t f pi l
    else match violation g f pi e with
      | .error x => .error x
      | .ok v => match violating g t f pi l with
        | .error x => .error x
        | .ok r => .ok (match v with | some x => (e, x) :: r | none => r)

/-- `simplex_optimal`: graph.py 2727-2757; it returns at the first violating arc -/
def optimal (g t : Graph N) (f : N × N → Int) (pi : N → Option Int) : List (N × N) → Except PyErr Bool
  | [] => .ok true
  | e :: l =>
    if t.edgeAttr.contains e then optimal g t f pi l
    else match violation g f pi e with
      | .error x => .error x
      | .ok (some _) => .ok false
      | .ok none => optimal g t f pi l

/-- the pivot rules -/
inductive Pivot | dantzig | firstEligible | other
  deriving DecidableEq

/-- the arc of greatest violation, the first of them: graph.py 2696-2703 -/
def greatest : List ((N × N) × Int) → (N × N) × Int → (N × N)
  | [], best => best.1
  | x :: l, best => if best.2.natAbs < x.2.natAbs then greatest l x else greatest l best

/-- `simplex_select_entering_arc`: graph.py 2665-2725.  The rule 'first_eligible' takes the last violating arc: there is no
`break`. -/
def entering (g t : Graph N) (f : N × N → Int) (pi : N → Option Int) (p : Pivot) : Except PyErr (N × N) :=
  match p with
  | .other => .error .exception
  | .dantzig => match violating g t f pi g.getEdgeList with
    | .error e => .error e
    | .ok [] => .error .unboundLocal
    | .ok (x :: l) => .ok (greatest (x :: l) x)
  | .firstEligible => match violating g t f pi g.getEdgeList with
    | .error e => .error e
    | .ok l => match l.getLast? with
      | none => .error .unboundLocal
      | some x => .ok x.1

/-! ## Pivoting -/

/-- the while loop of `simplex_identify_cycle`: graph.py 3067-3080; `li`, `lj` without their last elements `i`, `j`, newest
first -/
def meet (t : Graph N) (ix : Idx N) : Nat → N → N → List N → List N → Except PyErr (N × List N × List N)
  | 0, _, _, _, _ => .error .diverge
  | k + 1, i, j, li, lj =>
    if i = j then .ok (i, li, lj)
    else if ¬ t.hasNode i ∨ ¬ t.hasNode j then .error .attributeError
    else match ix.depth i, ix.depth j with
      | some di, some dj =>
        if di > dj then
          match ix.pred i with
          | none => .error .attributeError
          | some i' => meet t ix k i' j (i :: li) lj
        else if di < dj then
          match ix.pred j with
          | none => .error .attributeError
          | some j' => meet t ix k i j' li (j :: lj)
        else match ix.pred i, ix.pred j with
          | some i', some j' => meet t ix k i' j' (i :: li) (j :: lj)
          | _, _ => .error .attributeError
      | _, _ => .error .typeError

/-- `simplex_identify_cycle`: graph.py 3041-3086: from `l` up to the common ancestor and down to `k` -/
def identify (t : Graph N) (ix : Idx N) (k l : N) (fuel : Nat) : Except PyErr (List N) :=
  match meet t ix fuel k l [] [] with
  | .error e => .error e
  | .ok (a, li, lj) => .ok (lj.reverse ++ a :: li)

/-- one step of the search for the leaving arc: graph.py 2465-2476, 2479-2489 -/
def leaveStep (g t : Graph N) (f : N × N → Int) (u v : N) (c : Option (N × N) × Int) :
    Except PyErr (Option (N × N) × Int) :=
  if t.edgeAttr.contains (u, v) then
    match g.flowOf f u v with
    | .error e => .error e
    | .ok fl => match g.capOf u v with
      | .error e => .error e
      | .ok cp => .ok (if c.2 ≥ cp - fl then (some (u, v), cp - fl) else c)
  else match g.flowOf f v u with
    | .error e => .error e
    | .ok fl => .ok (if c.2 ≥ fl then (some (v, u), fl) else c)

/-- the while loop: graph.py 2464-2477 -/
def leaveLoop (g t : Graph N) (f : N × N → Int) : List N → Option (N × N) × Int → Except PyErr (Option (N × N) × Int)
  | u :: v :: l, c => match leaveStep g t f u v c with
    | .error e => .error e
    | .ok c => leaveLoop g t f (v :: l) c
  | _, c => .ok c

/-- the search for the leaving arc on a cycle: graph.py 2452-2490 -/
def leaving (g t : Graph N) (f : N × N → Int) (cycle : List N) (c0 : Int) : Except PyErr ((N × N) × Int) :=
  match cycle with
  | [] => .error .indexError
  | v :: l => match leaveLoop g t f (v :: l) (none, c0) with
    | .error e => .error e
    | .ok c => match leaveStep g t f ((v :: l).getLast (by simp)) v c with
      | .error e => .error e
      | .ok (none, _) => .error .unboundLocal
      | .ok (some e, m) => .ok (e, m)

/-- one step of the augmentation: graph.py 2629-2636, 2639-2646; the direction is decided by the arcs of the tree -/
def pushStep (g t : Graph N) (d : Int) (u v : N) (f : N × N → Int) : Except PyErr (N × N → Int) :=
  if t.edgeAttr.contains (u, v) then
    match g.flowOf f u v with
    | .error e => .error e
    | .ok x => .ok (upd f (u, v) (x + d))
  else match g.flowOf f v u with
    | .error e => .error e
    | .ok x => .ok (upd f (v, u) (x - d))

/-- the while loop: graph.py 2628-2637 -/
def pushLoop (g t : Graph N) (d : Int) : List N → (N × N → Int) → Except PyErr (N × N → Int)
  | u :: v :: l, f => match pushStep g t d u v f with
    | .error e => .error e
    | .ok f => pushLoop g t d (v :: l) f
  | _, f => .ok f

/-- the augmentation in `simplex_remove_arc`: graph.py 2624-2646 -/
def pushCycle (g t : Graph N) (d : Int) (cycle : List N) (f : N × N → Int) : Except PyErr (N × N → Int) :=
  match cycle with
  | [] => .error .indexError
  | v :: l => match pushLoop g t d (v :: l) f with
    | .error e => .error e
    | .ok f => pushStep g t d ((v :: l).getLast (by simp)) v f

/-- one pivot with the entering arc `k`: `simplex_determine_leaving_arc` (graph.py 2436-2490) and `simplex_remove_arc`
(2607-2663) -/
def pivotOn (g t : Graph N) (f : N × N → Int) (ix : Idx N) (k : N × N) (fuel : Nat) :
    Except PyErr (Graph N × (N × N → Int)) :=
  match identify t ix k.1 k.2 fuel with
  | .error e => .error e
  | .ok cycle => match g.flowOf f k.1 k.2 with
    | .error e => .error e
    | .ok fl => match g.capOf k.1 k.2 with
      | .error e => .error e
      | .ok c =>
        let cycle := if fl = c then cycle.reverse else cycle
        match t.call (.addEdge k.1 k.2 []) with
        | .error e => .error e
        | .ok t => match leaving g t f cycle c with
          | .error e => .error e
          | .ok (p, d) => match pushCycle g t d cycle f with
            | .error e => .error e
            | .ok f => match t.call (.delEdge p.1 p.2) with
              | .error e => .error e
              | .ok t => .ok (t, f)

/-- `simplex_mark_st_arcs`: graph.py 2506-2540; the colours are left out, the exception is kept -/
def markArcs (g t : Graph N) (f : N × N → Int) : List (N × N) → Except PyErr Unit
  | [] => .ok ()
  | e :: l => match g.flowOf f e.1 e.2 with
    | .error x => .error x
    | .ok fl => match g.capOf e.1 e.2 with
      | .error x => .error x
      | .ok c => if t.edgeAttr.contains e ∨ fl = 0 ∨ fl = c then markArcs g t f l else .error .exception

/-! ## simplex_redraw -/

/-- the attributes `flow`, `capacity`, `cost` set on the arcs of the tree: graph.py 2654-2661 (`simplex_remove_arc`),
2789-2798 (`simplex_find_tree`) -/
def stamps (g : Graph N) (f : N × N → Int) : List (N × N) → Except PyErr (N × N → Option (Int × Int × Int))
  | [] => .ok fun _ => none
  | e :: l => match g.flowOf f e.1 e.2 with
    | .error x => .error x
    | .ok fl => match g.capOf e.1 e.2 with
      | .error x => .error x
      | .ok c => match g.getEdgeCost e.1 e.2 with
        | .error x => .error x
        | .ok w => match stamps g f l with
          | .error x => .error x
          | .ok s => .ok (upd s e (some (fl, c, w)))

/-- local variables of `simplex_redraw`: the new graph and its node attributes, the list `q` with its end as the head here,
and `visited` -/
structure DState (N : Type) where
  new : Graph N
  ix : Idx N
  q : List N
  visited : List N

/-- the attributes of `n` copied from the old graph: graph.py 2578-2580, 2586-2588 -/
def copyIdx (old new : Idx N) (n : N) : Idx N :=
  ⟨upd new.pred n (old.pred n), upd new.depth n (old.depth n), upd new.thread n (old.thread n)⟩

/-- `if n not in new.get_node_list(): ...`: graph.py 2585-2589 -/
def drawNode (t : Graph N) (ix : Idx N) (n : N) (st : DState N) : Except PyErr (DState N) :=
  if n ∈ st.new.getNodeList then .ok st
  else if ¬ t.hasNode n then .error .attributeError
  else match st.new.call (.addNode n []) with
    | .error e => .error e
    | .ok new => .ok { st with new := new, ix := copyIdx ix st.ix n }

/-- `if e not in new.edge_attr: new.add_edge(...)`: graph.py 2591-2592, 2594-2595 -/
def drawArc (u v : N) (st : DState N) : Except PyErr (DState N) :=
  if st.new.edgeAttr.contains (u, v) then .ok st
  else match st.new.call (.addEdge u v []) with
    | .error e => .error e
    | .ok new => .ok { st with new := new }

/-- the for loop: graph.py 2584-2597 -/
def drawFor (t : Graph N) (ix : Idx N) (name : N) : List N → DState N → Except PyErr (DState N)
  | [], st => .ok st
  | n :: l, st => match drawNode t ix n st with
    | .error e => .error e
    | .ok st => match (if (name, n) ∈ t.getEdgeList then drawArc name n st else drawArc n name st) with
      | .error e => .error e
      | .ok st => drawFor t ix name l (if n ∈ st.visited then st else { st with q := n :: st.q })

/-- `self.neighbors[name] + self.in_neighbors[name]`: graph.py 2583 -/
def outIn (t : Graph N) (name : N) : Except PyErr (List N) :=
  match t.getNeighbors name with
  | .error e => .error e
  | .ok out => match t.getInNeighbors name with
    | .error e => .error e
    | .ok inn => .ok (out ++ inn)

/-- the while loop: graph.py 2580-2597 -/
def drawLoop (t : Graph N) (ix : Idx N) : Nat → DState N → Except PyErr (DState N)
  | 0, _ => .error .diverge
  | k + 1, st => match st.q with
    | [] => .ok st
    | name :: q => match outIn t name with
      | .error e => .error e
      | .ok l => match drawFor t ix name l { st with q := q, visited := name :: st.visited } with
        | .error e => .error e
        | .ok st => drawLoop t ix k st

/-- the attributes of the arcs: graph.py 2598-2605 -/
def drawAttrs (new : Graph N) (s : N × N → Option (Int × Int × Int)) :
    List (N × N) → (N × N → Option (Int × Int × Int)) → Except PyErr (N × N → Option (Int × Int × Int))
  | [], r => .ok r
  | e :: l, r => match s e with
    | none => .error .keyError
    | some x => if new.edgeAttr.contains e then drawAttrs new s l (upd r e (some x)) else .error .keyError

/-- `simplex_redraw`: graph.py 2556-2605: the new graph, its node attributes and its arc attributes -/
def redraw (t : Graph N) (ix : Idx N) (s : N × N → Option (Int × Int × Int)) (root : N) (fuel : Nat) :
    Except PyErr (Graph N × Idx N × (N × N → Option (Int × Int × Int))) :=
  if ¬ t.hasNode root then .error .attributeError
  else match (Graph.init true : Graph N).call (.addNode root []) with
    | .error e => .error e
    | .ok new => match drawLoop t ix fuel
        ⟨new, copyIdx ix ⟨fun _ => none, fun _ => none, fun _ => none⟩ root, [root], [root]⟩ with
      | .error e => .error e
      | .ok st => match drawAttrs st.new s t.getEdgeList fun _ => none with
        | .error e => .error e
        | .ok r => .ok (st.new, st.ix, r)

/-- what the main loop changes -/
structure SState (N : Type) where
  t : Graph N
  f : N × N → Int
  ix : Idx N
  pi : N → Option Int

/-- graph.py 2393-2396 and 2416-2419: `simplex_search` and `simplex_compute_potentials` -/
def refresh (g : Graph N) (root : N) (st : SState N) (fuel : Nat) : Except PyErr (SState N) :=
  match search st.t st.ix root fuel with
  | .error e => .error e
  | .ok (_, ix) => match potentials g st.t ix root st.pi fuel with
    | .error e => .error e
    | .ok pi => .ok { st with ix := ix, pi := pi }

/-- the body of the main loop: graph.py 2400-2419; the result of `simplex_redraw` is dropped, its exceptions are not -/
def pivotStep (g : Graph N) (root : N) (p : Pivot) (st : SState N) (fuel : Nat) : Except PyErr (SState N) :=
  match entering g st.t st.f st.pi p with
  | .error e => .error e
  | .ok k => match pivotOn g st.t st.f st.ix k fuel with
    | .error e => .error e
    | .ok (t, f) => match stamps g f t.getEdgeList with
      | .error e => .error e
      | .ok s => match markArcs g t f g.getEdgeList with
        | .error e => .error e
        | .ok _ => match redraw t st.ix s root fuel with
          | .error e => .error e
          | .ok _ => refresh g root { st with t := t, f := f } fuel

/-- the main loop: graph.py 2398-2420; `inner` bounds all other loops -/
def mainLoop (g : Graph N) (root : N) (p : Pivot) (inner : Nat) : Nat → SState N → Except PyErr (SState N)
  | 0, _ => .error .diverge
  | k + 1, st => match optimal g st.t st.f st.pi g.getEdgeList with
    | .error e => .error e
    | .ok true => .ok st
    | .ok false => match pivotStep g root p st inner with
      | .error e => .error e
      | .ok st => mainLoop g root p inner k st

/-- from the feasible flow to the start of the main loop: graph.py 2384-2396 -/
def setup (g : Graph N) (root : N) (f : N × N → Int) (ix : Idx N) (pi : N → Option Int) (fuel : Nat) :
    Except PyErr (SState N) :=
  match findTree g f ix fuel with
  | .error e => .error e
  | .ok (t, f, ix) => match stamps g f t.getEdgeList with
    | .error e => .error e
    | .ok s => match markArcs g t f g.getEdgeList with
      | .error e => .error e
      | .ok _ => match redraw t ix s root fuel with
        | .error e => .error e
        | .ok _ => refresh g root ⟨t, f, ix, pi⟩ fuel

/-- `network_simplex`: graph.py 2356-2420; `pi` is the attribute `potential` left by earlier calls, `pivots` bounds the main
loop.  The attributes of the new graph `t` are empty. -/
def networkSimplex (g : Graph N) (O : QOps N Q) (newQ : Q) (s t : N) (root : N) (p : Pivot) (pi : N → Option Int)
    (fuel pivots : Nat) : Except PyErr (Bool × (N × N → Int) × Graph N) :=
  match MinCost.feasibleFlow g O newQ s t fuel with
  | .error e => .error e
  | .ok (false, f, g) => .ok (false, f, g)
  | .ok (true, f, g) => match setup g root f ⟨fun _ => none, fun _ => none, fun _ => none⟩ pi fuel with
    | .error e => .error e
    | .ok st => match mainLoop g root p fuel pivots st with
      | .error e => .error e
      | .ok st => .ok (true, st.f, g)

/-- `network_simplex` with the attribute `potential` that it leaves on the nodes: graph.py 2356-2420 -/
def networkSimplexPi (g : Graph N) (O : QOps N Q) (newQ : Q) (s t : N) (root : N) (p : Pivot) (pi : N → Option Int)
    (fuel pivots : Nat) : Except PyErr (Bool × (N × N → Int) × Graph N × (N → Option Int)) :=
  match MinCost.feasibleFlow g O newQ s t fuel with
  | .error e => .error e
  | .ok (false, f, g) => .ok (false, f, g, pi)
  | .ok (true, f, g) => match setup g root f ⟨fun _ => none, fun _ => none, fun _ => none⟩ pi fuel with
    | .error e => .error e
    | .ok st => match mainLoop g root p fuel pivots st with
      | .error e => .error e
      | .ok st => .ok (true, st.f, g, st.pi)

/-- the values of the argument `algo` of `min_cost_flow` -/
inductive FlowAlgo | simplex | cycleCanceling | other
  deriving DecidableEq

/-- `min_cost_flow`: graph.py 3088-3163; `none` for an argument that is not given.  The result is None; here `none` after
the message about an unknown algorithm, otherwise False if 'problem is infeasible' is printed, the flow and the graph. -/
def minCostFlow (g : Graph N) (O : QOps N Q) (newQ : Q) (s t : N) (algo : Option FlowAlgo) (root : Option N)
    (p : Option Pivot) (pi : N → Option Int) (fuel pivots : Nat) : Except PyErr (Option (Bool × (N × N → Int) × Graph N)) :=
  match algo.getD .simplex with
  | .simplex => match root, g.getNodeList.head? with
    | none, none => .error .unboundLocal
    | some r, _ => match networkSimplex g O newQ s t r (p.getD .dantzig) pi fuel pivots with
      | .error e => .error e
      | .ok x => .ok (some x)
    | none, some r => match networkSimplex g O newQ s t r (p.getD .dantzig) pi fuel pivots with
      | .error e => .error e
      | .ok x => .ok (some x)
  | .cycleCanceling => match MinCost.cycleCanceling g O newQ s t fuel with
    | .error e => .error e
    | .ok x => .ok (some x)
  | .other => .ok none

end Simplex
end GiMPy
