import Verif.Model.Search
import Mathlib.Algebra.Order.Field.Rat

/-! # Model of smaller methods of `class Graph` (src/gimpy/graph.py 876-929, 3165-3316, 3318-3479)

Left out: output on the screen, pictures. -/

namespace GiMPy
variable {N : Type} [DecidableEq N]

namespace Misc

/-! ## Degrees: graph.py 3362-3416 -/

/-- `for n in ...: degree[n] = len(f(n))` -/
def degTable (f : N → Except PyErr (List N)) : List N → Dict N Nat → Except PyErr (Dict N Nat)
  | [], d => .ok d
  | n :: l, d => match f n with
    | .error e => .error e
    | .ok x => degTable f l (d.set n x.length)

/-- both lists of a node of a digraph: graph.py 3379-3381 -/
def bothNbrs (g : Graph N) (n : N) : Except PyErr (List N) :=
  match g.getInNeighbors n with
  | .error e => .error e
  | .ok x => match g.getNeighbors n with
    | .error e => .error e
    | .ok y => .ok (x ++ y)

/-- `get_degrees`: graph.py 3362-3381; `typeGiven` says whether the graph was made with the argument `type`, without which
`self.attr['type']` raises KeyError.  `none` is the value None; for a digraph the table is computed and not returned. -/
def getDegrees (g : Graph N) (typeGiven : Bool) : Except PyErr (Option (Dict N Nat)) :=
  if ¬ typeGiven then .error .keyError
  else if ¬ g.directed then
    match degTable g.getNeighbors g.getNodeList .empty with
    | .error e => .error e
    | .ok d => .ok (some d)
  else match degTable (bothNbrs g) g.getNodeList .empty with
    | .error e => .error e
    | .ok _ => .ok none

/-- `get_in_degrees`: graph.py 3383-3398 (`inn`), `get_out_degrees`: 3400-3416 -/
def getInOutDegrees (g : Graph N) (typeGiven inn : Bool) : Except PyErr (Option (Dict N Nat)) :=
  if ¬ typeGiven then .error .keyError
  else if ¬ g.directed then .ok none
  else match degTable (if inn then g.getInNeighbors else g.getNeighbors) g.getNodeList .empty with
    | .error e => .error e
    | .ok d => .ok (some d)

/-! ## Diameter: graph.py 3418-3449 -/

/-- what `get_diameter` returns -/
inductive Diam | none | infinity | num (k : Nat)
  deriving DecidableEq

/-- `len(path_n_m)`, or the path is None -/
def resLen : SearchRes N → Option Nat
  | .path l => some l.length
  | .pred d => some d.entries.length
  | .none => none

section
variable {Q : Type}

/-- the inner loop: graph.py 3437-3447.  `q0` is the empty queue that every call of `search` makes; `none` is the early
return of 'infinity'. -/
def diamInner (g : Graph N) (O : QOps N Q) (q0 : Q) (fuel : Nat) (n : N) :
    List N → SState N Q → Nat → Except PyErr (Option (Nat × SState N Q))
  | [], col, ecc => .ok (some (ecc, col))
  | m :: l, col, ecc =>
    match Search.search g O .bfs false none (some m) n { col with q := q0 } fuel with
    | .error e => .error e
    | .ok (res, col) => match resLen res with
      | none => .ok none
      | some k => diamInner g O q0 fuel n l col (if k - 1 > ecc then k - 1 else ecc)

/-- `if diameter == 'infinity' or eccentricity_n > diameter`: graph.py 3448-3449 -/
def diamUpd (d : Diam) (ecc : Nat) : Diam :=
  match d with
  | .num k => if ecc > k then .num ecc else .num k
  | _ => .num ecc

/-- the outer loop: graph.py 3436-3449 -/
def diamOuter (g : Graph N) (O : QOps N Q) (q0 : Q) (fuel : Nat) :
    List N → SState N Q → Nat → Diam → Except PyErr Diam
  | [], _, _, d => .ok d
  | n :: l, col, ecc, d =>
    match diamInner g O q0 fuel n g.getNodeList col ecc with
    | .error e => .error e
    | .ok none => .ok .infinity
    | .ok (some (ecc, col)) => diamOuter g O q0 fuel l col ecc (diamUpd d ecc)

/-- `get_diameter`: graph.py 3418-3449 -/
def getDiameter (g : Graph N) (O : QOps N Q) (q0 : Q) (typeGiven : Bool) (col : SState N Q) (fuel : Nat) :
    Except PyErr Diam :=
  if ¬ typeGiven then .error .keyError
  else if g.directed then .ok .none
  else diamOuter g O q0 fuel g.getNodeList col 0 .infinity

end

/-! ## PageRank: graph.py 3318-3360, over the rational numbers instead of floats -/

/-- the sum for one node: graph.py 3351-3354 -/
def prNode (g : Graph N) (d : ℚ) (pr : Dict N ℚ) : List N → ℚ → Except PyErr ℚ
  | [], rank => .ok rank
  | r :: l, rank => match pr.get? r with
    | none => .error .keyError
    | some x => match g.getNeighbors r with
      | .error e => .error e
      | .ok out => if out.length = 0 then .error .zeroDivision
        else prNode g d pr l (rank + d * x / out.length)

/-- one iteration: graph.py 3348-3356; returns the table and `diff` -/
def prSweep (g : Graph N) (d minv : ℚ) : List N → Dict N ℚ → ℚ → Except PyErr (Dict N ℚ × ℚ)
  | [], pr, diff => .ok (pr, diff)
  | n :: l, pr, diff => match g.getInNeighbors n with
    | .error e => .error e
    | .ok inn => match prNode g d pr inn minv with
      | .error e => .error e
      | .ok rank => match pr.get? n with
        | none => .error .keyError
        | some old => prSweep g d minv l (pr.set n rank) (diff + |old - rank|)

/-- the iterations: graph.py 3347-3360; the Boolean says whether the loop ended by `break` -/
def prLoop (g : Graph N) (d minv minDelta : ℚ) : Nat → Dict N ℚ → Except PyErr (Dict N ℚ × Bool)
  | 0, pr => .ok (pr, false)
  | k + 1, pr => match prSweep g d minv g.getNodeList pr 0 with
    | .error e => .error e
    | .ok (pr, diff) => if diff < minDelta then .ok (pr, true) else prLoop g d minv minDelta k pr

/-- `dict.fromkeys(nodes, x)` -/
def fromKeys (x : ℚ) (l : List N) : Dict N ℚ := Dict.empty.update (l.map fun n => (n, x))

/-- `page_rank`: graph.py 3318-3360; also tells whether the iteration converged -/
def pageRank (g : Graph N) (d : ℚ) (maxIter : Nat) (minDelta : ℚ) : Except PyErr (Dict N ℚ × Bool) :=
  if g.getNodeList.length = 0 then .ok (.empty, true)
  else prLoop g d ((1 - d) / g.getNodeList.length) minDelta maxIter
    (fromKeys (1 / (g.getNodeList.length : ℚ)) g.getNodeList)

/-! ## create_cluster: graph.py 3451-3479 -/

/-- a cluster: `{'node_list':..., 'attrs':..., 'node_attrs':...}` -/
structure Cluster (N : Type) where
  nodes : List N
  attrs : Dict String (Val N)
  nodeAttrs : Dict String (Val N)
  deriving DecidableEq

/-- `self.cluster`, `self.attr['cluster_count']`, and the dictionary that is the default value of `cluster_attrs`: there is
one for the whole process, made when the method is defined -/
structure ClusterState (N : Type) where
  clusters : Dict (Val N) (Cluster N)
  count : Nat
  dflt : Dict String (Val N)

/-- `'c%d' % count` -/
def autoName (k : Nat) : Val N := .str ("c" ++ toString k)

/-- `create_cluster(node_list, cluster_attrs, node_attrs)`: graph.py 3467-3479; `arg` is the argument `cluster_attrs`,
`none` if it is omitted.  The argument is a dictionary object that the method changes; what matters here is the default. -/
def createCluster (s : ClusterState N) (nodes : List N) (arg : Option (Dict String (Val N)))
    (nodeAttrs : Dict String (Val N)) : Except PyErr (ClusterState N) :=
  let attrs := arg.getD s.dflt
  match attrs.get? "name" with
  | some nm =>
    if s.clusters.contains (.str "name") then .error .exception
    else .ok { s with clusters := s.clusters.set nm ⟨nodes, attrs, nodeAttrs⟩ }
  | none =>
    let nm := autoName s.count
    let attrs := attrs.set "name" nm
    .ok { clusters := s.clusters.set nm ⟨nodes, attrs, nodeAttrs⟩, count := s.count + 1,
          dflt := if arg.isNone then attrs else s.dflt }

/-! ## random: graph.py 3165-3316, with `density` (3207-3208, 3227-3244; Euclidean: 3249-3256, 3294-3314) -/

/-- the arguments of `random` that matter; `coin m n` is the outcome of `random.random() < density` and `len m n` of
`random.randint(...)` for the pair `m, n`, which is considered at most once.  `lengths` says whether edges get a cost: `length_range is not None`; in the Euclidean case it is
`length_range is None`, `len m n` is the rounded distance, and the format of a node contains its coordinates. -/
structure RandomArgs where
  numnodes : Nat
  lengths : Bool
  addLabels : Bool
  parallel : Bool
  nodeFormat : Nat → List (String × Val Nat)
  edgeFormat : List (String × Val Nat)
  coin : Nat → Nat → Bool
  len : Nat → Nat → Int

/-- `for m in range(numnodes): self.add_node(m, **node_format)`: graph.py 3207-3208 -/
def addNodes (A : RandomArgs) : List Nat → GM Nat Unit
  | [] => pure ()
  | m :: l => do
    Graph.addNode m (A.nodeFormat m)
    addNodes A l

/-- `if add_labels: self.set_edge_attr(m, n, 'label', str(length))`: graph.py 3241-3242 -/
def addLabel (A : RandomArgs) (m n : Nat) : GM Nat Unit :=
  if A.addLabels then Graph.setEdgeAttr m n "label" (.str (toString (A.len m n))) else pure ()

/-- add the edge: graph.py 3236-3244 -/
def addRandom (A : RandomArgs) (m n : Nat) : GM Nat Unit :=
  if A.lengths then do
    Graph.addEdge m n (("cost", .int (A.len m n)) :: A.edgeFormat)
    addLabel A m n
  else Graph.addEdge m n A.edgeFormat

/-- the tests for one pair: graph.py 3233-3235 -/
def tryPair (A : RandomArgs) (m n : Nat) : GM Nat Unit := do
  let g ← get
  if (A.parallel || !g.edgeAttr.contains (n, m)) && decide (m ≠ n) && A.coin m n then addRandom A m n else pure ()

/-- the two loops as one loop over the pairs -/
def tryPairs (A : RandomArgs) : List (Nat × Nat) → GM Nat Unit
  | [] => pure ()
  | p :: l => do
    tryPair A p.1 p.2
    tryPairs A l

/-- the pairs in the order of the loops: graph.py 3227-3232 -/
def pairs (directed : Bool) (k : Nat) : List (Nat × Nat) :=
  (List.range k).flatMap fun m => (List.range (if directed then k else m)).map fun n => (m, n)

/-- `random(numnodes, density = ...)` -/
def random (A : RandomArgs) : GM Nat Unit := do
  addNodes A (List.range A.numnodes)
  let g ← get
  tryPairs A (pairs g.directed A.numnodes)

/-! ### with `degree_range`, not Euclidean (3209-3226) -/

/-- the arguments; `deg m` is the outcome of `random.randint(degree_range...)` for the node `m`, `pick m i` that of
`random.randint(1, numnodes-1)` in the round `i`, `lenAt m i` that of `random.randint(length_range...)` -/
structure DegreeArgs extends RandomArgs where
  deg : Nat → Nat
  pick : Nat → Nat → Nat
  lenAt : Nat → Nat → Int

/-- the `if add_labels` with its `else`: graph.py 3222-3225 -/
def degLabel (A : DegreeArgs) (m n i : Nat) : GM Nat Unit :=
  if A.addLabels then Graph.setEdgeAttr m n "label" (.str (toString (A.lenAt m i))) else Graph.addEdge m n A.edgeFormat

/-- graph.py 3218-3225: there is no branch for `length_range = None` -/
def degAdd (A : DegreeArgs) (m n i : Nat) : GM Nat Unit :=
  if A.lengths then do
    Graph.addEdge m n (("cost", .int (A.lenAt m i)) :: A.edgeFormat)
    degLabel A m n i
  else pure ()

/-- one round: graph.py 3215-3225 -/
def degRound (A : DegreeArgs) (m i : Nat) : GM Nat Unit := do
  let g ← get
  if !g.edgeAttr.contains (m, A.pick m i) && decide (m ≠ A.pick m i) &&
      (A.parallel || !g.edgeAttr.contains (A.pick m i, m)) then
    degAdd A m (A.pick m i) i
  else pure ()

/-- the rounds, of all nodes, in order -/
def degRounds (A : DegreeArgs) : List (Nat × Nat) → GM Nat Unit
  | [] => pure ()
  | p :: l => do
    degRound A p.1 p.2
    degRounds A l

/-- the pairs node, round in the order of the loops: graph.py 3210-3214, 3226 -/
def rounds (A : DegreeArgs) : List (Nat × Nat) :=
  (List.range A.numnodes).flatMap fun m => (List.range (A.deg m)).map fun i => (m, i)

/-- `random(numnodes, degree_range = ...)` -/
def randomDegree (A : DegreeArgs) : GM Nat Unit := do
  addNodes A.toRandomArgs (List.range A.numnodes)
  degRounds A (rounds A)

/-! ## hamiltonian: graph.py 876-929 -/

/-- the loop over the neighbours: graph.py 917-922; `self.tsp` does not exist -/
def hamLoop (visited : N → Bool) : List N → Except PyErr Bool
  | [] => .ok false
  | i :: l => if visited i then hamLoop visited l else .error .attributeError

/-- the test for success with `distance = 0`: graph.py 904-909 -/
def hamDone (g : Graph N) (src : N) : Option N → Bool
  | some d => decide (src = d ∧ g.getNodeList.length = 1)
  | none => decide (g.getNodeList.length = 0)

/-- `hamiltonian(source, destination)`: graph.py 876-929, with the default `distance = 0` and `pred = None`; `visited` is the
node attribute of that name before the call (it is not reset) -/
def hamiltonian (g : Graph N) (src : N) (dest : Option N) (visited : N → Bool) : Except PyErr Bool :=
  if hamDone g src dest then .ok true
  else if ¬ g.hasNode src then .error .attributeError
  else match g.getNeighbors src with
    | .error e => .error e
    | .ok l => hamLoop (fun v => visited v || decide (v = src)) l

/-! ## The display mode -/

/-- `self.attr['display']` -/
abbrev Mode := String

/-- a piece of code that reads or writes the display mode -/
abbrev DM (α : Type) := EStateM PyErr Mode α

/-- the beginning of `dfs` (graph.py 827-830), `hamiltonian` (894-897), `search` (1013-1016), `minimum_spanning_tree_prim`
(1261-1264), `minimum_spanning_tree_kruskal` (1312-1315), `max_flow_preflowpush` (1358-1361), then the rest of the method -/
def withSet {α : Type} (arg : Option Mode) (body : DM α) : DM α := do
  match arg with
  | none => pure ()
  | some d => set d
  body

/-- the frame of `max_flow`: graph.py 1897-1899, 2042-2043 -/
def withRestore {α : Type} (arg : Option Mode) (body : DM α) : DM α := do
  match arg with
  | none => body
  | some d => do
    let old ← get
    set d
    let x ← body
    set old
    pure x

/-- the frame of `BinaryTree.print_nodes` and `BinaryTree.traverse`: tree.py 315-322, 345-346, 400-407, 431-432 -/
def withRestoreTruthy {α : Type} (arg : Option Mode) (body : DM α) : DM α := do
  match arg with
  | none => body
  | some d => do
    let old ← get
    set d
    let x ← body
    if old ≠ "" then set old
    pure x

end Misc
end GiMPy
