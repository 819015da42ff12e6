import Verif.Model.Graph
import Mathlib.Data.List.Sort

/-! # Model of `class DisjointSet` and of Kruskal's algorithm (src/gimpy/graph.py 3482-3565, 1297-1337) -/

namespace GiMPy
variable {N : Type} [DecidableEq N]

/-- State of a `DisjointSet`: graph.py 3486-3502.  `g` is the inherited directed graph. -/
structure DSet (N : Type) where
  g : Graph N
  sizes : Dict N Nat
  optimize : Bool

namespace DSet

/-- `DisjointSet(optimize=...)`: graph.py 3486-3502 -/
def init (optimize : Bool) : DSet N := ⟨Graph.init true, .empty, optimize⟩

/-- `for i in range(1, len(aList)): self.add_edge(aList[i], aList[0])`: graph.py 3515-3516 -/
def addEdges (a0 : N) : List N → GM N Unit
  | [] => pure ()
  | a :: l => do
    Graph.addEdge a a0 []
    addEdges a0 l

/-- `DisjointSet.add`: graph.py 3504-3517 -/
def add (d : DSet N) : List N → Except PyErr (DSet N)
  | [] => .error .indexError
  | a0 :: l =>
    match (do Graph.addNode a0 []; addEdges a0 l : GM N Unit).run d.g with
    | .error e _ => .error e
    | .ok _ g => .ok { d with g := g, sizes := d.sizes.set a0 (l.length + 1) }

/-- the `while` loop of `find`: graph.py 3553-3558.  Returns the root and `edge_list`. -/
def climb (g : Graph N) : Nat → N → List (N × N) → Except PyErr (N × List (N × N))
  | 0, _, _ => .error .diverge
  | f + 1, current, edges =>
    match g.getNeighbors current with
    | .error e => .error e
    | .ok [] => .ok (current, edges)
    | .ok (successor :: _) => climb g f successor (edges ++ [(current, successor)])

/-- body of the path compression loop: graph.py 3561-3563 -/
def redirect (current : N) (e : N × N) : GM N Unit :=
  if e.2 ≠ current then do
    Graph.delEdge (e.1, e.2)
    Graph.addEdge e.1 current []
  else pure ()

/-- the path compression loop: graph.py 3560-3563 -/
def compress (current : N) : List (N × N) → GM N Unit
  | [] => pure ()
  | e :: l => do
    redirect current e
    compress current l

/-- `DisjointSet.find`: graph.py 3542-3564 -/
def find (d : DSet N) (fuel : Nat) (i : N) : Except PyErr (N × DSet N) :=
  match climb d.g fuel i [] with
  | .error e => .error e
  | .ok (current, edges) =>
    if d.optimize then
      match (compress current edges).run d.g with
      | .error e _ => .error e
      | .ok _ g => .ok (current, { d with g := g })
    else .ok (current, d)

/-- `self.add_edge(a, b); self.sizes[b] += self.sizes[a]; return True`: graph.py 3533-3535, 3537-3539 -/
def link (d : DSet N) (a b : N) : Except PyErr (Bool × DSet N) :=
  match (Graph.addEdge a b []).run d.g with
  | .error e _ => .error e
  | .ok _ g => match d.sizes.get? b, d.sizes.get? a with
    | some sb, some sa => .ok (true, { d with g := g, sizes := d.sizes.set b (sb + sa) })
    | _, _ => .error .keyError

/-- `DisjointSet.union`: graph.py 3519-3540 -/
def union (d : DSet N) (fuel : Nat) (i j : N) : Except PyErr (Bool × DSet N) :=
  match d.find fuel i with
  | .error e => .error e
  | .ok (r0, d) => match d.find fuel j with
    | .error e => .error e
    | .ok (r1, d) =>
      if r0 = r1 then .ok (false, d)
      else match d.sizes.get? r0, d.sizes.get? r1 with
        | some s0, some s1 =>
          if s0 ≤ s1 ∨ d.optimize = false then d.link r0 r1 else d.link r1 r0
        | _, _ => .error .keyError

end DSet

namespace Kruskal

/-- `for n in self.get_node_list(): components.add([n])`: graph.py 1319-1320 -/
def addAll (d : DSet N) : List N → Except PyErr (DSet N)
  | [] => .ok d
  | n :: l => match d.add [n] with
    | .error e => .error e
    | .ok d => addAll d l

/-- the costs used as sort keys: graph.py 1317 -/
def costs (g : Graph N) : List (N × N) → Except PyErr (List ((N × N) × Int))
  | [] => .ok []
  | e :: l => match g.getEdgeCost e.1 e.2 with
    | .error x => .error x
    | .ok c => match costs g l with
      | .error x => .error x
      | .ok cs => .ok ((e, c) :: cs)

/-- `sorted(..., key=...)`, a stable sort: graph.py 1317 -/
def sorted (l : List ((N × N) × Int)) : List (N × N) :=
  (l.insertionSort fun a b => a.2 ≤ b.2).map Prod.fst

/-- the main loop: graph.py 1322-1336.  The colour writes are to edges of `get_edge_list()` and cannot raise; they are
left out. -/
def loop (n : Nat) (fuel : Nat) : List (N × N) → DSet N → List (N × N) → Except PyErr (List (N × N))
  | [], _, edges => .ok edges
  | e :: l, d, edges =>
    if edges.length + 1 = n then .ok edges
    else match d.union fuel e.1 e.2 with
      | .error x => .error x
      | .ok (true, d) => loop n fuel l d (edges ++ [e])
      | .ok (false, d) => loop n fuel l d edges

/-- `minimum_spanning_tree_kruskal()` with `components=None`: graph.py 1297-1337 -/
def kruskal (g : Graph N) (fuel : Nat) : Except PyErr (List (N × N)) :=
  match costs g g.getEdgeList with
  | .error e => .error e
  | .ok cs => match addAll (DSet.init false) g.getNodeList with
    | .error e => .error e
    | .ok d => loop g.getNodeList.length fuel (sorted cs) d []

/-- the main loop with the state of `components` at its end: graph.py 1322-1336 -/
def loopD (n : Nat) (fuel : Nat) : List (N × N) → DSet N → List (N × N) → Except PyErr (List (N × N) × DSet N)
  | [], d, edges => .ok (edges, d)
  | e :: l, d, edges =>
    if edges.length + 1 = n then .ok (edges, d)
    else match d.union fuel e.1 e.2 with
      | .error x => .error x
      | .ok (true, d) => loopD n fuel l d (edges ++ [e])
      | .ok (false, d) => loopD n fuel l d edges

/-- `minimum_spanning_tree_kruskal(components=d)`: graph.py 1297-1337; the returned list and `d` after the call -/
def kruskalWith (g : Graph N) (d : DSet N) (fuel : Nat) : Except PyErr (List (N × N) × DSet N) :=
  match costs g g.getEdgeList with
  | .error e => .error e
  | .ok cs => match addAll d g.getNodeList with
    | .error e => .error e
    | .ok d => loopD g.getNodeList.length fuel (sorted cs) d []

end Kruskal
end GiMPy
