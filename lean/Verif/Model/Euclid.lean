import Verif.Model.Misc
import Mathlib.Data.List.Sort

/-! # Model of `random` with `Euclidean=True` and `degree_range` (src/gimpy/graph.py 3249-3292)

The coordinates are floating point numbers.  They enter through the attributes of the nodes (the parameter `nodeFormat`) and
through the rounded distances, which are integers: `dist n m` is `round(... * scale_cost, 0)` of 3279-3283. -/

namespace GiMPy
namespace Misc

/-- the arguments; `lengths`, `parallel`, `coin` and `len` of `RandomArgs` are not used in this branch.  `deg m` is the outcome
of `random.randint(degree_range...)` for the node `m` (3259) -/
structure EuclidArgs extends RandomArgs where
  deg : Nat → Nat
  dist : Nat → Nat → Int

/-- `lengths`, sorted by length; Python's sort is stable: graph.py 3277-3284 -/
def byLength (A : EuclidArgs) (m : Nat) : List (Nat × Int) :=
  ((List.range A.numnodes).map fun n => (n, A.dist n m)).insertionSort fun a b => a.2 ≤ b.2

/-- `if add_labels: self.set_edge_attr(m, n, 'label', str(int(length)))`: graph.py 3288-3289 -/
def closeLabel (A : EuclidArgs) (m n : Nat) (c : Int) : GM Nat Unit :=
  if A.addLabels then Graph.setEdgeAttr m n "label" (.str (toString c)) else pure ()

/-- the body of the loop: graph.py 3286-3289 -/
def closeOne (A : EuclidArgs) (m : Nat) (p : Nat × Int) : GM Nat Unit := do
  let g ← get
  if p.1 = m ∨ g.checkEdge m p.1 = true then pure ()
  else do
    Graph.addEdge m p.1 (("cost", .int p.2) :: A.edgeFormat)
    closeLabel A m p.1 p.2

/-- `for i in range(degree+1)` with `lengths[i]`: graph.py 3285-3289; the list is `lengths[i:]`, the number counts the rounds
that are left -/
def closeLoop (A : EuclidArgs) (m : Nat) : List (Nat × Int) → Nat → GM Nat Unit
  | _, 0 => pure ()
  | [], _ + 1 => throw .indexError
  | p :: l, k + 1 => do
    closeOne A m p
    closeLoop A m l k

/-- the loop over the nodes: graph.py 3258-3289 -/
def closeAll (A : EuclidArgs) : List Nat → GM Nat Unit
  | [] => pure ()
  | m :: l => do
    closeLoop A m (byLength A m) (A.deg m + 1)
    closeAll A l

/-- the values of `node_selection` -/
inductive Selection | closest | random | other
  deriving DecidableEq

/-- the loop over the nodes with `node_selection='random'`: graph.py 3262-3264: the variable `n` has no value when it is read -/
def pickAll (A : EuclidArgs) : List Nat → GM Nat Unit
  | [] => pure ()
  | m :: l => if 0 < A.deg m then throw .unboundLocal else pickAll A l

/-- `random(numnodes, Euclidean=True, degree_range=..., node_selection=...)`: graph.py 3249-3292; with another value of
`node_selection` it prints a message and returns -/
def euclid (A : EuclidArgs) (s : Selection) : GM Nat Unit := do
  addNodes A.toRandomArgs (List.range A.numnodes)
  match s with
  | .closest => closeAll A (List.range A.numnodes)
  | .random => pickAll A (List.range A.numnodes)
  | .other => pure ()

end Misc
end GiMPy
