import Verif.Spec.AbsGraph

/-! # Graphs that a user can build -/

namespace GiMPy
variable {N : Type} [DecidableEq N]

/-- `g` results from some history of edit calls on an empty graph (without `del_node` on undirected graphs, which
always raises and corrupts the object: C05). -/
def Built (g : Graph N) : Prop :=
  ∃ (d : Bool) (ops : List (Op N)), (∀ op ∈ ops, op.InScope d) ∧ g = runOps (Graph.init d) ops

end GiMPy
