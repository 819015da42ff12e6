import Mathlib.Logic.Relation
import Mathlib.Algebra.BigOperators.Group.List.Basic

/-! # Spanning trees of minimum cost (independent of the algorithms) -/

namespace GiMPy
variable {N : Type}

/-- adjacency through an edge list, ignoring orientation -/
def EAdj (T : List (N × N)) (a b : N) : Prop := (a, b) ∈ T ∨ (b, a) ∈ T

/-- connected through the edges of `T` -/
abbrev EConn (T : List (N × N)) : N → N → Prop := Relation.ReflTransGen (EAdj T)

/-- `T` is a spanning tree of the node set `V` (a list without repetitions): its edges are edges of the graph `adj`
inside `V`, it connects `V`, and it has one edge fewer than there are nodes. -/
structure IsSpanTree (adj : N → N → Prop) (V : List N) (T : List (N × N)) : Prop where
  edges : ∀ e ∈ T, adj e.1 e.2 ∧ e.1 ∈ V ∧ e.2 ∈ V
  conn : ∀ u ∈ V, ∀ v ∈ V, EConn T u v
  size : T.length + 1 = V.length

/-- total cost of an edge list -/
def treeCost (w : N → N → Int) (T : List (N × N)) : Int := (T.map fun e => w e.1 e.2).sum

/-- a spanning tree of least total cost -/
structure IsMinSpanTree (adj : N → N → Prop) (w : N → N → Int) (V : List N) (T : List (N × N)) : Prop where
  tree : IsSpanTree adj V T
  least : ∀ T', IsSpanTree adj V T' → treeCost w T ≤ treeCost w T'

/-- `R` holds exactly one node of every connected component of the graph `adj` on `V` -/
structure IsReps (adj : N → N → Prop) (V R : List N) : Prop where
  nodup : R.Nodup
  sub : ∀ r ∈ R, r ∈ V
  cover : ∀ v ∈ V, ∃ r ∈ R, Relation.ReflTransGen adj v r
  distinct : ∀ r ∈ R, ∀ s ∈ R, Relation.ReflTransGen adj r s → r = s

/-- `T` is a spanning forest of a graph with nodes `V` and `c` connected components: it connects whatever the graph
connects and has `c` edges fewer than there are nodes. -/
structure IsSpanForest (adj : N → N → Prop) (V : List N) (c : Nat) (T : List (N × N)) : Prop where
  edges : ∀ e ∈ T, adj e.1 e.2 ∧ e.1 ∈ V ∧ e.2 ∈ V
  conn : ∀ u ∈ V, ∀ v ∈ V, Relation.ReflTransGen adj u v → EConn T u v
  size : T.length + c = V.length

/-- a spanning forest of least total cost -/
structure IsMinSpanForest (adj : N → N → Prop) (w : N → N → Int) (V : List N) (c : Nat) (T : List (N × N)) : Prop where
  forest : IsSpanForest adj V c T
  least : ∀ T', IsSpanForest adj V c T' → treeCost w T ≤ treeCost w T'

end GiMPy
