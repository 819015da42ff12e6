import Verif.Model.Graph
import Mathlib.Logic.Relation
import Mathlib.Data.List.Chain
import Mathlib.Algebra.BigOperators.Group.List.Basic

/-! # Walks, reachability and path costs (independent of the algorithms) -/

namespace GiMPy
variable {N : Type} [DecidableEq N]
set_option linter.unusedSectionVars false

/-- `u → v` is one step along an edge of the graph (against its direction when `rev`). -/
def Step (g : Graph N) (rev : Bool) (u v : N) : Prop :=
  (if rev then g.checkEdge v u else g.checkEdge u v) = true

/-- `v` is reachable from `u`. -/
abbrev Reach (g : Graph N) (rev : Bool) : N → N → Prop := Relation.ReflTransGen (Step g rev)

/-- there is a walk of exactly `k` edges from `u` to `v` -/
inductive WalkLen (R : N → N → Prop) (u : N) : Nat → N → Prop
  | nil : WalkLen R u 0 u
  | snoc {k v w} : WalkLen R u k v → R v w → WalkLen R u (k + 1) w

/-- there is a walk of total cost `x` from `u` to `v` -/
inductive WalkCost (R : N → N → Prop) (c : N → N → Int) (u : N) : Int → N → Prop
  | nil : WalkCost R c u 0 u
  | snoc {x v w} : WalkCost R c u x v → R v w → WalkCost R c u (x + c v w) w

/-- `l` is a list of nodes following steps of `R` from `u` to `v` -/
def IsPath (R : N → N → Prop) (u v : N) (l : List N) : Prop :=
  l.head? = some u ∧ l.getLast? = some v ∧ l.IsChain R

/-- sum of the costs of consecutive pairs -/
def pathCost (c : N → N → Int) : List N → Int
  | u :: v :: l => c u v + pathCost c (v :: l)
  | _ => 0

/-- `c` lists, in order, the different nodes of a cycle -/
def IsCycle (R : N → N → Prop) (c : List N) : Prop := c.Nodup ∧ ∃ u v, IsPath R u v c ∧ R v u

/-- sum of the costs around a cycle -/
def cycleCost (w : N → N → Int) (c : List N) : Int := pathCost w (c ++ c.head?.toList)

/-- following the predecessor links from `v` leads to `src` -/
inductive LeadsTo (pred : Dict N N) (src : N) : N → Prop
  | here : LeadsTo pred src src
  | step {v p} : pred.get? v = some p → LeadsTo pred src p → LeadsTo pred src v

/-- `c` is the least cost of a walk from `u` to `v` -/
def IsLeastCost (R : N → N → Prop) (w : N → N → Int) (u v : N) (c : Int) : Prop :=
  WalkCost R w u c v ∧ ∀ x, WalkCost R w u x v → c ≤ x

/-- `k` is the least number of edges of a walk from `u` to `v` -/
def IsLeastLen (R : N → N → Prop) (u v : N) (k : Nat) : Prop :=
  WalkLen R u k v ∧ ∀ x, WalkLen R u x v → k ≤ x

end GiMPy
