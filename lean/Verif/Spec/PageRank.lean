import Mathlib.Algebra.Order.Field.Rat
import Mathlib.Algebra.BigOperators.Group.List.Basic

/-! # The PageRank equations, on lists of nodes and arcs -/

namespace GiMPy
variable {N : Type} [DecidableEq N]

/-- number of arcs that leave `u` -/
def outDeg (E : List (N × N)) (u : N) : Nat := (E.filter fun e => e.1 = u).length

/-- number of arcs that enter `u` -/
def inDeg (E : List (N × N)) (u : N) : Nat := (E.filter fun e => e.2 = u).length

/-- the right hand side of the PageRank equation of `n`: a share of `1 - d`, plus what the predecessors of `n` pass on -/
def rankOf (V : List N) (E : List (N × N)) (d : ℚ) (x : N → ℚ) (n : N) : ℚ :=
  (1 - d) / V.length + ((E.filter fun e => e.2 = n).map fun e => d * x e.1 / outDeg E e.1).sum

/-- `x` solves the PageRank equations -/
def IsPageRank (V : List N) (E : List (N × N)) (d : ℚ) (x : N → ℚ) : Prop := ∀ n ∈ V, x n = rankOf V E d x n

end GiMPy
