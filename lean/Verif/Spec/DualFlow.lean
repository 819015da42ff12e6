import Verif.Spec.LinearFlow

/-! # The dual of the linear program of minimum cost flow (independent of the algorithms)

One variable `p v` for every node (its price) and one variable `z e` for every arc (the price of its capacity). -/

namespace GiMPy
variable {N : Type} [DecidableEq N] {K : Type} [Field K] [LinearOrder K] [IsStrictOrderedRing K]

/-- a solution of the constraints of the dual: on no arc does the price rise by more than what sending a unit costs, with the
price of the capacity -/
structure DualFeasible (E : List (N × N)) (cost : N × N → Int) (p : N → K) (z : N × N → K) : Prop where
  nonneg : ∀ e ∈ E, 0 ≤ z e
  price : ∀ e ∈ E, p e.1 - p e.2 - z e ≤ (cost e : K)

/-- the value of a solution of the dual -/
def dualValue (V : List N) (E : List (N × N)) (cap : N × N → Int) (b : N → Int) (p : N → K) (z : N × N → K) : K :=
  (V.map fun v => (b v : K) * p v).sum - (E.map fun e => (cap e : K) * z e).sum

end GiMPy
