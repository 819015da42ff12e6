import Mathlib.Algebra.BigOperators.Group.List.Basic

/-! # Network flows (independent of the algorithms)

A network has a list `E` of arcs (without repetitions) and a capacity for each; a flow gives a number for each arc. -/

namespace GiMPy
variable {N : Type} [DecidableEq N]

/-- flow into `v` minus flow out of `v` -/
def net (E : List (N × N)) (f : N × N → Int) (v : N) : Int :=
  (E.map fun e => if e.2 = v then f e else 0).sum - (E.map fun e => if e.1 = v then f e else 0).sum

/-- within the bounds -/
def Within (E : List (N × N)) (cap f : N × N → Int) : Prop := ∀ e ∈ E, 0 ≤ f e ∧ f e ≤ cap e

/-- a feasible flow from `s` to `t`: within the bounds and conserved at all other nodes -/
structure IsFlow (E : List (N × N)) (cap : N × N → Int) (s t : N) (f : N × N → Int) : Prop where
  within : Within E cap f
  conserved : ∀ v, v ≠ s → v ≠ t → net E f v = 0

/-- a feasible flow of greatest value, the value being the net flow into `t` -/
structure IsMaxFlow (E : List (N × N)) (cap : N × N → Int) (s t : N) (f : N × N → Int) : Prop where
  flow : IsFlow E cap s t f
  most : ∀ f', IsFlow E cap s t f' → net E f' t ≤ net E f t

/-- the capacity of the arcs that leave the set `S` -/
def cutCap (E : List (N × N)) (cap : N × N → Int) (S : N → Bool) : Int :=
  ((E.filter fun e => S e.1 && !S e.2).map cap).sum

/-- `S` separates `s` from `t` and no other set that does has arcs of less capacity leaving it -/
structure IsMinCut (E : List (N × N)) (cap : N × N → Int) (s t : N) (S : N → Bool) : Prop where
  source : S s = true
  sink : S t = false
  least : ∀ S', S' s = true → S' t = false → cutCap E cap S ≤ cutCap E cap S'

/-- total cost of a flow -/
def totalCost (E : List (N × N)) (cost f : N × N → Int) : Int := (E.map fun e => f e * cost e).sum

/-- within the bounds, and at each node the flow out minus the flow in is `b` (the supply) -/
structure IsFeasible (V : List N) (E : List (N × N)) (cap : N × N → Int) (b : N → Int) (f : N × N → Int) : Prop where
  within : Within E cap f
  meets : ∀ v ∈ V, - net E f v = b v

/-- a feasible flow of least cost -/
structure IsMinCost (V : List N) (E : List (N × N)) (cap cost : N × N → Int) (b : N → Int) (f : N × N → Int) : Prop where
  feasible : IsFeasible V E cap b f
  least : ∀ f', IsFeasible V E cap b f' → totalCost E cost f ≤ totalCost E cost f'

end GiMPy
