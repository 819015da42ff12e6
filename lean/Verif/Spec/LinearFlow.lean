import Verif.Spec.Flow
import Mathlib.Algebra.Order.Field.Basic

/-! # Flows with fractional values (independent of the algorithms)

The flow on an arc may be any element of an ordered field `K`, for example a rational or a real number; these are the
solutions of the linear programs of network flows. -/

namespace GiMPy
variable {N : Type} [DecidableEq N] {K : Type} [Field K] [LinearOrder K] [IsStrictOrderedRing K]

/-- flow into `v` minus flow out of `v` -/
def netK (E : List (N × N)) (x : N × N → K) (v : N) : K :=
  (E.map fun e => if e.2 = v then x e else 0).sum - (E.map fun e => if e.1 = v then x e else 0).sum

/-- a solution of the constraints of the minimum cost flow problem -/
structure LPFeasible (V : List N) (E : List (N × N)) (cap : N × N → Int) (b : N → Int) (x : N × N → K) : Prop where
  within : ∀ e ∈ E, 0 ≤ x e ∧ x e ≤ (cap e : K)
  meets : ∀ v ∈ V, - netK E x v = (b v : K)

/-- `f` is a solution, and no solution with values in `K` costs less -/
structure LPOptimal (K : Type) [Field K] [LinearOrder K] [IsStrictOrderedRing K] (V : List N) (E : List (N × N))
    (cap cost : N × N → Int) (b : N → Int) (f : N × N → Int) : Prop where
  feasible : LPFeasible V E cap b fun e => (f e : K)
  least : ∀ x : N × N → K, LPFeasible V E cap b x → (E.map fun e => (f e : K) * (cost e : K)).sum ≤ (E.map fun e => x e * (cost e : K)).sum

/-- a solution of the constraints of the maximum flow problem -/
structure LPFlow (E : List (N × N)) (cap : N × N → Int) (s t : N) (x : N × N → K) : Prop where
  within : ∀ e ∈ E, 0 ≤ x e ∧ x e ≤ (cap e : K)
  conserved : ∀ v, v ≠ s → v ≠ t → netK E x v = 0

end GiMPy
