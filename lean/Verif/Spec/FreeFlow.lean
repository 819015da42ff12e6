import Verif.Spec.Flow

/-! # Networks in which some arcs have no bound -/

namespace GiMPy
variable {N : Type} [DecidableEq N]

/-- a flow from `s` to `t`; `up` gives the bound of an arc, `none` for an arc without bound -/
structure IsFreeFlow (E : List (N × N)) (up : N × N → Option Int) (s t : N) (f : N × N → Int) : Prop where
  nonneg : ∀ e ∈ E, 0 ≤ f e
  bounded : ∀ e ∈ E, ∀ c, up e = some c → f e ≤ c
  conserved : ∀ v, v ≠ s → v ≠ t → net E f v = 0

/-- a flow of greatest value -/
structure IsMaxFreeFlow (E : List (N × N)) (up : N × N → Option Int) (s t : N) (f : N × N → Int) : Prop where
  flow : IsFreeFlow E up s t f
  most : ∀ f', IsFreeFlow E up s t f' → net E f' t ≤ net E f t

end GiMPy
