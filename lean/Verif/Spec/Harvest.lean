import Mathlib.Algebra.BigOperators.Group.Finset.Basic
import Mathlib.Algebra.Group.Int.Defs

/-! # Harvest plans (independent of graphs)

In year `i` the amount `grow i j` becomes ripe in forest `j`; it may be cut in that year or later.  In year `i` at most
`demand i` can be sold. -/

namespace GiMPy
open Finset

/-- `cut j i` is cut in forest `j` in year `i` -/
structure IsPlan (years forests : Nat) (demand : Nat → Int) (grow : Nat → Nat → Int) (cut : Nat → Nat → Int) : Prop where
  nonneg : ∀ j < forests, ∀ i < years, 0 ≤ cut j i
  ripe : ∀ j < forests, ∀ k < years, ∑ i ∈ range (k + 1), cut j i ≤ ∑ i ∈ range (k + 1), grow i j
  sold : ∀ i < years, ∑ j ∈ range forests, cut j i ≤ demand i

/-- everything cut -/
def yield (years forests : Nat) (cut : Nat → Nat → Int) : Int := ∑ i ∈ range years, ∑ j ∈ range forests, cut j i

/-- a plan with the greatest yield -/
structure IsBestPlan (years forests : Nat) (demand : Nat → Int) (grow : Nat → Nat → Int) (cut : Nat → Nat → Int) : Prop where
  plan : IsPlan years forests demand grow cut
  most : ∀ cut', IsPlan years forests demand grow cut' → yield years forests cut' ≤ yield years forests cut

end GiMPy
