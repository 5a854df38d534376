import Verif.Spec.Rings
import Mathlib.Algebra.BigOperators.Group.Finset.Basic
import Mathlib.Algebra.BigOperators.Intervals

/-!
# Specification: totals over all rings
-/

namespace Wagyu.Spec

/-- The sum of `c` over the edges of the rings `0, ..., m - 1`.  Two collections of rings with the same totals for all `c` have
the same directed edges, as often; `c = cross` gives minus twice the total signed area, `c = crossing z` the total winding
number around `z`. -/
def edgeTotal (c : Point → Point → ℤ) (nodes : Nat → Node) (lists : Nat → List Nat) (m : Nat) : ℤ :=
  ∑ r ∈ Finset.range m, ringSum c (pointsOf nodes (lists r))

end Wagyu.Spec
