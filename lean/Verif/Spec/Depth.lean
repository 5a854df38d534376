import Verif.Spec.OwnRings

/-!
# Specification: the depth of a ring in the forest
-/

namespace Wagyu.Spec

/-- The ring `r` has `n` proper ancestors. -/
inductive AtDepth (parent : Nat → Option Nat) : Nat → Nat → Prop
  | root {r : Nat} (h : parent r = none) : AtDepth parent r 0
  | child {r p n : Nat} (h : parent r = some p) (hp : AtDepth parent p n) : AtDepth parent r (n + 1)

end Wagyu.Spec
