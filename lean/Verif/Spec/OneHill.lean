import Verif.Model.Geom
import Mathlib.Data.List.Rotate

/-!
# Specification: rings that rise once and fall once

Only the data type of points is taken from the model.
-/

namespace Wagyu

/-- The ring can be read, from some point on, so that `y` first never decreases and then never increases. -/
def OneHill (ring : List Point) : Prop :=
  ∃ up down : List Point, ring ~r up ++ down ∧ up.Pairwise (fun p q => p.y ≤ q.y) ∧ down.Pairwise (fun p q => q.y ≤ p.y)

/-- Twice the signed area of the triangle. -/
def triangleTurn (p q r : Point) : Int := (q.x - p.x) * (r.y - p.y) - (q.y - p.y) * (r.x - p.x)

/-- The points are the corners of a convex polygon, in order: every three of them, in the order of the ring, triangleTurn the same way. -/
def StrictlyConvex (ring : List Point) : Prop :=
  (∀ p q r, [p, q, r].Sublist ring → 0 < triangleTurn p q r) ∨ ∀ p q r, [p, q, r].Sublist ring → triangleTurn p q r < 0

end Wagyu
