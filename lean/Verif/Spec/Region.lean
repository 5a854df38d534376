import Verif.Spec.Rings
import Verif.Model.Wagyu

/-!
# Specification: the points inside a convex ring, and the points a polygon winds around
-/

namespace Wagyu.Spec

/-- `z` lies strictly on the same side of every edge of the closed ring through these points: strictly inside the ring, if it turns in
one direction only. -/
def StrictlyInside (ring : LinearRing) (z : Point) : Prop :=
  ∀ pq ∈ ring.zip (ring.drop 1 ++ ring.take 1), 0 < (pq.2.x - pq.1.x) * (z.y - pq.1.y) - (pq.2.y - pq.1.y) * (z.x - pq.1.x)

/-- The polygon (its first ring is the exterior, the others are the holes) winds around `z`: its exterior does, its holes do not. -/
def WindsAround : Polygon → Point → Prop
  | [], _ => False
  | exterior :: holes, z => windingNumber z exterior ≠ 0 ∧ ∀ hole ∈ holes, windingNumber z hole = 0

end Wagyu.Spec
