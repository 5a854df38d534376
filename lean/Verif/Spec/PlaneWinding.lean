import Verif.Spec.Chain
import Verif.Spec.History
import Verif.Spec.Winding
import Verif.Model.State

/-!
# Specification: winding numbers around the points of the plane, and the boolean combination there

Points of the plane have rational coordinates here; the vertices of rings are integer points.
-/

namespace Wagyu.Spec

/-- The step from `p` to `q` crosses the ray going from `z` to the right (half-open rule): `+1` or `-1` according to the
direction, `0` if it does not. -/
def crossingAt (z : QPoint) (p q : Point) : ℤ :=
  if (p.y : ℚ) ≤ z.2 ∧ z.2 < q.y ∧ 0 < ((q.x : ℚ) - p.x) * (z.2 - p.y) - (z.1 - p.x) * ((q.y : ℚ) - p.y) then 1
  else if (q.y : ℚ) ≤ z.2 ∧ z.2 < p.y ∧ ((q.x : ℚ) - p.x) * (z.2 - p.y) - (z.1 - p.x) * ((q.y : ℚ) - p.y) < 0 then -1
  else 0

/-- The winding number of closed rings around `z`. -/
def windingAt (z : QPoint) (rings : List LinearRing) : ℤ := (rings.map (ringSum (crossingAt z))).sum

/-- The rings of polygon `k` held after the calls by an object that held `held`. -/
def heldKindAfter (k : PolygonKind) (held : List LinearRing) : List Call → List LinearRing
  | [] => held
  | .addLinearRing ring kind :: cs => heldKindAfter k (if kind = k then held ++ [ring] else held) cs
  | .addPolygon polygon kind :: cs => heldKindAfter k (if kind = k then held ++ polygon else held) cs
  | .clear :: cs => heldKindAfter k [] cs
  | .execute .. :: cs => heldKindAfter k held cs

/-- The rings of polygon `k` held after the calls: everything added as `k` since the last `clear()`. -/
def heldKind (k : PolygonKind) (cs : List Call) : List LinearRing := heldKindAfter k [] cs

/-- Does the point belong to the boolean combination of the filled polygons held after the calls? -/
def belongs (op : OperationKind) (sf cf : FillKind) (cs : List Call) (z : QPoint) : Bool :=
  combine op (filled sf (windingAt z (heldKind .subject cs))) (filled cf (windingAt z (heldKind .clip cs)))

/-- The edge meets the horizontal line through `z` (half-open rule) left of `z`. -/
def PassesLeft (e : Edge) (z : QPoint) : Prop :=
  (e.top.y : ℚ) ≤ z.2 ∧ z.2 < e.bottom.y ∧ ∃ t : ℚ, z.2 = e.bottom.y + t * (e.top.y - e.bottom.y) ∧ (e.bottom.x + t * (e.top.x - e.bottom.x) : ℚ) < z.1

/-- The edge meets the horizontal line through `z` (half-open rule) right of `z`. -/
def PassesRight (e : Edge) (z : QPoint) : Prop :=
  (e.top.y : ℚ) ≤ z.2 ∧ z.2 < e.bottom.y ∧ ∃ t : ℚ, z.2 = e.bottom.y + t * (e.top.y - e.bottom.y) ∧ z.1 < (e.bottom.x + t * (e.top.x - e.bottom.x) : ℚ)

/-- The crossing, with the ray going from `z` to the right, of the edge the bound has reached, traversed upwards. -/
def currentCrossing (z : QPoint) (b : Bound) : ℤ := match b.currentEdge? with
  | none => 0
  | some e => crossingAt z e.bottom e.top

/-- The edges reached by the bounds `before` pass left of `z`, those reached by `after` pass right of it. -/
def Between (t : St) (before after : List Nat) (z : QPoint) : Prop :=
  (∀ b ∈ before, ∃ e, (t.bounds b).currentEdge? = some e ∧ PassesLeft e z) ∧ ∀ b ∈ after, ∃ e, (t.bounds b).currentEdge? = some e ∧ PassesRight e z

end Wagyu.Spec
