import Verif.Spec.Plane
import Mathlib.Algebra.Ring.Int.Defs

/-!
# Specification: chains of edges, and what a closed path winds around

Only the data types of points and edges are taken from the model.
-/

namespace Wagyu.Spec

/-- The end points of `e` are `a` and `b`, in either order. -/
def Joins (e : Edge) (a b : Point) : Prop := (e.bottom = a ∧ e.top = b) ∨ (e.bottom = b ∧ e.top = a)

/-- The edges `es` lead, one after the other, along the vertices `vs` (one more than there are edges). -/
def Along : List Point → List Edge → Prop
  | [_], [] => True
  | a :: b :: vs, e :: es => Joins e a b ∧ Along (b :: vs) es
  | _, _ => False

/-- The edges `es` form a closed chain with the vertices `vs`: the last vertex is the first one again.  (No edges, no
vertices.) -/
def ClosedAlong (vs : List Point) (es : List Edge) : Prop :=
  (vs = [] ∧ es = []) ∨ (Along vs es ∧ vs.head? = vs.getLast?)

/-- The sum of `c` over the steps of a path. -/
def pathSum (c : Point → Point → ℤ) : List Point → ℤ
  | a :: b :: vs => c a b + pathSum c (b :: vs)
  | _ => 0

/-- The sum of `c` over the steps of the closed path through the points of a ring. -/
def ringSum (c : Point → Point → ℤ) : List Point → ℤ
  | [] => 0
  | a :: vs => pathSum c (a :: vs ++ [a])

/-- A quantity of directed segments that adds up along a line, whatever the order of the three points on it. -/
def AddsUpOnLines (c : Point → Point → ℤ) : Prop :=
  ∀ p q r, Collinear (toQ p) (toQ q) (toQ r) → c p q + c q r = c p r

/-- Twice the signed area swept by a step, seen from the origin: `ringSum cross` is twice the signed area of a ring. -/
def cross (p q : Point) : ℤ := p.x * q.y - p.y * q.x

/-- The step from `p` to `q` crosses the ray going from `z` to the right (half-open rule): `+1` or `-1` according to the
direction, `0` if it does not.  `ringSum (crossing z)` is the winding number of the ring around `z`. -/
def crossing (z p q : Point) : ℤ :=
  if p.y ≤ z.y ∧ z.y < q.y ∧ 0 < (q.x - p.x) * (z.y - p.y) - (z.x - p.x) * (q.y - p.y) then 1
  else if q.y ≤ z.y ∧ z.y < p.y ∧ (q.x - p.x) * (z.y - p.y) - (z.x - p.x) * (q.y - p.y) < 0 then -1
  else 0

/-- Two edges are parallel. -/
def EdgesParallel (e f : Edge) : Prop :=
  (e.top.x - e.bottom.x) * (f.top.y - f.bottom.y) = (e.top.y - e.bottom.y) * (f.top.x - f.bottom.x)

end Wagyu.Spec
