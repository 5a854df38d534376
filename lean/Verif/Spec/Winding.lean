import Verif.Model.Bound

/-!
# Specification: winding numbers along a scanline and the boolean combination of two filled polygons

A scanline crosses a list of bounds, from left to right.  Crossing a bound changes the winding number of its polygon by
the bound's winding delta; far left both winding numbers are zero.
-/

namespace Wagyu.Spec

/-- The winding number of polygon `k` right of the bounds `bs`, which are all the bounds further left. -/
def windingAfter (bs : List Bound) (k : PolygonKind) : Int :=
  ((bs.filter fun b => decide (b.polygonKind = k)).map fun b => b.windingDelta).sum

/-- The other polygon. -/
def otherKind : PolygonKind → PolygonKind
  | .subject => .clip
  | .clip => .subject

/-- The fill kind of a polygon. -/
def fillOf (sf cf : FillKind) : PolygonKind → FillKind
  | .subject => sf
  | .clip => cf

/-- Does a region with this winding number belong to the filled polygon? -/
def filled : FillKind → Int → Bool
  | .evenOdd, w => decide (w % 2 = 1)
  | .nonZero, w => decide (w ≠ 0)
  | .positive, w => decide (w > 0)
  | .negative, w => decide (w < 0)

/-- The boolean combination of subject and clip. -/
def combine : OperationKind → Bool → Bool → Bool
  | .intersection, s, c => s && c
  | .union, s, c => s || c
  | .difference, s, c => s && !c
  | .xor, s, c => xor s c

/-- Does the region right of the bounds `bs` belong to the result of the operation? -/
def inResult (op : OperationKind) (sf cf : FillKind) (bs : List Bound) : Bool :=
  combine op (filled sf (windingAfter bs .subject)) (filled cf (windingAfter bs .clip))

/-- Of two integers the one larger in absolute value. -/
def largerAbs (a b : Int) : Int := if a.natAbs > b.natAbs then a else b

/-- The winding counts of `b`, with the bounds `before` left of it, are the right ones: for a polygon that is not filled
even-odd the winding count is the one of the two winding numbers of its polygon left and right of `b` that is larger in
absolute value (for an even-odd filled polygon it is 1 or -1); the opposite winding count is the winding number of the
other polygon, or its parity if that one is filled even-odd. -/
structure WindingRight (sf cf : FillKind) (before : List Bound) (b : Bound) : Prop where
  own : fillOf sf cf b.polygonKind ≠ .evenOdd →
    b.windingCount = largerAbs (windingAfter before b.polygonKind) (windingAfter (before ++ [b]) b.polygonKind)
  ownEvenOdd : fillOf sf cf b.polygonKind = .evenOdd → b.windingCount = 1 ∨ b.windingCount = -1
  other : fillOf sf cf (otherKind b.polygonKind) ≠ .evenOdd →
    b.oppositeWindingCount = windingAfter before (otherKind b.polygonKind)
  otherEvenOdd : fillOf sf cf (otherKind b.polygonKind) = .evenOdd →
    b.oppositeWindingCount = windingAfter before (otherKind b.polygonKind) % 2

/-- `b` carries an output ring exactly if the regions left and right of it differ in belonging to the result. -/
def OutputRight (op : OperationKind) (sf cf : FillKind) (before : List Bound) (b : Bound) : Prop :=
  b.ring.isSome = true ↔ inResult op sf cf before ≠ inResult op sf cf (before ++ [b])

end Wagyu.Spec
