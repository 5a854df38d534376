import Verif.Spec.Chain
import Verif.Spec.Cycles

/-!
# Specification: statistics of rings, points inside of rings
-/

namespace Wagyu.Spec

/-- The points of a circular list, in order. -/
def pointsOf (h : Nat → Node) (l : List Nat) : List Point := l.map (locOf h)

/-- The smallest box around the points. -/
structure IsTightBox (b : Box) (pts : List Point) : Prop where
  contains : ∀ p ∈ pts, InBox b p
  left : ∃ p ∈ pts, p.x = b.minimum.x
  right : ∃ p ∈ pts, p.x = b.maximum.x
  top : ∃ p ∈ pts, p.y = b.minimum.y
  bottom : ∃ p ∈ pts, p.y = b.maximum.y

/-- Twice the signed area of a ring (shoelace formula), positive when the ring runs counterclockwise in a plane whose `y`
axis points down. -/
def area2 (pts : List Point) : ℤ := -ringSum cross pts

/-- `z` lies on one of the sides of the ring. -/
def OnRing (z : Point) : List Point → Prop
  | [] => False
  | a :: t => ∃ p q, [p, q] <:+: a :: t ++ [a] ∧ OnSegment (toQ p) (toQ q) (toQ z)

/-- The winding number of the ring around `z`. -/
def windingNumber (z : Point) (pts : List Point) : ℤ := ringSum (crossing z) pts

end Wagyu.Spec
