import Verif.Model.Geom
import Mathlib.Algebra.Order.Field.Rat

/-!
# Specification: elementary plane geometry over the rationals

Only the data type of points (and of boxes and edges, as pairs of points) is taken from the model.
-/

namespace Wagyu.Spec

/-- A point of the rational plane. -/
abbrev QPoint := ℚ × ℚ

def toQ (p : Point) : QPoint := (p.x, p.y)

/-- `r` lies on the segment from `p` to `q` (end points included). -/
def OnSegment (p q r : QPoint) : Prop :=
  ∃ t : ℚ, 0 ≤ t ∧ t ≤ 1 ∧ r.1 = p.1 + t * (q.1 - p.1) ∧ r.2 = p.2 + t * (q.2 - p.2)

/-- Three points lie on one line: there is a line `a x + b y = c` through all of them. -/
def Collinear (p q r : QPoint) : Prop :=
  ∃ a b c : ℚ, (a ≠ 0 ∨ b ≠ 0) ∧ a * p.1 + b * p.2 = c ∧ a * q.1 + b * q.2 = c ∧ a * r.1 + b * r.2 = c

/-- `q` lies strictly between `p` and `r`. -/
def StrictlyBetween (p q r : QPoint) : Prop :=
  ∃ t : ℚ, 0 < t ∧ t < 1 ∧ q.1 = p.1 + t * (r.1 - p.1) ∧ q.2 = p.2 + t * (r.2 - p.2) ∧ p ≠ r

/-- Two directions are parallel: some non-trivial combination of them vanishes. -/
def Parallel (u v : QPoint) : Prop := ∃ a b : ℚ, (a ≠ 0 ∨ b ≠ 0) ∧ a * u.1 + b * v.1 = 0 ∧ a * u.2 + b * v.2 = 0

/-- The points of a box. -/
def InBox (b : Box) (p : Point) : Prop :=
  b.minimum.x ≤ p.x ∧ p.x ≤ b.maximum.x ∧ b.minimum.y ≤ p.y ∧ p.y ≤ b.maximum.y

end Wagyu.Spec
