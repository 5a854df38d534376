import Verif.Model.Wagyu

/-!
# Comparison of objects by value (`__eq__`)

The algorithm compares objects with identity by identity; these methods are for clients (and tests).  The compared objects share
no parts, so that the shortcut of Python's `list.__eq__` for identical elements does not matter.
-/

namespace Wagyu

/-- `list.__eq__`, for a comparison of the elements. -/
def listEq {α β : Type} (eq : α → β → Bool) : List α → List β → Bool
  | [], [] => true
  | a :: l, b :: l' => eq a b && listEq eq l l'
  | _, _ => false

/-- bound.py:71, `None` being equal to itself only. -/
def maybeRingEq (ringEq : Nat → Nat → Bool) : Option Nat → Option Nat → Bool
  | none, none => true
  | some r, some r' => ringEq r r'
  | _, _ => false

/-- bound.py:66-80 `Bound.__eq__`.  `maximum_bound` is not compared.  Simplification: `ring` refers to a ring of the manager of the
last operation, which the model does not keep; how two such rings compare is the argument `ringEq`. -/
def Bound.eq (ringEq : Nat → Nat → Bool) (a b : Bound) : Bool :=
  listEq Edge.eq a.edges b.edges && decide (a.curIdx = b.curIdx) && decide (a.nxtIdx = b.nxtIdx)
    && decide (a.lastPoint = b.lastPoint) && maybeRingEq ringEq a.ring b.ring && F64.eq a.currentX b.currentX
    && decide (a.position = b.position) && decide (a.windingCount = b.windingCount)
    && decide (a.oppositeWindingCount = b.oppositeWindingCount) && decide (a.windingDelta = b.windingDelta)
    && decide (a.polygonKind = b.polygonKind) && decide (a.side = b.side)

/-- local_minimum.py:33-39 `LocalMinimum.__eq__`; the bounds are found in `f` and `g`. -/
def LocalMinimum.eq (ringEq : Nat → Nat → Bool) (f g : Nat → Bound) (a b : LocalMinimum) : Bool :=
  (f a.left).eq ringEq (g b.left) && (f a.right).eq ringEq (g b.right) && decide (a.y = b.y)
    && decide (a.hasHorizontal = b.hasHorizontal)

/-- local_minimum.py:77-80 `LocalMinimumList.__eq__`. -/
def Minimums.eq (ringEq : Nat → Nat → Bool) (a b : Minimums) : Bool :=
  listEq (LocalMinimum.eq ringEq a.bounds b.bounds) a.values b.values

/-- wagyu.py:25-29 `Wagyu.__eq__`. -/
def Wagyu.eq (ringEq : Nat → Nat → Bool) (a b : Wagyu) : Bool :=
  a.minimums.eq ringEq b.minimums && decide (a.reverseOutput = b.reverseOutput)

end Wagyu
