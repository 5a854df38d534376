import Verif.Model.Num

/-!
# Enumerations, points, boxes, edges (enums.py, point.py, box.py, edge.py)
-/

namespace Wagyu

/-- Exceptions. `fuel` is not a Python exception: it marks a loop of the model that did not finish within its fuel. -/
inductive Err where
  | runtime (msg : String)   -- `RuntimeError`
  | attribute                -- `AttributeError` / `TypeError`: attribute of `None`
  | index                    -- `IndexError`
  | assertion                -- `AssertionError`
  | stopIteration            -- `StopIteration`
  | arithmetic               -- `OverflowError`, `ValueError`, `decimal.InvalidOperation` on rounding inf/nan
  | recursion                -- `RecursionError`
  | fuel
  deriving DecidableEq, Repr, Inhabited

deriving instance DecidableEq for Except

/-- enums.py:11-13. -/
inductive EdgeSide where
  | left | right
  deriving DecidableEq, Repr, Inhabited

/-- enums.py:17-21. -/
inductive FillKind where
  | evenOdd | nonZero | positive | negative
  deriving DecidableEq, Repr, Inhabited

/-- enums.py:25-29. -/
inductive OperationKind where
  | intersection | union | difference | xor
  deriving DecidableEq, Repr, Inhabited

/-- enums.py:33-35. -/
inductive PolygonKind where
  | subject | clip
  deriving DecidableEq, Repr, Inhabited

/-- enums.py:39-42. -/
inductive PointInPolygonResult where
  | on | inside | outside
  deriving DecidableEq, Repr, Inhabited

/-- point.py:7-19 `Point` with `int` coordinates (`__eq__` compares coordinates). -/
structure Point where
  x : Int
  y : Int
  deriving DecidableEq, Repr, Inhabited

/-- point.py:7-19 `Point` with `float` coordinates (the result of `Edge.__and__`, a centroid). -/
structure FPoint where
  x : F64
  y : F64
  deriving DecidableEq, Repr, Inhabited

/-- point.py:21-22 `Point.round`. -/
def FPoint.round (p : FPoint) : Except Err Point :=
  match roundTowardsMax p.x, roundTowardsMax p.y with
  | some x, some y => .ok ⟨x, y⟩
  | _, _ => .error .arithmetic

/-- point.py:25-27. -/
def arePointsSlopesEqual (first second third : Point) : Bool :=
  decide ((first.y - second.y) * (second.x - third.x) = (first.x - second.x) * (second.y - third.y))

/-- point.py:30-36. -/
def isPointBetweenOthers (pt1 pt2 pt3 : Point) : Bool :=
  if pt1 = pt2 ∨ pt2 = pt3 ∨ pt1 = pt3 then false
  else if pt1.x ≠ pt3.x then decide (pt2.x > pt1.x) == decide (pt2.x < pt3.x)
  else decide (pt2.y > pt1.y) == decide (pt2.y < pt3.y)

/-- box.py:6-18. -/
structure Box where
  minimum : Point
  maximum : Point
  deriving DecidableEq, Repr, Inhabited

/-- box.py:20-24. -/
def Box.insideOf (self other : Box) : Bool :=
  decide (other.minimum.x ≤ self.minimum.x) && decide (other.minimum.y ≤ self.minimum.y)
    && decide (other.maximum.x ≥ self.maximum.x) && decide (other.maximum.y ≥ self.maximum.y)

/-- edge.py:12-13 the slots of `Edge`.  `slope` is a stored attribute: reassigning `top` or `bottom` does not
recompute it. -/
structure Edge where
  bottom : Point
  top : Point
  slope : F64
  deriving DecidableEq, Repr, Inhabited

/-- edge.py:15-20 `Edge.__init__`. -/
def Edge.mk' (bottom top : Point) : Edge :=
  let (b, t) := if bottom.y < top.y then (top, bottom) else (bottom, top)
  let dy := t.y - b.y
  { bottom := b, top := t, slope := if dy ≠ 0 then intDiv (t.x - b.x) dy else .inf false }

/-- edge.py:48-50 `is_horizontal`. -/
def Edge.isHorizontal (e : Edge) : Bool := e.slope.isInf

/-- edge.py:24-41 `Edge.__and__`. -/
def Edge.and (self other : Edge) : Option FPoint :=
  let dx := self.top.x - self.bottom.x
  let dy := self.top.y - self.bottom.y
  let odx := other.top.x - other.bottom.x
  let ody := other.top.y - other.bottom.y
  let den := dx * ody - odx * dy
  if den = 0 then none
  else
    let s := intDiv (-dy * (self.bottom.x - other.bottom.x) + dx * (self.bottom.y - other.bottom.y)) den
    let t := intDiv (odx * (self.bottom.y - other.bottom.y) - ody * (self.bottom.x - other.bottom.x)) den
    if F64.le (.fin 0) s && F64.le s (.fin 1) && F64.le (.fin 0) t && F64.le t (.fin 1) then
      some ⟨F64.add (.floatOfInt self.bottom.x) (F64.mul t (.floatOfInt dx)),
            F64.add (.floatOfInt self.bottom.y) (F64.mul t (.floatOfInt dy))⟩
    else none

/-- edge.py:43-46 `Edge.__eq__`: the slope is not compared. -/
def Edge.eq (self other : Edge) : Bool := decide (self.top = other.top) && decide (self.bottom = other.bottom)

/-- edge.py:52-56 `get_current_x`. -/
def Edge.getCurrentX (e : Edge) (y : Int) : F64 :=
  if y = e.top.y then .floatOfInt e.top.x
  else F64.add (.floatOfInt e.bottom.x) (F64.mul e.slope (.floatOfInt (y - e.bottom.y)))

/-- edge.py:58-73 `get_min_x`. -/
def Edge.getMinX (e : Edge) (y : Int) : Except Err Int :=
  let toMin (v : F64) : Except Err Int :=
    match roundTowardsMin v with | some n => .ok n | none => .error .arithmetic
  if e.isHorizontal then .ok (min e.bottom.x e.top.x)
  else if F64.lt (.fin 0) e.slope then
    if y = e.top.y then .ok e.top.x
    else
      let r := F64.sub (.floatOfInt (y - e.bottom.y)) (.fin (1 / 2))
      toMin (F64.add (.floatOfInt e.bottom.x) (F64.mul e.slope r))
  else if y = e.bottom.y then .ok e.bottom.x
  else
    let r := F64.add (.floatOfInt (y - e.bottom.y)) (.fin (1 / 2))
    toMin (F64.add (.floatOfInt e.bottom.x) (F64.mul e.slope r))

/-- edge.py:75-90 `get_max_x`. -/
def Edge.getMaxX (e : Edge) (y : Int) : Except Err Int :=
  let toMax (v : F64) : Except Err Int :=
    match roundTowardsMax v with | some n => .ok n | none => .error .arithmetic
  if e.isHorizontal then .ok (max e.bottom.x e.top.x)
  else if F64.lt e.slope (.fin 0) then
    if y = e.top.y then .ok e.top.x
    else
      let r := F64.sub (.floatOfInt (y - e.bottom.y)) (.fin (1 / 2))
      toMax (F64.add (.floatOfInt e.bottom.x) (F64.mul e.slope r))
  else if y = e.bottom.y then .ok e.bottom.x
  else
    let r := F64.add (.floatOfInt (y - e.bottom.y)) (.fin (1 / 2))
    toMax (F64.add (.floatOfInt e.bottom.x) (F64.mul e.slope r))

/-- edge.py:92-94 `reverse_horizontal` (returns the mutated edge; the slope is kept). -/
def Edge.reverseHorizontal (e : Edge) : Edge :=
  { e with top := ⟨e.bottom.x, e.top.y⟩, bottom := ⟨e.top.x, e.bottom.y⟩ }

/-- edge.py:97-100. -/
def areEdgesSlopesEqual (first second : Edge) : Bool :=
  decide ((first.top.y - first.bottom.y) * (second.top.x - second.bottom.x)
    = (first.top.x - first.bottom.x) * (second.top.y - second.bottom.y))

end Wagyu
