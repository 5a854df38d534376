import Verif.Model.LinearRing

/-!
# Bounds: the pure part (bound.py)

A bound is an object with identity; its identity is a `Nat` (its position in the heap of bounds, see
`LocalMinimum.lean` and `State.lean`) and this record holds its attributes.
-/

namespace Wagyu

/-- bound.py:24-62 the slots of `Bound`; `ring` and `maximumBound` are heap references.
`cur` and `nxt` are `_current_edge_index` and `_next_edge_index`. -/
structure Bound where
  edges : List Edge
  cur : Option Nat
  nxt : Option Nat
  lastPoint : Point
  ring : Option Nat
  currentX : F64
  position : Nat
  windingCount : Int
  oppositeWindingCount : Int
  windingDelta : Int
  polygonKind : PolygonKind
  side : EdgeSide
  maximumBound : Option Nat
  deriving DecidableEq, Repr, Inhabited

/-- bound.py:30-62 `Bound(edges)`: all the other arguments have their defaults. -/
def Bound.ofEdges (edges : List Edge) : Bound :=
  { edges, cur := none, nxt := none, lastPoint := ⟨0, 0⟩, ring := none, currentX := .fin 0, position := 0,
    windingCount := 0, oppositeWindingCount := 0, windingDelta := 0, polygonKind := .subject, side := .left,
    maximumBound := none }

namespace Bound

/-- bound.py:90-94. -/
def curIdx (b : Bound) : Nat := match b.cur with | some i => i | none => b.edges.length

/-- bound.py:96-100. -/
def nxtIdx (b : Bound) : Nat := match b.nxt with | some i => i | none => b.edges.length

/-- bound.py:102-104, the setter of `current_edge_index`. -/
def setCur (b : Bound) (v : Nat) : Bound := { b with cur := if v < b.edges.length then some v else none }

/-- bound.py:106-108, the setter of `next_edge_index`. -/
def setNxt (b : Bound) (v : Nat) : Bound := { b with nxt := if v < b.edges.length then some v else none }

/-- bound.py:82-84; `none` is `IndexError`. -/
def currentEdge? (b : Bound) : Option Edge := b.edges[b.curIdx]?

/-- bound.py:86-88; `none` is `IndexError`. -/
def nextEdge? (b : Bound) : Option Edge := b.edges[b.nxtIdx]?

/-- `self.polygon_kind`'s fill kind (the first component chosen at bound.py:114-116). -/
def fillKind (b : Bound) (subject clip : FillKind) : FillKind :=
  if b.polygonKind = .subject then subject else clip

/-- The other polygon's fill kind (the second component chosen at bound.py:114-116). -/
def oppositeFillKind (b : Bound) (subject clip : FillKind) : FillKind :=
  if b.polygonKind = .subject then clip else subject

/-- bound.py:127-132 / 149-154: "inside the other polygon", as tested for an intersection. -/
def insideOpposite (pft2 : FillKind) (owc : Int) : Bool :=
  match pft2 with
  | .evenOdd => decide (owc ≠ 0)
  | .nonZero => decide (owc ≠ 0)
  | .positive => decide (owc > 0)
  | .negative => decide (owc < 0)

/-- bound.py:134-139 / 142-147: "outside the other polygon", as tested for a union. -/
def outsideOpposite (pft2 : FillKind) (owc : Int) : Bool :=
  match pft2 with
  | .evenOdd => decide (owc = 0)
  | .nonZero => decide (owc = 0)
  | .positive => decide (owc ≤ 0)
  | .negative => decide (owc ≥ 0)

/-- bound.py:110-156 `is_contributing`. -/
def isContributing (b : Bound) (op : OperationKind) (subject clip : FillKind) : Bool :=
  let pft := b.fillKind subject clip
  let pft2 := b.oppositeFillKind subject clip
  let own : Bool :=
    match pft with
    | .nonZero => decide (b.windingCount.natAbs = 1)
    | .positive => decide (b.windingCount = 1)
    | .negative => decide (b.windingCount = -1)
    | .evenOdd => true
  if own = false then false
  else
    match op with
    | .intersection => insideOpposite pft2 b.oppositeWindingCount
    | .union => outsideOpposite pft2 b.oppositeWindingCount
    | .difference =>
      if b.polygonKind = .subject then outsideOpposite pft2 b.oppositeWindingCount
      else insideOpposite pft2 b.oppositeWindingCount
    | .xor => true

/-- bound.py:158-164. -/
def isEvenOddFillKind (b : Bound) (subject clip : FillKind) : Bool :=
  if b.polygonKind = .subject then decide (subject = .evenOdd) else decide (clip = .evenOdd)

/-- bound.py:166-172. -/
def isEvenOddAltFillKind (b : Bound) (subject clip : FillKind) : Bool :=
  if b.polygonKind = .subject then decide (clip = .evenOdd) else decide (subject = .evenOdd)

end Bound

/-- bound.py:191-195, the loop of `fix_horizontals`; `edge` is the preceding edge. -/
def fixHorizontalsTail (edge : Edge) : List Edge → List Edge
  | [] => []
  | next :: rest =>
    let next' := if next.isHorizontal && decide (edge.top ≠ next.bottom) then next.reverseHorizontal else next
    next' :: fixHorizontalsTail next' rest

/-- bound.py:182-195 `fix_horizontals` (on the edges of a non-empty bound; returns the mutated edges). -/
def fixHorizontals : List Edge → List Edge
  | edge :: next :: rest =>
    let edge' := if edge.isHorizontal && decide (edge.top ≠ next.bottom) then edge.reverseHorizontal else edge
    edge' :: fixHorizontalsTail edge' (next :: rest)
  | l => l

/-- bound.py:199-204, the leading horizontals of `edges`, reversed each in place, and the remaining edges. -/
def leadingHorizontals : List Edge → List Edge × List Edge
  | [] => ([], [])
  | edge :: rest =>
    if edge.isHorizontal then
      let (h, r) := leadingHorizontals rest
      (edge.reverseHorizontal :: h, r)
    else ([], edge :: rest)

/-- bound.py:197-209 `self.move_horizontals(other)`: the new edges of `self` and of `other`. -/
def moveHorizontals (self other : List Edge) : List Edge × List Edge :=
  let (h, r) := leadingHorizontals self
  if h.length ≠ 0 then (r, rotateSequence (other ++ h.reverse) (-(h.length : Int)))
  else (self, other)

/-- bound.py:225-243, the loop of `create_bound_towards_maximum`: splits the edges after `edge` into those that still
belong to the bound and the remaining ones. -/
def towardsMaxSplit (edge : Edge) (yDecreasing : Bool) : List Edge → List Edge × List Edge
  | [] => ([], [])
  | next :: rest =>
    let nh := next.isHorizontal
    let eh := edge.isHorizontal
    if !nh && !eh && decide (edge.top = next.top) then ([], next :: rest)
    else if !nh && eh then
      if yDecreasing && (decide (next.top = edge.bottom) || decide (next.top = edge.top)) then ([], next :: rest)
      else
        let (t, r) := towardsMaxSplit next yDecreasing rest
        (next :: t, r)
    else
      let yDecreasing' :=
        yDecreasing || (!eh && nh && (decide (edge.top = next.top) || decide (edge.top = next.bottom)))
      let (t, r) := towardsMaxSplit next yDecreasing' rest
      (next :: t, r)

/-- bound.py:220-246 `create_bound_towards_maximum`: the edges of the bound and what remains of `edges`;
`none` is the `StopIteration` of `next` on an empty list. -/
def createBoundTowardsMaximum : List Edge → Option (List Edge × List Edge)
  | [] => none
  | edge :: rest =>
    let (t, r) := towardsMaxSplit edge false rest
    some (edge :: t, r)

/-- bound.py:256-276, the loop of `create_bound_towards_minimum`; horizontal edges are reversed when they are taken. -/
def towardsMinSplit (edge : Edge) (yIncreasing : Bool) : List Edge → List Edge × List Edge
  | [] => ([], [])
  | next :: rest =>
    let nh := next.isHorizontal
    let eh := edge.isHorizontal
    let next' := if nh then next.reverseHorizontal else next
    if !nh && !eh && decide (edge.bottom = next.bottom) then ([], next :: rest)
    else if !nh && eh then
      if yIncreasing && (decide (next.bottom = edge.bottom) || decide (next.bottom = edge.top)) then
        ([], next :: rest)
      else
        let (t, r) := towardsMinSplit next' yIncreasing rest
        (next' :: t, r)
    else
      let yIncreasing' :=
        yIncreasing || (!eh && nh && (decide (edge.bottom = next.top) || decide (edge.bottom = next.bottom)))
      let (t, r) := towardsMinSplit next' yIncreasing' rest
      (next' :: t, r)

/-- bound.py:249-279 `create_bound_towards_minimum`: the edges of the bound (bottom edge first) and what remains of
`edges`; `none` is the `StopIteration` of `next` on an empty list. -/
def createBoundTowardsMinimum : List Edge → Option (List Edge × List Edge)
  | [] => none
  | edge :: rest =>
    let edge' := if edge.isHorizontal then edge.reverseHorizontal else edge
    let (t, r) := towardsMinSplit edge' false rest
    some ((edge' :: t).reverse, r)

end Wagyu
