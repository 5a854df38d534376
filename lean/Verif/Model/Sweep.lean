import Verif.Model.Ring

/-!
# The sweeps (bound.py:211-377, intersect_node.py, ring_manager.py)

`op`, `sf`, `cf` are `operation_kind`, `subject_fill_kind`, `clip_fill_kind`.
-/

namespace Wagyu

/-! ## Bounds -/

/-- bound.py:174-176 `is_intermediate`. -/
def isIntermediate (b : Nat) (y : Int) : M Bool := do
  let bd ← getBound b
  if bd.nxtIdx < bd.edges.length then
    let e ← currentEdge b
    pure (decide (e.top.y = y))
  else pure false

/-- bound.py:178-180 `is_maxima`. -/
def isMaxima (b : Nat) (y : Int) : M Bool := do
  let bd ← getBound b
  if bd.nxtIdx = bd.edges.length then
    let e ← currentEdge b
    pure (decide (e.top.y = y))
  else pure false

/-- bound.py:211-217 `to_next_edge`. -/
def toNextEdge (b : Nat) : M Unit := do
  modBound b fun bd => bd.setCur (bd.curIdx + 1)
  let bd ← getBound b
  if bd.curIdx < bd.edges.length then
    modBound b fun bd => bd.setNxt (bd.nxtIdx + 1)
    let e ← currentEdge b
    modBound b fun bd => { bd with currentX := .ofInt e.bottom.x }
    if e.isHorizontal then pure () else insertScan e.top.y

/-- bound.py:282-293 `bound_insert_location`. -/
def boundInsertLocation (left right : Nat) : M Bool := do
  let l ← getBound left
  let r ← getBound right
  if areFloatsAlmostEqual l.currentX r.currentX then
    let le ← currentEdge left
    let re ← currentEdge right
    if le.top.y > re.top.y then
      pure (areFloatsLessThan (.floatOfInt le.top.x) (re.getCurrentX le.top.y))
    else
      pure (areFloatsGreaterThan (.floatOfInt re.top.x) (le.getCurrentX re.top.y))
  else pure (F64.lt l.currentX r.currentX)

/-- bound.py:299-300 `find_if(partial(bound_insert_location, left), active_bounds)`. -/
def findInsertIndex (left : Nat) : List (Option Nat) → Nat → M Nat
  | [], i => pure i
  | b :: rest, i => do
    let r ← deref b
    if ← boundInsertLocation left r then pure i else findInsertIndex left rest (i + 1)

/-- bound.py:296-303 `insert_bound_into_abl`. -/
def insertBoundIntoAbl (left right : Nat) : M Nat := do
  let abl ← gets St.abl
  let i ← findInsertIndex left abl 0
  modify fun s => { s with abl := s.abl.take i ++ some left :: some right :: s.abl.drop i }
  pure i

/-- bound.py:306-308 `intersection_compare`.  It is only used right after `update_current_x` has read the current edge
of every active bound, so that the edges exist; the default is never used there. -/
def intersectionCompare (bounds : Nat → Bound) (l r : Nat) : Bool :=
  F64.le (bounds l).currentX (bounds r).currentX
    || areEdgesSlopesEqual ((bounds l).currentEdge?.getD default) ((bounds r).currentEdge?.getD default)

/-- bound.py:319-325: the nearest preceding bound of the same polygon kind; the list holds the bounds before
`bound_index`, nearest first.  Returns it with the bounds passed over, nearest to it first. -/
def findSameKind (kind : PolygonKind) : List (Option Nat) → List Nat → M (Option Nat × List Nat)
  | [], between => pure (none, between)
  | b :: rest, between => do
    let i ← deref b
    let bd ← getBound i
    if bd.polygonKind = kind then pure (some i, between)
    else findSameKind kind rest (i :: between)

/-- bound.py:334-364: the winding count from the preceding bound of the same kind (no even-odd filling). -/
def windingFrom (prevWc prevDelta delta : Int) : Int :=
  if prevWc * prevDelta < 0 then
    if prevWc.natAbs > 1 then
      if prevDelta * delta < 0 then prevWc else prevWc + delta
    else delta
  else if prevDelta * delta < 0 then prevWc
  else prevWc + delta

/-- bound.py:366-377: the opposite winding count updated over the bounds of the other kind in between. -/
def oppositeOver (evenOdd : Bool) (owc : Int) (deltas : List Int) : Int :=
  deltas.foldl (fun o d => if evenOdd then (if o = 0 then 1 else 0) else o + d) owc

/-- bound.py:311-377 `set_winding_count`. -/
def setWindingCount (boundIndex : Nat) (sf cf : FillKind) : M Unit := do
  let b ← deref (← ablGet boundIndex)
  let bd ← getBound b
  if boundIndex = 0 then
    modBound b fun bd => { bd with windingCount := bd.windingDelta, oppositeWindingCount := 0 }
  else
    let abl ← gets St.abl
    let (prev, between) ← findSameKind bd.polygonKind (abl.take boundIndex).reverse []
    let (wc, owc) ← (do
      match prev with
      | none => pure (bd.windingDelta, 0)
      | some p =>
        let pd ← getBound p
        if bd.isEvenOddFillKind sf cf then pure (bd.windingDelta, pd.oppositeWindingCount)
        else pure (windingFrom pd.windingCount pd.windingDelta bd.windingDelta, pd.oppositeWindingCount)
      : M (Int × Int))
    let bounds ← gets St.bounds
    let deltas := between.map fun i => (bounds i).windingDelta
    let owc := oppositeOver (bd.isEvenOddAltFillKind sf cf) owc deltas
    modBound b fun bd => { bd with windingCount := wc, oppositeWindingCount := owc }

/-- local_minimum.py:47-63 `initialize`, one bound. -/
def initializeBound (b : Nat) (side : EdgeSide) : M Unit := do
  let bd ← getBound b
  if bd.edges = [] then pure ()
  else
    modBound b fun bd => (bd.setCur 0).setNxt 1
    let e ← currentEdge b
    modBound b fun bd => { bd with
      currentX := .floatOfInt e.bottom.x, windingCount := 0, oppositeWindingCount := 0, side, ring := none }

/-- local_minimum.py:47-63 `initialize`. -/
def initializeMinimum (m : LocalMinimum) : M Unit := do
  initializeBound m.left .left
  initializeBound m.right .right

/-- ring_manager.py:2061-2064 `update_current_x`. -/
def updateCurrentX (topY : Int) : M Unit := do
  let abl ← gets St.abl
  forElse abl.length (fun (i : Nat) => do
    let b ← deref (abl.getD i none)
    modBound b fun bd => { bd with position := i }
    let e ← currentEdge b
    modBound b fun bd => { bd with currentX := e.getCurrentX topY }
    pure (.inl (i + 1))) (fun _ => pure ()) (0 : Nat)

/-! ## Adding points to output rings -/

/-- ring_manager.py:105-110 `current_hot_pixel_index`. -/
def currentHotPixelIndex : M Nat := gets fun s =>
  match s.curHot with
  | none => s.hotPixels.length
  | some i => if i ≥ s.hotPixels.length then s.hotPixels.length else i

/-- ring_manager.py:112-116, the setter. -/
def setCurrentHotPixelIndex (v : Nat) : M Unit :=
  modify fun s => { s with curHot := if v < s.hotPixels.length then some v else none }

/-- ring_manager.py:897-905 / 929-937: add `point` at the end of the bound's ring that belongs to the bound, unless it
is already there. -/
def pushPoint (b : Nat) (point : Point) : M Unit := do
  let bd ← getBound b
  let r ← deref bd.ring
  let node := (← getRing r).node
  let toFront := decide (bd.side = .left)
  let last ← (do
    if toFront then pure node
    else
      let n ← deref node
      pure (← getNode n).prev : M (Option Nat))
  let same ← (do
    match last with
    | none => pure false
    | some n =>
      let q ← pointOf n
      pure (decide (point = q)) : M Bool)
  if same then pure ()
  else
    let new ← createPointNode (some r) point node
    if toFront then setRingNode r (some new)

/-- ring_manager.py:879-908 `hot_pixel_set_left_to_right` (the returned index is never used and is omitted). -/
def hotPixelSetLeftToRight (y startX endX : Int) (b : Nat) (start stop : Nat) (addEnd : Bool) : M Unit := do
  let e ← currentEdge b
  let xMin := max (← liftE (e.getMinX y)) startX
  let e ← currentEdge b
  let xMax := min (← liftE (e.getMaxX y)) endX
  forElse (stop - start) (fun (i : Nat) => do
    let hp ← hotPixelAt i
    if hp.x < xMin then pure (.inl (i + 1))
    else if hp.x > xMax then pure (.inr ())
    else if !addEnd && decide (hp.x = endX) then pure (.inl (i + 1))
    else
      pushPoint b hp
      pure (.inl (i + 1))) (fun _ => pure ()) start

/-- ring_manager.py:910-940 `hot_pixel_set_right_to_left` (the returned index is never used and is omitted).
`k` counts the pixels already seen: the index is `stop - 1 - k`. -/
def hotPixelSetRightToLeft (y startX endX : Int) (b : Nat) (start stop : Nat) (addEnd : Bool) : M Unit := do
  let e ← currentEdge b
  let xMin := max (← liftE (e.getMinX y)) endX
  let e ← currentEdge b
  let xMax := min (← liftE (e.getMaxX y)) startX
  forElse (stop - start) (fun (k : Nat) => do
    let hp ← hotPixelAt (stop - 1 - k)
    if hp.x > xMax then pure (.inl (k + 1))
    else if hp.x < xMin then pure (.inr ())
    else if !addEnd && decide (hp.x = endX) then pure (.inl (k + 1))
    else
      pushPoint b hp
      pure (.inl (k + 1))) (fun _ => pure ()) (0 : Nat)

/-- ring_manager.py:972-976: `for index in range(current, 0, -1): if hot_pixels[index].y > start_y: break; else: index = 0`. -/
def hotPixelBackUp (startY : Int) : Nat → M Nat
  | 0 => pure 0
  | i + 1 => do
    let hp ← hotPixelAt (i + 1)
    if hp.y > startY then pure (i + 1) else hotPixelBackUp startY i

/-- ring_manager.py:986-990: the first index from `i` on whose hot pixel is not on row `y`, or the length. -/
def hotPixelRowEnd (y : Int) (len : Nat) : Nat → Nat → M Nat
  | 0, _ => pure len
  | n + 1, i => do
    let hp ← hotPixelAt i
    if hp.y ≠ y then pure i else hotPixelRowEnd y len n (i + 1)

/-- ring_manager.py:964-1013 `insert_hot_pixels_in_path`. -/
def insertHotPixelsInPath (b : Nat) (endPoint : Point) (addEnd : Bool) : M Unit := do
  let lp := (← getBound b).lastPoint
  if endPoint = lp then pure ()
  else
    let startX := lp.x
    let startY := lp.y
    let endX := endPoint.x
    let endY := endPoint.y
    let cur ← currentHotPixelIndex
    let index ← hotPixelBackUp startY cur
    let len ← gets fun s => s.hotPixels.length
    loopM (fun (index : Nat) => do
      if index < len then
        let y := (← hotPixelAt index).y
        if y > startY then pure (.inl (index + 1))
        else if y < endY then pure (.inr ())
        else
          let last ← hotPixelRowEnd y len (len - index) index
          let addE := decide (y ≠ endPoint.y) || addEnd
          if startX > endX then hotPixelSetRightToLeft y startX endX b index last addE
          else hotPixelSetLeftToRight y startX endX b index last addE
          pure (.inl last)
      else pure (.inr ())) index
    modBound b fun bd => { bd with lastPoint := endPoint }

/-- ring_manager.py:185-197 `add_point_to_ring`. -/
def addPointToRing (b : Nat) (point : Point) : M Unit := do
  if (← getBound b).ring = none then raise .assertion
  else
    insertHotPixelsInPath b point false
    pushPoint b point

/-- ring_manager.py:2035-2043: walk left over the active bounds before `bound`, nearest first; `temp` is `bound_temp`. -/
def holeStateScan : List (Option Nat) → Option Nat → M (Option Nat)
  | [], temp => pure temp
  | none :: rest, temp => holeStateScan rest temp
  | some c :: rest, temp => do
    let cd ← getBound c
    match cd.ring with
    | none => holeStateScan rest temp
    | some cr =>
      match temp with
      | none => holeStateScan rest (some c)
      | some t =>
        let td ← getBound t
        if td.ring = some cr then holeStateScan rest none else holeStateScan rest (some t)

/-- ring_manager.py:2031-2033: the last index at which `bound` occurs; `none` is `StopIteration`. -/
def lastIndexOf (b : Nat) (l : List (Option Nat)) : Option Nat :=
  match l.reverse.findIdx? (fun x => decide (x = some b)) with
  | none => none
  | some k => some (l.length - 1 - k)

/-- ring_manager.py:2030-2049 `set_hole_state`. -/
def setHoleState (b : Nat) : M Unit := do
  let abl ← gets St.abl
  match lastIndexOf b abl with
  | none => raise .stopIteration
  | some i =>
    let temp ← holeStateScan (abl.take i).reverse none
    let r ← deref (← getBound b).ring
    match temp with
    | none =>
      setRingParent r none
      modify fun s => { s with children := s.children ++ [some r] }
    | some t =>
      let tr ← deref (← getBound t).ring
      setRingParent r (some tr)
      modRing tr fun g => { g with children := g.children ++ [some r] }

/-- ring_manager.py:135-140 `add_first_point`. -/
def addFirstPoint (b : Nat) (point : Point) : M Unit := do
  let r ← createRing
  modBound b fun bd => { bd with ring := some r }
  let n ← createPointNode (some r) point none
  setRingNode r (some n)
  setHoleState b
  modBound b fun bd => { bd with lastPoint := point }

/-- ring_manager.py:178-183 `add_point`. -/
def addPoint (b : Nat) (point : Point) : M Unit := do
  if (← getBound b).ring = none then addFirstPoint b point else addPointToRing b point

/-- ring_manager.py:158-176 `add_local_minimum_point`. -/
def addLocalMinimumPoint (point : Point) (first second : Nat) : M Unit := do
  let se ← currentEdge second
  let firstWins ← (do
    if se.isHorizontal then pure true
    else
      let fe ← currentEdge first
      let se ← currentEdge second
      pure (F64.lt se.slope fe.slope) : M Bool)
  if firstWins then
    addPoint first point
    let fr := (← getBound first).ring
    modBound second fun bd => { bd with lastPoint := point, ring := fr }
    modBound first fun bd => { bd with side := .left }
    modBound second fun bd => { bd with side := .right }
  else
    addPoint second point
    let sr := (← getBound second).ring
    modBound first fun bd => { bd with lastPoint := point, ring := sr }
    modBound first fun bd => { bd with side := .right }
    modBound second fun bd => { bd with side := .left }

/-- ring_manager.py:204-215: which ring is kept and which is removed, with their bounds:
`(keep_ring, remove_ring, keep_bound, remove_bound)`. -/
def chooseKeep (first second firstRing secondRing : Nat) : M (Nat × Nat × Nat × Nat) := do
  if ← isDescendantOf firstRing secondRing then pure (secondRing, firstRing, second, first)
  else if ← isDescendantOf secondRing firstRing then pure (firstRing, secondRing, first, second)
  else if (← getLowermostRing firstRing secondRing) = firstRing then
    pure (firstRing, secondRing, first, second)
  else pure (secondRing, firstRing, second, first)

/-- ring_manager.py:219-254: link the nodes of `remove_ring` into `keep_ring`. -/
def joinNodes (keepRing removeRing : Nat) (keepSide removeSide : EdgeSide) : M Unit := do
  let p1Lft ← deref (← getRing keepRing).node
  let p1Rt ← prevOf p1Lft
  let p2Lft ← deref (← getRing removeRing).node
  let p2Rt ← prevOf p2Lft
  if keepSide = .left then
    if removeSide = .left then
      reverseNodes p2Lft
      setNext p2Lft (some p1Lft)
      setPrev p1Lft (some p2Lft)
      setNext p1Rt (some p2Rt)
      setPrev p2Rt (some p1Rt)
      setRingNode keepRing (some p2Rt)
    else
      setNext p2Rt (some p1Lft)
      setPrev p1Lft (some p2Rt)
      setPrev p2Lft (some p1Rt)
      setNext p1Rt (some p2Lft)
      setRingNode keepRing (some p2Lft)
  else
    if removeSide = .right then
      reverseNodes p2Lft
      setNext p1Rt (some p2Rt)
      setPrev p2Rt (some p1Rt)
      setNext p2Lft (some p1Lft)
      setPrev p1Lft (some p2Lft)
    else
      setNext p1Rt (some p2Lft)
      setPrev p2Lft (some p1Rt)
      setPrev p1Lft (some p2Rt)
      setNext p2Rt (some p1Lft)

/-- ring_manager.py:265-273: the first active bound still attached to the removed ring is attached to the kept one. -/
def reattach (removeRing keepRing keepBound : Nat) : List (Option Nat) → M Unit
  | [] => pure ()
  | none :: rest => reattach removeRing keepRing keepBound rest
  | some b :: rest => do
    let bd ← getBound b
    if bd.ring = some removeRing then
      let side := (← getBound keepBound).side
      modBound b fun bd => { bd with ring := some keepRing, side }
    else reattach removeRing keepRing keepBound rest

/-- ring_manager.py:199-273 `append_ring`. -/
def appendRing (first second : Nat) : M Unit := do
  let firstRing ← deref (← getBound first).ring
  let secondRing ← deref (← getBound second).ring
  let (keepRing, removeRing, keepBound, removeBound) ← chooseKeep first second firstRing secondRing
  let ks := (← getBound keepBound).side
  let rs := (← getBound removeBound).side
  joinNodes keepRing removeRing ks rs
  modRing keepRing fun g => { g with bottomNode := none }
  let keepIsHole := isOdd (← ringDepth keepRing)
  let removeIsHole := isOdd (← ringDepth removeRing)
  modRing removeRing fun g => { g with node := none, bottomNode := none }
  if keepIsHole ≠ removeIsHole then
    let p := (← getRing keepRing).parent
    replaceRing removeRing p
  else replaceRing removeRing (some keepRing)
  updatePoints keepRing
  modBound removeBound fun bd => { bd with ring := none }
  modBound keepBound fun bd => { bd with ring := none }
  let abl ← gets St.abl
  reattach removeRing keepRing keepBound abl

/-- ring_manager.py:142-156 `add_local_maximum_point`. -/
def addLocalMaximumPoint (point : Point) (first second : Nat) : M Unit := do
  insertHotPixelsInPath second point false
  addPoint first point
  let fr := (← getBound first).ring
  let sr := (← getBound second).ring
  if fr = sr then
    modBound first fun bd => { bd with ring := none }
    modBound second fun bd => { bd with ring := none }
  else
    let f ← deref fr
    let s ← deref sr
    if f < s then appendRing first second else appendRing second first

/-! ## Crossing bounds -/

/-- ring_manager.py:1107-1135: the winding counts of two bounds that cross, `first` being left of `second` below the
crossing; returns `(first.winding_count, first.opposite_winding_count, second.winding_count,
second.opposite_winding_count)` afterwards. -/
def crossWinding (f s : Bound) (sf cf : FillKind) : Int × Int × Int × Int :=
  if f.polygonKind = s.polygonKind then
    if f.isEvenOddFillKind sf cf then
      (s.windingCount, f.oppositeWindingCount, f.windingCount, s.oppositeWindingCount)
    else
      (if f.windingCount + s.windingDelta = 0 then -f.windingCount else f.windingCount + s.windingDelta,
       f.oppositeWindingCount,
       if s.windingCount - f.windingDelta = 0 then -s.windingCount else s.windingCount - f.windingDelta,
       s.oppositeWindingCount)
  else
    (f.windingCount,
     if !s.isEvenOddFillKind sf cf then f.oppositeWindingCount + s.windingDelta
     else if f.oppositeWindingCount = 0 then 1 else 0,
     s.windingCount,
     if !f.isEvenOddFillKind sf cf then s.oppositeWindingCount - f.windingDelta
     else if s.oppositeWindingCount = 0 then 1 else 0)

/-- ring_manager.py:1148-1159, 1200-1217: a winding count as seen by a fill kind. -/
def normWinding (k : FillKind) (w : Int) : Int :=
  match k with
  | .positive => w
  | .negative => -w
  | _ => (w.natAbs : Int)

/-- ring_manager.py:1173-1176 etc.: exchange the sides and the rings of two bounds. -/
def swapRings (first second : Nat) : M Unit := do
  let f ← getBound first
  let s ← getBound second
  modBound first fun bd => { bd with side := s.side }
  modBound second fun bd => { bd with side := f.side }
  modBound first fun bd => { bd with ring := s.ring }
  modBound second fun bd => { bd with ring := f.ring }

/-- ring_manager.py:1221-1248: does a new local minimum start at the crossing of two bounds of the same polygon, both
with normalised winding count 1? `fo`, `so` are the normalised opposite winding counts. -/
def crossStarts (op : OperationKind) (kind : PolygonKind) (fo so : Int) : Bool :=
  match op with
  | .intersection => decide (fo > 0) && decide (so > 0)
  | .union => decide (fo ≤ 0) && decide (so ≤ 0)
  | .difference =>
    (decide (kind = .clip) && decide (fo > 0) && decide (so > 0))
      || (decide (kind = .subject) && decide (fo ≤ 0) && decide (so ≤ 0))
  | .xor => true

/-- `w == 0 or w == 1`. -/
def zeroOrOne (w : Int) : Bool := decide (w = 0) || decide (w = 1)

/-- ring_manager.py:1094-1251 `intersect_bounds`. -/
def intersectBounds (point : Point) (op : OperationKind) (sf cf : FillKind) (first second : Nat) : M Unit := do
  let f ← getBound first
  let s ← getBound second
  let firstContributing := f.ring.isSome
  let secondContributing := s.ring.isSome
  let (fwc, fowc, swc, sowc) := crossWinding f s sf cf
  modBound first fun bd => { bd with windingCount := fwc, oppositeWindingCount := fowc }
  modBound second fun bd => { bd with windingCount := swc, oppositeWindingCount := sowc }
  let fw := normWinding (f.fillKind sf cf) fwc
  let sw := normWinding (s.fillKind sf cf) swc
  if firstContributing && secondContributing then
    if !zeroOrOne fw || !zeroOrOne sw || (decide (f.polygonKind ≠ s.polygonKind) && decide (op ≠ .xor)) then
      addLocalMaximumPoint point first second
    else
      addPoint first point
      addPoint second point
      swapRings first second
  else if firstContributing then
    if zeroOrOne sw then
      addPoint first point
      modBound second fun bd => { bd with lastPoint := point }
      swapRings first second
  else if secondContributing then
    if zeroOrOne fw then
      modBound first fun bd => { bd with lastPoint := point }
      addPoint second point
      swapRings first second
  else if zeroOrOne fw && zeroOrOne sw then
    let fo := normWinding (f.oppositeFillKind sf cf) fowc
    let so := normWinding (s.oppositeFillKind sf cf) sowc
    if f.polygonKind ≠ s.polygonKind then addLocalMinimumPoint point first second
    else if fw = 1 ∧ sw = 1 then
      if crossStarts op f.polygonKind fo so then addLocalMinimumPoint point first second
    else
      modBound first fun bd => { bd with side := s.side }
      modBound second fun bd => { bd with side := f.side }

/-- intersect_node.py:14-23 `IntersectNode`. -/
structure IntersectNode where
  first : Nat
  second : Nat
  point : FPoint
  deriving DecidableEq, Repr, Inhabited

/-- intersect_node.py:47-48 `to_int32`. -/
def toInt32 (v : Int) : Int := (BitVec.ofInt 32 v).toInt

/-- intersect_node.py:34-41 `IntersectNode.__lt__`. -/
def IntersectNode.lt (bounds : Nat → Bound) (a b : IntersectNode) : Bool :=
  if areFloatsAlmostEqual a.point.y b.point.y then
    decide (toInt32 ((bounds a.first).oppositeWindingCount + (bounds a.second).oppositeWindingCount)
      < toInt32 ((bounds b.first).oppositeWindingCount + (bounds b.second).oppositeWindingCount))
  else F64.lt b.point.y a.point.y

/-- intersect_node.py:43-44 `has_bound`. -/
def IntersectNode.hasBound (n : IntersectNode) (b : Option Nat) : Bool :=
  decide (b = some n.first) || decide (b = some n.second)

/-- bubble_sort.py applied to `active_bounds` with `intersection_compare`: the sorted list and the exchanged pairs in
order.  (`on_swap` does not change anything the comparator reads, so that its effects can be run afterwards.) -/
def sortActive : M (List Nat × List (Nat × Nat)) := do
  let abl ← gets St.abl
  let ids := abl.filterMap id
  let bounds ← gets St.bounds
  let fuel ← gets St.fuel
  match bubbleSort (intersectionCompare bounds) fuel ids with
  | none => raise .fuel
  | some r => pure r

/-- intersect_node.py:55-60 / ring_manager.py:870-876: the crossing of the current edges. -/
def crossingOf (first second : Nat) : M FPoint := do
  let fe ← currentEdge first
  let se ← currentEdge second
  match fe.and se with
  | none => raise (.runtime "Trying to find intersection of lines that do not intersect")
  | some p => pure p

/-- intersect_node.py:51-63 `build_intersect_list` (only the crossings are used, ring_manager.py:1643). -/
def buildIntersectList : M (List IntersectNode) := do
  let (_, swaps) ← sortActive
  let rec go : List (Nat × Nat) → List IntersectNode → M (List IntersectNode)
    | [], acc => pure acc
    | (l, r) :: rest, acc => do
      let p ← crossingOf l r
      go rest (acc ++ [⟨l, r, p⟩])
  go swaps []

/-- ring_manager.py:1656-1659 / 1662-1666: the position of the first of the two bounds, and whether they are adjacent;
`IndexError` if there is nothing after it. -/
def crossingPosition (n : IntersectNode) : M (Nat × Bool) := do
  let abl ← gets St.abl
  let i := abl.findIdx n.hasBound
  let next ← ablGet (i + 1)
  pure (i, n.hasBound next)

/-- ring_manager.py:1660-1672: the first later crossing whose bounds are adjacent: its index in `intersections` and
the position of its first bound. -/
def findFeasible : List IntersectNode → Nat → M (Nat × Nat)
  | [], _ => raise (.runtime "Could not properly correct intersection order.")
  | n :: rest, k => do
    let (i, adjacent) ← crossingPosition n
    if adjacent then pure (k, i) else findFeasible rest (k + 1)

/-- ring_manager.py:1650-1682 `process_intersect_list`; the list holds the crossings not yet processed. -/
def processIntersectList (op : OperationKind) (sf cf : FillKind) : Nat → List IntersectNode → M Unit
  | 0, _ => pure ()
  | _ + 1, [] => pure ()
  | n + 1, node :: rest => do
    let (i, adjacent) ← crossingPosition node
    let (node, rest, i) ← (do
      if adjacent then pure (node, rest, i)
      else
        let (k, j) ← findFeasible rest 0
        pure (rest.getD k default, rest.set k node, j) : M (IntersectNode × List IntersectNode × Nat))
    let p ← liftE node.point.round
    intersectBounds p op sf cf node.first node.second
    ablSwap i (i + 1)
    processIntersectList op sf cf n rest

/-- ring_manager.py:1634-1648 `process_intersections`. -/
def processIntersections (topY : Int) (op : OperationKind) (sf cf : FillKind) : M Unit := do
  let abl ← gets St.abl
  if abl = [] then pure ()
  else
    updateCurrentX topY
    let crossings ← buildIntersectList
    if crossings = [] then pure ()
    else
      let bounds ← gets St.bounds
      let sorted := pySorted (IntersectNode.lt bounds) crossings
      processIntersectList op sf cf sorted.length sorted

/-! ## Maxima -/

/-- ring_manager.py:672-686: move the bound right up to its partner, crossing the bounds in between; returns the
position reached and `skipped`. -/
def maximaLoop (op : OperationKind) (sf cf : FillKind) (maxIdx : Nat) (boundIdx : Nat) : M (Nat × Bool) :=
  loopM (fun (st : Nat × Nat × Bool) => do
    let (bi, ni, skipped) := st
    let len ← gets fun s => s.abl.length
    if ni < len ∧ ni ≠ maxIdx then
      match ← ablGet ni with
      | none => pure (.inl (bi, ni + 1, skipped))
      | some nb =>
        let b ← deref (← ablGet bi)
        let e ← currentEdge b
        intersectBounds e.top op sf cf b nb
        ablSwap bi ni
        pure (.inl (ni, ni + 1, true))
    else pure (.inr (bi, skipped))) (boundIdx, boundIdx + 1, false)

/-- ring_manager.py:662-697 `do_maxima`. -/
def doMaxima (op : OperationKind) (sf cf : FillKind) (boundIdx maxIdx : Nat) : M Nat := do
  let (bi, skipped) ← maximaLoop op sf cf maxIdx boundIdx
  let b ← deref (← ablGet bi)
  let m ← deref (← ablGet maxIdx)
  let br := (← getBound b).ring
  let mr := (← getBound m).ring
  if br.isSome ∧ mr.isSome then
    let e ← currentEdge b
    addLocalMaximumPoint e.top b m
  else if br.isSome ∨ mr.isSome then raise (.runtime "DoMaxima error")
  ablSet bi none
  ablSet maxIdx none
  pure (if skipped then boundIdx else boundIdx + 1)

/-! ## Local minima -/

/-- ring_manager.py:1015-1038 `insert_lm_left_and_right_bound`. -/
def insertLmLeftAndRightBound (op : OperationKind) (sf cf : FillKind) (left right : Nat) : M Unit := do
  let i ← insertBoundIntoAbl left right
  setWindingCount i sf cf
  let l ← getBound left
  modBound right fun bd =>
    { bd with windingCount := l.windingCount, oppositeWindingCount := l.oppositeWindingCount }
  if (← getBound left).isContributing op sf cf then
    let e ← currentEdge left
    addLocalMinimumPoint e.bottom left right
  let le ← currentEdge left
  insertScan le.top.y
  let re ← currentEdge right
  if re.isHorizontal then pure () else insertScan re.top.y

/-- ring_manager.py:942-962 `insert_horizontal_local_minima_into_abl` on the minima not yet inserted; returns the rest. -/
def insertHorizontalLocalMinima (op : OperationKind) (sf cf : FillKind) (topY : Int) :
    List LocalMinimum → M (List LocalMinimum)
  | [] => pure []
  | m :: rest => do
    if m.y = topY ∧ m.hasHorizontal then
      initializeMinimum m
      insertLmLeftAndRightBound op sf cf m.left m.right
      insertHorizontalLocalMinima op sf cf topY rest
    else pure (m :: rest)

/-- ring_manager.py:1040-1058 `insert_local_minima_into_abl` on the minima not yet inserted; returns the rest. -/
def insertLocalMinima (op : OperationKind) (sf cf : FillKind) (botY : Int) :
    List LocalMinimum → M (List LocalMinimum)
  | [] => pure []
  | m :: rest => do
    if m.y = botY then
      initializeMinimum m
      insertLmLeftAndRightBound op sf cf m.left m.right
      insertLocalMinima op sf cf botY rest
    else pure (m :: rest)

/-! ## Horizontals -/

/-- Lexicographic `(a, b) <= (c, d)` on int pairs. -/
def pairLe (a b c d : Int) : Bool := decide (a < c) || (decide (a = c) && decide (b ≤ d))

/-- ring_manager.py:1436-1442 / 1528-1534: the first hot pixel from `i` on with `p`, or the length. -/
def hotPixelFind (p : Point → Bool) (len : Nat) : Nat → Nat → M Nat
  | 0, _ => pure len
  | n + 1, i => do
    let hp ← hotPixelAt i
    if p hp then pure i else hotPixelFind p len n (i + 1)

/-- ring_manager.py:1452-1462: add the hot pixels passed to the ring, left to right; returns the new index. -/
def passHotPixelsRight (b : Nat) (stop : Point → M Bool) (len : Nat) : Nat → Nat → M Nat
  | 0, _ => pure len
  | n + 1, i => do
    let hp ← hotPixelAt i
    if ← stop hp then pure i
    else
      if (← getBound b).ring.isSome then addPointToRing b hp
      passHotPixelsRight b stop len n (i + 1)

/-- ring_manager.py:1541-1550: add the hot pixels passed to the ring, right to left.  The argument is the index plus
one (`0` is Python's `-1`), and so is the result. -/
def passHotPixelsLeft (b : Nat) (stop : Point → M Bool) : Nat → M Nat
  | 0 => pure 0
  | i + 1 => do
    let hp ← hotPixelAt i
    if ← stop hp then pure (i + 1)
    else
      if (← getBound b).ring.isSome then addPointToRing b hp
      passHotPixelsLeft b stop i

/-- ring_manager.py:1504-1510 / 1590-1596: the end of a horizontal. -/
def finishHorizontal (b : Nat) (boundIdx : Nat) : M Unit := do
  if (← getBound b).ring.isSome then
    let e ← currentEdge b
    addPointToRing b e.top
  let bd ← getBound b
  if bd.nxtIdx < bd.edges.length then toNextEdge b
  else ablSet boundIdx none

/-- `round_half_up(next_bound.current_x) == bound.current_edge.top.x and bound.next_edge_index < len(bound.edges) and
bound.current_edge.slope < bound.next_edge.slope` (ring_manager.py:1468-1470, 1556-1558). -/
def horizontalEnds (b : Nat) (x : F64) : M Bool := do
  let r ← roundHalfUpM x
  let e ← currentEdge b
  if r = e.top.x then
    let bd ← getBound b
    if bd.nxtIdx < bd.edges.length then
      let n ← nextEdge b
      pure (F64.lt e.slope n.slope)
    else pure false
  else pure false

/-- `if is_maxima_edge: maximum_bound_index = find(bound.maximum_bound, active_bounds)` (ring_manager.py:1431-1434). -/
def horizontalPartner (b : Nat) (y : Int) : M (Bool × Nat) := do
  let isMax ← isMaxima b y
  let abl ← gets St.abl
  if isMax then
    let bd ← getBound b
    pure (true, findIdentity bd.maximumBound abl)
  else pure (false, abl.length)

/-- ring_manager.py:1419-1510 `process_horizontal_left_to_right`.  In a `for` loop over the positions right of the
bound, `(bi, hp, shifted, ni)` are `bound_index`, `hot_pixel_index`, `shifted`, `next_bound_index`; the bound itself
does not change (line 1494 reads it back after the exchange). The loop yields the value of an early `return`, or the
variables after it. -/
def processHorizontalLeftToRight (op : OperationKind) (sf cf : FillKind) (y : Int) (boundIdx : Nat) : M Nat := do
  let b ← deref (← ablGet boundIdx)
  let (isMax, maxIdx) ← horizontalPartner b y
  let len ← gets fun s => s.hotPixels.length
  let cur ← currentHotPixelIndex
  let e ← currentEdge b
  let hp0 ← hotPixelFind (fun p => pairLe p.y e.bottom.x y p.x) len (len - cur) cur
  let n ← gets fun s => s.abl.length
  let r ← forElse (n - (boundIdx + 1)) (fun (st : Nat × Nat × Bool × Nat) => do
    let (bi, hp, shifted, ni) := st
    match ← ablGet ni with
    | none => pure (.inl (bi, hp, shifted, ni + 1))
    | some nb =>
      let hp ← passHotPixelsRight b (fun p => do
        if p.y ≠ y then pure true
        else
          let r ← roundHalfUpM (← getBound nb).currentX
          let e ← currentEdge b
          pure (decide (p.x ≥ r) || decide (p.x ≥ e.top.x))) len (len - hp) hp
      let nx := (← getBound nb).currentX
      let e ← currentEdge b
      if areFloatsGreaterThan nx (.floatOfInt e.top.x) then pure (.inr (Sum.inr (bi, hp, shifted)))
      else if ← horizontalEnds b nx then pure (.inr (Sum.inr (bi, hp, shifted)))
      else
        if (← getBound b).ring.isSome then
          let r ← roundHalfUpM nx
          addPointToRing b ⟨r, y⟩
        if isMax && decide (ni = maxIdx) then
          if (← getBound b).ring.isSome ∧ (← getBound nb).ring.isSome then
            let e ← currentEdge b
            addLocalMaximumPoint e.top b nb
          ablSet maxIdx none
          ablSet bi none
          pure (.inr (Sum.inl (if shifted then boundIdx else boundIdx + 1)))
        else
          let r ← roundHalfUpM (← getBound nb).currentX
          intersectBounds ⟨r, y⟩ op sf cf b nb
          ablSwap bi ni
          pure (.inl (ni, hp, true, ni + 1)))
    (fun st => pure (Sum.inr (st.1, st.2.1, st.2.2.1))) (boundIdx, hp0, false, boundIdx + 1)
  match r with
  | .inl v => pure v
  | .inr (bi, hp, shifted) =>
    if (← getBound b).ring.isSome then
      let _ ← passHotPixelsRight b (fun p => do
        if p.y ≠ y then pure true
        else
          let e ← currentEdge b
          pure (decide (p.x ≥ e.top.x))) len (len - hp) hp
    finishHorizontal b bi
    pure (if shifted then boundIdx else boundIdx + 1)

/-- ring_manager.py:1512-1596 `process_horizontal_right_to_left`.  `hp` is `hot_pixel_index + 1`; the loop runs over
the positions left of the bound, `pi = boundIdx - 1 - k`. -/
def processHorizontalRightToLeft (op : OperationKind) (sf cf : FillKind) (y : Int) (boundIdx : Nat) : M Nat := do
  let b ← deref (← ablGet boundIdx)
  let (isMax, maxIdx) ← horizontalPartner b y
  let len ← gets fun s => s.hotPixels.length
  let cur ← currentHotPixelIndex
  let e ← currentEdge b
  let hp0 ← hotPixelFind (fun p => pairLe y e.top.x p.y p.x) len (len - cur) cur
  let r ← forElse boundIdx (fun (st : Nat × Nat × Nat) => do
    let (bi, hp, k) := st
    let pi := boundIdx - 1 - k
    match ← ablGet pi with
    | none => pure (.inl (bi, hp, k + 1))
    | some pb =>
      let hp ← passHotPixelsLeft b (fun p => do
        if p.y ≠ y then pure true
        else
          let r ← roundHalfUpM (← getBound pb).currentX
          let e ← currentEdge b
          pure (decide (p.x ≤ r) || decide (p.x ≤ e.top.x))) hp
      let px := (← getBound pb).currentX
      let e ← currentEdge b
      if areFloatsLessThan px (.floatOfInt e.top.x) then pure (.inr (Sum.inr (bi, hp)))
      else if ← horizontalEnds b px then pure (.inr (Sum.inr (bi, hp)))
      else
        if (← getBound b).ring.isSome then
          let r ← roundHalfUpM px
          addPointToRing b ⟨r, y⟩
        if isMax && decide (pi = maxIdx) then
          if (← getBound b).ring.isSome ∧ (← getBound pb).ring.isSome then
            let e ← currentEdge b
            addLocalMaximumPoint e.top b pb
          ablSet pi none
          ablSet bi none
          pure (.inr (Sum.inl ()))
        else
          let r ← roundHalfUpM (← getBound pb).currentX
          intersectBounds ⟨r, y⟩ op sf cf pb b
          ablSwap pi bi
          pure (.inl (pi, hp, k + 1)))
    (fun st => pure (Sum.inr (st.1, st.2.1))) (boundIdx, hp0, (0 : Nat))
  match r with
  | .inl () => pure (boundIdx + 1)
  | .inr (bi, hp) =>
    if (← getBound b).ring.isSome then
      let _ ← passHotPixelsLeft b (fun p => do
        if p.y ≠ y then pure true
        else
          let e ← currentEdge b
          pure (decide (p.x ≤ e.top.x))) hp
    finishHorizontal b bi
    pure (boundIdx + 1)

/-- ring_manager.py:1385-1398 `process_horizontal`. -/
def processHorizontal (op : OperationKind) (sf cf : FillKind) (y : Int) (boundIdx : Nat) : M Nat := do
  let b ← deref (← ablGet boundIdx)
  let e ← currentEdge b
  if e.bottom.x < e.top.x then processHorizontalLeftToRight op sf cf y boundIdx
  else processHorizontalRightToLeft op sf cf y boundIdx

/-- ring_manager.py:1400-1417 `process_horizontals`. -/
def processHorizontals (op : OperationKind) (sf cf : FillKind) (y : Int) : M Unit := do
  loopM (fun (index : Nat) => do
    let len ← gets fun s => s.abl.length
    if index < len then
      match ← ablGet index with
      | none => pure (.inl (index + 1))
      | some b =>
        let e ← currentEdge b
        if e.isHorizontal then
          let i ← processHorizontal op sf cf y index
          pure (.inl i)
        else pure (.inl (index + 1))
    else pure (.inr ())) (0 : Nat)
  ablFilter

/-! ## The top of a scanbeam -/

/-- ring_manager.py:1337-1369: maxima and promotion of horizontals. -/
def topOfScanbeamLoop (op : OperationKind) (sf cf : FillKind) (topY : Int) : M Unit :=
  loopM (fun (bi : Nat) => do
    let len ← gets fun s => s.abl.length
    if bi < len then
      match ← ablGet bi with
      | none => pure (.inl (bi + 1))
      | some b =>
        let maximum ← (do
          if ← isMaxima b topY then
            let bd ← getBound b
            let abl ← gets St.abl
            let mi := findIdentity bd.maximumBound abl
            if mi = abl.length then pure (some mi)
            else
              let m ← deref (← ablGet mi)
              let e ← currentEdge m
              if e.isHorizontal then pure none
              else if ← isMaxima m topY then pure (some mi) else pure none
          else pure none : M (Option Nat))
        match maximum with
        | some mi =>
          let bi ← doMaxima op sf cf bi mi
          pure (.inl bi)
        | none =>
          let promote ← (do
            if ← isIntermediate b topY then
              let e ← nextEdge b
              pure e.isHorizontal
            else pure false : M Bool)
          if promote then
            if (← getBound b).ring.isSome then
              let e ← currentEdge b
              insertHotPixelsInPath b e.top false
            toNextEdge b
            if (← getBound b).ring.isSome then
              let e ← currentEdge b
              addPointToRing b e.bottom
          else
            let e ← currentEdge b
            modBound b fun bd => { bd with currentX := e.getCurrentX topY }
          pure (.inl (bi + 1))
    else pure (.inr ())) (0 : Nat)

/-- ring_manager.py:1377-1382: promote intermediate vertices. -/
def promoteIntermediate (topY : Int) : List (Option Nat) → M Unit
  | [] => pure ()
  | o :: rest => do
    let b ← deref o
    if ← isIntermediate b topY then
      if (← getBound b).ring.isSome then
        let e ← currentEdge b
        addPointToRing b e.top
      toNextEdge b
    promoteIntermediate topY rest

/-- ring_manager.py:1326-1383 `process_edges_at_top_of_scanbeam`; returns the minima not yet inserted. -/
def processEdgesAtTopOfScanbeam (op : OperationKind) (sf cf : FillKind) (topY : Int)
    (minimums : List LocalMinimum) : M (List LocalMinimum) := do
  topOfScanbeamLoop op sf cf topY
  ablFilter
  let minimums ← insertHorizontalLocalMinima op sf cf topY minimums
  processHorizontals op sf cf topY
  let abl ← gets St.abl
  promoteIntermediate topY abl
  pure minimums

/-- ring_manager.py:2056-2058 `update_current_hot_pixel_index`. -/
def updateCurrentHotPixelIndex (scanlineY : Int) : M Unit :=
  loopM (fun (_ : Unit) => do
    let i ← currentHotPixelIndex
    let hp ← hotPixelAt i
    if hp.y > scanlineY then
      setCurrentHotPixelIndex (i + 1)
      pure (.inl ())
    else pure (.inr ())) ()

/-- `scanbeams.pop()`, keeping the current value when it is empty (ring_manager.py:398-401, 712-715). -/
def popScan (y : Int) : M Int := do
  match (← gets St.scan).getLast? with
  | none => pure y
  | some v =>
    modify fun s => { s with scan := s.scan.dropLast }
    pure v

/-- One iteration of the loop of `execute_vatti` (ring_manager.py:712-734). -/
def vattiStep (op : OperationKind) (sf cf : FillKind) (y : Int) (minimums : List LocalMinimum) :
    M (Int × List LocalMinimum) := do
  let y ← popScan y
  processIntersections y op sf cf
  updateCurrentHotPixelIndex y
  let minimums ← processEdgesAtTopOfScanbeam op sf cf y minimums
  let minimums ← insertLocalMinima op sf cf y minimums
  pure (y, minimums)

/-- ring_manager.py:704-705 / 391-392: `sorted(minimums, reverse=True)`. -/
def sortedMinimums (minimums : List LocalMinimum) : List LocalMinimum := pySortedRev LocalMinimum.lt minimums

/-- ring_manager.py:699-734 `execute_vatti`.  The initial `scanline_y = math.inf` is never used: the first `pop`
succeeds because `scanbeams` holds one entry per minimum. -/
def executeVatti (op : OperationKind) (sf cf : FillKind) (minimums : List LocalMinimum) (scanbeams : List Int) :
    M Unit := do
  modify fun s => { s with scan := scanbeams, abl := [] }
  setCurrentHotPixelIndex 0
  loopM (fun (st : Int × List LocalMinimum) => do
    let scan ← gets St.scan
    if scan = [] ∧ st.2 = [] then pure (.inr ())
    else
      let st ← vattiStep op sf cf st.1 st.2
      pure (.inl st)) (0, sortedMinimums minimums)

/-! ## The sweep that records hot pixels -/

/-- ring_manager.py:1060-1092 `insert_local_minima_into_abl_hot_pixel` on the minima not yet inserted; returns the rest. -/
def insertLocalMinimaHotPixel (topY : Int) : List LocalMinimum → M (List LocalMinimum)
  | [] => pure []
  | m :: rest => do
    if m.y = topY then
      let e0 ← orIndex (← getBound m.left).edges.head?
      addHotPixel e0.bottom
      modBound m.left fun bd => (bd.setCur 0).setNxt 1
      let le ← currentEdge m.left
      modBound m.left fun bd => { bd with currentX := .ofInt le.bottom.x }
      modBound m.right fun bd => (bd.setCur 0).setNxt 1
      let re ← currentEdge m.right
      modBound m.right fun bd => { bd with currentX := .ofInt re.bottom.x }
      let _ ← insertBoundIntoAbl m.left m.right
      let le ← currentEdge m.left
      if le.isHorizontal then pure () else insertScan le.top.y
      let re ← currentEdge m.right
      if re.isHorizontal then pure () else insertScan re.top.y
      insertLocalMinimaHotPixel topY rest
    else pure (m :: rest)

/-- ring_manager.py:841-853 / 857-867: the test done for the bound at `ni` and the recording of its pixel:
`true` is `break`. -/
def horizontalPass (b : Nat) (topY : Int) (ni : Nat) (beyond : F64 → F64 → Bool) : M Bool := do
  match ← ablGet ni with
  | none => pure false
  | some nb =>
    let x := (← getBound b).currentX
    let nd ← getBound nb
    if beyond nd.currentX x then pure true
    else
      let e ← currentEdge nb
      if e.top.y ≠ topY ∧ e.bottom.y ≠ topY then
        let r ← roundHalfUpM nd.currentX
        addHotPixel ⟨r, topY⟩
      pure false

/-- ring_manager.py:829-868 `horizontals_at_top_scanbeam`. -/
def horizontalsAtTopScanbeam (topY : Int) (boundIdx : Nat) : M (Nat × Bool) := do
  let b ← deref (← ablGet boundIdx)
  let e ← currentEdge b
  modBound b fun bd => { bd with currentX := .ofInt e.top.x }
  if e.bottom.x < e.top.x then
    let n ← gets fun s => s.abl.length
    forElse (n - (boundIdx + 1)) (fun (st : Nat × Bool × Nat) => do
      let (bi, shifted, ni) := st
      if ← horizontalPass b topY ni (fun nx x => F64.le x nx) then pure (.inr (bi, shifted))
      else
        ablSwap bi ni
        pure (.inl (ni, true, ni + 1))) (fun st => pure (st.1, st.2.1)) (boundIdx, false, boundIdx + 1)
  else
    forElse boundIdx (fun (st : Nat × Nat) => do
      let (bi, k) := st
      let pi := boundIdx - 1 - k
      if ← horizontalPass b topY pi (fun px x => F64.le px x) then pure (.inr (bi, false))
      else
        ablSwap bi pi
        pure (.inl (pi, k + 1))) (fun st => pure (st.1, false)) (boundIdx, (0 : Nat))

/-- ring_manager.py:1612-1619: advance one bound over all its edges that end at `topY`; returns its position and
`shifted`. -/
def hotPixelAdvance (topY : Int) (b : Nat) (index : Nat) : M (Nat × Bool) :=
  loopM (fun (st : Nat × Bool) => do
    let (ci, shifted) := st
    let bd ← getBound b
    if bd.curIdx < bd.edges.length then
      let e ← currentEdge b
      if e.top.y = topY then
        addHotPixel e.top
        let (ci, shifted) ← (do
          if e.isHorizontal then horizontalsAtTopScanbeam topY ci else pure (ci, shifted) : M (Nat × Bool))
        toNextEdge b
        pure (.inl (ci, shifted))
      else pure (.inr (ci, shifted))
    else pure (.inr (ci, shifted))) (index, false)

/-- ring_manager.py:1598-1624 `process_hot_pixel_edges_at_top_of_scanbeam`. -/
def processHotPixelEdgesAtTopOfScanbeam (topY : Int) : M Unit := do
  loopM (fun (index : Nat) => do
    let len ← gets fun s => s.abl.length
    if index < len then
      match ← ablGet index with
      | none => pure (.inl (index + 1))
      | some b =>
        let (ci, shifted) ← hotPixelAdvance topY b index
        let bd ← getBound b
        if bd.curIdx = bd.edges.length then ablSet ci none
        pure (.inl (if shifted then index else index + 1))
    else pure (.inr ())) (0 : Nat)
  ablFilter

/-- ring_manager.py:1626-1632 `process_hot_pixel_intersections`, with :870-877 `hot_pixels_on_swap`. -/
def processHotPixelIntersections (topY : Int) : M Unit := do
  updateCurrentX topY
  let (sorted, swaps) ← sortActive
  forList swaps fun lr => do
    let p ← crossingOf lr.1 lr.2
    let q ← liftE p.round
    addHotPixel q
  modify fun s => { s with abl := sorted.map some }

/-- One iteration of the loop of `build_hot_pixels` (ring_manager.py:398-408). -/
def hotPixelStep (y : Int) (minimums : List LocalMinimum) : M (Int × List LocalMinimum) := do
  let y ← popScan y
  processHotPixelIntersections y
  let minimums ← insertLocalMinimaHotPixel y minimums
  processHotPixelEdgesAtTopOfScanbeam y
  pure (y, minimums)

/-- ring_manager.py:2067-2068 `hot_pixels_compare`. -/
def hotPixelsCompare (l r : Point) : Bool :=
  decide (r.y > l.y) || (decide (r.y = l.y) && decide (l.x ≥ r.x))

/-- ring_manager.py:2051-2054 `sort_hot_pixels`. -/
def sortHotPixels : M Unit := do
  let hps ← gets St.hotPixels
  let fuel ← gets St.fuel
  match quicksort hotPixelsCompare fuel hps with
  | none => raise .fuel
  | some l => modify fun s => { s with hotPixels := groupKeys l }

/-- ring_manager.py:390-409 `build_hot_pixels` (for the initial `scanline_y` see `executeVatti`). -/
def buildHotPixels (minimums : List LocalMinimum) (scanbeams : List Int) : M Unit := do
  modify fun s => { s with scan := scanbeams, abl := [] }
  loopM (fun (st : Int × List LocalMinimum) => do
    let scan ← gets St.scan
    if scan = [] ∧ st.2 = [] then pure (.inr ())
    else
      let st ← hotPixelStep st.1 st.2
      pure (.inl st)) (0, sortedMinimums minimums)
  sortHotPixels

end Wagyu
