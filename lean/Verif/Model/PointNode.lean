import Verif.Model.State

/-!
# Point nodes (point_node.py)
-/

namespace Wagyu

/-- Cursor loop `cursor = start; while True: body(cursor); cursor = cursor.next; if cursor is start: break`
(point_node.py:36-42 `__iter__`; the body runs between `yield cursor` and `cursor = cursor.next`). -/
def forNodes (start : Nat) (body : Nat → M Unit) : M Unit :=
  loopM (fun cursor => do
    body cursor
    let cursor ← nextOf cursor
    if cursor = start then pure (.inr ()) else pure (.inl cursor)) start

/-- The nodes yielded by `__iter__` (point_node.py:36-42) when the ring is not changed meanwhile. -/
def nodesFrom (start : Nat) : M (List Nat) :=
  loopM (fun (st : Nat × List Nat) => do
    let acc := st.1 :: st.2
    let cursor ← nextOf st.1
    if cursor = start then pure (.inr acc.reverse) else pure (.inl (cursor, acc))) (start, [])

/-- The nodes yielded by `__reversed__` (point_node.py:52-58). -/
def nodesBackFrom (start : Nat) : M (List Nat) :=
  loopM (fun (st : Nat × List Nat) => do
    let acc := st.1 :: st.2
    let cursor ← prevOf st.1
    if cursor = start then pure (.inr acc.reverse) else pure (.inl (cursor, acc))) (start, [])

/-- point_node.py:91-111 `stats`, before the division: twice the area, the size and the box. -/
structure Stats where
  area2 : Int
  size : Nat
  box : Box
  deriving DecidableEq, Repr

/-- point_node.py:98-107, the accumulation done for one node `p` with predecessor `q`. -/
def Stats.step (st : Stats) (q p : Point) : Stats :=
  let mn := st.box.minimum
  let mx := st.box.maximum
  { area2 := st.area2 + (q.x + p.x) * (q.y - p.y)
    size := st.size + 1
    box :=
      ⟨⟨if p.x > mx.x then mn.x else if p.x < mn.x then p.x else mn.x,
        if p.y > mx.y then mn.y else if p.y < mn.y then p.y else mn.y⟩,
       ⟨if p.x > mx.x then p.x else mx.x, if p.y > mx.y then p.y else mx.y⟩⟩ }

/-- point_node.py:91-111 `stats`: `area / 2` (rounded to a float), the size and the box. -/
def nodeStats (start : Nat) : M (F64 × Nat × Box) := do
  let p ← pointOf start
  let st ← loopM (fun (c : Nat × Stats) => do
    let p ← pointOf c.1
    let q ← pointOf (← prevOf c.1)
    let st := c.2.step q p
    let cursor ← nextOf c.1
    if cursor = start then pure (.inr st) else pure (.inl (cursor, st)))
    (start, { area2 := 0, size := 0, box := ⟨p, p⟩ })
  pure (intDiv st.area2 2, st.size, st.box)

/-- point_node.py:149-150 `get_points_slope`. -/
def getPointsSlope (l r : Nat) : M F64 := do
  let p ← pointOf l
  let q ← pointOf r
  pure (Edge.mk' p q).slope

/-- point_node.py:114-116 etc.: `node = self.step; while node == self and node is not self: node = node.step`. -/
def skipSame (step : Nat → M Nat) (self : Nat) : M Nat := do
  let first ← step self
  loopM (fun node => do
    let p ← pointOf node
    let q ← pointOf self
    if p = q ∧ node ≠ self then
      let node ← step node
      pure (.inl node)
    else pure (.inr node)) first

/-- point_node.py:113-138 `is_bottom_to`. -/
def isBottomTo (self other : Nat) : M Bool := do
  let dx1p := (← getPointsSlope self (← skipSame prevOf self)).abs
  let dx1n := (← getPointsSlope self (← skipSame nextOf self)).abs
  let dx2p := (← getPointsSlope other (← skipSame prevOf other)).abs
  let dx2n := (← getPointsSlope other (← skipSame nextOf other)).abs
  if areFloatsAlmostEqual (.pyMax dx1p dx1n) (.pyMax dx2p dx2n)
      && areFloatsAlmostEqual (.pyMin dx1p dx1n) (.pyMin dx2p dx2n) then
    let (area, _, _) ← nodeStats self
    pure (F64.lt (.fin 0) area)
  else
    pure ((areFloatsGreaterThanOrEqual dx1p dx2p && areFloatsGreaterThanOrEqual dx1p dx2n)
      || (areFloatsGreaterThanOrEqual dx1n dx2p && areFloatsGreaterThanOrEqual dx1n dx2n))

/-- point_node.py:64-89 `bottom_node`. -/
def bottomNodeOf (self : Nat) : M Nat := do
  let cursor ← nextOf self
  let (node, cursor, dups) ← loopM (fun (st : Nat × Nat × Option Nat) => do
    let (node, cursor, dups) := st
    if cursor = node then pure (.inr (node, cursor, dups))
    else
      let c ← getNode cursor
      let n ← getNode node
      let (node, dups) :=
        if c.y > n.y then (cursor, none)
        else if c.y = n.y ∧ c.x ≤ n.x then
          if c.x < n.x then (cursor, none)
          else if c.next ≠ some node ∧ c.prev = some node then (node, some cursor)
          else (node, dups)
        else (node, dups)
      let cursor ← nextOf cursor
      pure (.inl (node, cursor, dups))) (self, cursor, none)
  match dups with
  | none => pure node
  | some dups =>
    loopM (fun (st : Nat × Nat) => do
      let (node, dups) := st
      if dups = cursor then pure (.inr node)
      else
        let node ← (do
          if ← isBottomTo cursor dups then pure node else pure dups : M Nat)
        let dups ← nextOf dups
        let dups ← loopM (fun dups => do
          let p ← pointOf dups
          let q ← pointOf node
          if p ≠ q then
            let dups ← nextOf dups
            pure (.inl dups)
          else pure (.inr dups)) dups
        pure (.inl (node, dups))) (node, dups)

/-- point_node.py:140-142 `reverse`. -/
def reverseNodes (self : Nat) : M Unit :=
  forNodes self fun i => modNode i fun n => { n with next := n.prev, prev := n.next }

/-- point_node.py:144-146 `place_before`. -/
def placeBefore (self other : Nat) : M Unit := do
  let o ← getNode other
  modNode self fun n => { n with next := some other, prev := o.prev }
  let p ← prevOf self
  setNext p (some self)
  setPrev other (some self)

/-- One iteration of the loop of `point_in_polygon` (point_node.py:169-199) on the segment from `op` to `next`:
`none` is `return ON`, otherwise whether the result is toggled.  `px`, `py` are the coordinates of `pt` (ints or
floats, compared exactly) and `det` computes `d` (point_node.py:182-183) in the arithmetic of the types at hand. -/
def pipStep (px py : F64) (det : Point → Point → F64) (op next : Point) : Option Bool :=
  let ox := F64.ofInt op.x
  let oy := F64.ofInt op.y
  let nx := F64.ofInt next.x
  let ny := F64.ofInt next.y
  if F64.eq ny py && (F64.eq nx px || (F64.eq oy py && (F64.lt px nx == F64.lt ox px))) then none
  else if F64.lt oy py != F64.lt ny py then
    if F64.le px ox then
      if F64.lt px nx then some true
      else
        let d := det op next
        if isFloatAlmostZero d then none
        else some (F64.lt (.fin 0) d == decide (next.y > op.y))
    else if F64.lt px nx then
      let d := det op next
      if isFloatAlmostZero d then none
      else some (F64.lt (.fin 0) d == decide (next.y > op.y))
    else some false
  else some false

/-- `d` computed with Python ints (exact). -/
def detInt (pt : Point) (op next : Point) : F64 :=
  .ofInt ((op.x - pt.x) * (next.y - pt.y) - (next.x - pt.x) * (op.y - pt.y))

/-- `d` computed with a float `pt`: every operation rounds. -/
def detFloat (pt : FPoint) (op next : Point) : F64 :=
  F64.sub
    (F64.mul (F64.sub (.floatOfInt op.x) pt.x) (F64.sub (.floatOfInt next.y) pt.y))
    (F64.mul (F64.sub (.floatOfInt next.x) pt.x) (F64.sub (.floatOfInt op.y) pt.y))

/-- point_node.py:166-203 `point_in_polygon`. -/
def pointInPolygonWith (px py : F64) (det : Point → Point → F64) (start : Nat) : M PointInPolygonResult :=
  loopM (fun (c : Nat × Bool) => do
    let op ← pointOf c.1
    let nextId ← nextOf c.1
    let next ← pointOf nextId
    match pipStep px py det op next with
    | none => pure (.inr .on)
    | some t =>
      let inside := if t then !c.2 else c.2
      if nextId = start then pure (.inr (if inside then .inside else .outside))
      else pure (.inl (nextId, inside))) (start, false)

/-- `point_in_polygon` of a point (or node) with int coordinates. -/
def pointInPolygon (pt : Point) (op : Nat) : M PointInPolygonResult :=
  pointInPolygonWith (.ofInt pt.x) (.ofInt pt.y) (detInt pt) op

/-- `point_in_polygon` of a point with float coordinates. -/
def fpointInPolygon (pt : FPoint) (op : Nat) : M PointInPolygonResult :=
  pointInPolygonWith pt.x pt.y (detFloat pt) op

/-- point_node.py:238-242 `points_centroid`. -/
def pointsCentroid (node : Nat) : M FPoint := do
  let p ← pointOf (← prevOf node)
  let n ← pointOf (← nextOf node)
  let c ← pointOf node
  pure ⟨intDiv (p.x + c.x + n.x) 3, intDiv (p.y + c.y + n.y) 3⟩

/-- point_node.py:245-248 `has_collinear_edge`. -/
def hasCollinearEdge (a b : Nat) : M Bool := do
  let na ← getNode a
  let nb ← getNode b
  if ← nodesEq na.next nb.prev then pure true
  else nodesEq nb.next na.prev

/-- point_node.py:260-283 / 296-320: the search backward from `back` and forwards from `forward`; `a` and `b` are the
nodes they started from.  (The condition `first is None` of line 312 is never true.) -/
def collinearSearch (a b : Nat) : M (Nat × Nat) :=
  loopM (fun (st : Nat × Nat × Bool) => do
    let (back, forward, first) := st
    -- lines 261-264
    let back ← loopM (fun back => do
      let p ← getNode back
      if (← nodesEq p.prev (some back)) && decide (back ≠ forward) then
        let back ← deref p.prev
        if back = a then pure (.inr back) else pure (.inl back)
      else pure (.inr back)) back
    if back = forward then
      let back ← prevOf back
      let forward ← nextOf forward
      pure (.inr (back, forward))
    else
      -- lines 269-272
      let forward ← loopM (fun forward => do
        let p ← getNode forward
        if (← nodesEq p.next (some forward)) && decide (back ≠ forward) then
          let forward ← deref p.next
          if forward = b then pure (.inr forward) else pure (.inl forward)
        else pure (.inr forward)) forward
      if !first && (decide (back = a) || decide (forward = b)) then pure (.inr (back, forward))
      else if back = forward then
        let back ← prevOf back
        let forward ← nextOf forward
        pure (.inr (back, forward))
      else
        let back ← prevOf back
        let forward ← nextOf forward
        let p ← pointOf back
        let q ← pointOf forward
        if p ≠ q then pure (.inr (back, forward))
        else pure (.inl (back, forward, false))) (a, b, true)

/-- point_node.py:287-291, 322-326: `while not same_ring and n == n.step and n is not stop: n = n.step`. -/
def advanceRepeats (sameRing : Bool) (step : Node → Option Nat) (stop start : Nat) : M Nat :=
  loopM (fun n => do
    let nd ← getNode n
    if !sameRing && (← nodesEq (some n) (step nd)) && decide (n ≠ stop) then
      let n ← deref (step nd)
      pure (.inl n)
    else pure (.inr n)) start

/-- point_node.py:251-327 `find_start_and_end_of_collinear_edges`:
`(start_a, end_a, start_b, end_b)`. -/
def findStartAndEndOfCollinearEdges (a b : Nat) : M (Nat × Nat × Nat × Nat) := do
  let sameRing := decide ((← getNode a).ring = (← getNode b).ring)
  let (back, forward) ← collinearSearch a b
  let startA ← advanceRepeats sameRing Node.next a (← nextOf back)
  let endB ← advanceRepeats sameRing Node.prev b (← prevOf forward)
  let (back, forward) ← collinearSearch b a
  let startB ← advanceRepeats sameRing Node.next b (← nextOf back)
  let endA ← advanceRepeats sameRing Node.prev a (← prevOf forward)
  pure (startA, endA, startB, endB)

/-- point_node.py:351-354 etc.: unlink one node, `itr.prev.next = itr.prev = itr.ring = None`. -/
def unlinkNode (itr : Nat) : M Unit := do
  let p ← prevOf itr
  setNext p none
  setPrev itr none
  setNodeRing itr none

/-- point_node.py:370-374 etc.: `while itr is not stop: unlink itr; itr = itr.next`. -/
def unlinkUntil (start stop : Nat) : M Unit :=
  loopM (fun (itr : Option Nat) => do
    if itr = some stop then pure (.inr ())
    else
      let i ← deref itr
      unlinkNode i
      let n ← getNode i
      pure (.inl n.next)) (some start)

/-- point_node.py:382-388 etc.: `while True: unlink itr; itr = itr.next; if itr is stop or itr is None: break`. -/
def unlinkDo (start stop : Nat) : M Unit :=
  loopM (fun (itr : Nat) => do
    unlinkNode itr
    let n ← getNode itr
    match n.next with
    | none => pure (.inr ())
    | some i => if i = stop then pure (.inr ()) else pure (.inl i)) start

/-- point_node.py:330-412 `fix_collinear_path`. -/
def fixCollinearPath (start1 end1 start2 end2 : Nat) : M (Option Nat × Option Nat) := do
  if start1 = end2 ∧ start2 = end1 then
    -- lines 346-355
    loopM (fun (itr : Option Nat) => do
      match itr with
      | none => pure (.inr ())
      | some i =>
        unlinkNode i
        let n ← getNode i
        pure (.inl n.next)) (some start1)
    pure (none, none)
  else if start1 = end2 then
    let prev ← prevOf start2
    unlinkUntil start2 end1
    setNext prev (some end1)
    setPrev end1 (some prev)
    pure (some end1, none)
  else if start2 = end1 then
    let prev ← prevOf start1
    unlinkUntil start1 end2
    setNext prev (some end2)
    setPrev end2 (some prev)
    pure (some end2, none)
  else
    let prev1 := (← getNode start1).prev
    let prev2 := (← getNode start2).prev
    unlinkDo start1 end1
    unlinkDo start2 end2
    if start1 = end1 ∧ start2 = end2 then pure (none, none)
    else if start1 = end1 then
      setNext (← deref prev2) (some end2)
      setPrev end2 prev2
      pure (some end2, none)
    else if start2 = end2 then
      setNext (← deref prev1) (some end1)
      setPrev end1 prev1
      pure (some end1, none)
    else
      setNext (← deref prev1) (some end2)
      setPrev end2 prev1
      setNext (← deref prev2) (some end1)
      setPrev end1 prev2
      pure (some end1, some end2)

end Wagyu
