import Verif.Model.Ring

/-!
# Rings made from lists of points, and the properties that show the points

Not used by the algorithm; part of the interface of rings and of the ring manager.
-/

namespace Wagyu

/-- point_node.py:19-26 `PointNode(x, y)`, point_node.py:60-62 `from_point`. -/
def newPointNode (p : Point) : M Nat := do
  let i ← gets St.nn
  modify fun s => { s with
    nodes := upd s.nodes i { x := p.x, y := p.y, prev := some i, next := some i, ring := none }
    nn := s.nn + 1 }
  pure i

/-- ring.py:173-177, the loop of `node_from_ring_points`. -/
def nodeFromRingPointsLoop (ring : Nat) : Nat → List Point → M Nat
  | result, [] => pure result
  | result, point :: points => do
    let node ← newPointNode point
    setNodeRing node (some ring)
    placeBefore node result
    nodeFromRingPointsLoop ring node points

/-- ring.py:169-178 `node_from_ring_points`; `Ring.__init__` does not call it without points (`next` would raise
`StopIteration`, for which `IndexError` stands). -/
def nodeFromRingPoints (points : List Point) (ring : Nat) : M Nat :=
  match points.reverse with
  | [] => raise .index
  | p :: points => do
    let result ← newPointNode p
    setNodeRing result (some ring)
    nodeFromRingPointsLoop ring result points

/-- ring.py:21-37 `Ring(index, children, points, corrected)`; the index is the position of the ring in the heap.  The object
exists while its nodes are made. -/
def newRing (children : List (Option Nat)) (points : List Point) (corrected : Bool) : M Nat := do
  let r ← createRing
  modRing r fun g => { g with children, corrected }
  if points = [] then pure r
  else
    let n ← nodeFromRingPoints points r
    setRingNode r (some n)
    pure r

/-- `point_node_to_point` (point_node.py:153-154) of all nodes of a list. -/
def pointsOfNodes : List Nat → M (List Point)
  | [] => pure []
  | i :: l => do
    let p ← pointOf i
    let ps ← pointsOfNodes l
    pure (p :: ps)

/-- point_node.py:157-159 `maybe_point_node_to_points`; the nodes are read while `__iter__` runs, which changes nothing. -/
def maybePointNodeToPoints (node : Option Nat) : M (List Point) :=
  match node with
  | none => pure []
  | some n => do
    let l ← nodesFrom n
    pointsOfNodes l

/-- ring.py:78-80 `points`. -/
def ringPoints (r : Nat) : M (List Point) := do maybePointNodeToPoints (← getRing r).node

/-- ring.py:82-84 `bottom_points`. -/
def ringBottomPoints (r : Nat) : M (List Point) := do maybePointNodeToPoints (← getRing r).bottomNode

/-- ring_manager.py:101-103 `all_points`, for the nodes in the list. -/
def pointsOfAll : List Nat → M (List (List Point))
  | [] => pure []
  | i :: l => do
    let ps ← maybePointNodeToPoints (some i)
    let rest ← pointsOfAll l
    pure (ps :: rest)

/-- ring_manager.py:101-103 `all_points`. -/
def allPoints : M (List (List Point)) := do pointsOfAll (← gets St.allNodes)

end Wagyu
