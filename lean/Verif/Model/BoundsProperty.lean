import Verif.Model.Wagyu

/-!
# `Wagyu.bounds` (wagyu.py:31-66)

Everywhere else the model treats points as values, because no other code assigns to the coordinates of a point that may be
shared.  `Wagyu.bounds` does, so here points are cells of a heap and an edge refers to two of them.  `Edge.__init__`
(edge.py:15-18) stores the point objects it is given, and `LinearRing.edges` (linear_ring.py:50-96) gives it the point objects
of the ring, so that the cells of the stored edges are the caller's points.
-/

namespace Wagyu

/-- edge.py:13 the slots `bottom` and `top` of an edge, as references to points. -/
structure EdgeRef where
  bottom : Nat
  top : Nat
  deriving DecidableEq, Repr, Inhabited

/-- The heap of points, and the local variables `minimum`, `maximum` and `first_set` of `Wagyu.bounds`. -/
structure BoundsState where
  cells : Nat → Point
  minimum : Nat
  maximum : Nat
  firstSet : Bool

/-- `point.x = v`. -/
def setX (cells : Nat → Point) (i : Nat) (v : Int) : Nat → Point := upd cells i { cells i with x := v }

/-- `point.y = v`. -/
def setY (cells : Nat → Point) (i : Nat) (v : Int) : Nat → Point := upd cells i { cells i with y := v }

/-- wagyu.py:47-49 / 62-64: `for edge in edges: minimum.x = min(...); maximum.x = max(...)`. -/
def widenX (minimum maximum : Nat) : List EdgeRef → (Nat → Point) → (Nat → Point)
  | [], cells => cells
  | e :: rest, cells =>
    let cells := setX cells minimum (min (cells minimum).x (cells e.bottom).x)
    let cells := setX cells maximum (max (cells maximum).x (cells e.bottom).x)
    widenX minimum maximum rest cells

/-- wagyu.py:37-49 / 52-64: the edges of one bound. -/
def readBound (edges : List EdgeRef) (s : BoundsState) : BoundsState :=
  match edges.head?, edges.getLast? with
  | some e0, some el =>
    let s :=
      if s.firstSet then
        let c := s.cells
        let c := setX c s.minimum (min (c s.minimum).x (c el.top).x)
        let c := setY c s.minimum (min (c s.minimum).y (c e0.top).y)
        let c := setX c s.maximum (max (c s.maximum).x (c el.top).x)
        let c := setY c s.maximum (max (c s.maximum).y (c el.bottom).y)
        { s with cells := c }
      else { s with minimum := e0.top, maximum := el.bottom, firstSet := true }
    { s with cells := widenX s.minimum s.maximum edges s.cells }
  | _, _ => s

/-- wagyu.py:31-66 `Wagyu.bounds`; a minimum is given by the edges of its left and of its right bound, and the cells from
`fresh` on are unused.  Returns the two points of the box, which are references, and the heap. -/
def readBounds (cells : Nat → Point) (fresh : Nat) (minimums : List (List EdgeRef × List EdgeRef)) :
    Nat × Nat × (Nat → Point) :=
  let cells := upd (upd cells fresh ⟨0, 0⟩) (fresh + 1) ⟨0, 0⟩
  let s := minimums.foldl (fun s m => readBound m.2 (readBound m.1 s)) ⟨cells, fresh, fresh + 1, false⟩
  (s.minimum, s.maximum, s.cells)

end Wagyu
