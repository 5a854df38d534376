import Verif.Model.Geom
import Verif.Model.Seq

/-!
# Linear rings and their edges (linear_ring.py)

A `LinearRing` is its list of points (linear_ring.py:13-30).
-/

namespace Wagyu

/-- `self[i]` (linear_ring.py:26-27): Python indexing, `IndexError` when out of range. -/
def ptAt (pts : List Point) (i : Int) : Except Err Point :=
  match pyGet pts i with
  | some p => .ok p
  | none => .error .index

/-- linear_ring.py:40-45: `while pt1 == pt2: reversed_index -= 1; try pt1 = self[reversed_index]`.  `none` is the
`return result` of the `except IndexError` branch.  The fuel `2 * len + 1` is more than the number of valid indices. -/
def edgesSkip (pts : List Point) (pt2 : Point) : Nat → Int → Point → Option (Int × Point)
  | 0, _, _ => none
  | fuel + 1, ri, pt1 =>
    if pt1 = pt2 then
      match pyGet pts (ri - 1) with
      | some p => edgesSkip pts pt2 fuel (ri - 1) p
      | none => none
    else some (ri, pt1)

/-- linear_ring.py:75-78: `while self[reversed_index] == pt2: reversed_index -= 1; if index == reversed_index: return`.
`.ok none` is the `return result`. -/
def edgesBack (pts : List Point) (pt2 : Point) (index : Int) : Nat → Int → Except Err (Option Int)
  | 0, _ => .error .fuel
  | fuel + 1, ri =>
    match ptAt pts ri with
    | .error e => .error e
    | .ok p =>
      if p = pt2 then
        if index = ri - 1 then .ok none else edgesBack pts pt2 index fuel (ri - 1)
      else .ok (some ri)

/-- The local variables of the main loop of `LinearRing.edges` (linear_ring.py:50-96).  `acc` is `result`, last edge first. -/
structure EdgesState where
  acc : List Edge
  index : Int
  ri : Int
  lri : Int
  pt1 : Point
  pt2 : Point
  pt3 : Point
  front : Option Point
  back : Option Point
  deriving Repr

/-- What one iteration of that loop does: go on, leave the loop (`break`), or leave the function (`return result`). -/
inductive EdgesStep where
  | next (s : EdgesState)
  | brk (s : EdgesState)
  | ret (acc : List Edge)
  deriving Repr

/-- linear_ring.py:54-61 and :90-96, `index += 1; if index == last_reversed_index: ... else pt3 = self[index]`. -/
def edgesAdvance (pts : List Point) (s : EdgesState) : Except Err EdgesStep :=
  let s := { s with index := s.index + 1 }
  if s.index = s.lri then
    if s.acc = [] then .ok (.brk s)
    else
      match s.front with
      | some p => .ok (.next { s with pt3 := p })
      | none => .error .attribute
  else
    match ptAt pts s.index with
    | .ok p => .ok (.next { s with pt3 := p })
    | .error e => .error e

/-- linear_ring.py:50-96, one iteration of `while True`. -/
def edgesStep (pts : List Point) (s : EdgesState) : Except Err EdgesStep :=
  if s.pt2 = s.pt3 then
    if s.index = s.lri then .ok (.brk s) else edgesAdvance pts s
  else if arePointsSlopesEqual s.pt1 s.pt2 s.pt3 then
    let pt2 := s.pt1
    match s.acc.tail with
    | e :: acc =>
      match s.back with
      | none => .error .attribute
      | some back =>
        let pt1 := if back.x = e.top.x ∧ back.y = e.top.y then e.bottom else e.top
        .ok (.next { s with acc := e :: acc, pt1 := pt1, pt2 := pt2, back := some pt1 })
    | [] =>
      match edgesBack pts pt2 s.index (2 * pts.length + 2) s.ri with
      | .error e => .error e
      | .ok none => .ok (.ret [])
      | .ok (some ri) =>
        match ptAt pts ri with
        | .error e => .error e
        | .ok p => .ok (.next { s with acc := [], pt1 := p, pt2 := pt2, ri := ri, lri := ri + 1 })
  else
    let front := if s.acc = [] then some s.pt2 else s.front
    let s := { s with front := front, acc := Edge.mk' s.pt2 s.pt3 :: s.acc, back := some s.pt2 }
    if s.index = s.lri then .ok (.brk s)
    else edgesAdvance pts { s with pt1 := s.pt2, pt2 := s.pt3 }

/-- linear_ring.py:50-96, the loop.  Returns `result` and whether the function goes on with the second loop. -/
def edgesLoop (pts : List Point) : Nat → EdgesState → Except Err (List Edge × Bool)
  | 0, _ => .error .fuel
  | fuel + 1, s =>
    match edgesStep pts s with
    | .error e => .error e
    | .ok (.next s') => edgesLoop pts fuel s'
    | .ok (.brk s') => .ok (s'.acc.reverse, true)
    | .ok (.ret acc) => .ok (acc.reverse, false)

/-- linear_ring.py:100-136, one iteration of `while modified`, on `result = f :: mid ++ [b]` (at least three edges);
`none` when nothing is modified. -/
def closeStep (f : Edge) (mid : List Edge) (b : Edge) : Option (List Edge) :=
  if areEdgesSlopesEqual f b then
    if f.bottom = b.top then
      if f.top = b.bottom then some mid
      else some ({ f with bottom := b.bottom } :: mid)
    else if f.top = b.bottom then some ({ f with top := b.top } :: mid)
    else if f.top = b.top ∧ f.bottom = b.bottom then some mid
    else if f.top = b.top then
      if isPointBetweenOthers f.top f.bottom b.bottom then some (mid ++ [{ b with top := f.bottom }])
      else some ({ f with top := b.bottom } :: mid)
    else if f.bottom = b.bottom then
      if isPointBetweenOthers f.bottom f.top b.top then some (mid ++ [{ b with bottom := f.top }])
      else some ({ f with bottom := b.top } :: mid)
    else none
  else none

/-- linear_ring.py:98-137, the loop `while modified`.  Every iteration that modifies removes an edge, so that
`result.length` iterations are enough (the `0` case is only reached with an empty list). -/
def closeLoop : Nat → List Edge → List Edge
  | 0, l => l
  | n + 1, l =>
    if l.length < 3 then l
    else
      match l with
      | [] => []
      | f :: rest =>
        match rest.getLast? with
        | none => l
        | some b =>
          match closeStep f rest.dropLast b with
          | none => l
          | some l' => closeLoop n l'

/-- linear_ring.py:32-137 `LinearRing.edges`. -/
def edgesOf (fuel : Nat) (pts : List Point) : Except Err (List Edge) :=
  match pts with
  | p0 :: p1 :: _ :: _ =>
    let n : Int := pts.length
    match edgesSkip pts p0 (2 * pts.length + 1) (n - 1) (pts.getLastD p0) with
    | none => .ok []
    | some (ri, pt1) =>
      match edgesLoop pts fuel
        { acc := [], index := 1, ri := ri, lri := ri + 1, pt1 := pt1, pt2 := p0, pt3 := p1,
          front := none, back := none } with
      | .error e => .error e
      | .ok (result, true) => .ok (closeLoop result.length result)
      | .ok (result, false) => .ok result
  | _ => .ok []

end Wagyu
