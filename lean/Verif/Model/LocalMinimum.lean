import Verif.Model.Bound

/-!
# Local minima (local_minimum.py)
-/

namespace Wagyu

/-- local_minimum.py:18-29 `LocalMinimum`; the bounds are heap references. -/
structure LocalMinimum where
  left : Nat
  right : Nat
  y : Int
  hasHorizontal : Bool
  deriving DecidableEq, Repr, Inhabited

/-- local_minimum.py:41-45 `LocalMinimum.__lt__` (tuples are compared lexicographically, `False < True`). -/
def LocalMinimum.lt (a b : LocalMinimum) : Bool :=
  decide (a.y < b.y) || (decide (a.y = b.y) && (!a.hasHorizontal && b.hasHorizontal))

/-- local_minimum.py:66-70 `LocalMinimumList` together with the heap of the bounds its values refer to:
the bounds created so far are `0, ..., nb - 1`. -/
structure Minimums where
  bounds : Nat → Bound
  nb : Nat
  values : List LocalMinimum
  deriving Inhabited

/-- An empty `LocalMinimumList()`. -/
def Minimums.empty : Minimums := { bounds := fun _ => Bound.ofEdges [], nb := 0, values := [] }

/-- Assignment to the attributes of one heap object. -/
def upd {α : Type} (f : Nat → α) (i : Nat) (v : α) : Nat → α := fun j => if j = i then v else f j

/-- local_minimum.py:91-93 `scanbeams`. -/
def Minimums.scanbeams (m : Minimums) : List Int :=
  pySorted (fun a b => decide (a < b)) (m.values.map LocalMinimum.y)

/-- local_minimum.py:184-200, the loop of `to_local_maximum_index`; `i` is the index of the head of the list. -/
def localMaximumIndexFrom (prev : Edge) (yDecreasing : Bool) : Nat → List Edge → Nat
  | i, [] => i
  | i, edge :: rest =>
    let eh := edge.isHorizontal
    let ph := prev.isHorizontal
    if !ph && !eh && decide (edge.top = prev.top) then i
    else if !eh && ph then
      if yDecreasing && (decide (edge.top = prev.bottom) || decide (edge.top = prev.top)) then i
      else localMaximumIndexFrom edge yDecreasing (i + 1) rest
    else
      let yDecreasing' :=
        yDecreasing || (!ph && eh && (decide (prev.top = edge.top) || decide (prev.top = edge.bottom)))
      localMaximumIndexFrom edge yDecreasing' (i + 1) rest

/-- local_minimum.py:180-201 `to_local_maximum_index` (of a non-empty list). -/
def toLocalMaximumIndex (edges : List Edge) : Nat :=
  match edges.getLast? with
  | none => 0
  | some prev => localMaximumIndexFrom prev false 0 edges

/-- local_minimum.py:174-177. -/
def toEdgesStartingOnLocalMaximum (edges : List Edge) : List Edge :=
  if edges.length > 2 then rotateSequence edges (toLocalMaximumIndex edges : Int) else edges

/-- local_minimum.py:204-207; `none` is `StopIteration`. -/
def toFirstNonHorizontalIndex (edges : List Edge) : Option Nat :=
  edges.findIdx? (fun e => !e.isHorizontal)

/-- local_minimum.py:103-165, the loop of `add_linear_ring`.  `first` and `last` are `first_minimum` and
`last_maximum`.  The state reached when an exception is raised is returned along with it. -/
def addLoop (kind : PolygonKind) : Nat → List Edge → Option Nat → Option Nat → Minimums →
    Minimums × Except Err (Option Nat × Option Nat)
  | 0, [], first, last, m => (m, .ok (first, last))
  | 0, _ :: _, _, _, m => (m, .error .fuel)
  | fuel + 1, edges, first, last, m =>
    match edges with
    | [] => (m, .ok (first, last))
    | _ :: _ =>
      match createBoundTowardsMinimum edges with
      | none => (m, .error .stopIteration)
      | some (minEdges, edges1) =>
        match createBoundTowardsMaximum edges1 with
        | none => (m, .error (.runtime "Edges is empty after only creating a single bound."))
        | some (maxEdges, edges2) =>
          let minEdges := fixHorizontals minEdges
          let maxEdges := fixHorizontals maxEdges
          match toFirstNonHorizontalIndex maxEdges, toFirstNonHorizontalIndex minEdges with
          | some maxI, some minI =>
            let hasHorizontal := decide (maxI > 0) || decide (minI > 0)
            let maxE := maxEdges.getD maxI default
            let minE := minEdges.getD minI default
            let minimumIsLeft :=
              if hasHorizontal then decide (maxE.bottom.x > minE.bottom.x)
              else F64.le maxE.slope minE.slope
            let (minEdges, maxEdges) :=
              if hasHorizontal then
                if minimumIsLeft then moveHorizontals minEdges maxEdges
                else ((moveHorizontals maxEdges minEdges).2, (moveHorizontals maxEdges minEdges).1)
              else (minEdges, maxEdges)
            match minEdges with
            | [] => (m, .error .index)
            | minFront :: _ =>
              let toMin : Bound :=
                { Bound.ofEdges minEdges with
                  maximumBound := last
                  polygonKind := kind
                  side := if minimumIsLeft then .left else .right
                  windingDelta := -1 }
              let toMax : Bound :=
                { Bound.ofEdges maxEdges with
                  polygonKind := kind
                  side := if minimumIsLeft then .right else .left
                  windingDelta := 1 }
              let idMin := m.nb
              let idMax := m.nb + 1
              let bounds := upd (upd m.bounds idMin toMin) idMax toMax
              let minimum : LocalMinimum :=
                if minimumIsLeft then ⟨idMin, idMax, minFront.bottom.y, hasHorizontal⟩
                else ⟨idMax, idMin, minFront.bottom.y, hasHorizontal⟩
              let bounds :=
                match last with
                | none => bounds
                | some l => upd bounds l { bounds l with maximumBound := some idMin }
              let first := match last with | none => some idMin | some _ => first
              addLoop kind fuel edges2 first (some idMax)
                { bounds, nb := m.nb + 2, values := m.values ++ [minimum] }
          | _, _ => (m, .error (.runtime "should not have a horizontal only bound for a ring"))

/-- local_minimum.py:95-168 `add_linear_ring`. -/
def Minimums.addLinearRing (fuel : Nat) (m : Minimums) (ring : List Point) (kind : PolygonKind) :
    Minimums × Except Err Bool :=
  match edgesOf fuel ring with
  | .error e => (m, .error e)
  | .ok [] => (m, .ok false)
  | .ok (e :: es) =>
    let edges := toEdgesStartingOnLocalMaximum (e :: es)
    match addLoop kind edges.length edges none none m with
    | (m, .error e) => (m, .error e)
    | (m, .ok (some first, some last)) =>
      let bounds := upd m.bounds last { m.bounds last with maximumBound := some first }
      let bounds := upd bounds first { bounds first with maximumBound := some last }
      ({ m with bounds }, .ok true)
    | (m, .ok _) => (m, .error .attribute)

/-- local_minimum.py:170-171 `insert`: the method's body is a call of itself with the same arguments.  `depth` is the
number of stack frames the interpreter allows. -/
def Minimums.insert (m : Minimums) (index : Int) (value : LocalMinimum) : Nat → Except Err Minimums
  | 0 => .error .recursion
  | depth + 1 => m.insert index value depth

/-- `abc.MutableSequence.append`: `self.insert(len(self), value)`. -/
def Minimums.append (m : Minimums) (value : LocalMinimum) (depth : Nat) : Except Err Minimums :=
  m.insert m.values.length value depth

/-- `abc.MutableSequence.extend`: `for v in values: self.append(v)`. -/
def Minimums.extend (m : Minimums) (depth : Nat) : List LocalMinimum → Except Err Minimums
  | [] => .ok m
  | v :: vs =>
    match m.append v depth with
    | .ok m' => m'.extend depth vs
    | .error e => .error e

end Wagyu
