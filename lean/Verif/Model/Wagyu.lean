import Verif.Model.Topology

/-!
# The public object (wagyu.py) and the construction of the result (polygon.py, ring_manager.py:411-412)

A `LinearRing` is the list of its points, a `Polygon` the list of its linear rings, a `Multipolygon` the list of its
polygons.
-/

namespace Wagyu

abbrev LinearRing := List Point
abbrev Polygon := List LinearRing
abbrev Multipolygon := List Polygon

/-- polygon.py:90-95 `point_node_to_linear_ring`; iterating over `None` is a `TypeError`. -/
def pointNodeToLinearRing (node : Option Nat) (reverseOutput : Bool) : M LinearRing := do
  let start ← deref node
  let ids ← (if reverseOutput then nodesFrom start else nodesBackFrom start)
  let body ← mapM' pointOf ids
  let close ← pointOf start
  pure (body ++ [close])

/-- polygon.py:36 `Polygon.from_ring`'s linear ring and polygon.py:39-41 `append`'s. -/
def ringToLinearRing (ring : Nat) (reverseOutput : Bool) : M LinearRing := do
  pointNodeToLinearRing (← getRing ring).node reverseOutput

/-- polygon.py:73-87 `rings_to_polygons`; `fuel` bounds the recursion depth.  The generator is consumed by `list` at
once (polygon.py:65), so it is modelled by the list it yields. -/
def ringsToPolygons (reverseOutput : Bool) : Nat → List (Option Nat) → M Multipolygon
  | 0, _ => raise .recursion
  | fuel + 1, rings => do
    let parts ← mapM' (fun (ring : Option Nat) => do
      match ring with
      | none => pure []
      | some ring =>
        let exterior ← ringToLinearRing ring reverseOutput
        let children := (← getRing ring).children
        let holes ← mapM' (fun c => ringToLinearRing c reverseOutput) (children.filterMap id)
        let rest ← mapM' (fun c => do
          ringsToPolygons reverseOutput fuel (← getRing c).children) (children.filterMap id)
        pure ((exterior :: holes) :: rest.flatten)) rings
    pure parts.flatten

/-- ring_manager.py:411-412 `build_result`. -/
def buildResult (reverseOutput : Bool) : M Multipolygon := do
  let children ← gets St.children
  let fuel ← gets St.fuel
  ringsToPolygons reverseOutput fuel children

/-- wagyu.py:15-21 `Wagyu`. -/
structure Wagyu where
  minimums : Minimums
  reverseOutput : Bool
  deriving Inhabited

/-- wagyu.py:18-21 `Wagyu(reverse_output)`. -/
def Wagyu.new (reverseOutput : Bool) : Wagyu := ⟨Minimums.empty, reverseOutput⟩

/-- wagyu.py:68-71 `add_linear_ring`. -/
def Wagyu.addLinearRing (fuel : Nat) (w : Wagyu) (ring : LinearRing) (kind : PolygonKind) :
    Wagyu × Except Err Bool :=
  let (m, r) := w.minimums.addLinearRing fuel ring kind
  ({ w with minimums := m }, r)

/-- wagyu.py:73-80 `add_polygon`. -/
def Wagyu.addPolygonFrom (fuel : Nat) (result : Bool) (w : Wagyu) (kind : PolygonKind) :
    Polygon → Wagyu × Except Err Bool
  | [] => (w, .ok result)
  | ring :: rings =>
    match w.addLinearRing fuel ring kind with
    | (w, .error e) => (w, .error e)
    | (w, .ok b) => w.addPolygonFrom fuel (if b && !result then true else result) kind rings

@[inherit_doc Wagyu.addPolygonFrom]
def Wagyu.addPolygon (fuel : Nat) (w : Wagyu) (polygon : Polygon) (kind : PolygonKind) : Wagyu × Except Err Bool :=
  w.addPolygonFrom fuel false kind polygon

/-- `LocalMinimumList.clear` is inherited from `abc.MutableSequence` (local_minimum.py:66): `try: while True: self.pop()
except IndexError: pass`, where `pop` reads `self[-1]` and then executes `del self[-1]` (local_minimum.py:74-75, :82-83).
At most `len(self) + 1` iterations are made. -/
def popLoop {α : Type} : Nat → List α → List α
  | 0, l => l
  | n + 1, l =>
    match pyGet l (-1) with
    | none => l                                  -- `IndexError`
    | some _ => popLoop n (l.eraseIdx (l.length - 1))

/-- wagyu.py:82-83 `clear`.  Simplification: bounds are referred to only by the minima and by one another, so that
those of an emptied list are garbage; the model reclaims them. -/
def Wagyu.clear (w : Wagyu) : Wagyu :=
  let values := popLoop (w.minimums.values.length + 1) w.minimums.values
  { w with minimums := if values = [] then Minimums.empty else { w.minimums with values } }

/-- ring_manager.py:66-84 a fresh `RingManager()`, on the heap of bounds of the minima. -/
def St.init (fuel : Nat) (bounds : Nat → Bound) : St :=
  { nodes := fun _ => { x := 0, y := 0, prev := none, next := none, ring := none }
    nn := 0
    rings := fun _ => Ring.fresh
    nr := 0
    bounds
    children := []
    hotPixels := []
    curHot := none
    allNodes := []
    scan := []
    abl := []
    fuel }

/-- wagyu.py:91-96 the body of `execute` on a non-empty object. -/
def runOperation (m : Minimums) (reverseOutput : Bool) (op : OperationKind) (sf cf : FillKind) : M Multipolygon := do
  buildHotPixels m.values m.scanbeams
  executeVatti op sf cf m.values m.scanbeams
  correctTopology
  buildResult reverseOutput

/-- wagyu.py:85-96 `execute`: the outcome and the object afterwards (the bounds are mutated in place, also when an
exception is raised). -/
def Wagyu.execute (fuel : Nat) (w : Wagyu) (op : OperationKind) (sf cf : FillKind) :
    Wagyu × Except Err Multipolygon :=
  if w.minimums.values = [] then (w, .ok [])
  else
    match runOperation w.minimums w.reverseOutput op sf cf (St.init fuel w.minimums.bounds) with
    | .ok a s => ({ w with minimums := { w.minimums with bounds := s.bounds } }, .ok a)
    | .err e s => ({ w with minimums := { w.minimums with bounds := s.bounds } }, .error e)

/-- wagyu.py:98-103. -/
def Wagyu.intersect (fuel : Nat) (w : Wagyu) (sf cf : FillKind := .evenOdd) := w.execute fuel .intersection sf cf

/-- wagyu.py:105-109. -/
def Wagyu.subtract (fuel : Nat) (w : Wagyu) (sf cf : FillKind := .evenOdd) := w.execute fuel .difference sf cf

/-- wagyu.py:111-116. -/
def Wagyu.symmetricSubtract (fuel : Nat) (w : Wagyu) (sf cf : FillKind := .evenOdd) := w.execute fuel .xor sf cf

/-- wagyu.py:118-123. -/
def Wagyu.unite (fuel : Nat) (w : Wagyu) (sf cf : FillKind := .evenOdd) := w.execute fuel .union sf cf

end Wagyu
