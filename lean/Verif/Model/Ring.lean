import Verif.Model.PointNode

/-!
# Rings (ring.py) and the forest operations of the ring manager

`parent : Option Nat` stands for a ring or `None`; the children of `None` are the manager's top level `children`.
-/

namespace Wagyu

/-- ring.py:148-151 `recalculate_stats`. -/
def recalculateStats (r : Nat) : M Unit := do
  match (← getRing r).node with
  | none => pure ()
  | some n =>
    let (area, size, box) ← nodeStats n
    modRing r fun g => { g with area, size, box, isHole := F64.le area (.fin 0) }

/-- ring.py:57-61 `area`. -/
def ringArea (r : Nat) : M F64 := do
  if (← getRing r).area.isNan then recalculateStats r
  pure (← getRing r).area

/-- ring.py:72-76 `is_hole`. -/
def ringIsHole (r : Nat) : M Bool := do
  if (← getRing r).area.isNan then recalculateStats r
  pure (← getRing r).isHole

/-- ring.py:86-90 `size`. -/
def ringSize (r : Nat) : M Nat := do
  if (← getRing r).area.isNan then recalculateStats r
  pure (← getRing r).size

/-- ring.py:63-70 `depth`. -/
def ringDepth (r : Nat) : M Nat := do
  let p := (← getRing r).parent
  loopM (fun (st : Option Nat × Nat) => do
    match st.1 with
    | none => pure (.inr st.2)
    | some c =>
      let g ← getRing c
      pure (.inl (g.parent, st.2 + 1))) (p, 0)

/-- ring.py:140-146 `is_descendant_of`. -/
def isDescendantOf (r other : Nat) : M Bool := do
  let p := (← getRing r).parent
  loopM (fun (c : Option Nat) => do
    match c with
    | none => pure (.inr false)
    | some c =>
      if c = other then pure (.inr true)
      else
        let g ← getRing c
        pure (.inl g.parent)) p

/-- ring.py:153-158 `reset_stats`. -/
def Ring.resetStats (g : Ring) : Ring :=
  { g with area := .nan, size := 0, box := ⟨⟨0, 0⟩, ⟨0, 0⟩⟩, isHole := false }

/-- ring.py:160-162 `set_stats`. -/
def setStats (r : Nat) (st : F64 × Nat × Box) : M Unit :=
  modRing r fun g => { g with area := st.1, size := st.2.1, box := st.2.2, isHole := F64.le st.1 (.fin 0) }

/-- ring.py:164-166 `update_points`. -/
def updatePoints (r : Nat) : M Unit := do
  let n ← deref (← getRing r).node
  forNodes n fun i => setNodeRing i (some r)

/-- point_node.py:226-235 `is_convex`. -/
def isConvex (node : Nat) : M Bool := do
  let r ← deref (← getNode node).ring
  let area ← ringArea r
  let p ← pointOf (← prevOf node)
  let n ← pointOf (← nextOf node)
  let c ← pointOf node
  let cross := (c.x - p.x) * (n.y - c.y) - (n.x - c.x) * (c.y - p.y)
  pure ((decide (cross < 0) && F64.lt (.fin 0) area) || (decide (cross > 0) && F64.lt area (.fin 0)))

/-- point_node.py:206-223 `inside_or_outside_special`. -/
def insideOrOutsideSpecial (first other : Nat) : M PointInPolygonResult :=
  loopM (fun cursor => do
    let found ← (do
      if ← isConvex cursor then
        let centroid ← pointsCentroid cursor
        if (← fpointInPolygon centroid first) = .inside then
          let r ← fpointInPolygon centroid other
          pure (some r)
        else pure none
      else pure none : M (Option PointInPolygonResult))
    match found with
    | some r => pure (.inr r)
    | none =>
      let cursor ← nextOf cursor
      if cursor = first then raise (.runtime "Could not find a point within the polygon to test")
      else pure (.inl cursor)) first

/-- ring.py:122-138 `inside_of`. -/
def ringInsideOf (r other : Nat) : M Bool := do
  let g ← getRing r
  let o ← getRing other
  if !g.box.insideOf o.box then pure false
  else
    let oa ← ringArea other
    let ra ← ringArea r
    if F64.lt oa.abs ra.abs then pure false
    else
      let first ← nextOf (← deref (← getRing r).node)
      let second ← nextOf (← deref (← getRing other).node)
      let res ← loopM (fun cursor => do
        let p ← pointOf cursor
        let res ← pointInPolygon p second
        if res ≠ .on then pure (.inr (some (decide (res = .inside))))
        else
          let cursor ← nextOf cursor
          if cursor = first then pure (.inr none) else pure (.inl cursor)) first
      match res with
      | some b => pure b
      | none =>
        let res ← insideOrOutsideSpecial first second
        pure (decide (res = .inside))

/-- ring.py:97-120 `get_lowermost_ring`. -/
def getLowermostRing (r other : Nat) : M Nat := do
  let fill (r : Nat) : M Nat := do
    let g ← getRing r
    match g.bottomNode with
    | some b => pure b
    | none =>
      let b ← bottomNodeOf (← deref g.node)
      modRing r fun g => { g with bottomNode := some b }
      pure b
  let b ← fill r
  let ob ← fill other
  let n ← getNode b
  let on ← getNode ob
  if n.y > on.y then pure r
  else if n.y < on.y then pure other
  else if n.x < on.x then pure r
  else if n.x > on.x then pure other
  else if n.next = some b then pure other
  else if on.next = some ob then pure r
  else if ← isBottomTo b ob then pure r
  else pure other

/-! ## Children lists -/

/-- ring.py:181-185 `remove_from_children` (returns the mutated list). -/
def removeFromChildren (ring : Nat) (children : List (Option Nat)) : List (Option Nat) :=
  match children with
  | [] => []
  | c :: cs => if c = some ring then none :: cs else c :: removeFromChildren ring cs

/-- ring.py:188-193 `set_to_children` (returns the mutated list). -/
def setToChildren (ring : Nat) (children : List (Option Nat)) : List (Option Nat) :=
  match children with
  | [] => [some ring]
  | none :: cs => some ring :: cs
  | some c :: cs => some c :: setToChildren ring cs

/-- `self.children if parent is None else parent.children`. -/
def childrenOf (parent : Option Nat) : M (List (Option Nat)) :=
  match parent with
  | none => gets St.children
  | some p => do pure (← getRing p).children

/-- Mutation of that list. -/
def modChildren (parent : Option Nat) (f : List (Option Nat) → List (Option Nat)) : M Unit :=
  match parent with
  | none => modify fun s => { s with children := f s.children }
  | some p => modRing p fun g => { g with children := f g.children }

/-- ring_manager.py:656-660 `create_ring`. -/
def createRing : M Nat := fun s =>
  .ok s.nr { s with rings := upd s.rings s.nr Ring.fresh, nr := s.nr + 1 }

/-- ring_manager.py:645-654 `create_point_node`. -/
def createPointNode (ring : Option Nat) (point : Point) (before : Option Nat) : M Nat := do
  let i ← gets St.nn
  modify fun s => { s with
    nodes := upd s.nodes i { x := point.x, y := point.y, prev := some i, next := some i, ring }
    nn := s.nn + 1 }
  match before with
  | none => pure ()
  | some b => placeBefore i b
  modify fun s => { s with allNodes := s.allNodes ++ [i] }
  pure i

/-- The orientation test shared by ring_manager.py:278-280 and :1875-1876: is `ring` (not) allowed under `parent`? -/
def sameOrientation (ring : Nat) (parent : Option Nat) : M Bool := do
  match parent with
  | none => ringIsHole ring
  | some p =>
    let h ← ringIsHole ring
    let hp ← ringIsHole p
    pure (h == hp)

/-- ring_manager.py:275-285 `assign_as_child`. -/
def assignAsChild (ring : Nat) (parent : Option Nat) : M Unit := do
  if ← sameOrientation ring parent then
    raise (.runtime "Trying to assign a child that is the same orientation as the parent")
  else
    modChildren parent (setToChildren ring)
    setRingParent ring parent

/-- ring_manager.py:287-298 `assign_as_sibling`. -/
def assignAsSibling (ring sibling : Nat) : M Unit := do
  let h ← ringIsHole ring
  let hs ← ringIsHole sibling
  if h ≠ hs then
    raise (.runtime "Trying to assign to be a sibling that is not the same orientation as the sibling")
  else
    let parent := (← getRing sibling).parent
    modChildren parent (setToChildren ring)
    setRingParent ring parent

/-- ring_manager.py:1873-1887 `reassign_as_child`. -/
def reassignAsChild (ring : Nat) (parent : Option Nat) : M Unit := do
  if ← sameOrientation ring parent then
    raise (.runtime "Trying to re-assign a child that is the same orientation as the parent")
  else
    let old := (← getRing ring).parent
    modChildren old (removeFromChildren ring)
    modChildren parent (setToChildren ring)
    setRingParent ring parent

/-- ring_manager.py:2008-2028 `replace_ring`.  `replacement_children` and `original_children` are different lists
because `original is not replacement` (line 2011). -/
def replaceRing (original : Nat) (replacement : Option Nat) : M Unit := do
  if replacement = some original then raise .assertion
  else
    let children := (← getRing original).children
    forElse children.length (fun (i : Nat) => do
      match children.getD i none with
      | none => pure (.inl (i + 1))
      | some c =>
        setRingParent c replacement
        modChildren replacement (setToChildren c)
        modRing original fun g => { g with children := g.children.set i none }
        pure (.inl (i + 1))) (fun _ => pure ()) (0 : Nat)
    let parent := (← getRing original).parent
    modChildren parent (removeFromChildren original)
    modRing original fun g => { g with node := none }.resetStats

/-- ring_manager.py:1964-1981 `remove_ring` (recursive on children; `fuel` bounds the recursion depth). -/
def removeRing : Nat → Nat → Bool → Bool → M Unit
  | 0, _, _, _ => raise .recursion
  | fuel + 1, ring, removeChildren, fromParent => do
    let children := (← getRing ring).children
    forElse children.length (fun (i : Nat) => do
      match (← getRing ring).children.getD i none with
      | none => pure (.inl (i + 1))
      | some c =>
        if removeChildren then removeRing fuel c true false
        modRing ring fun g => { g with children := g.children.set i none }
        pure (.inl (i + 1))) (fun _ => pure ()) (0 : Nat)
    if fromParent then
      let parent := (← getRing ring).parent
      modChildren parent (removeFromChildren ring)
    modRing ring fun g => { g with node := none }.resetStats

/-- ring_manager.py:1999-2004: detach all the nodes of a ring. -/
def detachNodes (ring : Nat) : M Unit := do
  match (← getRing ring).node with
  | none => pure ()
  | some n =>
    let p ← prevOf n
    setNext p none
    loopM (fun (c : Option Nat) => do
      match c with
      | none => pure (.inr ())
      | some i =>
        let nd ← getNode i
        modNode i fun n => { n with prev := none, next := none, ring := none }
        pure (.inl nd.next)) (some n)

/-- ring_manager.py:1983-2006 `remove_ring_and_points` (recursive on children; `fuel` bounds the recursion depth). -/
def removeRingAndPoints : Nat → Nat → Bool → Bool → M Unit
  | 0, _, _, _ => raise .recursion
  | fuel + 1, ring, removeChildren, fromParent => do
    let children := (← getRing ring).children
    forElse children.length (fun (i : Nat) => do
      match (← getRing ring).children.getD i none with
      | none => pure (.inl (i + 1))
      | some c =>
        if removeChildren then removeRingAndPoints fuel c true false
        modRing ring fun g => { g with children := g.children.set i none }
        pure (.inl (i + 1))) (fun _ => pure ()) (0 : Nat)
    if fromParent then
      let parent := (← getRing ring).parent
      modChildren parent (removeFromChildren ring)
    detachNodes ring
    modRing ring fun g => { g with node := none }.resetStats

end Wagyu
