import Verif.Model.Sweep

/-!
# Correcting the topology of the output rings (ring_manager.py)
-/

namespace Wagyu

/-- `ring_have_points_and_non_zero_area` (ring_manager.py:58-59). -/
def ringHasArea (r : Nat) : M Bool := do
  if (← getRing r).node.isSome then
    let a ← ringArea r
    pure (!isFloatAlmostZero a)
  else pure false

/-- `list(filter(...))` with an effectful predicate. -/
def filterM' {α : Type} (p : α → M Bool) : List α → M (List α)
  | [] => pure []
  | a :: l => do
    let b ← p a
    let rest ← filterM' p l
    pure (if b then a :: rest else rest)

/-- `list(map(...))` with an effectful function. -/
def mapM' {α β : Type} (f : α → M β) : List α → M (List β)
  | [] => pure []
  | a :: l => do
    let b ← f a
    let rest ← mapM' f l
    pure (b :: rest)

/-- `remove_ring(ring, False)` with the recursion bound of the state. -/
def removeRingKeepChildren (r : Nat) : M Unit := do
  let fuel ← gets St.fuel
  removeRing fuel r false true

/-- `remove_ring_and_points(ring, False)`. -/
def removeRingAndPointsKeepChildren (r : Nat) : M Unit := do
  let fuel ← gets St.fuel
  removeRingAndPoints fuel r false true

/-- `for child in children: body` over a children list that the body may change in place (by index, re-reading the
list as Python's list iterator does). -/
def forChildren (parent : Option Nat) (body : Nat → M Unit) : M Unit :=
  loopM (fun (i : Nat) => do
    let children ← childrenOf parent
    match children[i]? with
    | none => pure (.inr ())
    | some none => pure (.inl (i + 1))
    | some (some c) =>
      body c
      pure (.inl (i + 1))) (0 : Nat)

/-- ring_manager.py:1889-1902 `reassign_children_if_necessary`. -/
def reassignChildrenIfNecessary (newRing : Nat) (sibling : Option Nat) (newRings : List Nat) : M Unit :=
  forChildren sibling fun child => do
    if newRings.contains child then pure ()
    else if ← ringInsideOf child newRing then reassignAsChild child (some newRing)

/-- `any` over the non-`None` children of a ring, left to right, stopping at the first success. -/
def anyChild (p : Nat → M Bool) : List (Option Nat) → M Bool
  | [] => pure false
  | none :: rest => anyChild p rest
  | some c :: rest => do
    if ← p c then pure true else anyChild p rest

/-- ring_manager.py:811-827 `find_parent_in_tree` (`fuel` bounds the recursion depth; nothing is changed before
`True` is returned, so that iterating over a copy of the children is the same). -/
def findParentInTree : Nat → Nat → Nat → M Bool
  | 0, _, _ => raise .recursion
  | fuel + 1, ring, possible => do
    let children := (← getRing possible).children
    let found ← anyChild (fun child => do
      let grand := (← getRing child).children
      anyChild (fun g => findParentInTree fuel ring g) grand) children
    if found then pure true
    else if ← ringInsideOf ring possible then
      reassignAsChild ring (some possible)
      pure true
    else pure false

/-- Stable descending sort of rings by `abs(ring.area)` (ring_manager.py:335-337). -/
def sortByArea (rings : List Nat) : M (List Nat) := do
  let keyed ← mapM' (fun r => do
    let a ← ringArea r
    pure (r, a.abs)) rings
  pure ((pySortedRev (fun (a b : Nat × F64) => F64.lt a.2 b.2) keyed).map Prod.fst)

/-- ring_manager.py:343-366: look for a parent among the new rings already assigned as siblings of the original. -/
def findAmongPrevious (ring original : Nat) (sameOrientation : Bool) (newRings : List Nat) :
    List Nat → M Bool
  | [] => pure false
  | prev :: rest => do
    let fuel ← gets St.fuel
    let pr ← getRing prev
    let og ← getRing original
    if pr.parent ≠ og.parent then findAmongPrevious ring original sameOrientation newRings rest
    else
      let found ← (do
        if sameOrientation then
          if ← anyChild (fun c => findParentInTree fuel ring c) pr.children then
            reassignChildrenIfNecessary ring (some original) newRings
            pure true
          else pure false
        else
          if ← findParentInTree fuel ring prev then
            let og ← getRing original
            reassignChildrenIfNecessary ring og.parent newRings
            pure true
          else pure false : M Bool)
      if found then pure true else findAmongPrevious ring original sameOrientation newRings rest

/-- ring_manager.py:338-387, the loop over the new rings; `done` holds those before the current one. -/
def assignNewRingParentsLoop (original : Nat) (originalPositive : Bool) (newRings : List Nat) :
    List Nat → List Nat → M Unit
  | _, [] => pure ()
  | done, ring :: rest => do
    let fuel ← gets St.fuel
    let area ← ringArea ring
    let newPositive := F64.lt (.fin 0) area
    let sameOrientation := newPositive == originalPositive
    if ← findAmongPrevious ring original sameOrientation newRings done then pure ()
    else if sameOrientation then
      let og ← getRing original
      if ← anyChild (fun c => findParentInTree fuel ring c) og.children then
        reassignChildrenIfNecessary ring (some original) newRings
      else
        let og ← getRing original
        assignAsChild ring og.parent
        reassignChildrenIfNecessary ring (some original) newRings
    else if ← findParentInTree fuel ring original then
      let og ← getRing original
      reassignChildrenIfNecessary ring og.parent newRings
    else raise (.runtime "Unable to find a proper parent ring")
    assignNewRingParentsLoop original originalPositive newRings (done ++ [ring]) rest

/-- ring_manager.py:300-388 `assign_new_ring_parents` (the returned list is not used, ring_manager.py:550). -/
def assignNewRingParents (original : Nat) (newRings : List Nat) : M Unit := do
  let newRings ← filterM' ringHasArea newRings
  match newRings with
  | [] => pure ()
  | [newRing] =>
    let originalPositive := F64.lt (.fin 0) (← ringArea original)
    let newPositive := F64.lt (.fin 0) (← ringArea newRing)
    if originalPositive = newPositive then
      let og ← getRing original
      assignAsChild newRing og.parent
      reassignChildrenIfNecessary newRing (some original) newRings
    else
      assignAsChild newRing (some original)
      let og ← getRing original
      reassignChildrenIfNecessary newRing og.parent newRings
  | _ =>
    let originalPositive := F64.lt (.fin 0) (← ringArea original)
    let newRings ← sortByArea newRings
    assignNewRingParentsLoop original originalPositive newRings [] newRings

/-- ring_manager.py:554-581 `correct_self_intersection`. -/
def correctSelfIntersection (first second : Nat) : M (Option Nat) := do
  let fr := (← getNode first).ring
  let sr := (← getNode second).ring
  if fr ≠ sr then pure none
  else
    let third ← prevOf first
    let fourth ← prevOf second
    setPrev first (some fourth)
    setNext fourth (some first)
    setPrev second (some third)
    setNext third (some second)
    let result ← createRing
    let fs ← nodeStats first
    let ss ← nodeStats second
    let ring ← deref fr
    if F64.lt ss.1.abs fs.1.abs then
      setRingNode ring (some first)
      setStats ring fs
      setRingNode result (some second)
      setStats result ss
    else
      setRingNode ring (some second)
      setStats ring ss
      setRingNode result (some first)
      setStats result fs
    updatePoints result
    pure (some result)

/-- The scan over runs of equal consecutive elements shared by ring_manager.py:443-463, 468-490, 739-759; `process`
gets the bounds of a run of at least two. Nodes are compared by coordinates, which no topology correction changes. -/
def forRuns (nodes : List Nat) (process : Nat → Nat → M Unit) : M Unit :=
  loopM (fun (st : Nat × Nat × Nat) => do
    let (count, prev, index) := st
    match nodes[index]? with
    | none => pure (.inr ())
    | some b =>
      let p ← pointOf (nodes.getD prev 0)
      let q ← pointOf b
      if p = q then
        let count := count + 1
        let prev := prev + 1
        let index := index + 1
        if index < nodes.length then pure (.inl (count, prev, index))
        else
          let prev := prev + 1
          process (prev - (count + 1)) prev
          pure (.inl (0, prev, index))
      else
        let prev := prev + 1
        let index := index + 1
        if count = 0 then pure (.inl (0, prev, index))
        else
          process (prev - (count + 1)) prev
          pure (.inl (0, prev, index))) (0, 0, 1)

/-- `for index in range(start, stop): node = nodes[index]; if node.ring is None: continue; for next_index in
range(index + 1, stop): ...; if next_node.ring is None: continue; body(node, next_node)`
(ring_manager.py:419-428, 530-540).  `acc` is threaded through. -/
def forPairs {σ : Type} (body : Nat → Nat → σ → M σ) : List Nat → σ → M σ
  | [], acc => pure acc
  | node :: rest, acc => do
    let acc ← (do
      if (← getNode node).ring = none then pure acc else inner node rest acc : M σ)
    forPairs body rest acc
where
  inner (node : Nat) : List Nat → σ → M σ
    | [], acc => pure acc
    | next :: rest, acc => do
      let acc ← (do
        if (← getNode next).ring = none then pure acc else body node next acc : M σ)
      inner node rest acc

/-- ring_manager.py:525-540 `correct_repeated_points`; returns `new_rings` with the rings appended. -/
def correctRepeatedPoints (newRings : List Nat) (nodes : List Nat) (start stop : Nat) : M (List Nat) :=
  forPairs (fun node next acc => do
    match ← correctSelfIntersection node next with
    | none => pure acc
    | some r => pure (acc ++ [r])) ((nodes.take stop).drop start) newRings

/-- point_node.py:162-163 `node_key` and ring.py:92-95 `sorted_nodes`. -/
def sortedNodes (r : Nat) : M (List Nat) := do
  let n ← deref (← getRing r).node
  let nodes ← nodesFrom n
  let keyed ← mapM' (fun i => do
    let p ← pointOf i
    pure (i, p)) nodes
  pure ((pySorted (fun (a b : Nat × Point) =>
    decide (-a.2.y < -b.2.y) || (decide (-a.2.y = -b.2.y) && decide (a.2.x < b.2.x))) keyed).map Prod.fst)

/-- ring_manager.py:736-759 `find_and_correct_repeated_points`; the accumulated `new_rings` are returned.
The list of runs does not depend on the corrections because they do not change coordinates. -/
def findAndCorrectRepeatedPoints (ring : Nat) : M (List Nat) := do
  let nodes ← sortedNodes ring
  loopM (fun (st : Nat × Nat × Nat × List Nat) => do
    let (count, prev, index, acc) := st
    match nodes[index]? with
    | none => pure (.inr acc)
    | some b =>
      let p ← pointOf (nodes.getD prev 0)
      let q ← pointOf b
      if p = q then
        let count := count + 1
        let prev := prev + 1
        let index := index + 1
        if index < nodes.length then pure (.inl (count, prev, index, acc))
        else
          let prev := prev + 1
          let acc ← correctRepeatedPoints acc nodes (prev - (count + 1)) prev
          pure (.inl (0, prev, index, acc))
      else
        let prev := prev + 1
        let index := index + 1
        if count = 0 then pure (.inl (0, prev, index, acc))
        else
          let acc ← correctRepeatedPoints acc nodes (prev - (count + 1)) prev
          pure (.inl (0, prev, index, acc))) (0, 0, 1, [])

/-- ring_manager.py:542-552 `correct_ring_self_intersections`. -/
def correctRingSelfIntersections (ring : Nat) (correctTree : Bool) : M Bool := do
  let g ← getRing ring
  if g.corrected || g.node.isNone then pure false
  else
    let newRings ← findAndCorrectRepeatedPoints ring
    if correctTree then assignNewRingParents ring newRings
    modRing ring fun g => { g with corrected := true }
    pure true

/-- ring.py:50-55 `Ring.__lt__`, on (has a node, absolute area). -/
def ringLt (a b : Nat × Bool × F64) : Bool :=
  if !a.2.1 || !b.2.1 then a.2.1 else F64.lt a.2.2 b.2.2

/-- The rings with their sort keys. Simplification: every ring with a node has its area computed, whereas Python
computes it on the first comparison with another such ring. -/
def ringKeys : M (List (Nat × Bool × F64)) := do
  let nr ← gets St.nr
  mapM' (fun r => do
    if (← getRing r).node.isSome then
      let a ← ringArea r
      pure (r, true, a.abs)
    else pure (r, false, .nan)) (List.range nr)

/-- ring_manager.py:126-128 `sorted_rings`. -/
def sortedRings : M (List Nat) := do
  let keys ← ringKeys
  pure ((pySorted ringLt keys).map Prod.fst)

/-- ring_manager.py:130-133 `reversed_sorted_rings`. -/
def reversedSortedRings : M (List Nat) := do
  let keys ← ringKeys
  pure ((pySortedRev ringLt keys).map Prod.fst)

/-- ring_manager.py:583-588 `correct_self_intersections`. -/
def correctSelfIntersections (correctTree : Bool) : M Bool := do
  let rings ← sortedRings
  let rec go : List Nat → Bool → M Bool
    | [], acc => pure acc
    | r :: rest, acc => do
      let b ← correctRingSelfIntersections r correctTree
      go rest (acc || b)
  go rings false

/-- ring_manager.py:513-523 `correct_orientations`. -/
def correctOrientations : M Unit := do
  let nr ← gets St.nr
  forList (List.range nr) fun r => do
    match (← getRing r).node with
    | none => pure ()
    | some _ =>
      recalculateStats r
      if (← ringSize r) < 3 then removeRingAndPointsKeepChildren r
      else
        let d ← ringDepth r
        let h ← ringIsHole r
        if isOdd d ≠ h then
          let n ← deref (← getRing r).node
          reverseNodes n
          recalculateStats r

/-- ring_manager.py:1909-1914 / 1922-1929 etc.: drop `outsider` from the ring of `node`. `forward` tells whether it
is `node.next` or `node.prev`. -/
def dropNeighbour (node outsider : Nat) (forward : Bool) : M Unit := do
  let o ← getNode outsider
  if forward then
    setNext node o.next
    setPrev (← deref o.next) (some node)
  else
    setPrev node o.prev
    setNext (← deref o.prev) (some node)
  modNode outsider fun n => { n with prev := none, next := none, ring := none }
  let r ← deref (← getNode node).ring
  if (← getRing r).node = some outsider then setRingNode r (some node)

/-- ring_manager.py:1922-1937 / 1943-1958: drop the neighbours of `node` at the same location. -/
def dropSame (node : Nat) (forward : Bool) : M Unit :=
  loopM (fun (_ : Unit) => do
    let nd ← getNode node
    let o := if forward then nd.next else nd.prev
    if (← nodesEq o (some node)) && decide (o ≠ some node) then
      let outsider ← deref o
      dropNeighbour node outsider forward
      pure (.inl ())
    else pure (.inr ())) ()

/-- ring_manager.py:1904-1962 `remove_duplicate_points`. -/
def removeDuplicatePoints (first second : Nat) : M Bool := do
  let f ← getNode first
  let s ← getNode second
  if f.ring = s.ring ∧ f.next = some second then
    dropNeighbour first second true
    pure true
  else if f.ring = s.ring ∧ s.next = some first then
    dropNeighbour first second false
    pure true
  else
    dropSame first true
    dropSame first false
    let f ← getNode first
    if f.next = some first then
      removeRingAndPointsKeepChildren (← deref f.ring)
      pure true
    else if (← getNode second).ring = none then pure true
    else
      dropSame second true
      dropSame second false
      let s ← getNode second
      if s.next = some second then
        removeRingAndPointsKeepChildren (← deref s.ring)
        pure true
      else pure (decide ((← getNode first).ring = none))

/-- ring_manager.py:1273-1296 `process_collinear_edges_different_rings`. -/
def processCollinearEdgesDifferentRings (first second : Nat) : M Unit := do
  let fr ← deref (← getNode first).ring
  let sr ← deref (← getNode second).ring
  let fa ← ringArea fr
  let sa ← ringArea sr
  let firstLarger := F64.lt sa.abs fa.abs
  let (s1, e1, s2, e2) ← findStartAndEndOfCollinearEdges first second
  let (pt1, _) ← fixCollinearPath s1 e1 s2 e2
  match pt1 with
  | none =>
    removeRingKeepChildren fr
    removeRingKeepChildren sr
  | some pt1 =>
    let unionRing := if firstLarger then fr else sr
    let outsider := if firstLarger then sr else fr
    setRingNode unionRing (some pt1)
    updatePoints unionRing
    recalculateStats unionRing
    if (← ringSize unionRing) < 3 then removeRingAndPointsKeepChildren unionRing
    removeRingKeepChildren outsider

/-- ring_manager.py:1298-1324 `process_collinear_edges_same_ring`. -/
def processCollinearEdgesSameRing (first second : Nat) : M Unit := do
  let original ← deref (← getNode first).ring
  let (s1, e1, s2, e2) ← findStartAndEndOfCollinearEdges first second
  let (pt1, pt2) ← fixCollinearPath s1 e1 s2 e2
  match pt1, pt2 with
  | none, _ => removeRingKeepChildren original
  | some pt1, none =>
    setRingNode original (some pt1)
    recalculateStats original
  | some pt1, some pt2 =>
    let new ← createRing
    setRingNode new (some pt2)
    recalculateStats new
    updatePoints new
    setRingNode original (some pt1)
    recalculateStats original

/-- ring_manager.py:1253-1271 `process_collinear_edges`. -/
def processCollinearEdges (first second : Nat) : M Bool := do
  let fr := (← getNode first).ring
  let sr := (← getNode second).ring
  if fr = none ∨ sr = none then pure false
  else if ← removeDuplicatePoints first second then pure true
  else
    let collinear ← hasCollinearEdge first second
    let fr := (← getNode first).ring
    let sr := (← getNode second).ring
    if !collinear then
      if fr = sr then
        let _ ← correctSelfIntersection first second
        pure true
      else pure false
    else if fr = sr then
      processCollinearEdgesSameRing first second
      pure true
    else
      processCollinearEdgesDifferentRings first second
      pure true

/-- ring_manager.py:492-511 `correct_collinear_repeats`. -/
def correctCollinearRepeats (nodes : List Nat) (start stop : Nat) : M Unit :=
  forList ((nodes.take stop).drop start) fun node => do
    if (← getNode node).ring = none then pure ()
    else
      loopM (fun (other : Nat) => do
        if other < stop then
          if (← getNode node).ring = none then pure (.inr ())
          else
            let o := nodes.getD other 0
            if (← getNode o).ring = none ∨ node = o then pure (.inl (other + 1))
            else if ← processCollinearEdges node o then pure (.inl start)
            else pure (.inl (other + 1))
        else pure (.inr ())) start

/-- ring_manager.py:465-490 `correct_collinear_edges`. -/
def correctCollinearEdges : M Unit := do
  let nodes ← gets St.allNodes
  if nodes.length < 2 then pure ()
  else forRuns nodes fun start stop => correctCollinearRepeats nodes start stop

/-- ring_manager.py:628-636: the nearest preceding ring (largest index first) that contains `ring` and has the
opposite orientation. -/
def findContaining (ring : Nat) : List Nat → M (Option Nat)
  | [] => pure none
  | r :: rest => do
    let h ← ringIsHole ring
    let hr ← ringIsHole r
    if h = hr then findContaining ring rest
    else if ← ringInsideOf ring r then pure (some r)
    else findContaining ring rest

/-- ring_manager.py:608-643 `correct_tree`; `before` holds the rings already visited, last first. -/
def correctTreeLoop : List Nat → List Nat → M Unit
  | _, [] => pure ()
  | before, ring :: rest => do
    if (← getRing ring).node.isSome then
      let size ← ringSize ring
      let degenerate ← (do
        if size < 3 then pure true else pure (isFloatAlmostZero (← ringArea ring)) : M Bool)
      if degenerate then removeRingAndPointsKeepChildren ring
      else
        modRing ring fun g => { g with corrected := true }
        match ← findContaining ring before with
        | some r => reassignAsChild ring (some r)
        | none =>
          if ← ringIsHole ring then raise (.runtime "Could not properly place hole to a parent")
          else reassignAsChild ring none
    correctTreeLoop (ring :: before) rest

/-- ring_manager.py:608-643 `correct_tree`. -/
def correctTree : M Unit := do
  let rings ← reversedSortedRings
  correctTreeLoop [] rings

/-! ## Chained rings -/

/-- ring_manager.py:55 `ConnectionMap`, keyed by ring (`id(ring)`); missing keys are empty lists (`defaultdict`). -/
abbrev ConnectionMap := Nat → List (Nat × Nat)

/-- An element of `iList`: a ring and a pair of nodes. -/
abbrev LoopItem := Nat × Nat × Nat

/-- `a == b` for two nodes (coordinates). -/
def samePoint (a b : Nat) : M Bool := do
  let p ← pointOf a
  let q ← pointOf b
  pure (decide (p = q))

/-- ring_manager.py:774-787: the search for a direct connection; returns the pairs kept, or the connecting pair. -/
def directConnection (ringParent : Option Nat) (ringOrigin ringSearch origPt prevPt : Nat) :
    List (Nat × Nat) → List (Nat × Nat) → M ((Nat × Nat) ⊕ List (Nat × Nat))
  | [], kept => pure (.inr kept)
  | (op1, op2) :: rest, kept => do
    let r1 := (← getNode op1).ring
    let r2 := (← getNode op2).ring
    match r1, r2 with
    | some r1, some r2 =>
      let drop ← (do
        if r1 ≠ ringSearch then pure true
        else if ← ringIsHole r1 then pure false
        else if ← ringIsHole r2 then pure false else pure true : M Bool)
      if drop then directConnection ringParent ringOrigin ringSearch origPt prevPt rest kept
      else
        let parentOk ← (do
          if ringParent.isSome then pure true
          else pure (decide (ringParent = (← getRing r2).parent)) : M Bool)
        if r2 = ringOrigin && parentOk && !(← samePoint prevPt op2) && !(← samePoint origPt op2) then
          pure (.inl (op1, op2))
        else directConnection ringParent ringOrigin ringSearch origPt prevPt rest (kept ++ [(op1, op2)])
    | _, _ => directConnection ringParent ringOrigin ringSearch origPt prevPt rest kept

/-- ring_manager.py:741-745 / 797-802: may the chain go on through the ring of `op2`? -/
def chainRing (ringParent : Option Nat) (op2 : Nat) : M (Option Nat) := do
  match (← getNode op2).ring with
  | none => pure none
  | some r =>
    let parentOk ← (do
      if ringParent = some r then pure true
      else pure (decide (ringParent = (← getRing r).parent)) : M Bool)
    if parentOk then
      let a ← ringArea r
      if isFloatAlmostZero a then pure none else pure (some r)
    else pure none

/-- ring_manager.py:795-809: the search through the rings that touch `ringSearch`; `go` is the recursive call (line 804). -/
def chainFrom (go : ConnectionMap → List LoopItem → Nat → List Nat → Nat → M (Bool × ConnectionMap × List LoopItem × List Nat))
    (ringParent : Option Nat) (ringSearch prevPt : Nat) :
    List (Nat × Nat) → ConnectionMap → List LoopItem → List Nat → M (Bool × ConnectionMap × List LoopItem × List Nat)
  | [], cm, iList, visited => pure (false, cm, iList, visited)
  | (op1, op2) :: rest, cm, iList, visited => do
    let ring := (← getNode op2).ring
    match ring with
    | none => chainFrom go ringParent ringSearch prevPt rest cm iList visited
    | some r0 =>
      if visited.contains r0 then chainFrom go ringParent ringSearch prevPt rest cm iList visited
      else
        match ← chainRing ringParent op2 with
        | none => chainFrom go ringParent ringSearch prevPt rest cm iList visited
        | some r =>
          if ← samePoint prevPt op2 then chainFrom go ringParent ringSearch prevPt rest cm iList visited
          else
            let (found, cm, iList, visited) ← go cm iList r visited op2
            if found then pure (true, cm, (ringSearch, op1, op2) :: iList, visited)
            else chainFrom go ringParent ringSearch prevPt rest cm iList visited

/-- ring_manager.py:761-809 `find_intersect_loop`; returns the result with the connection map, `iList` and `visited`
(`fuel` bounds the recursion depth). -/
def findIntersectLoop : Nat → ConnectionMap → List LoopItem → Option Nat → Nat → Nat → List Nat → Nat → Nat →
    M (Bool × ConnectionMap × List LoopItem × List Nat)
  | 0, _, _, _, _, _, _, _, _ => raise .recursion
  | fuel + 1, cm, iList, ringParent, ringOrigin, ringSearch, visited, origPt, prevPt => do
    match ← directConnection ringParent ringOrigin ringSearch origPt prevPt (cm ringSearch) [] with
    | .inl (op1, op2) => pure (true, cm, (ringSearch, op1, op2) :: iList, visited)
    | .inr kept =>
      chainFrom (fun cm iList ring visited op2 => findIntersectLoop fuel cm iList ringParent ringOrigin ring visited origPt op2)
        ringParent ringSearch prevPt kept (upd cm ringSearch kept) iList (ringSearch :: visited)

/-- The search of ring_manager.py:795-809 with the recursion depth `fuel`. -/
abbrev findIntersectLoop.chain (fuel : Nat) (ringParent : Option Nat) (ringOrigin ringSearch origPt prevPt : Nat) :
    List (Nat × Nat) → ConnectionMap → List LoopItem → List Nat → M (Bool × ConnectionMap × List LoopItem × List Nat) :=
  chainFrom (fun cm iList ring visited op2 => findIntersectLoop fuel cm iList ringParent ringOrigin ring visited origPt op2)
    ringParent ringSearch prevPt

/-- ring_manager.py:1723-1732: look for a direct connection of the two rings; returns `found`, the item appended to
`iList` (if any), and the pairs kept. -/
def directPair (ringOrigin ringSearch opOrigin1 : Nat) :
    List (Nat × Nat) → List (Nat × Nat) → Bool → M (Bool × Option LoopItem × List (Nat × Nat))
  | [], kept, found => pure (found, none, kept)
  | (op1, op2) :: rest, kept, found => do
    let r1 := (← getNode op1).ring
    let r2 := (← getNode op2).ring
    if r1 = none ∨ r2 = none then directPair ringOrigin ringSearch opOrigin1 rest kept found
    else if r2 = some ringOrigin then
      if ← samePoint opOrigin1 op2 then
        directPair ringOrigin ringSearch opOrigin1 rest (kept ++ [(op1, op2)]) true
      else pure (true, some (ringSearch, op1, op2), kept ++ (op1, op2) :: rest)
    else directPair ringOrigin ringSearch opOrigin1 rest (kept ++ [(op1, op2)]) found

/-- ring_manager.py:1739-1752: look for a loop through other rings. -/
def chainPairs (ringParent : Option Nat) (ringOrigin ringSearch opOrigin2 : Nat) :
    List (Nat × Nat) → ConnectionMap → List LoopItem → List Nat → M (Bool × ConnectionMap × List LoopItem)
  | [], cm, iList, _ => pure (false, cm, iList)
  | (op1, op2) :: rest, cm, iList, visited => do
    if (← getNode op2).ring = some ringSearch then
      chainPairs ringParent ringOrigin ringSearch opOrigin2 rest cm iList visited
    else if ← samePoint opOrigin2 op2 then
      chainPairs ringParent ringOrigin ringSearch opOrigin2 rest cm iList visited
    else
      match ← chainRing ringParent op2 with
      | none => chainPairs ringParent ringOrigin ringSearch opOrigin2 rest cm iList visited
      | some r =>
        let fuel ← gets St.fuel
        let (found, cm, iList, visited) ←
          findIntersectLoop fuel cm iList ringParent ringOrigin r visited opOrigin2 op2
        if found then pure (true, cm, (ringSearch, op1, op2) :: iList)
        else chainPairs ringParent ringOrigin ringSearch opOrigin2 rest cm iList visited

/-- ring_manager.py:1772-1779: the first ring of the loop that is not a hole becomes the origin; returns the new
`iList`, origin ring and origin nodes. -/
def chooseOrigin (ringOrigin op1o op2o : Nat) : List LoopItem → List LoopItem →
    M (List LoopItem × Option (Nat × Nat × Nat))
  | done, [] => pure (done, none)
  | done, (r, op1, op2) :: rest => do
    if ← ringIsHole r then chooseOrigin ringOrigin op1o op2o (done ++ [(r, op1, op2)]) rest
    else pure (done ++ (ringOrigin, op1o, op2o) :: rest, some (r, op1, op2))

/-- ring_manager.py:1782-1787 / 1789-1796: exchange the successors of two nodes. -/
def switchNext (a b : Nat) : M Unit := do
  let an := (← getNode a).next
  let bn := (← getNode b).next
  setNext a bn
  setNext b an
  setPrev (← deref an) (some b)
  setPrev (← deref bn) (some a)

/-- ring_manager.py:1842-1848 / 1852-1864: the pairs of a list to be moved, as `(ring, pair)`. -/
def movedPairs : List (Nat × Nat) → M (List (Nat × Nat × Nat))
  | [] => pure []
  | (op1, op2) :: rest => do
    let r1 := (← getNode op1).ring
    let r2 := (← getNode op2).ring
    match r1, r2 with
    | some r1, some r2 =>
      if r1 = r2 then movedPairs rest
      else
        let anyHole ← (do
          if ← ringIsHole r1 then pure true else ringIsHole r2 : M Bool)
        let tail ← movedPairs rest
        pure (if anyHole then (r1, op1, op2) :: tail else tail)
    | _, _ => movedPairs rest

/-- ring_manager.py:1852-1868: the pairs of the origin ring: those kept and those moved. -/
def originPairs (ringOrigin : Nat) : List (Nat × Nat) → M (List (Nat × Nat) × List (Nat × Nat × Nat))
  | [] => pure ([], [])
  | (op1, op2) :: rest => do
    let r1 := (← getNode op1).ring
    let r2 := (← getNode op2).ring
    match r1, r2 with
    | some r1, some r2 =>
      if r1 = r2 then originPairs ringOrigin rest
      else
        let anyHole ← (do
          if ← ringIsHole r1 then pure true else ringIsHole r2 : M Bool)
        let (kept, moved) ← originPairs ringOrigin rest
        if r1 ≠ ringOrigin then pure (kept, if anyHole then (r1, op1, op2) :: moved else moved)
        else pure (if anyHole then (op1, op2) :: kept else kept, moved)
    | _, _ => originPairs ringOrigin rest

/-- ring_manager.py:1840-1849: the pairs of the rings of the loop, which are cleared. -/
def clearLoopPairs : List LoopItem → ConnectionMap → M (ConnectionMap × List (Nat × Nat × Nat))
  | [], cm => pure (cm, [])
  | (r, _, _) :: rest, cm => do
    let moved ← movedPairs (cm r)
    let (cm, moved') ← clearLoopPairs rest (upd cm r [])
    pure (cm, moved ++ moved')

/-- ring_manager.py:1788-1871: the rings along the loop are merged into two rings; returns the new connection map. -/
def mergeLoop (cm : ConnectionMap) (iList : List LoopItem) (ringOrigin : Nat) (ringParent : Option Nat)
    (op1 op2 : Nat) : M ConnectionMap := do
  let originIsHole ← ringIsHole ringOrigin
  switchNext op1 op2
  forList iList fun it => switchNext it.2.1 it.2.2
  let new ← createRing
  modRing ringOrigin fun g => { g with corrected := false }
  let s1 ← nodeStats op1
  let s2 ← nodeStats op2
  if originIsHole && F64.lt s1.1 (.fin 0) then
    setRingNode ringOrigin (some op1)
    setStats ringOrigin s1
    setRingNode new (some op2)
    setStats new s2
  else
    setRingNode ringOrigin (some op2)
    setStats ringOrigin s2
    setRingNode new (some op1)
    setStats new s1
  updatePoints ringOrigin
  updatePoints new
  modRing ringOrigin fun g => { g with bottomNode := none }
  forList iList fun it => do
    modRing it.1 fun g => { g with bottomNode := none }
    if originIsHole then replaceRing it.1 (some ringOrigin)
    else replaceRing it.1 (← getRing ringOrigin).parent
  if originIsHole then
    assignAsChild new (some ringOrigin)
    let p ← deref ringParent
    forChildren (some p) fun c => do
      if ← ringInsideOf c new then reassignAsChild c (some new)
  else
    assignAsSibling new ringOrigin
    forChildren (some ringOrigin) fun c => do
      if ← ringInsideOf c new then reassignAsChild c (some new)
  let (cm, moved) ← clearLoopPairs iList cm
  let (kept, moved') ← originPairs ringOrigin (cm ringOrigin)
  let cm := upd cm ringOrigin kept
  pure ((moved ++ moved').foldl (fun cm it => upd cm it.1 (cm it.1 ++ [(it.2.1, it.2.2)])) cm)

/-- ring_manager.py:1684-1871 `process_single_intersection`; returns the connection map. -/
def processSingleIntersection (opJ opK : Nat) (cm : ConnectionMap) : M ConnectionMap := do
  let ringJ := (← getNode opJ).ring
  let ringK := (← getNode opK).ring
  if ringJ = ringK then pure cm
  else
    let ringJ ← deref ringJ
    let ringK ← deref ringK
    let hj ← ringIsHole ringJ
    let hk ← ringIsHole ringK
    if !hj && !hk then pure cm
    else
      let (ringOrigin, ringParent, ringSearch, o1, o2) ← (do
        if !hj then pure (ringJ, some ringJ, ringK, opJ, opK)
        else if !hk then pure (ringK, some ringK, ringJ, opK, opJ)
        else pure (ringJ, (← getRing ringJ).parent, ringK, opJ, opK)
        : M (Nat × Option Nat × Nat × Nat × Nat))
      if ringParent ≠ (← getRing ringSearch).parent then pure cm
      else
        let (found, item, kept) ← directPair ringOrigin ringSearch o1 (cm ringSearch) [] false
        let cm := upd cm ringSearch kept
        let (found, cm, iList) ← (do
          match item with
          | some it => pure (found, cm, [it])
          | none =>
            let (f, cm, iList) ← chainPairs ringParent ringOrigin ringSearch o2 kept cm [] [ringSearch]
            pure (found || f, cm, iList) : M (Bool × ConnectionMap × List LoopItem))
        if !found then
          let cm := upd cm ringOrigin (cm ringOrigin ++ [(o1, o2)])
          pure (upd cm ringSearch (cm ringSearch ++ [(o2, o1)]))
        else if iList.isEmpty then
          let present ← (do
            let pairs := cm ringOrigin
            let rings ← mapM' (fun (p : Nat × Nat) => do pure (← getNode p.2).ring) pairs
            pure (rings.contains (some ringSearch)) : M Bool)
          if present then pure cm else pure (upd cm ringOrigin (cm ringOrigin ++ [(o1, o2)]))
        else
          let (iList, ringOrigin, ringParent, o1, o2) ← (do
            if ← ringIsHole ringOrigin then
              match ← chooseOrigin ringOrigin o1 o2 [] iList with
              | (iList, some (r, p1, p2)) => pure (iList, r, some r, p1, p2)
              | (iList, none) => pure (iList, ringOrigin, ringParent, o1, o2)
            else pure (iList, ringOrigin, ringParent, o1, o2)
            : M (List LoopItem × Nat × Option Nat × Nat × Nat))
          mergeLoop cm iList ringOrigin ringParent o1 o2

/-- ring_manager.py:414-428 `correct_chained_repeats`. -/
def correctChainedRepeats (nodes : List Nat) (start stop : Nat) (cm : ConnectionMap) : M ConnectionMap :=
  forPairs (fun node next cm => processSingleIntersection node next cm) ((nodes.take stop).drop start) cm

/-- ring_manager.py:430-463 `correct_chained_rings`. -/
def correctChainedRings : M Unit := do
  let nodes ← gets St.allNodes
  if nodes.length < 2 then pure ()
  else
    loopM (fun (st : Nat × Nat × Nat × ConnectionMap) => do
      let (count, prev, index, cm) := st
      match nodes[index]? with
      | none => pure (.inr ())
      | some b =>
        let p ← pointOf (nodes.getD prev 0)
        let q ← pointOf b
        if p = q then
          let count := count + 1
          let prev := prev + 1
          let index := index + 1
          if index < nodes.length then pure (.inl (count, prev, index, cm))
          else
            let prev := prev + 1
            let cm ← correctChainedRepeats nodes (prev - (count + 1)) prev cm
            pure (.inl (0, prev, index, cm))
        else
          let prev := prev + 1
          let index := index + 1
          if count = 0 then pure (.inl (0, prev, index, cm))
          else
            let cm ← correctChainedRepeats nodes (prev - (count + 1)) prev cm
            pure (.inl (0, prev, index, cm))) (0, 0, 1, fun _ => [])

/-- point_node.py:44-50 `PointNode.__lt__`, on (node, point, depth of its ring). -/
def nodeLt (a b : Nat × Point × Nat) : Bool :=
  if a.2.1.y ≠ b.2.1.y then decide (b.2.1.y < a.2.1.y)
  else if b.2.1.x ≠ a.2.1.x then decide (b.2.1.x > a.2.1.x)
  else decide (b.2.2 < a.2.2)

/-- ring_manager.py:594 `self.all_nodes.sort()`.  Simplification: the depth of every node's ring is computed once (it
does not change while sorting), so that a node without ring raises even when Python would not compare it. -/
def sortAllNodes : M Unit := do
  let nodes ← gets St.allNodes
  let keyed ← mapM' (fun i => do
    let p ← pointOf i
    let r ← deref (← getNode i).ring
    let d ← ringDepth r
    pure (i, p, d)) nodes
  modify fun s => { s with allNodes := (pySorted nodeLt keyed).map Prod.fst }

/-- ring_manager.py:590-606 `correct_topology`. -/
def correctTopology : M Unit := do
  sortAllNodes
  correctOrientations
  correctCollinearEdges
  let _ ← correctSelfIntersections false
  correctTree
  loopM (fun (_ : Unit) => do
    correctChainedRings
    if ← correctSelfIntersections true then pure (.inl ()) else pure (.inr ())) ()

end Wagyu
