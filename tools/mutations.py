M = []
def m(name, file, defn, old, new, claim, **kw):
    M.append(dict(name=name, file=file, defn=defn, old=old, new=new, claim=claim, **kw))
NUM, SEQ, LR, BD, LM, GE = 'Model/Num.lean', 'Model/Seq.lean', 'Model/LinearRing.lean', 'Model/Bound.lean', 'Model/LocalMinimum.lean', 'Model/Geom.lean'
m('ulps-lt', NUM, 'areFloatsAlmostEqual', '(l - r).natAbs ≤ 4', '(l - r).natAbs < 4', 'C18 exactly four ulps are tolerated')
m('biased-no-plus-one', NUM, 'doubleToBiased', '(~~~bits + 1).toNat', '(~~~bits).toNat', 'C18 the distance across zero counts ulps')
m('round-half-even', NUM, 'ratRoundHalfUp', 'if 0 ≤ q then (q + 1 / 2).floor else', 'if 0 ≤ q then (q - 1 / 2).ceil else', 'C17 ties go away from zero')
m('round-min-ceil', NUM, 'roundTowardsMin', 'some (if nearHalf q then q.floor else', 'some (if nearHalf q then q.ceil else', 'C17 near half-integers round_towards_min goes down')
m('less-than-loose', NUM, 'areFloatsLessThan', '!areFloatsAlmostEqual x y && F64.lt x y', 'areFloatsAlmostEqual x y || F64.lt x y', 'C18 less/greater are mutually exclusive')
m('rotate-off-by-one', SEQ, 'rotateSequence', 'l.drop (pyClamp l.length index) ++ l.take (pyClamp l.length index)', 'l.drop (pyClamp l.length index + 1) ++ l.take (pyClamp l.length index + 1)', 'C32 rotation by the given index')
m('insort-duplicates', SEQ, 'insortUnique', 'i = l.length ∨ v < l.getD i 0', 'i = l.length ∨ v ≤ l.getD i 0', 'C11 a present coordinate is not inserted again')
m('bisect-right', SEQ, 'bisectLeft', 'if l.getD mid 0 < x then', 'if l.getD mid 0 ≤ x then', 'C11 no duplicates')
m('bubble-one-pass', SEQ, 'bubbleSort', 'if s.isEmpty then some (r, [])', 'if s.length ≤ 1 then some (r, s)', 'C09 the result has no rejected adjacent pair')
m('bubble-swap-args', SEQ, 'bubblePass', '(b :: r, (a, b) :: s)', '(b :: r, (b, a) :: s)', 'C09 on_swap receives the left element first')
m('bubble-drop-call', SEQ, 'bubbleSort', 'some (r\', s ++ s\')', 'some (r\', s\')', 'C09 on_swap once per exchanged pair')
m('qs-skip-low', SEQ, 'qsLoop', 'else if lowSize > 1 then (low, p - 1)', 'else if lowSize > 2 then (low, p - 1)', 'C10 the hot pixels are sorted')
m('qs-flip', SEQ, 'qsPartition', 'if cmp pivot element then', 'if cmp element pivot then', 'C10 the hot pixels are sorted descending')
m('group-keep', SEQ, 'groupKeys', 'if a = b then groupKeys (a :: l) else', 'if a = b then a :: groupKeys (a :: l) else', 'C10 no duplicates remain')
m('edge-norm-le', GE, 'Edge.mk\'', 'if bottom.y < top.y then (top, bottom) else (bottom, top)', 'if bottom.y > top.y then (top, bottom) else (bottom, top)', 'C30 the bottom is the lower end')
m('edge-slope-inv', GE, 'Edge.mk\'', 'intDiv (t.x - b.x) dy', 'intDiv dy (t.x - b.x)', 'C30 horizontal iff equal ys')
m('and-open', GE, 'Edge.and', 'F64.le (.fin 0) t && F64.le t (.fin 1) then', 'F64.lt (.fin 0) t && F64.le t (.fin 1) then', 'C29 a crossing is found iff the segments meet')
m('and-missing-bound', GE, 'Edge.and', 'F64.le (.fin 0) t && F64.le t (.fin 1) then', 'F64.le (.fin 0) t then', 'C29 the crossing stays in the box of the first edge')
m('and-swapped-param', GE, 'Edge.and', 'F64.mul t (.floatOfInt dx)', 'F64.mul s (.floatOfInt dx)', 'C29 the crossing lies on both edges')
m('rev-h-one-side', GE, 'Edge.reverseHorizontal', 'bottom := ⟨e.top.x, e.bottom.y⟩', 'bottom := e.bottom', 'C30 reversing swaps the ends')
m('slopes-equal-sign', GE, 'areEdgesSlopesEqual', '= (first.top.x - first.bottom.x) * (second.top.y - second.bottom.y)', '= -((first.top.x - first.bottom.x) * (second.top.y - second.bottom.y))', 'C33 parallel edges recognised exactly')
m('between-nonstrict', GE, 'isPointBetweenOthers', 'if pt1 = pt2 ∨ pt2 = pt3 ∨ pt1 = pt3 then false', 'if pt1 = pt3 then false', 'C33 strictly between')
m('box-one-side', GE, 'Box.insideOf', 'decide (other.maximum.y ≥ self.maximum.y)', 'decide (other.maximum.y ≥ self.minimum.y)', 'C31 containment of boxes')
m('edges-collinear-missed', LR, 'edgesStep', 'else if arePointsSlopesEqual s.pt1 s.pt2 s.pt3 then', 'else if s.pt1 = s.pt3 then', 'C14 no consecutive parallel edges')
m('edges-no-duplicate-test', LR, 'edgesStep', '''  if s.pt2 = s.pt3 then
    if s.index = s.lri then .ok (.brk s) else edgesAdvance pts s
  else if''', '''  if''', 'C14 no degenerate edge')
m('edges-close-drop-last', LR, 'closeStep', 'else some ({ f with bottom := b.bottom } :: mid)', 'else some ({ f with bottom := b.top } :: mid)', 'C14 C36 merging the first and last edges keeps the chain closed and the area')
m('edges-back-other-end', LR, 'edgesStep', 'then e.bottom else e.top', 'then e.top else e.bottom', 'C14 closed chain / C36 area')
m('edges-close-once', LR, 'edgesOf', 'closeLoop result.length result', 'closeLoop 1 result', 'C14 first and last edges not parallel')
m('edges-two-points', LR, 'closeLoop', 'if l.length < 3 then l', 'if l.length < 4 then l', 'C14 at least three edges or none')
m('edges-lri', LR, 'edgesOf', 'ri := ri, lri := ri + 1, pt1', 'ri := ri, lri := ri, pt1', 'C14 the chain is closed')
m('edges-swallow-last', LR, 'edgesAdvance', 'if s.acc = [] then .ok (.brk s)', 'if s.acc.length ≤ 1 then .ok (.brk s)', 'C14')
API = 'Model/Wagyu.lean'
m('min-delta-swapped', LM, 'addLoop', 'windingDelta := -1 }', 'windingDelta := 1 }', 'C15 the bounds of a minimum have opposite winding deltas; C37')
m('min-side-swapped', LM, 'addLoop', 'side := if minimumIsLeft then .right else .left', 'side := if minimumIsLeft then .left else .right', 'C15 opposite sides')
m('min-no-fix', LM, 'addLoop', 'let maxEdges := fixHorizontals maxEdges', 'let maxEdges := maxEdges', 'C15 every edge of a bound starts where the previous one ended')
m('min-no-move', LM, 'addLoop', 'if minimumIsLeft then moveHorizontals minEdges maxEdges', 'if minimumIsLeft then (minEdges, maxEdges)', 'C15 the left bound starts with a rising edge')
m('min-partner-lost', LM, 'addLoop', '| some l => upd bounds l { bounds l with maximumBound := some idMin }', '| some _ => bounds', 'C15 partners at the maxima are mutual')
m('min-first-stale', LM, 'addLoop', 'let first := match last with | none => some idMin | some _ => first', 'let first := some idMin', 'C15 the first and the last bound are partners')
m('min-not-closed', LM, 'Minimums.addLinearRing', 'let bounds := upd bounds first { bounds first with maximumBound := some last }', 'let bounds := bounds', 'C15 partners are mutual')
m('min-y-other-end', LM, 'addLoop', 'if minimumIsLeft then ⟨idMin, idMax, minFront.bottom.y, hasHorizontal⟩', 'if minimumIsLeft then ⟨idMin, idMax, minFront.top.y, hasHorizontal⟩', 'C15 the recorded y is that of the common start')
m('min-horizontal-flag', LM, 'addLoop', 'decide (maxI > 0) || decide (minI > 0)', 'decide (maxI > 0) && decide (minI > 0)', 'C15 has_horizontal')
m('min-left-test', LM, 'addLoop', 'else F64.le maxE.slope minE.slope', 'else F64.le minE.slope maxE.slope', 'C15 the left bound is not to the right of the right one')
m('min-no-rotation', LM, 'Minimums.addLinearRing', 'let edges := toEdgesStartingOnLocalMaximum (e :: es)', 'let edges := e :: es', 'C15 never raises; whole bounds')
m('min-rotation-limit', LM, 'toEdgesStartingOnLocalMaximum', 'if edges.length > 2 then', 'if edges.length > 3 then', 'C15 triangles')
m('bound-max-stop', BD, 'towardsMaxSplit', 'decide (edge.top = next.top) then ([], next :: rest)', 'decide (edge.bottom = next.bottom) then ([], next :: rest)', 'C15 a bound never goes down')
m('bound-max-horizontal-stop', BD, 'towardsMaxSplit', '(decide (next.top = edge.bottom) || decide (next.top = edge.top))', '(decide (next.top = edge.top))', 'C15 a bound never goes down')
m('bound-min-no-reverse', BD, 'createBoundTowardsMinimum', 'some ((edge\' :: t).reverse, r)', 'some ((edge\' :: t), r)', 'C15 chains')
m('bound-min-drop', BD, 'towardsMinSplit', 'decide (edge.bottom = next.bottom) then ([], next :: rest)', 'decide (edge.bottom = next.bottom) then ([], rest)', 'C15 every edge is used')
m('bound-move-order', BD, 'moveHorizontals', '(r, rotateSequence (other ++ h.reverse) (-(h.length : Int)))', '(r, rotateSequence (other ++ h) (-(h.length : Int)))', 'C15 chains', log='equivalent on reachable inputs: C14 merges consecutive horizontal edges, so at most one horizontal edge is ever moved and reversing the run does nothing')
m('bound-move-append', BD, 'moveHorizontals', '(r, rotateSequence (other ++ h.reverse) (-(h.length : Int)))', '(r, other ++ h.reverse)', 'C15 chains')
m('bound-move-no-flip', BD, 'leadingHorizontals', '(edge.reverseHorizontal :: h, r)', '(edge :: h, r)', 'C15 chains')
m('bound-fix-stale', BD, 'fixHorizontals', 'edge\' :: fixHorizontalsTail edge\' (next :: rest)', 'edge :: fixHorizontalsTail edge (next :: rest)', 'C15 chains')
SW, PN, RI, TP, BP = 'Model/Sweep.lean', 'Model/PointNode.lean', 'Model/Ring.lean', 'Model/Topology.lean', 'Model/BoundsProperty.lean'
m('cross-sign', SW, 'crossWinding', 'f.windingCount + s.windingDelta = 0 then -f.windingCount else f.windingCount + s.windingDelta', 'f.windingCount - s.windingDelta = 0 then -f.windingCount else f.windingCount - s.windingDelta', 'C06 winding counts after a crossing')
m('cross-no-zero-case', SW, 'crossWinding', 'if s.windingCount - f.windingDelta = 0 then -s.windingCount else s.windingCount - f.windingDelta', 's.windingCount - f.windingDelta', 'C06 winding counts after a crossing: never 0')
m('cross-evenodd-noswap', SW, 'crossWinding', '(s.windingCount, f.oppositeWindingCount, f.windingCount, s.oppositeWindingCount)', '(f.windingCount, s.oppositeWindingCount, s.windingCount, f.oppositeWindingCount)', 'C06 opposite winding counts stay with their bound')
m('cross-alt-sign', SW, 'crossWinding', 's.oppositeWindingCount - f.windingDelta', 's.oppositeWindingCount + f.windingDelta', 'C06 opposite winding count after a crossing')
m('cross-alt-wrong-fill', SW, 'crossWinding', 'if !s.isEvenOddFillKind sf cf then f.oppositeWindingCount + s.windingDelta', 'if !f.isEvenOddFillKind sf cf then f.oppositeWindingCount + s.windingDelta', 'C06 opposite winding count uses the fill kind of the other polygon')
m('winding-from-branch', SW, 'windingFrom', 'if prevWc.natAbs > 1 then', 'if prevWc.natAbs > 2 then', 'C06 winding count of an inserted bound')
m('winding-from-same', SW, 'windingFrom', '''  else if prevDelta * delta < 0 then prevWc
  else prevWc + delta''', '''  else prevWc + delta''', 'C06 winding count of an inserted bound')
m('opposite-drop', SW, 'oppositeOver', 'else o + d) owc', 'else o - d) owc', 'C06 opposite winding count of an inserted bound')
m('set-winding-alt-fill', SW, 'setWindingCount', 'oppositeOver (bd.isEvenOddAltFillKind sf cf) owc deltas', 'oppositeOver (bd.isEvenOddFillKind sf cf) owc deltas', 'C06 the other polygon is filled with its own rule')
m('same-kind-nearest', SW, 'findSameKind', 'if bd.polygonKind = kind then pure (some i, between)', 'if bd.polygonKind ≠ kind then pure (some i, between)', 'C06 the preceding bound of the same polygon is used')
m('insert-lm-no-copy', SW, 'insertLmLeftAndRightBound', '{ bd with windingCount := l.windingCount, oppositeWindingCount := l.oppositeWindingCount }', '{ bd with windingCount := l.windingCount }', 'C06 both bounds of a minimum get the counts')
m('insert-at-wrong-place', SW, 'insertBoundIntoAbl', 's.abl.take i ++ some left :: some right :: s.abl.drop i', 's.abl.take i ++ some right :: some left :: s.abl.drop i', 'C06 left bound before right bound')
m('contrib-intersection-own', BD, 'isContributing', '| .nonZero => decide (b.windingCount.natAbs = 1)', '| .nonZero => decide (b.windingCount.natAbs ≥ 1)', 'C07 output exactly on the boundary of the result')
m('contrib-diff-swapped', BD, 'isContributing', '''      if b.polygonKind = .subject then outsideOpposite pft2 b.oppositeWindingCount
      else insideOpposite pft2 b.oppositeWindingCount''', '''      if b.polygonKind = .subject then insideOpposite pft2 b.oppositeWindingCount
      else outsideOpposite pft2 b.oppositeWindingCount''', 'C07 difference')
m('contrib-union-positive', BD, 'outsideOpposite', '| .positive => decide (owc ≤ 0)', '| .positive => decide (owc < 0)', 'C07 union with a positive fill')
m('contrib-negative', BD, 'isContributing', '| .negative => decide (b.windingCount = -1)', '| .negative => decide (b.windingCount = 1)', 'C07 negative fill')
m('cross-starts-union', SW, 'crossStarts', '| .union => decide (fo ≤ 0) && decide (so ≤ 0)', '| .union => decide (fo > 0) && decide (so > 0)', 'C07 a union starts a ring outside the other polygon only')
m('cross-starts-diff-clip', SW, 'crossStarts', '(decide (kind = .clip) && decide (fo > 0) && decide (so > 0))', '(decide (kind = .clip) && decide (fo ≤ 0) && decide (so ≤ 0))', 'C07 difference, crossing of clip bounds')
m('cross-xor-maximum', SW, 'intersectBounds', '(decide (f.polygonKind ≠ s.polygonKind) && decide (op ≠ .xor))', '(decide (f.polygonKind ≠ s.polygonKind))', 'C07 symmetric difference keeps both bounds on the boundary')
m('cross-zero-or-one', SW, 'zeroOrOne', 'decide (w = 0) || decide (w = 1)', 'decide (w = 1)', 'C07 crossings leaving the filled region')
m('cross-first-wrong-test', SW, 'intersectBounds', '''    if zeroOrOne sw then
      addPoint first point
      modBound second''', '''    if zeroOrOne fw then
      addPoint first point
      modBound second''', 'C07 one contributing bound')
m('cross-no-swap', SW, 'intersectBounds', '''      addPoint first point
      addPoint second point
      swapRings first second''', '''      addPoint first point
      addPoint second point''', 'C25 sides of the two ends after a crossing of two contributing bounds')
m('swap-rings-no-side', SW, 'swapRings', '''  modBound first fun bd => { bd with side := s.side }
  modBound second fun bd => { bd with side := f.side }
  modBound first fun bd => { bd with ring''', '''  modBound first fun bd => { bd with ring''', 'C25 one end is LEFT and the other RIGHT')
m('reattach-no-side', SW, 'reattach', 'modBound b fun bd => { bd with ring := some keepRing, side }', 'modBound b fun bd => { bd with ring := some keepRing }', 'C25 one end is LEFT and the other RIGHT')
m('reattach-dropped', SW, 'appendRing', '''  let abl ← gets St.abl
  reattach removeRing keepRing keepBound abl''', '''  pure ()''', 'C25 the other end of the removed ring is attached to the kept one')
m('append-keep-attached', SW, 'appendRing', '  modBound removeBound fun bd => { bd with ring := none }\n', '', 'C25 closed ends are detached')
m('local-min-same-side', SW, 'addLocalMinimumPoint', '''    modBound first fun bd => { bd with side := .right }
    modBound second fun bd => { bd with side := .left }''', '''    modBound first fun bd => { bd with side := .left }
    modBound second fun bd => { bd with side := .left }''', 'C25 one end is LEFT and the other RIGHT')
m('local-min-one-ring', SW, 'addLocalMinimumPoint', 'modBound second fun bd => { bd with lastPoint := point, ring := fr }', 'modBound second fun bd => { bd with lastPoint := point }', 'C07 C25 both bounds of a contributing minimum carry the ring')
m('local-max-not-closed', SW, 'addLocalMaximumPoint', '''    modBound first fun bd => { bd with ring := none }
    modBound second fun bd => { bd with ring := none }
  else''', '''    modBound first fun bd => { bd with ring := none }
  else''', 'C25 a closed ring has no end left')
m('do-maxima-and', SW, 'doMaxima', 'if br.isSome ∧ mr.isSome then\n    let e ← currentEdge b', 'if br.isNone ∧ mr.isSome then\n    let e ← currentEdge b', 'C26 both or neither')
m('do-maxima-not-removed', SW, 'doMaxima', '''  ablSet bi none
  ablSet maxIdx none
  pure (if skipped then boundIdx''', '''  ablSet bi none
  pure (if skipped then boundIdx''', 'C06 C26 both bounds leave the list')
m('do-maxima-no-exchange', SW, 'maximaLoop', '        ablSwap bi ni\n', '', 'C06 crossed bounds change places', first=True)
m('join-left-left', SW, 'joinNodes', '''      setNext p2Lft (some p1Lft)
      setPrev p1Lft (some p2Lft)
      setNext p1Rt (some p2Rt)
      setPrev p2Rt (some p1Rt)
      setRingNode keepRing (some p2Rt)''', '''      setNext p2Lft (some p1Lft)
      setPrev p1Lft (some p2Lft)
      setNext p1Rt (some p2Rt)
      setPrev p2Rt (some p1Lft)
      setRingNode keepRing (some p2Rt)''', 'C22 joined rings')
m('join-no-reverse', SW, 'joinNodes', '''    if removeSide = .right then
      reverseNodes p2Lft''', '''    if removeSide = .right then''', 'C22 joined rings')
m('join-node-stale', SW, 'joinNodes', '      setRingNode keepRing (some p2Lft)\n', '', 'C22 the kept ring starts at the front of the joined one')
m('append-no-update', SW, 'appendRing', '  updatePoints keepRing\n', '', 'C22 every node belongs to the kept ring')
m('push-wrong-end', SW, 'pushPoint', 'let toFront := decide (bd.side = .left)', 'let toFront := decide (bd.side = .right)', 'C22/C21 points are added at the end of the bound')
m('feasible-skip', SW, 'findFeasible', 'if adjacent then pure (k, i) else findFeasible rest (k + 1)', 'if adjacent then pure (k + 1, i) else findFeasible rest (k + 1)', 'C08 each crossing processed once')
m('process-no-exchange', SW, 'processIntersectList', '    ablSwap i (i + 1)\n', '', 'C08 adjacent at the time of processing')
m('process-lost-crossing', SW, 'processIntersectList', 'rest.set k node, j)', 'rest, j)', 'C08 each crossing processed once')
m('hole-state-parity', SW, 'holeStateScan', 'if td.ring = some cr then holeStateScan rest none else', 'if td.ring = some cr then holeStateScan rest (some t) else', 'nesting of new rings: which ring is the parent (no listed claim states it)')
m('set-hole-parent-missed', SW, 'setHoleState', '      setRingParent r (some tr)\n', '', 'C34 a ring is listed under its parent')
m('lm-y-filter', SW, 'insertLocalMinima', 'if m.y = botY then', 'if m.y ≤ botY then', 'C06 minima inserted at their own scanline (order of insertion)', first=True)
m('stats-step-sign', PN, 'Stats.step', '(q.x + p.x) * (q.y - p.y)', '(q.x + p.x) * (p.y - q.y)', 'C20 the sign of the area')
m('stats-box', PN, 'Stats.step', 'if p.y > mx.y then p.y else mx.y⟩⟩', 'if p.y > mx.y then p.y else mx.x⟩⟩', 'C20 tight box')
m('stats-size', PN, 'nodeStats', '{ area2 := 0, size := 0, box := ⟨p, p⟩ }', '{ area2 := 0, size := 1, box := ⟨p, p⟩ }', 'C20 number of nodes')
m('pip-vertex', PN, 'pipStep', '(F64.eq nx px || (F64.eq oy py', '((F64.eq oy py', 'C19 a vertex is on the ring')
m('pip-half-open', PN, 'pipStep', 'else if F64.lt oy py != F64.lt ny py then', 'else if F64.le oy py != F64.lt ny py then', 'C19 crossings at vertices are counted once')
m('pip-toggle', PN, 'pipStep', 'if F64.lt px nx then some true\n      else', 'if F64.lt px nx then some false\n      else', 'C19 crossings right of the point')
m('reverse-nodes', PN, 'reverseNodes', '{ n with next := n.prev, prev := n.next }', '{ n with next := n.prev }', 'C21 reverse')
m('place-before-next', PN, 'placeBefore', '  setPrev other (some self)\n', '', 'C21 place_before')
m('fix-collinear-same', PN, 'fixCollinearPath', '''      setNext (← deref prev1) (some end2)
      setPrev end2 prev1
      setNext (← deref prev2) (some end1)
      setPrev end1 prev2
      pure (some end1, some end2)''', '''      setNext (← deref prev1) (some end1)
      setPrev end1 prev1
      setNext (← deref prev2) (some end2)
      setPrev end2 prev2
      pure (some end1, some end2)''', 'relinking of collinear paths (no listed claim states it)')
m('remove-all', RI, 'removeFromChildren', 'if c = some ring then none :: cs', 'if c = some ring then none :: removeFromChildren ring cs', 'equivalent when a ring is listed at most once (C34)')
m('remove-wrong', RI, 'removeFromChildren', 'if c = some ring then none :: cs', 'if c = some ring then c :: cs', 'C34 the ring leaves its old parent')
m('set-overwrite', RI, 'setToChildren', '| some c :: cs => some c :: setToChildren ring cs', '| some _ :: cs => some ring :: cs', 'C34 no other child is lost')
m('reassign-keeps-old', RI, 'reassignAsChild', '    modChildren old (removeFromChildren ring)\n', '', 'C34 listed exactly once')
m('assign-no-parent', RI, 'assignAsChild', '''    modChildren parent (setToChildren ring)
    setRingParent ring parent

/-- ring_manager.py:287''', '''    modChildren parent (setToChildren ring)

/-- ring_manager.py:287''', 'C34 the ring listed is a child of its parent')
m('orientation-flipped', RI, 'sameOrientation', 'pure (h == hp)', 'pure (h != hp)', 'C34 the same orientation is refused')
m('replace-keeps', RI, 'replaceRing', '    modChildren parent (removeFromChildren original)\n', '', 'C34 the replaced ring is listed nowhere')
m('replace-no-reparent', RI, 'replaceRing', '        setRingParent c replacement\n', '', 'C34 children of the replaced ring get the new parent')
m('remove-ring-parent', RI, 'removeRing', '''    if fromParent then
      let parent := (← getRing ring).parent
      modChildren parent (removeFromChildren ring)
    modRing ring''', '''    modRing ring''', 'C34 a removed ring is listed nowhere')
m('detach-keeps-ring', RI, 'detachNodes', '{ n with prev := none, next := none, ring := none }', '{ n with prev := none, next := none }', 'removed points belong to no ring')
m('output-not-closed', API, 'pointNodeToLinearRing', 'pure (body ++ [close])', 'pure body', 'C02 closed')
m('output-reverse', API, 'pointNodeToLinearRing', 'if reverseOutput then nodesFrom start else nodesBackFrom start', 'nodesBackFrom start', 'C03 reverse_output reverses')
m('holes-dropped', API, 'ringsToPolygons', 'pure ((exterior :: holes) :: rest.flatten)', 'pure ([exterior] :: rest.flatten)', 'C24 holes')
m('grandchildren-dropped', API, 'ringsToPolygons', 'pure ((exterior :: holes) :: rest.flatten)', 'pure [exterior :: holes]', 'C24 islands in holes')
m('add-polygon-and', API, 'addPolygonFrom', 'if b && !result then true else result', 'b', 'C16 True iff any ring was added')
m('execute-empty', API, 'execute', 'if w.minimums.values = [] then (w, .ok [])', 'if w.minimums.values = [] then (w, .error .assertion)', 'C01')
m('clear-keeps-one', API, 'clear', 'popLoop (w.minimums.values.length + 1) w.minimums.values', 'popLoop (w.minimums.values.length - 1) w.minimums.values', 'C27 clear empties the list')
m('pop-first', API, 'popLoop', 'popLoop n (l.eraseIdx (l.length - 1))', 'popLoop n (l.eraseIdx 0)', 'equivalent: clear pops until empty', log='equivalent: popping from the front empties the list as well; no observable difference')
m('bounds-fresh-cells', BP, 'readBound', 'else { s with minimum := e0.top, maximum := el.bottom, firstSet := true }', 'else { s with firstSet := true }', 'C05 the corners are point objects of the stored geometry')
m('split-wrong-link', TP, 'correctSelfIntersection', '    setPrev second (some third)\n', '    setPrev second (some fourth)\n', 'C23 partition of the cyclic sequence')
m('split-smaller-stays', TP, 'correctSelfIntersection', 'if F64.lt ss.1.abs fs.1.abs then', 'if F64.lt fs.1.abs ss.1.abs then', 'C23 the larger one stays the original ring')
m('split-no-update', TP, 'correctSelfIntersection', '    updatePoints result\n', '', 'C23 the nodes of the new ring belong to it')
m('split-other-ring', TP, 'correctSelfIntersection', 'if fr ≠ sr then pure none', 'if fr = none then pure none', 'C23 nodes of different rings are left alone')
# --- batch 3: sweeps (C04, C12, C13, C35, C38)
m('node-wrong-y', RI, 'createPointNode', '{ x := point.x, y := point.y, prev', '{ x := point.x, y := point.x, prev', 'C35 rows of the result; C22 the point added')
m('node-not-alone', RI, 'createPointNode', 'prev := some i, next := some i, ring }', 'prev := some i, next := none, ring }', 'C38 rings are circular')
m('node-no-ring', RI, 'createPointNode', 'prev := some i, next := some i, ring }', 'prev := some i, next := some i, ring := none }', 'C38 every point records its ring')
m('round-mixed', GE, 'FPoint.round', '| some x, some y => .ok ⟨x, y⟩', '| some x, some _ => .ok ⟨x, x⟩', 'C12/C35 crossings are rounded to their own row')
m('init-keeps-ring', SW, 'initializeBound', 'oppositeWindingCount := 0, side, ring := none }', 'oppositeWindingCount := 0, side }', 'C04 a second execute starts afresh')
m('init-keeps-winding', SW, 'initializeBound', 'windingCount := 0, oppositeWindingCount := 0, side, ring := none }', 'oppositeWindingCount := 0, side, ring := none }', 'C04 (overwritten by setWindingCount, so possibly equivalent)', log='equivalent: insert_lm_left_and_right_bound sets the winding counts of both bounds before anything reads them')
m('init-keeps-cur', SW, 'initializeBound', '    modBound b fun bd => (bd.setCur 0).setNxt 1\n', '', 'C04/C13 a second execute starts at the first edge')
m('hot-init-keeps-cur', SW, 'insertLocalMinimaHotPixel', '      modBound m.right fun bd => (bd.setCur 0).setNxt 1\n', '', 'C04/C12 a second execute starts at the first edge')
m('vatti-keeps-abl', SW, 'executeVatti', '''  modify fun s => { s with scan := scanbeams, abl := [] }
  setCurrentHotPixelIndex 0''', '''  modify fun s => { s with scan := scanbeams }
  setCurrentHotPixelIndex 0''', 'C38/C13 the second sweep starts with no active bounds')
m('next-no-scan', SW, 'toNextEdge', '    if e.isHorizontal then pure () else insertScan e.top.y\n\n/-- bound.py:282', '\n/-- bound.py:282', 'C13/C12 rows of vertices are visited')
m('next-scan-bottom', SW, 'toNextEdge', '    if e.isHorizontal then pure () else insertScan e.top.y\n\n/-- bound.py:282', '    if e.isHorizontal then pure () else insertScan e.bottom.y\n\n/-- bound.py:282', 'C13 rows of vertices are visited')
m('next-no-nxt', SW, 'toNextEdge', '    modBound b fun bd => bd.setNxt (bd.nxtIdx + 1)\n', '', 'C13 bounds move on')
m('pop-first-scan', SW, 'popScan', '''  match (← gets St.scan).getLast? with
  | none => pure y
  | some v =>
    modify fun s => { s with scan := s.scan.dropLast }''', '''  match (← gets St.scan).head? with
  | none => pure y
  | some v =>
    modify fun s => { s with scan := s.scan.tail }''', 'C13 rows in non-increasing order')
m('pop-keeps', SW, 'popScan', '    modify fun s => { s with scan := s.scan.dropLast }\n', '', 'C13 the sweep ends')
m('current-x-sign', GE, 'Edge.getCurrentX', '(.floatOfInt (y - e.bottom.y)))', '(.floatOfInt (e.bottom.y - y)))', 'C12 x of the crossings with a row', first=True)
m('hot-shifted', SW, 'processHotPixelEdgesAtTopOfScanbeam', 'pure (.inl (if shifted then index else index + 1))', 'pure (.inl index)', 'C13 the sweep ends')
m('hot-no-remove', SW, 'processHotPixelEdgesAtTopOfScanbeam', '        if bd.curIdx = bd.edges.length then ablSet ci none\n', '', 'C13/C12: finished bounds leave the active bounds')
m('hot-min-skip-scan', SW, 'insertLocalMinimaHotPixel', '      if le.isHorizontal then pure () else insertScan le.top.y\n', '', 'C12/C13 rows of vertices are visited by the first sweep')
m('hot-row', SW, 'horizontalPass', 'addHotPixel ⟨r, topY⟩', 'addHotPixel ⟨r, r⟩', 'C12 hot pixels in the box')
m('hot-pass-order', SW, 'horizontalPass', 'if e.top.y ≠ topY ∧ e.bottom.y ≠ topY then', 'if e.top.y ≠ topY then', 'C12 (recording an end point that is recorded anyway)', log='equivalent for the set of hot pixels: the bottom of an edge that begins on the row is recorded by the local minimum or the edge before it; the row is rounded from current_x of that very point')
m('horizontal-no-advance', SW, 'finishHorizontal', 'if bd.nxtIdx < bd.edges.length then toNextEdge b', 'if bd.nxtIdx < bd.edges.length then pure ()', 'C13 horizontals are finished')
m('horizontals-stuck', SW, 'processHorizontalLeftToRight', '''    finishHorizontal b bi
    pure (if shifted then boundIdx else boundIdx + 1)''', '''    finishHorizontal b bi
    pure 0''', 'equivalent or slower: restart at the first bound (progress is still made)', log='the loop still ends (every pass finishes a horizontal) and the result is the same; only the number of tests grows, which no claim bounds')
m('maxima-loop-stuck', SW, 'maximaLoop', '| none => pure (.inl (bi, ni + 1, skipped))', '| none => pure (.inl (bi, ni, skipped))', 'C13 the loops inside a step end')
m('maxima-same-index', SW, 'doMaxima', 'pure (if skipped then boundIdx else boundIdx + 1)', 'pure boundIdx', 'equivalent: the slot is empty and is skipped', log='equivalent: the slot at boundIdx is empty afterwards and the loop moves on')
m('hot-index-stuck', SW, 'updateCurrentHotPixelIndex', 'setCurrentHotPixelIndex (i + 1)', 'setCurrentHotPixelIndex i', 'C13 the loops inside a step end')
m('path-stuck', SW, 'insertHotPixelsInPath', '          pure (.inl last)', '          pure (.inl index)', 'C13 the loops inside a step end')
m('push-front-node', SW, 'pushPoint', '    if toFront then setRingNode r (some new)', '    setRingNode r (some new)', 'C22 points are added at the end of the bound')
m('first-point-no-node', SW, 'addFirstPoint', '  setRingNode r (some n)\n', '', 'C38 a ring starts at its node')
m('reattach-all', SW, 'reattach', 'if bd.ring = some removeRing then', 'if bd.ring ≠ none then', 'C22/C26 only the bound of the removed ring is attached to the kept one')
m('join-half-link', SW, 'joinNodes', '      setNext p1Rt (some p2Lft)\n      setRingNode keepRing (some p2Lft)', '      setRingNode keepRing (some p2Lft)', 'C22/C38 circular lists')
m('append-node-kept', SW, 'appendRing', 'modRing removeRing fun g => { g with node := none, bottomNode := none }', 'modRing removeRing fun g => { g with bottomNode := none }', 'C38 each point in exactly one ring')
m('descendant-swapped', SW, 'chooseKeep', 'if ← isDescendantOf firstRing secondRing then pure (secondRing, firstRing, second, first)', 'if ← isDescendantOf firstRing secondRing then pure (firstRing, secondRing, first, second)', 'C38 no ring is its own ancestor')
m('local-min-right-ring', SW, 'addLocalMinimumPoint', 'modBound second fun bd => { bd with lastPoint := point, ring := fr }', 'modBound second fun bd => { bd with lastPoint := point }', 'C26 both bounds at a minimum bound the same ring')
m('vatti-no-minima', SW, 'vattiStep', '  let minimums ← insertLocalMinima op sf cf y minimums\n', '', 'C13 the sweep ends (minima left over forever)')
m('vatti-y-stale', SW, 'vattiStep', '  pure (y, minimums)\n\n/-- ring_manager.py:704', '  pure (0, minimums)\n\n/-- ring_manager.py:704', 'C13 the scanlines')
m('horizontal-minima-order', LM, 'LocalMinimum.lt', '(!a.hasHorizontal && b.hasHorizontal))', '(a.hasHorizontal && !b.hasHorizontal))', 'C13 minima with horizontals come first on their row')
# ---- the first stages of the topology correction (C41-C44)
m('contain-same-orientation', TP, 'findContaining', 'if h = hr then findContaining ring rest', 'if h ≠ hr then findContaining ring rest', 'C44 the parent of a ring is oriented the opposite way')
m('contain-no-orientation', TP, 'findContaining', '    if h = hr then findContaining ring rest\n    else if', '    if', 'C44 the parent of a ring is oriented the opposite way')
m('contain-swapped', TP, 'findContaining', 'else if ← ringInsideOf ring r then', 'else if ← ringInsideOf r ring then', 'C44 a ring lies inside its parent')
m('tree-size-bound', TP, 'correctTreeLoop', 'if size < 3 then pure true', 'if size < 2 then pure true', 'C44 rings of the tree have at least three points (equivalent: a ring of two points has no area)', log='equivalent: two points enclose no area, so the second test removes the ring (area2_short)')
m('tree-keep-flat', TP, 'correctTreeLoop', 'else pure (isFloatAlmostZero (← ringArea ring))', 'else pure false', 'C44 rings of the tree have an area')
m('tree-no-mark', TP, 'correctTreeLoop', '        modRing ring fun g => { g with corrected := true }\n        match', '        match', 'C44 the rings of the tree are marked corrected')
m('tree-hole-at-root', TP, 'correctTreeLoop', 'if ← ringIsHole ring then raise (.runtime "Could not properly place hole to a parent")\n          else reassignAsChild ring none', 'reassignAsChild ring none', 'C44 every hole has a parent')
m('tree-forgets-before', TP, 'correctTreeLoop', 'correctTreeLoop (ring :: before) rest', 'correctTreeLoop before rest', 'C39/C44 rings are placed under earlier rings')
m('tree-keeps-degenerate', TP, 'correctTreeLoop', 'if degenerate then removeRingAndPointsKeepChildren ring', 'if degenerate then pure ()', 'C44 rings of the tree have an area')
m('tree-ascending', TP, 'correctTree', 'let rings ← reversedSortedRings', 'let rings ← sortedRings', 'C44 rings are placed by decreasing area')
m('orient-depth', TP, 'correctOrientations', 'if isOdd d ≠ h then', 'if isOdd d = h then', 'C42 odd depth means hole')
m('orient-size', TP, 'correctOrientations', 'if (← ringSize r) < 3 then', 'if (← ringSize r) < 2 then', 'C42 no ring of two points is left')
m('orient-no-recalc', TP, 'correctOrientations', '          reverseNodes n\n          recalculateStats r', '          reverseNodes n', 'C42 the area has the sign of the orientation')
m('orient-drop-reverse', TP, 'correctOrientations', '          reverseNodes n\n          recalculateStats r', '          recalculateStats r', 'C42 odd depth means hole')
m('runs-bounds', TP, 'forRuns', '        else\n          process (prev - (count + 1)) prev', '        else\n          process (prev - count) prev', 'C43-like: all nodes of a run are compared (collinear stage)')
m('repeat-bounds', TP, 'findAndCorrectRepeatedPoints', 'let acc ← correctRepeatedPoints acc nodes (prev - (count + 1)) prev', 'let acc ← correctRepeatedPoints acc nodes (prev - count) prev', 'C43 no ring passes through a point twice', first=True)
m('repeat-drop-last-run', TP, 'findAndCorrectRepeatedPoints', '          let prev := prev + 1\n          let acc ← correctRepeatedPoints acc nodes (prev - (count + 1)) prev\n          pure (.inl (0, prev, index, acc))', '          let prev := prev + 1\n          pure (.inl (0, prev, index, acc))', 'C43 no ring passes through a point twice', first=True)
m('repeat-one-pair', TP, 'forPairs', '        if (← getNode next).ring = none then pure acc else body node next acc : M σ)\n      inner node rest acc', '        if (← getNode next).ring = none then pure acc else body node next acc : M σ)\n      pure acc', 'C43 no ring passes through a point twice')
m('split-swapped-stats', TP, 'correctSelfIntersection', '''      setRingNode ring (some first)
      setStats ring fs
      setRingNode result (some second)
      setStats result ss''', '''      setRingNode ring (some first)
      setStats ring ss
      setRingNode result (some second)
      setStats result fs''', 'C23/C43 the stored area is the area of the ring')
m('self-skip', TP, 'correctRingSelfIntersections', 'if g.corrected || g.node.isNone then pure false', 'if !g.corrected || g.node.isNone then pure false', 'C43 every ring is corrected')
m('self-sorted-key', TP, 'sortedNodes', 'decide (-a.2.y < -b.2.y) || (decide (-a.2.y = -b.2.y) && decide (a.2.x < b.2.x))', 'decide (-a.2.y < -b.2.y)', 'C43 equal points are adjacent in the sorted nodes')
m('union-smaller', TP, 'processCollinearEdgesDifferentRings', 'let unionRing := if firstLarger then fr else sr', 'let unionRing := if firstLarger then sr else fr', 'C41: the removed ring has no node and the kept one does')
m('union-no-update', TP, 'processCollinearEdgesDifferentRings', '    setRingNode unionRing (some pt1)\n    updatePoints unionRing', '    setRingNode unionRing (some pt1)', 'C41 every point of a ring belongs to it')
m('same-no-update', TP, 'processCollinearEdgesSameRing', '    recalculateStats new\n    updatePoints new', '    recalculateStats new', 'C41 every point of a ring belongs to it')
m('same-swap', TP, 'processCollinearEdgesSameRing', '    setRingNode new (some pt2)', '    setRingNode new (some pt1)', 'C41 each point in exactly one ring')
m('dup-ring-node', TP, 'dropNeighbour', '  if (← getRing r).node = some outsider then setRingNode r (some node)\n', '', 'C41 the node of a ring belongs to it')
m('dup-keep-label', TP, 'dropNeighbour', '{ n with prev := none, next := none, ring := none }', '{ n with prev := none, next := none }', 'C41 dropped points belong to no ring')
# ---- the last stage (C45, C46)
m('switch-no-prev', TP, 'switchNext', '  setPrev (← deref bn) (some a)\n', '', 'C45 the rings are closed in both directions')
m('switch-prev-swapped', TP, 'switchNext', '  setPrev (← deref an) (some b)\n  setPrev (← deref bn) (some a)', '  setPrev (← deref an) (some a)\n  setPrev (← deref bn) (some b)', 'C45 the rings are closed in both directions')
m('switch-self', TP, 'switchNext', '  setNext b an\n', '', 'C45 no point is lost')
m('merge-skip-loop', TP, 'mergeLoop', '  forList iList fun it => switchNext it.2.1 it.2.2\n', '', 'C45 the points are distributed over closed rings')
m('merge-no-origin-switch', TP, 'mergeLoop', '  switchNext op1 op2\n  forList', '  forList', 'C45 the points are distributed over closed rings')
m('merge-same-node', TP, 'mergeLoop', '    setRingNode ringOrigin (some op2)\n    setStats ringOrigin s2\n    setRingNode new (some op1)', '    setRingNode ringOrigin (some op2)\n    setStats ringOrigin s2\n    setRingNode new (some op2)', 'C45 each point in exactly one ring')
m('merge-no-update-new', TP, 'mergeLoop', '  updatePoints ringOrigin\n  updatePoints new\n  modRing', '  updatePoints ringOrigin\n  modRing', 'C45 every point belongs to its ring')
m('merge-no-update-origin', TP, 'mergeLoop', '  updatePoints ringOrigin\n  updatePoints new\n  modRing', '  updatePoints new\n  modRing', 'C45 every point belongs to its ring')
m('merge-keeps-loop-rings', TP, 'mergeLoop', '    if originIsHole then replaceRing it.1 (some ringOrigin)\n    else replaceRing it.1 (← getRing ringOrigin).parent', '    pure ()', 'C45 the merged rings are gone: each point in exactly one ring')
m('merge-origin-stays-corrected', TP, 'mergeLoop', '  modRing ringOrigin fun g => { g with corrected := false }\n', '', 'C45/C46 no ring visits a position twice (the merged ring is looked at again)')
m('merge-stats-swapped', TP, 'mergeLoop', '    setRingNode ringOrigin (some op1)\n    setStats ringOrigin s1\n    setRingNode new (some op2)\n    setStats new s2', '    setRingNode ringOrigin (some op1)\n    setStats ringOrigin s2\n    setRingNode new (some op2)\n    setStats new s1', 'C45/C23 the stored area is the area of the ring')
m('collinear-skip2', TP, 'correctCollinearEdges', 'let nodes ← gets St.allNodes\n  if nodes.length < 2 then pure ()', 'let nodes ← gets St.allNodes\n  if nodes.length < 9 then pure ()', 'C41: collinear repeats of short inputs', first=True)
m('split-no-new-node', TP, 'correctSelfIntersection', 'setRingNode result (some second)', 'setRingNode result (some first)', 'C43 each point in exactly one ring', first=True)
m('self-no-mark', TP, 'correctRingSelfIntersections', '    modRing ring fun g => { g with corrected := true }\n    pure true', '    modRing ring fun g => { g with corrected := false }\n    pure true', 'C45 the loop of the last stage ends / C44 marks')
# ---- flat tops
m('ltr-partner-kept', SW, 'processHorizontalLeftToRight', '          ablSet maxIdx none\n          ablSet bi none\n', '          ablSet bi none\n', 'C40 partners end together')
m('ltr-self-kept', SW, 'processHorizontalLeftToRight', '          ablSet maxIdx none\n          ablSet bi none\n', '          ablSet maxIdx none\n', 'C40 partners end together')
m('ltr-wrong-slot', SW, 'processHorizontalLeftToRight', '          ablSet maxIdx none\n          ablSet bi none\n', '          ablSet maxIdx none\n          ablSet boundIdx none\n', 'C40 partners end together')
m('ltr-no-swap', SW, 'processHorizontalLeftToRight', '          ablSwap bi ni\n', '', 'C06 crossing exchanges the bounds')
m('ltr-crossing-swapped', SW, 'processHorizontalLeftToRight', 'intersectBounds ⟨r, y⟩ op sf cf b nb', 'intersectBounds ⟨r, y⟩ op sf cf nb b', 'C06 crossing: the left bound first')
m('ltr-no-intersect', SW, 'processHorizontalLeftToRight', '          intersectBounds ⟨r, y⟩ op sf cf b nb\n', '', 'C06 winding counts after a crossing')
m('rtl-crossing-swapped', SW, 'processHorizontalRightToLeft', 'intersectBounds ⟨r, y⟩ op sf cf pb b', 'intersectBounds ⟨r, y⟩ op sf cf b pb', 'C06 crossing: the left bound first')
m('rtl-partner-kept', SW, 'processHorizontalRightToLeft', '          ablSet pi none\n          ablSet bi none\n', '          ablSet bi none\n', 'C40 partners end together')
m('rtl-no-maximum', SW, 'processHorizontalRightToLeft', '            addLocalMaximumPoint e.top b pb\n', '            pure ()\n', 'C25 an open ring has two ends')
m('ltr-one-sided-maximum', SW, 'processHorizontalLeftToRight', 'if (← getBound b).ring.isSome ∧ (← getBound nb).ring.isSome then', 'if (← getBound b).ring.isSome then', 'equivalent under C07: both or none carry output', log='equivalent while all bounds are paired')
m('horizontals-skip', SW, 'processHorizontals', '          let i ← processHorizontal op sf cf y index\n          pure (.inl i)', '          let i ← processHorizontal op sf cf y index\n          pure (.inl (i + 1))', 'C40 horizontal edges are all processed')
m('top-orphan-max', SW, 'topOfScanbeamLoop', 'if e.isHorizontal then pure none\n              else', '', 'C40 a bound whose partner is horizontal waits')
m('top-no-partner-check', SW, 'topOfScanbeamLoop', 'else if ← isMaxima m topY then pure (some mi) else pure none', 'else pure (some mi)', 'C40 partners end together')
m('promote-all', SW, 'promoteIntermediate', '    if ← isIntermediate b topY then\n      if (← getBound b).ring', '    if true then\n      if (← getBound b).ring', 'C13 edges are used up in order')
m('promote-none', SW, 'topOfScanbeamLoop', '              pure e.isHorizontal\n', '              pure false\n', 'C40 horizontals are promoted at the top of the scanbeam')
# ---- symmetry, empty operands
m('contrib-inter-subject', BD, 'isContributing', '| .intersection => insideOpposite pft2 b.oppositeWindingCount', '| .intersection => decide (b.polygonKind = .clip) || insideOpposite pft2 b.oppositeWindingCount', 'C49 commutativity / C50 intersection with nothing')
m('inside-positive-closed', BD, 'insideOpposite', 'decide (owc > 0)', 'decide (owc ≥ 0)', 'C50 intersection with nothing is nothing')
m('outside-positive-open', BD, 'outsideOpposite', 'decide (owc ≤ 0)', 'decide (owc < 0)', 'C50 union with nothing is the polygon')
m('cross-inter-closed', SW, 'crossStarts', '| .intersection => decide (fo > 0) && decide (so > 0)', '| .intersection => decide (fo ≥ 0) && decide (so > 0)', 'C49/C50')
m('cross-xor-subject', SW, 'crossStarts', '| .xor => true', '| .xor => decide (kind = .subject)', 'C49 commutativity of the symmetric difference')
m('evenodd-subject-only', BD, 'isEvenOddFillKind', 'if b.polygonKind = .subject then decide (subject = .evenOdd) else decide (clip = .evenOdd)', 'decide (subject = .evenOdd)', 'C49 commutativity')
m('minimum-kind-lost', LM, 'addLoop', 'polygonKind := kind', 'polygonKind := .subject', 'C49 commutativity / C48', first=True)
m('diff-as-xor', BD, 'isContributing', 'else insideOpposite pft2 b.oppositeWindingCount', 'else true', 'C50 nothing minus a polygon is nothing')
# ---- provenance, grid, links
m('ltr-point-off-row', SW, 'processHorizontalLeftToRight', 'intersectBounds ⟨r, y⟩ op sf cf b nb', 'intersectBounds ⟨r, y - 1⟩ op sf cf b nb', 'C51 every vertex is made of the input / C52')
m('hot-row-off', SW, 'hotIntersections', '    let q ← liftE p.round\n', '    let q ← liftE p.round\n    let q : Point := ⟨q.x + 1, q.y⟩\n', 'C51 every vertex is made of the input')
m('close-wrong-end', LR, 'closeStep', 'some ({ f with bottom := b.bottom } :: mid)', 'some ({ f with bottom := b.top } :: mid)', 'C14 closed chain / lines')
m('edges-merge-skips', LR, 'edgesStep', '    let pt2 := s.pt1\n', '    let pt2 := s.pt3\n', 'C14 lines of the sides')
m('nodes-back-next', PN, 'nodesBackFrom', '    let cursor ← prevOf st.1\n    if cursor = start then pure (.inr acc.reverse)', '    let cursor ← nextOf st.1\n    if cursor = start then pure (.inr acc.reverse)', 'C03 reverse_output')
m('result-flag-swapped', API, 'pointNodeToLinearRing', 'if reverseOutput then nodesFrom start else nodesBackFrom start', 'if reverseOutput then nodesBackFrom start else nodesFrom start', 'C03 orientation of the output', log='the direction is only fixed relative to the other flag by C03_execute')
m('result-not-closed', API, 'pointNodeToLinearRing', '  pure (body ++ [close])', '  pure body', 'C46/C03 rings of the result are closed')
m('split-prev-swapped', TP, 'correctSelfIntersection', 'setPrev', 'setNext', 'C45 links stay closed', first=True)
# ---- positions along edges (C53, C54)
m('next-edge-x-top', SW, 'toNextEdge', 'modBound b fun bd => { bd with currentX := .ofInt e.bottom.x }\n    if e.isHorizontal then pure () else insertScan', 'modBound b fun bd => { bd with currentX := .ofInt e.top.x }\n    if e.isHorizontal then pure () else insertScan', 'C54 every vertex is near a side')
m('init-bound-x-top', SW, 'initializeBound', 'currentX := .floatOfInt e.bottom.x', 'currentX := .floatOfInt e.top.x', 'C54 every vertex is near a side')
m('current-x-base-top', GE, 'Edge.getCurrentX', 'F64.add (.floatOfInt e.bottom.x) (F64.mul e.slope (.floatOfInt (y - e.bottom.y)))', 'F64.add (.floatOfInt e.top.x) (F64.mul e.slope (.floatOfInt (y - e.bottom.y)))', 'C54/C53 the x of an edge at a height')
m('current-x-offset-top', GE, 'Edge.getCurrentX', 'F64.mul e.slope (.floatOfInt (y - e.bottom.y)))\n', 'F64.mul e.slope (.floatOfInt (y - e.top.y)))\n', 'C54/C53 the x of an edge at a height', first=True)
m('top-x-stays-bottom', SW, 'topOfScanbeamLoop', '            modBound b fun bd => { bd with currentX := e.getCurrentX topY }', '            modBound b fun bd => { bd with currentX := .ofInt e.bottom.x }', 'C54 every vertex is near a side / C53', first=True)
m('insert-minimum-x-top', SW, 'vattiStep minima', 'modBound m.left fun bd => { bd with currentX := .ofInt le.bottom.x }', 'modBound m.left fun bd => { bd with currentX := .ofInt le.top.x }', 'C54 positions at hot pixels')
m('horizontal-top-x-bottom', SW, 'horizontals of the hot pixel pass', 'modBound b fun bd => { bd with currentX := .ofInt e.top.x }', 'modBound b fun bd => { bd with currentX := .ofInt e.bottom.x }', 'C54 positions at hot pixels', first=True)
m('round-swaps', GE, 'FPoint.round', '| some x, some y => .ok ⟨x, y⟩', '| some x, some y => .ok ⟨y, x⟩', 'C53/C54 rounded crossings')
m('crossing-first-edge-only', GE, 'Edge.and', 'F64.mul t (.floatOfInt dy)', 'F64.mul s (.floatOfInt dy)', 'C54/C29 the crossing lies on the edges')
INS = 'Model/Inspect.lean'
m('ring-nodes-placed-after', INS, 'nodeFromRingPointsLoop', 'placeBefore node result', 'placeBefore result node', 'C55 a ring of points shows its points')
m('ring-points-not-reversed', INS, 'nodeFromRingPoints', 'match points.reverse with', 'match points with', 'C55 a ring of points shows its points')
m('ring-nodes-no-owner', INS, 'nodeFromRingPointsLoop', '    setNodeRing node (some ring)\n    placeBefore', '    placeBefore', 'C55 every node belongs to the ring')
m('ring-nodes-fixed-anchor', INS, 'nodeFromRingPointsLoop', 'nodeFromRingPointsLoop ring node points', 'nodeFromRingPointsLoop ring result points', 'C55 a ring of points shows its points')
m('new-node-swapped', INS, 'newPointNode', 'x := p.x, y := p.y', 'x := p.y, y := p.x', 'C55 a ring of points shows its points')
m('new-ring-no-node', INS, 'newRing', '    setRingNode r (some n)\n', '', 'C55 a ring of points shows its points')
m('new-ring-corrected-lost', INS, 'newRing', '{ g with children, corrected }', '{ g with children }', 'C55 the ring has the given attributes')
m('bottom-points-of-node', INS, 'ringBottomPoints', '(← getRing r).bottomNode', '(← getRing r).node', 'C55 bottom points')
m('all-points-dropped', INS, 'pointsOfAll', 'pure (ps :: rest)', 'pure rest', 'C55 all points')
m('node-lt-le', TP, 'nodeLt', 'decide (b.2.2 < a.2.2)', 'decide (b.2.2 ≤ a.2.2)', 'C56 the order of nodes is a strict weak order')
m('ring-lt-emptied', TP, 'ringLt', 'if !a.2.1 || !b.2.1 then a.2.1', 'if !a.2.1 || !b.2.1 then true', 'C56 the order of rings is a strict weak order')
m('minimum-lt-le', LM, 'LocalMinimum.lt', 'decide (a.y < b.y) ||', 'decide (a.y ≤ b.y) ||', 'C56 the order of minima is a strict weak order')
m('minimum-lt-mixed', LM, 'LocalMinimum.lt', '(decide (a.y = b.y) && (!a.hasHorizontal && b.hasHorizontal))', '(!a.hasHorizontal && b.hasHorizontal)', 'C56 the order of minima is a strict weak order')
m('crossings-exact', SW, 'IntersectNode.lt', 'if areFloatsAlmostEqual a.point.y b.point.y then\n    decide (toInt32', 'if a.point.y = b.point.y then\n    decide (toInt32', 'C56 crossings can be in a circle: false of this program')
EQ = 'Model/Equality.lean'
m('eq-no-edges', EQ, 'Bound.eq', 'listEq Edge.eq a.edges b.edges && decide (a.curIdx', 'decide (a.curIdx', 'C57 equal objects cannot be told apart')
m('eq-no-delta', EQ, 'Bound.eq', '    && decide (a.oppositeWindingCount = b.oppositeWindingCount) && decide (a.windingDelta = b.windingDelta)\n', '    && decide (a.oppositeWindingCount = b.oppositeWindingCount)\n', 'C57 equal objects cannot be told apart')
m('eq-no-kind', EQ, 'Bound.eq', 'decide (a.polygonKind = b.polygonKind) && ', '', 'C57 equal objects cannot be told apart')
m('eq-partners', EQ, 'Bound.eq', 'decide (a.polygonKind = b.polygonKind) && ', 'decide (a.polygonKind = b.polygonKind) && decide (a.maximumBound = b.maximumBound) && ', 'C57 equal objects can differ: false of this program')
m('eq-left-twice', EQ, 'LocalMinimum.eq', '(f a.right).eq ringEq (g b.right)', '(f a.left).eq ringEq (g b.left)', 'C57 equal objects cannot be told apart')
m('eq-no-horizontal', EQ, 'LocalMinimum.eq', '\n    && decide (a.hasHorizontal = b.hasHorizontal)', '', 'C57 equal objects cannot be told apart')
m('eq-no-output-flag', EQ, 'Wagyu.eq', ' && decide (a.reverseOutput = b.reverseOutput)', '', 'C57 equal objects cannot be told apart')
m('eq-prefix', EQ, 'listEq', '  | _, _ => false\n\n/-- bound.py:71', '  | [], _ => true\n  | _, _ => false\n\n/-- bound.py:71', 'C57 equal objects cannot be told apart')
m('eq-position-of-index', EQ, 'Bound.eq', ' && decide (a.curIdx = b.curIdx) && decide (a.nxtIdx = b.nxtIdx)\n', '\n', 'C57 operations can be observed by comparing (other attributes are left)')
m('repeat-no-skip', LR, 'edgesSkip', '    if pt1 = pt2 then\n', '    if pt1 = pt2 ∧ fuel = 0 then\n', 'C58 a repeated first point at the end changes nothing')
m('repeat-first-edge', LR, 'edgesStep', '  if s.pt2 = s.pt3 then\n', '  if s.pt2 = s.pt3 ∧ s.acc ≠ [] then\n', 'C58 a repeated point changes nothing')
m('repeat-break-early', LR, 'edgesStep', 'if s.index = s.lri then .ok (.brk s) else edgesAdvance pts s', '.ok (.brk s)', 'C58 a repeated point changes nothing')
m('repeat-back-once', LR, 'edgesBack', 'else edgesBack pts pt2 index fuel (ri - 1)', 'else .ok (some (ri - 1))', 'C58 a repeated first point at the end of the ring changes nothing')
m('repeat-spike-end', LR, 'edgesBack', 'if index = ri - 1 then .ok none else', 'if index = ri then .ok none else', 'C58 a ring that runs there and back has no edges, repeated points or not')
m('shape-mk-swapped', LR, 'edgesStep', "acc := Edge.mk' s.pt2 s.pt3 :: s.acc", "acc := Edge.mk' s.pt3 s.pt2 :: s.acc", 'C59 the edges go around the path (horizontal edges from one vertex to the next)')
m('shape-horizontal-join', LR, 'closeStep', 'else some ({ f with bottom := b.bottom } :: mid)', "else some (Edge.mk' f.top b.bottom :: mid)", 'C59 rings of one shape have the same edges (joined horizontal edges included)')
m('shape-close-once', LR, 'closeLoop', '          | some l\' => closeLoop n l\'', '          | some l\' => l\'', 'C59 no vertex is on one line with its neighbours')
m('shape-spike-pop', LR, 'edgesStep', "let pt1 := if back.x = e.top.x ∧ back.y = e.top.y then e.bottom else e.top", "let pt1 := if back.y = e.top.y then e.bottom else e.top", 'C59 the path has the shape of the ring')
m('shape-start', LR, 'edgesOf', "{ acc := [], index := 1,", "{ acc := [], index := 2,", 'C59 the path has the shape of the ring')
WG = 'Model/Wagyu.lean'
m('start-no-rotation', LM, 'toEdgesStartingOnLocalMaximum', 'rotateSequence edges (toLocalMaximumIndex edges : Int) else edges', 'edges else edges', 'C60, C63 the starting point does not matter')
m('start-flat-top', LM, 'localMaximumIndexFrom', "if yDecreasing && (decide (edge.top = prev.bottom) || decide (edge.top = prev.top)) then i", "if yDecreasing && decide (edge.top = prev.top) then i", 'C60, C63 the starting point does not matter')
m('start-seen-before', LM, 'toLocalMaximumIndex', 'localMaximumIndexFrom prev false 0 edges', 'localMaximumIndexFrom prev true 0 edges', 'C60, C63 the starting point does not matter')
m('nothing-answers-true', LM, 'Minimums.addLinearRing', '  | .ok [] => (m, .ok false)', '  | .ok [] => (m, .ok true)', 'C62 a ring without extent is answered False')
m('nothing-counted', LM, 'Minimums.addLinearRing', '  | .ok [] => (m, .ok false)', '  | .ok [] => ({ m with nb := m.nb + 1 }, .ok false)', 'C62 a ring without extent changes nothing')
m('polygon-last-answer', WG, 'Wagyu.addPolygonFrom', '(if b && !result then true else result) kind rings', 'b kind rings', 'C62 leaving out rings without extent does not change the answer')
m('polygon-stops', WG, 'Wagyu.addPolygonFrom', '    | (w, .ok b) => w.addPolygonFrom', '    | (w, .ok false) => (w, .ok result)\n    | (w, .ok b) => w.addPolygonFrom', 'C62 rings after a ring without extent are added')
m('polygon-first-ring', WG, 'Wagyu.addPolygonFrom', '    | (w, .ok b) => w.addPolygonFrom', '    | (w, .ok true) => (w, .ok true)\n    | (w, .ok b) => w.addPolygonFrom', 'C64 every ring of a polygon is added')
m('polygon-holes-reversed', WG, 'Wagyu.addPolygonFrom', '    match w.addLinearRing fuel ring kind with', '    match w.addLinearRing fuel (if result then ring.reverse else ring) kind with', 'C64 adding a polygon is adding its rings')
