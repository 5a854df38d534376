import Verif.Proofs.FuelTopology

/-!
# C39: an operation on two convex quadrilaterals fails

The two quadrilaterals below share part of a line: the edge from `(1, 0)` to `(0, -49)` of the first lies on the edge from
`(1, 0)` to `(-1, -98)` of the second.  At the scanline `y = -49` the first ends with the horizontal edge from `(-5, -49)` to
`(0, -49)`.  The second one's x there is computed as `1 + (-2 / -98) * -49 = 1.11e-16`, which is "greater than" `0.0`, so that
the horizontal edge stops before it reaches its partner, which is to the right of the second's edge in the list of active
bounds (edges with equal slopes are never exchanged): the bound of the horizontal is dropped, its partner stays
(ring_manager.py:1463-1465, 1507-1510).  Later the winding counts are wrong and `do_maxima` finds half an output ring.
-/

namespace Wagyu

/-- Is the exception `RuntimeError(message)`? -/
def isRuntimeError (message : String) : Except Err Multipolygon → Bool
  | .error (.runtime m) => m == message
  | _ => false

/-- Do all corners `p, q, r` of the closed ring turn in the same direction? -/
def turnsOneWay (ring : LinearRing) : Bool :=
  let turned (k : Nat) := ring.drop k ++ ring.take k
  let corners := ring.zip ((turned 1).zip (turned 2))
  corners.all fun (p, q, r) => decide ((q.x - p.x) * (r.y - q.y) - (q.y - p.y) * (r.x - q.x) > 0)

def leaningQuad : LinearRing := [⟨-5, -49⟩, ⟨0, -49⟩, ⟨1, 0⟩, ⟨-6, 1⟩]
def touchingQuad : LinearRing := [⟨-20, -10⟩, ⟨-20, -50⟩, ⟨-1, -98⟩, ⟨1, 0⟩]

/-- A new object, with the first quadrilateral added as subject and the second one as clip. -/
def twoQuads : Wagyu :=
  (((Wagyu.new false).addLinearRing 100 leaningQuad .subject).1.addLinearRing 100 touchingQuad .clip).1

/-- With 200 steps for every loop the three operations end with the exception. -/
theorem quads_fail : isRuntimeError "DoMaxima error" (twoQuads.intersect 200).2 = true
    ∧ isRuntimeError "DoMaxima error" (twoQuads.unite 200).2 = true
    ∧ isRuntimeError "DoMaxima error" (twoQuads.subtract 200).2 = true := by
  decide +kernel

theorem fails_more (w : Wagyu) (op : OperationKind) (sf cf : FillKind) (message : String) (n n' : Nat) (hn : n ≤ n')
    (h : isRuntimeError message (w.execute n op sf cf).2 = true) : (w.execute n' op sf cf).2 = .error (.runtime message) := by
  cases hr : (w.execute n op sf cf).2 with
  | ok a => rw [hr] at h; cases h
  | error e =>
    rw [hr] at h
    cases e with
    | runtime m =>
      have h1 : m = message := beq_iff_eq.1 h
      rw [execute_more w op sf cf n n' hn (fun e he => by rw [hr] at he; cases he; exact ⟨by simp, by simp⟩), hr, h1]
    | _ => cases h

/-- **C39** (violation).  Two convex quadrilaterals with coordinates below 100, both accepted by `add_linear_ring`: `intersect`, `unite` and
`subtract` raise `RuntimeError('DoMaxima error')`.  (`fuel` bounds the steps of every loop of the model; the outcome is the same for
all sufficiently large values.) -/
theorem C39_operations_fail : turnsOneWay leaningQuad = true ∧ turnsOneWay touchingQuad = true
    ∧ twoQuads.minimums.values.length = 2
    ∧ ∀ fuel ≥ 200, (twoQuads.intersect fuel).2 = .error (.runtime "DoMaxima error")
      ∧ (twoQuads.unite fuel).2 = .error (.runtime "DoMaxima error")
      ∧ (twoQuads.subtract fuel).2 = .error (.runtime "DoMaxima error") := by
  refine ⟨by decide +kernel, by decide +kernel, by decide +kernel, fun fuel hf => ?_⟩
  obtain ⟨h1, h2, h3⟩ := quads_fail
  exact ⟨fails_more _ _ _ _ _ 200 fuel hf h1, fails_more _ _ _ _ _ 200 fuel hf h2, fails_more _ _ _ _ _ 200 fuel hf h3⟩

/-- **C39**: every outcome of an operation other than an exhausted loop or recursion bound of the model is its outcome for every larger bound: the
bound is an artefact of the model, and statements about one outcome are statements about the program. -/
theorem C39_outcome_unique (w : Wagyu) (op : OperationKind) (sf cf : FillKind) (n n' : Nat)
    (h : ∀ e, (w.execute n op sf cf).2 = .error e → e ≠ .fuel ∧ e ≠ .recursion)
    (h' : ∀ e, (w.execute n' op sf cf).2 = .error e → e ≠ .fuel ∧ e ≠ .recursion) : w.execute n op sf cf = w.execute n' op sf cf := by
  rcases Nat.le_total n n' with hn | hn
  · exact (execute_more w op sf cf n n' hn h).symm
  · exact execute_more w op sf cf n' n hn h'

/-- Four triangles and a quadrilateral with coordinates from 0 to 4. -/
def smallPolygons : Wagyu :=
  [([⟨1, 0⟩, ⟨0, 3⟩, ⟨2, 3⟩], PolygonKind.subject), ([⟨0, 0⟩, ⟨2, 4⟩, ⟨0, 3⟩], .subject), ([⟨0, 2⟩, ⟨2, 3⟩, ⟨2, 0⟩], .clip),
    ([⟨2, 3⟩, ⟨0, 0⟩, ⟨3, 2⟩], .clip), ([⟨1, 3⟩, ⟨0, 0⟩, ⟨3, 4⟩, ⟨0, 1⟩], .clip)].foldl (fun w r => (w.addLinearRing 100 r.1 r.2).1) (Wagyu.new false)

theorem small_fails : isRuntimeError "Could not properly place hole to a parent" (smallPolygons.execute 200 .xor .evenOdd .evenOdd).2 = true := by
  decide +kernel

/-- **C39** (violation).  Of the polygons above, all accepted, `symmetric_subtract` raises
`RuntimeError('Could not properly place hole to a parent')`: the second of the exceptions that C41 leaves possible. -/
theorem C39_hole_without_parent : smallPolygons.minimums.values.length = 6
    ∧ ∀ fuel ≥ 200, (smallPolygons.execute fuel .xor .evenOdd .evenOdd).2 = .error (.runtime "Could not properly place hole to a parent") :=
  ⟨by decide +kernel, fun fuel hf => fails_more _ _ _ _ _ 200 fuel hf small_fails⟩

/-- A square as subject, three triangles and a quadrilateral as clip. -/
def squareAndFour : Wagyu :=
  [([⟨0, 0⟩, ⟨7, 0⟩, ⟨7, 7⟩, ⟨0, 7⟩], PolygonKind.subject), ([⟨3, 3⟩, ⟨5, 1⟩, ⟨5, 2⟩], .clip), ([⟨4, 3⟩, ⟨6, 1⟩, ⟨3, 2⟩], .clip),
    ([⟨4, 3⟩, ⟨3, 2⟩, ⟨3, 3⟩, ⟨4, 0⟩], .clip), ([⟨5, 1⟩, ⟨3, 4⟩, ⟨3, 1⟩], .clip)].foldl (fun w r => (w.addLinearRing 100 r.1 r.2).1) (Wagyu.new false)

/-- A triangle as subject, five triangles as clip. -/
def sixTriangles : Wagyu :=
  [([⟨6, 0⟩, ⟨6, 6⟩, ⟨0, 6⟩], PolygonKind.subject), ([⟨5, 4⟩, ⟨2, 5⟩, ⟨3, 5⟩], .clip), ([⟨5, 5⟩, ⟨4, 3⟩, ⟨2, 3⟩], .clip),
    ([⟨5, 5⟩, ⟨5, 4⟩, ⟨4, 4⟩], .clip), ([⟨5, 5⟩, ⟨2, 2⟩, ⟨3, 4⟩], .clip), ([⟨5, 3⟩, ⟨5, 2⟩, ⟨4, 4⟩], .clip)].foldl
    (fun w r => (w.addLinearRing 100 r.1 r.2).1) (Wagyu.new false)

theorem merges_fail : isRuntimeError "Trying to assign a child that is the same orientation as the parent" (squareAndFour.subtract 200).2 = true
    ∧ isRuntimeError "Trying to assign to be a sibling that is not the same orientation as the sibling" (sixTriangles.intersect 200).2 = true := by
  decide +kernel

/-- **C39** (violation).  The last stage of the topology correction can fail as well: of the polygons above, all accepted,
`subtract` and `intersect` raise the `RuntimeError`s about orientations of `assign_as_child` and `assign_as_sibling`, after
having merged touching rings. -/
theorem C39_merges_fail : squareAndFour.minimums.values.length = 6 ∧ sixTriangles.minimums.values.length = 6
    ∧ ∀ fuel ≥ 200, (squareAndFour.subtract fuel).2 = .error (.runtime "Trying to assign a child that is the same orientation as the parent")
      ∧ (sixTriangles.intersect fuel).2 = .error (.runtime "Trying to assign to be a sibling that is not the same orientation as the sibling") :=
  ⟨by decide +kernel, by decide +kernel, fun fuel hf => ⟨fails_more _ _ _ _ _ 200 fuel hf merges_fail.1, fails_more _ _ _ _ _ 200 fuel hf merges_fail.2⟩⟩

/-- Two quadrilaterals with an overlapping side, the second one with crossing sides. -/
def crossedQuads : Wagyu :=
  (((Wagyu.new false).addLinearRing 100 [⟨5, 2⟩, ⟨-7, -295⟩, ⟨0, -295⟩, ⟨6, -1⟩] .subject).1.addLinearRing 100
    [⟨6, -1⟩, ⟨-2, -393⟩, ⟨6, -135⟩, ⟨-8, -153⟩] .clip).1

theorem lines_fail : isRuntimeError "Trying to find intersection of lines that do not intersect" (crossedQuads.unite 200).2 = true := by
  decide +kernel

/-- **C39** (violation).  The remaining exception of the sweep (C40) occurs as well: of the quadrilaterals above, both accepted, `unite`
raises `RuntimeError('Trying to find intersection of lines that do not intersect')`. -/
theorem C39_lines_fail : crossedQuads.minimums.values.length = 3
    ∧ ∀ fuel ≥ 200, (crossedQuads.unite fuel).2 = .error (.runtime "Trying to find intersection of lines that do not intersect") :=
  ⟨by decide +kernel, fun fuel hf => fails_more _ _ _ _ _ 200 fuel hf lines_fail⟩

end Wagyu
