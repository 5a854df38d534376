import Verif.Model.Sweep

/-!
# Specification: the events of the sweep that builds the output rings

Between events the sweep adds points to rings, advances bounds to their next edges, records current x and drops removed
entries from the list of active bounds.
-/

namespace Wagyu

/-- The active bounds, from left to right, without the removed ones. -/
def act (s : St) : List Nat := s.abl.filterMap id

namespace Spec

/-- `a` and `b` are at the positions `i` and `j` of the list of active bounds, with only removed entries in between. -/
structure Adjacent (s : St) (i j a b : Nat) : Prop where
  lt : i < j
  fst : s.abl[i]? = some (some a)
  snd : s.abl[j]? = some (some b)
  between : ∀ k, i < k → k < j → s.abl[k]? = some none

/-- The two bounds of a local minimum or maximum: of the same polygon, with opposite unit winding deltas. -/
structure Partners (s : St) (a b : Nat) : Prop where
  unit : (s.bounds a).windingDelta = 1 ∨ (s.bounds a).windingDelta = -1
  kind : (s.bounds b).polygonKind = (s.bounds a).polygonKind
  delta : (s.bounds b).windingDelta = -(s.bounds a).windingDelta

/-- The part of the state of a bound the events read. -/
structure SameState (b c : Bound) : Prop where
  kind : c.polygonKind = b.polygonKind
  delta : c.windingDelta = b.windingDelta
  count : c.windingCount = b.windingCount
  opposite : c.oppositeWindingCount = b.oppositeWindingCount
  ring : c.ring = b.ring
  side : c.side = b.side

/-- The events.  A local minimum is inserted (ring_manager.py:957-961, 1053-1057); two adjacent bounds cross
(ring_manager.py:1677-1681, 678-682, 1489-1493, 1581-1585); the two bounds of a local maximum, adjacent by then, end:
their rings, if both carry one, are closed (ring_manager.py:687-695, 1477-1486, 1567-1576, `a` and `b` in either order);
anything else leaves the state of the active bounds alone. -/
inductive Event (op : OperationKind) (sf cf : FillKind) : St → St → Prop
  | minimum {s s' : St} (m : LocalMinimum) : m.left ≠ m.right → m.left ∉ act s → m.right ∉ act s →
      (s.bounds m.left).edges ≠ [] → (s.bounds m.right).edges ≠ [] → Partners s m.left m.right →
      (do initializeMinimum m
          insertLmLeftAndRightBound op sf cf m.left m.right : M Unit) s = .ok () s' → Event op sf cf s s'
  | crossing {s s' : St} (p : Point) (i j a b : Nat) : Adjacent s i j a b →
      (do intersectBounds p op sf cf a b
          ablSwap i j : M Unit) s = .ok () s' → Event op sf cf s s'
  | maximum {s s' : St} (p : Point) (i j a b : Nat) : Adjacent s i j a b ∨ Adjacent s j i b a → Partners s a b →
      (do if (← getBound a).ring.isSome ∧ (← getBound b).ring.isSome then addLocalMaximumPoint p a b
          ablSet i none
          ablSet j none : M Unit) s = .ok () s' → Event op sf cf s s'
  | quiet {s s' : St} : act s' = act s → s'.nr = s.nr → (∀ b ∈ act s, SameState (s.bounds b) (s'.bounds b)) →
      Event op sf cf s s'

/-- The states reached from one without active bounds by any number of events. -/
inductive Reached (op : OperationKind) (sf cf : FillKind) : St → Prop
  | start (s : St) : act s = [] → Reached op sf cf s
  | step {s s' : St} : Reached op sf cf s → Event op sf cf s s' → Reached op sf cf s'

end Spec

end Wagyu
