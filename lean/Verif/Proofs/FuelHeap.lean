import Verif.Proofs.Fuel

/-! # The fuel is an artefact: the statements about nodes and rings -/

namespace Wagyu

theorem Up.forNodes {f f' : Nat → M Unit} (h : ∀ i, Up (f i) (f' i)) (start : Nat) : Up (Wagyu.forNodes start f) (Wagyu.forNodes start f') := by
  unfold Wagyu.forNodes
  refine Up.loopM (fun c => Up.bind (h c) fun _ => ?_) _
  up

macro_rules | `(tactic| upx) => `(tactic| with_reducible refine Up.forNodes (fun _ => ?_) _)

instance Up.nodesFrom (start : Nat) :
    Up (Wagyu.nodesFrom start) (Wagyu.nodesFrom start) := by
  unfold Wagyu.nodesFrom; up

instance Up.nodesBackFrom (start : Nat) :
    Up (Wagyu.nodesBackFrom start) (Wagyu.nodesBackFrom start) := by
  unfold Wagyu.nodesBackFrom; up

instance Up.nodeStats (start : Nat) :
    Up (Wagyu.nodeStats start) (Wagyu.nodeStats start) := by
  unfold Wagyu.nodeStats; up

theorem Up.skipSame {f f' : Nat → M Nat} (h : ∀ i, Up (f i) (f' i)) (a : Nat) : Up (Wagyu.skipSame f a) (Wagyu.skipSame f' a) := by
  unfold Wagyu.skipSame
  refine Up.bind (h a) fun x => Up.loopM (fun c => ?_) _
  refine Up.bind inferInstance fun _ => Up.bind inferInstance fun _ => Up.ite (Up.bind (h c) fun _ => ?_) ?_ <;> up

macro_rules | `(tactic| upx) => `(tactic| with_reducible refine Up.skipSame (fun _ => ?_) _)

instance Up.isBottomTo (self other : Nat) :
    Up (Wagyu.isBottomTo self other) (Wagyu.isBottomTo self other) := by
  unfold Wagyu.isBottomTo; up

instance Up.bottomNodeOf (self : Nat) :
    Up (Wagyu.bottomNodeOf self) (Wagyu.bottomNodeOf self) := by
  unfold Wagyu.bottomNodeOf; up

instance Up.reverseNodes (self : Nat) :
    Up (Wagyu.reverseNodes self) (Wagyu.reverseNodes self) := by
  unfold Wagyu.reverseNodes; up

instance Up.placeBefore (self other : Nat) :
    Up (Wagyu.placeBefore self other) (Wagyu.placeBefore self other) := by
  unfold Wagyu.placeBefore; up

instance Up.pointInPolygonWith (px py : F64) (det : Point → Point → F64) (start : Nat) :
    Up (Wagyu.pointInPolygonWith px py det start) (Wagyu.pointInPolygonWith px py det start) := by
  unfold Wagyu.pointInPolygonWith; up

instance Up.pointInPolygon (pt : Point) (op : Nat) :
    Up (Wagyu.pointInPolygon pt op) (Wagyu.pointInPolygon pt op) := by
  unfold Wagyu.pointInPolygon; up

instance Up.fpointInPolygon (pt : FPoint) (op : Nat) :
    Up (Wagyu.fpointInPolygon pt op) (Wagyu.fpointInPolygon pt op) := by
  unfold Wagyu.fpointInPolygon; up

instance Up.pointsCentroid (node : Nat) :
    Up (Wagyu.pointsCentroid node) (Wagyu.pointsCentroid node) := by
  unfold Wagyu.pointsCentroid; up

instance Up.hasCollinearEdge (a b : Nat) :
    Up (Wagyu.hasCollinearEdge a b) (Wagyu.hasCollinearEdge a b) := by
  unfold Wagyu.hasCollinearEdge; up

instance Up.collinearSearch (a b : Nat) :
    Up (Wagyu.collinearSearch a b) (Wagyu.collinearSearch a b) := by
  unfold Wagyu.collinearSearch; up

instance Up.advanceRepeats (sameRing : Bool) (step : Node → Option Nat) (stop start : Nat) :
    Up (Wagyu.advanceRepeats sameRing step stop start) (Wagyu.advanceRepeats sameRing step stop start) := by
  unfold Wagyu.advanceRepeats; up

instance Up.findStartAndEndOfCollinearEdges (a b : Nat) :
    Up (Wagyu.findStartAndEndOfCollinearEdges a b) (Wagyu.findStartAndEndOfCollinearEdges a b) := by
  unfold Wagyu.findStartAndEndOfCollinearEdges; up

instance Up.unlinkNode (itr : Nat) :
    Up (Wagyu.unlinkNode itr) (Wagyu.unlinkNode itr) := by
  unfold Wagyu.unlinkNode; up

instance Up.unlinkUntil (start stop : Nat) :
    Up (Wagyu.unlinkUntil start stop) (Wagyu.unlinkUntil start stop) := by
  unfold Wagyu.unlinkUntil; up

instance Up.unlinkDo (start stop : Nat) :
    Up (Wagyu.unlinkDo start stop) (Wagyu.unlinkDo start stop) := by
  unfold Wagyu.unlinkDo; up

instance Up.fixCollinearPath (start1 end1 start2 end2 : Nat) :
    Up (Wagyu.fixCollinearPath start1 end1 start2 end2) (Wagyu.fixCollinearPath start1 end1 start2 end2) := by
  unfold Wagyu.fixCollinearPath; up

instance Up.recalculateStats (r : Nat) :
    Up (Wagyu.recalculateStats r) (Wagyu.recalculateStats r) := by
  unfold Wagyu.recalculateStats; up

instance Up.ringArea (r : Nat) :
    Up (Wagyu.ringArea r) (Wagyu.ringArea r) := by
  unfold Wagyu.ringArea; up

instance Up.ringIsHole (r : Nat) :
    Up (Wagyu.ringIsHole r) (Wagyu.ringIsHole r) := by
  unfold Wagyu.ringIsHole; up

instance Up.ringSize (r : Nat) :
    Up (Wagyu.ringSize r) (Wagyu.ringSize r) := by
  unfold Wagyu.ringSize; up

instance Up.ringDepth (r : Nat) :
    Up (Wagyu.ringDepth r) (Wagyu.ringDepth r) := by
  unfold Wagyu.ringDepth; up

instance Up.isDescendantOf (r other : Nat) :
    Up (Wagyu.isDescendantOf r other) (Wagyu.isDescendantOf r other) := by
  unfold Wagyu.isDescendantOf; up

instance Up.updatePoints (r : Nat) :
    Up (Wagyu.updatePoints r) (Wagyu.updatePoints r) := by
  unfold Wagyu.updatePoints; up

instance Up.isConvex (node : Nat) :
    Up (Wagyu.isConvex node) (Wagyu.isConvex node) := by
  unfold Wagyu.isConvex; up

instance Up.insideOrOutsideSpecial (first other : Nat) :
    Up (Wagyu.insideOrOutsideSpecial first other) (Wagyu.insideOrOutsideSpecial first other) := by
  unfold Wagyu.insideOrOutsideSpecial; up

instance Up.ringInsideOf (r other : Nat) :
    Up (Wagyu.ringInsideOf r other) (Wagyu.ringInsideOf r other) := by
  unfold Wagyu.ringInsideOf; up

instance Up.getLowermostRing (r other : Nat) :
    Up (Wagyu.getLowermostRing r other) (Wagyu.getLowermostRing r other) := by
  unfold Wagyu.getLowermostRing; up

instance Up.sameOrientation (ring : Nat) (parent : Option Nat) :
    Up (Wagyu.sameOrientation ring parent) (Wagyu.sameOrientation ring parent) := by
  unfold Wagyu.sameOrientation; up

instance Up.assignAsChild (ring : Nat) (parent : Option Nat) :
    Up (Wagyu.assignAsChild ring parent) (Wagyu.assignAsChild ring parent) := by
  unfold Wagyu.assignAsChild; up

instance Up.assignAsSibling (ring sibling : Nat) :
    Up (Wagyu.assignAsSibling ring sibling) (Wagyu.assignAsSibling ring sibling) := by
  unfold Wagyu.assignAsSibling; up

instance Up.reassignAsChild (ring : Nat) (parent : Option Nat) :
    Up (Wagyu.reassignAsChild ring parent) (Wagyu.reassignAsChild ring parent) := by
  unfold Wagyu.reassignAsChild; up

instance Up.removeRing (n n' : Nat) [hn : LeF n n'] (r : Nat) (c p : Bool) : Up (Wagyu.removeRing n r c p) (Wagyu.removeRing n' r c p) := by
  revert n' r c p
  induction n with
  | zero => intro n' _ r c p; exact Up.out (fun h => h.2 rfl)
  | succ n ih =>
    intro n' hn r c p
    obtain ⟨k, rfl⟩ : ∃ k, n' = k + 1 := ⟨n' - 1, by have := hn.le; omega⟩
    have : LeF n k := ⟨by have := hn.le; omega⟩
    rw [Wagyu.removeRing, Wagyu.removeRing]
    have ih' := fun r c p => ih k r c p
    up

instance Up.detachNodes (ring : Nat) :
    Up (Wagyu.detachNodes ring) (Wagyu.detachNodes ring) := by
  unfold Wagyu.detachNodes; up

instance Up.removeRingAndPoints (n n' : Nat) [hn : LeF n n'] (r : Nat) (c p : Bool) : Up (Wagyu.removeRingAndPoints n r c p) (Wagyu.removeRingAndPoints n' r c p) := by
  revert n' r c p
  induction n with
  | zero => intro n' _ r c p; exact Up.out (fun h => h.2 rfl)
  | succ n ih =>
    intro n' hn r c p
    obtain ⟨k, rfl⟩ : ∃ k, n' = k + 1 := ⟨n' - 1, by have := hn.le; omega⟩
    have : LeF n k := ⟨by have := hn.le; omega⟩
    rw [Wagyu.removeRingAndPoints, Wagyu.removeRingAndPoints]
    have ih' := fun r c p => ih k r c p
    up

end Wagyu
