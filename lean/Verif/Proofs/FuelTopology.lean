import Verif.Proofs.FuelSweep

/-! # The fuel is an artefact: the topology correction and the result -/

namespace Wagyu

instance Up.ringHasArea (r : Nat) :
    Up (Wagyu.ringHasArea r) (Wagyu.ringHasArea r) := by
  unfold Wagyu.ringHasArea; up

instance Up.removeRingKeepChildren (r : Nat) :
    Up (Wagyu.removeRingKeepChildren r) (Wagyu.removeRingKeepChildren r) := by
  unfold Wagyu.removeRingKeepChildren; up

instance Up.removeRingAndPointsKeepChildren (r : Nat) :
    Up (Wagyu.removeRingAndPointsKeepChildren r) (Wagyu.removeRingAndPointsKeepChildren r) := by
  unfold Wagyu.removeRingAndPointsKeepChildren; up

theorem Up.forChildren {f f' : Nat → M Unit} (h : ∀ i, Up (f i) (f' i)) (p : Option Nat) : Up (Wagyu.forChildren p f) (Wagyu.forChildren p f') := by
  unfold Wagyu.forChildren
  have := h
  up

macro_rules | `(tactic| upx) => `(tactic| with_reducible refine Up.forChildren (fun _ => ?_) _)

instance Up.reassignChildrenIfNecessary (newRing : Nat) (sibling : Option Nat) (newRings : List Nat) :
    Up (Wagyu.reassignChildrenIfNecessary newRing sibling newRings) (Wagyu.reassignChildrenIfNecessary newRing sibling newRings) := by
  unfold Wagyu.reassignChildrenIfNecessary; up

instance Up.findParentInTree (n n' : Nat) [hn : LeF n n'] (r p : Nat) : Up (Wagyu.findParentInTree n r p) (Wagyu.findParentInTree n' r p) := by
  revert n' r p
  induction n with
  | zero => intro n' _ r p; exact Up.out (fun h => h.2 rfl)
  | succ n ih =>
    intro n' hn r p
    obtain ⟨k, rfl⟩ : ∃ k, n' = k + 1 := ⟨n' - 1, by have := hn.le; omega⟩
    have : LeF n k := ⟨by have := hn.le; omega⟩
    rw [Wagyu.findParentInTree, Wagyu.findParentInTree]
    have ih' := fun r p => ih k r p
    up

instance Up.sortByArea (rings : List Nat) :
    Up (Wagyu.sortByArea rings) (Wagyu.sortByArea rings) := by
  unfold Wagyu.sortByArea; up

instance Up.findAmongPrevious (a b : Nat) (o : Bool) (l m : List Nat) : Up (Wagyu.findAmongPrevious a b o l m) (Wagyu.findAmongPrevious a b o l m) := by
  induction m with
  | nil => exact Up.ret _
  | cons x m ih => rw [Wagyu.findAmongPrevious]; up

instance Up.assignNewRingParentsLoop (a : Nat) (o : Bool) (l d m : List Nat) : Up (Wagyu.assignNewRingParentsLoop a o l d m) (Wagyu.assignNewRingParentsLoop a o l d m) := by
  induction m generalizing d with
  | nil => exact Up.ret _
  | cons x m ih => rw [Wagyu.assignNewRingParentsLoop]; up

instance Up.assignNewRingParents (original : Nat) (newRings : List Nat) :
    Up (Wagyu.assignNewRingParents original newRings) (Wagyu.assignNewRingParents original newRings) := by
  unfold Wagyu.assignNewRingParents; up

instance Up.correctSelfIntersection (first second : Nat) :
    Up (Wagyu.correctSelfIntersection first second) (Wagyu.correctSelfIntersection first second) := by
  unfold Wagyu.correctSelfIntersection; up

theorem Up.forRuns {f f' : Nat → Nat → M Unit} (h : ∀ i j, Up (f i j) (f' i j)) (l : List Nat) : Up (Wagyu.forRuns l f) (Wagyu.forRuns l f') := by
  unfold Wagyu.forRuns
  have := h
  up

macro_rules | `(tactic| upx) => `(tactic| with_reducible refine Up.forRuns (fun _ _ => ?_) _)

theorem Up.forPairsInner {σ : Type} {f f' : Nat → Nat → σ → M σ} (h : ∀ i j x, Up (f i j x) (f' i j x)) (a : Nat) (l : List Nat) (x : σ) :
    Up (Wagyu.forPairs.inner f a l x) (Wagyu.forPairs.inner f' a l x) := by
  induction l generalizing x with
  | nil => exact Up.ret _
  | cons b l ih => rw [Wagyu.forPairs.inner, Wagyu.forPairs.inner]; have := h; up

theorem Up.forPairs {σ : Type} {f f' : Nat → Nat → σ → M σ} (h : ∀ i j x, Up (f i j x) (f' i j x)) (l : List Nat) (x : σ) :
    Up (Wagyu.forPairs f l x) (Wagyu.forPairs f' l x) := by
  induction l generalizing x with
  | nil => exact Up.ret _
  | cons b l ih =>
    rw [Wagyu.forPairs, Wagyu.forPairs]
    have := fun a l x => Up.forPairsInner h a l x
    up

macro_rules | `(tactic| upx) => `(tactic| with_reducible refine Up.forPairs (fun _ _ _ => ?_) _ _)

instance Up.correctRepeatedPoints (newRings : List Nat) (nodes : List Nat) (start stop : Nat) :
    Up (Wagyu.correctRepeatedPoints newRings nodes start stop) (Wagyu.correctRepeatedPoints newRings nodes start stop) := by
  unfold Wagyu.correctRepeatedPoints; up

instance Up.sortedNodes (r : Nat) :
    Up (Wagyu.sortedNodes r) (Wagyu.sortedNodes r) := by
  unfold Wagyu.sortedNodes; up

instance Up.findAndCorrectRepeatedPoints (ring : Nat) :
    Up (Wagyu.findAndCorrectRepeatedPoints ring) (Wagyu.findAndCorrectRepeatedPoints ring) := by
  unfold Wagyu.findAndCorrectRepeatedPoints; up

instance Up.correctRingSelfIntersections (ring : Nat) (correctTree : Bool) :
    Up (Wagyu.correctRingSelfIntersections ring correctTree) (Wagyu.correctRingSelfIntersections ring correctTree) := by
  unfold Wagyu.correctRingSelfIntersections; up

instance Up.ringKeys  :
    Up (Wagyu.ringKeys) (Wagyu.ringKeys) := by
  unfold Wagyu.ringKeys; up

instance Up.sortedRings  :
    Up (Wagyu.sortedRings) (Wagyu.sortedRings) := by
  unfold Wagyu.sortedRings; up

instance Up.reversedSortedRings  :
    Up (Wagyu.reversedSortedRings) (Wagyu.reversedSortedRings) := by
  unfold Wagyu.reversedSortedRings; up

instance Up.correctSelfGo (b : Bool) (l : List Nat) (acc : Bool) :
    Up (Wagyu.correctSelfIntersections.go b l acc) (Wagyu.correctSelfIntersections.go b l acc) := by
  induction l generalizing acc with
  | nil => exact Up.ret _
  | cons x l ih => rw [Wagyu.correctSelfIntersections.go]; up

instance Up.correctSelfIntersections (correctTree : Bool) :
    Up (Wagyu.correctSelfIntersections correctTree) (Wagyu.correctSelfIntersections correctTree) := by
  unfold Wagyu.correctSelfIntersections; up

instance Up.correctOrientations  :
    Up (Wagyu.correctOrientations) (Wagyu.correctOrientations) := by
  unfold Wagyu.correctOrientations; up

instance Up.dropNeighbour (node outsider : Nat) (forward : Bool) :
    Up (Wagyu.dropNeighbour node outsider forward) (Wagyu.dropNeighbour node outsider forward) := by
  unfold Wagyu.dropNeighbour; up

instance Up.dropSame (node : Nat) (forward : Bool) :
    Up (Wagyu.dropSame node forward) (Wagyu.dropSame node forward) := by
  unfold Wagyu.dropSame; up

instance Up.removeDuplicatePoints (first second : Nat) :
    Up (Wagyu.removeDuplicatePoints first second) (Wagyu.removeDuplicatePoints first second) := by
  unfold Wagyu.removeDuplicatePoints; up

instance Up.processCollinearEdgesDifferentRings (first second : Nat) :
    Up (Wagyu.processCollinearEdgesDifferentRings first second) (Wagyu.processCollinearEdgesDifferentRings first second) := by
  unfold Wagyu.processCollinearEdgesDifferentRings; up

instance Up.processCollinearEdgesSameRing (first second : Nat) :
    Up (Wagyu.processCollinearEdgesSameRing first second) (Wagyu.processCollinearEdgesSameRing first second) := by
  unfold Wagyu.processCollinearEdgesSameRing; up

instance Up.processCollinearEdges (first second : Nat) :
    Up (Wagyu.processCollinearEdges first second) (Wagyu.processCollinearEdges first second) := by
  unfold Wagyu.processCollinearEdges; up

instance Up.correctCollinearRepeats (nodes : List Nat) (start stop : Nat) :
    Up (Wagyu.correctCollinearRepeats nodes start stop) (Wagyu.correctCollinearRepeats nodes start stop) := by
  unfold Wagyu.correctCollinearRepeats; up

instance Up.correctCollinearEdges  :
    Up (Wagyu.correctCollinearEdges) (Wagyu.correctCollinearEdges) := by
  unfold Wagyu.correctCollinearEdges; up

instance Up.findContaining (a : Nat) (m : List Nat) : Up (Wagyu.findContaining a m) (Wagyu.findContaining a m) := by
  induction m with
  | nil => exact Up.ret _
  | cons x m ih => rw [Wagyu.findContaining]; up

instance Up.correctTreeLoop (l m : List Nat) : Up (Wagyu.correctTreeLoop l m) (Wagyu.correctTreeLoop l m) := by
  induction m generalizing l with
  | nil => exact Up.ret _
  | cons x m ih => rw [Wagyu.correctTreeLoop]; up

instance Up.correctTree  :
    Up (Wagyu.correctTree) (Wagyu.correctTree) := by
  unfold Wagyu.correctTree; up

instance Up.samePoint (a b : Nat) :
    Up (Wagyu.samePoint a b) (Wagyu.samePoint a b) := by
  unfold Wagyu.samePoint; up

instance Up.directConnection (p : Option Nat) (a b c d : Nat) (m k : List (Nat × Nat)) : Up (Wagyu.directConnection p a b c d m k) (Wagyu.directConnection p a b c d m k) := by
  induction m generalizing k with
  | nil => exact Up.ret _
  | cons x m ih => obtain ⟨x, y⟩ := x; rw [Wagyu.directConnection]; up

instance Up.chainRing (ringParent : Option Nat) (op2 : Nat) :
    Up (Wagyu.chainRing ringParent op2) (Wagyu.chainRing ringParent op2) := by
  unfold Wagyu.chainRing; up

theorem Up.chain (n n' : Nat) (h : ∀ cm il p a b v c d, Up (Wagyu.findIntersectLoop n cm il p a b v c d) (Wagyu.findIntersectLoop n' cm il p a b v c d))
    (p : Option Nat) (a b c d : Nat) (l : List (Nat × Nat)) (cm : ConnectionMap) (il : List LoopItem) (v : List Nat) :
    Up (Wagyu.findIntersectLoop.chain n p a b c d l cm il v) (Wagyu.findIntersectLoop.chain n' p a b c d l cm il v) := by
  induction l generalizing cm il v with
  | nil => unfold Wagyu.findIntersectLoop.chain; rw [chainFrom, chainFrom]; exact upOfSteady
  | cons x m ih => obtain ⟨x, y⟩ := x; unfold Wagyu.findIntersectLoop.chain; rw [chainFrom, chainFrom]; up

instance Up.findIntersectLoop (n n' : Nat) [hn : LeF n n'] (cm : ConnectionMap) (il : List LoopItem) (p : Option Nat) (a b : Nat) (v : List Nat) (c d : Nat) :
    Up (Wagyu.findIntersectLoop n cm il p a b v c d) (Wagyu.findIntersectLoop n' cm il p a b v c d) := by
  revert n' cm il p a b v c d
  induction n with
  | zero => intros; rw [Wagyu.findIntersectLoop]; exact Up.out (fun h => h.2 rfl)
  | succ n ih =>
    intro n' hn cm il p a b v c d
    obtain ⟨k, rfl⟩ : ∃ k, n' = k + 1 := ⟨n' - 1, by have := hn.le; omega⟩
    have : LeF n k := ⟨by have := hn.le; omega⟩
    rw [Wagyu.findIntersectLoop, Wagyu.findIntersectLoop]
    have ih' := Up.chain n k (fun cm il p a b v c d => ih k cm il p a b v c d)
    up

instance Up.directPair (a b c : Nat) (m k : List (Nat × Nat)) (f : Bool) : Up (Wagyu.directPair a b c m k f) (Wagyu.directPair a b c m k f) := by
  induction m generalizing k f with
  | nil => exact Up.ret _
  | cons x m ih => obtain ⟨x, y⟩ := x; rw [Wagyu.directPair]; up

instance Up.chainPairs (p : Option Nat) (a b c : Nat) (m : List (Nat × Nat)) (cm : ConnectionMap) (il : List LoopItem) (v : List Nat) :
    Up (Wagyu.chainPairs p a b c m cm il v) (Wagyu.chainPairs p a b c m cm il v) := by
  induction m generalizing cm il v with
  | nil => exact Up.ret _
  | cons x m ih => obtain ⟨x, y⟩ := x; rw [Wagyu.chainPairs]; up

instance Up.chooseOrigin (a b c : Nat) (l m : List LoopItem) : Up (Wagyu.chooseOrigin a b c l m) (Wagyu.chooseOrigin a b c l m) := by
  induction m generalizing l with
  | nil => exact Up.ret _
  | cons x m ih => obtain ⟨x, y, z⟩ := x; rw [Wagyu.chooseOrigin]; up

instance Up.switchNext (a b : Nat) :
    Up (Wagyu.switchNext a b) (Wagyu.switchNext a b) := by
  unfold Wagyu.switchNext; up

instance Up.movedPairs (m : List (Nat × Nat)) : Up (Wagyu.movedPairs m) (Wagyu.movedPairs m) := by
  induction m with
  | nil => exact Up.ret _
  | cons x m ih => obtain ⟨x, y⟩ := x; rw [Wagyu.movedPairs]; up

instance Up.originPairs (a : Nat) (m : List (Nat × Nat)) : Up (Wagyu.originPairs a m) (Wagyu.originPairs a m) := by
  induction m with
  | nil => exact Up.ret _
  | cons x m ih => obtain ⟨x, y⟩ := x; rw [Wagyu.originPairs]; up

instance Up.clearLoopPairs (m : List LoopItem) (cm : ConnectionMap) : Up (Wagyu.clearLoopPairs m cm) (Wagyu.clearLoopPairs m cm) := by
  induction m generalizing cm with
  | nil => exact Up.ret _
  | cons x m ih => obtain ⟨x, y, z⟩ := x; rw [Wagyu.clearLoopPairs]; up

instance Up.mergeLoop (cm : ConnectionMap) (iList : List LoopItem) (ringOrigin : Nat) (ringParent : Option Nat) (op1 op2 : Nat) :
    Up (Wagyu.mergeLoop cm iList ringOrigin ringParent op1 op2) (Wagyu.mergeLoop cm iList ringOrigin ringParent op1 op2) := by
  unfold Wagyu.mergeLoop; up

instance Up.processSingleIntersection (opJ opK : Nat) (cm : ConnectionMap) :
    Up (Wagyu.processSingleIntersection opJ opK cm) (Wagyu.processSingleIntersection opJ opK cm) := by
  unfold Wagyu.processSingleIntersection; up

instance Up.correctChainedRepeats (nodes : List Nat) (start stop : Nat) (cm : ConnectionMap) :
    Up (Wagyu.correctChainedRepeats nodes start stop cm) (Wagyu.correctChainedRepeats nodes start stop cm) := by
  unfold Wagyu.correctChainedRepeats; up

instance Up.correctChainedRings  :
    Up (Wagyu.correctChainedRings) (Wagyu.correctChainedRings) := by
  unfold Wagyu.correctChainedRings; up

instance Up.sortAllNodes  :
    Up (Wagyu.sortAllNodes) (Wagyu.sortAllNodes) := by
  unfold Wagyu.sortAllNodes; up

instance Up.correctTopology  :
    Up (Wagyu.correctTopology) (Wagyu.correctTopology) := by
  unfold Wagyu.correctTopology; up

instance Up.pointNodeToLinearRing (node : Option Nat) (reverseOutput : Bool) :
    Up (Wagyu.pointNodeToLinearRing node reverseOutput) (Wagyu.pointNodeToLinearRing node reverseOutput) := by
  unfold Wagyu.pointNodeToLinearRing; up

instance Up.ringToLinearRing (ring : Nat) (reverseOutput : Bool) :
    Up (Wagyu.ringToLinearRing ring reverseOutput) (Wagyu.ringToLinearRing ring reverseOutput) := by
  unfold Wagyu.ringToLinearRing; up

instance Up.ringsToPolygons (o : Bool) (n n' : Nat) [hn : LeF n n'] (l : List (Option Nat)) : Up (Wagyu.ringsToPolygons o n l) (Wagyu.ringsToPolygons o n' l) := by
  revert n' l
  induction n with
  | zero => intro n' _ l; exact Up.out (fun h => h.2 rfl)
  | succ n ih =>
    intro n' hn l
    obtain ⟨k, rfl⟩ : ∃ k, n' = k + 1 := ⟨n' - 1, by have := hn.le; omega⟩
    have : LeF n k := ⟨by have := hn.le; omega⟩
    rw [Wagyu.ringsToPolygons, Wagyu.ringsToPolygons]
    have ih' := fun l => ih k l
    up

instance Up.buildResult (reverseOutput : Bool) :
    Up (Wagyu.buildResult reverseOutput) (Wagyu.buildResult reverseOutput) := by
  unfold Wagyu.buildResult; up

instance Up.runOperation (m : Minimums) (reverseOutput : Bool) (op : OperationKind) (sf cf : FillKind) :
    Up (Wagyu.runOperation m reverseOutput op sf cf) (Wagyu.runOperation m reverseOutput op sf cf) := by
  unfold Wagyu.runOperation; up

/-- An operation that ended within the fuel `n` (it returned, or raised a Python exception) ends in the same way with any larger
fuel: the outcome does not depend on the fuel. -/
theorem execute_more (w : Wagyu) (op : OperationKind) (sf cf : FillKind) (n n' : Nat) (hn : n ≤ n')
    (h : ∀ e, (w.execute n op sf cf).2 = .error e → e ≠ .fuel ∧ e ≠ .recursion) : w.execute n' op sf cf = w.execute n op sf cf := by
  unfold Wagyu.execute at h ⊢
  by_cases hv : w.minimums.values = []
  · rw [if_pos hv, if_pos hv]
  · rw [if_neg hv] at h
    rw [if_neg hv, if_neg hv]
    have h1 := (Up.runOperation w.minimums w.reverseOutput op sf cf).up (St.init n w.minimums.bounds) n' hn
    rw [show (St.init n w.minimums.bounds).wf n' = St.init n' w.minimums.bounds from rfl] at h1
    cases hr : runOperation w.minimums w.reverseOutput op sf cf (St.init n w.minimums.bounds) with
    | ok a s =>
      rw [hr] at h1
      rcases h1 with h1 | h1
      · exact h1.elim
      · rw [h1]; rfl
    | err e s =>
      rw [hr] at h1 h
      rcases h1 with h1 | h1
      · exact absurd (h e rfl) h1
      · rw [h1]; rfl

end Wagyu
