import Verif.Proofs.PresOut

/-!
# Statements that never raise a `RuntimeError`
-/

namespace Wagyu

/-- `m` never raises a `RuntimeError`. -/
class Quiet {α : Type} (m : M α) : Prop where
  quiet : ∀ s msg s', m s ≠ .err (.runtime msg) s'

section
variable {α β σ : Type}

instance Quiet.pure (a : α) : Quiet (Pure.pure a : M α) := ⟨fun s msg s' h => by cases h⟩

theorem Quiet.bind {m : M α} {f : α → M β} (h1 : Quiet m) (h2 : ∀ a, Quiet (f a)) : Quiet (m >>= f) := by
  constructor
  intro s msg s' h
  change M.bind m f s = _ at h
  unfold M.bind at h
  cases hm : m s with
  | ok a t => rw [hm] at h; exact (h2 a).quiet _ _ _ h
  | err e t => rw [hm] at h; cases h; exact h1.quiet _ _ _ hm

theorem Quiet.ite' {c : Prop} [Decidable c] {m n : M α} (h1 : Quiet m) (h2 : Quiet n) : Quiet (if c then m else n) := by
  split <;> assumption

theorem Quiet.raise' (e : Err) (h : ∀ msg, e ≠ .runtime msg) : Quiet (raise e : M α) :=
  ⟨fun s msg s' h' => by cases h'; exact h _ rfl⟩
instance : Quiet (raise .attribute : M α) := Quiet.raise' _ (by simp)
instance : Quiet (raise .index : M α) := Quiet.raise' _ (by simp)
instance : Quiet (raise .assertion : M α) := Quiet.raise' _ (by simp)
instance : Quiet (raise .stopIteration : M α) := Quiet.raise' _ (by simp)
instance : Quiet (raise .arithmetic : M α) := Quiet.raise' _ (by simp)
instance : Quiet (raise .recursion : M α) := Quiet.raise' _ (by simp)
instance : Quiet (raise .fuel : M α) := Quiet.raise' _ (by simp)
instance Quiet.gets (f : St → α) : Quiet (gets f) := ⟨fun s msg s' h => by cases h⟩
instance Quiet.modify (f : St → St) : Quiet (modify f) := ⟨fun s msg s' h => by cases h⟩
instance Quiet.deref (o : Option α) : Quiet (deref o) := by
  cases o
  · exact inferInstanceAs (Quiet (raise .attribute : M α))
  · exact ⟨fun s msg s' h => by cases h⟩
instance Quiet.orIndex (o : Option α) : Quiet (orIndex o) := by
  cases o
  · exact inferInstanceAs (Quiet (raise .index : M α))
  · exact ⟨fun s msg s' h => by cases h⟩

theorem Quiet.iter {f : σ → M (σ ⊕ β)} (h : ∀ x, Quiet (f x)) (n : Nat) (x : σ) : Quiet (iter n f x) := by
  induction n generalizing x with
  | zero => exact inferInstanceAs (Quiet (raise .fuel : M β))
  | succ n ih =>
    rw [Wagyu.iter]
    refine Quiet.bind (h x) fun r => ?_
    cases r with
    | inl y => exact ih y
    | inr b => exact Quiet.pure b

theorem Quiet.loopM {f : σ → M (σ ⊕ β)} (h : ∀ x, Quiet (f x)) (x : σ) : Quiet (loopM f x) :=
  ⟨fun s => (Quiet.iter h s.fuel x).quiet s⟩

theorem Quiet.forElse {f : σ → M (σ ⊕ β)} {g : σ → M β} (h : ∀ x, Quiet (f x)) (hg : ∀ x, Quiet (g x)) (n : Nat)
    (x : σ) : Quiet (forElse n f g x) := by
  induction n generalizing x with
  | zero => exact hg x
  | succ n ih =>
    rw [Wagyu.forElse]
    refine Quiet.bind (h x) fun r => ?_
    cases r with
    | inl y => exact ih y
    | inr b => exact Quiet.pure b

theorem Quiet.forList {f : α → M Unit} (h : ∀ x, Quiet (f x)) (l : List α) : Quiet (forList l f) := by
  induction l with
  | nil => exact Quiet.pure ()
  | cons a l ih => rw [Wagyu.forList]; exact Quiet.bind (h a) fun _ => ih

end

/-- Decompose a statement down to calls for which an instance is known. -/
macro "quiet" : tactic => `(tactic|
  repeat' first
    | infer_instance
    | assumption
    | (with_reducible refine Quiet.bind ?_ fun _ => ?_)
    | (with_reducible refine Quiet.ite' ?_ ?_)
    | (with_reducible refine Quiet.loopM (fun _ => ?_) _)
    | (with_reducible refine Quiet.forElse (fun _ => ?_) (fun _ => ?_) _ _)
    | (with_reducible refine Quiet.forList (fun _ => ?_) _)
    | split
    | dsimp only)

instance (b : Nat) (f : Bound → Bound) : Quiet (modBound b f) := Quiet.modify _
instance (e : Edge) (y : Int) : Quiet (liftE (e.getMinX y)) := by
  have h : ∀ m, e.getMinX y ≠ .error (.runtime m) := by
    intro m; unfold Edge.getMinX; dsimp only; repeat (first | split | simp)
  constructor; intro s msg s' h'
  cases hx : e.getMinX y with
  | ok v => rw [hx] at h'; cases h'
  | error v => rw [hx] at h'; cases h'; exact h _ hx
instance (e : Edge) (y : Int) : Quiet (liftE (e.getMaxX y)) := by
  have h : ∀ m, e.getMaxX y ≠ .error (.runtime m) := by
    intro m; unfold Edge.getMaxX; dsimp only; repeat (first | split | simp)
  constructor; intro s msg s' h'
  cases hx : e.getMaxX y with
  | ok v => rw [hx] at h'; cases h'
  | error v => rw [hx] at h'; cases h'; exact h _ hx
instance (p : FPoint) : Quiet (liftE p.round) := by
  have h : ∀ m, p.round ≠ .error (.runtime m) := by
    intro m; unfold FPoint.round; split <;> simp
  constructor; intro s msg s' h'
  cases hx : p.round with
  | ok v => rw [hx] at h'; cases h'
  | error v => rw [hx] at h'; cases h'; exact h _ hx


instance Quiet.getNode (i : Nat) : Quiet (getNode i) := Quiet.gets _
instance Quiet.getRing (i : Nat) : Quiet (getRing i) := Quiet.gets _
instance Quiet.getBound (i : Nat) : Quiet (getBound i) := Quiet.gets _
instance Quiet.nextOf (i : Nat) : Quiet (nextOf i) := by unfold Wagyu.nextOf; quiet
instance Quiet.prevOf (i : Nat) : Quiet (prevOf i) := by unfold Wagyu.prevOf; quiet
instance Quiet.pointOf (i : Nat) : Quiet (pointOf i) := by unfold Wagyu.pointOf; quiet
instance Quiet.nodesEq (a b : Option Nat) : Quiet (nodesEq a b) := by unfold Wagyu.nodesEq; quiet
instance Quiet.currentEdge (b : Nat) : Quiet (currentEdge b) := by unfold Wagyu.currentEdge; quiet
instance Quiet.nextEdge (b : Nat) : Quiet (nextEdge b) := by unfold Wagyu.nextEdge; quiet
instance Quiet.ablGet (i : Nat) : Quiet (ablGet i) := by
  constructor; intro s msg s'; unfold Wagyu.ablGet; split <;> simp
instance Quiet.hotPixelAt (i : Nat) : Quiet (hotPixelAt i) := by
  constructor; intro s msg s'; unfold Wagyu.hotPixelAt; split <;> simp
instance Quiet.roundHalfUpM (x : F64) : Quiet (roundHalfUpM x) := by unfold Wagyu.roundHalfUpM; split <;> quiet

instance Quiet.nodesFrom (i : Nat) : Quiet (nodesFrom i) := by unfold Wagyu.nodesFrom; quiet
instance Quiet.nodesBackFrom (i : Nat) : Quiet (nodesBackFrom i) := by unfold Wagyu.nodesBackFrom; quiet
instance Quiet.nodeStats (i : Nat) : Quiet (nodeStats i) := by unfold Wagyu.nodeStats; quiet
instance Quiet.getPointsSlope (l r : Nat) : Quiet (getPointsSlope l r) := by unfold Wagyu.getPointsSlope; quiet
theorem Quiet.skipSame {step : Nat → M Nat} (h : ∀ i, Quiet (step i)) (self : Nat) : Quiet (skipSame step self) := by
  unfold Wagyu.skipSame; quiet
instance Quiet.skipPrev (self : Nat) : Quiet (Wagyu.skipSame Wagyu.prevOf self) := Quiet.skipSame (fun _ => inferInstance) _
instance Quiet.skipNext (self : Nat) : Quiet (Wagyu.skipSame Wagyu.nextOf self) := Quiet.skipSame (fun _ => inferInstance) _
instance Quiet.isBottomTo (a b : Nat) : Quiet (isBottomTo a b) := by unfold Wagyu.isBottomTo; quiet
instance Quiet.bottomNodeOf (i : Nat) : Quiet (bottomNodeOf i) := by unfold Wagyu.bottomNodeOf; quiet
instance Quiet.pointInPolygonWith (px py : F64) (det : Point → Point → F64) (i : Nat) :
    Quiet (pointInPolygonWith px py det i) := by unfold Wagyu.pointInPolygonWith; quiet
instance Quiet.pointInPolygon (p : Point) (i : Nat) : Quiet (pointInPolygon p i) := by
  unfold Wagyu.pointInPolygon; quiet
instance Quiet.fpointInPolygon (p : FPoint) (i : Nat) : Quiet (fpointInPolygon p i) := by
  unfold Wagyu.fpointInPolygon; quiet
instance Quiet.pointsCentroid (i : Nat) : Quiet (pointsCentroid i) := by unfold Wagyu.pointsCentroid; quiet
instance Quiet.hasCollinearEdge (a b : Nat) : Quiet (hasCollinearEdge a b) := by unfold Wagyu.hasCollinearEdge; quiet
instance Quiet.collinearSearch (a b : Nat) : Quiet (collinearSearch a b) := by unfold Wagyu.collinearSearch; quiet
instance Quiet.advanceRepeats (x : Bool) (step : Node → Option Nat) (a b : Nat) : Quiet (advanceRepeats x step a b) := by
  unfold Wagyu.advanceRepeats; quiet
instance Quiet.findStartAndEnd (a b : Nat) : Quiet (findStartAndEndOfCollinearEdges a b) := by
  unfold Wagyu.findStartAndEndOfCollinearEdges; quiet
instance Quiet.ringDepth (r : Nat) : Quiet (ringDepth r) := by unfold Wagyu.ringDepth; quiet
instance Quiet.isDescendantOf (r o : Nat) : Quiet (isDescendantOf r o) := by unfold Wagyu.isDescendantOf; quiet
instance Quiet.childrenOf (p : Option Nat) : Quiet (childrenOf p) := by unfold Wagyu.childrenOf; quiet
instance Quiet.isIntermediate (b : Nat) (y : Int) : Quiet (isIntermediate b y) := by unfold Wagyu.isIntermediate; quiet
instance Quiet.isMaxima (b : Nat) (y : Int) : Quiet (isMaxima b y) := by unfold Wagyu.isMaxima; quiet
instance Quiet.boundInsertLocation (l r : Nat) : Quiet (boundInsertLocation l r) := by
  unfold Wagyu.boundInsertLocation; quiet
instance Quiet.findInsertIndex (l : Nat) (bs : List (Option Nat)) (i : Nat) : Quiet (findInsertIndex l bs i) := by
  induction bs generalizing i with
  | nil => exact Quiet.pure i
  | cons b bs ih => rw [Wagyu.findInsertIndex]; quiet
instance Quiet.findSameKind (k : PolygonKind) (bs : List (Option Nat)) (l : List Nat) : Quiet (findSameKind k bs l) := by
  induction bs generalizing l with
  | nil => exact Quiet.pure _
  | cons b bs ih => rw [Wagyu.findSameKind]; quiet
instance Quiet.currentHotPixelIndex : Quiet currentHotPixelIndex := Quiet.gets _
instance Quiet.hotPixelBackUp (y : Int) (i : Nat) : Quiet (hotPixelBackUp y i) := by
  induction i with
  | zero => exact Quiet.pure _
  | succ i ih => rw [Wagyu.hotPixelBackUp]; quiet
instance Quiet.hotPixelRowEnd (y : Int) (len n i : Nat) : Quiet (hotPixelRowEnd y len n i) := by
  induction n generalizing i with
  | zero => exact Quiet.pure _
  | succ n ih => rw [Wagyu.hotPixelRowEnd]; quiet
instance Quiet.holeStateScan (bs : List (Option Nat)) (t : Option Nat) : Quiet (holeStateScan bs t) := by
  induction bs generalizing t with
  | nil => exact Quiet.pure _
  | cons b bs ih =>
    cases b with
    | none => rw [Wagyu.holeStateScan]; quiet
    | some c => rw [Wagyu.holeStateScan]; quiet
instance Quiet.sortActive : Quiet sortActive := by unfold Wagyu.sortActive; quiet
instance Quiet.crossingPosition (n : IntersectNode) : Quiet (crossingPosition n) := by
  unfold Wagyu.crossingPosition; quiet
instance Quiet.hotPixelFind (p : Point → Bool) (len n i : Nat) : Quiet (hotPixelFind p len n i) := by
  induction n generalizing i with
  | zero => exact Quiet.pure _
  | succ n ih => rw [Wagyu.hotPixelFind]; quiet
instance Quiet.horizontalEnds (b : Nat) (x : F64) : Quiet (horizontalEnds b x) := by unfold Wagyu.horizontalEnds; quiet
instance Quiet.horizontalPartner (b : Nat) (y : Int) : Quiet (horizontalPartner b y) := by
  unfold Wagyu.horizontalPartner; quiet

instance (i : Nat) (f : Node → Node) : Quiet (modNode i f) := ⟨fun _ _ _ h => by cases h⟩
instance (i : Nat) (f : Ring → Ring) : Quiet (modRing i f) := ⟨fun _ _ _ h => by cases h⟩
instance (i : Nat) (v : Option Nat) : Quiet (setNext i v) := by unfold setNext; infer_instance
instance (i : Nat) (v : Option Nat) : Quiet (setPrev i v) := by unfold setPrev; infer_instance
instance (i : Nat) (v : Option Nat) : Quiet (setNodeRing i v) := by unfold setNodeRing; infer_instance
instance (i : Nat) (v : Option Nat) : Quiet (setRingNode i v) := by unfold setRingNode; infer_instance
instance (i : Nat) (v : Option Nat) : Quiet (setRingParent i v) := by unfold setRingParent; infer_instance

theorem Quiet.forNodes (start : Nat) (body : Nat → M Unit) (h : ∀ i, Quiet (body i)) : Quiet (forNodes start body) := by
  unfold Wagyu.forNodes; quiet
instance (i : Nat) : Quiet (reverseNodes i) := Quiet.forNodes _ _ fun _ => inferInstance
instance (a b : Nat) : Quiet (placeBefore a b) := by unfold placeBefore; quiet
instance (i : Nat) : Quiet (unlinkNode i) := by unfold unlinkNode; quiet
instance (a b : Nat) : Quiet (unlinkUntil a b) := by unfold unlinkUntil; quiet
instance (a b : Nat) : Quiet (unlinkDo a b) := by unfold unlinkDo; quiet
instance (a b c d : Nat) : Quiet (fixCollinearPath a b c d) := by unfold fixCollinearPath; quiet
instance (r : Nat) : Quiet (recalculateStats r) := by unfold recalculateStats; quiet
instance (r : Nat) : Quiet (ringArea r) := by unfold ringArea; quiet
instance (r : Nat) : Quiet (ringIsHole r) := by unfold ringIsHole; quiet
instance (r : Nat) : Quiet (ringSize r) := by unfold ringSize; quiet
instance (r : Nat) (st : F64 × Nat × Box) : Quiet (setStats r st) := by unfold setStats; quiet
instance (r : Nat) : Quiet (updatePoints r) := by
  unfold updatePoints; exact Quiet.bind inferInstance fun _ => Quiet.bind inferInstance fun _ => Quiet.forNodes _ _ fun _ => inferInstance
instance (n : Nat) : Quiet (isConvex n) := by unfold isConvex; quiet
instance (a b : Nat) : Quiet (getLowermostRing a b) := by unfold getLowermostRing; quiet
instance (p : Option Nat) (f : List (Option Nat) → List (Option Nat)) : Quiet (modChildren p f) := by
  unfold modChildren
  split
  · exact ⟨fun _ _ _ h => by cases h⟩
  · infer_instance
instance : Quiet createRing := ⟨fun _ _ _ h => by cases h⟩
instance (r : Option Nat) (p : Point) (b : Option Nat) : Quiet (createPointNode r p b) := by
  unfold createPointNode
  refine Quiet.bind inferInstance fun i => Quiet.bind ⟨fun _ _ _ h => by cases h⟩ fun _ => ?_
  have h : Quiet (modify fun s => { s with allNodes := s.allNodes ++ [i] }) :=
    ⟨fun _ _ _ h => by cases h⟩
  quiet
instance (r : Nat) (p : Option Nat) : Quiet (sameOrientation r p) := by unfold sameOrientation; quiet
instance (r : Nat) (p : Option Nat) : Quiet (replaceRing r p) := by unfold replaceRing; quiet
instance (n r : Nat) (a b : Bool) : Quiet (removeRing n r a b) := by
  induction n generalizing r a b with
  | zero => exact inferInstanceAs (Quiet (raise .recursion))
  | succ n ih => rw [removeRing]; quiet
instance (r : Nat) : Quiet (detachNodes r) := by unfold detachNodes; quiet
instance (n r : Nat) (a b : Bool) : Quiet (removeRingAndPoints n r a b) := by
  induction n generalizing r a b with
  | zero => exact inferInstanceAs (Quiet (raise .recursion))
  | succ n ih => rw [removeRingAndPoints]; quiet

/-! ## The sweep -/

instance (b : Nat) (p : Point) : Quiet (pushPoint b p) := by unfold pushPoint; quiet
instance (y sx ex : Int) (b i j : Nat) (a : Bool) : Quiet (hotPixelSetLeftToRight y sx ex b i j a) := by
  unfold hotPixelSetLeftToRight; quiet
instance (y sx ex : Int) (b i j : Nat) (a : Bool) : Quiet (hotPixelSetRightToLeft y sx ex b i j a) := by
  unfold hotPixelSetRightToLeft; quiet
instance (b : Nat) (p : Point) (a : Bool) : Quiet (insertHotPixelsInPath b p a) := by
  unfold insertHotPixelsInPath; quiet
instance (b : Nat) (p : Point) : Quiet (addPointToRing b p) := by unfold addPointToRing; quiet
instance (b : Nat) : Quiet (setHoleState b) := by
  unfold setHoleState
  refine Quiet.bind inferInstance fun _ => ?_
  split
  · quiet
  · refine Quiet.bind inferInstance fun _ => Quiet.bind inferInstance fun _ => Quiet.bind inferInstance fun _ => ?_
    split
    · exact Quiet.bind inferInstance fun _ => ⟨fun _ _ _ h => by cases h⟩
    · quiet
instance (b : Nat) (p : Point) : Quiet (addFirstPoint b p) := by unfold addFirstPoint; quiet
instance (b : Nat) (p : Point) : Quiet (addPoint b p) := by unfold addPoint; quiet
instance (p : Point) (a b : Nat) : Quiet (addLocalMinimumPoint p a b) := by unfold addLocalMinimumPoint; quiet
instance (a b c d : Nat) : Quiet (chooseKeep a b c d) := by unfold chooseKeep; quiet
instance (a b : Nat) (c d : EdgeSide) : Quiet (joinNodes a b c d) := by unfold joinNodes; quiet
instance (a b c : Nat) (l : List (Option Nat)) : Quiet (reattach a b c l) := by
  induction l with
  | nil => exact Quiet.pure _
  | cons o l ih => cases o <;> rw [reattach] <;> quiet
instance (a b : Nat) : Quiet (appendRing a b) := by unfold appendRing; quiet
instance (p : Point) (a b : Nat) : Quiet (addLocalMaximumPoint p a b) := by unfold addLocalMaximumPoint; quiet
instance (a b : Nat) : Quiet (swapRings a b) := by unfold swapRings; quiet
instance (b : Nat) (stop : Point → M Bool) [h : ∀ p, Quiet (stop p)] (len n i : Nat) :
    Quiet (passHotPixelsRight b stop len n i) := by
  induction n generalizing i with
  | zero => exact Quiet.pure _
  | succ n ih => rw [passHotPixelsRight]; quiet
instance (b : Nat) (stop : Point → M Bool) [h : ∀ p, Quiet (stop p)] (i : Nat) :
    Quiet (passHotPixelsLeft b stop i) := by
  induction i with
  | zero => exact Quiet.pure _
  | succ n ih => rw [passHotPixelsLeft]; quiet


instance (p : Point) (op : OperationKind) (sf cf : FillKind) (a b : Nat) : Quiet (intersectBounds p op sf cf a b) := by
  unfold intersectBounds; quiet

end Wagyu
