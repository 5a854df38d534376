import Verif.Model.Sweep

/-!
# Frame reasoning: what a statement leaves alone

`Pres R m`: whatever the outcome of `m` (a value or an exception), the state reached is related by `R` to the state
before.  `R` is reflexive and transitive.
-/

namespace Wagyu

/-- The state reached. -/
def Res.state {α : Type} : Res α → St
  | .ok _ s => s
  | .err _ s => s

class Preo (R : St → St → Prop) : Prop where
  refl : ∀ s, R s s
  trans : ∀ {a b c}, R a b → R b c → R a c

class Pres (R : St → St → Prop) {α : Type} (m : M α) : Prop where
  pres : ∀ s, R s (m s).state

section
variable {R : St → St → Prop} [Preo R] {α β σ : Type}

theorem Pres.pure' (a : α) : Pres R (Pure.pure a : M α) := ⟨fun s => Preo.refl s⟩
instance Pres.pure (a : α) : Pres R (Pure.pure a : M α) := Pres.pure' a

theorem Pres.bind {m : M α} {f : α → M β} (h1 : Pres R m) (h2 : ∀ a, Pres R (f a)) : Pres R (m >>= f) := by
  constructor
  intro s
  have h := h1.pres s
  show R s (M.bind m f s).state
  unfold M.bind
  cases hm : m s with
  | ok a s' =>
    rw [hm] at h
    exact Preo.trans h ((h2 a).pres s')
  | err e s' =>
    rw [hm] at h
    exact h

omit [Preo R] in
theorem Pres.ite' {c : Prop} [Decidable c] {m n : M α} (h1 : Pres R m) (h2 : Pres R n) : Pres R (if c then m else n) := by
  split <;> assumption

instance Pres.raise (e : Err) : Pres R (raise e : M α) := ⟨fun s => Preo.refl s⟩
instance Pres.gets (f : St → α) : Pres R (gets f) := ⟨fun s => Preo.refl s⟩
instance Pres.deref (o : Option α) : Pres R (deref o) := by
  cases o <;> exact ⟨fun s => Preo.refl s⟩
instance Pres.orIndex (o : Option α) : Pres R (orIndex o) := by
  cases o <;> exact ⟨fun s => Preo.refl s⟩
instance Pres.liftE (o : Except Err α) : Pres R (liftE o) := by
  cases o <;> exact ⟨fun s => Preo.refl s⟩

omit [Preo R] in
theorem Pres.modify {f : St → St} (h : ∀ s, R s (f s)) : Pres R (modify f) := ⟨h⟩

theorem Pres.iter {f : σ → M (σ ⊕ β)} (h : ∀ x, Pres R (f x)) (n : Nat) (x : σ) : Pres R (iter n f x) := by
  induction n generalizing x with
  | zero => exact Pres.raise _
  | succ n ih =>
    rw [Wagyu.iter]
    refine Pres.bind (h x) fun r => ?_
    cases r with
    | inl y => exact ih y
    | inr b => exact Pres.pure b

theorem Pres.loopM {f : σ → M (σ ⊕ β)} (h : ∀ x, Pres R (f x)) (x : σ) : Pres R (loopM f x) :=
  ⟨fun s => (Pres.iter h s.fuel x).pres s⟩

theorem Pres.forElse {f : σ → M (σ ⊕ β)} {g : σ → M β} (h : ∀ x, Pres R (f x)) (hg : ∀ x, Pres R (g x)) (n : Nat)
    (x : σ) : Pres R (forElse n f g x) := by
  induction n generalizing x with
  | zero => exact hg x
  | succ n ih =>
    rw [Wagyu.forElse]
    refine Pres.bind (h x) fun r => ?_
    cases r with
    | inl y => exact ih y
    | inr b => exact Pres.pure b

theorem Pres.forList {f : α → M Unit} (h : ∀ x, Pres R (f x)) (l : List α) : Pres R (forList l f) := by
  induction l with
  | nil => exact Pres.pure ()
  | cons a l ih => rw [Wagyu.forList]; exact Pres.bind (h a) fun _ => ih

end

/-- Decompose a statement down to calls for which an instance is known. -/
macro "pres" : tactic => `(tactic|
  repeat' first
    | infer_instance
    | assumption
    | (with_reducible refine Pres.bind ?_ fun _ => ?_)
    | (with_reducible refine Pres.ite' ?_ ?_)
    | (with_reducible refine Pres.loopM (fun _ => ?_) _)
    | (with_reducible refine Pres.forElse (fun _ => ?_) (fun _ => ?_) _ _)
    | (with_reducible refine Pres.forList (fun _ => ?_) _)
    | split
    | dsimp only)

/-! Statements that read only: related by every reflexive relation. -/
section
variable {R : St → St → Prop} [Preo R]

instance Pres.getNode (i : Nat) : Pres R (getNode i) := Pres.gets _
instance Pres.getRing (i : Nat) : Pres R (getRing i) := Pres.gets _
instance Pres.getBound (i : Nat) : Pres R (getBound i) := Pres.gets _
instance Pres.nextOf (i : Nat) : Pres R (nextOf i) := by unfold Wagyu.nextOf; pres
instance Pres.prevOf (i : Nat) : Pres R (prevOf i) := by unfold Wagyu.prevOf; pres
instance Pres.pointOf (i : Nat) : Pres R (pointOf i) := by unfold Wagyu.pointOf; pres
instance Pres.nodesEq (a b : Option Nat) : Pres R (nodesEq a b) := by unfold Wagyu.nodesEq; pres
instance Pres.currentEdge (b : Nat) : Pres R (currentEdge b) := by unfold Wagyu.currentEdge; pres
instance Pres.nextEdge (b : Nat) : Pres R (nextEdge b) := by unfold Wagyu.nextEdge; pres
instance Pres.ablGet (i : Nat) : Pres R (ablGet i) := by
  constructor; intro s; unfold Wagyu.ablGet; split <;> exact Preo.refl s
instance Pres.hotPixelAt (i : Nat) : Pres R (hotPixelAt i) := by
  constructor; intro s; unfold Wagyu.hotPixelAt; split <;> exact Preo.refl s
instance Pres.roundHalfUpM (x : F64) : Pres R (roundHalfUpM x) := by unfold Wagyu.roundHalfUpM; split <;> pres

instance Pres.nodesFrom (i : Nat) : Pres R (nodesFrom i) := by unfold Wagyu.nodesFrom; pres
instance Pres.nodesBackFrom (i : Nat) : Pres R (nodesBackFrom i) := by unfold Wagyu.nodesBackFrom; pres
instance Pres.nodeStats (i : Nat) : Pres R (nodeStats i) := by unfold Wagyu.nodeStats; pres
instance Pres.getPointsSlope (l r : Nat) : Pres R (getPointsSlope l r) := by unfold Wagyu.getPointsSlope; pres
theorem Pres.skipSame {step : Nat → M Nat} (h : ∀ i, Pres R (step i)) (self : Nat) : Pres R (skipSame step self) := by
  unfold Wagyu.skipSame; pres
instance Pres.skipPrev (self : Nat) : Pres R (Wagyu.skipSame Wagyu.prevOf self) := Pres.skipSame (fun _ => inferInstance) _
instance Pres.skipNext (self : Nat) : Pres R (Wagyu.skipSame Wagyu.nextOf self) := Pres.skipSame (fun _ => inferInstance) _
instance Pres.isBottomTo (a b : Nat) : Pres R (isBottomTo a b) := by unfold Wagyu.isBottomTo; pres
instance Pres.bottomNodeOf (i : Nat) : Pres R (bottomNodeOf i) := by unfold Wagyu.bottomNodeOf; pres
instance Pres.pointInPolygonWith (px py : F64) (det : Point → Point → F64) (i : Nat) :
    Pres R (pointInPolygonWith px py det i) := by unfold Wagyu.pointInPolygonWith; pres
instance Pres.pointInPolygon (p : Point) (i : Nat) : Pres R (pointInPolygon p i) := by
  unfold Wagyu.pointInPolygon; pres
instance Pres.fpointInPolygon (p : FPoint) (i : Nat) : Pres R (fpointInPolygon p i) := by
  unfold Wagyu.fpointInPolygon; pres
instance Pres.pointsCentroid (i : Nat) : Pres R (pointsCentroid i) := by unfold Wagyu.pointsCentroid; pres
instance Pres.hasCollinearEdge (a b : Nat) : Pres R (hasCollinearEdge a b) := by unfold Wagyu.hasCollinearEdge; pres
instance Pres.collinearSearch (a b : Nat) : Pres R (collinearSearch a b) := by unfold Wagyu.collinearSearch; pres
instance Pres.advanceRepeats (x : Bool) (step : Node → Option Nat) (a b : Nat) : Pres R (advanceRepeats x step a b) := by
  unfold Wagyu.advanceRepeats; pres
instance Pres.findStartAndEnd (a b : Nat) : Pres R (findStartAndEndOfCollinearEdges a b) := by
  unfold Wagyu.findStartAndEndOfCollinearEdges; pres
instance Pres.ringDepth (r : Nat) : Pres R (ringDepth r) := by unfold Wagyu.ringDepth; pres
instance Pres.isDescendantOf (r o : Nat) : Pres R (isDescendantOf r o) := by unfold Wagyu.isDescendantOf; pres
instance Pres.childrenOf (p : Option Nat) : Pres R (childrenOf p) := by unfold Wagyu.childrenOf; pres
instance Pres.isIntermediate (b : Nat) (y : Int) : Pres R (isIntermediate b y) := by unfold Wagyu.isIntermediate; pres
instance Pres.isMaxima (b : Nat) (y : Int) : Pres R (isMaxima b y) := by unfold Wagyu.isMaxima; pres
instance Pres.boundInsertLocation (l r : Nat) : Pres R (boundInsertLocation l r) := by
  unfold Wagyu.boundInsertLocation; pres
instance Pres.findInsertIndex (l : Nat) (bs : List (Option Nat)) (i : Nat) : Pres R (findInsertIndex l bs i) := by
  induction bs generalizing i with
  | nil => exact Pres.pure i
  | cons b bs ih => rw [Wagyu.findInsertIndex]; pres
instance Pres.findSameKind (k : PolygonKind) (bs : List (Option Nat)) (l : List Nat) : Pres R (findSameKind k bs l) := by
  induction bs generalizing l with
  | nil => exact Pres.pure _
  | cons b bs ih => rw [Wagyu.findSameKind]; pres
instance Pres.currentHotPixelIndex : Pres R currentHotPixelIndex := Pres.gets _
instance Pres.hotPixelBackUp (y : Int) (i : Nat) : Pres R (hotPixelBackUp y i) := by
  induction i with
  | zero => exact Pres.pure _
  | succ i ih => rw [Wagyu.hotPixelBackUp]; pres
instance Pres.hotPixelRowEnd (y : Int) (len n i : Nat) : Pres R (hotPixelRowEnd y len n i) := by
  induction n generalizing i with
  | zero => exact Pres.pure _
  | succ n ih => rw [Wagyu.hotPixelRowEnd]; pres
instance Pres.holeStateScan (bs : List (Option Nat)) (t : Option Nat) : Pres R (holeStateScan bs t) := by
  induction bs generalizing t with
  | nil => exact Pres.pure _
  | cons b bs ih =>
    cases b with
    | none => rw [Wagyu.holeStateScan]; pres
    | some c => rw [Wagyu.holeStateScan]; pres
instance Pres.crossingOf (a b : Nat) : Pres R (crossingOf a b) := by unfold Wagyu.crossingOf; pres
instance Pres.sortActive : Pres R sortActive := by unfold Wagyu.sortActive; pres
instance Pres.buildIntersectListGo (l : List (Nat × Nat)) (acc : List IntersectNode) :
    Pres R (buildIntersectList.go l acc) := by
  induction l generalizing acc with
  | nil => exact Pres.pure _
  | cons q l ih => obtain ⟨a, b⟩ := q; rw [buildIntersectList.go]; pres
instance Pres.buildIntersectList : Pres R buildIntersectList := by unfold Wagyu.buildIntersectList; pres
instance Pres.crossingPosition (n : IntersectNode) : Pres R (crossingPosition n) := by
  unfold Wagyu.crossingPosition; pres
instance Pres.findFeasible (l : List IntersectNode) (k : Nat) : Pres R (findFeasible l k) := by
  induction l generalizing k with
  | nil => exact Pres.raise _
  | cons n l ih => rw [Wagyu.findFeasible]; pres
instance Pres.hotPixelFind (p : Point → Bool) (len n i : Nat) : Pres R (hotPixelFind p len n i) := by
  induction n generalizing i with
  | zero => exact Pres.pure _
  | succ n ih => rw [Wagyu.hotPixelFind]; pres
instance Pres.horizontalEnds (b : Nat) (x : F64) : Pres R (horizontalEnds b x) := by unfold Wagyu.horizontalEnds; pres
instance Pres.horizontalPartner (b : Nat) (y : Int) : Pres R (horizontalPartner b y) := by
  unfold Wagyu.horizontalPartner; pres

end

end Wagyu
