import Verif.Proofs.Prims

/-!
# Which part of the state the sweeps change

`SweepPrims R`: `R` ignores moreover what the sweeps change of the bounds, the hot pixels, the scanbeams and the active bounds, and holds for the three
statements by which the sweep changes the rest.
-/

namespace Wagyu

/-- The two bounds are the same part of the input: same edges, same winding delta, same polygon, same partner. -/
structure SameInput (b c : Bound) : Prop where
  edges : b.edges = c.edges
  delta : b.windingDelta = c.windingDelta
  kind : b.polygonKind = c.polygonKind
  partner : b.maximumBound = c.maximumBound

class SweepPrims (R : St → St → Prop) : Prop extends Prims0 R where
  bound : ∀ (s : St) (i : Nat) (b : Bound), SameInput b (s.bounds i) → R s { s with bounds := upd s.bounds i b }
  misc : ∀ (s : St) hotPixels curHot scan abl,
    R s { s with hotPixels := hotPixels, curHot := curHot, scan := scan, abl := abl }
  createPoint : ∀ r p b, Pres R (createPointNode r p b)
  firstPoint : ∀ b p, Pres R (addFirstPoint b p)
  replace : ∀ r p, Pres R (replaceRing r p)
attribute [instance] SweepPrims.createPoint SweepPrims.firstPoint SweepPrims.replace

section
variable {R : St → St → Prop} [SweepPrims R]

theorem sp01 {b : Nat} {f : Bound → Bound} (h : ∀ bd, SameInput (f bd) bd) : Pres R (modBound b f) :=
  ⟨fun s => SweepPrims.bound s b _ (h _)⟩

/-- Decompose a statement down to calls for which an instance is known. -/
macro "presb" : tactic => `(tactic|
  repeat' first
    | infer_instance
    | assumption
    | ((with_reducible refine sp01 ?_); intro _; exact ⟨rfl, rfl, rfl, rfl⟩)
    | (with_reducible refine Pres.bind ?_ fun _ => ?_)
    | (with_reducible refine Pres.ite' ?_ ?_)
    | (with_reducible refine Pres.loopM (fun _ => ?_) _)
    | (with_reducible refine Pres.forElse (fun _ => ?_) (fun _ => ?_) _ _)
    | (with_reducible refine Pres.forList (fun _ => ?_) _)
    | split
    | dsimp only)
instance sp02 (i : Nat) (v : Option Nat) : Pres R (ablSet i v) := ⟨fun s => SweepPrims.misc s _ _ _ _⟩
instance sp03 (i j : Nat) : Pres R (ablSwap i j) := by unfold ablSwap; presb
instance sp04 : Pres R ablFilter := ⟨fun s => SweepPrims.misc s _ _ _ _⟩
instance sp05 (y : Int) : Pres R (insertScan y) := ⟨fun s => SweepPrims.misc s _ _ _ _⟩
instance sp06 (p : Point) : Pres R (addHotPixel p) := ⟨fun s => SweepPrims.misc s _ _ _ _⟩
instance sp07 (b : Nat) : Pres R (toNextEdge b) := by unfold toNextEdge; presb
instance sp08 (a b : Nat) : Pres R (insertBoundIntoAbl a b) := by
  unfold insertBoundIntoAbl
  exact Pres.bind inferInstance fun _ => Pres.bind inferInstance fun _ =>
    Pres.bind ⟨fun s => SweepPrims.misc s _ _ _ _⟩ fun _ => inferInstance
instance sp09 (i : Nat) (sf cf : FillKind) : Pres R (setWindingCount i sf cf) := by unfold setWindingCount; presb
instance sp10 (b : Nat) (sd : EdgeSide) : Pres R (initializeBound b sd) := by unfold initializeBound; presb
instance sp11 (m : LocalMinimum) : Pres R (initializeMinimum m) := by unfold initializeMinimum; presb
instance sp12 (y : Int) : Pres R (updateCurrentX y) := by unfold updateCurrentX; presb
instance sp13 (v : Nat) : Pres R (setCurrentHotPixelIndex v) := ⟨fun s => SweepPrims.misc s _ _ _ _⟩
instance sp14 (b : Nat) (p : Point) : Pres R (pushPoint b p) := by unfold pushPoint; presb
instance sp15 (y sx ex : Int) (b i j : Nat) (a : Bool) : Pres R (hotPixelSetLeftToRight y sx ex b i j a) := by
  unfold hotPixelSetLeftToRight; presb
instance sp16 (y sx ex : Int) (b i j : Nat) (a : Bool) : Pres R (hotPixelSetRightToLeft y sx ex b i j a) := by
  unfold hotPixelSetRightToLeft; presb
instance sp17 (b : Nat) (p : Point) (a : Bool) : Pres R (insertHotPixelsInPath b p a) := by unfold insertHotPixelsInPath; presb
instance sp18 (b : Nat) (p : Point) : Pres R (addPointToRing b p) := by unfold addPointToRing; presb
instance sp19 (b : Nat) (p : Point) : Pres R (addPoint b p) := by unfold addPoint; presb
instance sp20 (p : Point) (a b : Nat) : Pres R (addLocalMinimumPoint p a b) := by unfold addLocalMinimumPoint; presb
instance sp21 (a b c d : Nat) : Pres R (chooseKeep a b c d) := by unfold chooseKeep; presb
instance sp22 (a b : Nat) (c d : EdgeSide) : Pres R (joinNodes a b c d) := by unfold joinNodes; presb
instance sp23 (a b c : Nat) (l : List (Option Nat)) : Pres R (reattach a b c l) := by
  induction l with
  | nil => exact Pres.pure _
  | cons o l ih => cases o <;> rw [reattach] <;> presb
instance sp24 (a b : Nat) : Pres R (appendRing a b) := by unfold appendRing; presb
instance sp25 (p : Point) (a b : Nat) : Pres R (addLocalMaximumPoint p a b) := by unfold addLocalMaximumPoint; presb
instance sp26 (a b : Nat) : Pres R (swapRings a b) := by unfold swapRings; presb
instance sp27 (b : Nat) (stop : Point → M Bool) [h : ∀ p, Pres R (stop p)] (len n i : Nat) :
    Pres R (passHotPixelsRight b stop len n i) := by
  induction n generalizing i with
  | zero => exact Pres.pure _
  | succ n ih => rw [passHotPixelsRight]; presb
instance sp28 (b : Nat) (stop : Point → M Bool) [h : ∀ p, Pres R (stop p)] (i : Nat) : Pres R (passHotPixelsLeft b stop i) := by
  induction i with
  | zero => exact Pres.pure _
  | succ n ih => rw [passHotPixelsLeft]; presb
instance sp29 (p : Point) (op : OperationKind) (sf cf : FillKind) (a b : Nat) : Pres R (intersectBounds p op sf cf a b) := by
  unfold intersectBounds; presb
instance sp30 (op : OperationKind) (sf cf : FillKind) (n : Nat) (l : List IntersectNode) :
    Pres R (processIntersectList op sf cf n l) := by
  induction n generalizing l with
  | zero => cases l <;> exact Pres.pure _
  | succ n ih =>
    cases l with
    | nil => exact Pres.pure _
    | cons a l =>
      rw [processIntersectList]
      presb
instance sp31 (y : Int) (op : OperationKind) (sf cf : FillKind) : Pres R (processIntersections y op sf cf) := by
  unfold processIntersections; presb
instance sp32 (op : OperationKind) (sf cf : FillKind) (a b : Nat) : Pres R (maximaLoop op sf cf a b) := by
  unfold maximaLoop; presb
instance sp33 (op : OperationKind) (sf cf : FillKind) (a b : Nat) : Pres R (doMaxima op sf cf a b) := by
  unfold doMaxima; presb
instance sp34 (op : OperationKind) (sf cf : FillKind) (a b : Nat) : Pres R (insertLmLeftAndRightBound op sf cf a b) := by
  unfold insertLmLeftAndRightBound; presb
instance sp35 (op : OperationKind) (sf cf : FillKind) (y : Int) (l : List LocalMinimum) :
    Pres R (insertHorizontalLocalMinima op sf cf y l) := by
  induction l with
  | nil => exact Pres.pure _
  | cons m l ih => rw [insertHorizontalLocalMinima]; presb
instance sp36 (op : OperationKind) (sf cf : FillKind) (y : Int) (l : List LocalMinimum) :
    Pres R (insertLocalMinima op sf cf y l) := by
  induction l with
  | nil => exact Pres.pure _
  | cons m l ih => rw [insertLocalMinima]; presb
instance sp37 (b i : Nat) : Pres R (finishHorizontal b i) := by unfold finishHorizontal; presb
instance sp38 (op : OperationKind) (sf cf : FillKind) (y : Int) (i : Nat) : Pres R (processHorizontalLeftToRight op sf cf y i) := by
  unfold processHorizontalLeftToRight
  have h1 : ∀ (b nb : Nat) (p : Point), Pres R (do
        if p.y ≠ y then pure true
        else
          let r ← roundHalfUpM (← getBound nb).currentX
          let e ← currentEdge b
          pure (decide (p.x ≥ r) || decide (p.x ≥ e.top.x))) := fun _ _ _ => by presb
  have h2 : ∀ (b : Nat) (p : Point), Pres R (do
        if p.y ≠ y then pure true
        else
          let e ← currentEdge b
          pure (decide (p.x ≥ e.top.x))) := fun _ _ => by presb
  have h3 := fun b nb len n i => sp27 (R := R) b _ (h := h1 b nb) len n i
  have h4 := fun b len n i => sp27 (R := R) b _ (h := h2 b) len n i
  presb
  all_goals first | exact h3 _ _ _ _ _ | exact h4 _ _ _ _
instance sp39 (op : OperationKind) (sf cf : FillKind) (y : Int) (i : Nat) : Pres R (processHorizontalRightToLeft op sf cf y i) := by
  unfold processHorizontalRightToLeft
  have h1 : ∀ (b nb : Nat) (p : Point), Pres R (do
        if p.y ≠ y then pure true
        else
          let r ← roundHalfUpM (← getBound nb).currentX
          let e ← currentEdge b
          pure (decide (p.x ≤ r) || decide (p.x ≤ e.top.x))) := fun _ _ _ => by presb
  have h2 : ∀ (b : Nat) (p : Point), Pres R (do
        if p.y ≠ y then pure true
        else
          let e ← currentEdge b
          pure (decide (p.x ≤ e.top.x))) := fun _ _ => by presb
  have h3 := fun b nb i => sp28 (R := R) b _ (h := h1 b nb) i
  have h4 := fun b i => sp28 (R := R) b _ (h := h2 b) i
  presb
  all_goals first | exact h3 _ _ _ | exact h4 _ _
instance sp40 (op : OperationKind) (sf cf : FillKind) (y : Int) (i : Nat) : Pres R (processHorizontal op sf cf y i) := by
  unfold processHorizontal; presb
instance sp41 (op : OperationKind) (sf cf : FillKind) (y : Int) : Pres R (processHorizontals op sf cf y) := by
  unfold processHorizontals; presb
instance sp42 (op : OperationKind) (sf cf : FillKind) (y : Int) : Pres R (topOfScanbeamLoop op sf cf y) := by
  unfold topOfScanbeamLoop; presb
instance sp43 (y : Int) (l : List (Option Nat)) : Pres R (promoteIntermediate y l) := by
  induction l with
  | nil => exact Pres.pure _
  | cons m l ih => rw [promoteIntermediate]; presb
instance sp44 (op : OperationKind) (sf cf : FillKind) (y : Int) (l : List LocalMinimum) :
    Pres R (processEdgesAtTopOfScanbeam op sf cf y l) := by unfold processEdgesAtTopOfScanbeam; presb
instance sp45 (y : Int) : Pres R (updateCurrentHotPixelIndex y) := by unfold updateCurrentHotPixelIndex; presb
instance sp46 (y : Int) : Pres R (popScan y) := by
  unfold popScan
  refine Pres.bind inferInstance fun _ => ?_
  split
  · infer_instance
  · exact Pres.bind ⟨fun s => SweepPrims.misc s _ _ _ _⟩ fun _ => inferInstance
instance sp47 (op : OperationKind) (sf cf : FillKind) (y : Int) (l : List LocalMinimum) : Pres R (vattiStep op sf cf y l) := by
  unfold vattiStep; presb
instance sp48 (op : OperationKind) (sf cf : FillKind) (l : List LocalMinimum) (k : List Int) : Pres R (executeVatti op sf cf l k) := by
  unfold executeVatti
  refine Pres.bind ⟨fun s => SweepPrims.misc s _ _ _ _⟩ fun _ => ?_
  presb
instance sp49 (y : Int) (l : List LocalMinimum) : Pres R (insertLocalMinimaHotPixel y l) := by
  induction l with
  | nil => exact Pres.pure _
  | cons m l ih => rw [insertLocalMinimaHotPixel]; presb
instance sp50 (b : Nat) (y : Int) (n : Nat) (f : F64 → F64 → Bool) : Pres R (horizontalPass b y n f) := by
  unfold horizontalPass; presb
instance sp51 (y : Int) (i : Nat) : Pres R (horizontalsAtTopScanbeam y i) := by unfold horizontalsAtTopScanbeam; presb
instance sp52 (y : Int) (b i : Nat) : Pres R (hotPixelAdvance y b i) := by unfold hotPixelAdvance; presb
instance sp53 (y : Int) : Pres R (processHotPixelEdgesAtTopOfScanbeam y) := by unfold processHotPixelEdgesAtTopOfScanbeam; presb
instance sp54 (y : Int) : Pres R (processHotPixelIntersections y) := by
  unfold processHotPixelIntersections
  refine Pres.bind inferInstance fun _ => Pres.bind inferInstance fun q => ?_
  refine Pres.bind (Pres.forList (fun _ => by presb) _) fun _ => ⟨fun s => SweepPrims.misc s _ _ _ _⟩
instance sp55 (y : Int) (l : List LocalMinimum) : Pres R (hotPixelStep y l) := by unfold hotPixelStep; presb
instance sp56 : Pres R sortHotPixels := by
  unfold sortHotPixels
  refine Pres.bind inferInstance fun _ => Pres.bind inferInstance fun _ => ?_
  split
  · infer_instance
  · exact ⟨fun s => SweepPrims.misc s _ _ _ _⟩
instance sp57 (l : List LocalMinimum) (k : List Int) : Pres R (buildHotPixels l k) := by
  unfold buildHotPixels
  refine Pres.bind ⟨fun s => SweepPrims.misc s _ _ _ _⟩ fun _ => ?_
  presb

end

end Wagyu
