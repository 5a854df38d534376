import Verif.Proofs.FuelHeap

/-! # The fuel is an artefact: the sweeps -/

namespace Wagyu

instance Up.findSameKind (k : PolygonKind) (l : List (Option Nat)) (m : List Nat) : Up (Wagyu.findSameKind k l m) (Wagyu.findSameKind k l m) := by
  induction l generalizing m with
  | nil => exact Up.ret _
  | cons x l ih => rw [Wagyu.findSameKind]; up

instance Up.setWindingCount (boundIndex : Nat) (sf cf : FillKind) :
    Up (Wagyu.setWindingCount boundIndex sf cf) (Wagyu.setWindingCount boundIndex sf cf) := by
  unfold Wagyu.setWindingCount; up

instance Up.insertHotPixelsInPath (b : Nat) (endPoint : Point) (addEnd : Bool) :
    Up (Wagyu.insertHotPixelsInPath b endPoint addEnd) (Wagyu.insertHotPixelsInPath b endPoint addEnd) := by
  unfold Wagyu.insertHotPixelsInPath; up

instance Up.addPointToRing (b : Nat) (point : Point) :
    Up (Wagyu.addPointToRing b point) (Wagyu.addPointToRing b point) := by
  unfold Wagyu.addPointToRing; up

instance Up.addPoint (b : Nat) (point : Point) :
    Up (Wagyu.addPoint b point) (Wagyu.addPoint b point) := by
  unfold Wagyu.addPoint; up

instance Up.addLocalMinimumPoint (point : Point) (first second : Nat) :
    Up (Wagyu.addLocalMinimumPoint point first second) (Wagyu.addLocalMinimumPoint point first second) := by
  unfold Wagyu.addLocalMinimumPoint; up

instance Up.chooseKeep (first second firstRing secondRing : Nat) :
    Up (Wagyu.chooseKeep first second firstRing secondRing) (Wagyu.chooseKeep first second firstRing secondRing) := by
  unfold Wagyu.chooseKeep; up

instance Up.joinNodes (keepRing removeRing : Nat) (keepSide removeSide : EdgeSide) :
    Up (Wagyu.joinNodes keepRing removeRing keepSide removeSide) (Wagyu.joinNodes keepRing removeRing keepSide removeSide) := by
  unfold Wagyu.joinNodes; up

instance Up.appendRing (first second : Nat) :
    Up (Wagyu.appendRing first second) (Wagyu.appendRing first second) := by
  unfold Wagyu.appendRing; up

instance Up.addLocalMaximumPoint (point : Point) (first second : Nat) :
    Up (Wagyu.addLocalMaximumPoint point first second) (Wagyu.addLocalMaximumPoint point first second) := by
  unfold Wagyu.addLocalMaximumPoint; up

instance Up.swapRings (first second : Nat) :
    Up (Wagyu.swapRings first second) (Wagyu.swapRings first second) := by
  unfold Wagyu.swapRings; up

instance Up.intersectBounds (point : Point) (op : OperationKind) (sf cf : FillKind) (first second : Nat) :
    Up (Wagyu.intersectBounds point op sf cf first second) (Wagyu.intersectBounds point op sf cf first second) := by
  unfold Wagyu.intersectBounds; up

theorem bubbleSort_more {α : Type} (cmp : α → α → Bool) : ∀ (n n' : Nat), n ≤ n' → ∀ (l : List α) r, bubbleSort cmp n l = some r → bubbleSort cmp n' l = some r
  | 0, _, _, _, _, h => by cases h
  | n + 1, 0, hn, _, _, _ => absurd hn (by omega)
  | n + 1, n' + 1, hn, l, r, h => by
    rw [bubbleSort] at h ⊢
    dsimp only at h ⊢
    split at h
    · rw [if_pos (by assumption)]; exact h
    · rw [if_neg (by assumption)]
      cases h1 : bubbleSort cmp n (bubblePassL cmp l).1 with
      | none => rw [h1] at h; cases h
      | some r2 =>
        rw [bubbleSort_more cmp n n' (by omega) _ r2 h1]
        rw [h1] at h
        exact h

instance Up.sortActive : Up Wagyu.sortActive Wagyu.sortActive := by
  unfold Wagyu.sortActive
  refine Up.bind (Up.gets fun _ _ => rfl) fun abl => Up.bind (Up.gets fun _ _ => rfl) fun bs => Up.fuel fun n n' hn => ?_
  cases h : bubbleSort (intersectionCompare bs) n (abl.filterMap id) with
  | none => exact Up.out (fun h => h.1 rfl)
  | some r => rw [bubbleSort_more _ n n' hn.le _ _ h]; exact upOfSteady

instance Up.buildIntersectList  :
    Up (Wagyu.buildIntersectList) (Wagyu.buildIntersectList) := by
  unfold Wagyu.buildIntersectList; up

instance Up.processIntersectList (op : OperationKind) (sf cf : FillKind) (n : Nat) (l : List IntersectNode) : Up (Wagyu.processIntersectList op sf cf n l) (Wagyu.processIntersectList op sf cf n l) := by
  induction n generalizing l with
  | zero => exact Up.ret _
  | succ n ih => cases l with
    | nil => exact Up.ret _
    | cons x l => rw [Wagyu.processIntersectList]; up

instance Up.processIntersections (topY : Int) (op : OperationKind) (sf cf : FillKind) :
    Up (Wagyu.processIntersections topY op sf cf) (Wagyu.processIntersections topY op sf cf) := by
  unfold Wagyu.processIntersections; up

instance Up.maximaLoop (op : OperationKind) (sf cf : FillKind) (maxIdx : Nat) (boundIdx : Nat) :
    Up (Wagyu.maximaLoop op sf cf maxIdx boundIdx) (Wagyu.maximaLoop op sf cf maxIdx boundIdx) := by
  unfold Wagyu.maximaLoop; up

instance Up.doMaxima (op : OperationKind) (sf cf : FillKind) (boundIdx maxIdx : Nat) :
    Up (Wagyu.doMaxima op sf cf boundIdx maxIdx) (Wagyu.doMaxima op sf cf boundIdx maxIdx) := by
  unfold Wagyu.doMaxima; up

instance Up.insertLmLeftAndRightBound (op : OperationKind) (sf cf : FillKind) (left right : Nat) :
    Up (Wagyu.insertLmLeftAndRightBound op sf cf left right) (Wagyu.insertLmLeftAndRightBound op sf cf left right) := by
  unfold Wagyu.insertLmLeftAndRightBound; up

instance Up.insertHorizontalLocalMinima (op : OperationKind) (sf cf : FillKind) (y : Int) (l : List LocalMinimum) : Up (Wagyu.insertHorizontalLocalMinima op sf cf y l) (Wagyu.insertHorizontalLocalMinima op sf cf y l) := by
  induction l with
  | nil => exact Up.ret _
  | cons x l ih => rw [Wagyu.insertHorizontalLocalMinima]; up

instance Up.insertLocalMinima (op : OperationKind) (sf cf : FillKind) (y : Int) (l : List LocalMinimum) : Up (Wagyu.insertLocalMinima op sf cf y l) (Wagyu.insertLocalMinima op sf cf y l) := by
  induction l with
  | nil => exact Up.ret _
  | cons x l ih => rw [Wagyu.insertLocalMinima]; up

theorem Up.passHotPixelsRight (b : Nat) {f f' : Point → M Bool} (h : ∀ p, Up (f p) (f' p)) (len n i : Nat) : Up (Wagyu.passHotPixelsRight b f len n i) (Wagyu.passHotPixelsRight b f' len n i) := by
  induction n generalizing i with
  | zero => exact Up.ret _
  | succ n ih => rw [Wagyu.passHotPixelsRight, Wagyu.passHotPixelsRight]; up

macro_rules | `(tactic| upx) => `(tactic| with_reducible refine Up.passHotPixelsRight _ (fun _ => ?_) _ _ _)

theorem Up.passHotPixelsLeft (b : Nat) {f f' : Point → M Bool} (h : ∀ p, Up (f p) (f' p)) (n : Nat) : Up (Wagyu.passHotPixelsLeft b f n) (Wagyu.passHotPixelsLeft b f' n) := by
  induction n with
  | zero => exact Up.ret _
  | succ n ih => rw [Wagyu.passHotPixelsLeft, Wagyu.passHotPixelsLeft]; up

macro_rules | `(tactic| upx) => `(tactic| with_reducible refine Up.passHotPixelsLeft _ (fun _ => ?_) _)

instance Up.finishHorizontal (b : Nat) (boundIdx : Nat) :
    Up (Wagyu.finishHorizontal b boundIdx) (Wagyu.finishHorizontal b boundIdx) := by
  unfold Wagyu.finishHorizontal; up

instance Up.processHorizontalLeftToRight (op : OperationKind) (sf cf : FillKind) (y : Int) (boundIdx : Nat) :
    Up (Wagyu.processHorizontalLeftToRight op sf cf y boundIdx) (Wagyu.processHorizontalLeftToRight op sf cf y boundIdx) := by
  unfold Wagyu.processHorizontalLeftToRight; up

instance Up.processHorizontalRightToLeft (op : OperationKind) (sf cf : FillKind) (y : Int) (boundIdx : Nat) :
    Up (Wagyu.processHorizontalRightToLeft op sf cf y boundIdx) (Wagyu.processHorizontalRightToLeft op sf cf y boundIdx) := by
  unfold Wagyu.processHorizontalRightToLeft; up

instance Up.processHorizontal (op : OperationKind) (sf cf : FillKind) (y : Int) (boundIdx : Nat) :
    Up (Wagyu.processHorizontal op sf cf y boundIdx) (Wagyu.processHorizontal op sf cf y boundIdx) := by
  unfold Wagyu.processHorizontal; up

instance Up.processHorizontals (op : OperationKind) (sf cf : FillKind) (y : Int) :
    Up (Wagyu.processHorizontals op sf cf y) (Wagyu.processHorizontals op sf cf y) := by
  unfold Wagyu.processHorizontals; up

instance Up.topOfScanbeamLoop (op : OperationKind) (sf cf : FillKind) (topY : Int) :
    Up (Wagyu.topOfScanbeamLoop op sf cf topY) (Wagyu.topOfScanbeamLoop op sf cf topY) := by
  unfold Wagyu.topOfScanbeamLoop; up

instance Up.promoteIntermediate (y : Int) (l : List (Option Nat)) : Up (Wagyu.promoteIntermediate y l) (Wagyu.promoteIntermediate y l) := by
  induction l with
  | nil => exact Up.ret _
  | cons x l ih => rw [Wagyu.promoteIntermediate]; up

instance Up.processEdgesAtTopOfScanbeam (op : OperationKind) (sf cf : FillKind) (topY : Int) (minimums : List LocalMinimum) :
    Up (Wagyu.processEdgesAtTopOfScanbeam op sf cf topY minimums) (Wagyu.processEdgesAtTopOfScanbeam op sf cf topY minimums) := by
  unfold Wagyu.processEdgesAtTopOfScanbeam; up

instance Up.updateCurrentHotPixelIndex (scanlineY : Int) :
    Up (Wagyu.updateCurrentHotPixelIndex scanlineY) (Wagyu.updateCurrentHotPixelIndex scanlineY) := by
  unfold Wagyu.updateCurrentHotPixelIndex; up

instance Up.vattiStep (op : OperationKind) (sf cf : FillKind) (y : Int) (minimums : List LocalMinimum) :
    Up (Wagyu.vattiStep op sf cf y minimums) (Wagyu.vattiStep op sf cf y minimums) := by
  unfold Wagyu.vattiStep; up

instance Up.executeVatti (op : OperationKind) (sf cf : FillKind) (minimums : List LocalMinimum) (scanbeams : List Int) :
    Up (Wagyu.executeVatti op sf cf minimums scanbeams) (Wagyu.executeVatti op sf cf minimums scanbeams) := by
  unfold Wagyu.executeVatti; up

instance Up.hotPixelAdvance (topY : Int) (b : Nat) (index : Nat) :
    Up (Wagyu.hotPixelAdvance topY b index) (Wagyu.hotPixelAdvance topY b index) := by
  unfold Wagyu.hotPixelAdvance; up

instance Up.processHotPixelEdgesAtTopOfScanbeam (topY : Int) :
    Up (Wagyu.processHotPixelEdgesAtTopOfScanbeam topY) (Wagyu.processHotPixelEdgesAtTopOfScanbeam topY) := by
  unfold Wagyu.processHotPixelEdgesAtTopOfScanbeam; up

instance Up.processHotPixelIntersections (topY : Int) :
    Up (Wagyu.processHotPixelIntersections topY) (Wagyu.processHotPixelIntersections topY) := by
  unfold Wagyu.processHotPixelIntersections; up

instance Up.hotPixelStep (y : Int) (minimums : List LocalMinimum) :
    Up (Wagyu.hotPixelStep y minimums) (Wagyu.hotPixelStep y minimums) := by
  unfold Wagyu.hotPixelStep; up

theorem qsLoop_more {α : Type} [Inhabited α] (cmp : α → α → Bool) : ∀ (n n' : Nat), n ≤ n' → ∀ (l : List α) q r, qsLoop cmp n l q = some r → qsLoop cmp n' l q = some r
  | n, n', hn, l, [], r, h => by
    have : ∀ n, qsLoop cmp n l [] = some l := by intro n; cases n <;> rfl
    rw [this] at h ⊢; exact h
  | 0, n', hn, l, _ :: _, r, h => by cases h
  | n + 1, 0, hn, _, _ :: _, _, _ => absurd hn (by omega)
  | n + 1, n' + 1, hn, l, (lo, hi) :: q, r, h => by
    rw [qsLoop] at h ⊢
    exact qsLoop_more cmp n n' (by omega) _ _ r h

instance Up.sortHotPixels : Up Wagyu.sortHotPixels Wagyu.sortHotPixels := by
  unfold Wagyu.sortHotPixels
  refine Up.bind (Up.gets fun _ _ => rfl) fun hps => Up.fuel fun n n' hn => ?_
  cases h : quicksort hotPixelsCompare n hps with
  | none => exact Up.out (fun h => h.1 rfl)
  | some l =>
    have : quicksort hotPixelsCompare n' hps = some l := by
      rw [quicksort] at h ⊢
      split at h
      · rw [if_pos (by assumption)]; exact h
      · rw [if_neg (by assumption)]; exact qsLoop_more _ n n' hn.le _ _ _ h
    rw [this]
    exact Up.modify fun _ _ => rfl

instance Up.buildHotPixels (minimums : List LocalMinimum) (scanbeams : List Int) :
    Up (Wagyu.buildHotPixels minimums scanbeams) (Wagyu.buildHotPixels minimums scanbeams) := by
  unfold Wagyu.buildHotPixels; up

end Wagyu
