import Verif.Proofs.Two
import Verif.Proofs.SweepPrims
import Verif.Proofs.TotHeap

/-!
# Statements that only add points

They change the heaps of nodes and rings, and of bounds the ring, the side, the last point and the winding counts.
-/

namespace Wagyu

/-- Where a bound is. -/
structure SamePlace (b c : Bound) : Prop where
  edges : c.edges = b.edges
  cur : c.cur = b.cur
  nxt : c.nxt = b.nxt
  currentX : c.currentX = b.currentX
  maximumBound : c.maximumBound = b.maximumBound

theorem SamePlace.refl (b : Bound) : SamePlace b b := ⟨rfl, rfl, rfl, rfl, rfl⟩
theorem SamePlace.trans {a b c : Bound} (h : SamePlace a b) (k : SamePlace b c) : SamePlace a c :=
  ⟨k.1.trans h.1, k.2.trans h.2, k.3.trans h.3, k.4.trans h.4, k.5.trans h.5⟩
theorem SamePlace.curIdx {b c : Bound} (h : SamePlace b c) : c.curIdx = b.curIdx := by
  unfold Bound.curIdx; rw [h.cur, h.edges]
theorem SamePlace.nxtIdx {b c : Bound} (h : SamePlace b c) : c.nxtIdx = b.nxtIdx := by
  unfold Bound.nxtIdx; rw [h.nxt, h.edges]
theorem SamePlace.edge {b c : Bound} (h : SamePlace b c) : c.currentEdge? = b.currentEdge? := by
  unfold Bound.currentEdge?; rw [h.curIdx, h.edges]
theorem SamePlace.next {b c : Bound} (h : SamePlace b c) : c.nextEdge? = b.nextEdge? := by
  unfold Bound.nextEdge?; rw [h.nxtIdx, h.edges]

structure Still (s s' : St) : Prop where
  scan : s'.scan = s.scan
  abl : s'.abl = s.abl
  hot : s'.hotPixels = s.hotPixels
  cur : s'.curHot = s.curHot
  bound : ∀ b, SamePlace (s.bounds b) (s'.bounds b)

theorem Still.rfl' {s s' : St} (h1 : s'.scan = s.scan) (h2 : s'.abl = s.abl) (h3 : s'.hotPixels = s.hotPixels) (h4 : s'.curHot = s.curHot)
    (h5 : s'.bounds = s.bounds) : Still s s' := ⟨h1, h2, h3, h4, fun b => by rw [h5]; exact SamePlace.refl _⟩

instance : Preo Still where
  refl s := ⟨rfl, rfl, rfl, rfl, fun b => SamePlace.refl _⟩
  trans h k := ⟨k.1.trans h.1, k.2.trans h.2, k.3.trans h.3, k.4.trans h.4, fun b => (h.5 b).trans (k.5 b)⟩
instance : ForestPrims Still where
  node _ _ _ _ _ := Still.rfl' rfl rfl rfl rfl rfl
  ring _ _ _ _ _ := Still.rfl' rfl rfl rfl rfl rfl
  sort _ _ := Still.rfl' rfl rfl rfl rfl rfl
  parent _ _ := ⟨fun _ => Still.rfl' rfl rfl rfl rfl rfl⟩
  children p f := by unfold modChildren; split <;> exact ⟨fun _ => Still.rfl' rfl rfl rfl rfl rfl⟩
  create := ⟨fun _ => Still.rfl' rfl rfl rfl rfl rfl⟩
instance Still.createPointNode (r : Option Nat) (p : Point) (b : Option Nat) : Pres Still (createPointNode r p b) := by
  unfold Wagyu.createPointNode
  refine Pres.bind inferInstance fun _ => Pres.bind ⟨fun _ => Still.rfl' rfl rfl rfl rfl rfl⟩ fun _ => ?_
  cases b with
  | none => exact Pres.bind ⟨fun _ => Still.rfl' rfl rfl rfl rfl rfl⟩ fun _ => inferInstance
  | some b => exact Pres.bind inferInstance fun _ => Pres.bind ⟨fun _ => Still.rfl' rfl rfl rfl rfl rfl⟩ fun _ => inferInstance
instance Still.modRing (i : Nat) (f : Ring → Ring) : Pres Still (modRing i f) := ⟨fun _ => Still.rfl' rfl rfl rfl rfl rfl⟩

theorem Still.modBound {b : Nat} {f : Bound → Bound} (h : ∀ bd, SamePlace bd (f bd)) : Pres Still (modBound b f) := by
  refine ⟨fun s => ⟨rfl, rfl, rfl, rfl, fun c => ?_⟩⟩
  show SamePlace _ (upd _ _ _ c)
  by_cases hc : c = b
  · subst hc; rw [Wagyu.upd_same]; exact h _
  · rw [upd_ne _ _ hc]; exact SamePlace.refl _

/-- Decompose a statement down to calls for which an instance is known. -/
macro "still" : tactic => `(tactic|
  repeat' first
    | infer_instance
    | assumption
    | ((with_reducible refine Still.modBound ?_); intro _; exact ⟨rfl, rfl, rfl, rfl, rfl⟩)
    | (with_reducible refine Pres.bind ?_ fun _ => ?_)
    | (with_reducible refine Pres.ite' ?_ ?_)
    | (with_reducible refine Pres.loopM (fun _ => ?_) _)
    | (with_reducible refine Pres.forElse (fun _ => ?_) (fun _ => ?_) _ _)
    | split
    | dsimp only)

instance Still.joinNodes (a b : Nat) (c d : EdgeSide) : Pres Still (joinNodes a b c d) := by unfold Wagyu.joinNodes; pres
instance Still.chooseKeep (a b c d : Nat) : Pres Still (chooseKeep a b c d) := by unfold Wagyu.chooseKeep; pres
instance Still.pushPoint (b : Nat) (p : Point) : Pres Still (pushPoint b p) := by unfold Wagyu.pushPoint; still
instance Still.hotL (y sx ex : Int) (b i j : Nat) (a : Bool) : Pres Still (hotPixelSetLeftToRight y sx ex b i j a) := by
  unfold hotPixelSetLeftToRight; still
instance Still.hotR (y sx ex : Int) (b i j : Nat) (a : Bool) : Pres Still (hotPixelSetRightToLeft y sx ex b i j a) := by
  unfold hotPixelSetRightToLeft; still
instance Still.backUp (y : Int) (i : Nat) : Pres Still (hotPixelBackUp y i) := by
  induction i with
  | zero => unfold hotPixelBackUp; still
  | succ n ih => unfold hotPixelBackUp; still
instance Still.rowEnd (y : Int) (len n i : Nat) : Pres Still (hotPixelRowEnd y len n i) := by
  induction n generalizing i with
  | zero => unfold hotPixelRowEnd; still
  | succ n ih => have := ih (i + 1); unfold hotPixelRowEnd; still
instance Still.inPath (b : Nat) (p : Point) (a : Bool) : Pres Still (insertHotPixelsInPath b p a) := by unfold insertHotPixelsInPath; still
instance Still.addPointToRing (b : Nat) (p : Point) : Pres Still (addPointToRing b p) := by unfold Wagyu.addPointToRing; still
instance Still.holeStateScan (l : List (Option Nat)) (t : Option Nat) : Pres Still (holeStateScan l t) := by
  have : Pres Eq (Wagyu.holeStateScan l t) := inferInstance
  exact ⟨fun s => by rw [← this.pres s]; exact Preo.refl s⟩
instance Still.setHoleState (b : Nat) : Pres Still (setHoleState b) := by
  unfold Wagyu.setHoleState
  refine Pres.bind inferInstance fun _ => ?_
  split
  · infer_instance
  · refine Pres.bind inferInstance fun _ => Pres.bind inferInstance fun _ => Pres.bind inferInstance fun _ => ?_
    split
    · exact Pres.bind inferInstance fun _ => ⟨fun _ => Still.rfl' rfl rfl rfl rfl rfl⟩
    · still
instance Still.addFirstPoint (b : Nat) (p : Point) : Pres Still (addFirstPoint b p) := by unfold Wagyu.addFirstPoint; still
instance Still.addPoint (b : Nat) (p : Point) : Pres Still (addPoint b p) := by unfold Wagyu.addPoint; still
instance Still.addLocalMinimumPoint (p : Point) (a b : Nat) : Pres Still (addLocalMinimumPoint p a b) := by
  unfold Wagyu.addLocalMinimumPoint; still
instance Still.reattach (a b c : Nat) (l : List (Option Nat)) : Pres Still (reattach a b c l) := by
  induction l with
  | nil => unfold Wagyu.reattach; still
  | cons x l ih => cases x <;> (unfold Wagyu.reattach; still)
instance Still.appendRing (a b : Nat) : Pres Still (appendRing a b) := by unfold Wagyu.appendRing; still
instance Still.addLocalMaximumPoint (p : Point) (a b : Nat) : Pres Still (addLocalMaximumPoint p a b) := by
  unfold Wagyu.addLocalMaximumPoint; still
instance Still.swapRings (a b : Nat) : Pres Still (swapRings a b) := by unfold Wagyu.swapRings; still
instance Still.intersectBounds (p : Point) (op : OperationKind) (sf cf : FillKind) (a b : Nat) :
    Pres Still (intersectBounds p op sf cf a b) := by
  unfold Wagyu.intersectBounds; still
instance Still.passRight (b : Nat) (stop : Point → M Bool) [h : ∀ p, Pres Still (stop p)] (len n i : Nat) :
    Pres Still (passHotPixelsRight b stop len n i) := by
  induction n generalizing i with
  | zero => unfold passHotPixelsRight; still
  | succ n ih => have := ih (i + 1); have := h; unfold passHotPixelsRight; still
instance Still.passLeft (b : Nat) (stop : Point → M Bool) [h : ∀ p, Pres Still (stop p)] (i : Nat) :
    Pres Still (passHotPixelsLeft b stop i) := by
  induction i with
  | zero => unfold passHotPixelsLeft; still
  | succ n ih => have := h; unfold passHotPixelsLeft; still

theorem Still.wf {s s' : St} {k : Nat} (h : Still (s.wf k) (s'.wf k)) : Still s s' := ⟨h.1, h.2, h.3, h.4, h.5⟩

/-- Add the frame to a termination statement. -/
theorem Tot.still {α : Type} {m : M α} {s : St} {Q : α → St → Prop} (h : Tot m s Q) [h' : Pres Still m] :
    Tot m s fun a s' => Q a s' ∧ Still s s' := h.and_pres h' fun _ _ _ => Still.wf

theorem Ok.still {α : Type} {m : M α} {s : St} {Q : α → St → Prop} (h : Ok m s Q) [h' : Pres Still m] :
    Ok m s fun a s' => Q a s' ∧ Still s s' := h.and ((Post.of_pres h').mono (fun _ _ h => h) fun _ _ _ => trivial)

end Wagyu
