import Verif.Proofs.Pres
import Verif.Model.Wagyu

/-!
# What the statements that build and correct rings may change

Nodes, rings, the forest, and of a bound only its ring, its last point and its side.
-/

namespace Wagyu

/-- `R` ignores nodes, rings, the forest, and the field `lastPoint` of bounds. -/
class HeapPrims (R : St → St → Prop) : Prop extends Preo R where
  heap : ∀ (s : St) nodes nn rings children allNodes,
    R s { s with nodes := nodes, nn := nn, rings := rings, children := children, allNodes := allNodes }
  last : ∀ (s : St) (b : Nat) (lastPoint : Point),
    R s { s with bounds := upd s.bounds b { s.bounds b with lastPoint := lastPoint } }

section
variable {R : St → St → Prop} [HeapPrims R]

instance (i : Nat) (f : Node → Node) : Pres R (modNode i f) := ⟨fun s => HeapPrims.heap s _ s.nn s.rings s.children s.allNodes⟩
instance (i : Nat) (f : Ring → Ring) : Pres R (modRing i f) := ⟨fun s => HeapPrims.heap s s.nodes s.nn _ s.children s.allNodes⟩
instance (i : Nat) (v : Option Nat) : Pres R (setNext i v) := by unfold setNext; infer_instance
instance (i : Nat) (v : Option Nat) : Pres R (setPrev i v) := by unfold setPrev; infer_instance
instance (i : Nat) (v : Option Nat) : Pres R (setNodeRing i v) := by unfold setNodeRing; infer_instance
instance (i : Nat) (v : Option Nat) : Pres R (setRingNode i v) := by unfold setRingNode; infer_instance
instance (i : Nat) (v : Option Nat) : Pres R (setRingParent i v) := by unfold setRingParent; infer_instance

instance (b : Nat) (v : Point) : Pres R (modBound b fun bd => { bd with lastPoint := v }) :=
  ⟨fun s => HeapPrims.last s b v⟩

theorem Pres.forNodes (start : Nat) (body : Nat → M Unit) (h : ∀ i, Pres R (body i)) : Pres R (forNodes start body) := by
  unfold Wagyu.forNodes; pres
instance (i : Nat) : Pres R (reverseNodes i) := Pres.forNodes _ _ fun _ => inferInstance
instance (a b : Nat) : Pres R (placeBefore a b) := by unfold placeBefore; pres
instance (i : Nat) : Pres R (unlinkNode i) := by unfold unlinkNode; pres
instance (a b : Nat) : Pres R (unlinkUntil a b) := by unfold unlinkUntil; pres
instance (a b : Nat) : Pres R (unlinkDo a b) := by unfold unlinkDo; pres
instance (a b c d : Nat) : Pres R (fixCollinearPath a b c d) := by unfold fixCollinearPath; pres
instance (r : Nat) : Pres R (recalculateStats r) := by unfold recalculateStats; pres
instance (r : Nat) : Pres R (ringArea r) := by unfold ringArea; pres
instance (r : Nat) : Pres R (ringIsHole r) := by unfold ringIsHole; pres
instance (r : Nat) : Pres R (ringSize r) := by unfold ringSize; pres
instance (r : Nat) (st : F64 × Nat × Box) : Pres R (setStats r st) := by unfold setStats; pres
instance (r : Nat) : Pres R (updatePoints r) := by
  unfold updatePoints; exact Pres.bind inferInstance fun _ => Pres.bind inferInstance fun _ => Pres.forNodes _ _ fun _ => inferInstance
instance (n : Nat) : Pres R (isConvex n) := by unfold isConvex; pres
instance (a b : Nat) : Pres R (insideOrOutsideSpecial a b) := by unfold insideOrOutsideSpecial; pres
instance (a b : Nat) : Pres R (ringInsideOf a b) := by unfold ringInsideOf; pres
instance (a b : Nat) : Pres R (getLowermostRing a b) := by unfold getLowermostRing; pres
instance (p : Option Nat) (f : List (Option Nat) → List (Option Nat)) : Pres R (modChildren p f) := by
  unfold modChildren
  split
  · exact ⟨fun s => HeapPrims.heap s s.nodes s.nn s.rings _ s.allNodes⟩
  · infer_instance
instance (r : Option Nat) (p : Point) (b : Option Nat) : Pres R (createPointNode r p b) := by
  unfold createPointNode
  refine Pres.bind inferInstance fun i => Pres.bind ⟨fun s => HeapPrims.heap s _ _ s.rings s.children s.allNodes⟩ fun _ => ?_
  have h : Pres R (modify fun s => { s with allNodes := s.allNodes ++ [i] }) :=
    ⟨fun s => HeapPrims.heap s s.nodes s.nn s.rings s.children _⟩
  pres
instance (r : Nat) (p : Option Nat) : Pres R (sameOrientation r p) := by unfold sameOrientation; pres
instance (r : Nat) (p : Option Nat) : Pres R (assignAsChild r p) := by unfold assignAsChild; pres
instance (r p : Nat) : Pres R (assignAsSibling r p) := by unfold assignAsSibling; pres
instance (r : Nat) (p : Option Nat) : Pres R (reassignAsChild r p) := by unfold reassignAsChild; pres
instance (r : Nat) (p : Option Nat) : Pres R (replaceRing r p) := by unfold replaceRing; pres
instance (n r : Nat) (a b : Bool) : Pres R (removeRing n r a b) := by
  induction n generalizing r a b with
  | zero => exact Pres.raise _
  | succ n ih => rw [removeRing]; pres
instance (r : Nat) : Pres R (detachNodes r) := by unfold detachNodes; pres
instance (n r : Nat) (a b : Bool) : Pres R (removeRingAndPoints n r a b) := by
  induction n generalizing r a b with
  | zero => exact Pres.raise _
  | succ n ih => rw [removeRingAndPoints]; pres

/-! ## The sweep -/

instance (b : Nat) (p : Point) : Pres R (pushPoint b p) := by unfold pushPoint; pres
instance (y sx ex : Int) (b i j : Nat) (a : Bool) : Pres R (hotPixelSetLeftToRight y sx ex b i j a) := by
  unfold hotPixelSetLeftToRight; pres
instance (y sx ex : Int) (b i j : Nat) (a : Bool) : Pres R (hotPixelSetRightToLeft y sx ex b i j a) := by
  unfold hotPixelSetRightToLeft; pres
instance (b : Nat) (p : Point) (a : Bool) : Pres R (insertHotPixelsInPath b p a) := by
  unfold insertHotPixelsInPath; pres
instance (b : Nat) (p : Point) : Pres R (addPointToRing b p) := by unfold addPointToRing; pres
instance (b : Nat) : Pres R (setHoleState b) := by
  unfold setHoleState
  refine Pres.bind inferInstance fun _ => ?_
  split
  · pres
  · refine Pres.bind inferInstance fun _ => Pres.bind inferInstance fun _ => Pres.bind inferInstance fun _ => ?_
    split
    · exact Pres.bind inferInstance fun _ => ⟨fun s => HeapPrims.heap s s.nodes s.nn s.rings _ s.allNodes⟩
    · pres
instance (a b c d : Nat) : Pres R (chooseKeep a b c d) := by unfold chooseKeep; pres
instance (a b : Nat) (c d : EdgeSide) : Pres R (joinNodes a b c d) := by unfold joinNodes; pres
instance (b : Nat) (stop : Point → M Bool) [h : ∀ p, Pres R (stop p)] (len n i : Nat) :
    Pres R (passHotPixelsRight b stop len n i) := by
  induction n generalizing i with
  | zero => exact Pres.pure _
  | succ n ih => rw [passHotPixelsRight]; pres
instance (b : Nat) (stop : Point → M Bool) [h : ∀ p, Pres R (stop p)] (i : Nat) :
    Pres R (passHotPixelsLeft b stop i) := by
  induction i with
  | zero => exact Pres.pure _
  | succ n ih => rw [passHotPixelsLeft]; pres

end

/-- `R` ignores moreover the number of rings and the fields `ring` and `side` of bounds. -/
class OutPrims (R : St → St → Prop) : Prop extends HeapPrims R where
  newRing : ∀ (s : St) rings nr, R s { s with rings := rings, nr := nr }
  bound : ∀ (s : St) (b : Nat) (ring : Option Nat) (lastPoint : Point) (side : EdgeSide),
    R s { s with bounds := upd s.bounds b { s.bounds b with ring := ring, lastPoint := lastPoint, side := side } }

section
variable {R : St → St → Prop} [OutPrims R]

theorem Pres.modBoundOut (b : Nat) (f : Bound → Bound)
    (h : ∀ x, f x = { x with ring := (f x).ring, lastPoint := (f x).lastPoint, side := (f x).side }) :
    Pres R (modBound b f) := by
  constructor
  intro s
  show R s { s with bounds := upd s.bounds b (f (s.bounds b)) }
  rw [h]
  exact OutPrims.bound s b _ _ _

instance (b : Nat) (v : Option Nat) : Pres R (modBound b fun bd => { bd with ring := v }) := Pres.modBoundOut _ _ fun _ => rfl
instance (b : Nat) (v : EdgeSide) : Pres R (modBound b fun bd => { bd with side := v }) := Pres.modBoundOut _ _ fun _ => rfl
instance (b : Nat) (v : Point) (w : Option Nat) : Pres R (modBound b fun bd => { bd with lastPoint := v, ring := w }) :=
  Pres.modBoundOut _ _ fun _ => rfl
instance (b : Nat) (v : Option Nat) (w : EdgeSide) : Pres R (modBound b fun bd => { bd with ring := v, side := w }) :=
  Pres.modBoundOut _ _ fun _ => rfl

instance : Pres R createRing := ⟨fun s => OutPrims.newRing s _ _⟩
instance (b : Nat) (p : Point) : Pres R (addFirstPoint b p) := by unfold addFirstPoint; pres
instance (b : Nat) (p : Point) : Pres R (addPoint b p) := by unfold addPoint; pres
instance (p : Point) (a b : Nat) : Pres R (addLocalMinimumPoint p a b) := by unfold addLocalMinimumPoint; pres
instance (a b c : Nat) (l : List (Option Nat)) : Pres R (reattach a b c l) := by
  induction l with
  | nil => exact Pres.pure _
  | cons o l ih => cases o <;> rw [reattach] <;> pres
instance (a b : Nat) : Pres R (appendRing a b) := by unfold appendRing; pres
instance (p : Point) (a b : Nat) : Pres R (addLocalMaximumPoint p a b) := by unfold addLocalMaximumPoint; pres
instance (a b : Nat) : Pres R (swapRings a b) := by unfold swapRings; pres

end

/-- `R` also ignores the winding counts of bounds. -/
class WindPrims (R : St → St → Prop) : Prop extends OutPrims R where
  wind : ∀ (s : St) (b : Nat) (wc owc : Int),
    R s { s with bounds := upd s.bounds b { s.bounds b with windingCount := wc, oppositeWindingCount := owc } }

section
variable {R : St → St → Prop} [WindPrims R]

instance (b : Nat) (v w : Int) :
    Pres R (modBound b fun bd => { bd with windingCount := v, oppositeWindingCount := w }) :=
  ⟨fun s => WindPrims.wind s b v w⟩

instance (p : Point) (op : OperationKind) (sf cf : FillKind) (a b : Nat) : Pres R (intersectBounds p op sf cf a b) := by
  unfold intersectBounds; pres

end

/-- The list of active bounds is the same. -/
def SameAbl (s s' : St) : Prop := s'.abl = s.abl

instance : WindPrims SameAbl where
  refl _ := rfl
  trans h h' := h'.trans h
  heap _ _ _ _ _ _ := rfl
  last _ _ _ := rfl
  newRing _ _ _ := rfl
  bound _ _ _ _ _ := rfl
  wind _ _ _ _ := rfl

end Wagyu
