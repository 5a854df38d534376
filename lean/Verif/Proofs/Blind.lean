import Verif.Proofs.Prims

/-!
# Statements that do not look at bounds

`Blind m`: replacing the heap of bounds changes nothing of what `m` does, and `m` hands it on.
-/

namespace Wagyu

/-- The state with another heap of bounds. -/
def St.withB (s : St) (f : Nat → Bound) : St := { s with bounds := f }

/-- The outcome with another heap of bounds. -/
def Res.withB {α : Type} (f : Nat → Bound) : Res α → Res α
  | .ok a s => .ok a (s.withB f)
  | .err e s => .err e (s.withB f)

class Blind {α : Type} (m : M α) : Prop where
  eq : ∀ s f, m (s.withB f) = (m s).withB f

section
variable {α β σ : Type}

theorem Blind.pure' (a : α) : Blind (Pure.pure a : M α) := ⟨fun _ _ => rfl⟩
instance Blind.pure (a : α) : Blind (Pure.pure a : M α) := Blind.pure' a

theorem Blind.bind {m : M α} {f : α → M β} (h1 : Blind m) (h2 : ∀ a, Blind (f a)) : Blind (m >>= f) := by
  constructor
  intro s g
  show M.bind m f (s.withB g) = (M.bind m f s).withB g
  unfold M.bind
  rw [h1.eq s g]
  cases hm : m s with
  | ok a s' => exact (h2 a).eq s' g
  | err e s' => rfl

theorem Blind.ite' {c : Prop} [Decidable c] {m n : M α} (h1 : Blind m) (h2 : Blind n) : Blind (if c then m else n) := by
  split <;> assumption

instance Blind.raise (e : Err) : Blind (raise e : M α) := ⟨fun _ _ => rfl⟩
theorem Blind.gets {f : St → α} (h : ∀ s g, f (s.withB g) = f s) : Blind (gets f) :=
  ⟨fun s g => by show Res.ok (f (s.withB g)) _ = Res.ok _ _; rw [h]⟩
instance Blind.deref (o : Option α) : Blind (deref o) := by
  cases o <;> exact ⟨fun _ _ => rfl⟩
instance Blind.orIndex (o : Option α) : Blind (orIndex o) := by
  cases o <;> exact ⟨fun _ _ => rfl⟩
instance Blind.liftE (o : Except Err α) : Blind (liftE o) := by
  cases o <;> exact ⟨fun _ _ => rfl⟩

theorem Blind.modify {f : St → St} (h : ∀ s g, f (s.withB g) = (f s).withB g) : Blind (modify f) :=
  ⟨fun s g => by show Res.ok () _ = Res.ok () _; rw [h]⟩

theorem Blind.iter {f : σ → M (σ ⊕ β)} (h : ∀ x, Blind (f x)) (n : Nat) (x : σ) : Blind (iter n f x) := by
  induction n generalizing x with
  | zero => exact Blind.raise _
  | succ n ih =>
    rw [Wagyu.iter]
    refine Blind.bind (h x) fun r => ?_
    cases r with
    | inl y => exact ih y
    | inr b => exact Blind.pure b

theorem Blind.loopM {f : σ → M (σ ⊕ β)} (h : ∀ x, Blind (f x)) (x : σ) : Blind (loopM f x) :=
  ⟨fun s => (Blind.iter h s.fuel x).eq s⟩

theorem Blind.forElse {f : σ → M (σ ⊕ β)} {g : σ → M β} (h : ∀ x, Blind (f x)) (hg : ∀ x, Blind (g x)) (n : Nat)
    (x : σ) : Blind (forElse n f g x) := by
  induction n generalizing x with
  | zero => exact hg x
  | succ n ih =>
    rw [Wagyu.forElse]
    refine Blind.bind (h x) fun r => ?_
    cases r with
    | inl y => exact ih y
    | inr b => exact Blind.pure b

theorem Blind.forList {f : α → M Unit} (h : ∀ x, Blind (f x)) (l : List α) : Blind (forList l f) := by
  induction l with
  | nil => exact Blind.pure ()
  | cons a l ih => rw [Wagyu.forList]; exact Blind.bind (h a) fun _ => ih

end

/-- Decompose a statement down to calls for which an instance is known. -/
macro "blind" : tactic => `(tactic|
  repeat' first
    | infer_instance
    | assumption
    | ((with_reducible refine Blind.gets ?_); intro _ _; rfl)
    | ((with_reducible refine Blind.modify ?_); intro _ _; rfl)
    | (with_reducible refine Blind.bind ?_ fun _ => ?_)
    | (with_reducible refine Blind.ite' ?_ ?_)
    | (with_reducible refine Blind.loopM (fun _ => ?_) _)
    | (with_reducible refine Blind.forElse (fun _ => ?_) (fun _ => ?_) _ _)
    | (with_reducible refine Blind.forList (fun _ => ?_) _)
    | split
    | dsimp only)

instance Blind.modNode (i : Nat) (f : Node → Node) : Blind (modNode i f) := ⟨fun _ _ => rfl⟩
instance Blind.modRing (i : Nat) (f : Ring → Ring) : Blind (modRing i f) := ⟨fun _ _ => rfl⟩
instance Blind.setNext (i : Nat) (v : Option Nat) : Blind (setNext i v) := ⟨fun _ _ => rfl⟩
instance Blind.setPrev (i : Nat) (v : Option Nat) : Blind (setPrev i v) := ⟨fun _ _ => rfl⟩
instance Blind.setNodeRing (i : Nat) (v : Option Nat) : Blind (setNodeRing i v) := ⟨fun _ _ => rfl⟩
instance Blind.setRingNode (i : Nat) (v : Option Nat) : Blind (setRingNode i v) := ⟨fun _ _ => rfl⟩
instance Blind.setStats (r : Nat) (st : F64 × Nat × Box) : Blind (setStats r st) := ⟨fun _ _ => rfl⟩
instance Blind.setRingParent (r : Nat) (p : Option Nat) : Blind (setRingParent r p) := ⟨fun _ _ => rfl⟩
instance Blind.modChildren (p : Option Nat) (f : List (Option Nat) → List (Option Nat)) : Blind (modChildren p f) := by
  unfold Wagyu.modChildren; split <;> exact ⟨fun _ _ => rfl⟩
instance Blind.createRing : Blind createRing := ⟨fun _ _ => rfl⟩
instance Blind.ablSet (i : Nat) (v : Option Nat) : Blind (ablSet i v) := ⟨fun _ _ => rfl⟩
instance Blind.ablFilter : Blind ablFilter := ⟨fun _ _ => rfl⟩
instance Blind.insertScan (y : Int) : Blind (insertScan y) := ⟨fun _ _ => rfl⟩
instance Blind.addHotPixel (p : Point) : Blind (addHotPixel p) := ⟨fun _ _ => rfl⟩
instance Blind.setCurrentHotPixelIndex (v : Nat) : Blind (setCurrentHotPixelIndex v) := ⟨fun _ _ => rfl⟩
instance Blind.getsNr : Blind (Wagyu.gets St.nr) := ⟨fun _ _ => rfl⟩
instance Blind.getsAllNodes : Blind (Wagyu.gets St.allNodes) := ⟨fun _ _ => rfl⟩
instance Blind.getsChildren : Blind (Wagyu.gets St.children) := ⟨fun _ _ => rfl⟩
instance Blind.getsFuel : Blind (Wagyu.gets St.fuel) := ⟨fun _ _ => rfl⟩
instance Blind.getsScan : Blind (Wagyu.gets St.scan) := ⟨fun _ _ => rfl⟩
instance Blind.getsAbl : Blind (Wagyu.gets St.abl) := ⟨fun _ _ => rfl⟩
instance Blind.getNode (i : Nat) : Blind (getNode i) := ⟨fun _ _ => rfl⟩
instance Blind.getRing (i : Nat) : Blind (getRing i) := ⟨fun _ _ => rfl⟩
instance Blind.nextOf (i : Nat) : Blind (nextOf i) := by unfold Wagyu.nextOf; blind
instance Blind.prevOf (i : Nat) : Blind (prevOf i) := by unfold Wagyu.prevOf; blind
instance Blind.pointOf (i : Nat) : Blind (pointOf i) := by unfold Wagyu.pointOf; blind
instance Blind.nodesEq (a b : Option Nat) : Blind (nodesEq a b) := by unfold Wagyu.nodesEq; blind
instance Blind.ablGet (i : Nat) : Blind (ablGet i) := by
  constructor; intro s g; unfold Wagyu.ablGet; show (match s.abl[i]? with | some v => Res.ok v (s.withB g) | none => .err .index (s.withB g)) = _; cases s.abl[i]? <;> rfl
instance Blind.hotPixelAt (i : Nat) : Blind (hotPixelAt i) := by
  constructor; intro s g; unfold Wagyu.hotPixelAt; show (match s.hotPixels[i]? with | some v => Res.ok v (s.withB g) | none => .err .index (s.withB g)) = _; cases s.hotPixels[i]? <;> rfl
instance Blind.roundHalfUpM (x : F64) : Blind (roundHalfUpM x) := by unfold Wagyu.roundHalfUpM; split <;> blind

instance Blind.nodesFrom (i : Nat) : Blind (nodesFrom i) := by unfold Wagyu.nodesFrom; blind
instance Blind.nodesBackFrom (i : Nat) : Blind (nodesBackFrom i) := by unfold Wagyu.nodesBackFrom; blind
instance Blind.nodeStats (i : Nat) : Blind (nodeStats i) := by unfold Wagyu.nodeStats; blind
instance Blind.getPointsSlope (l r : Nat) : Blind (getPointsSlope l r) := by unfold Wagyu.getPointsSlope; blind
theorem Blind.skipSame {step : Nat → M Nat} (h : ∀ i, Blind (step i)) (self : Nat) : Blind (skipSame step self) := by
  unfold Wagyu.skipSame; blind
instance Blind.skipPrev (self : Nat) : Blind (Wagyu.skipSame Wagyu.prevOf self) := Blind.skipSame (fun _ => inferInstance) _
instance Blind.skipNext (self : Nat) : Blind (Wagyu.skipSame Wagyu.nextOf self) := Blind.skipSame (fun _ => inferInstance) _
instance Blind.isBottomTo (a b : Nat) : Blind (isBottomTo a b) := by unfold Wagyu.isBottomTo; blind
instance Blind.bottomNodeOf (i : Nat) : Blind (bottomNodeOf i) := by unfold Wagyu.bottomNodeOf; blind
instance Blind.pointInPolygonWith (px py : F64) (det : Point → Point → F64) (i : Nat) :
    Blind (pointInPolygonWith px py det i) := by unfold Wagyu.pointInPolygonWith; blind
instance Blind.pointInPolygon (p : Point) (i : Nat) : Blind (pointInPolygon p i) := by
  unfold Wagyu.pointInPolygon; blind
instance Blind.fpointInPolygon (p : FPoint) (i : Nat) : Blind (fpointInPolygon p i) := by
  unfold Wagyu.fpointInPolygon; blind
instance Blind.pointsCentroid (i : Nat) : Blind (pointsCentroid i) := by unfold Wagyu.pointsCentroid; blind
instance Blind.hasCollinearEdge (a b : Nat) : Blind (hasCollinearEdge a b) := by unfold Wagyu.hasCollinearEdge; blind
instance Blind.collinearSearch (a b : Nat) : Blind (collinearSearch a b) := by unfold Wagyu.collinearSearch; blind
instance Blind.advanceRepeats (x : Bool) (step : Node → Option Nat) (a b : Nat) : Blind (advanceRepeats x step a b) := by
  unfold Wagyu.advanceRepeats; blind
instance Blind.findStartAndEnd (a b : Nat) : Blind (findStartAndEndOfCollinearEdges a b) := by
  unfold Wagyu.findStartAndEndOfCollinearEdges; blind
instance Blind.ringDepth (r : Nat) : Blind (ringDepth r) := by unfold Wagyu.ringDepth; blind
instance Blind.isDescendantOf (r o : Nat) : Blind (isDescendantOf r o) := by unfold Wagyu.isDescendantOf; blind
instance Blind.childrenOf (p : Option Nat) : Blind (childrenOf p) := by unfold Wagyu.childrenOf; blind
instance Blind.currentHotPixelIndex : Blind currentHotPixelIndex := Blind.gets fun _ _ => rfl
instance Blind.hotPixelBackUp (y : Int) (i : Nat) : Blind (hotPixelBackUp y i) := by
  induction i with
  | zero => exact Blind.pure _
  | succ i ih => rw [Wagyu.hotPixelBackUp]; blind
instance Blind.hotPixelRowEnd (y : Int) (len n i : Nat) : Blind (hotPixelRowEnd y len n i) := by
  induction n generalizing i with
  | zero => exact Blind.pure _
  | succ n ih => rw [Wagyu.hotPixelRowEnd]; blind
instance Blind.crossingPosition (n : IntersectNode) : Blind (crossingPosition n) := by
  unfold Wagyu.crossingPosition; blind
instance Blind.findFeasible (l : List IntersectNode) (k : Nat) : Blind (findFeasible l k) := by
  induction l generalizing k with
  | nil => exact Blind.raise _
  | cons n l ih => rw [Wagyu.findFeasible]; blind
instance Blind.hotPixelFind (p : Point → Bool) (len n i : Nat) : Blind (hotPixelFind p len n i) := by
  induction n generalizing i with
  | zero => exact Blind.pure _
  | succ n ih => rw [Wagyu.hotPixelFind]; blind
theorem Blind.prForNodes (start : Nat) (body : Nat → M Unit) (h : ∀ i, Blind (body i)) : Blind (forNodes start body) := by
  unfold Wagyu.forNodes; blind
instance bl_pr20 (i : Nat) : Blind (reverseNodes i) := Blind.prForNodes _ _ fun _ => by infer_instance
instance bl_pr21 (a b : Nat) : Blind (placeBefore a b) := by unfold placeBefore; blind
instance bl_pr22 (i : Nat) : Blind (unlinkNode i) := by unfold unlinkNode; blind
instance bl_pr23 (a b : Nat) : Blind (unlinkUntil a b) := by unfold unlinkUntil; blind
instance bl_pr24 (a b : Nat) : Blind (unlinkDo a b) := by unfold unlinkDo; blind
instance bl_pr25 (a b c d : Nat) : Blind (fixCollinearPath a b c d) := by unfold fixCollinearPath; blind
instance bl_pr26 (r : Nat) : Blind (recalculateStats r) := by unfold recalculateStats; blind
instance bl_pr27 (r : Nat) : Blind (ringArea r) := by unfold ringArea; blind
instance bl_pr28 (r : Nat) : Blind (ringIsHole r) := by unfold ringIsHole; blind
instance bl_pr29 (r : Nat) : Blind (ringSize r) := by unfold ringSize; blind
instance bl_pr30 (r : Nat) : Blind (updatePoints r) := by
  unfold updatePoints
  exact Blind.bind inferInstance fun _ => Blind.bind inferInstance fun _ => Blind.prForNodes _ _ fun _ => inferInstance
instance bl_pr31 (n : Nat) : Blind (isConvex n) := by unfold isConvex; blind
instance bl_pr32 (a b : Nat) : Blind (insideOrOutsideSpecial a b) := by unfold insideOrOutsideSpecial; blind
instance bl_pr33 (a b : Nat) : Blind (ringInsideOf a b) := by unfold ringInsideOf; blind
instance bl_pr34 (a b : Nat) : Blind (getLowermostRing a b) := by unfold getLowermostRing; blind
instance bl_pr35 (r : Nat) (p : Option Nat) : Blind (sameOrientation r p) := by unfold sameOrientation; blind
instance bl_pr36 (r : Nat) : Blind (detachNodes r) := by unfold detachNodes; blind

instance bl_pr40 (r : Nat) : Blind (ringHasArea r) := by unfold ringHasArea; blind
theorem Blind.filterM' {α : Type} {p : α → M Bool} (h : ∀ a, Blind (p a)) (l : List α) : Blind (filterM' p l) := by
  induction l with
  | nil => exact Blind.pure _
  | cons a l ih => rw [Wagyu.filterM']; have := h a; blind
theorem Blind.mapM' {α β : Type} {f : α → M β} (h : ∀ a, Blind (f a)) (l : List α) : Blind (mapM' f l) := by
  induction l with
  | nil => exact Blind.pure _
  | cons a l ih => rw [Wagyu.mapM']; have := h a; blind
theorem Blind.anyChild {p : Nat → M Bool} (h : ∀ a, Blind (p a)) (l : List (Option Nat)) : Blind (anyChild p l) := by
  induction l with
  | nil => exact Blind.pure _
  | cons a l ih =>
    cases a with
    | none => rw [Wagyu.anyChild]; exact ih
    | some c => rw [Wagyu.anyChild]; have := h c; blind
instance bl_pr41 (l : List Nat) : Blind (sortByArea l) := by
  unfold sortByArea
  exact Blind.bind (Blind.mapM' (fun _ => by blind) _) fun _ => by blind
instance bl_pr42 (r : Nat) : Blind (sortedNodes r) := by
  unfold sortedNodes
  exact Blind.bind inferInstance fun _ => Blind.bind inferInstance fun _ => Blind.bind inferInstance fun _ =>
    Blind.bind (Blind.mapM' (fun _ => by blind) _) fun _ => by blind
instance bl_pr43 : Blind ringKeys := by
  unfold ringKeys
  exact Blind.bind inferInstance fun _ => Blind.mapM' (fun _ => by blind) _
instance bl_pr44 : Blind sortedRings := by unfold sortedRings; blind
instance bl_pr45 : Blind reversedSortedRings := by unfold reversedSortedRings; blind
instance bl_pr46 (a b : Nat) (c : Bool) : Blind (dropNeighbour a b c) := by unfold dropNeighbour; blind
instance bl_pr47 (a : Nat) (c : Bool) : Blind (dropSame a c) := by unfold dropSame; blind
instance bl_pr48 (a b : Nat) : Blind (samePoint a b) := by unfold samePoint; blind
instance bl_pr49 (rp : Option Nat) (a b c d : Nat) (l k : List (Nat × Nat)) : Blind (directConnection rp a b c d l k) := by
  induction l generalizing k with
  | nil => rw [directConnection]; blind
  | cons p l ih => obtain ⟨x, y⟩ := p; rw [directConnection]; blind
instance bl_pr50 (rp : Option Nat) (a : Nat) : Blind (chainRing rp a) := by unfold chainRing; blind
theorem bl_pr51c (fuel : Nat) (rp : Option Nat) (a b : Nat) (d e : Nat)
    (ih : ∀ (cm : ConnectionMap) (il : List LoopItem) (rp : Option Nat) (a b : Nat) (v : List Nat) (c d : Nat),
    Blind (findIntersectLoop fuel cm il rp a b v c d)) (l : List (Nat × Nat)) : ∀ (cm : ConnectionMap) (il : List LoopItem) (v : List Nat),
    Blind (findIntersectLoop.chain fuel rp a b d e l cm il v) := by
  induction l with
  | nil => intro cm il v; rw [findIntersectLoop.chain, chainFrom]; blind
  | cons p l ihl => obtain ⟨x, y⟩ := p; intro cm il v; rw [findIntersectLoop.chain, chainFrom]; blind
instance bl_pr51 (n : Nat) (cm : ConnectionMap) (il : List LoopItem) (rp : Option Nat) (a b : Nat) (v : List Nat) (c d : Nat) :
    Blind (findIntersectLoop n cm il rp a b v c d) := by
  induction n generalizing cm il rp a b v c d with
  | zero => rw [findIntersectLoop]; blind
  | succ n ih =>
    rw [findIntersectLoop]
    refine Blind.bind inferInstance fun r => ?_
    split
    · blind
    · exact bl_pr51c n _ _ _ _ _ ih _ _ _ _
instance bl_pr52 (a b c : Nat) (l k : List (Nat × Nat)) (f : Bool) : Blind (directPair a b c l k f) := by
  induction l generalizing k f with
  | nil => rw [directPair]; blind
  | cons p l ih => obtain ⟨x, y⟩ := p; rw [directPair]; blind
instance bl_pr53 (rp : Option Nat) (a b c : Nat) (l : List (Nat × Nat)) (cm : ConnectionMap) (il : List LoopItem) (v : List Nat) :
    Blind (chainPairs rp a b c l cm il v) := by
  induction l generalizing cm il v with
  | nil => rw [chainPairs]; blind
  | cons p l ih => obtain ⟨x, y⟩ := p; rw [chainPairs]; blind
instance bl_pr54 (a b c : Nat) (d l : List LoopItem) : Blind (chooseOrigin a b c d l) := by
  induction l generalizing d with
  | nil => rw [chooseOrigin]; blind
  | cons p l ih => obtain ⟨x, y, z⟩ := p; rw [chooseOrigin]; blind
instance bl_pr55 (a b : Nat) : Blind (switchNext a b) := by unfold switchNext; blind
instance bl_pr56 (l : List (Nat × Nat)) : Blind (movedPairs l) := by
  induction l with
  | nil => rw [movedPairs]; blind
  | cons p l ih => obtain ⟨x, y⟩ := p; rw [movedPairs]; blind
instance bl_pr57 (r : Nat) (l : List (Nat × Nat)) : Blind (originPairs r l) := by
  induction l with
  | nil => rw [originPairs]; blind
  | cons p l ih => obtain ⟨x, y⟩ := p; rw [originPairs]; blind
instance bl_pr58 (l : List LoopItem) (cm : ConnectionMap) : Blind (clearLoopPairs l cm) := by
  induction l generalizing cm with
  | nil => rw [clearLoopPairs]; blind
  | cons p l ih => obtain ⟨x, y, z⟩ := p; rw [clearLoopPairs]; blind
instance bl_pr59 : Blind sortAllNodes := by
  unfold sortAllNodes
  refine Blind.bind inferInstance fun _ => Blind.bind (Blind.mapM' (fun _ => by blind) _) fun _ => ⟨fun _ _ => rfl⟩
theorem Blind.forRunsP (l : List Nat) {f : Nat → Nat → M Unit} (h : ∀ a b, Blind (f a b)) : Blind (forRuns l f) := by
  unfold Wagyu.forRuns; blind
theorem Blind.forPairsInnerP {σ : Type} {body : Nat → Nat → σ → M σ} (h : ∀ a b c, Blind (body a b c)) (n : Nat) (l : List Nat)
    (acc : σ) : Blind (forPairs.inner body n l acc) := by
  induction l generalizing acc with
  | nil => rw [forPairs.inner]; blind
  | cons a l ih => rw [forPairs.inner]; have := h n a; blind
theorem Blind.forPairsP {σ : Type} {body : Nat → Nat → σ → M σ} (h : ∀ a b c, Blind (body a b c)) (l : List Nat) (acc : σ) :
    Blind (forPairs body l acc) := by
  induction l generalizing acc with
  | nil => rw [Wagyu.forPairs]; blind
  | cons a l ih => rw [Wagyu.forPairs]; have := Blind.forPairsInnerP h a l; blind
instance bl_pr60 (r : Nat) (l : List Nat) : Blind (findContaining r l) := by
  induction l with
  | nil => rw [findContaining]; blind
  | cons p l ih => rw [findContaining]; blind

instance bl_fp02 (r : Nat) (p : Option Nat) : Blind (assignAsChild r p) := by unfold assignAsChild; blind
instance bl_fp03 (r p : Nat) : Blind (assignAsSibling r p) := by unfold assignAsSibling; blind
instance bl_fp04 (r : Nat) (p : Option Nat) : Blind (reassignAsChild r p) := by unfold reassignAsChild; blind
instance bl_fp05 (r : Nat) (p : Option Nat) : Blind (replaceRing r p) := by unfold replaceRing; blind
instance bl_fp06 (n r : Nat) (a b : Bool) : Blind (removeRing n r a b) := by
  induction n generalizing r a b with
  | zero => exact Blind.raise _
  | succ n ih => rw [removeRing]; blind
instance bl_fp07 (n r : Nat) (a b : Bool) : Blind (removeRingAndPoints n r a b) := by
  induction n generalizing r a b with
  | zero => exact Blind.raise _
  | succ n ih => rw [removeRingAndPoints]; blind
instance bl_fp08 (r : Nat) : Blind (removeRingKeepChildren r) := by unfold removeRingKeepChildren; blind
instance bl_fp09 (r : Nat) : Blind (removeRingAndPointsKeepChildren r) := by unfold removeRingAndPointsKeepChildren; blind
theorem Blind.forChildren (p : Option Nat) {body : Nat → M Unit} (h : ∀ c, Blind (body c)) : Blind (forChildren p body) := by
  unfold Wagyu.forChildren; blind
instance bl_fp10 (r : Nat) (p : Option Nat) (l : List Nat) : Blind (reassignChildrenIfNecessary r p l) :=
  Blind.forChildren _ fun _ => by blind
instance bl_fp11 (n r p : Nat) : Blind (findParentInTree n r p) := by
  induction n generalizing r p with
  | zero => exact Blind.raise _
  | succ n ih =>
    rw [findParentInTree]
    refine Blind.bind inferInstance fun _ => Blind.bind (Blind.anyChild (fun _ => Blind.bind inferInstance fun _ =>
      Blind.anyChild (fun _ => ih _ _) _) _) fun _ => by blind
instance bl_fp12 (n r : Nat) (l : List (Option Nat)) : Blind (anyChild (fun c => findParentInTree n r c) l) :=
  Blind.anyChild (fun _ => inferInstance) _
instance bl_fp13 (a b : Nat) (c : Bool) (l k : List Nat) : Blind (findAmongPrevious a b c l k) := by
  induction k with
  | nil => rw [findAmongPrevious]; blind
  | cons x k ih => rw [findAmongPrevious]; blind
instance bl_fp14 (a : Nat) (c : Bool) (l k m : List Nat) : Blind (assignNewRingParentsLoop a c l k m) := by
  induction m generalizing k with
  | nil => rw [assignNewRingParentsLoop]; blind
  | cons x m ih => rw [assignNewRingParentsLoop]; blind
instance bl_fp15 (a : Nat) (l : List Nat) : Blind (assignNewRingParents a l) := by
  unfold assignNewRingParents
  have := Blind.filterM' (p := ringHasArea) (fun _ => inferInstance) l
  blind
instance bl_fp16 (a b : Nat) : Blind (correctSelfIntersection a b) := by unfold correctSelfIntersection; blind
theorem Blind.forRuns (l : List Nat) {f : Nat → Nat → M Unit} (h : ∀ a b, Blind (f a b)) : Blind (forRuns l f) := by
  unfold Wagyu.forRuns; blind
theorem Blind.forPairsInner {σ : Type} {body : Nat → Nat → σ → M σ} (h : ∀ a b c, Blind (body a b c)) (n : Nat) (l : List Nat) (acc : σ) :
    Blind (forPairs.inner body n l acc) := by
  induction l generalizing acc with
  | nil => rw [forPairs.inner]; blind
  | cons a l ih => rw [forPairs.inner]; have := h n a; blind
theorem Blind.forPairs {σ : Type} {body : Nat → Nat → σ → M σ} (h : ∀ a b c, Blind (body a b c)) (l : List Nat) (acc : σ) :
    Blind (forPairs body l acc) := by
  induction l generalizing acc with
  | nil => rw [Wagyu.forPairs]; blind
  | cons a l ih => rw [Wagyu.forPairs]; have := Blind.forPairsInner h a l; blind
instance bl_fp17 (k l : List Nat) (a b : Nat) : Blind (correctRepeatedPoints k l a b) := Blind.forPairs (fun _ _ _ => by blind) _ _
instance bl_fp18 (r : Nat) : Blind (findAndCorrectRepeatedPoints r) := by unfold findAndCorrectRepeatedPoints; blind
instance bl_fp19 (r : Nat) (b : Bool) : Blind (correctRingSelfIntersections r b) := by unfold correctRingSelfIntersections; blind
instance bl_fp20 (c : Bool) (l : List Nat) (b : Bool) : Blind (correctSelfIntersections.go c l b) := by
  induction l generalizing b with
  | nil => rw [correctSelfIntersections.go]; blind
  | cons a l ih => rw [correctSelfIntersections.go]; blind
instance bl_fp21 (b : Bool) : Blind (correctSelfIntersections b) := by unfold correctSelfIntersections; blind
instance bl_fp22 : Blind correctOrientations := by unfold correctOrientations; blind
instance bl_fp23 (a b : Nat) : Blind (removeDuplicatePoints a b) := by unfold removeDuplicatePoints; blind
instance bl_fp24 (a b : Nat) : Blind (processCollinearEdgesDifferentRings a b) := by unfold processCollinearEdgesDifferentRings; blind
instance bl_fp25 (a b : Nat) : Blind (processCollinearEdgesSameRing a b) := by unfold processCollinearEdgesSameRing; blind
instance bl_fp26 (a b : Nat) : Blind (processCollinearEdges a b) := by unfold processCollinearEdges; blind
instance bl_fp27 (l : List Nat) (a b : Nat) : Blind (correctCollinearRepeats l a b) := by unfold correctCollinearRepeats; blind
instance bl_fp28 : Blind correctCollinearEdges := by
  unfold correctCollinearEdges
  have := fun l => Blind.forRuns l (f := fun a b => correctCollinearRepeats l a b) fun _ _ => inferInstance
  blind
instance bl_fp29 (l k : List Nat) : Blind (correctTreeLoop l k) := by
  induction k generalizing l with
  | nil => rw [correctTreeLoop]; blind
  | cons a k ih => rw [correctTreeLoop]; blind
instance bl_fp30 : Blind correctTree := by unfold correctTree; blind
instance bl_fp31 (cm : ConnectionMap) (il : List LoopItem) (r : Nat) (rp : Option Nat) (a b : Nat) : Blind (mergeLoop cm il r rp a b) := by
  unfold mergeLoop
  have := fun p (n : Nat) => Blind.forChildren p (body := fun c => do
      if ← ringInsideOf c n then reassignAsChild c (some n)) fun _ => by blind
  blind
instance bl_fp32 (a b : Nat) (cm : ConnectionMap) : Blind (processSingleIntersection a b cm) := by
  unfold processSingleIntersection
  have := fun l => Blind.mapM' (f := fun (p : Nat × Nat) => do pure (← getNode p.2).ring) (fun _ => by blind) l
  blind
instance bl_fp33 (l : List Nat) (a b : Nat) (cm : ConnectionMap) : Blind (correctChainedRepeats l a b cm) :=
  Blind.forPairs (fun _ _ _ => inferInstance) _ _
instance bl_fp34 : Blind correctChainedRings := by unfold correctChainedRings; blind
instance bl_fp35 : Blind correctTopology := by unfold correctTopology; blind


instance Blind.ringsToPolygons (rev : Bool) (n : Nat) (l : List (Option Nat)) : Blind (ringsToPolygons rev n l) := by
  have h1 : ∀ i, Blind (ringToLinearRing i rev) := by
    intro i
    unfold ringToLinearRing pointNodeToLinearRing
    refine Blind.bind inferInstance fun _ => Blind.bind inferInstance fun _ => Blind.bind (by blind) fun _ =>
      Blind.bind (Blind.mapM' (fun _ => inferInstance) _) fun _ => by blind
  induction n generalizing l with
  | zero => rw [Wagyu.ringsToPolygons]; blind
  | succ n ih =>
    rw [Wagyu.ringsToPolygons]
    refine Blind.bind (Blind.mapM' (fun o => ?_) _) fun _ => by blind
    split
    · blind
    · refine Blind.bind (h1 _) fun _ => Blind.bind inferInstance fun _ => Blind.bind (Blind.mapM' (fun _ => h1 _) _) fun _ =>
        Blind.bind (Blind.mapM' (fun _ => Blind.bind inferInstance fun _ => ih _) _) fun _ => by blind
instance Blind.buildResult (rev : Bool) : Blind (buildResult rev) := by unfold Wagyu.buildResult; blind
instance Blind.joinNodes (a b : Nat) (c d : EdgeSide) : Blind (joinNodes a b c d) := by unfold Wagyu.joinNodes; blind
instance Blind.chooseKeep (a b c d : Nat) : Blind (chooseKeep a b c d) := by unfold Wagyu.chooseKeep; blind
instance Blind.ablSwap (i j : Nat) : Blind (ablSwap i j) := by unfold Wagyu.ablSwap; blind
instance Blind.createPointNode (r : Option Nat) (p : Point) (b : Option Nat) : Blind (createPointNode r p b) := by
  unfold Wagyu.createPointNode; blind
instance Blind.updateCurrentHotPixelIndex (y : Int) : Blind (updateCurrentHotPixelIndex y) := by
  unfold Wagyu.updateCurrentHotPixelIndex; blind
instance Blind.popScan (y : Int) : Blind (popScan y) := by unfold Wagyu.popScan; blind
instance Blind.sortHotPixels : Blind sortHotPixels := by unfold Wagyu.sortHotPixels; blind

end Wagyu
