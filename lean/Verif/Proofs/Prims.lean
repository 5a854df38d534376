import Verif.Proofs.Pres
import Verif.Model.Wagyu

/-!
# Which part of the state the functions change

`Prims R`: `R` ignores the links and the rings of nodes, everything of a ring but its children and its parent, and the order
of `all_nodes`.
-/

namespace Wagyu

/-- The cached statistics are the same, or reset. -/
def SameStats (g h : Ring) : Prop := g.area = h.area ∧ g.size = h.size ∧ g.isHole = h.isHole ∧ g.box = h.box ∨ g.resetStats = g

/-- `R` ignores the links and the rings of nodes, the nodes of a ring and a reset of its statistics, and the order of
`all_nodes`. -/
class Prims0 (R : St → St → Prop) : Prop extends Preo R where
  node0 : ∀ (s : St) (i : Nat) (n : Node), n.x = (s.nodes i).x → n.y = (s.nodes i).y → R s { s with nodes := upd s.nodes i n }
  ring0 : ∀ (s : St) (i : Nat) (g : Ring), g.children = (s.rings i).children → g.parent = (s.rings i).parent →
    g.corrected = (s.rings i).corrected → SameStats g (s.rings i) → R s { s with rings := upd s.rings i g }
  sort0 : ∀ (s : St) (l : List Nat), R s { s with allNodes := l }

class Prims (R : St → St → Prop) : Prop extends Preo R where
  node : ∀ (s : St) (i : Nat) (n : Node), n.x = (s.nodes i).x → n.y = (s.nodes i).y → R s { s with nodes := upd s.nodes i n }
  ring : ∀ (s : St) (i : Nat) (g : Ring), g.children = (s.rings i).children → g.parent = (s.rings i).parent →
    R s { s with rings := upd s.rings i g }
  sort : ∀ (s : St) (l : List Nat), R s { s with allNodes := l }

instance prims0 {R : St → St → Prop} [Prims R] : Prims0 R := ⟨Prims.node, fun s i g h1 h2 _ _ => Prims.ring s i g h1 h2, Prims.sort⟩

instance pr08 {R : St → St → Prop} [Prims R] (i : Nat) (v : Bool) : Pres R (modRing i fun g => { g with corrected := v }) :=
  ⟨fun s => Prims.ring s i _ rfl rfl⟩

section
variable {R : St → St → Prop} [Prims0 R]

theorem Pres.prNode (i : Nat) (f : Node → Node) (h : ∀ n, (f n).x = n.x ∧ (f n).y = n.y) : Pres R (modNode i f) :=
  ⟨fun s => Prims0.node0 s i _ (h _).1 (h _).2⟩
theorem Pres.prRing (i : Nat) (f : Ring → Ring)
    (h : ∀ g, (f g).children = g.children ∧ (f g).parent = g.parent ∧ (f g).corrected = g.corrected ∧ SameStats (f g) g) : Pres R (modRing i f) :=
  ⟨fun s => Prims0.ring0 s i _ (h _).1 (h _).2.1 (h _).2.2.1 (h _).2.2.2⟩
theorem SameStats.rfl' {g h : Ring} (h1 : g.area = h.area) (h2 : g.size = h.size) (h3 : g.isHole = h.isHole) (h4 : g.box = h.box) : SameStats g h :=
  .inl ⟨h1, h2, h3, h4⟩

instance pr01 (i : Nat) (v : Option Nat) : Pres R (setNext i v) := Pres.prNode _ _ fun _ => ⟨rfl, rfl⟩
instance pr02 (i : Nat) (v : Option Nat) : Pres R (setPrev i v) := Pres.prNode _ _ fun _ => ⟨rfl, rfl⟩
instance pr03 (i : Nat) (v : Option Nat) : Pres R (setNodeRing i v) := Pres.prNode _ _ fun _ => ⟨rfl, rfl⟩
instance pr04 (i : Nat) (v : Option Nat) : Pres R (setRingNode i v) := Pres.prRing _ _ fun _ => ⟨rfl, rfl, rfl, .rfl' rfl rfl rfl rfl⟩
instance pr05 (i : Nat) : Pres R (modNode i fun n => { n with next := n.prev, prev := n.next }) :=
  Pres.prNode _ _ fun _ => ⟨rfl, rfl⟩
instance pr06 (i : Nat) : Pres R (modNode i fun n => { n with prev := none, next := none, ring := none }) :=
  Pres.prNode _ _ fun _ => ⟨rfl, rfl⟩
instance pr06b (i : Nat) (v w : Option Nat) : Pres R (modNode i fun n => { n with prev := v, next := w }) :=
  Pres.prNode _ _ fun _ => ⟨rfl, rfl⟩
instance pr07 (i : Nat) (v : Option Nat) : Pres R (modRing i fun g => { g with bottomNode := v }) := Pres.prRing _ _ fun _ => ⟨rfl, rfl, rfl, .rfl' rfl rfl rfl rfl⟩
instance pr09 (i : Nat) (v w : Option Nat) : Pres R (modRing i fun g => { g with node := v, bottomNode := w }) :=
  Pres.prRing _ _ fun _ => ⟨rfl, rfl, rfl, .rfl' rfl rfl rfl rfl⟩
instance pr10 (i : Nat) : Pres R (modRing i fun g => { g with node := none }.resetStats) := Pres.prRing _ _ fun _ => ⟨rfl, rfl, rfl, .inr rfl⟩
theorem Pres.prForNodes (start : Nat) (body : Nat → M Unit) (h : ∀ i, Pres R (body i)) : Pres R (forNodes start body) := by
  unfold Wagyu.forNodes; pres
instance pr20 (i : Nat) : Pres R (reverseNodes i) := Pres.prForNodes _ _ fun _ => by infer_instance
instance pr21 (a b : Nat) : Pres R (placeBefore a b) := by unfold placeBefore; pres
instance pr22 (i : Nat) : Pres R (unlinkNode i) := by unfold unlinkNode; pres
instance pr23 (a b : Nat) : Pres R (unlinkUntil a b) := by unfold unlinkUntil; pres
instance pr24 (a b : Nat) : Pres R (unlinkDo a b) := by unfold unlinkDo; pres
instance pr25 (a b c d : Nat) : Pres R (fixCollinearPath a b c d) := by unfold fixCollinearPath; pres
instance pr30 (r : Nat) : Pres R (updatePoints r) := by
  unfold updatePoints
  exact Pres.bind inferInstance fun _ => Pres.bind inferInstance fun _ => Pres.prForNodes _ _ fun _ => inferInstance
instance pr34 (a b : Nat) : Pres R (getLowermostRing a b) := by unfold getLowermostRing; pres
instance pr36 (r : Nat) : Pres R (detachNodes r) := by unfold detachNodes; pres

end

section
variable {R : St → St → Prop} [Prims R]

instance pr11 (i : Nat) (a : F64) (n : Nat) (b : Box) :
    Pres R (modRing i fun g => { g with area := a, size := n, box := b, isHole := F64.le a (.fin 0) }) :=
  ⟨fun s => Prims.ring s _ _ rfl rfl⟩
instance pr12 (r : Nat) (st : F64 × Nat × Box) : Pres R (setStats r st) := ⟨fun s => Prims.ring s _ _ rfl rfl⟩

instance pr26 (r : Nat) : Pres R (recalculateStats r) := by unfold recalculateStats; pres
instance pr27 (r : Nat) : Pres R (ringArea r) := by unfold ringArea; pres
instance pr28 (r : Nat) : Pres R (ringIsHole r) := by unfold ringIsHole; pres
instance pr29 (r : Nat) : Pres R (ringSize r) := by unfold ringSize; pres
instance pr31 (n : Nat) : Pres R (isConvex n) := by unfold isConvex; pres
instance pr32 (a b : Nat) : Pres R (insideOrOutsideSpecial a b) := by unfold insideOrOutsideSpecial; pres
instance pr33 (a b : Nat) : Pres R (ringInsideOf a b) := by unfold ringInsideOf; pres
instance pr35 (r : Nat) (p : Option Nat) : Pres R (sameOrientation r p) := by unfold sameOrientation; pres

instance pr40 (r : Nat) : Pres R (ringHasArea r) := by unfold ringHasArea; pres
omit [Prims R] in
theorem Pres.filterM' [Preo R] {α : Type} {p : α → M Bool} (h : ∀ a, Pres R (p a)) (l : List α) : Pres R (filterM' p l) := by
  induction l with
  | nil => exact Pres.pure _
  | cons a l ih => rw [Wagyu.filterM']; have := h a; pres
omit [Prims R] in
theorem Pres.mapM' [Preo R] {α β : Type} {f : α → M β} (h : ∀ a, Pres R (f a)) (l : List α) : Pres R (mapM' f l) := by
  induction l with
  | nil => exact Pres.pure _
  | cons a l ih => rw [Wagyu.mapM']; have := h a; pres
omit [Prims R] in
theorem Pres.anyChild [Preo R] {p : Nat → M Bool} (h : ∀ a, Pres R (p a)) (l : List (Option Nat)) : Pres R (anyChild p l) := by
  induction l with
  | nil => exact Pres.pure _
  | cons a l ih =>
    cases a with
    | none => rw [Wagyu.anyChild]; exact ih
    | some c => rw [Wagyu.anyChild]; have := h c; pres
instance pr41 (l : List Nat) : Pres R (sortByArea l) := by
  unfold sortByArea
  exact Pres.bind (Pres.mapM' (fun _ => by pres) _) fun _ => by pres
instance pr42 (r : Nat) : Pres R (sortedNodes r) := by
  unfold sortedNodes
  exact Pres.bind inferInstance fun _ => Pres.bind inferInstance fun _ => Pres.bind inferInstance fun _ =>
    Pres.bind (Pres.mapM' (fun _ => by pres) _) fun _ => by pres
instance pr43 : Pres R ringKeys := by
  unfold ringKeys
  exact Pres.bind inferInstance fun _ => Pres.mapM' (fun _ => by pres) _
instance pr44 : Pres R sortedRings := by unfold sortedRings; pres
instance pr45 : Pres R reversedSortedRings := by unfold reversedSortedRings; pres
instance pr46 (a b : Nat) (c : Bool) : Pres R (dropNeighbour a b c) := by unfold dropNeighbour; pres
instance pr47 (a : Nat) (c : Bool) : Pres R (dropSame a c) := by unfold dropSame; pres
instance pr48 (a b : Nat) : Pres R (samePoint a b) := by unfold samePoint; pres
instance pr49 (rp : Option Nat) (a b c d : Nat) (l k : List (Nat × Nat)) : Pres R (directConnection rp a b c d l k) := by
  induction l generalizing k with
  | nil => rw [directConnection]; pres
  | cons p l ih => obtain ⟨x, y⟩ := p; rw [directConnection]; pres
instance pr50 (rp : Option Nat) (a : Nat) : Pres R (chainRing rp a) := by unfold chainRing; pres
theorem pr51c (fuel : Nat) (rp : Option Nat) (a b : Nat) (d e : Nat)
    (ih : ∀ (cm : ConnectionMap) (il : List LoopItem) (rp : Option Nat) (a b : Nat) (v : List Nat) (c d : Nat),
    Pres R (findIntersectLoop fuel cm il rp a b v c d)) (l : List (Nat × Nat)) : ∀ (cm : ConnectionMap) (il : List LoopItem) (v : List Nat),
    Pres R (findIntersectLoop.chain fuel rp a b d e l cm il v) := by
  induction l with
  | nil => intro cm il v; rw [findIntersectLoop.chain, chainFrom]; pres
  | cons p l ihl => obtain ⟨x, y⟩ := p; intro cm il v; rw [findIntersectLoop.chain, chainFrom]; pres
instance pr51 (n : Nat) (cm : ConnectionMap) (il : List LoopItem) (rp : Option Nat) (a b : Nat) (v : List Nat) (c d : Nat) :
    Pres R (findIntersectLoop n cm il rp a b v c d) := by
  induction n generalizing cm il rp a b v c d with
  | zero => rw [findIntersectLoop]; pres
  | succ n ih =>
    rw [findIntersectLoop]
    refine Pres.bind inferInstance fun r => ?_
    split
    · pres
    · exact pr51c n _ _ _ _ _ ih _ _ _ _
instance pr52 (a b c : Nat) (l k : List (Nat × Nat)) (f : Bool) : Pres R (directPair a b c l k f) := by
  induction l generalizing k f with
  | nil => rw [directPair]; pres
  | cons p l ih => obtain ⟨x, y⟩ := p; rw [directPair]; pres
instance pr53 (rp : Option Nat) (a b c : Nat) (l : List (Nat × Nat)) (cm : ConnectionMap) (il : List LoopItem) (v : List Nat) :
    Pres R (chainPairs rp a b c l cm il v) := by
  induction l generalizing cm il v with
  | nil => rw [chainPairs]; pres
  | cons p l ih => obtain ⟨x, y⟩ := p; rw [chainPairs]; pres
instance pr54 (a b c : Nat) (d l : List LoopItem) : Pres R (chooseOrigin a b c d l) := by
  induction l generalizing d with
  | nil => rw [chooseOrigin]; pres
  | cons p l ih => obtain ⟨x, y, z⟩ := p; rw [chooseOrigin]; pres
instance pr55 (a b : Nat) : Pres R (switchNext a b) := by unfold switchNext; pres
instance pr56 (l : List (Nat × Nat)) : Pres R (movedPairs l) := by
  induction l with
  | nil => rw [movedPairs]; pres
  | cons p l ih => obtain ⟨x, y⟩ := p; rw [movedPairs]; pres
instance pr57 (r : Nat) (l : List (Nat × Nat)) : Pres R (originPairs r l) := by
  induction l with
  | nil => rw [originPairs]; pres
  | cons p l ih => obtain ⟨x, y⟩ := p; rw [originPairs]; pres
instance pr58 (l : List LoopItem) (cm : ConnectionMap) : Pres R (clearLoopPairs l cm) := by
  induction l generalizing cm with
  | nil => rw [clearLoopPairs]; pres
  | cons p l ih => obtain ⟨x, y, z⟩ := p; rw [clearLoopPairs]; pres
instance pr59 : Pres R sortAllNodes := by
  unfold sortAllNodes
  refine Pres.bind inferInstance fun _ => Pres.bind (Pres.mapM' (fun _ => by pres) _) fun _ => ⟨fun s => Prims0.sort0 s _⟩
omit [Prims R] in
theorem Pres.forRunsP [Preo R] (l : List Nat) {f : Nat → Nat → M Unit} (h : ∀ a b, Pres R (f a b)) : Pres R (forRuns l f) := by
  unfold Wagyu.forRuns; pres
omit [Prims R] in
theorem Pres.forPairsInnerP [Preo R] {σ : Type} {body : Nat → Nat → σ → M σ} (h : ∀ a b c, Pres R (body a b c)) (n : Nat) (l : List Nat)
    (acc : σ) : Pres R (forPairs.inner body n l acc) := by
  induction l generalizing acc with
  | nil => rw [forPairs.inner]; pres
  | cons a l ih => rw [forPairs.inner]; have := h n a; pres
omit [Prims R] in
theorem Pres.forPairsP [Preo R] {σ : Type} {body : Nat → Nat → σ → M σ} (h : ∀ a b c, Pres R (body a b c)) (l : List Nat) (acc : σ) :
    Pres R (forPairs body l acc) := by
  induction l generalizing acc with
  | nil => rw [Wagyu.forPairs]; pres
  | cons a l ih => rw [Wagyu.forPairs]; have := Pres.forPairsInnerP h a l; pres
instance pr60 (r : Nat) (l : List Nat) : Pres R (findContaining r l) := by
  induction l with
  | nil => rw [findContaining]; pres
  | cons p l ih => rw [findContaining]; pres

end

/-- `R` also ignores the forest. -/
class ForestPrims (R : St → St → Prop) : Prop extends Prims R where
  parent : ∀ i p, Pres R (setRingParent i p)
  children : ∀ p f, Pres R (modChildren p f)
  create : Pres R createRing
attribute [instance] ForestPrims.parent ForestPrims.children ForestPrims.create

section
variable {R : St → St → Prop} [ForestPrims R]

instance fp01 (i k : Nat) : Pres R (modRing i fun g => { g with children := g.children.set k none }) :=
  ⟨fun s => (ForestPrims.children (R := R) (some i) fun l => l.set k none).pres s⟩
instance fp02 (r : Nat) (p : Option Nat) : Pres R (assignAsChild r p) := by unfold assignAsChild; pres
instance fp03 (r p : Nat) : Pres R (assignAsSibling r p) := by unfold assignAsSibling; pres
instance fp04 (r : Nat) (p : Option Nat) : Pres R (reassignAsChild r p) := by unfold reassignAsChild; pres
instance fp05 (r : Nat) (p : Option Nat) : Pres R (replaceRing r p) := by unfold replaceRing; pres
instance fp06 (n r : Nat) (a b : Bool) : Pres R (removeRing n r a b) := by
  induction n generalizing r a b with
  | zero => exact Pres.raise _
  | succ n ih => rw [removeRing]; pres
instance fp07 (n r : Nat) (a b : Bool) : Pres R (removeRingAndPoints n r a b) := by
  induction n generalizing r a b with
  | zero => exact Pres.raise _
  | succ n ih => rw [removeRingAndPoints]; pres
instance fp08 (r : Nat) : Pres R (removeRingKeepChildren r) := by unfold removeRingKeepChildren; pres
instance fp09 (r : Nat) : Pres R (removeRingAndPointsKeepChildren r) := by unfold removeRingAndPointsKeepChildren; pres
theorem Pres.forChildren (p : Option Nat) {body : Nat → M Unit} (h : ∀ c, Pres R (body c)) : Pres R (forChildren p body) := by
  unfold Wagyu.forChildren; pres
instance fp10 (r : Nat) (p : Option Nat) (l : List Nat) : Pres R (reassignChildrenIfNecessary r p l) :=
  Pres.forChildren _ fun _ => by pres
instance fp11 (n r p : Nat) : Pres R (findParentInTree n r p) := by
  induction n generalizing r p with
  | zero => exact Pres.raise _
  | succ n ih =>
    rw [findParentInTree]
    refine Pres.bind inferInstance fun _ => Pres.bind (Pres.anyChild (fun _ => Pres.bind inferInstance fun _ =>
      Pres.anyChild (fun _ => ih _ _) _) _) fun _ => by pres
instance fp12 (n r : Nat) (l : List (Option Nat)) : Pres R (anyChild (fun c => findParentInTree n r c) l) :=
  Pres.anyChild (fun _ => inferInstance) _
instance fp13 (a b : Nat) (c : Bool) (l k : List Nat) : Pres R (findAmongPrevious a b c l k) := by
  induction k with
  | nil => rw [findAmongPrevious]; pres
  | cons x k ih => rw [findAmongPrevious]; pres
instance fp14 (a : Nat) (c : Bool) (l k m : List Nat) : Pres R (assignNewRingParentsLoop a c l k m) := by
  induction m generalizing k with
  | nil => rw [assignNewRingParentsLoop]; pres
  | cons x m ih => rw [assignNewRingParentsLoop]; pres
instance fp15 (a : Nat) (l : List Nat) : Pres R (assignNewRingParents a l) := by
  unfold assignNewRingParents
  have := Pres.filterM' (R := R) (p := ringHasArea) (fun _ => inferInstance) l
  pres
instance fp16 (a b : Nat) : Pres R (correctSelfIntersection a b) := by unfold correctSelfIntersection; pres
theorem Pres.forRuns (l : List Nat) {f : Nat → Nat → M Unit} (h : ∀ a b, Pres R (f a b)) : Pres R (forRuns l f) := by
  unfold Wagyu.forRuns; pres
theorem Pres.forPairsInner {σ : Type} {body : Nat → Nat → σ → M σ} (h : ∀ a b c, Pres R (body a b c)) (n : Nat) (l : List Nat) (acc : σ) :
    Pres R (forPairs.inner body n l acc) := by
  induction l generalizing acc with
  | nil => rw [forPairs.inner]; pres
  | cons a l ih => rw [forPairs.inner]; have := h n a; pres
theorem Pres.forPairs {σ : Type} {body : Nat → Nat → σ → M σ} (h : ∀ a b c, Pres R (body a b c)) (l : List Nat) (acc : σ) :
    Pres R (forPairs body l acc) := by
  induction l generalizing acc with
  | nil => rw [Wagyu.forPairs]; pres
  | cons a l ih => rw [Wagyu.forPairs]; have := Pres.forPairsInner h a l; pres
instance fp17 (k l : List Nat) (a b : Nat) : Pres R (correctRepeatedPoints k l a b) := Pres.forPairs (fun _ _ _ => by pres) _ _
instance fp18 (r : Nat) : Pres R (findAndCorrectRepeatedPoints r) := by unfold findAndCorrectRepeatedPoints; pres
instance fp19 (r : Nat) (b : Bool) : Pres R (correctRingSelfIntersections r b) := by unfold correctRingSelfIntersections; pres
instance fp20 (c : Bool) (l : List Nat) (b : Bool) : Pres R (correctSelfIntersections.go c l b) := by
  induction l generalizing b with
  | nil => rw [correctSelfIntersections.go]; pres
  | cons a l ih => rw [correctSelfIntersections.go]; pres
instance fp21 (b : Bool) : Pres R (correctSelfIntersections b) := by unfold correctSelfIntersections; pres
instance fp22 : Pres R correctOrientations := by unfold correctOrientations; pres
instance fp23 (a b : Nat) : Pres R (removeDuplicatePoints a b) := by unfold removeDuplicatePoints; pres
instance fp24 (a b : Nat) : Pres R (processCollinearEdgesDifferentRings a b) := by unfold processCollinearEdgesDifferentRings; pres
instance fp25 (a b : Nat) : Pres R (processCollinearEdgesSameRing a b) := by unfold processCollinearEdgesSameRing; pres
instance fp26 (a b : Nat) : Pres R (processCollinearEdges a b) := by unfold processCollinearEdges; pres
instance fp27 (l : List Nat) (a b : Nat) : Pres R (correctCollinearRepeats l a b) := by unfold correctCollinearRepeats; pres
instance fp28 : Pres R correctCollinearEdges := by
  unfold correctCollinearEdges
  have := fun l => Pres.forRuns (R := R) l (f := fun a b => correctCollinearRepeats l a b) fun _ _ => inferInstance
  pres
instance fp29 (l k : List Nat) : Pres R (correctTreeLoop l k) := by
  induction k generalizing l with
  | nil => rw [correctTreeLoop]; pres
  | cons a k ih => rw [correctTreeLoop]; pres
instance fp30 : Pres R correctTree := by unfold correctTree; pres
instance fp31 (cm : ConnectionMap) (il : List LoopItem) (r : Nat) (rp : Option Nat) (a b : Nat) : Pres R (mergeLoop cm il r rp a b) := by
  unfold mergeLoop
  have := fun p (n : Nat) => Pres.forChildren (R := R) p (body := fun c => do
      if ← ringInsideOf c n then reassignAsChild c (some n)) fun _ => by pres
  pres
instance fp32 (a b : Nat) (cm : ConnectionMap) : Pres R (processSingleIntersection a b cm) := by
  unfold processSingleIntersection
  have := fun l => Pres.mapM' (R := R) (f := fun (p : Nat × Nat) => do pure (← getNode p.2).ring) (fun _ => by pres) l
  pres
instance fp33 (l : List Nat) (a b : Nat) (cm : ConnectionMap) : Pres R (correctChainedRepeats l a b cm) :=
  Pres.forPairs (fun _ _ _ => inferInstance) _ _
instance fp34 : Pres R correctChainedRings := by unfold correctChainedRings; pres
instance fp35 : Pres R correctTopology := by unfold correctTopology; pres

end

end Wagyu
