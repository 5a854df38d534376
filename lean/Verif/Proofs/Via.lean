import Verif.Proofs.Blind
import Verif.Proofs.Fuel

/-!
# Two runs with different polygon kinds, operations and fill kinds

`Via c m m'`: from states whose bounds satisfy the condition `c.I` on polygon kind and opposite winding count, a run of `m` and a run of
`m'` on the state in which every polygon kind is replaced by its image under `c.κ` go in the same way.
-/

namespace Wagyu

structure Cfg where
  κ : PolygonKind → PolygonKind
  I : PolygonKind → Int → Prop
  op : OperationKind
  op' : OperationKind
  sf : FillKind
  sf' : FillKind
  cf : FillKind
  cf' : FillKind
  /-- A bound may be given any opposite winding count of another bound, and 0. -/
  copy : ∀ {k k' : PolygonKind} {o o' : Int}, I k o → I k' o' → I k o'
  zero : ∀ {k : PolygonKind} {o : Int}, I k o → I k 0

/-- The bound seen in the other run. -/
def Cfg.φ (c : Cfg) (b : Bound) : Bound := { b with polygonKind := c.κ b.polygonKind }

def Cfg.Fits (c : Cfg) (bounds : Nat → Bound) : Prop := ∀ i, c.I (bounds i).polygonKind (bounds i).oppositeWindingCount

/-- The heap of bounds seen in the other run. -/
def Cfg.heap (c : Cfg) (bounds : Nat → Bound) : Nat → Bound := fun i => c.φ (bounds i)

def St.via (c : Cfg) (s : St) : St := { s with bounds := c.heap s.bounds }

def Res.via {α : Type} (c : Cfg) : Res α → Res α
  | .ok a s => .ok a (s.via c)
  | .err e s => .err e (s.via c)

class Via {α : Type} (c : Cfg) (m m' : M α) : Prop where
  sim : ∀ s, c.Fits s.bounds → m' (s.via c) = (m s).via c ∧ c.Fits (m s).st.bounds

section
variable {α β σ : Type} {c : Cfg}

theorem Via.blind {m : M α} (h : Blind m) : Via c m m := by
  refine ⟨fun s hs => ?_⟩
  have h1 := h.eq s (c.heap s.bounds)
  have h2 := h.eq s s.bounds
  rw [show s.withB s.bounds = s from rfl] at h2
  rw [show s.via c = s.withB (c.heap s.bounds) from rfl, h1]
  cases hm : m s with
  | ok a s' =>
    rw [hm] at h2
    have h3 : s' = s'.withB s.bounds := by injection h2
    have h4 : s'.bounds = s.bounds := by rw [h3]; rfl
    refine ⟨?_, ?_⟩
    · show Res.ok a (s'.withB (c.heap s.bounds)) = Res.ok a (s'.via c)
      rw [← h4]; rfl
    · show c.Fits s'.bounds
      rw [h4]; exact hs
  | err e s' =>
    rw [hm] at h2
    have h3 : s' = s'.withB s.bounds := by injection h2
    have h4 : s'.bounds = s.bounds := by rw [h3]; rfl
    refine ⟨?_, ?_⟩
    · show Res.err e (s'.withB (c.heap s.bounds)) = Res.err e (s'.via c)
      rw [← h4]; rfl
    · show c.Fits s'.bounds
      rw [h4]; exact hs

instance (priority := low) viaOfBlind {m : M α} [h : Blind m] : Via c m m := Via.blind h

theorem Via.ret (a : α) : Via c (Pure.pure a : M α) (Pure.pure a) := viaOfBlind

theorem Via.bind {m m' : M α} {f f' : α → M β} (h1 : Via c m m') (h2 : ∀ a, Via c (f a) (f' a)) : Via c (m >>= f) (m' >>= f') := by
  refine ⟨fun s hs => ?_⟩
  obtain ⟨h3, h4⟩ := h1.sim s hs
  rw [run_bind, run_bind, h3]
  cases hm : m s with
  | ok a s' => rw [hm] at h4; exact (h2 a).sim s' h4
  | err e s' => rw [hm] at h4; exact ⟨rfl, h4⟩

theorem Via.ite {p p' : Prop} {d : Decidable p} {d' : Decidable p'} {m n m' n' : M α} (hp : p' = p) (h1 : Via c m m') (h2 : Via c n n') :
    Via c (@_root_.ite _ p d m n) (@_root_.ite _ p' d' m' n') := by
  subst hp
  by_cases h : p'
  · rw [if_pos h, if_pos h]; exact h1
  · rw [if_neg h, if_neg h]; exact h2

theorem Via.raise {e : Err} : Via c (raise e : M α) (raise e) := ⟨fun _ h => ⟨rfl, h⟩⟩

theorem Via.iter {f f' : σ → M (σ ⊕ β)} (h : ∀ x, Via c (f x) (f' x)) : ∀ (n : Nat), ∀ x, Via c (iter n f x) (iter n f' x)
  | 0, x => Via.raise
  | n + 1, x => by
    rw [Wagyu.iter, Wagyu.iter]
    refine Via.bind (h x) fun r => ?_
    cases r with
    | inl y => exact Via.iter h n y
    | inr b => exact viaOfBlind

theorem Via.loopM {f f' : σ → M (σ ⊕ β)} (h : ∀ x, Via c (f x) (f' x)) (x : σ) : Via c (loopM f x) (loopM f' x) :=
  ⟨fun s hs => (Via.iter h s.fuel x).sim s hs⟩

theorem Via.forElse {f f' : σ → M (σ ⊕ β)} {g g' : σ → M β} (h : ∀ x, Via c (f x) (f' x)) (hg : ∀ x, Via c (g x) (g' x)) (n : Nat)
    (x : σ) : Via c (forElse n f g x) (forElse n f' g' x) := by
  induction n generalizing x with
  | zero => exact hg x
  | succ n ih =>
    rw [Wagyu.forElse, Wagyu.forElse]
    refine Via.bind (h x) fun r => ?_
    cases r with
    | inl y => exact ih y
    | inr b => exact viaOfBlind

theorem Via.forList {f f' : α → M Unit} (h : ∀ x, Via c (f x) (f' x)) (l : List α) : Via c (forList l f) (forList l f') := by
  induction l with
  | nil => exact ⟨fun _ h => ⟨rfl, h⟩⟩
  | cons a l ih => rw [Wagyu.forList, Wagyu.forList]; exact Via.bind (h a) fun _ => ih

theorem Via.gets {f : St → α} (h : ∀ s, f (s.via c) = f s) : Via c (gets f) (gets f) := by
  refine ⟨fun s hs => ⟨?_, hs⟩⟩
  show Res.ok (f (s.via c)) _ = Res.ok (f s) _
  rw [h]

theorem Via.modify {f : St → St} (h : ∀ s, f (s.via c) = (f s).via c) (hb : ∀ s, (f s).bounds = s.bounds) : Via c (modify f) (modify f) := by
  refine ⟨fun s hs => ⟨?_, ?_⟩⟩
  · show Res.ok () (f (s.via c)) = Res.ok () ((f s).via c)
    rw [h]
  · show c.Fits (f s).bounds
    rw [hb]; exact hs

/-- Reading a bound: the other run sees its image. -/
theorem Via.getBound {i : Nat} {k k' : Bound → M β} (h : ∀ b, c.I b.polygonKind b.oppositeWindingCount → Via c (k b) (k' (c.φ b))) :
    Via c (Wagyu.getBound i >>= k) (Wagyu.getBound i >>= k') :=
  ⟨fun s hs => (h (s.bounds i) (hs i)).sim s hs⟩

/-- Reading the heap of bounds. -/
theorem Via.getBounds {k k' : (Nat → Bound) → M β} (h : ∀ bs, c.Fits bs → Via c (k bs) (k' (c.heap bs))) :
    Via c (Wagyu.gets St.bounds >>= k) (Wagyu.gets St.bounds >>= k') :=
  ⟨fun s hs => (h s.bounds hs).sim s hs⟩

theorem Via.modBound {i : Nat} {f f' : Bound → Bound}
    (h : ∀ b, c.I b.polygonKind b.oppositeWindingCount → f' (c.φ b) = c.φ (f b) ∧ c.I (f b).polygonKind (f b).oppositeWindingCount) :
    Via c (modBound i f) (modBound i f') := by
  refine ⟨fun s hs => ⟨?_, ?_⟩⟩
  · show Res.ok () { s.via c with bounds := Wagyu.upd (c.heap s.bounds) i (f' (c.φ (s.bounds i))) } = Res.ok () { s with bounds := c.heap (Wagyu.upd s.bounds i (f (s.bounds i))) }
    rw [(h _ (hs i)).1]
    refine congrArg (fun g => Res.ok () { s with bounds := g }) (funext fun j => ?_)
    by_cases e : j = i
    · subst e; rw [Wagyu.upd_same]; show _ = c.φ (Wagyu.upd _ _ _ _); rw [Wagyu.upd_same]
    · rw [Wagyu.upd_ne _ _ e]; show _ = c.φ (Wagyu.upd _ _ _ _); rw [Wagyu.upd_ne _ _ e]; rfl
  · intro j
    show c.I (Wagyu.upd s.bounds i (f (s.bounds i)) j).polygonKind (Wagyu.upd s.bounds i (f (s.bounds i)) j).oppositeWindingCount
    by_cases e : j = i
    · subst e; rw [Wagyu.upd_same]; exact (h _ (hs j)).2
    · rw [Wagyu.upd_ne _ _ e]; exact hs j

end

theorem Cfg.φ_cur (c : Cfg) (b : Bound) : (c.φ b).currentEdge? = b.currentEdge? := rfl
theorem Cfg.φ_nxt (c : Cfg) (b : Bound) : (c.φ b).nextEdge? = b.nextEdge? := rfl
theorem Cfg.φ_curIdx (c : Cfg) (b : Bound) : (c.φ b).curIdx = b.curIdx := rfl
theorem Cfg.φ_nxtIdx (c : Cfg) (b : Bound) : (c.φ b).nxtIdx = b.nxtIdx := rfl
theorem Cfg.φ_edges (c : Cfg) (b : Bound) : (c.φ b).edges = b.edges := rfl
theorem Cfg.φ_last (c : Cfg) (b : Bound) : (c.φ b).lastPoint = b.lastPoint := rfl
theorem Cfg.φ_ring (c : Cfg) (b : Bound) : (c.φ b).ring = b.ring := rfl
theorem Cfg.φ_x (c : Cfg) (b : Bound) : (c.φ b).currentX = b.currentX := rfl
theorem Cfg.φ_pos (c : Cfg) (b : Bound) : (c.φ b).position = b.position := rfl
theorem Cfg.φ_wc (c : Cfg) (b : Bound) : (c.φ b).windingCount = b.windingCount := rfl
theorem Cfg.φ_owc (c : Cfg) (b : Bound) : (c.φ b).oppositeWindingCount = b.oppositeWindingCount := rfl
theorem Cfg.φ_delta (c : Cfg) (b : Bound) : (c.φ b).windingDelta = b.windingDelta := rfl
theorem Cfg.φ_side (c : Cfg) (b : Bound) : (c.φ b).side = b.side := rfl
theorem Cfg.φ_max (c : Cfg) (b : Bound) : (c.φ b).maximumBound = b.maximumBound := rfl

/-- Further rules for `via`. -/
syntax "viax" : tactic
macro_rules | `(tactic| viax) => `(tactic| fail)

/-- Decompose a statement down to calls for which an instance is known. -/
macro "via" : tactic => `(tactic|
  repeat' first
    | infer_instance
    | assumption
    | ((with_reducible refine Via.gets ?_); intro _; rfl)
    | ((with_reducible refine Via.modify ?_ ?_) <;> (intro _; rfl))
    | (with_reducible exact Via.raise)
    | ((with_reducible refine Via.modBound ?_); intro _ h; exact ⟨rfl, h⟩)
    | ((with_reducible refine Via.modBound ?_); intro _ h; exact ⟨rfl, Cfg.zero _ h⟩)
    | (with_reducible solve_by_elim only [*])
    | viax
    | (with_reducible refine Via.loopM (fun _ => ?_) _)
    | (with_reducible refine Via.forElse (fun _ => ?_) (fun _ => ?_) _ _)
    | (with_reducible refine Via.forList (fun _ => ?_) _)
    | ((with_reducible refine Via.getBound fun _ _ => ?_);
       try dsimp +instances only [Cfg.φ_cur, Cfg.φ_nxt, Cfg.φ_curIdx, Cfg.φ_nxtIdx, Cfg.φ_edges, Cfg.φ_last, Cfg.φ_ring, Cfg.φ_x, Cfg.φ_pos, Cfg.φ_wc, Cfg.φ_owc, Cfg.φ_delta, Cfg.φ_side, Cfg.φ_max])
    | (with_reducible refine Via.bind ?_ fun _ => ?_)
    | ((with_reducible refine Via.ite ?_ ?_ ?_); · rfl)
    | split
    | dsimp only)

variable {c : Cfg}

instance Via.currentEdge (b : Nat) :
    Via c (Wagyu.currentEdge b) (Wagyu.currentEdge b) := by
  unfold Wagyu.currentEdge; via

instance Via.nextEdge (b : Nat) :
    Via c (Wagyu.nextEdge b) (Wagyu.nextEdge b) := by
  unfold Wagyu.nextEdge; via

instance Via.isIntermediate (b : Nat) (y : Int) :
    Via c (Wagyu.isIntermediate b y) (Wagyu.isIntermediate b y) := by
  unfold Wagyu.isIntermediate; via

instance Via.isMaxima (b : Nat) (y : Int) :
    Via c (Wagyu.isMaxima b y) (Wagyu.isMaxima b y) := by
  unfold Wagyu.isMaxima; via

instance Via.toNextEdge (b : Nat) :
    Via c (Wagyu.toNextEdge b) (Wagyu.toNextEdge b) := by
  unfold Wagyu.toNextEdge; via

instance Via.boundInsertLocation (l r : Nat) :
    Via c (Wagyu.boundInsertLocation l r) (Wagyu.boundInsertLocation l r) := by
  unfold Wagyu.boundInsertLocation; via

instance Via.findInsertIndex (b : Nat) (l : List (Option Nat)) (k : Nat) :
    Via c (Wagyu.findInsertIndex b l k) (Wagyu.findInsertIndex b l k) := by
  induction l generalizing k with
  | nil => exact Via.ret _
  | cons x l ih => rw [Wagyu.findInsertIndex]; via

instance Via.insertBoundIntoAbl (l r : Nat) :
    Via c (Wagyu.insertBoundIntoAbl l r) (Wagyu.insertBoundIntoAbl l r) := by
  unfold Wagyu.insertBoundIntoAbl; via

instance Via.initializeBound (b : Nat) (sd : EdgeSide) :
    Via c (Wagyu.initializeBound b sd) (Wagyu.initializeBound b sd) := by
  unfold Wagyu.initializeBound; via

instance Via.initializeMinimum (m : LocalMinimum) :
    Via c (Wagyu.initializeMinimum m) (Wagyu.initializeMinimum m) := by
  unfold Wagyu.initializeMinimum; via

instance Via.updateCurrentX (y : Int) :
    Via c (Wagyu.updateCurrentX y) (Wagyu.updateCurrentX y) := by
  unfold Wagyu.updateCurrentX; via

instance Via.pushPoint (b : Nat) (p : Point) :
    Via c (Wagyu.pushPoint b p) (Wagyu.pushPoint b p) := by
  unfold Wagyu.pushPoint; via

instance Via.hotPixelSetLeftToRight (y x x2 : Int) (b i j : Nat) (e : Bool) :
    Via c (Wagyu.hotPixelSetLeftToRight y x x2 b i j e) (Wagyu.hotPixelSetLeftToRight y x x2 b i j e) := by
  unfold Wagyu.hotPixelSetLeftToRight; via

instance Via.hotPixelSetRightToLeft (y x x2 : Int) (b i j : Nat) (e : Bool) :
    Via c (Wagyu.hotPixelSetRightToLeft y x x2 b i j e) (Wagyu.hotPixelSetRightToLeft y x x2 b i j e) := by
  unfold Wagyu.hotPixelSetRightToLeft; via

instance Via.insertHotPixelsInPath (b : Nat) (p : Point) (e : Bool) :
    Via c (Wagyu.insertHotPixelsInPath b p e) (Wagyu.insertHotPixelsInPath b p e) := by
  unfold Wagyu.insertHotPixelsInPath; via

instance Via.addPointToRing (b : Nat) (p : Point) :
    Via c (Wagyu.addPointToRing b p) (Wagyu.addPointToRing b p) := by
  unfold Wagyu.addPointToRing; via

instance Via.holeStateScan (l : List (Option Nat)) (o : Option Nat) :
    Via c (Wagyu.holeStateScan l o) (Wagyu.holeStateScan l o) := by
  induction l generalizing o with
  | nil => exact Via.ret _
  | cons x l ih => cases x <;> rw [Wagyu.holeStateScan] <;> via

instance Via.setHoleState (b : Nat) :
    Via c (Wagyu.setHoleState b) (Wagyu.setHoleState b) := by
  unfold Wagyu.setHoleState; via

instance Via.addFirstPoint (b : Nat) (p : Point) :
    Via c (Wagyu.addFirstPoint b p) (Wagyu.addFirstPoint b p) := by
  unfold Wagyu.addFirstPoint; via

instance Via.addPoint (b : Nat) (p : Point) :
    Via c (Wagyu.addPoint b p) (Wagyu.addPoint b p) := by
  unfold Wagyu.addPoint; via

instance Via.addLocalMinimumPoint (p : Point) (a b : Nat) :
    Via c (Wagyu.addLocalMinimumPoint p a b) (Wagyu.addLocalMinimumPoint p a b) := by
  unfold Wagyu.addLocalMinimumPoint; via

instance Via.reattach (r k b : Nat) (l : List (Option Nat)) :
    Via c (Wagyu.reattach r k b l) (Wagyu.reattach r k b l) := by
  induction l with
  | nil => exact Via.ret _
  | cons x l ih => cases x <;> rw [Wagyu.reattach] <;> via

instance Via.appendRing (a b : Nat) :
    Via c (Wagyu.appendRing a b) (Wagyu.appendRing a b) := by
  unfold Wagyu.appendRing; via

instance Via.addLocalMaximumPoint (p : Point) (a b : Nat) :
    Via c (Wagyu.addLocalMaximumPoint p a b) (Wagyu.addLocalMaximumPoint p a b) := by
  unfold Wagyu.addLocalMaximumPoint; via

instance Via.swapRings (a b : Nat) :
    Via c (Wagyu.swapRings a b) (Wagyu.swapRings a b) := by
  unfold Wagyu.swapRings; via

theorem Cfg.lt_heap (c : Cfg) (bs : Nat → Bound) : IntersectNode.lt (c.heap bs) = IntersectNode.lt bs := rfl
theorem Cfg.compare_heap (c : Cfg) (bs : Nat → Bound) : intersectionCompare (c.heap bs) = intersectionCompare bs := rfl

/-- What is needed of the operations and fill kinds of the two runs. -/
class Cfg.Good (c : Cfg) : Prop where
  wind : ∀ i, Via c (Wagyu.setWindingCount i c.sf c.cf) (Wagyu.setWindingCount i c.sf' c.cf')
  meet : ∀ p a b, Via c (Wagyu.intersectBounds p c.op c.sf c.cf a b) (Wagyu.intersectBounds p c.op' c.sf' c.cf' a b)
  contributes : ∀ b, c.I b.polygonKind b.oppositeWindingCount → (c.φ b).isContributing c.op' c.sf' c.cf' = b.isContributing c.op c.sf c.cf

instance Via.sortActive : Via c Wagyu.sortActive Wagyu.sortActive := by
  unfold Wagyu.sortActive
  refine Via.bind (Via.gets fun _ => rfl) fun abl => Via.getBounds fun bs _ => Via.bind (Via.gets fun _ => rfl) fun n => ?_
  rw [c.compare_heap]
  via

instance Via.crossingOf (a b : Nat) : Via c (Wagyu.crossingOf a b) (Wagyu.crossingOf a b) := by
  unfold Wagyu.crossingOf; via

instance Via.buildIntersectGo (l : List (Nat × Nat)) (acc : List IntersectNode) : Via c (Wagyu.buildIntersectList.go l acc) (Wagyu.buildIntersectList.go l acc) := by
  induction l generalizing acc with
  | nil => exact Via.ret _
  | cons x l ih => obtain ⟨x, y⟩ := x; rw [Wagyu.buildIntersectList.go]; via

instance Via.buildIntersectList : Via c Wagyu.buildIntersectList Wagyu.buildIntersectList := by
  unfold Wagyu.buildIntersectList; via

section
variable [g : c.Good]

instance Via.setWindingCount (i : Nat) : Via c (Wagyu.setWindingCount i c.sf c.cf) (Wagyu.setWindingCount i c.sf' c.cf') := g.wind i
instance Via.intersectBounds (p : Point) (a b : Nat) : Via c (Wagyu.intersectBounds p c.op c.sf c.cf a b) (Wagyu.intersectBounds p c.op' c.sf' c.cf' a b) := g.meet p a b

instance Via.processIntersectList (n : Nat) (l : List IntersectNode) :
    Via c (Wagyu.processIntersectList c.op c.sf c.cf n l) (Wagyu.processIntersectList c.op' c.sf' c.cf' n l) := by
  induction n generalizing l with
  | zero => exact Via.ret _
  | succ n ih => cases l with
    | nil => exact Via.ret _
    | cons x l => rw [Wagyu.processIntersectList, Wagyu.processIntersectList]; via

instance Via.processIntersections (y : Int) : Via c (Wagyu.processIntersections y c.op c.sf c.cf) (Wagyu.processIntersections y c.op' c.sf' c.cf') := by
  unfold Wagyu.processIntersections
  refine Via.bind (Via.gets fun _ => rfl) fun abl => Via.ite rfl viaOfBlind (Via.bind inferInstance fun _ => Via.bind inferInstance fun cr => Via.ite rfl viaOfBlind
    (Via.getBounds fun bs _ => ?_))
  rw [c.lt_heap]
  via

instance Via.maximaLoop (a b : Nat) :
    Via c (Wagyu.maximaLoop c.op c.sf c.cf a b) (Wagyu.maximaLoop c.op' c.sf' c.cf' a b) := by
  unfold Wagyu.maximaLoop; via

instance Via.doMaxima (a b : Nat) :
    Via c (Wagyu.doMaxima c.op c.sf c.cf a b) (Wagyu.doMaxima c.op' c.sf' c.cf' a b) := by
  unfold Wagyu.doMaxima; via

omit g in
theorem Via.right {b : Nat} {l : Bound} (hl : c.I l.polygonKind l.oppositeWindingCount) :
    Via c (Wagyu.modBound b fun bd => { bd with windingCount := l.windingCount, oppositeWindingCount := l.oppositeWindingCount })
      (Wagyu.modBound b fun bd => { bd with windingCount := l.windingCount, oppositeWindingCount := l.oppositeWindingCount }) :=
  Via.modBound fun _ h => ⟨rfl, c.copy h hl⟩

instance Via.insertLmLeftAndRightBound (a b : Nat) :
    Via c (Wagyu.insertLmLeftAndRightBound c.op c.sf c.cf a b) (Wagyu.insertLmLeftAndRightBound c.op' c.sf' c.cf' a b) := by
  unfold Wagyu.insertLmLeftAndRightBound
  refine Via.bind inferInstance fun i => Via.bind inferInstance fun _ => Via.getBound fun l hl => Via.bind (Via.right hl) fun _ => Via.getBound fun l2 hl2 => ?_
  rw [g.contributes l2 hl2]
  via

instance Via.insertHorizontalLocalMinima (y : Int) (l : List LocalMinimum) :
    Via c (Wagyu.insertHorizontalLocalMinima c.op c.sf c.cf y l) (Wagyu.insertHorizontalLocalMinima c.op' c.sf' c.cf' y l) := by
  induction l with
  | nil => exact Via.ret _
  | cons x l ih => rw [Wagyu.insertHorizontalLocalMinima, Wagyu.insertHorizontalLocalMinima]; via

instance Via.insertLocalMinima (y : Int) (l : List LocalMinimum) :
    Via c (Wagyu.insertLocalMinima c.op c.sf c.cf y l) (Wagyu.insertLocalMinima c.op' c.sf' c.cf' y l) := by
  induction l with
  | nil => exact Via.ret _
  | cons x l ih => rw [Wagyu.insertLocalMinima, Wagyu.insertLocalMinima]; via

omit g
theorem Via.passHotPixelsRight (b : Nat) {f f' : Point → M Bool} (h : ∀ p, Via c (f p) (f' p)) (len n i : Nat) : Via c (Wagyu.passHotPixelsRight b f len n i) (Wagyu.passHotPixelsRight b f' len n i) := by
  induction n generalizing i with
  | zero => exact Via.ret _
  | succ n ih => rw [Wagyu.passHotPixelsRight, Wagyu.passHotPixelsRight]; via

macro_rules | `(tactic| viax) => `(tactic| with_reducible refine Via.passHotPixelsRight _ (fun _ => ?_) _ _ _)

theorem Via.passHotPixelsLeft (b : Nat) {f f' : Point → M Bool} (h : ∀ p, Via c (f p) (f' p)) (n : Nat) : Via c (Wagyu.passHotPixelsLeft b f n) (Wagyu.passHotPixelsLeft b f' n) := by
  induction n with
  | zero => exact Via.ret _
  | succ n ih => rw [Wagyu.passHotPixelsLeft, Wagyu.passHotPixelsLeft]; via

macro_rules | `(tactic| viax) => `(tactic| with_reducible refine Via.passHotPixelsLeft _ (fun _ => ?_) _)

instance Via.finishHorizontal (b i : Nat) :
    Via c (Wagyu.finishHorizontal b i) (Wagyu.finishHorizontal b i) := by
  unfold Wagyu.finishHorizontal; via

instance Via.horizontalEnds (b : Nat) (x : F64) :
    Via c (Wagyu.horizontalEnds b x) (Wagyu.horizontalEnds b x) := by
  unfold Wagyu.horizontalEnds; via

instance Via.horizontalPartner (b : Nat) (y : Int) :
    Via c (Wagyu.horizontalPartner b y) (Wagyu.horizontalPartner b y) := by
  unfold Wagyu.horizontalPartner; via

include g
instance Via.processHorizontalLeftToRight (y : Int) (i : Nat) :
    Via c (Wagyu.processHorizontalLeftToRight c.op c.sf c.cf y i) (Wagyu.processHorizontalLeftToRight c.op' c.sf' c.cf' y i) := by
  unfold Wagyu.processHorizontalLeftToRight; via

instance Via.processHorizontalRightToLeft (y : Int) (i : Nat) :
    Via c (Wagyu.processHorizontalRightToLeft c.op c.sf c.cf y i) (Wagyu.processHorizontalRightToLeft c.op' c.sf' c.cf' y i) := by
  unfold Wagyu.processHorizontalRightToLeft; via

instance Via.processHorizontal (y : Int) (i : Nat) :
    Via c (Wagyu.processHorizontal c.op c.sf c.cf y i) (Wagyu.processHorizontal c.op' c.sf' c.cf' y i) := by
  unfold Wagyu.processHorizontal; via

instance Via.processHorizontals (y : Int) :
    Via c (Wagyu.processHorizontals c.op c.sf c.cf y) (Wagyu.processHorizontals c.op' c.sf' c.cf' y) := by
  unfold Wagyu.processHorizontals; via

instance Via.topOfScanbeamLoop (y : Int) :
    Via c (Wagyu.topOfScanbeamLoop c.op c.sf c.cf y) (Wagyu.topOfScanbeamLoop c.op' c.sf' c.cf' y) := by
  unfold Wagyu.topOfScanbeamLoop; via

omit g
instance Via.promoteIntermediate (y : Int) (l : List (Option Nat)) :
    Via c (Wagyu.promoteIntermediate y l) (Wagyu.promoteIntermediate y l) := by
  induction l with
  | nil => exact Via.ret _
  | cons x l ih => rw [Wagyu.promoteIntermediate]; via

include g
instance Via.processEdgesAtTopOfScanbeam (y : Int) (l : List LocalMinimum) :
    Via c (Wagyu.processEdgesAtTopOfScanbeam c.op c.sf c.cf y l) (Wagyu.processEdgesAtTopOfScanbeam c.op' c.sf' c.cf' y l) := by
  unfold Wagyu.processEdgesAtTopOfScanbeam; via

instance Via.vattiStep (y : Int) (l : List LocalMinimum) :
    Via c (Wagyu.vattiStep c.op c.sf c.cf y l) (Wagyu.vattiStep c.op' c.sf' c.cf' y l) := by
  unfold Wagyu.vattiStep; via

instance Via.executeVatti (l : List LocalMinimum) (sc : List Int) :
    Via c (Wagyu.executeVatti c.op c.sf c.cf l sc) (Wagyu.executeVatti c.op' c.sf' c.cf' l sc) := by
  unfold Wagyu.executeVatti; via

omit g
instance Via.insertLocalMinimaHotPixel (y : Int) (l : List LocalMinimum) :
    Via c (Wagyu.insertLocalMinimaHotPixel y l) (Wagyu.insertLocalMinimaHotPixel y l) := by
  induction l with
  | nil => exact Via.ret _
  | cons x l ih => rw [Wagyu.insertLocalMinimaHotPixel]; via

instance Via.horizontalPass (b : Nat) (y : Int) (i : Nat) (f : F64 → F64 → Bool) :
    Via c (Wagyu.horizontalPass b y i f) (Wagyu.horizontalPass b y i f) := by
  unfold Wagyu.horizontalPass; via

instance Via.horizontalsAtTopScanbeam (y : Int) (i : Nat) :
    Via c (Wagyu.horizontalsAtTopScanbeam y i) (Wagyu.horizontalsAtTopScanbeam y i) := by
  unfold Wagyu.horizontalsAtTopScanbeam; via

instance Via.hotPixelAdvance (y : Int) (b i : Nat) :
    Via c (Wagyu.hotPixelAdvance y b i) (Wagyu.hotPixelAdvance y b i) := by
  unfold Wagyu.hotPixelAdvance; via

instance Via.processHotPixelEdgesAtTopOfScanbeam (y : Int) :
    Via c (Wagyu.processHotPixelEdgesAtTopOfScanbeam y) (Wagyu.processHotPixelEdgesAtTopOfScanbeam y) := by
  unfold Wagyu.processHotPixelEdgesAtTopOfScanbeam; via

instance Via.processHotPixelIntersections (y : Int) :
    Via c (Wagyu.processHotPixelIntersections y) (Wagyu.processHotPixelIntersections y) := by
  unfold Wagyu.processHotPixelIntersections; via

instance Via.hotPixelStep (y : Int) (l : List LocalMinimum) :
    Via c (Wagyu.hotPixelStep y l) (Wagyu.hotPixelStep y l) := by
  unfold Wagyu.hotPixelStep; via

instance Via.buildHotPixels (l : List LocalMinimum) (sc : List Int) :
    Via c (Wagyu.buildHotPixels l sc) (Wagyu.buildHotPixels l sc) := by
  unfold Wagyu.buildHotPixels; via

include g
instance Via.runOperation (m : Minimums) (rev : Bool) :
    Via c (Wagyu.runOperation m rev c.op c.sf c.cf) (Wagyu.runOperation m rev c.op' c.sf' c.cf') := by
  unfold Wagyu.runOperation; via

end

end Wagyu
