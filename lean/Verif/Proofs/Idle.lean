import Verif.Proofs.Quiet
import Verif.Proofs.HotQuiet
import Verif.Proofs.Via

/-!
# Sweeps in which no bound ever belongs to the boundary of the result
-/

namespace Wagyu

/-- All bounds belong to one polygon, the winding number of the other one is zero everywhere, and no ring has been started. -/
structure Unlit (k : PolygonKind) (s : St) : Prop where
  bound : ∀ i, (s.bounds i).polygonKind = k ∧ (s.bounds i).oppositeWindingCount = 0 ∧ (s.bounds i).ring = none
  nr : s.nr = 0
  nodes : s.allNodes = []
  children : s.children = []

/-- `m` keeps this so, and does not raise "DoMaxima error". -/
class Idle {α : Type} (k : PolygonKind) (m : M α) : Prop where
  idle : ∀ s, Unlit k s → match m s with
    | .ok _ s' => Unlit k s'
    | .err e _ => e ≠ .runtime "DoMaxima error"

section
variable {α β σ : Type} {k : PolygonKind}

theorem Idle.ret (a : α) : Idle k (Pure.pure a : M α) := ⟨fun _ h => h⟩
instance : Idle k (Pure.pure a : M α) := Idle.ret a
theorem Idle.retBind {a : α} {f : α → M β} (h : Idle k (f a)) : Idle k ((Pure.pure a : M α) >>= f) := h
theorem Idle.raise {e : Err} (h : e ≠ .runtime "DoMaxima error") : Idle k (raise e : M α) := ⟨fun _ _ => h⟩

theorem Idle.bind {m : M α} {f : α → M β} (h1 : Idle k m) (h2 : ∀ a, Idle k (f a)) : Idle k (m >>= f) := by
  refine ⟨fun s hs => ?_⟩
  have h3 := h1.idle s hs
  rw [run_bind]
  cases hm : m s with
  | ok a s' => rw [hm] at h3; exact (h2 a).idle s' h3
  | err e s' => rw [hm] at h3; exact h3

theorem Idle.ite {p : Prop} {d : Decidable p} {m n : M α} (h1 : Idle k m) (h2 : Idle k n) : Idle k (@_root_.ite _ p d m n) := by
  split
  · exact h1
  · exact h2

theorem Idle.iter {f : σ → M (σ ⊕ β)} (h : ∀ x, Idle k (f x)) : ∀ (n : Nat), ∀ x, Idle k (iter n f x)
  | 0, x => Idle.raise (by simp)
  | n + 1, x => by
    rw [Wagyu.iter]
    refine Idle.bind (h x) fun r => ?_
    cases r with
    | inl y => exact Idle.iter h n y
    | inr b => exact Idle.ret _

theorem Idle.loopM {f : σ → M (σ ⊕ β)} (h : ∀ x, Idle k (f x)) (x : σ) : Idle k (loopM f x) :=
  ⟨fun s hs => (Idle.iter h s.fuel x).idle s hs⟩

theorem Idle.forElse {f : σ → M (σ ⊕ β)} {g : σ → M β} (h : ∀ x, Idle k (f x)) (hg : ∀ x, Idle k (g x)) (n : Nat)
    (x : σ) : Idle k (forElse n f g x) := by
  induction n generalizing x with
  | zero => exact hg x
  | succ n ih =>
    rw [Wagyu.forElse]
    refine Idle.bind (h x) fun r => ?_
    cases r with
    | inl y => exact ih y
    | inr b => exact Idle.ret _

theorem Idle.forList {f : α → M Unit} (h : ∀ x, Idle k (f x)) (l : List α) : Idle k (forList l f) := by
  induction l with
  | nil => exact ⟨fun _ h => h⟩
  | cons a l ih => rw [Wagyu.forList]; exact Idle.bind (h a) fun _ => ih

instance Idle.gets {f : St → α} : Idle k (gets f) := ⟨fun _ h => h⟩
instance Idle.deref (o : Option α) : Idle k (deref o) := by
  cases o
  · exact Idle.raise (by simp)
  · exact Idle.ret _
instance Idle.orIndex (o : Option α) : Idle k (orIndex o) := by
  cases o
  · exact Idle.raise (by simp)
  · exact Idle.ret _

theorem Idle.modify {f : St → St} (h : ∀ s, (f s).bounds = s.bounds ∧ (f s).nr = s.nr ∧ (f s).allNodes = s.allNodes ∧ (f s).children = s.children) :
    Idle k (modify f) := by
  refine ⟨fun s hs => ?_⟩
  obtain ⟨h1, h2, h3, h4⟩ := h s
  show Unlit k (f s)
  exact ⟨by rw [h1]; exact hs.bound, h2.trans hs.nr, h3.trans hs.nodes, h4.trans hs.children⟩

/-- Reading a bound. -/
theorem Idle.getBound {i : Nat} {F : Bound → M β} (h : ∀ b, b.polygonKind = k → b.oppositeWindingCount = 0 → b.ring = none → Idle k (F b)) :
    Idle k (Wagyu.getBound i >>= F) :=
  ⟨fun s hs => (h (s.bounds i) (hs.bound i).1 (hs.bound i).2.1 (hs.bound i).2.2).idle s hs⟩

theorem Idle.modBound {i : Nat} {f : Bound → Bound}
    (h : ∀ b, b.polygonKind = k → b.oppositeWindingCount = 0 → b.ring = none →
      (f b).polygonKind = k ∧ (f b).oppositeWindingCount = 0 ∧ (f b).ring = none) :
    Idle k (modBound i f) := by
  refine ⟨fun s hs => ⟨fun j => ?_, hs.nr, hs.nodes, hs.children⟩⟩
  show (Wagyu.upd s.bounds i (f (s.bounds i)) j).polygonKind = k ∧ (Wagyu.upd s.bounds i (f (s.bounds i)) j).oppositeWindingCount = 0
    ∧ (Wagyu.upd s.bounds i (f (s.bounds i)) j).ring = none
  obtain ⟨h1, h2, h3⟩ := hs.bound j
  by_cases e : j = i
  · subst e; rw [Wagyu.upd_same]; exact h _ h1 h2 h3
  · rw [Wagyu.upd_ne _ _ e]; exact ⟨h1, h2, h3⟩

end

/-- Further rules for `idle`. -/
syntax "idlex" : tactic
macro_rules | `(tactic| idlex) => `(tactic| fail)

/-- Decompose a statement down to calls for which an instance is known. -/
macro "idle" : tactic => `(tactic|
  repeat' first
    | infer_instance
    | assumption
    | (with_reducible exact Idle.ret _)
    | ((with_reducible refine Idle.modify ?_); intro _; exact ⟨rfl, rfl, rfl, rfl⟩)
    | ((with_reducible refine Idle.raise ?_); simp; done)
    | ((with_reducible refine Idle.modBound ?_); intro _ h1 h2 h3; exact ⟨h1, h2, h3⟩)
    | ((with_reducible refine Idle.modBound ?_); intro _ h1 h2 h3; exact ⟨h1, rfl, rfl⟩)
    | (with_reducible solve_by_elim only [*])
    | idlex
    | (with_reducible refine Idle.loopM (fun _ => ?_) _)
    | (with_reducible refine Idle.forElse (fun _ => ?_) (fun _ => ?_) _ _)
    | (with_reducible refine Idle.forList (fun _ => ?_) _)
    | ((with_reducible refine Idle.getBound fun _ hk ho hr => ?_);
       try simp only [hr, Option.isSome_none, Bool.false_eq_true, if_false, false_and, and_false, or_self])
    | (with_reducible refine Idle.bind ?_ fun _ => ?_)
    | (with_reducible refine Idle.ite ?_ ?_)
    | split
    | dsimp only)

variable {k : PolygonKind}

instance Idle.currentEdge (b : Nat) : Idle k (Wagyu.currentEdge b) := by
  unfold Wagyu.currentEdge; idle

instance Idle.nextEdge (b : Nat) : Idle k (Wagyu.nextEdge b) := by
  unfold Wagyu.nextEdge; idle

instance Idle.ablGet (i : Nat) : Idle k (Wagyu.ablGet i) := by
  refine ⟨fun s h => ?_⟩; unfold Wagyu.ablGet; cases s.abl[i]? with
  | none => simp
  | some v => exact h

instance Idle.ablSet (i : Nat) (v : Option Nat) : Idle k (Wagyu.ablSet i v) := by
  unfold Wagyu.ablSet; idle

instance Idle.ablSwap (i j : Nat) : Idle k (Wagyu.ablSwap i j) := by
  unfold Wagyu.ablSwap; idle

instance Idle.ablFilter  : Idle k (Wagyu.ablFilter) := by
  unfold Wagyu.ablFilter; idle

instance Idle.insertScan (y : Int) : Idle k (Wagyu.insertScan y) := by
  unfold Wagyu.insertScan; idle

instance Idle.addHotPixel (p : Point) : Idle k (Wagyu.addHotPixel p) := by
  unfold Wagyu.addHotPixel; idle

instance Idle.hotPixelAt (i : Nat) : Idle k (Wagyu.hotPixelAt i) := by
  refine ⟨fun s h => ?_⟩; unfold Wagyu.hotPixelAt; cases s.hotPixels[i]? with
  | none => simp
  | some v => exact h

instance Idle.currentHotPixelIndex  : Idle k (Wagyu.currentHotPixelIndex) := by
  unfold Wagyu.currentHotPixelIndex; idle

instance Idle.setCurrentHotPixelIndex (i : Nat) : Idle k (Wagyu.setCurrentHotPixelIndex i) := by
  unfold Wagyu.setCurrentHotPixelIndex; idle

instance Idle.roundHalfUpM (x : F64) : Idle k (Wagyu.roundHalfUpM x) := by
  unfold Wagyu.roundHalfUpM; idle

theorem Idle.liftE {α : Type} {x : Except Err α} [h : Quiet (Wagyu.liftE x)] : Idle k (Wagyu.liftE x) := by
  cases x with
  | error e => exact Idle.raise fun he => h.quiet (St.init 0 fun _ => default) _ _ (by rw [he]; rfl)
  | ok a => exact Idle.ret _
macro_rules | `(tactic| idlex) => `(tactic| with_reducible exact Idle.liftE)

instance Idle.isIntermediate (b : Nat) (y : Int) : Idle k (Wagyu.isIntermediate b y) := by
  unfold Wagyu.isIntermediate; idle

instance Idle.isMaxima (b : Nat) (y : Int) : Idle k (Wagyu.isMaxima b y) := by
  unfold Wagyu.isMaxima; idle

instance Idle.toNextEdge (b : Nat) : Idle k (Wagyu.toNextEdge b) := by
  unfold Wagyu.toNextEdge; idle

instance Idle.boundInsertLocation (l r : Nat) : Idle k (Wagyu.boundInsertLocation l r) := by
  unfold Wagyu.boundInsertLocation; idle

instance Idle.findInsertIndex (b : Nat) (l : List (Option Nat)) (i : Nat) : Idle k (Wagyu.findInsertIndex b l i) := by
  induction l generalizing i with
  | nil => exact Idle.ret _
  | cons x l ih => rw [Wagyu.findInsertIndex]; idle

instance Idle.insertBoundIntoAbl (l r : Nat) : Idle k (Wagyu.insertBoundIntoAbl l r) := by
  unfold Wagyu.insertBoundIntoAbl; idle

instance Idle.initializeBound (b : Nat) (sd : EdgeSide) : Idle k (Wagyu.initializeBound b sd) := by
  unfold Wagyu.initializeBound; idle

instance Idle.initializeMinimum (m : LocalMinimum) : Idle k (Wagyu.initializeMinimum m) := by
  unfold Wagyu.initializeMinimum; idle

instance Idle.updateCurrentX (y : Int) : Idle k (Wagyu.updateCurrentX y) := by
  unfold Wagyu.updateCurrentX; idle

instance Idle.sortActive  : Idle k (Wagyu.sortActive) := by
  unfold Wagyu.sortActive; idle

instance Idle.crossingOf (a b : Nat) : Idle k (Wagyu.crossingOf a b) := by
  unfold Wagyu.crossingOf; idle

instance Idle.buildIntersectGo (l : List (Nat × Nat)) (acc : List IntersectNode) : Idle k (Wagyu.buildIntersectList.go l acc) := by
  induction l generalizing acc with
  | nil => exact Idle.ret _
  | cons x l ih => obtain ⟨x, y⟩ := x; rw [Wagyu.buildIntersectList.go]; idle

instance Idle.buildIntersectList  : Idle k (Wagyu.buildIntersectList) := by
  unfold Wagyu.buildIntersectList; idle

instance Idle.crossingPosition (n : IntersectNode) : Idle k (Wagyu.crossingPosition n) := by
  unfold Wagyu.crossingPosition; idle

instance Idle.findFeasible (l : List IntersectNode) (i : Nat) : Idle k (Wagyu.findFeasible l i) := by
  induction l generalizing i with
  | nil => exact Idle.raise (by simp)
  | cons x l ih => rw [Wagyu.findFeasible]; idle

/-- Nothing is started at the crossing of two bounds. -/
class Dark (k : PolygonKind) (op : OperationKind) (sf cf : FillKind) : Prop where
  contributes : ∀ b : Bound, b.polygonKind = k → b.oppositeWindingCount = 0 → b.isContributing op sf cf = false
  starts : ∀ f : FillKind, crossStarts op k (normWinding f 0) (normWinding f 0) = false

theorem Idle.found {l : List (Option Nat)} {β : Type} {F : Option Nat × List Nat → M β} (h : ∀ o, Idle k (F (o, []))) :
    Idle k (Wagyu.findSameKind k l [] >>= F) := by
  cases l with
  | nil => exact h none
  | cons b l =>
    rw [Wagyu.findSameKind, M.assoc]
    refine Idle.bind inferInstance fun i => ?_
    rw [M.assoc]
    refine Idle.getBound fun bd hk _ _ => ?_
    rw [if_pos hk]
    exact h (some i)

instance Idle.setWindingCount (i : Nat) (sf cf : FillKind) : Idle k (Wagyu.setWindingCount i sf cf) := by
  unfold Wagyu.setWindingCount
  refine Idle.bind inferInstance fun o => Idle.bind inferInstance fun b => Idle.getBound fun bd hk _ _ => Idle.ite ?_ ?_
  · exact Idle.modBound fun b h1 _ h3 => ⟨h1, rfl, h3⟩
  · refine Idle.bind inferInstance fun abl => ?_
    rw [hk]
    refine Idle.found fun prev => ?_
    cases prev with
    | none => exact Idle.retBind (Idle.bind inferInstance fun _ => Idle.modBound fun b h1 _ h3 => ⟨h1, rfl, h3⟩)
    | some p =>
      dsimp only
      rw [M.assoc]
      refine Idle.getBound fun pd _ ho _ => ?_
      rw [ho]
      split
      · exact Idle.retBind (Idle.bind inferInstance fun _ => Idle.modBound fun b h1 _ h3 => ⟨h1, rfl, h3⟩)
      · exact Idle.retBind (Idle.bind inferInstance fun _ => Idle.modBound fun b h1 _ h3 => ⟨h1, rfl, h3⟩)

section
variable {op : OperationKind} {sf cf : FillKind} [d : Dark k op sf cf]

include d

instance Idle.intersectBounds (p : Point) (a b : Nat) : Idle k (Wagyu.intersectBounds p op sf cf a b) := by
  unfold Wagyu.intersectBounds
  refine Idle.getBound fun f hk ho hr => Idle.getBound fun s hk' ho' hr' => ?_
  have hc : (crossWinding f s sf cf).2.1 = 0 ∧ (crossWinding f s sf cf).2.2.2 = 0 := by
    unfold crossWinding
    rw [if_pos (hk.trans hk'.symm)]
    split <;> exact ⟨ho, ho'⟩
  revert hc
  generalize crossWinding f s sf cf = q
  obtain ⟨fwc, fowc, swc, sowc⟩ := q
  rintro ⟨h1, h2⟩
  dsimp only at h1 h2 ⊢
  subst h1 h2
  have e : s.oppositeFillKind sf cf = f.oppositeFillKind sf cf := by unfold Bound.oppositeFillKind; rw [hk, hk']
  rw [hk, hk', e, hr, hr']
  simp only [Option.isSome_none, Bool.false_and, Bool.false_eq_true, if_false, ne_eq, not_true_eq_false, d.starts]
  refine Idle.bind (Idle.modBound fun b h1 _ h3 => ⟨h1, rfl, h3⟩) fun _ => Idle.bind (Idle.modBound fun b h1 _ h3 => ⟨h1, rfl, h3⟩) fun _ => ?_
  idle

instance Idle.processIntersectList (n : Nat) (l : List IntersectNode) : Idle k (Wagyu.processIntersectList op sf cf n l) := by
  induction n generalizing l with
  | zero => exact Idle.ret _
  | succ n ih => cases l with
    | nil => exact Idle.ret _
    | cons x l => rw [Wagyu.processIntersectList]; idle

instance Idle.processIntersections (y : Int) : Idle k (Wagyu.processIntersections y op sf cf) := by
  unfold Wagyu.processIntersections; idle

instance Idle.maximaLoop (a b : Nat) : Idle k (Wagyu.maximaLoop op sf cf a b) := by
  unfold Wagyu.maximaLoop; idle

instance Idle.doMaxima (a b : Nat) : Idle k (Wagyu.doMaxima op sf cf a b) := by
  unfold Wagyu.doMaxima; idle

instance Idle.insertLmLeftAndRightBound (a b : Nat) : Idle k (Wagyu.insertLmLeftAndRightBound op sf cf a b) := by
  unfold Wagyu.insertLmLeftAndRightBound
  refine Idle.bind inferInstance fun i => Idle.bind inferInstance fun _ => Idle.getBound fun l hk ho hr => ?_
  refine Idle.bind (Idle.modBound fun b h1 _ h3 => ⟨h1, ho, h3⟩) fun _ => Idle.getBound fun l2 hk2 ho2 hr2 => ?_
  rw [d.contributes l2 hk2 ho2]
  simp only [Bool.false_eq_true, if_false]
  idle

instance Idle.insertHorizontalLocalMinima (y : Int) (l : List LocalMinimum) : Idle k (Wagyu.insertHorizontalLocalMinima op sf cf y l) := by
  induction l with
  | nil => exact Idle.ret _
  | cons x l ih => rw [Wagyu.insertHorizontalLocalMinima]; idle

instance Idle.insertLocalMinima (y : Int) (l : List LocalMinimum) : Idle k (Wagyu.insertLocalMinima op sf cf y l) := by
  induction l with
  | nil => exact Idle.ret _
  | cons x l ih => rw [Wagyu.insertLocalMinima]; idle

omit d
instance Idle.hotPixelFind (p : Point → Bool) (len n i : Nat) : Idle k (Wagyu.hotPixelFind p len n i) := by
  induction n generalizing i with
  | zero => exact Idle.ret _
  | succ n ih => rw [Wagyu.hotPixelFind]; idle

theorem Idle.passHotPixelsRight (b : Nat) {f : Point → M Bool} (h : ∀ p, Idle k (f p)) (len n i : Nat) : Idle k (Wagyu.passHotPixelsRight b f len n i) := by
  induction n generalizing i with
  | zero => exact Idle.ret _
  | succ n ih => rw [Wagyu.passHotPixelsRight]; idle

macro_rules | `(tactic| idlex) => `(tactic| with_reducible refine Idle.passHotPixelsRight _ (fun _ => ?_) _ _ _)

theorem Idle.passHotPixelsLeft (b : Nat) {f : Point → M Bool} (h : ∀ p, Idle k (f p)) (n : Nat) : Idle k (Wagyu.passHotPixelsLeft b f n) := by
  induction n with
  | zero => exact Idle.ret _
  | succ n ih => rw [Wagyu.passHotPixelsLeft]; idle

macro_rules | `(tactic| idlex) => `(tactic| with_reducible refine Idle.passHotPixelsLeft _ (fun _ => ?_) _)

instance Idle.finishHorizontal (b i : Nat) : Idle k (Wagyu.finishHorizontal b i) := by
  unfold Wagyu.finishHorizontal; idle

instance Idle.horizontalEnds (b : Nat) (x : F64) : Idle k (Wagyu.horizontalEnds b x) := by
  unfold Wagyu.horizontalEnds; idle

instance Idle.horizontalPartner (b : Nat) (y : Int) : Idle k (Wagyu.horizontalPartner b y) := by
  unfold Wagyu.horizontalPartner; idle

include d
instance Idle.processHorizontalLeftToRight (y : Int) (i : Nat) : Idle k (Wagyu.processHorizontalLeftToRight op sf cf y i) := by
  unfold Wagyu.processHorizontalLeftToRight; idle

instance Idle.processHorizontalRightToLeft (y : Int) (i : Nat) : Idle k (Wagyu.processHorizontalRightToLeft op sf cf y i) := by
  unfold Wagyu.processHorizontalRightToLeft; idle

instance Idle.processHorizontal (y : Int) (i : Nat) : Idle k (Wagyu.processHorizontal op sf cf y i) := by
  unfold Wagyu.processHorizontal; idle

instance Idle.processHorizontals (y : Int) : Idle k (Wagyu.processHorizontals op sf cf y) := by
  unfold Wagyu.processHorizontals; idle

instance Idle.topOfScanbeamLoop (y : Int) : Idle k (Wagyu.topOfScanbeamLoop op sf cf y) := by
  unfold Wagyu.topOfScanbeamLoop; idle

omit d
instance Idle.promoteIntermediate (y : Int) (l : List (Option Nat)) : Idle k (Wagyu.promoteIntermediate y l) := by
  induction l with
  | nil => exact Idle.ret _
  | cons x l ih => rw [Wagyu.promoteIntermediate]; idle

instance Idle.updateCurrentHotPixelIndex (y : Int) : Idle k (Wagyu.updateCurrentHotPixelIndex y) := by
  unfold Wagyu.updateCurrentHotPixelIndex; idle

instance Idle.popScan (y : Int) : Idle k (Wagyu.popScan y) := by
  unfold Wagyu.popScan; idle

include d
instance Idle.processEdgesAtTopOfScanbeam (y : Int) (l : List LocalMinimum) : Idle k (Wagyu.processEdgesAtTopOfScanbeam op sf cf y l) := by
  unfold Wagyu.processEdgesAtTopOfScanbeam; idle

instance Idle.vattiStep (y : Int) (l : List LocalMinimum) : Idle k (Wagyu.vattiStep op sf cf y l) := by
  unfold Wagyu.vattiStep; idle

instance Idle.executeVatti (l : List LocalMinimum) (sc : List Int) : Idle k (Wagyu.executeVatti op sf cf l sc) := by
  unfold Wagyu.executeVatti; idle

omit d
instance Idle.insertLocalMinimaHotPixel (y : Int) (l : List LocalMinimum) : Idle k (Wagyu.insertLocalMinimaHotPixel y l) := by
  induction l with
  | nil => exact Idle.ret _
  | cons x l ih => rw [Wagyu.insertLocalMinimaHotPixel]; idle

instance Idle.horizontalPass (b : Nat) (y : Int) (i : Nat) (f : F64 → F64 → Bool) : Idle k (Wagyu.horizontalPass b y i f) := by
  unfold Wagyu.horizontalPass; idle

instance Idle.horizontalsAtTopScanbeam (y : Int) (i : Nat) : Idle k (Wagyu.horizontalsAtTopScanbeam y i) := by
  unfold Wagyu.horizontalsAtTopScanbeam; idle

instance Idle.hotPixelAdvance (y : Int) (b i : Nat) : Idle k (Wagyu.hotPixelAdvance y b i) := by
  unfold Wagyu.hotPixelAdvance; idle

instance Idle.processHotPixelEdgesAtTopOfScanbeam (y : Int) : Idle k (Wagyu.processHotPixelEdgesAtTopOfScanbeam y) := by
  unfold Wagyu.processHotPixelEdgesAtTopOfScanbeam; idle

instance Idle.processHotPixelIntersections (y : Int) : Idle k (Wagyu.processHotPixelIntersections y) := by
  unfold Wagyu.processHotPixelIntersections; idle

instance Idle.hotPixelStep (y : Int) (l : List LocalMinimum) : Idle k (Wagyu.hotPixelStep y l) := by
  unfold Wagyu.hotPixelStep; idle

instance Idle.sortHotPixels  : Idle k (Wagyu.sortHotPixels) := by
  unfold Wagyu.sortHotPixels; idle

instance Idle.buildHotPixels (l : List LocalMinimum) (sc : List Int) : Idle k (Wagyu.buildHotPixels l sc) := by
  unfold Wagyu.buildHotPixels; idle

end

end Wagyu
