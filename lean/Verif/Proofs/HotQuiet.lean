import Verif.Proofs.SweepRunStep

/-!
# The only `RuntimeError` of the sweep for hot pixels
-/

namespace Wagyu

instance (p : Point) : Quiet (addHotPixel p) := by unfold addHotPixel; quiet
instance (y : Int) (l : List LocalMinimum) : Quiet (insertLocalMinimaHotPixel y l) := by
  induction l with
  | nil => unfold insertLocalMinimaHotPixel; quiet
  | cons m l ih => rw [insertLocalMinimaHotPixel]; quiet
instance (b : Nat) (y : Int) (i : Nat) (f : F64 → F64 → Bool) : Quiet (horizontalPass b y i f) := by unfold horizontalPass; quiet
instance (y : Int) (i : Nat) : Quiet (horizontalsAtTopScanbeam y i) := by unfold horizontalsAtTopScanbeam; quiet
instance : Quiet ablFilter := by unfold ablFilter; quiet
instance (i : Nat) (v : Option Nat) : Quiet (ablSet i v) := by unfold ablSet; quiet
instance (b : Nat) : Quiet (toNextEdge b) := by unfold toNextEdge; quiet
instance (y : Int) (b i : Nat) : Quiet (hotPixelAdvance y b i) := by unfold hotPixelAdvance; quiet
instance (y : Int) : Quiet (processHotPixelEdgesAtTopOfScanbeam y) := by unfold processHotPixelEdgesAtTopOfScanbeam; quiet

section
variable {s : St} {α : Type}

theorem Post.any {m : M α} [Quiet m] : Post m s (fun _ _ => True) OnlyCross := Post.only (Ok.quiet (Ok.intro fun _ _ _ => trivial))

theorem Post.thenAny {β : Type} {m : M α} {f : α → M β} (h : Post m s (fun _ _ => True) OnlyCross) (k : ∀ a s, Post (f a) s (fun _ _ => True) OnlyCross) :
    Post (m >>= f) s (fun _ _ => True) OnlyCross := Post.bind (h.imp fun a s' _ => k a s')

theorem sort_only : Post sortActive s (fun _ _ => True) OnlyCross := by
  unfold sortActive
  refine Post.bind (Post.gets (Post.bind (Post.gets (Post.bind (Post.gets ?_)))))
  split
  · exact Post.raise only_fuel
  · exact Post.pure trivial

theorem hotMeet_only {y : Int} : Post (processHotPixelIntersections y) s (fun _ _ => True) OnlyCross := by
  unfold processHotPixelIntersections
  refine Post.thenAny Post.any fun _ s => Post.thenAny sort_only fun r s => ?_
  dsimp only
  refine Post.thenAny ?_ fun _ s => Post.any
  generalize r.2 = l
  induction l generalizing s with
  | nil => exact Post.pure trivial
  | cons a l ih =>
    rw [forList]
    exact Post.thenAny (Post.thenAny (crossingOf_only fun _ => trivial) fun p s => Post.thenAny Post.any fun q s => Post.any) fun _ s => ih s

theorem hotStep_only {y : Int} {l : List LocalMinimum} : Post (hotPixelStep y l) s (fun _ _ => True) OnlyCross := by
  unfold hotPixelStep
  exact Post.thenAny Post.any fun y s => Post.thenAny hotMeet_only fun _ s => Post.thenAny Post.any fun _ s => Post.thenAny Post.any fun _ s => Post.any

theorem hot_only {ms : List LocalMinimum} {scan : List Int} : Post (buildHotPixels ms scan) s (fun _ _ => True) OnlyCross := by
  unfold buildHotPixels
  refine Post.thenAny Post.any fun _ s => Post.thenAny ?_ fun _ s => ?_
  · refine Post.loopM (Q := fun _ _ => True) (fun _ _ => True) ?_ (fun _ _ _ => only_fuel) trivial
    intro x s1 _
    refine Post.bind (Post.gets (Post.ite (fun _ => Post.pure trivial) fun _ => ?_))
    exact Post.bind (hotStep_only.imp fun _ s2 _ => Post.pure trivial)
  · unfold sortHotPixels
    refine Post.bind (Post.gets (Post.bind (Post.gets ?_)))
    split
    · exact Post.raise only_fuel
    · exact Post.modify trivial

end

end Wagyu
