import Verif.Props.HotPixelSort
import Verif.Proofs.KeepSweep

/-!
# The sweeps stay between two rows (continued)
-/

namespace Wagyu

section
variable {lo hi : Int}

theorem sk_maximaLoop {op : OperationKind} {sf cf : FillKind} {a b : Nat} : Keep (RowInv lo hi) (maximaLoop op sf cf a b) fun _ => True := by
  unfold maximaLoop; keep
macro_rules | `(tactic| keep1) => `(tactic| with_reducible exact sk_maximaLoop)
theorem sk_doMaxima {op : OperationKind} {sf cf : FillKind} {a b : Nat} : Keep (RowInv lo hi) (doMaxima op sf cf a b) fun _ => True := by
  unfold doMaxima
  refine Keep.bind sk_maximaLoop fun _ _ => ?_
  dsimp only
  keep
macro_rules | `(tactic| keep1) => `(tactic| with_reducible exact sk_doMaxima)

theorem sk_insertLm {op : OperationKind} {sf cf : FillKind} {a b : Nat} : Keep (RowInv lo hi) (insertLmLeftAndRightBound op sf cf a b) fun _ => True := by
  unfold insertLmLeftAndRightBound; keep
macro_rules | `(tactic| keep1) => `(tactic| with_reducible exact sk_insertLm)
theorem sk_insertHorizontalLocalMinima {op : OperationKind} {sf cf : FillKind} {y : Int} {l : List LocalMinimum} :
    Keep (RowInv lo hi) (insertHorizontalLocalMinima op sf cf y l) fun r => r <:+ l := by
  induction l with
  | nil => exact Keep.pure List.suffix_rfl
  | cons m l ih =>
    rw [insertHorizontalLocalMinima]
    refine Keep.ite (fun _ => ?_) fun _ => Keep.pure List.suffix_rfl
    refine Keep.bind sk_initializeMinimum fun _ _ => Keep.bind sk_insertLm fun _ _ => Keep.mono ih fun r hr => ?_
    exact hr.trans (List.suffix_cons _ _)
theorem sk_insertLocalMinima {op : OperationKind} {sf cf : FillKind} {y : Int} {l : List LocalMinimum} :
    Keep (RowInv lo hi) (insertLocalMinima op sf cf y l) fun r => r <:+ l := by
  induction l with
  | nil => exact Keep.pure List.suffix_rfl
  | cons m l ih =>
    rw [insertLocalMinima]
    refine Keep.ite (fun _ => ?_) fun _ => Keep.pure List.suffix_rfl
    refine Keep.bind sk_initializeMinimum fun _ _ => Keep.bind sk_insertLm fun _ _ => Keep.mono ih fun r hr => ?_
    exact hr.trans (List.suffix_cons _ _)

theorem sk_hotPixelFind {p : Point → Bool} {len k i : Nat} : Keep (RowInv lo hi) (hotPixelFind p len k i) fun _ => True := by
  induction k generalizing i with
  | zero => exact Keep.pure trivial
  | succ k ih => rw [hotPixelFind]; keep; exact ih
macro_rules | `(tactic| keep1) => `(tactic| with_reducible exact sk_hotPixelFind)
theorem sk_passRight {b : Nat} {stop : Point → M Bool} {len k i : Nat} (h : ∀ p, Keep (RowInv lo hi) (stop p) fun _ => True) :
    Keep (RowInv lo hi) (passHotPixelsRight b stop len k i) fun _ => True := by
  induction k generalizing i with
  | zero => exact Keep.pure trivial
  | succ k ih =>
    rw [passHotPixelsRight]
    refine Keep.bind sk_hotPixelAt fun p hp => Keep.bind (h p) fun _ _ => Keep.ite (fun _ => by keep) fun _ => ?_
    refine Keep.bind sk_getBound fun _ _ => Keep.ite (fun _ => ?_) fun _ => ih
    exact Keep.bind (sk_addPointToRing hp) fun _ _ => ih
theorem sk_passLeft {b : Nat} {stop : Point → M Bool} {i : Nat} (h : ∀ p, Keep (RowInv lo hi) (stop p) fun _ => True) :
    Keep (RowInv lo hi) (passHotPixelsLeft b stop i) fun _ => True := by
  induction i with
  | zero => exact Keep.pure trivial
  | succ k ih =>
    rw [passHotPixelsLeft]
    refine Keep.bind sk_hotPixelAt fun p hp => Keep.bind (h p) fun _ _ => Keep.ite (fun _ => by keep) fun _ => ?_
    refine Keep.bind sk_getBound fun _ _ => Keep.ite (fun _ => ?_) fun _ => ih
    exact Keep.bind (sk_addPointToRing hp) fun _ _ => ih
macro_rules | `(tactic| keep1) => `(tactic| with_reducible refine sk_passRight fun _ => ?_)
macro_rules | `(tactic| keep1) => `(tactic| with_reducible refine sk_passLeft fun _ => ?_)
theorem sk_finishHorizontal {b i : Nat} : Keep (RowInv lo hi) (finishHorizontal b i) fun _ => True := by unfold finishHorizontal; keep
macro_rules | `(tactic| keep1) => `(tactic| with_reducible exact sk_finishHorizontal)
theorem sk_horizontalEnds {b : Nat} {x : F64} : Keep (RowInv lo hi) (horizontalEnds b x) fun _ => True := by unfold horizontalEnds; keep
macro_rules | `(tactic| keep1) => `(tactic| with_reducible exact sk_horizontalEnds)
theorem sk_horizontalPartner {b : Nat} {y : Int} : Keep (RowInv lo hi) (horizontalPartner b y) fun _ => True := by unfold horizontalPartner; keep
macro_rules | `(tactic| keep1) => `(tactic| with_reducible exact sk_horizontalPartner)

theorem sk_lr {op : OperationKind} {sf cf : FillKind} {y : Int} {i : Nat} (hy : InR lo hi y) :
    Keep (RowInv lo hi) (processHorizontalLeftToRight op sf cf y i) fun _ => True := by
  unfold processHorizontalLeftToRight
  refine Keep.bind sk_ablGet fun _ _ => Keep.bind Keep.deref fun b _ => Keep.bind sk_horizontalPartner fun pr _ => ?_
  dsimp only
  refine Keep.bind (P := fun _ => True) (by keep) fun _ _ => Keep.bind sk_curHot fun _ _ => Keep.bind sk_currentEdge fun _ _ => ?_
  refine Keep.bind sk_hotPixelFind fun _ _ => Keep.bind (P := fun _ => True) (by keep) fun _ _ => ?_
  refine Keep.bind (P := fun _ => True) (Keep.forElse (fun _ => True) trivial (fun st _ => ?_) fun _ _ => Keep.pure trivial) fun r _ => ?_
  · refine Keep.bind sk_ablGet fun o _ => ?_
    split
    · exact Keep.pure trivial
    · next nb =>
      refine Keep.bind (P := fun _ => True) (sk_passRight fun p => by keep) fun hp _ => ?_
      keep
  · split
    · keep
    · refine Keep.bind sk_getBound fun _ _ => Keep.ite (fun _ => ?_) fun _ => by keep
      refine Keep.bind (P := fun _ => True) (sk_passRight fun p => by keep) fun hp _ => ?_
      keep
theorem sk_rl {op : OperationKind} {sf cf : FillKind} {y : Int} {i : Nat} (hy : InR lo hi y) :
    Keep (RowInv lo hi) (processHorizontalRightToLeft op sf cf y i) fun _ => True := by
  unfold processHorizontalRightToLeft
  refine Keep.bind sk_ablGet fun _ _ => Keep.bind Keep.deref fun b _ => Keep.bind sk_horizontalPartner fun pr _ => ?_
  dsimp only
  refine Keep.bind (P := fun _ => True) (by keep) fun _ _ => Keep.bind sk_curHot fun _ _ => Keep.bind sk_currentEdge fun _ _ => ?_
  refine Keep.bind sk_hotPixelFind fun _ _ => ?_
  refine Keep.bind (P := fun _ => True) (Keep.forElse (fun _ => True) trivial (fun st _ => ?_) fun _ _ => Keep.pure trivial) fun r _ => ?_
  · refine Keep.bind sk_ablGet fun o _ => ?_
    split
    · exact Keep.pure trivial
    · next nb =>
      refine Keep.bind (P := fun _ => True) (sk_passLeft fun p => by keep) fun hp _ => ?_
      keep
  · split
    · keep
    · refine Keep.bind sk_getBound fun _ _ => Keep.ite (fun _ => ?_) fun _ => by keep
      refine Keep.bind (P := fun _ => True) (sk_passLeft fun p => by keep) fun hp _ => ?_
      keep
macro_rules | `(tactic| keep1) => `(tactic| with_reducible apply sk_lr <;> keepside)
macro_rules | `(tactic| keep1) => `(tactic| with_reducible apply sk_rl <;> keepside)
theorem sk_processHorizontal {op : OperationKind} {sf cf : FillKind} {y : Int} {i : Nat} (hy : InR lo hi y) :
    Keep (RowInv lo hi) (processHorizontal op sf cf y i) fun _ => True := by
  unfold processHorizontal; keep
macro_rules | `(tactic| keep1) => `(tactic| with_reducible apply sk_processHorizontal <;> keepside)
theorem sk_processHorizontals {op : OperationKind} {sf cf : FillKind} {y : Int} (hy : InR lo hi y) :
    Keep (RowInv lo hi) (processHorizontals op sf cf y) fun _ => True := by
  unfold processHorizontals; keep
theorem sk_topLoop {op : OperationKind} {sf cf : FillKind} {y : Int} :
    Keep (RowInv lo hi) (topOfScanbeamLoop op sf cf y) fun _ => True := by
  unfold topOfScanbeamLoop; keep
theorem sk_promote {y : Int} {l : List (Option Nat)} : Keep (RowInv lo hi) (promoteIntermediate y l) fun _ => True := by
  induction l with
  | nil => exact Keep.pure trivial
  | cons o l ih => rw [promoteIntermediate]; keep <;> exact ih
theorem sk_processEdges {op : OperationKind} {sf cf : FillKind} {y : Int} {l : List LocalMinimum} (hy : InR lo hi y) :
    Keep (RowInv lo hi) (processEdgesAtTopOfScanbeam op sf cf y l) fun r => r <:+ l := by
  unfold processEdgesAtTopOfScanbeam
  refine Keep.bind sk_topLoop fun _ _ => Keep.bind sk_ablFilter fun _ _ => Keep.bind sk_insertHorizontalLocalMinima fun r hr => ?_
  refine Keep.bind (sk_processHorizontals hy) fun _ _ => Keep.bind (P := fun _ => True) (by keep) fun _ _ => Keep.bind sk_promote fun _ _ => Keep.pure hr
theorem sk_updateHot {y : Int} : Keep (RowInv lo hi) (updateCurrentHotPixelIndex y) fun _ => True := by
  unfold updateCurrentHotPixelIndex; keep
theorem sk_popScan {y : Int} {s : St} (hs : RowInv lo hi s) (hy : InR lo hi y ∨ s.scan ≠ []) :
    Ok (popScan y) s fun y s' => RowInv lo hi s' ∧ InR lo hi y := by
  unfold popScan
  refine Post.bind (Post.gets ?_)
  split
  · next h =>
    rw [List.getLast?_eq_none_iff] at h
    exact ⟨hs, hy.resolve_right fun h' => h' h⟩
  · next v hv =>
    refine Post.bind (Post.modify ⟨?_, hs.scan v (List.mem_of_getLast? hv)⟩)
    obtain ⟨n, h⟩ := hs.heap
    exact ⟨⟨n, h.nn, h.nodes, h.rings, h.all⟩, hs.edges, fun y hy => hs.scan y (List.dropLast_subset _ hy), hs.hot⟩
theorem sk_vattiStep {op : OperationKind} {sf cf : FillKind} {y : Int} {l : List LocalMinimum} {s : St} (hs : RowInv lo hi s)
    (hy : InR lo hi y ∨ s.scan ≠ []) :
    Ok (vattiStep op sf cf y l) s fun r s' => RowInv lo hi s' ∧ InR lo hi r.1 := by
  unfold vattiStep
  refine Post.bind ((sk_popScan hs hy).imp fun y s ⟨hs, hy⟩ => ?_)
  refine Keep.run ?_ s hs
  refine Keep.bind sk_processIntersections fun _ _ => Keep.bind sk_updateHot fun _ _ => ?_
  refine Keep.bind (sk_processEdges hy) fun r hr => Keep.bind sk_insertLocalMinima fun r' hr' => Keep.pure hy

theorem RowInv.start {s : St} (hs : RowInv lo hi s) {scan : List Int} (h : ∀ y ∈ scan, InR lo hi y) :
    RowInv lo hi { s with scan := scan, abl := [] } := by
  obtain ⟨n, g⟩ := hs.heap
  exact ⟨⟨n, g.nn, g.nodes, g.rings, g.all⟩, hs.edges, h, hs.hot⟩

/-- The sweep stays between the rows. -/
theorem executeVatti_rows {op : OperationKind} {sf cf : FillKind} {ms : List LocalMinimum} {scan : List Int} {s : St}
    (hs : RowInv lo hi s) (h : ∀ y ∈ scan, InR lo hi y) (hne : ms ≠ [] → scan ≠ []) :
    Ok (executeVatti op sf cf ms scan) s fun _ s' => RowInv lo hi s' := by
  unfold executeVatti
  refine Post.bind (Post.modify (Post.bind (Post.modify ?_)))
  refine Post.loopM (fun x s => RowInv lo hi s ∧ (InR lo hi x.1 ∨ s.scan ≠ [] ∨ x.2 = [])) ?_ (fun _ _ _ => trivial) ⟨(hs.start h).misc, ?_⟩
  · rintro ⟨y, l⟩ s ⟨hs, hy⟩
    refine Post.bind (Post.gets ?_)
    split
    · exact hs
    · next hc =>
      refine Post.bind ((sk_vattiStep hs ?_).imp fun r s' ⟨h1, h2⟩ => ⟨h1, Or.inl h2⟩)
      simp only at hc hy ⊢
      tauto
  · right
    by_cases e : ms = []
    · subst e; right; rfl
    · left; exact hne e

/-! ## Hot pixels -/

theorem sk_insertLmHot {y : Int} {l : List LocalMinimum} :
    Keep (RowInv lo hi) (insertLocalMinimaHotPixel y l) fun _ => True := by
  induction l with
  | nil => exact Keep.pure trivial
  | cons m l ih =>
    rw [insertLocalMinimaHotPixel]
    refine Keep.ite (fun _ => ?_) fun _ => Keep.pure trivial
    refine Keep.bind sk_getBound fun bd hbd => Keep.bind Keep.orIndex fun e he => ?_
    have he := hbd e (List.mem_of_head? he)
    keep <;> exact ih
theorem sk_horizontalPass {b : Nat} {y : Int} {i : Nat} {f : F64 → F64 → Bool} (hy : InR lo hi y) :
    Keep (RowInv lo hi) (horizontalPass b y i f) fun _ => True := by unfold horizontalPass; keep
macro_rules | `(tactic| keep1) => `(tactic| with_reducible apply sk_horizontalPass <;> keepside)
theorem sk_horizontalsAtTop {y : Int} {i : Nat} (hy : InR lo hi y) :
    Keep (RowInv lo hi) (horizontalsAtTopScanbeam y i) fun _ => True := by unfold horizontalsAtTopScanbeam; keep
macro_rules | `(tactic| keep1) => `(tactic| with_reducible apply sk_horizontalsAtTop <;> keepside)
theorem sk_advance {y : Int} {b i : Nat} (hy : InR lo hi y) :
    Keep (RowInv lo hi) (hotPixelAdvance y b i) fun _ => True := by unfold hotPixelAdvance; keep
macro_rules | `(tactic| keep1) => `(tactic| with_reducible apply sk_advance <;> keepside)
theorem sk_hotTop {y : Int} (hy : InR lo hi y) :
    Keep (RowInv lo hi) (processHotPixelEdgesAtTopOfScanbeam y) fun _ => True := by unfold processHotPixelEdgesAtTopOfScanbeam; keep
theorem sk_hotIntersections {y : Int} :
    Keep (RowInv lo hi) (processHotPixelIntersections y) fun _ => True := by
  unfold processHotPixelIntersections
  refine Keep.bind sk_updateCurrentX fun _ _ => Keep.bind sk_sortActive fun r _ => ?_
  dsimp only
  refine Keep.bind (Keep.forList fun lr _ => ?_) fun _ _ => Keep.modify fun s hs => hs.misc
  exact Keep.bind sk_crossingOf fun p hp => Keep.bind Keep.liftE fun q hq => sk_addHotPixel (hp q hq)
theorem sk_hotStep {y : Int} {l : List LocalMinimum} {s : St} (hs : RowInv lo hi s)
    (hy : InR lo hi y ∨ s.scan ≠ []) :
    Ok (hotPixelStep y l) s fun r s' => RowInv lo hi s' ∧ InR lo hi r.1 := by
  unfold hotPixelStep
  refine Post.bind ((sk_popScan hs hy).imp fun y s ⟨hs, hy⟩ => ?_)
  refine Keep.run ?_ s hs
  exact Keep.bind sk_hotIntersections fun _ _ => Keep.bind sk_insertLmHot fun _ _ => Keep.bind (sk_hotTop hy) fun _ _ => Keep.pure hy

theorem sk_sortHotPixels : Keep (RowInv lo hi) sortHotPixels fun _ => True := by
  refine ⟨fun s hs => Ok.intro fun a s' h => ⟨?_, trivial⟩⟩
  have hm := (C10_sorted_of_returns s s' h).2.2
  obtain ⟨l, hl⟩ : ∃ l, s' = { s with hotPixels := l } := by
    unfold sortHotPixels at h
    simp only [bind, M.bind, gets] at h
    cases hq : quicksort hotPixelsCompare s.fuel s.hotPixels with
    | none => rw [hq] at h; cases h
    | some r => rw [hq] at h; cases h; exact ⟨_, rfl⟩
  subst hl
  obtain ⟨n, h⟩ := hs.heap
  exact ⟨⟨n, h.nn, h.nodes, h.rings, h.all⟩, hs.edges, hs.scan, fun p hp => hs.hot p ((hm p).1 hp)⟩

/-- The sweep stays between the rows. -/
theorem buildHotPixels_rows {ms : List LocalMinimum} {scan : List Int} {s : St}
    (hs : RowInv lo hi s) (h : ∀ y ∈ scan, InR lo hi y) (hne : ms ≠ [] → scan ≠ []) :
    Ok (buildHotPixels ms scan) s fun _ s' => RowInv lo hi s' := by
  unfold buildHotPixels
  refine Post.bind (Post.modify (Post.bind ?_))
  refine Post.loopM (fun x s => RowInv lo hi s ∧ (InR lo hi x.1 ∨ s.scan ≠ [] ∨ x.2 = [])) ?_ (fun _ _ _ => trivial) ⟨hs.start h, ?_⟩
  · rintro ⟨y, l⟩ s ⟨hs, hy⟩
    refine Post.bind (Post.gets ?_)
    split
    · exact (sk_sortHotPixels.run s hs).imp fun _ _ h => h.1
    · next hc =>
      refine Post.bind ((sk_hotStep hs ?_).imp fun r s' ⟨h1, h2⟩ => ⟨h1, Or.inl h2⟩)
      simp only at hc hy ⊢
      tauto
  · right
    by_cases e : ms = []
    · subst e; right; rfl
    · left; exact hne e

end

end Wagyu
