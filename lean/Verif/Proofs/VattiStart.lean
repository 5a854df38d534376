import Verif.Proofs.VattiTop
import Verif.Proofs.Given

/-!
# The state in which the second sweep starts
-/

namespace Wagyu

open Spec

/-- The heaps of points and rings are the same. -/
structure HeapSame (s s' : St) : Prop where
  nodes : s'.nodes = s.nodes
  nn : s'.nn = s.nn
  rings : s'.rings = s.rings
  nr : s'.nr = s.nr
  children : s'.children = s.children

instance : Preo HeapSame where
  refl _ := ⟨rfl, rfl, rfl, rfl, rfl⟩
  trans h k := ⟨k.1.trans h.1, k.2.trans h.2, k.3.trans h.3, k.4.trans h.4, k.5.trans h.5⟩

namespace HeapSame

scoped macro "same" : tactic => `(tactic|
  repeat' first
    | infer_instance
    | assumption
    | (with_reducible refine Pres.bind ?_ fun _ => ?_)
    | (with_reducible refine Pres.ite' ?_ ?_)
    | (with_reducible refine Pres.loopM (fun _ => ?_) _)
    | (with_reducible refine Pres.forElse (fun _ => ?_) (fun _ => ?_) _ _)
    | (with_reducible refine Pres.forList (fun _ => ?_) _)
    | (with_reducible refine Pres.modify fun _ => ⟨rfl, rfl, rfl, rfl, rfl⟩)
    | split
    | dsimp only)

instance i1 (b : Nat) (f : Bound → Bound) : Pres HeapSame (modBound b f) := ⟨fun _ => ⟨rfl, rfl, rfl, rfl, rfl⟩⟩
instance i2 (i : Nat) (v : Option Nat) : Pres HeapSame (ablSet i v) := ⟨fun _ => ⟨rfl, rfl, rfl, rfl, rfl⟩⟩
instance i3 (i j : Nat) : Pres HeapSame (ablSwap i j) := by unfold ablSwap; same
instance i4 : Pres HeapSame ablFilter := ⟨fun _ => ⟨rfl, rfl, rfl, rfl, rfl⟩⟩
instance i5 (y : Int) : Pres HeapSame (insertScan y) := ⟨fun _ => ⟨rfl, rfl, rfl, rfl, rfl⟩⟩
instance i6 (p : Point) : Pres HeapSame (addHotPixel p) := ⟨fun _ => ⟨rfl, rfl, rfl, rfl, rfl⟩⟩
instance i7 (b : Nat) : Pres HeapSame (toNextEdge b) := by unfold toNextEdge; same
instance i8 (a b : Nat) : Pres HeapSame (insertBoundIntoAbl a b) := by unfold insertBoundIntoAbl; same
instance i9 (y : Int) : Pres HeapSame (updateCurrentX y) := by unfold updateCurrentX; same
instance i10 (y : Int) : Pres HeapSame (popScan y) := by unfold popScan; same
instance i11 (y : Int) (l : List LocalMinimum) : Pres HeapSame (insertLocalMinimaHotPixel y l) := by
  induction l with
  | nil => exact Pres.pure _
  | cons m l ih => rw [insertLocalMinimaHotPixel]; same
instance i12 (b : Nat) (y : Int) (n : Nat) (f : F64 → F64 → Bool) : Pres HeapSame (horizontalPass b y n f) := by
  unfold horizontalPass; same
instance i13 (y : Int) (i : Nat) : Pres HeapSame (horizontalsAtTopScanbeam y i) := by unfold horizontalsAtTopScanbeam; same
instance i14 (y : Int) (b i : Nat) : Pres HeapSame (hotPixelAdvance y b i) := by unfold hotPixelAdvance; same
instance i15 (y : Int) : Pres HeapSame (processHotPixelEdgesAtTopOfScanbeam y) := by unfold processHotPixelEdgesAtTopOfScanbeam; same
instance i16 (y : Int) : Pres HeapSame (processHotPixelIntersections y) := by unfold processHotPixelIntersections; same
instance i17 (y : Int) (l : List LocalMinimum) : Pres HeapSame (hotPixelStep y l) := by unfold hotPixelStep; same
instance i18 : Pres HeapSame sortHotPixels := by unfold sortHotPixels; same
instance i19 (l : List LocalMinimum) (k : List Int) : Pres HeapSame (buildHotPixels l k) := by unfold buildHotPixels; same

end HeapSame

theorem hw_start {s : St} {fuel : Nat} {bounds : Nat → Bound} (h : HeapSame (St.init fuel bounds) s) (ha : s.abl = []) : HW s := by
  obtain ⟨h1, h2, h3, h4, h5⟩ := h
  have hr : ∀ r, s.rings r = Ring.fresh := fun r => by rw [h3]; rfl
  have hk : ∀ p i, cnt s p i = 0 := by
    intro p i
    unfold cnt kids
    rw [h5, h3]
    cases p <;> rfl
  refine ⟨⟨fun _ => [], ⟨fun r => ?_, nofun, nofun, fun i hi => ?_⟩⟩, fun r => ?_, ⟨fun p i => ?_, fun p i hi => ?_, nofun⟩, fun r p hp => ?_,
    ⟨fun _ => 0, fun r p hp => ?_⟩, fun b r hb => ?_, ?_⟩
  · rw [hr]; rfl
  · rw [h2] at hi; exact absurd hi (Nat.not_lt_zero _)
  · rw [hr]; rfl
  · rw [hk]; exact Nat.zero_le _
  · rw [hk] at hi; omega
  · rw [hr] at hp; cases hp
  · rw [hr] at hp; cases hp
  · rw [ha] at hb; cases hb
  · rw [ha]; exact List.nodup_nil

theorem vatti_start {F : Extent} {m : Minimums} {fuel : Nat} {s : St} {c : Option Nat} (hG : Given F (fun b => (m.bounds b).edges) m.values)
    (hF : ∀ v, F.Y v → |v| ≤ 2 ^ 52)
    (hs : HeapSame (St.init fuel m.bounds) s) (he : ∀ b, (s.bounds b).edges = (m.bounds b).edges) :
    VI (fun b => (m.bounds b).edges) m.values (topmost m + 1) (sortedMinimums m.values) { s with scan := m.scanbeams, abl := [], curHot := c }
    ∧ Phi (fun b => (m.bounds b).edges) m.values (sortedMinimums m.values) { s with scan := m.scanbeams, abl := [], curHot := c }
      = m.values.length + edgeCount m.bounds m.values := by
  have hp := sortedMinimums_perm m.values
  have hmem : ∀ v ∈ sortedMinimums m.values, v ∈ m.values := fun v hv => hp.mem_iff.1 hv
  have hle : ∀ v ∈ m.values, v.y ≤ topmost m := fun v hv => le_topmost m _ (mem_scanbeams.2 ⟨v, hv, rfl⟩)
  refine ⟨⟨⟨hw_start (fuel := fuel) (bounds := m.bounds) ⟨hs.1, hs.2, hs.3, hs.4, hs.5⟩ rfl, he, scanbeams_sorted m, fun v hv => ?_, fun v hv => ?_, hmem, ?_,
    sortedMinimums_order m.values, nofun, nofun, fun v hv => Or.inr (mem_scanbeams.2 ⟨v, hmem v hv, rfl⟩), nofun, nofun⟩, fun v hv => ?_, nofun⟩, ?_⟩
  · have := le_topmost m v hv; omega
  · obtain ⟨v', hv', rfl⟩ := mem_scanbeams.1 hv
    obtain ⟨e, l, h1, -⟩ := hG.rises v' hv'
    obtain ⟨p, h2, -, h3⟩ := hG.start v' hv'
    have hb := hG.inF _ (mem_idsOf_left hv') e (by rw [h1]; simp)
    rw [h1] at h2
    have : e.bottom = p := Option.some.inj h2
    rw [← h3, ← this]
    exact hF _ hb.1.2
  · exact (idsOf_perm hp).nodup_iff.2 hG.nodup
  · have := hle v (hmem v hv); omega
  · unfold Phi edgeCount
    show m.scanbeams.length + _ = _
    rw [scanbeams_length, ← sum_idsOf (fun b => (m.bounds b).edges.length)]
    congr 2
    refine List.map_congr_left fun b hb => ?_
    unfold wt
    rw [if_pos ((idsOf_perm hp).mem_iff.2 hb)]

end Wagyu
