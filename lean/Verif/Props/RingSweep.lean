import Verif.Proofs.VattiStart
import Verif.Spec.OwnRings
import Verif.Props.HotPixels

/-!
# The second half of C13, and C38: the sweep that builds the rings
-/

namespace Wagyu

open Spec

/-- The state in which `execute_vatti` starts its loop. -/
def vattiInitial (m : Minimums) (s : St) : St :=
  { s with scan := m.scanbeams, abl := [], curHot := if 0 < s.hotPixels.length then some 0 else none }

theorem within_of_fits {cs : List Call} {fuel₀ : Nat} (hfit : ∀ ring ∈ heldRings cs, RingFits fuel₀ ring) :
    Extent.Holds ⟨-2 ^ 52, 2 ^ 52, -2 ^ 52, 2 ^ 52⟩ (heldRings cs) := fun ring hr p hp => by
  obtain ⟨h1, h2⟩ := (hfit ring hr).2 p hp
  exact ⟨abs_le.1 h1, abs_le.1 h2⟩

theorem extent_abs {v : Int} (h : Extent.Y ⟨-2 ^ 52, 2 ^ 52, -2 ^ 52, 2 ^ 52⟩ v) : |v| ≤ 2 ^ 52 := abs_le.2 h

theorem ring_sweep (op : OperationKind) (sf cf : FillKind) {m : Minimums} (hG : Given ⟨-2 ^ 52, 2 ^ 52, -2 ^ 52, 2 ^ 52⟩ (fun b => (m.bounds b).edges) m.values) :
    ∃ (N : Nat) (ys : List Int), ys.Pairwise (· ≥ ·) ∧ 2 * ys.length ≤ 3 * edgeCount m.bounds m.values
      ∧ ∀ fuel, N ≤ fuel → ∀ s, buildHotPixels m.values m.scanbeams (St.init fuel m.bounds) = .ok () s → ∃ r,
        Visits (vattiStep op sf cf) 0 (sortedMinimums m.values) (vattiInitial m s) ys r
        ∧ (∀ e s', r = .err e s' → e ≠ .fuel ∧ e ≠ .recursion)
        ∧ (∀ s', r = .ok () s' → HW s')
        ∧ executeVatti op sf cf m.values m.scanbeams s = r := by
  have h2 := two_values_le hG
  obtain ⟨N', ⟨a, s', h3, h4⟩ | ⟨e, s', h3, h4⟩⟩ := tot_buildHotPixels (fuel := 0) hG
  · have hsame : HeapSame (St.init N' m.bounds) s' := by
      have := (HeapSame.i19 m.values m.scanbeams).pres (St.init N' m.bounds)
      have e := h3 N' (Nat.le_refl _)
      change buildHotPixels _ _ (St.init N' m.bounds) = _ at e
      rw [e] at this
      exact ⟨this.1, this.2, this.3, this.4, this.5⟩
    obtain ⟨h5, h6⟩ := vatti_start (c := if 0 < s'.hotPixels.length then some 0 else none) hG (fun v => extent_abs) hsame h4.2.2
    obtain ⟨ys, a1, a2, -, N, a3⟩ := visits_of (step := vattiStep op sf cf) (fun Y rest s => VI _ _ Y rest s) (fun rest s => Phi _ _ rest s)
      (fun y Y rest s hJ hne => tot_vattiStep op sf cf hG (fun v => extent_abs) y hJ hne) _ 0 _ _ _ (Nat.le_refl _) h5
    have a1' : ys.length ≤ m.values.length + edgeCount m.bounds m.values := h6 ▸ a1
    refine ⟨max (max N N') (ys.length + 1), ys, a2, by omega, fun k hk s hs => ?_⟩
    have hk1 : N ≤ k := by omega
    have hk2 : N' ≤ k := by omega
    have e := h3 k hk2
    change buildHotPixels _ _ (St.init k m.bounds) = _ at e
    rw [e] at hs
    cases hs
    have key : ∀ r, Visits (vattiStep op sf cf) 0 (sortedMinimums m.values) (vattiInitial m (s'.wf k)) ys r →
        executeVatti op sf cf m.values m.scanbeams (s'.wf k) = r := by
      intro r hr
      unfold executeVatti setCurrentHotPixelIndex
      rw [run_bind, run_modify]
      dsimp only
      rw [run_bind, run_modify]
      dsimp only
      exact visits_iter hr k (by omega)
    rcases a3 with ⟨s2, Y2, b0, b1⟩ | ⟨e2, s2, b1, b2⟩
    · refine ⟨_, b1 k hk1, nofun, ?_, key _ (b1 k hk1)⟩
      rintro s3 ⟨⟩
      exact b0.hw.wf k
    · refine ⟨_, b2 k hk1, ?_, nofun, key _ (b2 k hk1)⟩
      rintro e s3 ⟨⟩
      exact b1
  · refine ⟨N', [], List.Pairwise.nil, by simp, fun k hk s hs => ?_⟩
    have e := h4 k hk
    change buildHotPixels _ _ (St.init k m.bounds) = _ at e
    rw [e] at hs
    cases hs

/-- **C13**, second sweep.  After any history of calls, for every operation and fill rule, once the hot pixels are recorded
the loop that builds the rings visits finitely many scanlines `ys` in non-increasing y, at most one and a half times
as many as there are edges, and then ends (with nothing left, or with an exception of the real program), for all
large enough bounds `fuel` on the number of steps of the model's loops.  All loops inside a step (over crossings, local
maxima, horizontals, hot pixels, the links of rings) end, too. -/
theorem C13_ring_sweep (fuel₀ : Nat) (rev : Bool) (cs : List Call) (w : Wagyu) (op : OperationKind) (sf cf : FillKind)
    (hw : ((Wagyu.new rev).calls fuel₀ cs).1 = w) (hfit : ∀ ring ∈ heldRings cs, RingFits fuel₀ ring) :
    ∃ (N : Nat) (ys : List Int), ys.Pairwise (· ≥ ·) ∧ 2 * ys.length ≤ 3 * edgeCount w.minimums.bounds w.minimums.values
      ∧ ∀ fuel, N ≤ fuel → ∀ s, buildHotPixels w.minimums.values w.minimums.scanbeams (St.init fuel w.minimums.bounds) = .ok () s → ∃ r,
        Visits (vattiStep op sf cf) 0 (sortedMinimums w.minimums.values) (vattiInitial w.minimums s) ys r
        ∧ (∀ e s', r = .err e s' → e ≠ .fuel ∧ e ≠ .recursion)
        ∧ executeVatti op sf cf w.minimums.values w.minimums.scanbeams s = r := by
  obtain ⟨N, ys, h1, h2, h3⟩ := ring_sweep op sf cf (given_of hw hfit (within_of_fits hfit))
  refine ⟨N, ys, h1, h2, fun k hk s hs => ?_⟩
  obtain ⟨r, a1, a2, -, a3⟩ := h3 k hk s hs
  exact ⟨r, a1, a2, a3⟩

theorem ancestor_rank {parent : Nat → Option Nat} {h : Nat → Nat} (hh : ∀ r p, parent r = some p → h p < h r) {r a : Nat}
    (k : Ancestor parent r a) : h a < h r := by
  induction k with
  | parent hp => exact hh _ _ hp
  | further hp _ ih => have := hh _ _ hp; omega

/-- **C38.** After any history of calls, when the two sweeps of an operation end without an exception, the points created are
distributed over the rings created: each ring with points is a closed circular list, doubly linked, each of its points
records the ring as its own, and each point is in exactly one ring; moreover no ring is an ancestor of itself. -/
theorem C38_rings_are_closed (fuel₀ : Nat) (rev : Bool) (cs : List Call) (w : Wagyu) (op : OperationKind) (sf cf : FillKind)
    (hw : ((Wagyu.new rev).calls fuel₀ cs).1 = w) (hfit : ∀ ring ∈ heldRings cs, RingFits fuel₀ ring) :
    ∃ N, ∀ fuel, N ≤ fuel →
      match sweeps w.minimums op sf cf (St.init fuel w.minimums.bounds) with
      | .ok _ s => (∃ lists, Distributed s.nodes s.nn (fun r => (s.rings r).node) s.nr lists)
          ∧ ∀ r, ¬ Ancestor (fun r => (s.rings r).parent) r r
      | .err e _ => e ≠ .fuel ∧ e ≠ .recursion := by
  have hG := given_of hw hfit (within_of_fits hfit)
  obtain ⟨N, ys, -, -, h3⟩ := ring_sweep op sf cf hG
  obtain ⟨N', h4⟩ := tot_buildHotPixels (fuel := 0) hG
  refine ⟨max N N', fun k hk => ?_⟩
  have hk1 : N ≤ k := by omega
  have hk2 : N' ≤ k := by omega
  unfold sweeps
  rw [run_bind]
  rcases h4 with ⟨a, s', b1, -⟩ | ⟨e, s', b1, b2⟩
  · have b1 := b1 k hk2
    change buildHotPixels _ _ (St.init k w.minimums.bounds) = _ at b1
    obtain ⟨r, -, a2, a3, a4⟩ := h3 k hk1 _ b1
    rw [b1]
    dsimp only
    rw [a4]
    cases r with
    | ok u s2 =>
      have h := a3 s2 rfl
      refine ⟨h.rings, fun r hr => ?_⟩
      obtain ⟨f, hf⟩ := h.rank
      exact Nat.lt_irrefl _ (ancestor_rank hf hr)
    | err e s2 => exact a2 e s2 rfl
  · have b2 := b2 k hk2
    change buildHotPixels _ _ (St.init k w.minimums.bounds) = _ at b2
    rw [b2]
    exact b1

/-- Two overlapping triangles, after other calls: the hypotheses hold, the sweeps end without an exception, and their symmetric
difference has ten points in two rings. -/
example : (∀ ring ∈ heldRings twoTrianglesHistory, RingFits 60 ring)
    ∧ (match sweeps ((Wagyu.new false).calls 60 twoTrianglesHistory).1.minimums .xor .evenOdd .evenOdd
          (St.init 60 ((Wagyu.new false).calls 60 twoTrianglesHistory).1.minimums.bounds) with
      | .ok _ s => decide (s.nn = 10 ∧ s.nr = 2 ∧ (List.range 10).map (fun i => (s.nodes i).ring)
          = [some 0, some 1, some 1, some 0, some 1, some 1, some 0, some 0, some 1, some 1])
      | .err _ _ => false) = true := by
  unfold RingFits
  refine ⟨?_, ?_⟩ <;> decide +kernel

end Wagyu
