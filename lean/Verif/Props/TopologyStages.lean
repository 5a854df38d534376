import Verif.Proofs.TopoPlace
import Verif.Proofs.SweepEnds

/-!
# C41-C44: the stages of the topology correction, up to the tree of rings
-/

namespace Wagyu

open Spec

/-! ## The stages -/

/-- The first stage: ring_manager.py:594-595. -/
def orientStage : M Unit := do
  sortAllNodes
  correctOrientations

/-- The first stages of `correct_topology`, ring_manager.py:594-598. -/
def firstStages : M Unit := do
  orientStage
  correctCollinearEdges
  let _ ← correctSelfIntersections false
  correctTree

/-- The last stage of `correct_topology`, ring_manager.py:599-606. -/
def lastStage : M Unit :=
  loopM (fun (_ : Unit) => do
    correctChainedRings
    if ← correctSelfIntersections true then pure (.inl ()) else pure (.inr ())) ()

theorem correctTopology_stages : correctTopology = (do firstStages; lastStage) := by
  unfold correctTopology firstStages orientStage
  simp only [M.assoc]
  rfl

/-- The points of the rings are distributed over the rings (`Owned`), as the rings of the state record. -/
abbrev Rings (s : St) (lists : Nat → List Nat) : Prop := Owned s.nodes s.nn (fun r => (s.rings r).node) s.nr lists

/-- Neither a point node is created nor one moves. -/
def SamePoints (s s' : St) : Prop := s'.nn = s.nn ∧ ∀ i, locOf s'.nodes i = locOf s.nodes i

/-! ## From `Ends` to runs -/

section
variable {s s' : St} {L L' : Nat → List Nat}

/-- The stage `f` after `m`. -/
theorem Tot.stage {α β : Type} {m : M α} {f : M β} {s0 : St} {E : Err → Prop} {P : St → β → St → Prop} (hP : ∀ k s b s', P s b s' → P (s.wf k) b (s'.wf k))
    (h : Tot m s0 fun _ s => Ends E f s fun b s' => P s b s') :
    ∃ N, ∀ k, N ≤ k → ∀ a s, m (s0.wf k) = .ok a s → match f s with
      | .ok b s' => P s b s'
      | .err e _ => E e := by
  obtain ⟨N, ⟨a, s, h1, M, h2⟩ | ⟨e, s, h1, h2⟩⟩ := h
  · refine ⟨max N M, fun k hk a' s' e => ?_⟩
    rw [h1 k (by omega)] at e
    cases e
    rcases h2 with ⟨b, s', h2, h3⟩ | ⟨e, s', h2, h3⟩
    · rw [h2 k (by omega)]; exact hP k _ _ _ h3
    · rw [h3 k (by omega)]; exact h2
  · exact ⟨N, fun k hk a s e => by rw [h2 k hk] at e; cases e⟩

/-- The invariant after the first stage. -/
structure Sorted (s s' : St) : Prop where
  pts : SamePoints s s'
  all : ∀ i ∈ s'.allNodes, i < s'.nn
  mark : ∀ r, (s'.rings r).corrected = false
  lists : ∃ L L', RingsOf s L ∧ TI s' L'
    ∧ ∀ r d, AtDepth (fun r => (s.rings r).parent) r d → L' r = oriented s.nodes d (L r)

theorem ends_orientStage {E : Err → Prop} (h : Swept s) : Ends E orientStage s fun _ s' => Sorted s s' := by
  obtain ⟨L, hL⟩ := h.hw.rings
  obtain ⟨rk, hrk⟩ := h.hw.rank
  unfold orientStage
  refine Ends.bind ((ends_sortAllNodes hrk fun i hi => ?_).imp ?_)
  · obtain ⟨r, hr⟩ := hL.all i (h.refs.all i hi)
    exact ⟨r, (hL.own r i hr).2⟩
  rintro _ s1 ⟨l, rfl, hl⟩
  have hown : Own { s with allNodes := l } L := ⟨hL.head, hL.cycle, hL.own, fun i hi r hr => by
    obtain ⟨k, hk⟩ := hL.all i hi
    have := (hL.own k i hk).2
    change (s.nodes i).ring = some r at hr
    rw [this] at hr
    cases hr; exact hk⟩
  refine (ends_correctOrientations (h := rk) (by exact hrk) hown).imp ?_
  rintro _ s2 ⟨L', ho⟩
  refine ⟨⟨ho.frame.nn, ho.frame.loc⟩, fun i hi => ?_, fun r => ?_, L, L', hL, ⟨ho.own, fun r hr _ => ?_, ho.blank fun r => (h.blank r).stats⟩, ho.lists⟩
  · rw [ho.frame.all] at hi; rw [ho.frame.nn]
    exact h.refs.all i (hl.mem_iff.1 hi)
  · rw [ho.frame.mark]; exact (h.blank r).mark
  · have := ho.stats r hr
    exact ⟨this.area, this.hole, this.box, this.size.ge⟩

/-- The invariant after the second stage. -/
structure Straight (s s' : St) : Prop where
  pts : SamePoints s s'
  all : ∀ i ∈ s'.allNodes, i < s'.nn
  mark : ∀ r, (s'.rings r).corrected = false
  lists : ∃ L L', Own s L ∧ TI s' L'

theorem ends_collinearStage {E : Err → Prop} {s0 : St} (h : Sorted s0 s) : Ends E correctCollinearEdges s fun _ s' => Straight s s' := by
  obtain ⟨-, L, -, hL, -⟩ := h.lists
  refine (ends_correctCollinearEdges hL h.all).imp ?_
  rintro _ s' ⟨L', hs⟩
  refine ⟨⟨hs.nn, hs.loc⟩, by rw [hs.all, hs.nn]; exact h.all, fun r => ?_, L, L', hL.own, hs.ti⟩
  cases e : (s'.rings r).corrected with
  | false => rfl
  | true => have := hs.cor r e; rw [h.mark r] at this; cases this

/-- The invariant after the third stage. -/
structure Simple (s s' : St) : Prop where
  pts : SamePoints s s'
  all : ∀ i ∈ s'.allNodes, i < s'.nn
  lists : ∃ L L', Own s L ∧ TI s' L' ∧ Cleaned s L s' L' ∧ ∀ k, Once s' (L' k)

theorem ends_selfStage {E : Err → Prop} {s0 : St} (h : Straight s0 s) : Ends E (correctSelfIntersections false) s fun _ s' => Simple s s' := by
  obtain ⟨-, L, -, hL⟩ := h.lists
  refine (ends_correctSelfIntersections hL h.mark).imp ?_
  rintro _ s' ⟨L', hs, ho⟩
  exact ⟨⟨hs.nn, hs.loc⟩, by rw [hs.all, hs.nn]; exact h.all, L, L', hL.own, hs.ti, hs, ho⟩

/-- The invariant after the fourth stage. -/
structure Rooted (s s' : St) : Prop where
  pts : SamePoints s s'
  all : ∀ i ∈ s'.allNodes, i < s'.nn
  lists : ∃ L L' order, Own s L ∧ TI s' L' ∧ Known s' L' ∧ Pruned s L s' L' ∧ (∀ k, Once s (L k)) ∧ (∀ k, Once s' (L' k)) ∧ order.Perm (List.range s'.nr) ∧ Placed s' L' order

theorem ends_treeStage {s0 : St} (h : Simple s0 s) : Ends Unplaced correctTree s fun _ s' => Rooted s s' := by
  obtain ⟨-, L, -, hL, -, ho⟩ := h.lists
  refine (ends_correctTree hL).imp ?_
  rintro _ s' ⟨L', order, h1, h2, h3, h4, h5⟩
  refine ⟨⟨h3.nn, h3.loc⟩, by rw [h3.all, h3.nn]; exact h.all, L, L', order, hL.own, h1, h2, h3, ho, fun k => ?_, h4, h5⟩
  rcases h3.kept k with e | ⟨e, -⟩
  · rw [e]; exact (ho k).congr h3.loc
  · rw [e]; exact List.nodup_nil

theorem unplaced_real {e : Err} (h : Unplaced e) : e.Real := by
  rcases h with rfl | rfl <;> exact ⟨nofun, nofun⟩

theorem ends_firstStages (h : Swept s) : Ends Unplaced firstStages s fun _ s' => ∃ t, Rooted t s' := by
  unfold firstStages
  refine Ends.bind ((ends_orientStage h).imp fun _ s1 h1 => ?_)
  refine Ends.bind ((ends_collinearStage h1).imp fun _ s2 h2 => ?_)
  refine Ends.bind ((ends_selfStage h2).imp fun _ s3 h3 => ?_)
  exact (ends_treeStage h3).imp fun _ s4 h4 => ⟨s3, h4⟩

end

/-! ## C41 -/

section
variable (fuel₀ : Nat) (rev : Bool) (cs : List Call) (w : Wagyu) (op : OperationKind) (sf cf : FillKind)
  (hw : ((Wagyu.new rev).calls fuel₀ cs).1 = w) (hfit : ∀ ring ∈ heldRings cs, RingFits fuel₀ ring)

include hw hfit

/-- **C41.** After any history of calls, once the sweeps of an operation have ended, the first four stages of the topology
correction (orientations, collinear edges, self-intersections, tree) end as well: they neither loop nor recurse forever, and
they raise nothing but the two `RuntimeError`s about a ring that cannot be placed.  When they end, the points are
distributed over closed rings, none has been created and none has moved. -/
theorem C41_first_stages_end :
    ∃ N, ∀ fuel, N ≤ fuel → ∀ s, sweeps w.minimums op sf cf (St.init fuel w.minimums.bounds) = .ok () s →
      match firstStages s with
      | .ok _ s' => (∃ lists, Rings s' lists) ∧ SamePoints s s'
      | .err e _ => e = .runtime "Could not find a point within the polygon to test"
          ∨ e = .runtime "Could not properly place hole to a parent" := by
  obtain ⟨N, h⟩ := Tot.stage (f := firstStages) (E := Unplaced) (P := fun s _ s' => (∃ lists, Rings s' lists) ∧ SamePoints s s') (fun _ _ _ _ h => h)
    ((sweeps_swept op sf cf hw hfit).imp (Q' := fun _ s => Ends Unplaced firstStages s fun _ s' => (∃ lists, Rings s' lists) ∧ SamePoints s s') (by
      intro _ s h
      unfold firstStages
      refine Ends.bind ((ends_orientStage h).imp fun _ s1 h1 => ?_)
      refine Ends.bind ((ends_collinearStage h1).imp fun _ s2 h2 => ?_)
      refine Ends.bind ((ends_selfStage h2).imp fun _ s3 h3 => ?_)
      refine (ends_treeStage h3).imp fun _ s4 h4 => ?_
      obtain ⟨-, L, -, -, hL, -⟩ := h4.lists
      obtain ⟨a1, a2⟩ := h1.pts
      obtain ⟨b1, b2⟩ := h2.pts
      obtain ⟨c1, c2⟩ := h3.pts
      obtain ⟨d1, d2⟩ := h4.pts
      exact ⟨⟨L, hL.own⟩, d1.trans (c1.trans (b1.trans a1)), fun i => (d2 i).trans ((c2 i).trans ((b2 i).trans (a2 i)))⟩))
  exact ⟨N, fun fuel hf s hs => by have := h fuel hf () s hs; split at this <;> simp_all [Unplaced]⟩

/-- Two triangles that share an edge. -/
private def halves : List Call := [.addLinearRing [⟨0, 0⟩, ⟨4, 0⟩, ⟨0, 4⟩] .subject, .addLinearRing [⟨4, 0⟩, ⟨4, 4⟩, ⟨0, 4⟩] .clip]

omit hw hfit in
/-- The stages do remove the shared edge: the union of the two halves of a square is the square. -/
example : (((Wagyu.new false).calls 200 halves).1.execute 200 .union .nonZero .evenOdd).2 = .ok [[[⟨0, 4⟩, ⟨0, 0⟩, ⟨4, 0⟩, ⟨4, 4⟩, ⟨0, 4⟩]]] := by
  decide +kernel

/-! ## C42 -/

/-- **C42.** After any history of calls, the first stage of the topology correction ends without an exception.  It removes the
rings of less than three points; of every other ring the orientation alone may change, by reversing it (from its first
point on): afterwards, unless its area is zero, the ring is positively oriented iff its number of ancestors is even. -/
theorem C42_orientations :
    ∃ N, ∀ fuel, N ≤ fuel → ∀ s, sweeps w.minimums op sf cf (St.init fuel w.minimums.bounds) = .ok () s →
      match orientStage s with
      | .ok _ s' => SamePoints s s' ∧ ∃ lists lists', Rings s lists ∧ Rings s' lists'
          ∧ ∀ r, ∃ d, AtDepth (fun r => (s.rings r).parent) r d
            ∧ ((lists r).length < 3 → lists' r = [])
            ∧ (3 ≤ (lists r).length →
                (lists' r = lists r ∨ ∃ a t, lists r = a :: t ∧ lists' r = a :: t.reverse)
                ∧ (area2 (pointsOf s'.nodes (lists' r)) = area2 (pointsOf s.nodes (lists r))
                  ∨ area2 (pointsOf s'.nodes (lists' r)) = - area2 (pointsOf s.nodes (lists r)))
                ∧ (area2 (pointsOf s'.nodes (lists' r)) ≠ 0 → (0 < area2 (pointsOf s'.nodes (lists' r)) ↔ d % 2 = 0)))
      | .err _ _ => False := by
  obtain ⟨N, h⟩ := Tot.stage (f := orientStage) (E := fun _ => False) (P := fun s _ s' => SamePoints s s' ∧ ∃ lists lists', Rings s lists ∧ Rings s' lists'
          ∧ ∀ r, ∃ d, AtDepth (fun r => (s.rings r).parent) r d
            ∧ ((lists r).length < 3 → lists' r = [])
            ∧ (3 ≤ (lists r).length →
                (lists' r = lists r ∨ ∃ a t, lists r = a :: t ∧ lists' r = a :: t.reverse)
                ∧ (area2 (pointsOf s'.nodes (lists' r)) = area2 (pointsOf s.nodes (lists r))
                  ∨ area2 (pointsOf s'.nodes (lists' r)) = - area2 (pointsOf s.nodes (lists r)))
                ∧ (area2 (pointsOf s'.nodes (lists' r)) ≠ 0 → (0 < area2 (pointsOf s'.nodes (lists' r)) ↔ d % 2 = 0)))) (fun _ _ _ _ h => h)
    ((sweeps_swept op sf cf hw hfit).imp fun _ s h => (ends_orientStage h).imp fun _ s1 h1 => by
      obtain ⟨L, L', hL, hL', ho⟩ := h1.lists
      obtain ⟨rk, hrk⟩ := h.hw.rank
      refine ⟨h1.pts, L, L', ?_, hL'.own, fun r => ?_⟩
      · refine ⟨hL.head, hL.cycle, hL.own, fun i hi r hr => ?_⟩
        obtain ⟨k, hk⟩ := hL.all i hi
        rw [(hL.own k i hk).2] at hr
        cases hr; exact hk
      · obtain ⟨d, hd⟩ := depth_exists hrk r
        refine ⟨d, hd, fun h3 => ?_, fun h3 => ?_⟩
        · rw [ho r d hd, oriented, if_pos h3]
        · have hnot : ¬ (L r).length < 3 := by omega
          rw [ho r d hd, oriented, if_neg hnot, pointsOf_congr h1.pts.2]
          split
          · next hne =>
            rw [area2_flip]
            refine ⟨Or.inr ?_, Or.inr rfl, fun h0 => ?_⟩
            · cases hl : L r with
              | nil => rw [hl] at hnot; exact absurd (by decide : ([] : List Nat).length < 3) hnot
              | cons a t => exact ⟨a, t, rfl, rfl⟩
            · unfold isOdd at hne
              by_cases h1 : d % 2 = 1 <;> by_cases h2 : area2 (pointsOf s.nodes (L r)) ≤ 0 <;> simp [h1, h2] at hne ⊢ <;> omega
          · next hne =>
            refine ⟨Or.inl rfl, Or.inl rfl, fun h0 => ?_⟩
            unfold isOdd at hne
            by_cases h1 : d % 2 = 1 <;> by_cases h2 : area2 (pointsOf s.nodes (L r)) ≤ 0 <;> simp [h1, h2] at hne ⊢ <;> omega)
  exact ⟨N, fun fuel hf s hs => by have := h fuel hf () s hs; split at this <;> simp_all⟩

/-! ## C43 -/

/-- **C43.** After any history of calls, after the correction of the collinear edges (which ends without an exception), the
correction of the self-intersections ends without an exception.  Afterwards no ring visits a position twice; every point
node is still in a ring, no point node has been created and none has moved; and the rings have the same directed edges in
total as before (`edgeTotal`), so the same total signed area and the same total winding number around any position. -/
theorem C43_self_intersections :
    ∃ N, ∀ fuel, N ≤ fuel → ∀ s,
      (do sweeps w.minimums op sf cf; orientStage; correctCollinearEdges) (St.init fuel w.minimums.bounds) = .ok () s →
      match correctSelfIntersections false s with
      | .ok _ s' => SamePoints s s' ∧ ∃ lists lists', Rings s lists ∧ Rings s' lists'
          ∧ (∀ r, (pointsOf s'.nodes (lists' r)).Nodup)
          ∧ (∀ i r, i ∈ lists r → ∃ r', i ∈ lists' r')
          ∧ ∀ c, edgeTotal c s'.nodes lists' s'.nr = edgeTotal c s.nodes lists s.nr
      | .err _ _ => False := by
  obtain ⟨N, h⟩ := Tot.stage (m := do sweeps w.minimums op sf cf; orientStage; correctCollinearEdges) (f := correctSelfIntersections false) (E := fun _ => False) (P := fun s _ s' => SamePoints s s' ∧ ∃ lists lists', Rings s lists ∧ Rings s' lists'
          ∧ (∀ r, (pointsOf s'.nodes (lists' r)).Nodup)
          ∧ (∀ i r, i ∈ lists r → ∃ r', i ∈ lists' r')
          ∧ ∀ c, edgeTotal c s'.nodes lists' s'.nr = edgeTotal c s.nodes lists s.nr) (s0 := St.init 0 w.minimums.bounds) (fun _ _ _ _ h => h) (by
      refine Tot.bind ((sweeps_swept op sf cf hw hfit).imp fun _ s h => ?_)
      refine Tot.bind ((Ends.tot (E := fun _ => False) (ends_orientStage h) nofun).imp fun _ s1 h1 => ?_)
      refine (Ends.tot (E := fun _ => False) (ends_collinearStage h1) nofun).imp fun _ s2 h2 => (ends_selfStage h2).imp fun _ s3 h3 => ?_
      obtain ⟨L, L', a, b, c, d⟩ := h3.lists
      exact ⟨h3.pts, L, L', a, b.own, d, c.kept, c.total⟩)
  exact ⟨N, fun fuel hf s hs => by have := h fuel hf () s hs; split at this <;> simp_all⟩

/-! ## C44 -/

/-- **C44.** After any history of calls, when the fourth stage of the topology correction ends, it has only removed rings
without area, and all the remaining rings have an area and form trees: a ring without parent is positively oriented; any
other ring has the other orientation than its parent, which is not removed, and lies in it as far as its vertices tell
(`VertexInside`); no ring is an ancestor of itself. -/
theorem C44_tree :
    ∃ N, ∀ fuel, N ≤ fuel → ∀ s b,
      (do sweeps w.minimums op sf cf; orientStage; correctCollinearEdges; correctSelfIntersections false) (St.init fuel w.minimums.bounds) = .ok b s →
      match correctTree s with
      | .ok _ s' => SamePoints s s' ∧ ∃ lists lists', Rings s lists ∧ Rings s' lists'
          ∧ (∀ r, lists' r = lists r ∨ lists' r = [] ∧ area2 (pointsOf s.nodes (lists r)) = 0)
          ∧ (∀ r, (pointsOf s'.nodes (lists' r)).Nodup)
          ∧ ∀ r, lists' r ≠ [] → area2 (pointsOf s'.nodes (lists' r)) ≠ 0
            ∧ (match (s'.rings r).parent with
              | none => 0 < area2 (pointsOf s'.nodes (lists' r))
              | some p => lists' p ≠ [] ∧ (0 < area2 (pointsOf s'.nodes (lists' r)) ↔ ¬ 0 < area2 (pointsOf s'.nodes (lists' p)))
                  ∧ VertexInside (pointsOf s'.nodes (lists' r)) (pointsOf s'.nodes (lists' p)))
            ∧ ¬ Ancestor (fun r => (s'.rings r).parent) r r
      | .err e _ => e = .runtime "Could not find a point within the polygon to test"
          ∨ e = .runtime "Could not properly place hole to a parent" := by
  obtain ⟨N, h⟩ := Tot.stage (m := do sweeps w.minimums op sf cf; orientStage; correctCollinearEdges; correctSelfIntersections false) (f := correctTree) (E := Unplaced)
      (P := fun s _ s' => SamePoints s s' ∧ ∃ lists lists', Rings s lists ∧ Rings s' lists'
          ∧ (∀ r, lists' r = lists r ∨ lists' r = [] ∧ area2 (pointsOf s.nodes (lists r)) = 0)
          ∧ (∀ r, (pointsOf s'.nodes (lists' r)).Nodup)
          ∧ ∀ r, lists' r ≠ [] → area2 (pointsOf s'.nodes (lists' r)) ≠ 0
            ∧ (match (s'.rings r).parent with
              | none => 0 < area2 (pointsOf s'.nodes (lists' r))
              | some p => lists' p ≠ [] ∧ (0 < area2 (pointsOf s'.nodes (lists' r)) ↔ ¬ 0 < area2 (pointsOf s'.nodes (lists' p)))
                  ∧ VertexInside (pointsOf s'.nodes (lists' r)) (pointsOf s'.nodes (lists' p)))
            ∧ ¬ Ancestor (fun r => (s'.rings r).parent) r r) (s0 := St.init 0 w.minimums.bounds) (fun _ _ _ _ h => h) (by
      refine Tot.bind ((sweeps_swept op sf cf hw hfit).imp fun _ s h => ?_)
      refine Tot.bind ((Ends.tot (E := fun _ => False) (ends_orientStage h) nofun).imp fun _ s1 h1 => ?_)
      refine Tot.bind ((Ends.tot (E := fun _ => False) (ends_collinearStage h1) nofun).imp fun _ s2 h2 => ?_)
      refine (Ends.tot (E := fun _ => False) (ends_selfStage h2) nofun).imp fun _ s3 h3 => (ends_treeStage h3).imp fun _ s4 h4 => ?_
      obtain ⟨L, L', order, a1, a2, a3, a4, a5, a6, a7, a8⟩ := h4.lists
      have hnd : order.Nodup := a7.nodup_iff.2 List.nodup_range
      have hin : ∀ r, L' r ≠ [] → r ∈ order := fun r hr => a7.mem_iff.2 (List.mem_range.2 (a2.own.cycle r hr).1)
      refine ⟨h4.pts, L, L', a1, a2.own, a4.kept, a6, fun r hr => ?_⟩
      obtain ⟨A, B, e, hs⟩ := a8.seat (hin r hr) hr
      refine ⟨hs.area, ?_, fun hanc => ?_⟩
      · split
        · next hp =>
          have := hs.top hp
          rw [a2.hole a3 hr] at this
          simpa using this
        · next p hp =>
          obtain ⟨b1, b2, b3, b4⟩ := hs.sub p hp
          rw [a2.hole a3 hr, a2.hole a3 b2] at b3
          refine ⟨b2, ?_, b4⟩
          have b3 : ¬ (area2 (pointsOf s4.nodes (L' r)) ≤ 0 ↔ area2 (pointsOf s4.nodes (L' p)) ≤ 0) := fun q => b3 (by simp only [q])
          constructor
          · intro q1 q2; exact b3 ⟨fun _ => by omega, fun _ => by omega⟩
          · intro q1; by_contra q2; exact b3 ⟨fun _ => by omega, fun _ => by omega⟩
      · have key : ∀ r q, Ancestor (fun r => (s4.rings r).parent) r q → L' r ≠ [] → order.idxOf r < order.idxOf q := by
          intro r q hq
          induction hq with
          | parent hp => intro hr; exact a8.rank hnd (hin _ hr) hr hp
          | further hp _ ih =>
            intro hr
            obtain ⟨A, B, e, hs⟩ := a8.seat (hin _ hr) hr
            exact (a8.rank hnd (hin _ hr) hr hp).trans (ih (hs.sub _ hp).2.1)
        exact Nat.lt_irrefl _ (key r r hanc hr))
  exact ⟨N, fun fuel hf s b hs => by
    have := h fuel hf b s hs
    split at this <;> simp_all [Unplaced]⟩

end

/-! ## The hypotheses are met -/

/-- A square, and two triangles of one ring that touch. -/
def touchingHistory : List Call :=
  [.execute .union .evenOdd .nonZero, .addPolygon [[⟨0, 0⟩, ⟨12, 0⟩, ⟨12, 12⟩, ⟨0, 12⟩, ⟨0, 0⟩]] .subject,
    .addLinearRing [⟨1, 1⟩, ⟨5, 5⟩, ⟨9, 1⟩, ⟨9, 9⟩, ⟨5, 5⟩, ⟨1, 9⟩, ⟨1, 1⟩] .clip]

/-- The hypotheses hold, all the stages of the difference end; the sweeps make four rings, one of which visits a position twice
and is split (the result of the third stage is `True`), and the last stage finds the two holes in the ring `0`. -/
example : (∀ ring ∈ heldRings touchingHistory, RingFits 60 ring)
    ∧ (match sweeps ((Wagyu.new false).calls 60 touchingHistory).1.minimums .difference .evenOdd .evenOdd
          (St.init 60 ((Wagyu.new false).calls 60 touchingHistory).1.minimums.bounds) with
      | .ok _ s => match (do orientStage; correctCollinearEdges; correctSelfIntersections false : M Bool) s with
        | .ok b s' => match correctTree s' with
          | .ok _ t => decide (b = true ∧ s.nr = 4 ∧ t.nr = 5 ∧ ((List.range 5).filterMap fun r => if (t.rings r).node.isSome then some (r, (t.rings r).parent) else none)
              = [(0, none), (2, some 0), (4, some 0)])
          | .err _ _ => false
        | .err _ _ => false
      | .err _ _ => false) = true := by
  unfold RingFits
  refine ⟨?_, ?_⟩ <;> decide +kernel

end Wagyu
