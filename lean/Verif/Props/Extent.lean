import Verif.Proofs.KeepVatti
import Verif.Proofs.Stored

/-!
# C35: where the vertices of a result come from
-/

namespace Wagyu

/-- The vertices of a result. -/
def Multipolygon.vertices (result : Multipolygon) : List Point := result.flatten.flatten

theorem vertices_iff {result : Multipolygon} {V : Point → Prop} (h : ∀ poly ∈ result, ∀ lr ∈ poly, ∀ p ∈ lr, V p) :
    ∀ p ∈ result.vertices, V p := by
  intro p hp
  obtain ⟨lr, hlr, hp⟩ := List.mem_flatten.1 hp
  obtain ⟨poly, hpoly, hlr⟩ := List.mem_flatten.1 hlr
  exact h poly hpoly lr hlr p hp

/-- The state in which the sweep starts, for an object whose points lie between two rows. -/
theorem start_rows {fuel : Nat} {w : Wagyu} {lo hi : Int}
    (hm : MInv (fun x => |x| ≤ 2 ^ 52) (fun y => InR lo hi y ∧ |y| ≤ 2 ^ 52) w.minimums) :
    RowInv lo hi (St.init fuel w.minimums.bounds) ∧ (∀ y ∈ w.minimums.scanbeams, InR lo hi y)
      ∧ (w.minimums.values ≠ [] → w.minimums.scanbeams ≠ []) := by
  refine ⟨⟨⟨0, rfl, fun i hi => absurd hi (Nat.not_lt_zero i), fun r => ⟨VN.none, VN.none⟩, by simp [St.init]⟩, ?_,
    by simp [St.init], by simp [St.init]⟩, ?_, ?_⟩
  · intro b e he
    obtain ⟨⟨h1, h2, h3⟩, h4, h5, h6⟩ := hm.edges b e he
    exact ⟨h2, h5, h1, h3, h4, h6⟩
  · intro y hy
    obtain ⟨v, hv, rfl⟩ := List.mem_map.1 ((pySorted_perm' _ _).mem_iff.1 hy)
    exact (hm.mins v hv).1
  · intro hv hs
    have := (pySorted_perm' (fun a b : Int => decide (a < b)) (w.minimums.values.map LocalMinimum.y)).length_eq
    unfold Minimums.scanbeams at hs
    rw [hs] at this
    simp at this
    exact hv (List.length_eq_zero_iff.1 this.symm)

/-- Between two rows, coordinates up to `2 ^ 52`. -/
def Ring.Within (lo hi : Int) (ring : LinearRing) : Prop :=
  ∀ p ∈ ring, lo ≤ p.y ∧ p.y ≤ hi ∧ |p.x| ≤ 2 ^ 52 ∧ |p.y| ≤ 2 ^ 52

theorem held_within {fuel : Nat} {rev : Bool} {before : List Call} {lo hi : Int}
    (hheld : ∀ ring ∈ heldRings before, Ring.Within lo hi ring) :
    MInv (fun x => |x| ≤ 2 ^ 52) (fun y => InR lo hi y ∧ |y| ≤ 2 ^ 52) ((Wagyu.new rev).calls fuel before).1.minimums :=
  calls_xy fuel before (Wagyu.new rev) [] (fun _ => MInv.empty)
    fun ring hr p hp => by obtain ⟨a, b, c, d⟩ := hheld ring hr p hp; exact ⟨c, ⟨a, b⟩, d⟩

/-- **C35.** Every vertex of every result lies between the rows that contain all points of the rings the object holds
(coordinates up to `2 ^ 52`), after any history of calls. -/
theorem C35_vertical_extent (fuel : Nat) (rev : Bool) (before : List Call) (op : OperationKind) (sf cf : FillKind)
    (w' : Wagyu) (result : Multipolygon) (lo hi : Int) (hheld : ∀ ring ∈ heldRings before, Ring.Within lo hi ring)
    (hrun : ((Wagyu.new rev).calls fuel before).1.execute fuel op sf cf = (w', .ok result)) :
    ∀ p ∈ result.vertices, lo ≤ p.y ∧ p.y ≤ hi := by
  have hm := held_within (fuel := fuel) (rev := rev) hheld
  generalize ((Wagyu.new rev).calls fuel before).1 = w at hm hrun
  obtain ⟨h0, hscan, hsne⟩ := start_rows (fuel := fuel) hm
  unfold Wagyu.execute at hrun
  split at hrun
  · cases hrun; simp [Multipolygon.vertices]
  · next hne =>
    split at hrun
    · next a s e =>
      cases hrun
      have hall : Ok (runOperation w.minimums w.reverseOutput op sf cf) (St.init fuel w.minimums.bounds)
          fun mp _ => ∀ poly ∈ mp, ∀ lr ∈ poly, ∀ p ∈ lr, InR lo hi p.y := by
        unfold runOperation
        refine Post.bind ((buildHotPixels_rows h0 hscan hsne).imp fun _ s1 h1 => ?_)
        refine Post.bind ((executeVatti_rows h1 hscan hsne).imp fun _ s2 h2 => ?_)
        obtain ⟨n, h2⟩ := h2.heap
        refine Post.bind ((keep_correctTopology.run s2 h2).imp fun _ s3 h3 => ?_)
        exact (keep_buildResult.run s3 h3.1).imp fun mp s4 h4 => h4.2
      exact vertices_iff (hall.elim e)
    · cases hrun

/-- All references to nodes point to existing nodes. -/
structure References (s : St) : Prop where
  links : ∀ i, i < s.nn → (∀ j, (s.nodes i).next = some j → j < s.nn) ∧ ∀ j, (s.nodes i).prev = some j → j < s.nn
  rings : ∀ r, (∀ j, (s.rings r).node = some j → j < s.nn) ∧ ∀ j, (s.rings r).bottomNode = some j → j < s.nn
  all : ∀ i ∈ s.allNodes, i < s.nn

/-- **C35.** Correcting the topology and building the result invent no vertex: every vertex of the result is the position
of a node that existed before. -/
theorem C35_topology_invents_no_vertex (rev : Bool) (s s' : St) (result : Multipolygon) (hs : References s)
    (h : (correctTopology >>= fun _ => buildResult rev) s = .ok result s') :
    ∀ p ∈ result.vertices, ∃ i, i < s.nn ∧ p = ⟨(s.nodes i).x, (s.nodes i).y⟩ := by
  have h0 : HInv (fun p => ∃ i, i < s.nn ∧ p = ⟨(s.nodes i).x, (s.nodes i).y⟩) s.nn s :=
    ⟨rfl, fun i hi => ⟨⟨i, hi, rfl⟩, hs.links i hi⟩, hs.rings, hs.all⟩
  have hall : Ok (correctTopology >>= fun _ => buildResult rev) s
      fun mp _ => ∀ poly ∈ mp, ∀ lr ∈ poly, ∀ p ∈ lr, ∃ i, i < s.nn ∧ p = ⟨(s.nodes i).x, (s.nodes i).y⟩ := by
    refine Post.bind ((keep_correctTopology.run s h0).imp fun _ s3 h3 => ?_)
    exact (keep_buildResult.run s3 h3.1).imp fun mp s4 h4 => h4.2
  exact vertices_iff (hall.elim h)

/-- The two sweeps of an operation (wagyu.py:91-93). -/
def sweeps (m : Minimums) (op : OperationKind) (sf cf : FillKind) : M Unit := do
  buildHotPixels m.values m.scanbeams
  executeVatti op sf cf m.values m.scanbeams

/-- **C35.** The same, for whole operations: every vertex of a result is the position of a node that the sweeps have
created, before topology correction began (coordinates up to `2 ^ 52`). -/
theorem C35_vertices_come_from_the_sweep (fuel : Nat) (rev : Bool) (before : List Call) (op : OperationKind)
    (sf cf : FillKind) (w w' : Wagyu) (result : Multipolygon)
    (hheld : ∀ ring ∈ heldRings before, ∀ p ∈ ring, |p.x| ≤ 2 ^ 52 ∧ |p.y| ≤ 2 ^ 52)
    (hw : ((Wagyu.new rev).calls fuel before).1 = w) (hne : w.minimums.values ≠ [])
    (hrun : w.execute fuel op sf cf = (w', .ok result)) :
    ∃ s s', sweeps w.minimums op sf cf (St.init fuel w.minimums.bounds) = .ok () s
      ∧ (correctTopology >>= fun _ => buildResult w.reverseOutput) s = .ok result s'
      ∧ References s ∧ ∀ p ∈ result.vertices, ∃ i, i < s.nn ∧ p = ⟨(s.nodes i).x, (s.nodes i).y⟩ := by
  have hm := held_within (fuel := fuel) (rev := rev) (before := before) (lo := -2 ^ 52) (hi := 2 ^ 52) fun ring hr p hp => by
    obtain ⟨h1, h2⟩ := hheld ring hr p hp
    exact ⟨(abs_le.1 h2).1, (abs_le.1 h2).2, h1, h2⟩
  rw [hw] at hm
  obtain ⟨h0, hscan, hsne⟩ := start_rows (fuel := fuel) hm
  unfold Wagyu.execute at hrun
  rw [if_neg hne] at hrun
  split at hrun
  · next a s' e =>
    cases hrun
    unfold runOperation at e
    have hw : Ok (sweeps w.minimums op sf cf) (St.init fuel w.minimums.bounds) fun _ s => RowInv (-2 ^ 52) (2 ^ 52) s := by
      unfold sweeps
      refine Post.bind ((buildHotPixels_rows h0 hscan hsne).imp fun _ s1 h1 => ?_)
      exact executeVatti_rows h1 hscan hsne
    cases e1 : sweeps w.minimums op sf cf (St.init fuel w.minimums.bounds) with
    | err x s =>
      unfold sweeps at e1
      rw [run_bind] at e e1
      split at e
      · next h1 =>
        rw [h1] at e1
        simp only at e1
        rw [run_bind, e1] at e
        cases e
      · cases e
    | ok x s =>
      have h2 := hw.elim e1
      have e2 : (correctTopology >>= fun _ => buildResult w.reverseOutput) s = .ok result s' := by
        unfold sweeps at e1
        rw [run_bind] at e e1
        split at e
        · next h1 =>
          rw [h1] at e1
          simp only at e1
          rw [run_bind, e1] at e
          exact e
        · cases e
      have hr : References s := by
        obtain ⟨n, h⟩ := h2.heap
        have hn := h.nn
        subst hn
        exact ⟨fun i hi => (h.nodes i hi).2, h.rings, h.all⟩
      exact ⟨s, s', rfl, e2, hr, C35_topology_invents_no_vertex _ s s' result hr e2⟩
  · cases hrun

/-- Two overlapping triangles, after an operation and a `clear()`: the hypotheses of the theorems above hold, and the
result has vertices. -/
def twoTrianglesHistory : List Call :=
  [.addLinearRing [⟨9, 9⟩, ⟨40, 9⟩, ⟨9, 40⟩, ⟨9, 9⟩] .subject, .execute .union .evenOdd .nonZero, .clear,
    .addLinearRing [⟨0, 0⟩, ⟨4, 0⟩, ⟨0, 4⟩, ⟨0, 0⟩] .subject, .addPolygon [[⟨1, 1⟩, ⟨5, 1⟩, ⟨1, 5⟩, ⟨1, 1⟩]] .clip,
    .execute .union .evenOdd .evenOdd]

theorem twoTrianglesHistory_result :
    ((((Wagyu.new false).calls 60 twoTrianglesHistory).1.execute 60 .intersection .evenOdd .evenOdd).2.toOption
      = some [[[⟨3, 1⟩, ⟨1, 3⟩, ⟨1, 1⟩, ⟨3, 1⟩]]]) := by decide +kernel

example : (∀ ring ∈ heldRings twoTrianglesHistory, Ring.Within 0 5 ring)
    ∧ ((Wagyu.new false).calls 60 twoTrianglesHistory).1.minimums.values ≠ [] := by
  refine ⟨?_, by decide +kernel⟩
  unfold Ring.Within
  decide +kernel

end Wagyu
