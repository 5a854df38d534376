import Verif.Model.Inspect
import Verif.Model.Wagyu
import Verif.Props.PointNodes
import Verif.Spec.OwnRings

/-!
# C55: rings hold, and show, the points they are made of
-/

namespace Wagyu

open Spec

theorem pointsOfNodes_run (s : St) : ∀ l, pointsOfNodes l s = .ok (pointsOf s.nodes l) s
  | [] => rfl
  | i :: l => by
    unfold pointsOfNodes
    simp only [run_bind, run_pointOf, pointsOfNodes_run s l]
    rfl

theorem maybePoints_run {s : St} {a : Nat} {t : List Nat} (hl : IsCycle s.nodes (a :: t)) (hf : t.length < s.fuel) :
    maybePointNodeToPoints (some a) s = .ok (pointsOf s.nodes (a :: t)) s := by
  unfold maybePointNodeToPoints
  simp only [run_bind, nodesFrom_run hl hf, pointsOfNodes_run]

/-- A chain of nodes of the ring under construction: the nodes are new and the older ones are as before. -/
structure Building (s0 s : St) (r : Nat) (l : List Nat) (ps : List Point) : Prop where
  cycle : IsCycle s.nodes l
  points : pointsOf s.nodes l = ps
  old : ∀ i < s0.nn, s.nodes i = s0.nodes i
  le : s0.nn ≤ s.nn
  own : ∀ i ∈ l, s0.nn ≤ i ∧ i < s.nn ∧ (s.nodes i).ring = some r
  rest : { s with nodes := s0.nodes, nn := s0.nn } = s0

theorem building_loop (s0 : St) (r : Nat) : ∀ (points : List Point) (s : St) (a : Nat) (t : List Nat) (ps : List Point),
    Building s0 s r (a :: t) ps → ∃ b t' s', nodeFromRingPointsLoop r a points s = .ok b s' ∧ Building s0 s' r (b :: t') (points.reverse ++ ps) := by
  intro points
  induction points with
  | nil => intro s a t ps h; exact ⟨a, t, s, rfl, h⟩
  | cons p points ih =>
    intro s a t ps h
    let s1 : St := { s with
      nodes := putRing (upd s.nodes s.nn { x := p.x, y := p.y, prev := some s.nn, next := some s.nn, ring := none }) s.nn (some r)
      nn := s.nn + 1 }
    have same : ∀ i, i ≠ s.nn → s1.nodes i = s.nodes i := by
      intro i hi
      show putRing (upd s.nodes s.nn _) s.nn (some r) i = _
      unfold putRing upd
      simp [hi]
    have new : s1.nodes s.nn = { x := p.x, y := p.y, prev := some s.nn, next := some s.nn, ring := some r } := by
      show putRing (upd s.nodes s.nn _) s.nn (some r) s.nn = _
      unfold putRing upd
      simp
    have fresh : s.nn ∉ a :: t := fun hm => absurd (h.own _ hm).2.1 (lt_irrefl _)
    have hc : IsCycle s1.nodes (a :: t) := IsCycle_congr h.cycle fun i hi => by
      rw [same i fun e => fresh (e ▸ hi)]; exact ⟨rfl, rfl⟩
    obtain ⟨last, h1, h2, h3⟩ := isCycle_placed hc fresh
    let s2 : St := { s1 with nodes := placed s1.nodes s.nn a last }
    have run : placeBefore s.nn a s1 = .ok () s2 := placeBefore_run h1
    have h3 : OnlyLinksOf (a :: t ++ [s.nn]) s1.nodes s2.nodes := h3
    have hb : Building s0 s2 r (s.nn :: a :: t) (p :: ps) := by
      have loc : ∀ i, locOf s2.nodes i = locOf s1.nodes i := fun i => by unfold locOf; rw [(h3.1 i).1, (h3.1 i).2.1]
      refine ⟨isCycle_append_comm (l₁ := a :: t) (l₂ := [s.nn]) h2, ?_, ?_, ?_, ?_, ?_⟩
      · unfold pointsOf
        rw [List.map_cons]
        congr 1
        · rw [loc]; unfold locOf; rw [new]
        · rw [← h.points]
          unfold pointsOf
          refine List.map_congr_left fun i hi => ?_
          rw [loc]
          unfold locOf
          rw [same i fun e => fresh (e ▸ hi)]
      · intro i hi
        have hle := h.le
        rw [h3.2 i, same i (by omega), h.old i hi]
        intro hm
        rcases List.mem_append.1 hm with hm | hm
        · exact absurd (h.own i hm).1 (by omega)
        · have := List.mem_singleton.1 hm; omega
      · show s0.nn ≤ s.nn + 1
        have := h.le
        omega
      · intro i hi
        show s0.nn ≤ i ∧ i < s.nn + 1 ∧ (s2.nodes i).ring = some r
        rw [(h3.1 i).2.2]
        rcases List.mem_cons.1 hi with rfl | hi
        · rw [new]; exact ⟨h.le, by omega, rfl⟩
        · rw [same i fun e => fresh (e ▸ hi)]
          exact ⟨(h.own i hi).1, by have := (h.own i hi).2.1; omega, (h.own i hi).2.2⟩
      · exact h.rest
    obtain ⟨b, t', s', h4, h5⟩ := ih s2 s.nn (a :: t) (p :: ps) hb
    refine ⟨b, t', s', ?_, ?_⟩
    · rw [← h4]
      rw [nodeFromRingPointsLoop]
      unfold newPointNode
      simp only [run_bind, run_gets, run_modify, run_setNodeRing, run_pure]
      rw [show placeBefore s.nn a _ = .ok () s2 from run]
    · rw [List.reverse_cons, List.append_assoc]
      exact h5

theorem building_node (s0 : St) (r : Nat) (points : List Point) (hne : points ≠ []) :
    ∃ b t s', nodeFromRingPoints points r s0 = .ok b s' ∧ Building s0 s' r (b :: t) points := by
  unfold nodeFromRingPoints
  obtain ⟨p, ps, h⟩ : ∃ p ps, points.reverse = p :: ps := by
    cases h : points.reverse with
    | nil => exact absurd (List.reverse_eq_nil_iff.1 h) hne
    | cons p ps => exact ⟨p, ps, rfl⟩
  have h' : points = ps.reverse ++ [p] := by rw [← List.reverse_reverse points, h, List.reverse_cons]
  rw [h]
  dsimp only
  unfold newPointNode
  simp only [run_bind, run_gets, run_modify, run_setNodeRing, run_pure]
  rw [h']
  refine building_loop s0 r ps _ _ [] [p] ?_
  refine ⟨?_, ?_, ?_, ?_, ?_, rfl⟩
  · refine ⟨by simp, ?_⟩
    simp [Link, putRing, upd]
  · simp [pointsOf, locOf, putRing, upd]
  · intro i hi
    have : i ≠ s0.nn := by omega
    simp [putRing, upd, this]
  · show s0.nn ≤ s0.nn + 1
    omega
  · intro i hi
    obtain rfl := List.mem_singleton.1 hi
    exact ⟨le_rfl, Nat.lt_succ_self _, by simp [putRing, upd]⟩

/-- **C55.** `Ring(points=points)`: the ring shows these points, in order, under `points`; it has their number, their area and
a tight box; older rings and point nodes are untouched. -/
theorem C55_ring_of_points (s : St) (children : List (Option Nat)) (points : List Point) (corrected : Bool) (hf : points.length ≤ s.fuel) :
    ∃ r s', newRing children points corrected s = .ok r s' ∧ ringPoints r s' = .ok points s' ∧ ringBottomPoints r s' = .ok [] s'
      ∧ (points ≠ [] → ∃ a t, (s'.rings r).node = some a ∧ IsCycle s'.nodes (a :: t) ∧ pointsOf s'.nodes (a :: t) = points
          ∧ ∀ i ∈ a :: t, (s'.nodes i).ring = some r)
      ∧ (∀ i < s.nn, s'.nodes i = s.nodes i) ∧ (∀ q < s.nr, s'.rings q = s.rings q ∧ q ≠ r) ∧ s'.fuel = s.fuel := by
  let g : Ring := { Ring.fresh with children, corrected }
  let s1 : St := { s with rings := upd s.rings s.nr g, nr := s.nr + 1 }
  have e1 : (createRing >>= fun r => modRing r fun g => { g with children, corrected }) s = .ok () s1 := by
    show Res.ok () _ = Res.ok () s1
    congr 1
    show St.mk _ _ (upd (upd s.rings s.nr Ring.fresh) s.nr _) _ _ _ _ _ _ _ _ _ = _
    congr 1
    funext i
    unfold upd
    by_cases h : i = s.nr <;> simp [h, g]
  have old : ∀ (x : Ring), ∀ q < s.nr, upd (upd s.rings s.nr g) s.nr x q = s.rings q ∧ q ≠ s.nr := by
    intro x q hq
    have : q ≠ s.nr := by omega
    simp [upd, this]
  have e2 : newRing children points corrected s = (if points = [] then (pure s.nr : M Nat) else do
      let n ← nodeFromRingPoints points s.nr
      setRingNode s.nr (some n)
      pure s.nr) s1 := by
    have : newRing children points corrected s
        = match (createRing >>= fun r => modRing r fun g => { g with children, corrected }) s with
          | .ok _ s1 => (if points = [] then (pure s.nr : M Nat) else do
              let n ← nodeFromRingPoints points s.nr
              setRingNode s.nr (some n)
              pure s.nr) s1
          | .err e s1 => .err e s1 := rfl
    rw [this, e1]
  rw [e2]
  by_cases hne : points = []
  · rw [if_pos hne]
    subst hne
    refine ⟨s.nr, s1, rfl, ?_, ?_, fun h => absurd rfl h, fun _ _ => rfl, fun q hq => ?_, rfl⟩
    · have : (s1.rings s.nr).node = none := by simp [s1, upd, g, Ring.fresh]
      unfold ringPoints
      simp only [run_bind, run_getRing, this]
      rfl
    · have : (s1.rings s.nr).bottomNode = none := by simp [s1, upd, g, Ring.fresh]
      unfold ringBottomPoints
      simp only [run_bind, run_getRing, this]
      rfl
    · have : q ≠ s.nr := by omega
      simp [s1, upd, this]
  · rw [if_neg hne]
    obtain ⟨a, t, s2, h1, h2⟩ := building_node s1 s.nr points hne
    have hr : s2.rings = s1.rings := by have := congrArg St.rings h2.rest; exact this
    have hfu : s2.fuel = s.fuel := by have := congrArg St.fuel h2.rest; exact this
    let s3 : St := { s2 with rings := upd s2.rings s.nr { s2.rings s.nr with node := some a } }
    have e3 : (do
        let n ← nodeFromRingPoints points s.nr
        setRingNode s.nr (some n)
        (pure s.nr : M Nat)) s1 = .ok s.nr s3 := by
      simp only [run_bind, h1]
      rfl
    have hn : (s3.rings s.nr).node = some a := by simp [s3, upd]
    have hlen : (a :: t).length = points.length := by rw [← h2.points]; simp [pointsOf]
    refine ⟨s.nr, s3, e3, ?_, ?_, fun _ => ⟨a, t, hn, h2.cycle, h2.points, fun i hi => (h2.own i hi).2.2⟩, h2.old, fun q hq => ?_, hfu⟩
    · unfold ringPoints
      simp only [run_bind, run_getRing, hn]
      rw [maybePoints_run (s := s3) h2.cycle (by show t.length < s2.fuel; rw [hfu]; simp at hlen; omega)]
      exact congrArg (Res.ok · s3) h2.points
    · have : (s3.rings s.nr).bottomNode = none := by simp [s3, upd, hr, s1, g, Ring.fresh]
      unfold ringBottomPoints
      simp only [run_bind, run_getRing, this]
      rfl
    · have : q ≠ s.nr := by omega
      simp [s3, upd, this, hr, s1]

/-- **C55.** The statistics of a ring made from points: their number, half their doubled shoelace area, rounded, and their tight
box. -/
theorem C55_statistics (s s' : St) (r : Nat) (children : List (Option Nat)) (points : List Point) (corrected : Bool)
    (hf : points.length ≤ s.fuel) (hne : points ≠ []) (h : newRing children points corrected s = .ok r s') :
    ∃ s'' box, recalculateStats r s' = .ok () s'' ∧ (s''.rings r).area = intDiv (area2 points) 2 ∧ (s''.rings r).size = points.length
      ∧ (s''.rings r).box = box ∧ IsTightBox box points ∧ ((s''.rings r).isHole = true ↔ area2 points ≤ 0) := by
  obtain ⟨r', s1, h1, h2, -, h3, -, -, h4⟩ := C55_ring_of_points s children points corrected hf
  rw [h] at h1
  cases h1
  obtain ⟨a, t, k1, k2, k3, -⟩ := h3 hne
  have hlen : (a :: t).length = points.length := by rw [← k3]; simp [pointsOf]
  have hfu : t.length < s'.fuel := by
    rw [h4]; simp at hlen; omega
  obtain ⟨box, b1, b2⟩ := C20_recalculate s' r a t k2 hfu k1
  rw [k3] at b1 b2
  refine ⟨_, box, b2, ?_, ?_, ?_, b1, ?_⟩ <;> simp [upd, hlen]

/-- **C55.** `reverse` keeps the first point and shows the others in the opposite order. -/
theorem C55_reverse (s : St) (r a : Nat) (t : List Nat) (hn : (s.rings r).node = some a) (hl : IsCycle s.nodes (a :: t)) (hf : t.length < s.fuel)
    (p : Point) (ps : List Point) (hp : ringPoints r s = .ok (p :: ps) s) :
    ∃ s', reverseNodes a s = .ok () s' ∧ ringPoints r s' = .ok (p :: ps.reverse) s' := by
  unfold ringPoints at hp ⊢
  simp only [run_bind, run_getRing, hn, maybePoints_run hl hf] at hp
  injection hp with hp
  obtain ⟨h', h1, h2, h3⟩ := C21_reverse s a t hl hf
  refine ⟨_, h1, ?_⟩
  simp only [run_bind, run_getRing, hn]
  rw [maybePoints_run (s := { s with nodes := h' }) h2 (by simpa using hf)]
  congr 1
  have loc : ∀ i, locOf h' i = locOf s.nodes i := fun i => by unfold locOf; rw [(h3.1 i).1, (h3.1 i).2.1]
  simp only [pointsOf, List.map_cons, List.cons.injEq, List.map_reverse, show locOf h' = locOf s.nodes from funext loc] at hp ⊢
  rw [hp.2]
  exact ⟨hp.1, rfl⟩

/-- **C55.** `all_points`: if the listed nodes are distributed over closed rings, each entry is the sequence of points of a ring,
turned so that it starts at the node; nothing is changed. -/
theorem C55_all_points (s : St) (lists : Nat → List Nat) (hd : Distributed s.nodes s.nn (fun r => (s.rings r).node) s.nr lists)
    (ha : ∀ i ∈ s.allNodes, i < s.nn) (hf : s.nn ≤ s.fuel) :
    ∃ L, allPoints s = .ok L s ∧ List.Forall₂ (fun i ps => ps.head? = some (locOf s.nodes i)
      ∧ ∃ r, i ∈ lists r ∧ ps ~r pointsOf s.nodes (lists r)) s.allNodes L := by
  unfold allPoints
  simp only [run_bind, run_gets]
  revert ha
  generalize s.allNodes = l
  intro ha
  induction l with
  | nil => exact ⟨[], rfl, .nil⟩
  | cons i l ih =>
    obtain ⟨L, h1, h2⟩ := ih fun j hj => ha j (List.mem_cons_of_mem _ hj)
    obtain ⟨r, hr⟩ := hd.all i (ha i (List.mem_cons_self ..))
    obtain ⟨u, v, huv⟩ := List.append_of_mem hr
    have hc := (hd.cycle r (List.ne_nil_of_mem hr)).2
    have hlen : (lists r).length ≤ s.nn := by
      have hnd : (lists r).Nodup := by
        cases hlr : lists r with
        | nil => exact List.nodup_nil
        | cons a t => rw [hlr] at hc; exact hc.1
      have := hnd.subperm (l₂ := List.range s.nn) fun j hj => List.mem_range.2 (hd.own r j hj).1
      simpa using this.length_le
    have hc' : IsCycle s.nodes (i :: (v ++ u)) := by
      rw [huv] at hc
      exact isCycle_append_comm hc
    have run := maybePoints_run hc' (by rw [huv] at hlen; simp at hlen ⊢; omega)
    refine ⟨pointsOf s.nodes (i :: (v ++ u)) :: L, ?_, .cons ⟨rfl, r, hr, ?_⟩ h2⟩
    · unfold pointsOfAll
      simp only [run_bind, run, h1]
      rfl
    · rw [huv]
      unfold pointsOf
      refine List.IsRotated.map ?_ _
      exact List.isRotated_append (l := i :: v) (l' := u)

/-! ## Concrete cases -/

/-- A square, made into a ring, read, reversed and read again. -/
example : (match newRing [] [⟨0, 0⟩, ⟨4, 0⟩, ⟨4, 4⟩, ⟨0, 4⟩] false (St.init 10 fun _ => default) with
    | .ok r s => match ringPoints r s with
      | .ok ps s => match reverseNodes 3 s with
        | .ok _ s => match ringPoints r s with
          | .ok ps' _ => some ((s.rings r).node, ps, ps')
          | .err _ _ => none
        | .err _ _ => none
      | .err _ _ => none
    | .err _ _ => none)
    = some (some 3, [⟨0, 0⟩, ⟨4, 0⟩, ⟨4, 4⟩, ⟨0, 4⟩], [⟨0, 0⟩, ⟨0, 4⟩, ⟨4, 4⟩, ⟨4, 0⟩]) := by decide +kernel

/-- A state with one ring of two points. -/
def inspected : St :=
  { St.init 10 fun _ => default with
    nodes := fun i => if i = 0 then ⟨0, 0, some 1, some 1, some 0⟩ else ⟨3, 0, some 0, some 0, some 0⟩
    nn := 2
    rings := fun r => if r = 0 then { Ring.fresh with node := some 0 } else Ring.fresh
    nr := 1
    allNodes := [0, 1] }

/-- It meets the hypotheses of `C55_all_points`. -/
example : Distributed inspected.nodes inspected.nn (fun r => (inspected.rings r).node) inspected.nr (fun r => if r = 0 then [0, 1] else [])
    ∧ (∀ i ∈ inspected.allNodes, i < inspected.nn) ∧ inspected.nn ≤ inspected.fuel
    ∧ (match allPoints inspected with | .ok L _ => some L | .err _ _ => none) = some [[⟨0, 0⟩, ⟨3, 0⟩], [⟨3, 0⟩, ⟨0, 0⟩]] := by
  refine ⟨⟨fun r => ?_, fun r hr => ?_, fun r i hi => ?_, fun i hi => ⟨0, ?_⟩⟩, by decide, by decide, by decide +kernel⟩
  · by_cases h : r = 0 <;> simp [inspected, h, Ring.fresh]
  · by_cases h : r = 0
    · subst h
      refine ⟨by decide, ?_⟩
      simp [IsCycle, Link, inspected]
    · simp [h] at hr
  · by_cases h : r = 0
    · subst h
      rcases (by simpa using hi : i = 0 ∨ i = 1) with rfl | rfl <;> simp [inspected]
    · simp [h] at hi
  · have : i < 2 := hi
    simp; omega

end Wagyu
