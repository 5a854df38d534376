import Verif.Proofs.KeepBox
import Verif.Proofs.StoredEdges
import Verif.Props.Extent
import Verif.Props.Floats

/-!
# C51: every vertex of a result is made of the corners and edges of the rings held
-/

namespace Wagyu

open Spec

/-- `e` is one of the edges that `wagyu` extracts from a ring (C14), a horizontal one possibly reversed. -/
def HeldEdge (fuel : Nat) (held : List LinearRing) (e : Edge) : Prop :=
  ∃ ring ∈ held, ∃ es, edgesOf fuel ring = .ok es ∧ ∃ f ∈ es, SameEdge e f

/-- `p` is a corner of one of the rings. -/
def HeldCorner (held : List LinearRing) (p : Point) : Prop := ∃ ring ∈ held, p ∈ ring

/-- Where a vertex comes from. -/
inductive Provenance (fuel : Nat) (held : List LinearRing) (p : Point) : Prop
  /-- It is a corner of one of the rings, or has the row of one corner and the column of another. -/
  | grid (a b : Point) : HeldCorner held a → HeldCorner held b → p = ⟨a.x, b.y⟩ → Provenance fuel held p
  /-- It is the rounded crossing of two edges. -/
  | crossing (e f : Edge) (q : FPoint) : HeldEdge fuel held e → HeldEdge fuel held f → e.and f = some q → q.round = .ok p →
      Provenance fuel held p
  /-- It is the rounded point of an edge on the row of a corner. -/
  | onEdge (e : Edge) (c : Point) : HeldEdge fuel held e → HeldCorner held c → p.y = c.y →
      roundHalfUp (e.getCurrentX p.y) = some p.x → Provenance fuel held p

theorem reverseHorizontal_flat {f : Edge} (h : f.bottom.y = f.top.y) : f.reverseHorizontal = { f with bottom := f.top, top := f.bottom } := by
  unfold Edge.reverseHorizontal
  obtain ⟨⟨a, b⟩, ⟨c, d⟩, sl⟩ := f
  simp only at h
  subst h
  rfl

section
variable {fuel : Nat} {held : List LinearRing}

theorem HeldEdge.origin (hfit : ∀ ring ∈ held, RingFits fuel ring) {e : Edge} (h : HeldEdge fuel held e) :
    HeldCorner held e.bottom ∧ HeldCorner held e.top ∧ (e.isHorizontal = true ↔ e.bottom.y = e.top.y) := by
  obtain ⟨ring, hr, es, h1, f, hf, h2⟩ := h
  obtain ⟨es', h1', -, h3, -⟩ := C14_edges ring fuel (hfit ring hr).1
  rw [h1] at h1'
  cases h1'
  obtain ⟨a, b, c, d⟩ := h3 f hf
  have ho : NoOverflow f.bottom f.top := noOverflow_of_bounded ((hfit ring hr).2 _ a).1 ((hfit ring hr).2 _ b).1
  have hh : f.isHorizontal = true ↔ f.bottom.y = f.top.y := by
    have := C30_horizontal_iff _ _ ho
    rwa [← d] at this
  rcases h2 with rfl | ⟨h4, rfl⟩
  · exact ⟨⟨ring, hr, a⟩, ⟨ring, hr, b⟩, hh⟩
  · exact ⟨⟨ring, hr, b⟩, ⟨ring, hr, a⟩, hh.trans eq_comm⟩

theorem heldEdge_flip (hfit : ∀ ring ∈ held, RingFits fuel ring) : HFlip (HeldEdge fuel held) := by
  constructor
  intro e he hh
  have hy := (he.origin hfit).2.2.1 hh
  rw [reverseHorizontal_flat hy]
  obtain ⟨ring, hr, es, h1, f, hf, h2⟩ := he
  refine ⟨ring, hr, es, h1, f, hf, ?_⟩
  rcases h2 with rfl | ⟨h4, rfl⟩
  · exact .inr ⟨hy, rfl⟩
  · exact .inl rfl

theorem round_int {n r : ℤ} {x : F64} (hn : |n| ≤ 2 ^ 52) (hx : x = .ofInt n ∨ x = .floatOfInt n) (h : roundHalfUp x = some r) : r = n := by
  have hx : x = .fin n := by
    rcases hx with rfl | rfl
    · rfl
    · exact fl_int (hn.trans (by norm_num))
  subst hx
  have := C17_keeps_interval (n : ℚ) n n r le_rfl le_rfl (.inl h)
  omega

/-- The current x of a bound on the row `y`. -/
def HeldX (fuel : Nat) (held : List LinearRing) (y : Int) (x : F64) : Prop :=
  (∃ e, HeldEdge fuel held e ∧ x = e.getCurrentX y) ∨ ∃ a, HeldCorner held a ∧ (x = .ofInt a.x ∨ x = .floatOfInt a.x)

/-- A row through a corner. -/
def HeldRow (held : List LinearRing) (y : Int) : Prop := ∃ c, HeldCorner held c ∧ c.y = y

theorem provenance_vrule (hfit : ∀ ring ∈ held, RingFits fuel ring) :
    VRule (Provenance fuel held) (HeldEdge fuel held) (HeldRow held) where
  bot h := .grid _ _ (h.origin hfit).1 (h.origin hfit).1 rfl
  top h := .grid _ _ (h.origin hfit).2.1 (h.origin hfit).2.1 rfl
  row h := ⟨_, (h.origin hfit).2.1, rfl⟩
  meet h k h1 h2 := .crossing _ _ _ h k h1 h2

theorem provenance_xrule (hfit : ∀ ring ∈ held, RingFits fuel ring) {y : Int} (hy : HeldRow held y) :
    XRule (Provenance fuel held) (HeldEdge fuel held) (HeldX fuel held y) y where
  start h := .inr ⟨_, (h.origin hfit).1, .inl rfl⟩
  start' h := .inr ⟨_, (h.origin hfit).1, .inr rfl⟩
  stop h := .inr ⟨_, (h.origin hfit).2.1, .inl rfl⟩
  round := by
    intro x r hx hr
    obtain ⟨c, hc, hcy⟩ := hy
    rcases hx with ⟨e, he, rfl⟩ | ⟨a, ⟨ring, hring, ha⟩, hx⟩
    · exact .onEdge e c he hc hcy.symm hr
    · have := round_int ((hfit ring hring).2 a ha).1 hx hr
      exact .grid a c ⟨ring, hring, ha⟩ hc (by rw [this, hcy])

end

/-- The state in which the sweeps start. -/
theorem start_box {fuel : Nat} {rev : Bool} {before : List Call} {w : Wagyu} (hw : ((Wagyu.new rev).calls fuel before).1 = w)
    (hfit : ∀ ring ∈ heldRings before, RingFits fuel ring) {V : Point → Prop} :
    BS V (HeldEdge fuel (heldRings before)) (HeldRow (heldRings before)) w.minimums.values (St.init fuel w.minimums.bounds)
      ∧ (∀ y ∈ w.minimums.scanbeams, HeldRow (heldRings before) y) ∧ (w.minimums.values ≠ [] → w.minimums.scanbeams ≠ []) := by
  have := heldEdge_flip hfit
  have hq : QInv (HeldEdge fuel (heldRings before)) w.minimums := by
    rw [← hw]
    refine calls_q fuel before (Wagyu.new rev) [] (fun _ => ⟨by simp [Wagyu.new, Minimums.empty, Bound.ofEdges]⟩) fun ring hr es hes e he => ?_
    exact ⟨ring, hr, es, hes, e, he, .inl rfl⟩
  have h1 : InputOk w.minimums := by
    rw [← hw]
    exact calls_input fuel before (Wagyu.new rev) [] (fun _ => InputOk.empty) hfit
  refine ⟨⟨⟨0, rfl, fun i hi => absurd hi (Nat.not_lt_zero i), fun r => ⟨VN.none, VN.none⟩, by simp [St.init]⟩, hq.edges,
    by simp [St.init], by simp [St.init], fun m hm => ⟨(h1.mins m hm).left.ne, (h1.mins m hm).right.ne⟩⟩, ?_, ?_⟩
  · intro y hy
    obtain ⟨v, hv, rfl⟩ := List.mem_map.1 ((pySorted_perm' _ _).mem_iff.1 hy)
    obtain ⟨p, h2, -, h3⟩ := (h1.mins v hv).start
    obtain ⟨e, l, he, -⟩ := (h1.mins v hv).rises
    rw [he] at h2
    cases h2
    exact ⟨_, ((hq.edges v.left e (by rw [he]; simp)).origin hfit).1, h3⟩
  · intro hv hs
    have := (pySorted_perm' (fun a b : Int => decide (a < b)) (w.minimums.values.map LocalMinimum.y)).length_eq
    unfold Minimums.scanbeams at hs
    rw [hs] at this
    simp at this
    exact hv (List.length_eq_zero_iff.1 this.symm)

/-- **C51.** After any history of calls (coordinates up to `2 ^ 52`), every vertex of every result is made of the corners
and edges of the rings the object holds: it has the row of a corner and the column of a corner, or is the rounded crossing of
two edges, or the rounded point of an edge on the row of a corner. -/
theorem C51_provenance (fuel : Nat) (rev : Bool) (before : List Call) (op : OperationKind) (sf cf : FillKind)
    (w' : Wagyu) (result : Multipolygon) (hfit : ∀ ring ∈ heldRings before, RingFits fuel ring)
    (hrun : ((Wagyu.new rev).calls fuel before).1.execute fuel op sf cf = (w', .ok result)) :
    ∀ p ∈ result.vertices, Provenance fuel (heldRings before) p := by
  obtain ⟨h0, hscan, hsne⟩ := start_box (V := Provenance fuel (heldRings before)) rfl hfit
  have hR := provenance_vrule (fuel := fuel) hfit
  have hX := fun y (hy : HeldRow (heldRings before) y) => provenance_xrule (fuel := fuel) hfit hy
  generalize ((Wagyu.new rev).calls fuel before).1 = w at h0 hscan hsne hrun
  have hN : ∀ y, HeldRow (heldRings before) y → ∀ {e : Edge}, HeldEdge fuel (heldRings before) e →
      HeldX fuel (heldRings before) y (e.getCurrentX y) := fun y _ e he => .inl ⟨e, he, rfl⟩
  unfold Wagyu.execute at hrun
  split at hrun
  · cases hrun; simp [Multipolygon.vertices]
  · next hne =>
    split at hrun
    · next a s e =>
      cases hrun
      have hall : Ok (runOperation w.minimums w.reverseOutput op sf cf) (St.init fuel w.minimums.bounds)
          fun mp _ => ∀ poly ∈ mp, ∀ lr ∈ poly, ∀ p ∈ lr, Provenance fuel (heldRings before) p := by
        unfold runOperation
        refine Post.bind ((bs_buildHotPixels hR hX hN h0 (fun m hm => hm) hscan hsne).imp fun _ s1 h1 => ?_)
        refine Post.bind ((bs_executeVatti hR hX hN h1 (fun m hm => hm) hscan hsne).imp fun _ s2 h2 => ?_)
        obtain ⟨n, h2⟩ := h2.heap
        refine Post.bind ((keep_correctTopology.run s2 h2).imp fun _ s3 h3 => ?_)
        exact (keep_buildResult.run s3 h3.1).imp fun mp s4 h4 => h4.2
      exact vertices_iff (hall.elim e)
    · cases hrun

/-- The rings of `twoTrianglesHistory` meet the hypothesis, and its intersection has vertices, among them `(3, 1)`, which is
not a corner: it lies on an edge, on the row of a corner. -/
example : (∀ ring ∈ heldRings twoTrianglesHistory, RingFits 60 ring)
    ∧ (((Wagyu.new false).calls 60 twoTrianglesHistory).1.execute 60 .intersection .evenOdd .evenOdd).2.toOption
      = some [[[⟨3, 1⟩, ⟨1, 3⟩, ⟨1, 1⟩, ⟨3, 1⟩]]]
    ∧ ¬ HeldCorner (heldRings twoTrianglesHistory) ⟨3, 1⟩
    ∧ ∃ e c, HeldEdge 60 (heldRings twoTrianglesHistory) e ∧ HeldCorner (heldRings twoTrianglesHistory) c ∧ (1 : Int) = c.y
      ∧ roundHalfUp (e.getCurrentX 1) = some 3 := by
  refine ⟨by unfold RingFits; decide +kernel, twoTrianglesHistory_result, by unfold HeldCorner; decide +kernel, Edge.mk' ⟨4, 0⟩ ⟨0, 4⟩, ⟨1, 1⟩, ?_⟩
  refine ⟨⟨[⟨0, 0⟩, ⟨4, 0⟩, ⟨0, 4⟩, ⟨0, 0⟩], by decide +kernel, ?_⟩, ⟨[⟨1, 1⟩, ⟨5, 1⟩, ⟨1, 5⟩, ⟨1, 1⟩], by decide +kernel, by decide +kernel⟩, rfl, by decide +kernel⟩
  refine ⟨_, rfl, Edge.mk' ⟨4, 0⟩ ⟨0, 4⟩, ?_, .inl rfl⟩
  decide +kernel

end Wagyu
