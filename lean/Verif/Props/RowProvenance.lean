import Verif.Props.SpanningProvenance
import Verif.Proofs.RowBoxHot

/-!
# C53: as long as no bound is left over, every vertex lies on the rings it comes from

No vertex mixes the row of one corner with the column of another: it is a corner, the rounded crossing of two edges, or the
rounded point on an edge that spans its row.  In particular it lies in the bounding box of an edge.
-/

namespace Wagyu

open Spec

/-- Where a vertex comes from. -/
inductive RowProvenance (fuel : Nat) (held : List LinearRing) (p : Point) : Prop
  /-- It is a corner of one of the rings, and an end of one of its edges. -/
  | corner (e : Edge) : HeldCorner held p → HeldEdge fuel held e → p = e.bottom ∨ p = e.top → RowProvenance fuel held p
  /-- It is the rounded crossing of two edges. -/
  | crossing (e f : Edge) (q : FPoint) : HeldEdge fuel held e → HeldEdge fuel held f → e.and f = some q → q.round = .ok p →
      RowProvenance fuel held p
  /-- It is the rounded point, on the row of a corner, of an edge that spans this row. -/
  | onEdge (e : Edge) (c : Point) : HeldEdge fuel held e → HeldCorner held c → p.y = c.y → e.top.y ≤ p.y → p.y ≤ e.bottom.y →
      roundHalfUp (e.getCurrentX p.y) = some p.x → RowProvenance fuel held p

/-- The current x of a bound on the row `y`: a point of an edge that spans the row, or an end, on the row, of an edge. -/
def RowX (fuel : Nat) (held : List LinearRing) (y : Int) (x : F64) : Prop :=
  (∃ e, HeldEdge fuel held e ∧ e.top.y ≤ y ∧ y ≤ e.bottom.y ∧ x = e.getCurrentX y)
    ∨ ∃ e a, HeldEdge fuel held e ∧ (a = e.bottom ∨ a = e.top) ∧ a.y = y ∧ (x = .ofInt a.x ∨ x = .floatOfInt a.x)

section
variable {fuel : Nat} {held : List LinearRing}

theorem row_vrule (hfit : ∀ ring ∈ held, RingFits fuel ring) :
    VRule (RowProvenance fuel held) (HeldEdge fuel held) (HeldRow held) where
  bot h := .corner _ (h.origin hfit).1 h (.inl rfl)
  top h := .corner _ (h.origin hfit).2.1 h (.inr rfl)
  row h := ⟨_, (h.origin hfit).2.1, rfl⟩
  meet h k h1 h2 := .crossing _ _ _ h k h1 h2

theorem row_rule (hfit : ∀ ring ∈ held, RingFits fuel ring) {y : Int} (hy : HeldRow held y) :
    RowRule (RowProvenance fuel held) (HeldEdge fuel held) (RowX fuel held y) y where
  start h hy := .inr ⟨_, _, h, .inl rfl, hy, .inl rfl⟩
  start' h hy := .inr ⟨_, _, h, .inl rfl, hy, .inr rfl⟩
  stop h hy := .inr ⟨_, _, h, .inr rfl, hy, .inl rfl⟩
  on h h1 h2 := .inl ⟨_, h, h1, h2, rfl⟩
  round := by
    refine ⟨nofun, nofun, nofun, ?_⟩
    intro x r hx hr
    obtain ⟨c, hc, hcy⟩ := hy
    rcases hx with ⟨e, he, h1, h2, rfl⟩ | ⟨e, a, he, ha, rfl, hx⟩
    · exact .onEdge e c he hc hcy.symm h1 h2 hr
    · have hca : HeldCorner held a := by
        rcases ha with rfl | rfl
        · exact (he.origin hfit).1
        · exact (he.origin hfit).2.1
      have hca' := hca
      obtain ⟨ring, hring, hmem⟩ := hca'
      have := round_int ((hfit ring hring).2 a hmem).1 hx hr
      subst this
      exact .corner e hca he ha

/-- The vertex lies in the bounding box of an edge. -/
theorem RowProvenance.box {p : Point} (hfit : ∀ ring ∈ held, RingFits fuel ring) (h : RowProvenance fuel held p) :
    ∃ e, HeldEdge fuel held e ∧ InBox e.box p := by
  have fits : ∀ {e}, HeldEdge fuel held e → e.Bounded 52 := by
    intro e he
    obtain ⟨⟨r, a1, a2⟩, ⟨r', b1, b2⟩, -⟩ := he.origin hfit
    exact ⟨((hfit r a1).2 _ a2).1, ((hfit r a1).2 _ a2).2, ((hfit r' b1).2 _ b2).1, ((hfit r' b1).2 _ b2).2⟩
  cases h with
  | corner e _ he h =>
    refine ⟨e, he, ?_⟩
    rcases h with rfl | rfl <;> simp [InBox, Edge.box]
  | crossing e f q he hf h1 h2 =>
    obtain ⟨r, h3, h4⟩ := C29_rounded_crossing_in_box e f q (fits he) h1
    rw [h2] at h3; cases h3
    exact ⟨e, he, h4⟩
  | onEdge e c he hc hy h1 h2 hr =>
    refine ⟨e, he, ?_⟩
    have hx : XOk ⟨min e.bottom.x e.top.x, max e.bottom.x e.top.x, 0, 0⟩ (e.getCurrentX p.y) := by
      rcases he.slope hfit with ⟨k, -⟩ | ⟨-, k⟩
      · have hy' : p.y = e.top.y := by omega
        unfold Edge.getCurrentX
        rw [if_pos hy', show F64.floatOfInt _ = .ofInt _ from fl_int (le_trans (fits he).2.2.1 (by norm_num))]
        exact XOk.ofInt ⟨min_le_right _ _, le_max_right _ _⟩
      · exact getCurrentX_between (fits he) k h1 h2
    have := hx.round hr
    simp only [Extent.X] at this
    simp only [InBox, Edge.box]
    omega

end

section
variable {fuel : Nat} {rev : Bool} {cs : List Call} {w w' : Wagyu} {op : OperationKind} {sf cf : FillKind} {s : St} {result : Multipolygon}

/-- Both sweeps of an operation. -/
theorem sweeps_row (hw : ((Wagyu.new rev).calls fuel cs).1 = w) (hfit : ∀ ring ∈ heldRings cs, RingFits fuel ring) {V : Point → Prop}
    (hR : VRule V (HeldEdge fuel (heldRings cs)) (HeldRow (heldRings cs))) {XR : Int → F64 → Prop}
    (hX : ∀ y, HeldRow (heldRings cs) y → RowRule V (HeldEdge fuel (heldRings cs)) (XR y) y) :
    Ok (sweeps w.minimums op sf cf) (St.init fuel w.minimums.bounds) fun _ s' => HV V s' ∨ Orphan (St.init fuel w.minimums.bounds) w.minimums.values [] s' := by
  obtain ⟨h0, hscan, hsne⟩ := start_box (V := V) hw hfit
  have hG := given_of hw hfit (within_of_fits hfit)
  have h0 : BSO V (HeldEdge fuel (heldRings cs)) (HeldRow (heldRings cs)) w.minimums.values (St.init fuel w.minimums.bounds) := by
    refine ⟨h0, fun m hm => ?_⟩
    obtain ⟨p, k1, k2, k3⟩ := hG.start m hm
    have key : ∀ b, b ∈ idsOf w.minimums.values → startOf (w.minimums.bounds b).edges = some p → OpenAt m.y (w.minimums.bounds b) := by
      intro b hb k
      refine ⟨hG.path b hb, fun e he => ?_⟩
      unfold startOf at k
      rw [he] at k
      cases k
      exact k3
    exact ⟨key _ (mem_idsOf_left hm) k1, key _ (mem_idsOf_right hm) k2⟩
  unfold sweeps
  refine Post.bind (Post.imp ((by_fairHot hG hR hX h0 hscan).and (Ok.intro (Q := fun _ s' => buildHotPixels w.minimums.values w.minimums.scanbeams (St.init fuel w.minimums.bounds) = .ok () s') fun _ _ e => e)) ?_)
  rintro _ s1 ⟨h1, hot⟩
  obtain ⟨hG, g1, g2, g3, g4, g5, g6, g7⟩ := fair_start (op := op) (sf := sf) (cf := cf) hw hfit hot
  have hb : BSO V (HeldEdge fuel (heldRings cs)) (HeldRow (heldRings cs)) w.minimums.values (vattiInitial w.minimums s1) := h1.start hscan
  unfold executeVatti
  refine Post.bind (Post.modify (Post.bind (Post.modify ?_)))
  refine Post.loopM (fun x s => Passes (vattiStep op sf cf) 0 (sortedMinimums w.minimums.values) (vattiInitial w.minimums s1) x.1 x.2 s) ?_ (fun _ _ _ => trivial) .start
  rintro ⟨y, l⟩ s hp
  refine Post.bind (Post.gets (Post.ite (fun hd => ?_) fun hne => ?_))
  · have := by_fairVatti hG (fun v => extent_abs) g1 g2 g3 hR hX g4 (.inr g5) g6 (sortedMinimums_order _) g7 hb hp
    dsimp only at this hd
    rw [hd.2] at this
    exact Post.pure (this.imp (fun h => h.heap) id)
  · exact Post.bind (Ok.intro fun r s' e => Post.pure (.next hp hne e))

/-- **C53.** After any history of calls (coordinates up to `2 ^ 52`), every vertex of a result is a corner of a held ring, the
rounded crossing of two of their edges, or the rounded point of an edge that spans its row, provided no active bound is left
over at the end of the sweep. -/
theorem C53_row_provenance (hw : ((Wagyu.new rev).calls fuel cs).1 = w) (hfit : ∀ ring ∈ heldRings cs, RingFits fuel ring)
    (hend : ∀ s, sweeps w.minimums op sf cf (St.init fuel w.minimums.bounds) = .ok () s → ∀ b, some b ∉ s.abl)
    (hrun : w.execute fuel op sf cf = (w', .ok result)) : ∀ p ∈ result.vertices, RowProvenance fuel (heldRings cs) p := by
  refine result_of_sweeps (fun _ s e => ?_) hrun
  refine ((sweeps_row hw hfit (row_vrule hfit) (fun y hy => row_rule hfit hy)).elim e).resolve_right ?_
  rintro ⟨b, m, -, -, -, -, -, h | h, -⟩
  · exact hend s e m (mem_act.1 h)
  · cases h

/-- **C53.** Unconditionally when no stored bound ends in a horizontal edge. -/
theorem C53_row_provenance_no_flat_tops (hw : ((Wagyu.new rev).calls fuel cs).1 = w) (hfit : ∀ ring ∈ heldRings cs, RingFits fuel ring)
    (hflat : NoFlatTops w.minimums) (hrun : w.execute fuel op sf cf = (w', .ok result)) :
    ∀ p ∈ result.vertices, RowProvenance fuel (heldRings cs) p := by
  refine result_of_sweeps (fun _ s e => ?_) hrun
  refine ((sweeps_row hw hfit (row_vrule hfit) (fun y hy => row_rule hfit hy)).elim e).resolve_right ?_
  have hm : MatesOk w.minimums := by rw [← hw]; exact calls_mates fuel cs (Wagyu.new rev) [] (fun _ => MatesOk.empty) hfit
  rintro ⟨b, m, hb, -, -, -, -, -, f, hf, hh⟩
  rw [(mates_of hm hflat fuel).steep b hb f hf] at hh
  cases hh

/-- **C53.** Every vertex of a result lies in the bounding box of an edge of a held ring, under the same proviso. -/
theorem C53_in_edge_box (hw : ((Wagyu.new rev).calls fuel cs).1 = w) (hfit : ∀ ring ∈ heldRings cs, RingFits fuel ring)
    (hend : ∀ s, sweeps w.minimums op sf cf (St.init fuel w.minimums.bounds) = .ok () s → ∀ b, some b ∉ s.abl)
    (hrun : w.execute fuel op sf cf = (w', .ok result)) :
    ∀ p ∈ result.vertices, ∃ e, HeldEdge fuel (heldRings cs) e ∧ InBox e.box p :=
  fun p hp => (C53_row_provenance hw hfit hend hrun p hp).box hfit

end

/-- `twoTrianglesHistory` meets the hypotheses of `C53_row_provenance`; the first vertex of its intersection is the point of an
edge on the row of a corner, and the third one a corner. -/
example : (∀ ring ∈ heldRings twoTrianglesHistory, RingFits 60 ring) ∧ leftOver twoTrianglesHistory .intersection .evenOdd .evenOdd = some 0
    ∧ (((Wagyu.new false).calls 60 twoTrianglesHistory).1.execute 60 .intersection .evenOdd .evenOdd).2.toOption
      = some [[[⟨3, 1⟩, ⟨1, 3⟩, ⟨1, 1⟩, ⟨3, 1⟩]]]
    ∧ RowProvenance 60 (heldRings twoTrianglesHistory) ⟨3, 1⟩ ∧ RowProvenance 60 (heldRings twoTrianglesHistory) ⟨1, 1⟩ := by
  have c1 : HeldCorner (heldRings twoTrianglesHistory) ⟨1, 1⟩ := ⟨[⟨1, 1⟩, ⟨5, 1⟩, ⟨1, 5⟩, ⟨1, 1⟩], by decide +kernel, by decide +kernel⟩
  refine ⟨by unfold RingFits; decide +kernel, by decide +kernel, twoTrianglesHistory_result,
    .onEdge (Edge.mk' ⟨4, 0⟩ ⟨0, 4⟩) ⟨1, 1⟩ ?_ c1 rfl ?_ ?_ ?_, .corner (Edge.mk' ⟨1, 1⟩ ⟨5, 1⟩) c1 ?_ ?_⟩
  · exact ⟨[⟨0, 0⟩, ⟨4, 0⟩, ⟨0, 4⟩, ⟨0, 0⟩], by decide +kernel, _, rfl, Edge.mk' ⟨4, 0⟩ ⟨0, 4⟩, by decide +kernel, .inl rfl⟩
  · decide +kernel
  · decide +kernel
  · decide +kernel
  · exact ⟨[⟨1, 1⟩, ⟨5, 1⟩, ⟨1, 5⟩, ⟨1, 1⟩], by decide +kernel, _, rfl, Edge.mk' ⟨1, 1⟩ ⟨5, 1⟩, by decide +kernel, .inl rfl⟩
  · decide +kernel

end Wagyu
